import Verif.Model.Image
import Verif.Model.DrawImage

/-!
Model of the attribute `wcs` of an image: `/repo/jax_galsim/image.py` where the pixels or their coordinates change.

Coordinates are python integers ("static"), the wcs is uniform.
-/

namespace JG

/-- An image with its wcs. -/
structure WImg where
  im : Image
  wcs : Option WCS

/-- Exceptions: those of `Image` and `GalSimError`. -/
inductive WErr
  | im (e : ImErr)
  | galsim
  deriving DecidableEq

/-- `_isLocal`: true on the local classes (wcs.py:600-617). -/
def WCS.localFlag : WCS → Bool
  | .loc _ => true
  | .off .. => false

/-- `_shift`: image.py:1025-1028. -/
noncomputable def WImg.shiftBy (I : WImg) (d : Pos ℤ) : WImg :=
  ⟨I.im.shiftBy d true, I.wcs.map fun w => w.shiftOrigin w.localFlag ((d.x : ℝ), (d.y : ℝ)) none⟩

/-- `setCenter`: image.py:1030-1033. -/
noncomputable def WImg.setCenter (I : WImg) (p : Pos ℤ) : WImg × Option WErr :=
  match I.im.bounds.centerI with
  | none => (I, some (.im .undefinedBounds))
  | some c => (I.shiftBy ⟨p.x - c.x, p.y - c.y⟩, none)

/-- `setOrigin`: image.py:1035-1038. -/
noncomputable def WImg.setOrigin (I : WImg) (p : Pos ℤ) : WImg :=
  I.shiftBy ⟨p.x - I.im.bounds.xmin, p.y - I.im.bounds.ymin⟩

/-- `im.scale`: image.py:408-421. -/
def WImg.scale (I : WImg) : Except WErr (Option ℝ) :=
  match imageScale I.wcs with
  | .ok s => .ok s
  | .error _ => .error .galsim

/-- `im.scale = v`: image.py:423-429. -/
def WImg.setScale (I : WImg) (v : ℝ) : WImg × Option WErr :=
  match I.wcs with
  | some w => if !isPixelScale w then (I, some .galsim) else (⟨I.im, some (.loc (.pix v))⟩, none)
  | none => (⟨I.im, some (.loc (.pix v))⟩, none)

/-- `resize(bounds, wcs)`: image.py:568-577. -/
noncomputable def WImg.resize (I : WImg) (b : Bounds ℤ) (w : Option WCS) : WImg × Option WErr :=
  match I.im.step (.resize b) with
  | (_, some e) => (I, some (.im e))
  | (im', none) => (⟨im', match w with | some w => some w | none => I.wcs⟩, none)

/-- `subImage(bounds)`, `im[bounds]`: image.py:580-614. -/
def WImg.subImage (I : WImg) (b : Bounds ℤ) : Except WErr WImg :=
  match I.im.subImage b with
  | .error e => .error (.im e)
  | .ok s => .ok ⟨s, I.wcs⟩

/-- The wcs of a copy: image.py:507-517. -/
def copyWcs (old : Option WCS) (scale : Option ℝ) (wcs : Option WCS) : Except WErr (Option WCS) :=
  match scale, wcs with
  | some _, some _ => .error (.im .incompatible)
  | some s, none => .ok (some (.loc (.pix s)))
  | none, some w => .ok (some w)
  | none, none => .ok old

/-- `copy(scale, wcs, origin, center)`: image.py:492-548, for a defined image. -/
noncomputable def WImg.copy (I : WImg) (scale : Option ℝ) (wcs : Option WCS) (origin center : Option (Pos ℤ)) :
    Except WErr WImg :=
  if origin.isSome && center.isSome then .error (.im .incompatible)
  else match copyWcs I.wcs scale wcs with
    | .error e => .error e
    | .ok w => match I.im.copy false with
      | .error e => .error (.im e)
      | .ok s => match origin, center with
        | some o, _ => .ok ((⟨s, w⟩ : WImg).setOrigin o)
        | none, some c => match (⟨s, w⟩ : WImg).setCenter c with
          | (J, none) => .ok J
          | (_, some e) => .error e
        | none, none => .ok ⟨s, w⟩

/-- Statements of a program on the variable `im`. -/
inductive WOp
  | shift (d : Pos ℤ)
  | setCenter (p : Pos ℤ)
  | setOrigin (p : Pos ℤ)
  | sub (b : Bounds ℤ)                                   -- `im = im[b]`
  | copy (origin center : Option (Pos ℤ))                -- `im = im.copy(origin=, center=)`

/-- One statement; an exception leaves the variable. -/
noncomputable def WImg.step (I : WImg) : WOp → WImg × Option WErr
  | .shift d => (I.shiftBy d, none)
  | .setCenter p => I.setCenter p
  | .setOrigin p => (I.setOrigin p, none)
  | .sub b => match I.subImage b with
    | .ok J => (J, none)
    | .error e => (I, some e)
  | .copy o c => match I.copy none none o c with
    | .ok J => (J, none)
    | .error e => (I, some e)

/-- A program; exceptions are caught. -/
noncomputable def WImg.run (I : WImg) (ops : List WOp) : WImg := ops.foldl (fun s o => (s.step o).1) I

end JG
