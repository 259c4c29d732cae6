import Verif.Model.Sky
import Verif.Model.AngleOps

/-!
The public interface of the coordinate systems, `BaseWCS` and its two branches, in `/repo/jax_galsim/wcs.py`: how the arguments of
`toWorld`, `toImage`, `local`, `jacobian`, `affine` and `shiftOrigin` are told apart, checked and passed on.  Numbers are exact and
scalar; `project_center` of `posToWorld` is left out.  Python calls are functions of their positional arguments (a list) and of the
keywords given (`Kw`); exceptions are values.
-/

namespace JG.WApi

open JG

/-- The exceptions of the interface: `TypeError`, `GalSimIncompatibleValuesError`, `GalSimValueError` or `ValueError`, and
`NotImplementedError`; `inner` for what the conversion of a profile or shear raises. -/
inductive Err
  | type
  | both
  | value
  | notImpl
  | inner
deriving DecidableEq

/-- A Python argument, by the classes the interface tells apart. -/
inductive Arg
  | prof (p : Prof)
  | shear (s : Shear)
  | pos (p : ℝ × ℝ)
  | coord (p : ℝ × ℝ)
  | num (x : ℝ)
  | text (s : List Char)
  | unit (u : AngleUnit)
  | other

/-- What a call returns. -/
inductive Out
  | prof (p : Prof)
  | shear (s : Shear)
  | pos (p : ℝ × ℝ)
  | coord (p : ℝ × ℝ)
  | pair (p : ℝ × ℝ)

/-- The keywords of a call; `none` is a keyword not given. -/
structure Kw (C : Type) where
  image : Option Arg := none
  world : Option Arg := none
  color : Option C := none
  units : Option Arg := none
  flux : Option ℝ := none
  offset : Option (ℝ × ℝ) := none

/-- A coordinate system as its class defines it: `_u` and `_v` or `_radec` (`fwd`, of a colour), `_x` and `_y` or `_xy` (`bwd`,
`none` if the class raises `NotImplementedError`), its origins, `_local` (the same everywhere for a `UniformWCS`, wcs.py:582-583,
649-650; otherwise a `JacobianWCS` at a position, wcs.py:492-514, 725-751) and `_color`. -/
structure Sys (C : Type) where
  celestial : Bool
  fwd : Option C → ℝ → ℝ → ℝ × ℝ
  bwd : Option (Option C → ℝ → ℝ → ℝ × ℝ)
  origin : ℝ × ℝ
  world : ℝ × ℝ
  locs : LocalWCS ⊕ (Option C → ℝ × ℝ → Mat2)
  color : Option C

variable {C : Type}

namespace Sys

/-- `if color is None: color = self._color`: wcs.py:66-67, 98-99, and in every other method. -/
def col (w : Sys C) (c : Option C) : Option C :=
  match c with
  | none => w.color
  | some c => some c

/-- `_posToWorld`: wcs.py:401-404, 631-634, 794-800.  A celestial system has no world origin. -/
def fwdAt (w : Sys C) (c : Option C) (p : ℝ × ℝ) : ℝ × ℝ :=
  let r := w.fwd c (p.1 - w.origin.1) (p.2 - w.origin.2)
  if w.celestial then r else (r.1 + w.world.1, r.2 + w.world.2)

/-- `_posToImage`: wcs.py:417-420, 640-643, 814-818. -/
def bwdAt (w : Sys C) (c : Option C) (q : ℝ × ℝ) : Except Err (ℝ × ℝ) :=
  match w.bwd with
  | none => .error .notImpl
  | some b =>
    let r := if w.celestial then b c q.1 q.2 else b c (q.1 - w.world.1) (q.2 - w.world.2)
    .ok (r.1 + w.origin.1, r.2 + w.origin.2)

/-- `posToWorld(image_pos, color)`: wcs.py:65-70. -/
def posToWorld (w : Sys C) (a : Arg) (c : Option C) : Except Err Out :=
  let c := w.col c
  match a with
  | .pos p => .ok (if w.celestial then .coord (w.fwdAt c p) else .pos (w.fwdAt c p))
  | _ => .error .type

/-- `posToImage(world_pos, color)`: wcs.py:112-119. -/
def posToImage (w : Sys C) (a : Arg) (c : Option C) : Except Err (ℝ × ℝ) :=
  let c := w.col c
  match w.celestial, a with
  | true, .coord q => w.bwdAt c q
  | false, .pos q => w.bwdAt c q
  | _, _ => .error .type

/-- `_local(image_pos, color)`: wcs.py:492-494, 582-583, 649-650, 725-727. -/
def locAt (w : Sys C) (p : Option (ℝ × ℝ)) (c : Option C) : Except Err LocalWCS :=
  match w.locs, p with
  | .inl l, _ => .ok l
  | .inr _, none => .error .type
  | .inr f, some p => .ok (.jac (f c p))

/-- `local(image_pos, world_pos, color)`: wcs.py:144-157. -/
def localW (w : Sys C) (image world : Option Arg) (c : Option C) : Except Err LocalWCS :=
  let c := w.col c
  match world with
  | some q =>
    match image with
    | some _ => .error .both
    | none => (w.posToImage q c).bind fun p => w.locAt (some p) c
  | none =>
    match image with
    | some (.pos p) => w.locAt (some p) c
    | some _ => .error .type
    | none => w.locAt none c

/-- `jacobian(image_pos, world_pos, color)`: wcs.py:160-163. -/
noncomputable def jacobian (w : Sys C) (image world : Option Arg) (c : Option C) : Except Err Mat2 :=
  (w.localW image world (w.col c)).map LocalWCS.toJac

/-- `units` of `xyToradec` and `radecToxy`, as the number of radians: wcs.py:678-687, 694-701. -/
noncomputable def units : Option Arg → Except Err ℝ
  | none => .error .type
  | some (.text s) => match AngOp.unitFromName s with
    | none => .error .value
    | some u => .ok u.value
  | some (.unit u) => .ok u.value
  | some _ => .error .value

/-- `xyTouv(x, y, color)` and `xyToradec(x, y, units, color)`: wcs.py:389-392, 406-413, 636-637, 675-688, 805-811.  Arguments that are
not numbers fail at the subtraction of the origin. -/
noncomputable def xyToWorld (w : Sys C) (a b : Arg) (us : Option Arg) (c : Option C) : Except Err Out :=
  let c := w.col c
  if w.celestial then
    (units us).bind fun u =>
      match a, b with
      | .num x, .num y =>
        let r := w.fwd c (x - w.origin.1) (y - w.origin.2)
        .ok (.pair (r.1 * (1 / u), r.2 * (1 / u)))
      | _, _ => .error .type
  else
    match a, b with
    | .num x, .num y =>
      let r := w.fwd c (x - w.origin.1) (y - w.origin.2)
      .ok (.pair (r.1 + w.world.1, r.2 + w.world.2))
    | _, _ => .error .type

/-- `uvToxy(u, v, color)` and `radecToxy(ra, dec, units, color)`: wcs.py:395-398, 422-429, 645-646, 691-702, 820-826.  Arguments that
are not numbers fail in the arithmetic. -/
noncomputable def worldToxy (w : Sys C) (a b : Arg) (us : Option Arg) (c : Option C) : Except Err Out :=
  let c := w.col c
  if w.celestial then
    (units us).bind fun u =>
      match a, b with
      | .num x, .num y =>
        match w.bwd with
        | none => .error .notImpl
        | some f =>
          let r := f c (x * (u / 1)) (y * (u / 1))
          .ok (.pair (r.1 + w.origin.1, r.2 + w.origin.2))
      | _, _ => .error .type
  else
    match a, b with
    | .num x, .num y =>
      match w.bwd with
      | none => .error .notImpl
      | some f =>
        let r := f c (x - w.world.1) (y - w.world.2)
        .ok (.pair (r.1 + w.origin.1, r.2 + w.origin.2))
    | _, _ => .error .type

/-- The result of a conversion of a profile or shear, which may itself fail. -/
def inner {α : Type} (f : α → Out) : Option α → Except Err Out
  | none => .error .inner
  | some a => .ok (f a)

/-- `toWorld(*args, **kwargs)`: wcs.py:48-62, with `profileToWorld` (73-86) and `shearToWorld` (89-92).  A keyword that the method
called does not have is a `TypeError`. -/
noncomputable def toWorld (w : Sys C) (args : List Arg) (k : Kw C) : Except Err Out :=
  match args with
  | [.prof p] =>
    if k.units.isSome then .error .type
    else (w.localW k.image k.world (w.col k.color)).bind fun l => inner .prof (l.profileToWorld p (k.flux.getD 1) (k.offset.getD (0, 0)))
  | [.shear s] =>
    if k.units.isSome || k.flux.isSome || k.offset.isSome then .error .type
    else (w.localW k.image k.world (w.col k.color)).bind fun l => inner .shear (l.shearToWorld s)
  | [a] =>
    if k.image.isSome || k.world.isSome || k.units.isSome || k.flux.isSome || k.offset.isSome then .error .type
    else w.posToWorld a k.color
  | [a, b] =>
    if k.image.isSome || k.world.isSome || k.flux.isSome || k.offset.isSome || (!w.celestial && k.units.isSome) then .error .type
    else w.xyToWorld a b k.units k.color
  | _ => .error .type

/-- `toImage(*args, **kwargs)`: wcs.py:95-109, with `profileToImage` (122-135) and `shearToImage` (138-141). -/
noncomputable def toImage (w : Sys C) (args : List Arg) (k : Kw C) : Except Err Out :=
  match args with
  | [.prof p] =>
    if k.units.isSome then .error .type
    else (w.localW k.image k.world (w.col k.color)).bind fun l => inner .prof (l.profileToImage p (k.flux.getD 1) (k.offset.getD (0, 0)))
  | [.shear s] =>
    if k.units.isSome || k.flux.isSome || k.offset.isSome then .error .type
    else (w.localW k.image k.world (w.col k.color)).bind fun l => inner .shear (l.shearToImage s)
  | [a] =>
    if k.image.isSome || k.world.isSome || k.units.isSome || k.flux.isSome || k.offset.isSome then .error .type
    else (w.posToImage a k.color).map .pos
  | [a, b] =>
    if k.image.isSome || k.world.isSome || k.flux.isSome || k.offset.isSome || (!w.celestial && k.units.isSome) then .error .type
    else w.worldToxy a b k.units k.color
  | _ => .error .type

/-- The position in an argument, as `image_pos.x` and `.y` need it. -/
def asPos : Out → Except Err (ℝ × ℝ)
  | .pos p => .ok p
  | _ => .error .type

/-- `image_pos` as `affine` settles it: wcs.py:171-175. -/
noncomputable def affineImage (w : Sys C) (image world : Option Arg) (c : Option C) : Except Err (ℝ × ℝ) :=
  match world with
  | some q => (w.toImage [q] { color := c }).bind asPos
  | none => match image with
    | some (.pos p) => .ok p
    | some _ => .error .type
    | none => .ok (0, 0)

/-- `world_pos` as `affine` settles it for a euclidean system: wcs.py:180-181. -/
noncomputable def affineWorld (w : Sys C) (p : ℝ × ℝ) (world : Option Arg) (c : Option C) : Except Err (ℝ × ℝ) :=
  match world with
  | some (.pos q) => .ok q
  | some _ => .error .type
  | none => (w.toWorld [.pos p] { color := c }).bind asPos

/-- `affine(image_pos, world_pos, color)`: wcs.py:166-182; `isLocal` is the attribute `_isLocal` of the `JacobianWCS`. -/
noncomputable def affine (isLocal : Bool) (w : Sys C) (image world : Option Arg) (c : Option C) : Except Err WCS :=
  let c := w.col c
  (w.jacobian image world c).bind fun J =>
    (w.affineImage image world c).bind fun p =>
      if w.celestial then .ok ((WCS.loc (.jac J)).shiftOrigin isLocal p none)
      else (w.affineWorld p world c).map fun q => (WCS.loc (.jac J)).shiftOrigin isLocal p (some q)

/-- `shiftOrigin(origin, world_origin, color)` of a celestial system whose `_newOrigin` sets the origin: wcs.py:185-190, 705-719. -/
def shiftOriginCel (w : Sys C) (o : Arg) (wo : Option Arg) : Except Err (Sys C) :=
  match o with
  | .pos p => if wo.isSome then .error .type else .ok { w with origin := p + w.origin }
  | _ => .error .type

/-- `shiftOrigin(origin, world_origin, color)` of a euclidean system that is not local, whose `_newOrigin` sets the origins:
wcs.py:185-190, 434-488. -/
def shiftOriginEuc (w : Sys C) (o : Arg) (wo : Option Arg) (c : Option C) : Except Err (Sys C) :=
  let c := w.col c
  match o, wo with
  | .pos p, none => .ok { w with origin := p + w.origin }
  | .pos p, some (.pos q) => .ok { w with origin := p, world := q + (w.world - w.fwdAt c w.origin) }
  | .pos _, some _ => .error .type
  | _, _ => .error .type

end Sys

end JG.WApi
