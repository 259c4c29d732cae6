import Verif.Model.Image
import Mathlib.Analysis.SpecialFunctions.Log.Basic
import Mathlib.Analysis.Real.Pi.Bounds

/-!
Model of the placement logic of `GSObject.drawImage` (`/repo/jax_galsim/gsobject.py:344-531, 587-820`)
and of the FFT grid selection (`gsobject.py:852-971`, `image.py:958-974`).
-/

namespace JG

/-- The arguments of `drawImage` that influence where the object is drawn (gsobject.py:587-617).
`image` is the bounds of the given image; `goodN` is `prof.getGoodImageSize(1.0)`. -/
structure PlaceArgs where
  image : Option (Bounds ℤ)
  nx : Option ℤ
  ny : Option ℤ
  bounds : Option (Bounds ℤ)
  center : Option (Pos ℝ)
  offset : Pos ℝ
  useTrue : Bool
  addTo : Bool
  goodN : ℤ

/-- `BoundsI(xmin=1, deltax=nx, ymin=1, deltay=ny)` with python sizes. -/
def boundsFrom1 (nx ny : ℤ) : Bounds ℤ := Bounds.mkDelta clsI ⟨1, true⟩ ⟨nx, true⟩ ⟨1, true⟩ ⟨ny, true⟩

/-- Shift by `floor(center + 0.5 - true_center)`: gsobject.py:418-427 and 489-500 (the same code twice).
`none`: `true_center` of undefined bounds raises. -/
noncomputable def shiftToCenter (b : Bounds ℤ) (c : Pos ℝ) : Option (Bounds ℤ) :=
  (b.trueCenterI).map fun t => b.shift clsI ⟨⌊c.x + 1 / 2 - t.x⌋, ⌊c.y + 1 / 2 - t.y⌋⟩ false

/-- `_get_new_bounds`: gsobject.py:484-505.  Outer `none` is an exception. -/
noncomputable def getNewBounds (a : PlaceArgs) : Option (Bounds ℤ) :=
  match a.image with
  | some b => if b.defined then some b else rest
  | none => rest
where
  rest := match a.nx, a.ny with
    | some nx, some ny => match a.center with
      | some c => shiftToCenter (boundsFrom1 nx ny) c
      | none => some (boundsFrom1 nx ny)
    | _, _ => match a.bounds with
      | some b => if b.defined then some b else some (Bounds.empty clsI)
      | none => some (Bounds.empty clsI)

/-- `_adjust_offset`: gsobject.py:507-531. -/
noncomputable def adjustOffset (nb : Bounds ℤ) (a : PlaceArgs) : Pos ℝ :=
  match a.center with
  | some c => match nb.centerI with
    | some bc => ⟨a.offset.x + (c.x - bc.x), a.offset.y + (c.y - bc.y)⟩
    | none => ⟨a.offset.x + (c.x - ⌈c.x⌉), a.offset.y + (c.y - ⌈c.y⌉)⟩
  | none =>
    if a.useTrue then
      ⟨a.offset.x - 1 / 2 * (((nb.numpyShape.2 + 1) % 2 : ℤ) : ℝ),
       a.offset.y - 1 / 2 * (((nb.numpyShape.1 + 1) % 2 : ℤ) : ℝ)⟩
    else a.offset

/-- `image.setCenter(c)` on the bounds: image.py:1030-1033. -/
def setCenterB (b : Bounds ℤ) (c : Pos ℤ) : Option (Bounds ℤ) :=
  (b.centerI).map fun o => b.shift clsI ⟨c.x - o.x, c.y - o.y⟩ false

/-- Bounds of the image returned by `_setup_image` (`odd=False`, no `dtype` given): gsobject.py:344-435.
`none` is an exception. -/
noncomputable def setupImage (a : PlaceArgs) : Option (Bounds ℤ) :=
  match a.image with
  | some b =>
    if a.bounds.isSome || a.nx.isSome || a.ny.isSome then none
    else if b.defined then some b
    else if a.addTo then none
    else some (boundsFrom1 a.goodN a.goodN)
  | none =>
    if a.addTo then none
    else match a.bounds with
      | some b => if a.nx.isSome || a.ny.isSome then none else if b.defined then some b else none
      | none => match a.nx, a.ny with
        | some nx, some ny => match a.center with
          | some c => shiftToCenter (boundsFrom1 nx ny) c
          | none => some (boundsFrom1 nx ny)
        | none, none => match a.center with
          | some c => setCenterB (boundsFrom1 a.goodN a.goodN) ⟨⌈c.x⌉, ⌈c.y⌉⟩
          | none => some (boundsFrom1 a.goodN a.goodN)
        | _, _ => none

/-- What `drawImage` has produced: the bounds of the returned image, and for each array index (column, row) the
argument at which the unshifted image-coordinate profile is sampled: gsobject.py:733-792.  The image is recentred at
`(0,0)`, the profile is shifted by the adjusted offset, pixel `(i,j)` is sampled at its own coordinates, and the image
is shifted back. -/
noncomputable def drawPlaced (a : PlaceArgs) : Option (Bounds ℤ × (ℕ → ℕ → ℝ × ℝ)) := do
  let nb ← getNewBounds a
  let off := adjustOffset nb a
  let b ← setupImage a
  let oc ← b.centerI
  let b0 ← setCenterB b ⟨0, 0⟩
  let sample := fun i j : ℕ => (((b0.xmin + i : ℤ) : ℝ) - off.x, ((b0.ymin + j : ℤ) : ℝ) - off.y)
  some (b0.shift clsI oc false, sample)

/-- `obj_cen` before the offset is added: gsobject.py:455-461. -/
noncomputable def objCen (a : PlaceArgs) (bounds : Bounds ℤ) : Option (Pos ℝ) :=
  match a.center with
  | some c => some c
  | none => if a.useTrue then bounds.trueCenterI else (bounds.centerI).map fun c => ⟨c.x, c.y⟩

/-- Position used in `_local_wcs` for a non-uniform wcs: gsobject.py:437-463.  `none` is an exception. -/
noncomputable def localWcsPos (a : PlaceArgs) : Option (Pos ℝ) :=
  (getNewBounds a).bind fun nb =>
    let bounds := match a.image with
      | none => nb
      | some b => b
    if !bounds.defined then none
    else (objCen a bounds).map fun oc => ⟨oc.x + a.offset.x, oc.y + a.offset.y⟩

/-! ### FFT sizes -/

/-- `getGoodImageSize`: gsobject.py:852-862. -/
noncomputable def goodImageSize (stepk pixelScale : ℝ) : ℤ :=
  let Nd := 2 * Real.pi / (pixelScale * stepk)
  let N := ⌈Nd * (1 - 1 / 10 ^ 12)⌉
  2 * ((N + 1) / 2)

/-- `Image.good_fft_size`: image.py:958-974; `none` is the `math domain error` of the logarithm. -/
noncomputable def goodFftSize (n : ℤ) : Option ℤ :=
  let insize : ℝ := (1 - 1 / 10 ^ 5) * n
  if insize ≤ 0 then none
  else
    let log2n := Real.log 2 * ⌈Real.log insize / Real.log 2⌉
    let log2n3 := Real.log 3 + Real.log 2 * ⌈(Real.log insize - Real.log 3) / Real.log 2⌉
    let log2n3 := max log2n3 (Real.log 6)
    some (max ⌈Real.exp (min log2n log2n3) - 1 / 10 ^ 5⌉ 2)

/-- `image_N` of `drawFFT_makeKImage`: gsobject.py:880-894. -/
def imageN (b : Bounds ℤ) : ℤ :=
  max (max (max |b.xmin| |b.xmax clsI|) (max |b.ymin| |b.ymax clsI|) * 2) (max b.numpyShape.1 b.numpyShape.2)

/-- Sizes chosen by `drawFFT_makeKImage`: gsobject.py:865-918.  `(N, Nk, dk)`; `none` is an exception. -/
noncomputable def makeKSizes (minSize maxSize : ℤ) (stepk maxk scale : ℝ) (b : Bounds ℤ) : Option (ℤ × ℤ × ℝ) :=
  if maxSize = minSize then some (maxSize, maxSize, 2 * Real.pi / (maxSize * scale))
  else do
    let N ← goodFftSize (max (goodImageSize stepk scale) (imageN b))
    let N := max N minSize
    let dk := 2 * Real.pi / (N * scale)
    let Nk := if N * dk / 2 > maxk then N else ⌈maxk / dk⌉ * 2
    if Nk > maxSize then none else some (N, Nk, dk)

/-- `bounds` of the k image: gsobject.py:915-917 (python `//` is floor division). -/
def kBounds (Nk : ℤ) : Bounds ℤ :=
  Bounds.mkDelta clsI ⟨0, true⟩ ⟨Nk / 2 + 1, true⟩ ⟨(-Nk) / 2, true⟩ ⟨2 * (Nk / 2) + 1, true⟩

/-- `breal` of `drawFFT_finish`: gsobject.py:943-948. -/
def realBounds (N : ℤ) : Bounds ℤ :=
  Bounds.mkDelta clsI ⟨(-N) / 2, true⟩ ⟨2 * (N / 2), true⟩ ⟨(-N) / 2, true⟩ ⟨2 * (N / 2), true⟩

end JG
