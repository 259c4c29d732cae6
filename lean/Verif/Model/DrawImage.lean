import Verif.Model.Place
import Verif.Model.WCS
import Verif.Model.Fft
import Verif.Model.Elementary

/-!
Model of `GSObject.drawImage` as a whole (`/repo/jax_galsim/gsobject.py:574-842, 974-982`), of `_determine_wcs`
(533-571) and of `drawKImage` (985-1088), including what happens to the image object passed in.

Images hold floating point pixels (exact reals here; rounding on integer images is in `Model/Profile.lean`), the wcs is
uniform, `dtype` is not given.  The image passed in is the same python object as the image returned, so every function
returns its state together with the result.
-/

namespace JG

/-- The values of `method`: gsobject.py:641-646; `other` is any other string. -/
inductive Method
  | auto | fft | realSpace | phot | noPixel | sb | other
deriving DecidableEq

/-- How `drawImage` can end without an image.  `notFinite` is not an exception: the code goes on with infinities or NaN,
which are outside the model.  `unmodelled`: an FFT of odd size (possible only with odd size limits in the gsparams). -/
inductive DrawErr
  | runtime         -- `equinox.error_if`
  | incompatible    -- `GalSimIncompatibleValuesError`
  | value           -- `GalSimValueError`
  | notImplemented  -- `NotImplementedError`
  | fftSize         -- `GalSimFFTSizeError`
  | bounds          -- `GalSimUndefinedBoundsError` / `GalSimBoundsError`
  | typeError       -- `TypeError` / `GalSimError`
  | zeroDivision    -- `ZeroDivisionError`
  | notFinite
  | unmodelled
deriving DecidableEq

/-- The attributes `_bounds`, `wcs`, `_array` (row, column) and `added_flux` of an image of floats. -/
structure DrawImg where
  bounds : Bounds ℤ
  wcs : Option WCS
  arr : ℕ → ℕ → ℝ
  addedFlux : Option ℝ

/-- The arguments of `drawImage`: gsobject.py:587-617.  `offset` is `(0, 0)` if not given (465-472); the photon shooting
arguments are only recorded as given (`is not None`, for `savePhotons` and `photonOps` as true) or not. -/
structure DrawArgs where
  image : Option DrawImg := none
  nx : Option ℤ := none
  ny : Option ℤ := none
  bounds : Option (Bounds ℤ) := none
  scale : Option ℝ := none
  wcs : Option WCS := none
  method : Method := .auto
  area : ℝ := 1
  exptime : ℝ := 1
  gain : ℝ := 1
  addTo : Bool := false
  center : Option (Pos ℝ) := none
  offset : Pos ℝ := ⟨0, 0⟩
  useTrue : Bool := true
  nPhotons : Bool := false
  rng : Bool := false
  maxExtraNoise : Bool := false
  poissonFlux : Bool := false
  sensor : Bool := false
  photonOps : Bool := false
  maxN : Bool := false
  savePhotons : Bool := false
  setupOnly : Bool := false

/-- The part of the arguments read by the functions of `Model/Place.lean`. -/
def DrawArgs.place (a : DrawArgs) (goodN : ℤ) : PlaceArgs :=
  ⟨a.image.map (·.bounds), a.nx, a.ny, a.bounds, a.center, a.offset, a.useTrue, a.addTo, goodN⟩

/-- The checks made before anything else: gsobject.py:628-706 (the warning about a `Pixel` is omitted). -/
noncomputable def DrawArgs.check (a : DrawArgs) : Option DrawErr :=
  if a.gain ≤ 0 then some .runtime
  else if a.area ≤ 0 then some .runtime
  else if a.exptime ≤ 0 then some .runtime
  else if a.method = .phot ∧ a.savePhotons ∧ a.maxN then some .incompatible
  else if a.method = .other then some .value
  else if a.method ≠ .phot ∧ a.nPhotons then some .incompatible
  else if a.method ≠ .phot ∧ a.maxExtraNoise then some .incompatible
  else if a.method ≠ .phot ∧ a.poissonFlux then some .incompatible
  else if a.method ≠ .phot ∧ !a.sensor ∧ a.rng then some .incompatible
  else if a.method ≠ .phot ∧ !a.sensor ∧ a.maxN then some .incompatible
  else if a.method ≠ .phot ∧ !a.sensor ∧ a.savePhotons then some .incompatible
  else none

/-- A local `PixelScale` of scale `≤ 0` becomes the Nyquist scale: gsobject.py:560-569. -/
noncomputable def positiveScale (nyquist : ℝ) : WCS → WCS
  | .loc (.pix c) => if c ≤ 0 then .loc (.pix nyquist) else .loc (.pix c)
  | w => w

/-- `_determine_wcs` without `default_wcs`: gsobject.py:533-571; `imgWcs` is `image.wcs` of a given image. -/
noncomputable def determineWcs (nyquist : ℝ) (scale : Option ℝ) (wcs : Option WCS) (imgWcs : Option WCS) :
    Except DrawErr WCS :=
  match wcs with
  | some w => if scale.isSome then .error .incompatible else .ok (positiveScale nyquist w)
  | none =>
    match scale with
    | some s => .ok (positiveScale nyquist (.loc (.pix s)))
    | none =>
      match imgWcs with
      | some w => .ok (positiveScale nyquist w)
      | none => .ok (positiveScale nyquist (.loc (.pix nyquist)))

/-- `image.wcs = None` if a wcs or a scale is given: gsobject.py:544-549. -/
def clearWcs (scale : Option ℝ) (wcs : Option WCS) (im : DrawImg) : DrawImg :=
  if wcs.isSome || scale.isSome then { im with wcs := none } else im

/-- The accuracy parameters read while drawing. -/
structure DrawGS where
  gs : GSP
  minFFT : ℤ
  maxFFT : ℤ

/-- The convolution with the pixel: gsobject.py:743-757; `none`: `NotImplementedError` of `Convolution.__init__`. -/
noncomputable def convolvePixel (g : DrawGS) (m : Method) (p : Prof) : Option Prof :=
  let pix : Prof := .leaf (Elt.Elem.leaf (.box (Elt.Box.pixel 1 1 g.gs)))
  let rs : Option (Option Bool) := match m with
    | .auto => some none
    | .fft => some (some false)
    | .realSpace => some (some true)
    | _ => none
  match rs with
  | none => some p
  | some r => (convolveCtor [p.hardEdges, pix.hardEdges] [p.analyticX, pix.analyticX] r).map fun _ => mkConv [p, pix]

/-- `flux_scale`: gsobject.py:725-733. -/
noncomputable def fluxScale (a : DrawArgs) (l : LocalWCS) : ℝ :=
  let f := a.area * a.exptime
  let f := if a.method = .sb then f / l.pixelArea else f
  if a.method ≠ .phot ∧ !a.sensor then f / a.gain else f

open Classical in
/-- `drawReal` before the result is stored: gsobject.py:823-838 (no rounding: float pixels).  Rows and columns are those
of the image with bounds `b`. -/
noncomputable def drawRealArr (p : Prof) (b : Bounds ℤ) : Except DrawErr (ℕ → ℕ → ℝ) :=
  let v := fun i j : ℕ => p.drawReal 1 (((b.xmin + j : ℤ) : ℝ), ((b.ymin + i : ℤ) : ℝ)) none 0 1
  if ∀ i j : ℕ, (i : ℤ) < b.deltay → (j : ℤ) < b.deltax → (v i j).isSome then .ok fun i j => (v i j).getD 0
  else .error .notFinite

/-- `drawFFT` before the result is stored: gsobject.py:974-982, 865-922 (sizes), 925-966. -/
noncomputable def drawFFTArr (g : DrawGS) (p : Prof) (b : Bounds ℤ) : Except DrawErr (ℕ → ℕ → ℝ) :=
  match makeKSizes g.minFFT g.maxFFT p.stepk p.maxk 1 b with
  | none => .error .fftSize
  | some (N, Nk, dk) =>
    if N % 2 ≠ 0 ∨ Nk % 2 ≠ 0 ∨ N ≤ 0 then .error .unmodelled
    else
      let kb := kBounds Nk
      let k : Arr ℂ := ⟨kb.deltay.toNat, kb.deltax.toNat,
        fun i j => p.drawK dk (((kb.xmin + j : ℤ) : ℝ), ((kb.ymin + i : ℤ) : ℝ)) none⟩
      let r := Fft.finishReal k (Nk / 2).toNat (N / 2).toNat
      let rb := realBounds N
      if rb.includesB clsI b then
        .ok fun i j => r.at' (b.ymin - rb.ymin + i).toNat (b.xmin - rb.xmin + j).toNat
      else .error .bounds

/-- `temp.array.sum()`: gsobject.py:842, 970. -/
noncomputable def arrSum (b : Bounds ℤ) (v : ℕ → ℕ → ℝ) : ℝ :=
  ∑ i ∈ Finset.range b.deltay.toNat, ∑ j ∈ Finset.range b.deltax.toNat, v i j

/-- Storing or adding the drawn pixels: gsobject.py:837-842, 964-970. -/
noncomputable def storeArr (addTo : Bool) (old v : ℕ → ℕ → ℝ) : ℕ → ℕ → ℝ :=
  if addTo then fun i j => old i j + v i j else v

/-- What `drawPhot` does: the array of the image afterwards and the added flux (or the exception), as a function of the
profile, the image and `add_to_image`; see `Model/Draw.lean` for the function itself. -/
abbrev PhotDraw := Prof → DrawImg → Bool → (ℕ → ℕ → ℝ) × Except DrawErr ℝ

/-- The drawing step on the recentred image: gsobject.py:779-808. -/
noncomputable def drawStep (g : DrawGS) (phot : PhotDraw) (a : DrawArgs) (p : Prof) (im0 : DrawImg) :
    (ℕ → ℕ → ℝ) × Except DrawErr ℝ :=
  if a.method = .phot then phot p im0 a.addTo
  else if a.sensor || a.photonOps then (im0.arr, .error .notImplemented)
  else
    match if p.analyticX then drawRealArr p im0.bounds else drawFFTArr g p im0.bounds with
    | .error e => (im0.arr, .error e)
    | .ok v => (storeArr a.addTo im0.arr v, .ok (arrSum im0.bounds v))

/-- The image object after `_setup_image` and `image.wcs = wcs`: gsobject.py:760-764, 372-386 (`resize` makes a new array
of zeros: image.py:569-577). -/
def setupImg (img : Option DrawImg) (b : Bounds ℤ) (w : WCS) : DrawImg :=
  match img with
  | some i => if i.bounds.defined then { i with bounds := b, wcs := some w } else ⟨b, some w, fun _ _ => 0, i.addedFlux⟩
  | none => ⟨b, some w, fun _ _ => 0, none⟩

/-- From `_setup_image` to the end: gsobject.py:759-820.  `given`: whether an image was passed. -/
noncomputable def drawFinish (g : DrawGS) (phot : PhotDraw) (a : DrawArgs) (img : Option DrawImg) (w : WCS)
    (p : Prof) (fs : ℝ) : Option DrawImg × Except DrawErr DrawImg :=
  match setupImage (a.place (goodImageSize p.stepk 1)) with
  | none => (img, .error .incompatible)
  | some b =>
    let im := setupImg img b w
    let keep : DrawImg → Option DrawImg := fun i => img.map fun _ => i
    if a.setupOnly then
      let r := { im with addedFlux := some 0 }
      (keep r, .ok r)
    else
      match b.centerI, setCenterB b ⟨0, 0⟩ with
      | some oc, some b0 =>
        let im0 : DrawImg := { im with bounds := b0, wcs := some (.loc (.pix 1)) }
        match drawStep g phot a p im0 with
        | (arr, .error e) => (keep { im0 with arr := arr }, .error e)
        | (arr, .ok added) =>
          let r : DrawImg := ⟨b0.shift clsI oc false, some w, arr, some (added / fs)⟩
          (keep r, .ok r)
      | _, _ => (keep im, .error .bounds)

/-- `drawImage`: gsobject.py:587-820.  The first component is the image object passed in, as it is afterwards. -/
noncomputable def drawImage (g : DrawGS) (phot : PhotDraw) (o : Prof) (a : DrawArgs) :
    Option DrawImg × Except DrawErr DrawImg :=
  match a.check with
  | some e => (a.image, .error e)
  | none =>
    match determineWcs (Real.pi / o.maxk) a.scale a.wcs (a.image.bind (·.wcs)) with
    | .error e => (a.image, .error e)
    | .ok w =>
      let img := a.image.map (clearWcs a.scale a.wcs)
      match getNewBounds (a.place 0) with
      | none => (img, .error .bounds)
      | some nb =>
        let fs := fluxScale a w.localWCS
        let off := adjustOffset nb (a.place 0)
        match w.profileToImage o fs (off.x, off.y) with
        | none => (img, .error .notFinite)
        | some p =>
          match convolvePixel g a.method p with
          | none => (img, .error .notImplemented)
          | some q => drawFinish g phot a img w q fs

/-! ### drawKImage -/

/-- An image of complex (or, with `isComplex = false`, other) pixels. -/
structure KImg where
  bounds : Bounds ℤ
  wcs : Option WCS
  arr : ℕ → ℕ → ℂ
  isComplex : Bool := true

/-- The arguments of `drawKImage`: gsobject.py:985-996.  `pyScale`: the scale in use (argument or `image.scale`) is a
python number. -/
structure KArgs where
  image : Option KImg := none
  nx : Option ℤ := none
  ny : Option ℤ := none
  bounds : Option (Bounds ℤ) := none
  scale : Option ℝ := none
  addTo : Bool := false
  recenter : Bool := true
  setupOnly : Bool := false
  pyScale : Bool := true

/-- `image.scale`: image.py:409-420.  The classes with an attribute `scale` are `PixelScale`, `ShearWCS` and their
versions with an origin (wcs.py:880-883, 986-989, 1345-1348, 1421-1424). -/
def imageScale : Option WCS → Except DrawErr (Option ℝ)
  | none => .ok none
  | some w =>
    match w.localWCS with
    | .pix c => .ok (some c)
    | .shear c _ => .ok (some c)
    | .jac _ => .error .typeError

/-- `_isPixelScale`: wcs.py:870, 1332. -/
def isPixelScale (w : WCS) : Bool :=
  match w.localWCS with
  | .pix _ => true
  | _ => false

/-- `dk`: gsobject.py:1017-1020. -/
noncomputable def kStep (o : Prof) : Option ℝ → ℝ
  | none => o.stepk
  | some s => if s ≤ 0 then o.stepk else s

/-- `dx` without a sized image: gsobject.py:1022-1028. -/
noncomputable def kDx (o : Prof) : Option ℝ → ℝ
  | none => Real.pi / o.maxk
  | some s => if s ≤ 0 then Real.pi / o.maxk else Real.pi / o.maxk * s / o.stepk

/-- From the recentring to the end: gsobject.py:1055-1088. -/
noncomputable def drawKFinish (o : Prof) (a : KArgs) (im : KImg) (dk : ℝ) : Option KImg × Except DrawErr KImg :=
  let keep : KImg → Option KImg := fun i => a.image.map fun _ => i
  let go : KImg → Option KImg × Except DrawErr KImg := fun im =>
    if im.wcs.any (!isPixelScale ·) then (keep im, .error .typeError)
    else
      let im := { im with wcs := some (.loc (.pix dk)) }
      if a.setupOnly then (keep im, .ok im)
      else
        let v := fun i j : ℕ => o.drawK dk (((im.bounds.xmin + j : ℤ) : ℝ), ((im.bounds.ymin + i : ℤ) : ℝ)) none
        let r := { im with arr := if a.addTo then fun i j => im.arr i j + v i j else v }
        (keep r, .ok r)
  if a.recenter then
    match im.bounds.centerI with
    | none => (keep im, .error .bounds)
    | some c =>
      if (c.x ≠ 0 ∨ c.y ≠ 0) ∧ a.addTo then (keep im, .error .incompatible)
      else go { im with bounds := im.bounds.shift clsI ⟨-c.x, -c.y⟩ false,
                        wcs := im.wcs.map fun w => w.shiftOrigin (match w with | .loc _ => true | .off .. => false)
                          (((-c.x : ℤ) : ℝ), ((-c.y : ℤ) : ℝ)) none }
  else go im

/-- `drawKImage`: gsobject.py:985-1088. -/
noncomputable def drawKImage (o : Prof) (a : KArgs) : Option KImg × Except DrawErr KImg :=
  if a.image.any (!·.isComplex) then (a.image, .error .value)
  else
    match (match a.image, a.scale with
      | some im, none => imageScale im.wcs
      | _, s => .ok s) with
    | .error e => (a.image, .error e)
    | .ok scale =>
      let dk := kStep o scale
      match a.image with
      | some im =>
        if im.bounds.defined then
          if a.pyScale ∧ (scale.any fun s => decide (0 < s)) ∧ max im.bounds.numpyShape.1 im.bounds.numpyShape.2 / 2 = 0 then
            (a.image, .error .zeroDivision)
          else if a.bounds.isSome || a.nx.isSome || a.ny.isSome then (a.image, .error .incompatible)
          else drawKFinish o a im dk
        else fresh scale dk
      | none => fresh scale dk
where
  /-- gsobject.py:1033-1039 and `_setup_image` with `odd=True` (372-386, 393-433). -/
  fresh (scale : Option ℝ) (dk : ℝ) : Option KImg × Except DrawErr KImg :=
    match LocalWCS.profileToImage (.pix (kDx o scale)) o 1 (0, 0) with
    | none => (a.image, .error .notFinite)
    | some p =>
      match setupImage ⟨a.image.map (·.bounds), a.nx, a.ny, a.bounds, none, ⟨0, 0⟩, true, a.addTo,
          goodImageSize p.stepk 1 + 1⟩ with
      | none => (a.image, .error .incompatible)
      | some b =>
        match a.image with
        | some im => drawKFinish o a { im with bounds := b, arr := fun _ _ => 0 } dk
        | none => drawKFinish o a ⟨b, none, fun _ _ => 0, true⟩ dk

end JG
