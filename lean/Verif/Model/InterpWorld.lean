import Verif.Model.InterpImage
import Verif.Model.Moments
import Verif.Model.WCS

/-!
Model of the `InterpolatedImage` class of `/repo/jax_galsim/interpolatedimage.py:68-365, 376-770`: the checks of the
constructor, where the image is put, and the light, flux, centroid, ranges and equality of the object.  Floats are exact
reals.  The coordinate systems are the uniform Euclidean ones; `_recenter_image` is `True` (the default); the
interpolants are given as objects; the file name form of `image`, `rng`, `use_cache` and `hdu` are left out.
-/

namespace JG.Interp

/-- The exceptions of the constructor and of the properties. -/
inductive IIErr
  | value | undefinedBounds | notImplemented | range | incompatible | zeroFlux | image (e : ImErr)

/-- The arguments: interpolatedimage.py:90-116.  `imWcs` is `image.wcs`; `padImage`, `noisePadSize` and `noisePad` say
whether the argument is given (not `None`, not zero); `calcStepk` and `calcMaxk` are the truth values of the arguments. -/
structure IIArgs where
  im : Image
  imWcs : Option WCS
  kernel : Kernel
  kKernel : Kernel
  normalization : String
  scale : Option ℝ
  wcs : Option WCS
  flux : Option ℝ
  padFactor : ℝ
  padImage : Bool
  noisePadSize : Bool
  noisePad : Bool
  calcStepk : Bool
  calcMaxk : Bool
  useTrueCenter : Bool
  depixelize : Bool
  offset : Pos ℝ
  forceStepk : ℝ
  forceMaxk : ℝ

/-- `jnp.sum(array)`. -/
noncomputable def arrSum (a : Arr ℝ) : ℝ := gridSum a.h a.w a.at'

/-- `str.lower()` as the list of characters (of the ASCII letters). -/
def lower (s : String) : List Char := s.toList.map Char.toLower

/-- `normalization.lower() in ("surface brightness", "sb")`: interpolatedimage.py:594-597. -/
def isSb (s : String) : Bool := lower s = "surface brightness".toList || lower s = "sb".toList
/-- `normalization.lower() in ("flux", "f", "surface brightness", "sb")`: interpolatedimage.py:457. -/
def isNormalization (s : String) : Bool := lower s = "flux".toList || lower s = "f".toList || isSb s

/-- A constructed object: the arguments and `_wcs` (interpolatedimage.py:637-653; the local system of a uniform system is
the same at every position). -/
structure II where
  args : IIArgs
  wcs : LocalWCS

/-- `__init__` of both classes: interpolatedimage.py:117-196, 449-524. -/
noncomputable def II.make (a : IIArgs) : Except IIErr II :=
  if a.im.isInt then .error .value
  else if !a.im.bounds.defined then .error .undefinedBounds
  else if !isNormalization a.normalization then .error .value
  else if a.padImage then .error .notImplemented
  else if a.padFactor ≤ 0 then .error .range
  else if a.noisePadSize then .error .notImplemented
  else if a.noisePad then .error .notImplemented
  else
    match a.scale, a.wcs, a.imWcs with
    | some _, some _, _ => .error .incompatible
    | some s, none, _ => finish (.pix s)
    | none, some w, _ => finish w.localWCS
    | none, none, none => .error .incompatible
    | none, none, some w => finish w.localWCS
where
  finish (l : LocalWCS) : Except IIErr II :=
    if (a.calcStepk || a.calcMaxk || a.flux.isSome) && decide (arrSum a.im.arr = 0) then .error .zeroFlux
    else .ok ⟨a, l⟩

/-- `_image`: interpolatedimage.py:619-635. -/
noncomputable def II.image (o : II) : Except IIErr Image :=
  if o.args.depixelize then .error .notImplemented else .ok (workImage true o.args.im)

/-- `_xim`: interpolatedimage.py:662-688. -/
noncomputable def II.xim (o : II) : Except IIErr Image :=
  o.image.bind fun w => (Interp.xim o.args.padFactor w).mapError .image

/-- `_pad_image`: interpolatedimage.py:690-696. -/
noncomputable def II.padImage (o : II) : Except IIErr Image :=
  o.image.bind fun w => o.xim.bind fun x => (x.subImage w.bounds).mapError .image

/-- `_image_flux`: interpolatedimage.py:606-608; also `_flux` of the inner object (574-576). -/
noncomputable def II.imageFlux (o : II) : Except IIErr ℝ := o.image.map fun w => arrSum w.arr

/-- `_flux_ratio` of the inner object: interpolatedimage.py:590-604 (real division). -/
noncomputable def II.innerRatio (o : II) : Except IIErr ℝ :=
  o.imageFlux.map fun f =>
    (match o.args.flux with
      | none => if isSb o.args.normalization then f * o.wcs.pixelArea else f
      | some g => g) / f

/-- `_flux_ratio` of the object: interpolatedimage.py:198-200. -/
noncomputable def II.fluxRatio (o : II) : Except IIErr ℝ := o.innerRatio.map fun r => r / o.wcs.pixelArea

/-- `_jac`: interpolatedimage.py:202-204, 655-661. -/
noncomputable def II.jac (o : II) : Mat2 := o.wcs.toJac

/-- `_offset` of the inner object: interpolatedimage.py:610-617. -/
noncomputable def II.offset (o : II) : Except IIErr (Pos ℝ) :=
  o.image.map fun w => adjustOffset w.bounds ⟨none, none, none, none, none, o.args.offset, o.args.useTrueCenter, false, 0⟩

/-- `_flux` as a `Transformation`: transform.py:136-138, 263-265. -/
noncomputable def II.flux (o : II) : Except IIErr ℝ :=
  o.fluxRatio.bind fun r => o.imageFlux.map fun f => |o.jac.det| * r * f

/-- `_xValue_arr` of the inner object at one point: interpolatedimage.py:754-767, 964-973. -/
noncomputable def II.innerXValue (K : ℕ → ℕ → ℝ) (o : II) (p : ℝ × ℝ) : Except IIErr ℝ :=
  o.offset.bind fun d => o.padImage.map fun im =>
    drawXval (o.args.kernel.xval K) o.args.kernel.ixrange im.arr im.bounds.xmin im.bounds.ymin (p.1 + d.x) (p.2 + d.y)

/-- `jnp.linalg.inv(jac)` applied to a vector. -/
noncomputable def solve2 (J : Mat2) (p : ℝ × ℝ) : ℝ × ℝ :=
  ((J.d * p.1 - J.b * p.2) / J.det, (-J.c * p.1 + J.a * p.2) / J.det)

/-- `_xValue` as a `Transformation` with offset `(0, 0)`: transform.py:348-351, interpolatedimage.py:193-195. -/
noncomputable def II.xValue (K : ℕ → ℕ → ℝ) (o : II) (p : ℝ × ℝ) : Except IIErr ℝ :=
  (o.innerXValue K (solve2 o.jac (p.1 - 0, p.2 - 0))).bind fun v => o.fluxRatio.map fun r => v * r

/-- The offset handed to the inner object: transform.py:358-365, the own offset being `(0, 0)`. -/
noncomputable def drawOffset (jac : Option Mat2) (off : ℝ × ℝ) : ℝ × ℝ :=
  match jac with
  | some J => (off.1 + (J.a * 0 + J.b * 0), off.2 + (J.c * 0 + J.d * 0))
  | none => (off.1 + 0, off.2 + 0)

/-- The matrix handed to the inner object: transform.py:367-373. -/
noncomputable def II.drawJac (o : II) (jac : Option Mat2) : Mat2 :=
  match jac with
  | none => o.jac
  | some J => J.mul o.jac

/-- `_drawReal` at one pixel: transform.py:357-374 (offset `(0, 0)`), then interpolatedimage.py:784-822. -/
noncomputable def II.drawPixel (K : ℕ → ℕ → ℝ) (o : II) (scale : ℝ) (jac : Option Mat2) (off : ℝ × ℝ) (fs : ℝ) (p : ℤ × ℤ) :
    Except IIErr ℝ :=
  o.fluxRatio.bind fun r =>
    let d := drawOffset jac off
    let fs := fs * (|o.jac.det| * r)
    let J := o.drawJac jac
    let fs := fs * scale ^ 2
    let c : ℝ × ℝ := (p.1 * scale - d.1, p.2 * scale - d.2)
    let fs := fs * Real.exp (Real.log |1 / J.det|)
    (o.innerXValue K (solve2 J c)).map fun v => v * fs

/-- `_centroid` of the inner object: interpolatedimage.py:578-584 (`get_pixel_centers` are the pixel coordinates). -/
noncomputable def II.innerCentroid (o : II) : Except IIErr (ℝ × ℝ) :=
  o.padImage.map fun im =>
    (gridSum im.arr.h im.arr.w (fun i j => ((im.bounds.xmin + j : ℤ) : ℝ) * im.arr.at' i j) / arrSum im.arr,
     gridSum im.arr.h im.arr.w (fun i j => ((im.bounds.ymin + i : ℤ) : ℝ) * im.arr.at' i j) / arrSum im.arr)

/-- `_centroid` as a `Transformation`: transform.py:324-329. -/
noncomputable def II.centroid (o : II) : Except IIErr (ℝ × ℝ) :=
  o.innerCentroid.map fun c => (o.jac.a * c.1 + o.jac.b * c.2 + 0, o.jac.c * c.1 + o.jac.d * c.2 + 0)

/-- `_maxk`: interpolatedimage.py:222-229; the value of the inner object is a parameter. -/
noncomputable def II.maxk (o : II) (inner : ℝ) : ℝ :=
  if o.args.forceMaxk > 0 then o.args.forceMaxk else inner / o.wcs.maxScale
/-- `_stepk`: interpolatedimage.py:231-239. -/
noncomputable def II.stepk (o : II) (inner : ℝ) : ℝ :=
  if o.args.forceStepk > 0 then o.args.forceStepk else inner / o.wcs.minScale

/-- `Image.__eq__` for two images with the same `wcs`: image.py:1178-1195 (`_xim` has `wcs = PixelScale(1.0)`). -/
noncomputable def imageEq (x y : Image) : Bool :=
  open Classical in
  x.bounds.eq clsI y.bounds &&
    (!x.bounds.defined || (decide (x.arr.h = y.arr.h) && decide (x.arr.w = y.arr.w) &&
      decide (∀ i < x.arr.h, ∀ j < x.arr.w, x.arr.at' i j = y.arr.at' i j))) &&
    decide (x.isConst = y.isConst)

/-- `__eq__` of two different objects: interpolatedimage.py:330-341, with the same `gsparams` (the pair of numbers are
the `maxk` and `stepk` of the inner objects).  Reading a property that raises raises. -/
noncomputable def II.eq (o p : II) (io ip : ℝ × ℝ) : Except IIErr Bool :=
  open Classical in
  o.xim.bind fun x => p.xim.bind fun y => o.flux.bind fun f => p.flux.bind fun g => o.offset.bind fun d => p.offset.map fun e =>
    imageEq x y && decide (o.args.kernel = p.args.kernel) && decide (o.args.kKernel = p.args.kKernel) && decide (f = g) &&
      decide (d = e) && decide (o.stepk io.2 = p.stepk ip.2) && decide (o.maxk io.1 = p.maxk ip.1)

/-- The values that `__hash__` combines (interpolatedimage.py:256-293), with the same `gsparams`: flux, stepk, maxk, pad
factor, the three bounds, the offset, the coordinate system and the pixels. -/
structure IIKey where
  kernel : Kernel
  kKernel : Kernel
  flux : ℝ
  stepk : ℝ
  maxk : ℝ
  padFactor : ℝ
  ximBounds : Bounds ℤ
  imageBounds : Bounds ℤ
  offset : Pos ℝ
  wcs : LocalWCS
  pixels : Arr ℝ

/-- The key of an object. -/
noncomputable def II.key (o : II) (io : ℝ × ℝ) : Except IIErr IIKey :=
  o.image.bind fun w => o.xim.bind fun x => o.padImage.bind fun p => o.flux.bind fun f => o.offset.map fun d =>
    ⟨o.args.kernel, o.args.kKernel, f, o.stepk io.2, o.maxk io.1, o.args.padFactor, x.bounds, w.bounds, d, o.wcs, p.arr⟩

end JG.Interp
