import Verif.Model.InterpName
import Mathlib.Algebra.BigOperators.Group.List.Basic

/-!
Model of the argument checks of `InterpolatedImage(...)`: interpolatedimage.py:117-125 (wrapper) and
449-524 (`_InterpolatedImageImpl`), and of the properties that rely on them (594-604, 619-635,
637-653).
-/

namespace JG.InterpCheck

/-- The exceptions. -/
inductive Err where
  | typeError | valueError | undefinedBounds | notImplemented | rangeError | incompatible | zeroFlux
  deriving DecidableEq

/-- What the checks look at in an image: whether its dtype is a float type, whether its bounds are
defined, its wcs and its pixels. -/
structure Im (W : Type) where
  isFloat : Bool
  defined : Bool
  wcs : Option W
  pixels : List ℝ

/-- The arguments.  `image`: `none` is neither an image nor a file name (for a file name it is the image
read).  An interpolant is `none` for `None`, otherwise the result of `convert_interpolant` (C101), an
inner `none` being its exception.  `wcs`: an inner `none` is an object that is not a wcs.  For the
flags only their truth matters; `padImage` says that `pad_image` is not `None`. -/
structure Args (W I : Type) where
  image : Option (Im W)
  xInterp : Option (Option I)
  kInterp : Option (Option I)
  normalization : List Char
  scale : Option ℝ
  wcs : Option (Option W)
  flux : Option ℝ
  padFactor : ℝ
  noisePadSize : Bool
  noisePad : Bool
  padImage : Bool
  calculateStepk : Bool
  calculateMaxk : Bool
  depixelize : Bool

/-- `normalization.lower()` for the characters that can lead to one of the names; the same character
map as for the names of interpolants. -/
def lower (s : List Char) : List Char := s.map JG.IName.lowerC

/-- `normalization.lower() in ("flux", "f", "surface brightness", "sb")`: interpolatedimage.py:456. -/
def normOk (s : List Char) : Bool :=
  lower s ∈ ["flux".toList, "f".toList, "surface brightness".toList, "sb".toList]

/-- `normalization.lower() in ("surface brightness", "sb")`: interpolatedimage.py:594-597. -/
def normSB (s : List Char) : Bool := lower s ∈ ["surface brightness".toList, "sb".toList]

/-- The interpolant kept: interpolatedimage.py:467-478, `Quintic` by default. -/
def useInterp {I : Type} (quintic : I) : Option (Option I) → Except Err I
  | none => .ok quintic
  | some none => .error .typeError
  | some (some i) => .ok i

/-- What the constructor keeps. -/
structure Obj (W I : Type) where
  im : Im W
  x : I
  k : I
  args : Args W I

/-- The checks of the scale and the wcs: interpolatedimage.py:497-515. -/
def checkWcs {W I : Type} (a : Args W I) (im : Im W) : Except Err Unit :=
  match a.scale, a.wcs with
  | some _, some _ => .error .incompatible
  | some _, none => .ok ()
  | none, some none => .error .typeError
  | none, some (some _) => .ok ()
  | none, none => if im.wcs.isNone then .error .incompatible else .ok ()

open Classical in
/-- The check of the flux: interpolatedimage.py:517-524. -/
noncomputable def checkFlux {W I : Type} (a : Args W I) (im : Im W) : Except Err Unit :=
  if a.calculateStepk ∨ a.calculateMaxk ∨ a.flux.isSome then
    if im.pixels.sum = 0 then .error .zeroFlux else .ok ()
  else .ok ()

open Classical in
/-- The constructor: interpolatedimage.py:117-125 then 449-524, in the order of the code.
Simplifications: `gsparams` is valid; under `jit` the flux check raises when the program runs. -/
noncomputable def construct {W I : Type} (quintic : I) (a : Args W I) : Except Err (Obj W I) :=
  match a.image with
  | none => .error .typeError
  | some im =>
    if !im.isFloat then .error .valueError
    else if !im.defined then .error .undefinedBounds
    else if !normOk a.normalization then .error .valueError
    else match useInterp quintic a.xInterp with
      | .error e => .error e
      | .ok x =>
        match useInterp quintic a.kInterp with
        | .error e => .error e
        | .ok k =>
          if a.padImage then .error .notImplemented
          else if a.padFactor ≤ 0 then .error .rangeError
          else if a.noisePadSize then .error .notImplemented
          else if a.noisePad then .error .notImplemented
          else match checkWcs a im with
            | .error e => .error e
            | .ok _ =>
              match checkFlux a im with
              | .error e => .error e
              | .ok _ => .ok ⟨im, x, k, a⟩

/-- The wcs of the image before `.local`, interpolatedimage.py:645-651; `pixelScale` is the class
`PixelScale`; `none`: the value `None`. -/
def Obj.wcs {W I : Type} (pixelScale : ℝ → W) (o : Obj W I) : Option W :=
  match o.args.scale with
  | some s => some (pixelScale s)
  | none =>
    match o.args.wcs with
    | some w => w
    | none => o.im.wcs

/-- `_image`: interpolatedimage.py:619-635, the pixels used. -/
def Obj.pixels {W I : Type} (o : Obj W I) : Except Err (List ℝ) :=
  if o.args.depixelize then .error .notImplemented else .ok o.im.pixels

/-- `_flux_ratio`: interpolatedimage.py:590-604, `area` being the pixel area of the wcs. -/
noncomputable def Obj.fluxRatio {W I : Type} (o : Obj W I) (area : ℝ) : ℝ :=
  (match o.args.flux with
    | none => if normSB o.args.normalization then o.im.pixels.sum * area else o.im.pixels.sum
    | some f => f) / o.im.pixels.sum

end JG.InterpCheck
