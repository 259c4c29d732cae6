import Verif.Model.Image
import Verif.Model.Utilities
import Mathlib.Data.Complex.Basic

/-!
Access to pixels and parts of an image in `/repo/jax_galsim/image.py`: `im[..]`, `im[..] = ..`, `im(..)`, `setValue(..)` and
`addValue(..)` with their arguments, and the views `real`, `imag` and `conjugate`.
-/

namespace JG

/-- Exceptions of the access methods: those of `Model/Image.lean`, and the `KeyError` of `parse_pos_args`. -/
inductive IxErr
  | im (e : ImErr)
  | key
deriving DecidableEq

/-- A number in an index: a python or numpy integer, or a float. -/
inductive INum
  | int (n : ℤ)
  | flt (x : ℝ)

/-- The value of the number. -/
def INum.val : INum → ℝ
  | .int n => n
  | .flt x => x

/-- What stands between the brackets of `im[..]`; `other` is a slice, a number, a list or anything else. -/
inductive Key
  | bounds (b : Bounds ℤ)
  | posI (p : Pos ℤ)
  | posD (x y : ℝ)
  | tup (l : List INum)
  | other

/-- What is assigned to `im[..]`. -/
inductive IRhs
  | num (v : ℝ)
  | image (im : Image)

/-- `bounds.includes(x, y)` with numbers: bounds.py:208-216. -/
def Bounds.includesR (b : Bounds ℤ) (x y : ℝ) : Prop :=
  b.defined = true ∧ (b.xmin : ℝ) ≤ x ∧ (b.ymin : ℝ) ≤ y ∧ x ≤ (b.xmax clsI : ℤ) ∧ y ≤ (b.ymax clsI : ℤ)

open Classical in
/-- `getValue(x, y)` with numbers: image.py:1065-1081; jax refuses floats as indices. -/
noncomputable def Image.getValueN (im : Image) (x y : INum) : Except IxErr ℝ :=
  if !im.bounds.defined then .error (.im .undefinedBounds)
  else if ¬ im.bounds.includesR x.val y.val then .error (.im .outOfBounds)
  else match x, y with
    | .int m, .int n => .ok (im.arr.get (n - im.bounds.ymin) (m - im.bounds.xmin))
    | _, _ => .error (.im .typeError)

/-- `im(*args, **kwargs)`: image.py:1055-1062. -/
noncomputable def Image.call (im : Image) (args : List PArg) (kw : List (String × PArg)) : Except IxErr ℝ :=
  match parsePosArgs args kw "x" "y" true [] with
  | .error .typeError => .error (.im .typeError)
  | .error .keyError => .error .key
  | .ok (.I x y, _) => im.getValueN (.int x) (.int y)
  | .ok (.D x y, _) => im.getValueN (.flt x) (.flt y)

/-- `im[key]`, a number or an image: image.py:670-693. -/
noncomputable def Image.getitem (im : Image) : Key → Except IxErr (ℝ ⊕ Image)
  | .bounds b => match im.subImage b with
    | .ok s => .ok (.inr s)
    | .error e => .error (.im e)
  | .posI p => (im.call [.pos (.I p.x p.y)] []).map .inl
  | .tup [x, y] => (im.getValueN x y).map .inl
  | .tup _ => .error (.im .typeError)
  | .posD _ _ => .error (.im .typeError)
  | .other => .error (.im .typeError)

/-- `setValue(*args, **kwargs)` and `addValue(*args, **kwargs)`; `f` makes the new value of the pixel from the value given, `none`
if it is not a number (jax raises `TypeError`): image.py:1083-1118. -/
noncomputable def Image.updArgs (im : Image) (args : List PArg) (kw : List (String × PArg)) (f : PArg → Option (ℝ → ℝ)) :
    Image × Option IxErr :=
  match im.isConst with
  | none => (im, some (.im .attribute))
  | some true => (im, some (.im .immutable))
  | some false =>
    if !im.bounds.defined then (im, some (.im .undefinedBounds))
    else match parsePosArgs args kw "x" "y" true ["value"] with
      | .ok (.I x y, [v]) =>
        if !im.bounds.includesP clsI ⟨x, y⟩ then (im, some (.im .outOfBounds))
        else match f v with
          | none => (im, some (.im .typeError))
          | some g => ({ im with arr := im.arr.updAt (y - im.bounds.ymin) (x - im.bounds.xmin) g }, none)
      | .error .keyError => (im, some .key)
      | _ => (im, some (.im .typeError))

/-- `setValue`: image.py:1083-1101. -/
noncomputable def Image.setValueArgs (im : Image) (args : List PArg) (kw : List (String × PArg)) : Image × Option IxErr :=
  im.updArgs args kw fun v => match v with
    | .num v => some fun _ => rawCast im.isInt v
    | _ => none

/-- `addValue`: image.py:1104-1122. -/
noncomputable def Image.addValueArgs (im : Image) (args : List PArg) (kw : List (String × PArg)) : Image × Option IxErr :=
  im.updArgs args kw fun v => match v with
    | .num v => some fun x => x + rawCast im.isInt v
    | _ => none

/-- An exception of `Model/Image.lean` as one of this file. -/
def liftErr (r : Image × Option ImErr) : Image × Option IxErr := (r.1, r.2.map .im)

/-- A key as the argument of `setValue`. -/
def Key.arg : Key → Option PArg
  | .posI p => some (.pos (.I p.x p.y))
  | .tup l => some (.seq (l.map INum.val))
  | _ => none

/-- `im[key] = rhs`: image.py:695-718, with the checks of `setSubImage` (617-640) for something that is not an image.  An image
assigned to a pixel passes through `parse_pos_args` untouched. -/
noncomputable def Image.setitem (im : Image) (k : Key) (r : IRhs) : Image × Option IxErr :=
  match k, r with
  | .bounds b, .image s => liftErr (im.step (.setSubImage b s))
  | .bounds b, .num _ => liftErr <| im.guarded <|
    if !im.bounds.defined then (im, some .undefinedBounds)
    else if im.bounds.posPy && b.posPy && !im.bounds.includesB clsI b then (im, some .outOfBounds)
    else (im, some .typeError)
  | k, r => match k.arg with
    | none => (im, some (.im .typeError))
    | some a => match r with
      | .num v => im.setValueArgs [a, .num v] []
      | .image _ => im.updArgs [a, .num 0] [] fun _ => none

/-! ### Complex images -/

/-- An image of complex or real pixels: `array`, `bounds`, `_is_const` and whether the dtype is complex. -/
structure CImage where
  arr : Arr ℂ
  bounds : Bounds ℤ
  const : Bool
  cplx : Bool

/-- `real`: image.py:460-465. -/
def CImage.real (im : CImage) : CImage := ⟨⟨im.arr.h, im.arr.w, fun i j => ((im.arr.at' i j).re : ℂ)⟩, im.bounds, im.const, false⟩

/-- `imag`: image.py:467-476. -/
def CImage.imag (im : CImage) : CImage :=
  ⟨⟨im.arr.h, im.arr.w, fun i j => ((im.arr.at' i j).im : ℂ)⟩, im.bounds, im.const || !im.cplx, false⟩

/-- `conjugate`: image.py:478-481. -/
noncomputable def CImage.conjugate (im : CImage) : CImage :=
  ⟨⟨im.arr.h, im.arr.w, fun i j => (starRingEnd ℂ) (im.arr.at' i j)⟩, im.bounds, false, im.cplx⟩

/-- `get_pixel_centers()`, the two arrays: image.py:551-558. -/
def Image.pixelCenters (im : Image) : (ℕ → ℕ → ℝ) × (ℕ → ℕ → ℝ) :=
  (fun _ j => j + im.bounds.xmin, fun i _ => i + im.bounds.ymin)

/-- `outer_bounds`, as `(xmin, xmax, ymin, ymax)`: image.py:452-457. -/
noncomputable def Image.outerBounds (im : Image) : ℝ × ℝ × ℝ × ℝ :=
  (im.bounds.xmin - 0.5, (im.bounds.xmax clsI : ℤ) + 0.5, im.bounds.ymin - 0.5, (im.bounds.ymax clsI : ℤ) + 0.5)

end JG
