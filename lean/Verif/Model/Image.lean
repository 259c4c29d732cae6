import Verif.Model.Bounds
import Verif.Model.Wrap
import Mathlib.Data.Real.Star

/-!
Model of `/repo/jax_galsim/image.py`: the `Image` object as a state machine.

Pixels are exact reals; the dtype is only "integer" or "floating" (complex pixels, the integer ranges
and float rounding are not modelled).  The wcs attribute is not part of the state (see `Model/Wcs.lean`
for `shiftOrigin`).  A method call returns the state of the object *after* the call together with the
exception raised, if any, so that an operation which mutates and then raises is expressible.
-/

namespace JG

/-- Exceptions raised by the methods below. -/
inductive ImErr
  | immutable        -- `GalSimImmutableError`
  | undefinedBounds  -- `GalSimUndefinedBoundsError`
  | outOfBounds      -- `GalSimBoundsError`
  | incompatible     -- `GalSimIncompatibleValuesError`
  | typeError        -- `TypeError`
  | valueError       -- `ValueError` / `GalSimValueError` / `ZeroDivisionError`
  | attribute        -- `AttributeError`
deriving DecidableEq

/-- `jnp.around`: round to nearest, ties to even. -/
noncomputable def roundEven (x : ℝ) : ℤ :=
  if x - ⌊x⌋ < 1 / 2 then ⌊x⌋
  else if x - ⌊x⌋ = 1 / 2 then (if ⌊x⌋ % 2 = 0 then ⌊x⌋ else ⌊x⌋ + 1)
  else ⌊x⌋ + 1

/-- `astype(int)` of a float: truncation towards zero. -/
noncomputable def truncZ (x : ℝ) : ℤ := if 0 ≤ x then ⌊x⌋ else ⌈x⌉

/-- `_safe_cast`: image.py:1445-1454. -/
noncomputable def safeCast (isInt : Bool) (x : ℝ) : ℝ := if isInt then (roundEven x : ℝ) else x

/-- The implicit conversion made by `array.at[..].set(value)` (no `_safe_cast`), used by `_setValue`,
`_addValue`, `_fill`, `replaceNegative`: image.py:1101, 1122, 1136, 1176. -/
noncomputable def rawCast (isInt : Bool) (x : ℝ) : ℝ := if isInt then (truncZ x : ℝ) else x

/-- The attributes of an `Image`: `_array`, `_bounds`, `_is_const` (`none`: the attribute does not
exist, as after `_Image`, image.py:1343-1354) and whether the dtype is an integer type. -/
structure Image where
  arr : Arr ℝ
  bounds : Bounds ℤ
  isConst : Option Bool
  isInt : Bool

/-- `jnp.broadcast_to(a, (h, w))`; `none` is the shape error. -/
def Arr.bcast (a : Arr ℝ) (h w : ℕ) : Option (ℕ → ℕ → ℝ) :=
  if (a.h = h ∨ a.h = 1) ∧ (a.w = w ∨ a.w = 1) then
    some fun i j => a.at' (if a.h = h then i else 0) (if a.w = w then j else 0)
  else none

/-- Normalised index of jax indexing: negative indices count from the end. -/
def normIdx (i : ℤ) (n : ℕ) : ℤ := if i < 0 then i + n else i

/-- `array[i, j]` as a read: out-of-range indices are clamped. -/
def Arr.get (a : Arr ℝ) (i j : ℤ) : ℝ :=
  a.at' (min (max (normIdx i a.h) 0) (a.h - 1)).toNat (min (max (normIdx j a.w) 0) (a.w - 1)).toNat

/-- `array.at[i, j].set(..)` / `.add(..)`: the entry is replaced by `f old`; out-of-range updates are dropped. -/
def Arr.updAt (a : Arr ℝ) (i j : ℤ) (f : ℝ → ℝ) : Arr ℝ :=
  ⟨a.h, a.w, fun k l => if (k : ℤ) = normIdx i a.h ∧ (l : ℤ) = normIdx j a.w then f (a.at' k l)
    else a.at' k l⟩

/-- `array.at[...]` elementwise update. -/
def Arr.mapIdx (a : Arr ℝ) (f : ℕ → ℕ → ℝ → ℝ) : Arr ℝ := ⟨a.h, a.w, fun i j => f i j (a.at' i j)⟩

/-- `array[i1:i2, j1:j2]` for indices that do not wrap: stops are clipped to the shape. -/
def Arr.slice (a : Arr ℝ) (i1 i2 j1 j2 : ℤ) : Arr ℝ :=
  ⟨(min i2 a.h - i1).toNat, (min j2 a.w - j1).toNat, fun i j => a.at' (i1.toNat + i) (j1.toNat + j)⟩

/-- `array.at[i1:i2, j1:j2].set(v)` (same indices); `none` is the shape error. -/
def Arr.setSlice (a v : Arr ℝ) (i1 i2 j1 j2 : ℤ) : Option (Arr ℝ) :=
  match v.bcast (min i2 a.h - i1).toNat (min j2 a.w - j1).toNat with
  | none => none
  | some g => some ⟨a.h, a.w, fun i j =>
      if i1 ≤ i ∧ (i : ℤ) < i2 ∧ j1 ≤ j ∧ (j : ℤ) < j2 then g (i - i1.toNat) (j - j1.toNat)
      else a.at' i j⟩

/-- `lax.dynamic_slice(array, (i, j), (h, w))`; `none`: sizes larger than the operand. -/
def Arr.dynSlice (a : Arr ℝ) (i j h w : ℤ) : Option (Arr ℝ) :=
  if 0 ≤ h ∧ 0 ≤ w ∧ h ≤ a.h ∧ w ≤ a.w then
    some ⟨h.toNat, w.toNat,
      fun k l => a.at' (dusStart i a.h h.toNat + k) (dusStart j a.w w.toNat + l)⟩
  else none

/-- `lax.dynamic_update_slice` with its size check. -/
def Arr.dynUpdate? (a v : Arr ℝ) (i j : ℤ) : Option (Arr ℝ) :=
  if v.h ≤ a.h ∧ v.w ≤ a.w then some (a.dynamicUpdate v i j) else none

/-- `_make_empty(shape)`: image.py:560-566; negative sizes raise in `jnp.zeros`. -/
def makeEmpty (s : ℤ × ℤ) : Option (Arr ℝ) :=
  if s.1 * s.2 = 0 then some ⟨1, 1, fun _ _ => 0⟩
  else if s.1 < 0 ∨ s.2 < 0 then none
  else some ⟨s.1.toNat, s.2.toNat, fun _ _ => 0⟩

/-- The ways of calling `Image(...)`: image.py:61-314. -/
inductive Ctor
  /-- `Image(ncol, nrow, xmin=, ymin=, init_value=)` (python sizes; `py`: python `xmin`, `ymin`). -/
  | size (ncol nrow xmin ymin : ℤ) (py : Bool) (init : Option ℝ)
  /-- `Image(bounds, init_value=)`. -/
  | bounds (b : Bounds ℤ) (init : Option ℝ)
  /-- `Image(array, xmin=, ymin=)`. -/
  | array (a : Arr ℝ) (xmin ymin : ℤ) (py : Bool)
  /-- `Image(array, bounds=)`. -/
  | arrayBounds (a : Arr ℝ) (b : Bounds ℤ)
  /-- `Image(image)`. -/
  | image (im : Image)
  /-- `Image()`. -/
  | empty

/-- `if init_value: array.at[...].add(init_value)`: image.py:202-203, 209-210. -/
noncomputable def addInit (isInt : Bool) (init : Option ℝ) (a : Arr ℝ) : Arr ℝ :=
  match init with
  | none => a
  | some v => a.mapIdx fun _ _ x => if v = 0 then x else x + rawCast isInt v

/-- `Image(array, bounds=b)`: image.py:272-314 (`_get_xmin_ymin`), 211-220.  Used by the constructor
and by `subImage`, `copy`, arithmetic.  The array already has the dtype of the image. -/
def Image.ofArrayBounds (a : Arr ℝ) (b : Bounds ℤ) (isInt const : Bool) : Except ImErr Image :=
  if b.defined then
    if b.deltax ≠ a.w ∨ b.deltay ≠ a.h then .error .incompatible
    else .ok ⟨a, Bounds.mkDelta clsI ⟨b.xmin, b.posPy⟩ ⟨a.w, true⟩ ⟨b.ymin, b.posPy⟩ ⟨a.h, true⟩,
      some const, isInt⟩
  else .ok ⟨⟨1, 1, fun _ _ => 0⟩, Bounds.empty clsI, some const, isInt⟩

/-- The constructor: image.py:61-270.  dtype checks and the wcs argument are omitted. -/
noncomputable def Image.make (c : Ctor) (isInt const : Bool) : Except ImErr Image :=
  match c with
  | .size ncol nrow xmin ymin py init =>
    match makeEmpty (nrow, ncol) with
    | none => .error .valueError
    | some a => .ok ⟨addInit isInt init a,
        Bounds.mkDelta clsI ⟨xmin, py⟩ ⟨ncol, true⟩ ⟨ymin, py⟩ ⟨nrow, true⟩, some const, isInt⟩
  | .bounds b init =>
    match makeEmpty b.numpyShape with
    | none => .error .valueError
    | some a => .ok ⟨addInit isInt init a, b, some const, isInt⟩
  | .array a xmin ymin py =>
    if a.w = 0 then .ok ⟨⟨1, 1, fun _ _ => 0⟩, Bounds.empty clsI, some const, isInt⟩
    else .ok ⟨a.mapIdx fun _ _ x => safeCast isInt x,
      Bounds.mkDelta clsI ⟨xmin, py⟩ ⟨a.w, true⟩ ⟨ymin, py⟩ ⟨a.h, true⟩, some const, isInt⟩
  | .arrayBounds a b => Image.ofArrayBounds (a.mapIdx fun _ _ x => safeCast isInt x) b isInt const
  | .image im => .ok ⟨im.arr.mapIdx fun _ _ x => safeCast isInt x, im.bounds, some const, isInt⟩
  | .empty => .ok ⟨⟨1, 1, fun _ _ => 0⟩, Bounds.empty clsI, some const, isInt⟩

/-- The right operand of in-place arithmetic. -/
inductive Operand
  | scalar (v : ℝ)
  | array (a : Arr ℝ)
  | image (im : Image)

/-- Operand broadcast to the shape of the image; for an `Image` operand
`check_image_consistency` (image.py:1458-1467) demands equal shapes. -/
def Operand.values (o : Operand) (h w : ℕ) : Except ImErr (ℕ → ℕ → ℝ) :=
  match o with
  | .scalar v => .ok fun _ _ => v
  | .array a => match a.bcast h w with
    | none => .error .valueError
    | some g => .ok g
  | .image im => if im.arr.h ≠ h ∨ im.arr.w ≠ w then .error .incompatible else .ok im.arr.at'

/-- Whether `check_image_consistency(.., integer=True)` rejects the operands: image.py:1459-1467. -/
def intRejected (isInt : Bool) : Operand → Bool
  | .image im => !isInt || !im.isInt
  | _ => !isInt

/-- Public methods that change an image in place. -/
inductive Op
  | resize (b : Bounds ℤ)
  | shift (d : Pos ℤ) (py : Bool)
  | setCenter (p : Pos ℤ) (py : Bool)
  | setOrigin (p : Pos ℤ) (py : Bool)
  | fill (v : ℝ)
  | setZero
  | setValue (p : Pos ℤ) (v : ℝ)
  | addValue (p : Pos ℤ) (v : ℝ)
  | setSubImage (b : Bounds ℤ) (rhs : Image)
  | copyFrom (rhs : Image)
  | invertSelf
  | replaceNegative (v : ℝ)
  /-- `im ⊕= rhs` for any elementwise operation; `direct`: the branch without `_safe_cast`;
  `intOnly`: the operation is restricted to integer images (`//= %= &= ^= |=`). -/
  | inplace (f : ℝ → ℝ → ℝ) (intOnly direct : Bool) (rhs : Operand)
  /-- `im.array = a`. -/
  | setArray (a : Arr ℝ)
  /-- `im.wrap(b, hermitian)`, mode 0: False, 1: 'x', 2: 'y'. -/
  | wrap (mode : ℕ) (b : Bounds ℤ)

/-- The check `if self.isconst: raise` in front of a body; reading a missing attribute raises. -/
def Image.guarded (im : Image) (body : Image × Option ImErr) : Image × Option ImErr :=
  match im.isConst with
  | none => (im, some .attribute)
  | some true => (im, some .immutable)
  | some false => body

/-- `subImage(bounds)`: image.py:580-614. -/
def Image.subImage (im : Image) (b : Bounds ℤ) : Except ImErr Image :=
  if !im.bounds.defined then .error .undefinedBounds
  else if im.bounds.posPy && b.posPy then
    if !im.bounds.includesB clsI b then .error .outOfBounds
    else
      Image.ofArrayBounds (im.arr.slice (b.ymin - im.bounds.ymin) (b.ymax clsI - im.bounds.ymin + 1)
        (b.xmin - im.bounds.xmin) (b.xmax clsI - im.bounds.xmin + 1)) b im.isInt false
  else
    match im.arr.dynSlice (b.ymin - im.bounds.ymin) (b.xmin - im.bounds.xmin) b.numpyShape.1
        b.numpyShape.2 with
    | none => .error .typeError
    | some a => Image.ofArrayBounds a b im.isInt false

/-- `getValue(x, y)` / `im(x, y)` / `im[x, y]`: image.py:1065-1081. -/
def Image.getValue (im : Image) (p : Pos ℤ) : Except ImErr ℝ :=
  if !im.bounds.defined then .error .undefinedBounds
  else if !im.bounds.includesP clsI p then .error .outOfBounds
  else .ok (im.arr.get (p.y - im.bounds.ymin) (p.x - im.bounds.xmin))

/-- `_shift`: image.py:1025-1028 (bounds part). -/
def Image.shiftBy (im : Image) (d : Pos ℤ) (py : Bool) : Image :=
  { im with bounds := im.bounds.shift clsI d py }

/-- The array after `_wrap`, or the exception raised before the array is assigned:
image.py:721-828 with the size requirements of `wrap_image.py` (zero or negative wrap sizes fail in
`//`, `jnp.pad` or `jnp.zeros`; sizes larger than the array fail in `dynamic_update_slice`; for a
hermitian wrap of non-static bounds the wrap size is not hashable). -/
noncomputable def Image.wrapArr (im : Image) (mode : ℕ) (b : Bounds ℤ) : Except ImErr (Arr ℝ) :=
  let r : Rect := ⟨im.bounds.xmin, im.bounds.ymin, im.bounds.deltax.toNat, im.bounds.deltay.toNat⟩
  let rb : Rect := ⟨b.xmin, b.ymin, b.deltax.toNat, b.deltay.toNat⟩
  if mode = 0 then
    if b.deltax < 1 ∨ b.deltay < 1 then .error .valueError
    else if (im.arr.w : ℤ) < b.deltax ∨ (im.arr.h : ℤ) < b.deltay then .error .typeError
    else .ok (imageWrap 0 im.arr r rb)
  else if mode = 1 then
    if im.bounds.xmin ≠ 0 ∨ b.xmin ≠ 0 then .error .incompatible
    else if b.posPy = false then .error .valueError
    else if b.xmax clsI < 1 ∨ b.deltay < 1 then .error .valueError
    else if (2 * im.arr.w - 1 : ℤ) < 2 * b.xmax clsI ∨ (im.arr.h : ℤ) < b.deltay then
      .error .typeError
    else .ok (imageWrap 1 im.arr r rb)
  else if mode = 2 then
    if im.bounds.ymin ≠ 0 ∨ b.ymin ≠ 0 then .error .incompatible
    else if b.posPy = false then .error .valueError
    else if b.ymax clsI < 1 ∨ b.deltax < 1 then .error .valueError
    else if (2 * im.arr.h - 1 : ℤ) < 2 * b.ymax clsI ∨ (im.arr.w : ℤ) < b.deltax then
      .error .typeError
    else .ok (imageWrap 2 im.arr r rb)
  else .error .valueError

/-- `x.at[i, j].set/add` guarded by definedness and inclusion: common part of `setValue` and
`addValue`, image.py:1083-1117. -/
def Image.updPixel (im : Image) (p : Pos ℤ) (f : ℝ → ℝ) : Image × Option ImErr :=
  if !im.bounds.defined then (im, some .undefinedBounds)
  else if !im.bounds.includesP clsI p then (im, some .outOfBounds)
  else ({ im with arr := im.arr.updAt (p.y - im.bounds.ymin) (p.x - im.bounds.xmin) f }, none)

/-- `setSubImage(b, rhs)` after the const check: image.py:621-668. -/
noncomputable def Image.setSub (im : Image) (b : Bounds ℤ) (rhs : Image) : Image × Option ImErr :=
  if !im.bounds.defined then (im, some .undefinedBounds)
  else if im.bounds.posPy && b.posPy && !im.bounds.includesB clsI b then (im, some .outOfBounds)
  else if b.numpyShape ≠ rhs.bounds.numpyShape then (im, some .incompatible)
  else
    let v := rhs.arr.mapIdx fun _ _ x => safeCast im.isInt x
    let r := if im.bounds.posPy && b.posPy then
        im.arr.setSlice v (b.ymin - im.bounds.ymin) (b.ymax clsI - im.bounds.ymin + 1)
          (b.xmin - im.bounds.xmin) (b.xmax clsI - im.bounds.xmin + 1)
      else im.arr.dynUpdate? v (b.ymin - im.bounds.ymin) (b.xmin - im.bounds.xmin)
    match r with
    | none => (im, some .valueError)
    | some a => ({ im with arr := a }, none)

/-- `invertSelf` on one pixel: image.py:1154-1170. -/
noncomputable def invPixel (isInt : Bool) (x : ℝ) : ℝ :=
  safeCast isInt (if x = 0 then 0 else 1 / (if x = 0 then 1 else x))

/-- One method call: image.py:368-374 (`array` setter), 569-577, 617-668, 721-828, 977-996, 1020-1038,
1083-1176, 1479-1740. -/
noncomputable def Image.step (im : Image) : Op → Image × Option ImErr
  | .resize b => im.guarded <|
    match makeEmpty b.numpyShape with
    | none => (im, some .valueError)
    | some a => ({ im with arr := a, bounds := b }, none)
  | .shift d py => (im.shiftBy d py, none)
  | .setCenter p py =>
    match im.bounds.centerI with
    | none => (im, some .undefinedBounds)
    | some c => (im.shiftBy ⟨p.x - c.x, p.y - c.y⟩ (py && im.bounds.posPy), none)
  | .setOrigin p py =>
    (im.shiftBy ⟨p.x - im.bounds.xmin, p.y - im.bounds.ymin⟩ (py && im.bounds.posPy), none)
  | .fill v => im.guarded <|
    if !im.bounds.defined then (im, some .undefinedBounds)
    else ({ im with arr := im.arr.mapIdx fun _ _ _ => rawCast im.isInt v }, none)
  | .setZero => im.guarded ({ im with arr := im.arr.mapIdx fun _ _ _ => 0 }, none)
  | .setValue p v => im.guarded (im.updPixel p fun _ => rawCast im.isInt v)
  | .addValue p v => im.guarded (im.updPixel p fun x => x + rawCast im.isInt v)
  | .setSubImage b rhs => im.guarded (im.setSub b rhs)
  | .copyFrom rhs => im.guarded <|
    if im.bounds.numpyShape ≠ rhs.bounds.numpyShape then (im, some .incompatible)
    else match rhs.arr.bcast im.arr.h im.arr.w with
      | none => (im, some .valueError)
      | some g => ({ im with arr := im.arr.mapIdx fun i j _ => safeCast im.isInt (g i j) }, none)
  | .invertSelf => im.guarded <|
    if !im.bounds.defined then (im, some .undefinedBounds)
    else ({ im with arr := im.arr.mapIdx fun _ _ x => invPixel im.isInt x }, none)
  | .replaceNegative v => im.guarded
    ({ im with arr := im.arr.mapIdx fun _ _ x => if x < 0 then rawCast im.isInt v else x }, none)
  | .inplace f intOnly direct rhs =>
    if intOnly && intRejected im.isInt rhs then (im, some .valueError)
    else match rhs.values im.arr.h im.arr.w with
      | .error e => (im, some e)
      | .ok g =>
        let c : ℝ → ℝ := if direct then id else safeCast im.isInt
        ({ im with arr := im.arr.mapIdx fun i j x => c (f x (g i j)) }, none)
  | .setArray a =>
    match a.bcast im.arr.h im.arr.w with
    | none => (im, some .valueError)
    | some g => ({ im with arr := im.arr.mapIdx fun i j _ => safeCast im.isInt (g i j) }, none)
  | .wrap mode b =>
    match im.wrapArr mode b with
    | .error e => (im, some e)
    | .ok a =>
      let im' : Image := { im with arr := a }
      match im'.subImage b with
      | .error e => (im', some e)
      | .ok _ => (im', none)

/-- A sequence of calls; exceptions are caught by the caller and the object is used further. -/
noncomputable def Image.run (im : Image) (ops : List Op) : Image :=
  ops.foldl (fun s o => (s.step o).1) im

/-- `_Image(array, bounds, wcs)`: image.py:1343-1354.  `_is_const` is never assigned. -/
def Image.raw (a : Arr ℝ) (b : Bounds ℤ) (isInt : Bool) : Image := ⟨a, b, none, isInt⟩

/-- `array.T`. -/
def Arr.transpose (a : Arr ℝ) : Arr ℝ := ⟨a.w, a.h, fun i j => a.at' j i⟩
/-- `array[::-1, :]`. -/
def Arr.revRows (a : Arr ℝ) : Arr ℝ := ⟨a.h, a.w, fun i j => a.at' (a.h - 1 - i) j⟩
/-- `array[:, ::-1]`. -/
def Arr.revCols (a : Arr ℝ) : Arr ℝ := ⟨a.h, a.w, fun i j => a.at' i (a.w - 1 - j)⟩

/-- `bT` in image.py:1202-1207, 1220-1225, 1230-1235. -/
def Bounds.transposeI (b : Bounds ℤ) : Bounds ℤ :=
  Bounds.mkDelta clsI ⟨b.ymin, b.posPy⟩ ⟨b.deltay, b.deltaPy⟩ ⟨b.xmin, b.posPy⟩ ⟨b.deltax, b.deltaPy⟩

/-- image.py:1201-1208. -/
def Image.transpose (im : Image) : Image := .raw im.arr.transpose im.bounds.transposeI im.isInt
/-- image.py:1210-1212. -/
def Image.flipLR (im : Image) : Image := .raw im.arr.revCols im.bounds im.isInt
/-- image.py:1214-1216. -/
def Image.flipUD (im : Image) : Image := .raw im.arr.revRows im.bounds im.isInt
/-- image.py:1218-1226. -/
def Image.rotCW (im : Image) : Image :=
  .raw im.arr.transpose.revRows im.bounds.transposeI im.isInt
/-- image.py:1228-1236. -/
def Image.rotCCW (im : Image) : Image :=
  .raw im.arr.transpose.revCols im.bounds.transposeI im.isInt
/-- image.py:1238-1240. -/
def Image.rot180 (im : Image) : Image := .raw im.arr.revRows.revCols im.bounds im.isInt

/-- `copy()`: image.py:492-548 without arguments except `make_const`. -/
def Image.copy (im : Image) (const : Bool) : Except ImErr Image :=
  if !im.bounds.defined then .ok ⟨⟨1, 1, fun _ _ => 0⟩, Bounds.empty clsI, some const, im.isInt⟩
  else Image.ofArrayBounds im.arr im.bounds im.isInt const

end JG
