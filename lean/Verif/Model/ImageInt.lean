import Verif.Model.Image
import Mathlib.Data.Int.Bitwise
import Mathlib.Analysis.SpecialFunctions.Pow.Real

/-!
Arithmetic of images of machine integers: `/repo/jax_galsim/image.py`, lines 1438 to 1792.  The right-hand side is an image of
machine integers or a Python integer.  The rules of jax for two dtypes and for Python integers are stated in `promote` and
`Rhs.ty`; 64-bit integers are taken to be enabled.
-/

namespace JG.IntIm

open JG

/-- The integer dtypes of images, image.py:49-58, and `int64`, in which jax computes some mixtures. -/
inductive IT
  | u16 | u32 | i16 | i32 | i64
deriving DecidableEq

/-- The number of bits. -/
def IT.bits : IT → ℕ
  | u16 | i16 => 16
  | u32 | i32 => 32
  | i64 => 64

/-- Whether there are negative numbers. -/
def IT.signed : IT → Bool
  | u16 | u32 => false
  | i16 | i32 | i64 => true

/-- `astype` from an integer: two's complement. -/
def IT.cast (t : IT) (n : ℤ) : ℤ := if t.signed then n.bmod (2 ^ t.bits) else n % 2 ^ t.bits

/-- The dtype of an operation between arrays of two dtypes (`jnp.promote_types`). -/
def promote : IT → IT → IT
  | .i64, _ | _, .i64 => .i64
  | .u32, .i16 | .u32, .i32 | .i16, .u32 | .i32, .u32 => .i64
  | .i32, _ | _, .i32 => .i32
  | .u16, .i16 | .i16, .u16 => .i32
  | .i16, .i16 => .i16
  | .u32, _ | _, .u32 => .u32
  | .u16, .u16 => .u16

/-- The dtype of an image made from an array of this dtype: image.py:35-47, 147-154. -/
def imType : IT → IT
  | .i64 => .i32
  | t => t

/-- The elementwise operations. -/
inductive BinOp
  | add | sub | mul | floordiv | mod | and | or | xor
deriving DecidableEq

/-- The result for numbers of any size; `z` gives the results of a division by zero. -/
def BinOp.eval (z : ℤ → ℤ) : BinOp → ℤ → ℤ → ℤ
  | add, a, b => a + b
  | sub, a, b => a - b
  | mul, a, b => a * b
  | floordiv, a, b => if b = 0 then z a else a.fdiv b
  | mod, a, b => if b = 0 then z a else a.fmod b
  | and, a, b => a.land b
  | or, a, b => a.lor b
  | xor, a, b => Int.xor a b

/-- The operation on arrays of one dtype. -/
def mach (z : ℤ → ℤ) (t : IT) (op : BinOp) (a b : ℤ) : ℤ := t.cast (op.eval z (t.cast a) (t.cast b))

/-- An image of integers. -/
structure IImage where
  ty : IT
  arr : Arr ℤ
  bounds : Bounds ℤ
  isConst : Bool

/-- The other operand. -/
inductive Rhs
  | image (im : IImage)
  | pyInt (n : ℤ)

/-- The dtype of the other operand next to an array of dtype `t`; a Python integer takes that of the array. -/
def Rhs.ty (t : IT) : Rhs → IT
  | image im => im.ty
  | pyInt _ => t

/-- The value of the other operand in a pixel. -/
def Rhs.at (o : Rhs) (i j : ℕ) : ℤ :=
  match o with
  | image im => im.arr.at' i j
  | pyInt n => n

/-- `check_image_consistency`: image.py:1458-1467.  All images here are integer ones. -/
def consistent (im : IImage) : Rhs → Bool
  | .image o => im.arr.h == o.arr.h && im.arr.w == o.arr.w
  | .pyInt _ => true

/-- `Image(array, bounds=bounds)` for an array of dtype `t`: image.py:147-171, 212-224, 246-248, 271-304. -/
def construct (t : IT) (arr : Arr ℤ) (b : Bounds ℤ) : Except ImErr IImage :=
  if b.defined then
    if b.deltax ≠ arr.w then .error .incompatible
    else if b.deltay ≠ arr.h then .error .incompatible
    else .ok ⟨imType t, ⟨arr.h, arr.w, fun i j => (imType t).cast (arr.at' i j)⟩,
      Bounds.mkDelta clsI ⟨b.xmin, b.posPy⟩ ⟨arr.w, true⟩ ⟨b.ymin, b.posPy⟩ ⟨arr.h, true⟩, false⟩
  else .ok ⟨imType t, ⟨1, 1, fun _ _ => 0⟩, Bounds.empty clsI, false⟩

/-- `Image_add`, `Image_sub`, `Image_mul`, `Image_floordiv`, `Image_mod`, `Image_and`, `Image_xor`, `Image_or`:
image.py:1470-1476, 1498-1504, 1530-1536, 1592-1598, 1625-1631, 1684-1690, 1703-1709, 1722-1728. -/
def binary (z : ℤ → ℤ) (op : BinOp) (im : IImage) (o : Rhs) : Except ImErr IImage :=
  if !consistent im o then .error .incompatible
  else
    let t := promote im.ty (o.ty im.ty)
    construct t ⟨im.arr.h, im.arr.w, fun i j => mach z t op (im.arr.at' i j) (o.at i j)⟩ im.bounds

/-- `Image_rsub`, `Image_rfloordiv`, `Image_rmod` and the commutative `__radd__`, ... for a Python integer on the left:
image.py:1507-1508, 1601-1603, 1634-1636, 1742-1792. -/
def reflected (z : ℤ → ℤ) (op : BinOp) (n : ℤ) (im : IImage) : Except ImErr IImage :=
  match op with
  | .sub | .floordiv | .mod =>
    construct im.ty ⟨im.arr.h, im.arr.w, fun i j => mach z im.ty op n (im.arr.at' i j)⟩ im.bounds
  | _ => binary z op im (.pyInt n)

/-- Whether `dt == self.array.dtype`; `type(a)` of a Python integer is `int`, which is `int64`. -/
def sameType (im : IImage) : Rhs → Bool
  | .image o => im.ty == o.ty
  | .pyInt _ => im.ty == .i64

/-- `Image_iadd`, `Image_isub`, `Image_imul`, `Image_ifloordiv`, `Image_imod` and, without a distinction of dtypes,
`Image_iand`, `Image_ixor`, `Image_ior`: image.py:1479-1495, 1511-1527, 1539-1555, 1606-1622, 1639-1655, 1693-1700, 1712-1719,
1731-1738.  `jnp.around` keeps integers. -/
def inplace (z : ℤ → ℤ) (op : BinOp) (im : IImage) (o : Rhs) : IImage × Option ImErr :=
  if !consistent im o then (im, some .incompatible)
  else
    let t := promote im.ty (o.ty im.ty)
    match op with
    | .and | .or | .xor =>
      ({ im with arr := ⟨im.arr.h, im.arr.w, fun i j => im.ty.cast (mach z t op (im.arr.at' i j) (o.at i j))⟩ }, none)
    | _ =>
      if sameType im o then
        ({ im with arr := ⟨im.arr.h, im.arr.w, fun i j => mach z im.ty op (im.arr.at' i j) (o.at i j)⟩ }, none)
      else
        ({ im with arr := ⟨im.arr.h, im.arr.w, fun i j => im.ty.cast (mach z t op (im.arr.at' i j) (o.at i j))⟩ }, none)

/-- `Image_neg`, with `copy`: image.py:1677-1680, 492-549. -/
def neg (z : ℤ → ℤ) (im : IImage) : Except ImErr IImage :=
  match construct im.ty im.arr im.bounds with
  | .error e => .error e
  | .ok c => .ok (inplace z .mul c (.pyInt (-1))).1

/-- `Image_idiv`: image.py:1571-1589.  The quotient is a float (exact here); the division by zero is `none`. -/
noncomputable def idivPixel (t : IT) (a b : ℤ) : Option ℤ :=
  if b = 0 then none else some (t.cast (roundEven ((a : ℝ) / b)))

/-- Power of a machine integer with an exponent that is not negative, as jax computes it: repeated squaring in the dtype. -/
def machPow (z : ℤ → ℤ) (t : IT) (a : ℤ) (n : ℕ) : ℤ :=
  if h : n = 0 then t.cast 1
  else
    let r := machPow z t (mach z t .mul a a) (n / 2)
    if n % 2 = 1 then mach z t .mul a r else r
termination_by n
decreasing_by omega

/-- `Image_pow` with a Python integer: image.py:1658-1659.  Negative exponents are left out (jax refuses them for integers). -/
def pow (z : ℤ → ℤ) (im : IImage) (n : ℕ) : Except ImErr IImage :=
  construct im.ty ⟨im.arr.h, im.arr.w, fun i j => machPow z im.ty (im.arr.at' i j) n⟩ im.bounds

/-- The exponents that `Image_ipow` tells apart. -/
inductive Expo
  | int (n : ℕ)
  | flt (x : ℝ)
  | other

/-- `Image_ipow`: image.py:1662-1674; `none` in a pixel stands for a float that is not finite (a negative base with a float
exponent is left out too). -/
noncomputable def ipow (z : ℤ → ℤ) (im : IImage) : Expo → Except ImErr (ℕ → ℕ → Option ℤ)
  | .other => .error .typeError
  | .int n => .ok fun i j => some (machPow z im.ty (im.arr.at' i j) n)
  | .flt x => .ok fun i j =>
    let a := im.arr.at' i j
    if a < 0 ∨ (a = 0 ∧ x < 0) then none else some (im.ty.cast (roundEven ((a : ℝ) ^ x)))

end JG.IntIm
