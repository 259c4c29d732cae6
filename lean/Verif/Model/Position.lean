import Mathlib.Algebra.Order.Archimedean.Real.Basic

/-!
Model of `/repo/jax_galsim/position.py`.  Coordinates are exact (`ℤ` for `PositionI`, `ℝ` for
`PositionD`); python exceptions are `none`.
-/

namespace JG

/-- `jnp.round`: round half to even (numpy semantics), used at position.py:139. -/
noncomputable def roundHalfEven (x : ℝ) : ℤ :=
  if Int.fract x < 1/2 then ⌊x⌋
  else if 1/2 < Int.fract x then ⌊x⌋ + 1
  else if ⌊x⌋ % 2 = 0 then ⌊x⌋ else ⌊x⌋ + 1

/-- A `PositionI` or `PositionD`: position.py:186-230. -/
inductive Position
  | I (x y : ℤ)
  | D (x y : ℝ)

/-- Scalars given to `*` and `/`. -/
abbrev PScalar := ℝ

/-- `check_is_int_then_cast` on a python number, core/utils.py:12-31 (`none`: `TypeError`). -/
noncomputable def asInt (x : ℝ) : Option ℤ := if x = (⌊x⌋ : ℝ) then some ⌊x⌋ else none

/-- `PositionI(x, y)` with real arguments: position.py:221-230. -/
noncomputable def mkPosI (x y : ℝ) : Option Position :=
  match asInt x, asInt y with
  | some a, some b => some (.I a b)
  | _, _ => none

/-- `self.x`, `self.y` as reals. -/
noncomputable def Position.val : Position → ℝ × ℝ
  | .I x y => (x, y)
  | .D x y => (x, y)

/-- `__mul__`/`__rmul__`: position.py:64-69 with the `_check_scalar` of each class
(position.py:196-208, 232-244): a `PositionI` only takes integer values. -/
noncomputable def Position.mul : Position → PScalar → Option Position
  | .I x y, s => if (asInt s).isSome then mkPosI (x * s) (y * s) else none
  | .D x y, s => some (.D (x * s) (y * s))

/-- `__truediv__`: position.py:71-75; division by zero raises `ZeroDivisionError` for python
numbers.  A `PositionI` result with non-integer coordinates raises `TypeError`. -/
noncomputable def Position.div : Position → PScalar → Option Position
  | .I x y, s => if (asInt s).isSome ∧ s ≠ 0 then mkPosI (x / s) (y / s) else none
  | .D x y, s => if s ≠ 0 then some (.D (x / s) (y / s)) else none

/-- `__neg__`: position.py:77-78. -/
noncomputable def Position.neg : Position → Position
  | .I x y => .I (-x) (-y)
  | .D x y => .D (-x) (-y)

/-- `__add__` with a position: position.py:80-90. -/
noncomputable def Position.add : Position → Position → Position
  | .I x y, .I x' y' => .I (x + x') (y + y')
  | .D x y, .D x' y' => .D (x + x') (y + y')
  | .I x y, .D x' y' => .D (x + x') (y + y')
  | .D x y, .I x' y' => .D (x + x') (y + y')

/-- `__sub__`: position.py:92-100. -/
noncomputable def Position.sub : Position → Position → Position
  | .I x y, .I x' y' => .I (x - x') (y - y')
  | .D x y, .D x' y' => .D (x - x') (y - y')
  | .I x y, .D x' y' => .D (x - x') (y - y')
  | .D x y, .I x' y' => .D (x - x') (y - y')

/-- `__eq__`: position.py:116-121 (different classes never compare equal). -/
def Position.eq : Position → Position → Prop
  | .I x y, .I x' y' => x = x' ∧ y = y'
  | .D x y, .D x' y' => x = x' ∧ y = y'
  | _, _ => False

/-- Tuple hashed by `__hash__`: position.py:126-129. -/
noncomputable def Position.hashKey : Position → Bool × ℝ × ℝ
  | .I x y => (true, x, y)
  | .D x y => (false, x, y)

/-- A 2×2 matrix, row by row. -/
structure Mat2 where
  a : ℝ
  b : ℝ
  c : ℝ
  d : ℝ

/-- Matrix times vector (`jnp.dot`). -/
noncomputable def Mat2.app (m : Mat2) (v : ℝ × ℝ) : ℝ × ℝ :=
  (m.a * v.1 + m.b * v.2, m.c * v.1 + m.d * v.2)

/-- `shear(shear)`: position.py:131-135, with the matrix of the shear as argument. -/
noncomputable def Position.shear (p : Position) (m : Mat2) : Position :=
  .D (m.app p.val).1 (m.app p.val).2

/-- `round()`: position.py:137-139. -/
noncomputable def Position.round (p : Position) : Position :=
  .I (roundHalfEven p.val.1) (roundHalfEven p.val.2)

/-- `PositionD(position)`: position.py:21-38, 189-194 (one `Position` argument). -/
noncomputable def Position.toD (p : Position) : Position := .D p.val.1 p.val.2

/-- Pytree leaves: position.py:141-146 (the class is the registered node type). -/
inductive PosFlat
  | I (x y : ℤ)
  | D (x y : ℝ)
/-- position.py:141-146. -/
def Position.flatten : Position → PosFlat
  | .I x y => .I x y
  | .D x y => .D x y
/-- position.py:148-155 (fields are set without validation). -/
def PosFlat.unflatten : PosFlat → Position
  | .I x y => .I x y
  | .D x y => .D x y

end JG
