import Verif.Model.Angle
import Verif.Model.InterpName

/-!
The operators of angles and units as Python finds them: `/repo/jax_galsim/angle.py:49-121, 148-290`.

Values are numbers (Python numbers or jax arrays without dimension), angles and units; floats are exact reals.  A method that is not
defined, and one that returns `NotImplemented`, give `Res.ni`.  Simplifications: a division by the number zero, which is an exception
for Python floats and an infinite value for jax floats, is the error `zero`; an `AttributeError` (`.rad` of a number) is counted as a
type error; strings given to `AngleUnit(...)` are not modelled.
-/

namespace JG.AngOp

set_option autoImplicit false

/-- The values. -/
inductive V
  | num (x : ℝ)
  | ang (a : Angle)
  | unit (u : AngleUnit)

/-- The exceptions. -/
inductive Err
  | type
  | zero
  deriving DecidableEq

/-- What a special method does. -/
inductive Res
  | ni
  | val (v : V)
  | err (e : Err)

/-- `type(a) is type(b)`. -/
def sameCls : V → V → Bool
  | .num _, .num _ => true
  | .ang _, .ang _ => true
  | .unit _, .unit _ => true
  | _, _ => false

/-- The division of floats. -/
noncomputable def fdiv (x y : ℝ) (f : ℝ → V) : Res := if y = 0 then .err .zero else .val (f (x / y))

/-- `cast_to_float(theta)` without strings: core/utils.py:45-65; `jnp.astype` refuses angles and units. -/
def castFloat : V → Except Err ℝ
  | .num x => .ok x
  | _ => .error .type

/-- `Angle(theta, unit)`: angle.py:151-165. -/
noncomputable def angleInit (theta : V) (unit : Option V) : Except Err V :=
  match theta with
  | .ang a => match unit with
    | some _ => .error .type
    | none => .ok (.ang a)
  | t => match unit with
    | none => .error .type
    | some (.unit u) => match castFloat t with
      | .ok x => .ok (.ang (mkAngle x u))
      | .error e => .error e
    | some _ => .error .type

/-- `AngleUnit(value)`: angle.py:54-57. -/
def unitInit : V → Except Err V
  | .unit _ => .error .type
  | v => match castFloat v with
    | .ok x => .ok (.unit ⟨x⟩)
    | .error e => .error e

/-- An exception or a value as the result of a method. -/
def Res.ofExcept : Except Err V → Res
  | .ok v => .val v
  | .error e => .err e

/-- `a.__add__(b)`: angle.py:186-191. -/
noncomputable def addL : V → V → Res
  | .num x, .num y => .val (.num (x + y))
  | .ang a, .ang b => .val (.ang (a.add b))
  | .ang _, _ => .err .type
  | _, _ => .ni

/-- `a.__sub__(b)`: angle.py:193-198. -/
noncomputable def subL : V → V → Res
  | .num x, .num y => .val (.num (x - y))
  | .ang a, .ang b => .val (.ang (a.sub b))
  | .ang _, _ => .err .type
  | _, _ => .ni

/-- `__radd__` and `__rsub__` are not defined. -/
def noR : V → V → Res := fun _ _ => .ni

/-- `a.__mul__(b)`: angle.py:200-205. -/
noncomputable def mulL : V → V → Res
  | .num x, .num y => .val (.num (x * y))
  | .ang a, .num s => .val (.ang (a.mul s))
  | .ang _, _ => .err .type
  | _, _ => .ni

/-- `a.__rmul__(b)`: angle.py:64-66, 207. -/
noncomputable def mulR : V → V → Res
  | .ang a, b => mulL (.ang a) b
  | .unit u, b => .ofExcept (angleInit b (some (.unit u)))
  | _, _ => .ni

/-- `a.__truediv__(b)`: angle.py:68-79, 209-219. -/
noncomputable def divL : V → V → Res
  | .num x, .num y => fdiv x y .num
  | .ang a, .unit u => fdiv a.rad u.value .num
  | .ang a, .num s => fdiv a.rad s fun x => .ang ⟨x⟩
  | .ang _, .ang _ => .err .type
  | .unit u, .unit v => fdiv u.value v.value .num
  | .unit _, _ => .err .type
  | _, _ => .ni

/-- A binary operator of Python: the method of the left operand, then, if the classes differ, the reflected method of the right
operand, then `TypeError`. -/
def pyBin (l r : V → V → Res) (a b : V) : Except Err V :=
  match l a b with
  | .val v => .ok v
  | .err e => .error e
  | .ni =>
    if sameCls a b then .error .type
    else match r b a with
      | .val v => .ok v
      | .err e => .error e
      | .ni => .error .type

/-- `-a`: angle.py:177-178. -/
noncomputable def pyNeg : V → Except Err V
  | .num x => .ok (.num (-x))
  | .ang a => .ok (.ang a.neg)
  | .unit _ => .error .type

/-- `+a`: angle.py:180-181. -/
def pyPos : V → Except Err V
  | .unit _ => .error .type
  | v => .ok v

/-- `abs(a)`: angle.py:183-184. -/
noncomputable def pyAbs : V → Except Err V
  | .num x => .ok (.num |x|)
  | .ang a => .ok (.ang a.abs)
  | .unit _ => .error .type

/-- `a.rad`: angle.py:167-170. -/
def pyRad : V → Except Err V
  | .ang a => .ok (.num a.rad)
  | _ => .error .type

/-- `a.deg`: angle.py:172-175. -/
noncomputable def pyDeg : V → Except Err V
  | .ang a => pyBin divL noR (.ang a) (.unit degrees)
  | _ => .error .type

/-- `a.wrap(center)`: angle.py:221-229. -/
noncomputable def pyWrap : V → Option V → Except Err V
  | .ang a, none => .ok (.ang a.wrap)
  | .ang a, some (.ang c) => .ok (.ang (a.wrap c))
  | _, _ => .error .type

/-- `sin`, `cos` of an angle: angle.py:231-237. -/
noncomputable def pySin : V → Except Err V
  | .ang a => .ok (.num (Real.sin a.rad))
  | _ => .error .type
@[inherit_doc pySin]
noncomputable def pyCos : V → Except Err V
  | .ang a => .ok (.num (Real.cos a.rad))
  | _ => .error .type

/-- `sincos`: angle.py:243-247. -/
noncomputable def pySincos : V → Except Err (V × V)
  | .ang a => .ok (.num (Real.sin a.rad), .num (Real.cos a.rad))
  | _ => .error .type

/-- Expressions of numbers, angles and units. -/
inductive Expr
  | lit (v : V)
  | add (a b : Expr)
  | sub (a b : Expr)
  | mul (a b : Expr)
  | div (a b : Expr)
  | neg (a : Expr)
  | pos (a : Expr)
  | abs (a : Expr)
  /-- `Angle(a)` -/
  | copy (a : Expr)
  /-- `Angle(a, b)` -/
  | make (a b : Expr)
  | rad (a : Expr)
  | deg (a : Expr)
  | wrap (a b : Expr)

/-- The value of an expression, operands from left to right. -/
noncomputable def Expr.eval : Expr → Except Err V
  | .lit v => .ok v
  | .add a b => do pyBin addL noR (← a.eval) (← b.eval)
  | .sub a b => do pyBin subL noR (← a.eval) (← b.eval)
  | .mul a b => do pyBin mulL mulR (← a.eval) (← b.eval)
  | .div a b => do pyBin divL noR (← a.eval) (← b.eval)
  | .neg a => do pyNeg (← a.eval)
  | .pos a => do pyPos (← a.eval)
  | .abs a => do pyAbs (← a.eval)
  | .copy a => do angleInit (← a.eval) none
  | .make a b => do angleInit (← a.eval) (some (← b.eval))
  | .rad a => do pyRad (← a.eval)
  | .deg a => do pyDeg (← a.eval)
  | .wrap a b => do pyWrap (← a.eval) (some (← b.eval))

/-! ### Comparison -/

/-- What a comparison method does. -/
inductive CRes
  | ni
  | val (b : Prop)
  | err (e : Err)

/-- The comparisons. -/
inductive Cmp
  | lt | le | gt | ge
  deriving DecidableEq

/-- The comparison with the operands exchanged. -/
def Cmp.swap : Cmp → Cmp
  | .lt => .gt
  | .le => .ge
  | .gt => .lt
  | .ge => .le

/-- The comparison of floats. -/
def Cmp.on : Cmp → ℝ → ℝ → Prop
  | .lt, x, y => x < y
  | .le, x, y => x ≤ y
  | .gt, x, y => x > y
  | .ge, x, y => x ≥ y

/-- `__lt__`, `__le__`, `__gt__`, `__ge__`: angle.py:261-287. -/
def cmpL (c : Cmp) : V → V → CRes
  | .num x, .num y => .val (c.on x y)
  | .ang a, .ang b => .val (c.on a.rad b.rad)
  | .ang _, _ => .err .type
  | _, _ => .ni

/-- A comparison of Python: the method of the left operand, then the exchanged one of the right operand, then `TypeError`. -/
def pyCmp (c : Cmp) (a b : V) : Except Err Prop :=
  match cmpL c a b with
  | .val v => .ok v
  | .err e => .error e
  | .ni => match cmpL c.swap b a with
    | .val v => .ok v
    | .err e => .error e
    | .ni => .error .type

/-- `a == b`: angle.py:114-115, 255-256. -/
def pyEq : V → V → Prop
  | .num x, .num y => x = y
  | .ang a, .ang b => a.rad = b.rad
  | .unit u, .unit v => u.value = v.value
  | _, _ => False

/-- `a != b`: angle.py:117-118, 258-259. -/
def pyNe (a b : V) : Prop := ¬pyEq a b

/-- What is fed to `hash`: angle.py:120-121, 289-290; core/utils.py:147-162. -/
def hkey : V → List EqH.HKey
  | .num x => [.num x]
  | .ang a => [.str "galsim.Angle", .num a.rad]
  | .unit u => [.str "galsim.AngleUnit", .num u.value]

/-! ### Names -/

/-- `AngleUnit.from_name(unit)`: angle.py:81-98; `none`: `ValueError`. -/
noncomputable def unitFromName (s : List Char) : Option AngleUnit :=
  let s := IName.lower (IName.strip s)
  if "rad".toList.isPrefixOf s then some radians
  else if "deg".toList.isPrefixOf s then some degrees
  else if "hour".toList.isPrefixOf s then some hours
  else if "hr".toList.isPrefixOf s then some hours
  else if "arcmin".toList.isPrefixOf s then some arcmin
  else if "arcsec".toList.isPrefixOf s then some arcsec
  else none

/-- `AngleUnit.valid_names`: angle.py:52. -/
def validNames : List (List Char) :=
  ["rad".toList, "deg".toList, "hr".toList, "hour".toList, "arcmin".toList, "arcsec".toList]

/-- The text of a unit: one of the names of the module, or the constructor with a number. -/
inductive UText
  | name (s : String)
  | call (x : ℝ)

open Classical in
/-- `AngleUnit.__repr__`: angle.py:100-112. -/
noncomputable def unitRepr (u : AngleUnit) : UText :=
  if u.value = radians.value then .name "galsim.radians"
  else if u.value = degrees.value then .name "galsim.degrees"
  else if u.value = hours.value then .name "galsim.hours"
  else if u.value = arcmin.value then .name "galsim.arcmin"
  else if u.value = arcsec.value then .name "galsim.arcsec"
  else .call u.value

/-- The value of the text, the decimal form of a number being read back exactly: angle.py:138-145. -/
noncomputable def UText.read : UText → Option AngleUnit
  | .name s =>
    if s = "galsim.radians" then some radians
    else if s = "galsim.hours" then some hours
    else if s = "galsim.degrees" then some degrees
    else if s = "galsim.arcmin" then some arcmin
    else if s = "galsim.arcsec" then some arcsec
    else none
  | .call x => match unitInit (.num x) with
    | .ok (.unit u) => some u
    | _ => none

/-- `Angle.__repr__` read back, `galsim.Angle(rad, galsim.radians)`: angle.py:252-253. -/
noncomputable def angleReprRead (a : Angle) : Except Err V := angleInit (.num a.rad) (some (.unit radians))

end JG.AngOp
