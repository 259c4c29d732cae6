import Mathlib.Algebra.Order.Ring.Defs
import Mathlib.Algebra.Order.Floor.Ring
import Mathlib.Algebra.Order.Archimedean.Real.Basic
import Mathlib.Data.Int.Interval

/-!
Model of `/repo/jax_galsim/bounds.py`.

`BoundsI` and `BoundsD` share the base class `Bounds`; the only differences relevant here are collected
in a `Cls` record: `ext = 1` for `BoundsI` and `ext = 0` for `BoundsD` (`xmax = xmin + delta - ext`).
Floats are exact reals.  Scalars may be python/numpy numbers or jax arrays; only the first kind is
checked in `_parse_args` (bounds.py:132-141), so the kind is part of the model.
-/

namespace JG

/-- A scalar argument together with whether it is a python/numpy number (`py = true`) or a
jax array (`py = false`); bounds.py:137-138 `isinstance(.., (int, float, np.integer, np.floating))`. -/
structure Scal (α : Type) where
  val : α
  py : Bool
deriving DecidableEq

/-- Class-level data of `BoundsI`/`BoundsD`.
`ext`: the `+1` in `BoundsI.xmax` (bounds.py:567-573) and `max_delta` (bounds.py:131-135);
`isI`: whether the extra check at bounds.py:529-530 is made. -/
structure Cls (α : Type) where
  ext : α
  isI : Bool

/-- bounds.py:491-530 (`BoundsI`). -/
def clsI : Cls ℤ := ⟨1, true⟩
/-- bounds.py:405-416 (`BoundsD`). -/
def clsD : Cls ℝ := ⟨0, false⟩

/-- State of a `Bounds` object: attributes `xmin`, `ymin`, `deltax`, `deltay`, `_isdefined`,
`posPy` (python-number `xmin`/`ymin`, i.e. `_isstatic` of a `BoundsI`, bounds.py:509-519) and
`deltaPy` (both deltas python numbers). -/
structure Bounds (α : Type) where
  xmin : α
  ymin : α
  deltax : α
  deltay : α
  posPy : Bool
  deltaPy : Bool
  defined : Bool
deriving DecidableEq

/-- A position with its coordinate kinds merged (position.py). -/
structure Pos (α : Type) where
  x : α
  y : α
deriving DecidableEq

variable {α : Type} [CommRing α] [LinearOrder α]

/-- Common tail of the constructors: bounds.py:131-141 (python deltas below `max_delta` make the
bounds undefined) and, for `BoundsI`, bounds.py:529-530 (undefined if *both* deltas are below 1). -/
def Bounds.finish (c : Cls α) (x dx y dy : α) (posPy deltaPy d0 : Bool) : Bounds α :=
  { xmin := x, ymin := y, deltax := dx, deltay := dy, posPy := posPy, deltaPy := deltaPy,
    defined := d0 && !(deltaPy && (decide (dx < c.ext) || decide (dy < c.ext)))
                  && !(c.isI && (decide (dx < c.ext) && decide (dy < c.ext))) }

/-- Keyword constructor with deltas: bounds.py:104-120. -/
def Bounds.mkDelta (c : Cls α) (x dx y dy : Scal α) : Bounds α :=
  Bounds.finish c x.val dx.val y.val dy.val (x.py && y.py) (dx.py && dy.py) true

/-- Four positional arguments `(xmin, xmax, ymin, ymax)`: bounds.py:50-52 with the `xmax` setters
bounds.py:436-446 / 571-595 (`deltax = xmax - xmin + ext`). -/
def Bounds.mk4 (c : Cls α) (x x' y y' : Scal α) : Bounds α :=
  Bounds.finish c x.val (x'.val - x.val + c.ext) y.val (y'.val - y.val + c.ext)
    (x.py && y.py) (x.py && x'.py && (y.py && y'.py)) true

/-- No argument: bounds.py:53-58. -/
def Bounds.empty (c : Cls α) : Bounds α :=
  Bounds.finish c 0 0 0 0 true true false

/-- One `Position` argument: bounds.py:72-75,81 (python coordinates). -/
def Bounds.ofPos (c : Cls α) (p : Pos α) (py : Bool) : Bounds α :=
  Bounds.finish c p.x (p.x - p.x + c.ext) p.y (p.y - p.y + c.ext) py py true

/-- One `Bounds` argument of the same class: bounds.py:60-71, and line 81, which sets
`_isdefined = True` again after it was copied at line 67. -/
def Bounds.copy (c : Cls α) (b : Bounds α) : Bounds α :=
  Bounds.finish c b.xmin b.deltax b.ymin b.deltay b.posPy b.deltaPy true

/-- `xmax` property: bounds.py:432-434, 567-569. -/
def Bounds.xmax (c : Cls α) (b : Bounds α) : α := b.xmin + b.deltax - c.ext
/-- `ymax` property: bounds.py:440-442, 589-591. -/
def Bounds.ymax (c : Cls α) (b : Bounds α) : α := b.ymin + b.deltay - c.ext

/-- `includes(Position)` and `includes(x, y)`: bounds.py:197-216. -/
def Bounds.includesP (c : Cls α) (b : Bounds α) (p : Pos α) : Bool :=
  b.defined && decide (b.xmin ≤ p.x) && decide (b.ymin ≤ p.y) && decide (p.x ≤ b.xmax c)
    && decide (p.y ≤ b.ymax c)

/-- `includes(Bounds)`: bounds.py:186-196. -/
def Bounds.includesB (c : Cls α) (a b : Bounds α) : Bool :=
  a.defined && b.defined && decide (a.xmin ≤ b.xmin) && decide (a.xmax c ≥ b.xmax c)
    && decide (a.ymin ≤ b.ymin) && decide (a.ymax c ≥ b.ymax c)

/-- `a & b`: bounds.py:264-277.  `jnp.maximum`/`minimum` return jax arrays (`py = false`). -/
def Bounds.and (c : Cls α) (a b : Bounds α) : Bounds α :=
  if !a.defined || !b.defined then Bounds.empty c
  else
    let xmin := max a.xmin b.xmin
    let xmax := min (a.xmax c) (b.xmax c)
    let ymin := max a.ymin b.ymin
    let ymax := min (a.ymax c) (b.ymax c)
    if xmin > xmax ∨ ymin > ymax then Bounds.empty c
    else Bounds.mk4 c ⟨xmin, false⟩ ⟨xmax, false⟩ ⟨ymin, false⟩ ⟨ymax, false⟩

/-- `a + b` for bounds: bounds.py:279-290. -/
def Bounds.add (c : Cls α) (a b : Bounds α) : Bounds α :=
  if !b.defined then a
  else if a.defined then
    Bounds.mk4 c ⟨min a.xmin b.xmin, false⟩ ⟨max (a.xmax c) (b.xmax c), false⟩
      ⟨min a.ymin b.ymin, false⟩ ⟨max (a.ymax c) (b.ymax c), false⟩
  else b

/-- `a + p` for a position (python coordinates): bounds.py:291-299. -/
def Bounds.addP (c : Cls α) (a : Bounds α) (p : Pos α) : Bounds α :=
  if a.defined then
    Bounds.mk4 c ⟨min a.xmin p.x, false⟩ ⟨max (a.xmax c) p.x, false⟩
      ⟨min a.ymin p.y, false⟩ ⟨max (a.ymax c) p.y, false⟩
  else Bounds.ofPos c p true

/-- `withBorder(dx, dy)`: bounds.py:148-159 (`py`: whether `dx`, `dy` are python numbers). -/
def Bounds.withBorder (c : Cls α) (b : Bounds α) (dx dy : α) (py : Bool) : Bounds α :=
  Bounds.finish c (b.xmin - dx) (b.deltax + 2 * dx) (b.ymin - dy) (b.deltay + 2 * dy)
    (b.posPy && py) (b.deltaPy && py) true

/-- `shift(delta)`: bounds.py:254-262. -/
def Bounds.shift (c : Cls α) (b : Bounds α) (d : Pos α) (py : Bool) : Bounds α :=
  Bounds.finish c (b.xmin + d.x) b.deltax (b.ymin + d.y) b.deltay (b.posPy && py) b.deltaPy true

/-- `expand` for `BoundsD`: bounds.py:223-231. -/
noncomputable def Bounds.expandD (b : Bounds ℝ) (fx fy : ℝ) : Bounds ℝ :=
  b.withBorder clsD ((b.xmax clsD - b.xmin) * (1/2) * (fx - 1))
    ((b.ymax clsD - b.ymin) * (1/2) * (fy - 1)) true

/-- `expand` for `BoundsI`: bounds.py:223-231; the ceil makes jax scalars. -/
noncomputable def Bounds.expandI (b : Bounds ℤ) (fx fy : ℝ) : Bounds ℤ :=
  b.withBorder clsI ⌈((b.xmax clsI - b.xmin : ℤ) : ℝ) * (1/2) * (fx - 1)⌉
    ⌈((b.ymax clsI - b.ymin : ℤ) : ℝ) * (1/2) * (fy - 1)⌉ false

/-- `area()` of a `BoundsI`: bounds.py:597-602. -/
def Bounds.areaI (b : Bounds ℤ) : ℤ := if !b.defined then 0 else b.deltax * b.deltay
/-- `area()` of a `BoundsD`: bounds.py:448-449 (no definedness check). -/
def Bounds.areaD (b : Bounds ℝ) : ℝ := b.deltax * b.deltay
/-- `numpyShape()`: bounds.py:546-551. -/
def Bounds.numpyShape (b : Bounds ℤ) : ℤ × ℤ := if b.defined then (b.deltay, b.deltax) else (0, 0)
/-- `center` of a `BoundsI`: bounds.py:167-174, 604-614; `none` is the
`GalSimUndefinedBoundsError`. -/
def Bounds.centerI (b : Bounds ℤ) : Option (Pos ℤ) :=
  if !b.defined then none else some ⟨b.xmin + b.deltax / 2, b.ymin + b.deltay / 2⟩
/-- `true_center`: bounds.py:176-182 (for a `BoundsI`; python `/ 2.0` is real division). -/
noncomputable def Bounds.trueCenterI (b : Bounds ℤ) : Option (Pos ℝ) :=
  if !b.defined then none else
    some ⟨((b.xmax clsI + b.xmin : ℤ) : ℝ) / 2, ((b.ymax clsI + b.ymin : ℤ) : ℝ) / 2⟩

/-- `_getinitargs`: bounds.py:306-310 (D: `xmin,xmax,ymin,ymax`), 690-694 (I: deltas). -/
def Bounds.initargs (c : Cls α) (b : Bounds α) : Option (α × α × α × α) :=
  if b.defined then
    if c.isI then some (b.xmin, b.deltax, b.ymin, b.deltay)
    else some (b.xmin, b.xmax c, b.ymin, b.ymax c)
  else none

/-- `__eq__` between bounds of the same class: bounds.py:312-316, 696-699. -/
def Bounds.eq (c : Cls α) (a b : Bounds α) : Bool := decide (a.initargs c = b.initargs c)

/-- The tuple hashed by `__hash__`: bounds.py:321-330, 479-488, 701-710 (class name omitted). -/
def Bounds.hashKey (b : Bounds α) : α × α × α × α := (b.xmin, b.deltax, b.ymin, b.deltay)

/-- Conversion `BoundsI(boundsD)`: bounds.py:60-71,81 with `offset = 1`; the integer checks at
bounds.py:503-507, 521-527 raise `TypeError` (`none`) on non-integer input.  -/
noncomputable def Bounds.toI (b : Bounds ℝ) : Option (Bounds ℤ) :=
  if (⌊b.xmin⌋ : ℝ) = b.xmin ∧ (⌊b.ymin⌋ : ℝ) = b.ymin ∧ (⌊b.deltax⌋ : ℝ) = b.deltax
      ∧ (⌊b.deltay⌋ : ℝ) = b.deltay then
    some (Bounds.finish clsI ⌊b.xmin⌋ (⌊b.deltax⌋ + 1) ⌊b.ymin⌋ (⌊b.deltay⌋ + 1)
      b.posPy b.deltaPy true)
  else none

/-- Conversion `BoundsD(boundsI)`: bounds.py:60-71,81 with `offset = -1`. -/
noncomputable def Bounds.toD (b : Bounds ℤ) : Bounds ℝ :=
  Bounds.finish clsD b.xmin ((b.deltax + -1 : ℤ) : ℝ) b.ymin ((b.deltay + -1 : ℤ) : ℝ)
    b.posPy b.deltaPy true

/-- Flattened form of a `BoundsI`: bounds.py:616-640.  `undef` is `aux_data = None`. -/
inductive FlatI
  | undef
  | static (xmin ymin deltax deltay : ℤ) (deltaPy : Bool)
  | traced (xmin ymin : ℤ) (deltax deltay : ℤ) (deltaPy : Bool)

/-- `BoundsI.tree_flatten`: bounds.py:616-640. -/
def Bounds.flattenI (b : Bounds ℤ) : FlatI :=
  if b.defined then
    if b.posPy then .static b.xmin b.ymin b.deltax b.deltay b.deltaPy
    else .traced b.xmin b.ymin b.deltax b.deltay b.deltaPy
  else .undef

/-- `BoundsI.tree_unflatten`: bounds.py:642-664. -/
def unflattenI : FlatI → Bounds ℤ
  | .undef => Bounds.empty clsI
  | .static x y dx dy p => ⟨x, y, dx, dy, true, p, !(decide (dx < 1) && decide (dy < 1))⟩
  | .traced x y dx dy p => ⟨x, y, dx, dy, false, p, !(decide (dx < 1) && decide (dy < 1))⟩

/-- `Bounds.tree_flatten` (used by `BoundsD`): bounds.py:332-342; children or the empty tuple.
The last component is the leaf kind (python numbers / jax arrays). -/
def Bounds.flattenD (b : Bounds ℝ) : Option (ℝ × ℝ × ℝ × ℝ × Bool × Bool) :=
  if b.defined then some (b.xmin, b.deltax, b.ymin, b.deltay, b.posPy, b.deltaPy) else none

/-- `Bounds.tree_unflatten` (used by `BoundsD`): bounds.py:344-355. -/
noncomputable def unflattenD : Option (ℝ × ℝ × ℝ × ℝ × Bool × Bool) → Bounds ℝ
  | some (x, dx, y, dy, pp, dp) => Bounds.finish clsD x dx y dy pp dp true
  | none => Bounds.empty clsD

end JG
