import Verif.Model.Position
import Mathlib.Algebra.Ring.Defs
import Mathlib.Analysis.SpecialFunctions.Sqrt

/-!
Model of `/repo/jax_galsim/utilities.py`: `horner`, `horner2d`, `parse_pos_args`, `g1g2_to_e1e2`.
-/

namespace JG

/-- `jnp.polyval` on coefficients in descending order: `y = y * x + p` over the coefficients,
starting from 0 (used at utilities.py:165). -/
def polyval {R : Type} [Semiring R] (p : List R) (x : R) : R :=
  p.foldl (fun y c => y * x + c) 0

/-- `horner(x, coef)`: utilities.py:143-169.  The `lax.cond` on the (static) length chooses zero for
an empty array.  Simplification: one point `x` (arrays are pointwise) and no dtype conversion. -/
def horner {R : Type} [Semiring R] (x : R) (coef : List R) : R :=
  if coef.length = 0 then 0 else polyval coef.reverse x

/-- `jnp.tril` of a list of rows: entry `(r, c)` is kept when `c ≤ r` (utilities.py:196). -/
def tril {R : Type} [Zero R] (rows : List (List R)) : List (List R) :=
  rows.mapIdx fun r row => row.mapIdx fun c v => if c ≤ r then v else 0

/-- `coefs.shape[0] == coefs.shape[1]` for a rectangular list of rows. -/
def isSquare {R : Type} (rows : List (List R)) : Bool :=
  rows.all fun row => row.length = rows.length

/-- `horner2d(x, y, coefs, triangle)`: utilities.py:172-213; `none` is the
`GalSimIncompatibleValuesError` for a non-square array with `triangle=True` (189-192).  The scan at
209-211 is a fold over the reversed rows.  Simplification: one point, no dtype conversion; the array
is the list of its rows. -/
def horner2d {R : Type} [Semiring R] (x y : R) (coefs : List (List R)) (triangle : Bool) : Option R :=
  if triangle ∧ ¬ isSquare coefs then none
  else
    let c := coefs.reverse
    let c := if triangle then tril c else c
    some (c.foldl (fun res p => res * x + horner y p) 0)

/-- Argument values of `parse_pos_args`.  `seq` is a python tuple/list/numpy array of numbers,
`jarr` a one-dimensional jax array (whose out-of-range reads clamp instead of raising). -/
inductive PArg
  | num (v : ℝ)
  | pos (p : Position)
  | seq (l : List ℝ)
  | jarr (l : List ℝ)

/-- Exceptions of `parse_pos_args`. -/
inductive PErr
  | typeError
  | keyError
  deriving DecidableEq

/-- Reading index `i` of a jax array clamps to the last element; an empty array raises. -/
def jaxGet (l : List ℝ) (i : ℕ) : Option ℝ := l[min i (l.length - 1)]?

/-- `canindex(arg)` followed by `arg[0], arg[1]`: utilities.py:16-22, 44-46. -/
def canIndex : PArg → Option (ℝ × ℝ)
  | .num _ => none
  | .pos _ => none
  | .seq l => match l with
    | a :: b :: _ => some (a, b)
    | _ => none
  | .jarr l => match jaxGet l 0, jaxGet l 1 with
    | some a, some b => some (a, b)
    | _, _ => none

/-- `kwargs.pop(name)` on a dictionary with distinct keys. -/
def popKw (kw : List (String × PArg)) (name : String) : Option (PArg × List (String × PArg)) :=
  match kw.find? (fun p => p.1 = name) with
  | some p => some (p.2, kw.filter (fun q => q.1 ≠ name))
  | none => none

/-- The loop at utilities.py:66-69 over the names still in `others`; a missing name is a `KeyError`
that is not caught. -/
def popOthers : List (String × PArg) → List String → Option (List PArg × List (String × PArg))
  | kw, [] => some ([], kw)
  | kw, n :: ns => match popKw kw n with
    | none => none
    | some (v, kw') => match popOthers kw' ns with
      | none => none
      | some (vs, kw'') => some (v :: vs, kw'')

/-- The constructor call `PositionI(x, y)` / `PositionD(x, y)` at utilities.py:73-76; arguments that
are not numbers raise `TypeError` (position.py:30-38). -/
noncomputable def mkPosArgs (integer : Bool) : PArg → PArg → Option Position
  | .num x, .num y => if integer then mkPosI x y else some (.D x y)
  | _, _ => none

/-- Lines 66-80: read the remaining names, reject unknown keywords, build the position. -/
noncomputable def parseFinish (integer : Bool) (x y : PArg) (vals : List PArg) (others : List String)
    (kw : List (String × PArg)) : Except PErr (Position × List PArg) :=
  match popOthers kw others with
  | none => .error .keyError
  | some (vs, kw') =>
    if kw'.isEmpty then
      match mkPosArgs integer x y with
      | some p => .ok (p, vals ++ vs)
      | none => .error .typeError
    else .error .typeError

/-- `isinstance(args[0], PositionI) or (not integer and isinstance(args[0], PositionD))`, with the
coordinates: utilities.py:36-42. -/
noncomputable def asPosArg (integer : Bool) : PArg → Option (ℝ × ℝ)
  | .pos (.I x y) => some (x, y)
  | .pos (.D x y) => if integer then none else some (x, y)
  | _ => none

/-- The last three branches, utilities.py:49-61: a lone unusable argument and too many arguments
raise `TypeError`, otherwise the first two arguments are the coordinates. -/
noncomputable def parseTwo (integer : Bool) (a : PArg) (rest : List PArg) (others : List String)
    (kw : List (String × PArg)) : Except PErr (Position × List PArg) :=
  match rest with
  | [] => .error .typeError
  | b :: rest' =>
    if rest'.length ≤ others.length then
      parseFinish integer a b rest' (others.drop rest'.length) kw
    else .error .typeError

/-- `parse_pos_args(args, kwargs, name1, name2, integer, others)`: utilities.py:14-80.  The branches
are those of the `if`/`elif` chain; `others.pop(0)` for each extra positional argument is
`others.drop`.  Simplification: coordinates are numbers (no nested sequences or strings); arguments
in `others` are passed through untouched. -/
noncomputable def parsePosArgs (args : List PArg) (kw : List (String × PArg)) (name1 name2 : String)
    (integer : Bool) (others : List String) : Except PErr (Position × List PArg) :=
  match args with
  | [] =>
    match popKw kw name1 with
    | none => .error .typeError
    | some (x, kw1) => match popKw kw1 name2 with
      | none => .error .typeError
      | some (y, kw2) => parseFinish integer x y [] others kw2
  | a :: rest =>
    match (if rest.length ≤ others.length then asPosArg integer a else none) with
    | some (x, y) => parseFinish integer (.num x) (.num y) rest (others.drop rest.length) kw
    | none =>
      match (if rest.length ≤ others.length then canIndex a else none) with
      | some (x, y) => parseFinish integer (.num x) (.num y) rest (others.drop rest.length) kw
      | none => parseTwo integer a rest others kw

/-- `g1g2_to_e1e2(g1, g2)`: utilities.py:83-101. -/
noncomputable def g1g2ToE1e2 (g1 g2 : ℝ) : ℝ × ℝ :=
  let gsq := g1 * g1 + g2 * g2
  if gsq = 0 then (0, 0)
  else
    let g := Real.sqrt gsq
    let boa := (1 - g) / (1 + g)
    let e := (1 - boa * boa) / (1 + boa * boa)
    (g1 * (e / g), g2 * (e / g))

end JG
