import Verif.Model.FitsWcs

/-!
Model of `repr`, `eval`, `==`, hash and the pytree form of `GSFitsWCS`: `/repo/jax_galsim/fitswcs.py`, lines 83-119, 155-174 and
834-876.

A text is the expression which Python parses it to; numbers are exact and floats throughout (the headers are read as floats,
fitswcs.py:228-269); exceptions are `none`.  The text of a sky coordinate is read back as in `Model/ReprGeom.lean`.
-/

namespace JG.FitsW

/-- The expressions in the text. -/
inductive Txt
  | num (x : ℝ)
  | none
  | str (s : String)
  | tup (l : List Txt)
  | coord (ra dec : ℝ)

/-- `_recurse_list_to_tuple(array.tolist())` of an array of numbers: core/utils.py:140-156. -/
def vecTxt (l : List ℝ) : Txt := .tup (l.map .num)

/-- The same for a table, and for the pair of tables in `pv`, `ab` and `abp`, an array of shape `(2, n, n)`. -/
def tabTxt (t : Tab) : Txt := .tup (t.rows.map vecTxt)
def pairTxt : Option (Tab × Tab) → Txt
  | some p => .tup [tabTxt p.1, tabTxt p.2]
  | Option.none => .none

/-- `__repr__`, the entries of the list `_data`: fitswcs.py:855-867. -/
def GS.repr (w : GS) : List Txt :=
  [.str w.wtype.suffix, vecTxt [w.crpix.1, w.crpix.2], .tup [vecTxt [w.cd.a, w.cd.b], vecTxt [w.cd.c, w.cd.d]],
    .coord w.center.ra w.center.dec, pairTxt w.pv, pairTxt w.ab, pairTxt w.abp]

/-- `jnp.array` of a tuple of numbers. -/
def readNums : List Txt → Option (List ℝ)
  | [] => some []
  | .num x :: l => (readNums l).map (x :: ·)
  | _ :: _ => Option.none

def readVec : Txt → Option (List ℝ)
  | .tup l => readNums l
  | _ => Option.none

/-- `jnp.array` of a tuple of tuples. -/
def readRows : List Txt → Option (List (List ℝ))
  | [] => some []
  | t :: l => (readVec t).bind fun r => (readRows l).map (r :: ·)

/-- A square array.  Simplification: other shapes are refused here, not only when the wcs is used. -/
def toTab (rows : List (List ℝ)) : Option Tab :=
  if rows.all (fun r => r.length == rows.length) then some ⟨rows.length, fun i j => (rows.getD i []).getD j 0⟩ else Option.none

def readTab : Txt → Option Tab
  | .tup l => (readRows l).bind toTab
  | _ => Option.none

/-- `pv`, `ab` and `abp`: fitswcs.py:90-92, 107-112.  An array of two tables of different sizes is refused. -/
def readPair : Txt → Option (Option (Tab × Tab))
  | .none => some Option.none
  | .tup [a, b] => (readTab a).bind fun a => (readTab b).bind fun b => if a.n = b.n then some (some (a, b)) else Option.none
  | _ => Option.none

def readVec2 (t : Txt) : Option (ℝ × ℝ) :=
  match readVec t with
  | some [x, y] => some (x, y)
  | _ => Option.none

def readMat (t : Txt) : Option Mat2 :=
  match t with
  | .tup [r, s] => (readVec2 r).bind fun r => (readVec2 s).map fun s => ⟨r.1, r.2, s.1, s.2⟩
  | _ => Option.none

/-- `CelestialCoord(ra, dec)`, refusing declinations beyond the poles: celestial.py:86-91. -/
noncomputable def readCoord : Txt → Option Coord
  | .coord ra dec => Coord.mk? ra dec
  | _ => Option.none

def readType : Txt → Option WType
  | .str s => WType.ofSuffix s
  | _ => Option.none

/-- `eval(repr)`: `GSFitsWCS(_data=[...])`, fitswcs.py:83-115. -/
noncomputable def evalRepr : List Txt → Option GS
  | [t, p, c, o, pv, ab, abp] =>
    (readType t).bind fun t => (readVec2 p).bind fun p => (readMat c).bind fun c => (readCoord o).bind fun o =>
      (readPair pv).bind fun pv => (readPair ab).bind fun ab => (readPair abp).map fun abp => ⟨t, p, c, o, pv, ab, abp⟩
  | _ => Option.none

/-- `jnp.array_equal` of two arrays of shape `(2, n, n)`: the same shape and the same entries. -/
def arrayEq (a b : Tab × Tab) : Prop :=
  a.1.n = b.1.n ∧ a.2.n = b.2.n ∧ (∀ i < a.1.n, ∀ j < a.1.n, a.1.c i j = b.1.c i j) ∧
    (∀ i < a.2.n, ∀ j < a.2.n, a.2.c i j = b.2.c i j)

/-- `(a is None and b is None) or jnp.array_equal(a, b)`. -/
def optEq : Option (Tab × Tab) → Option (Tab × Tab) → Prop
  | Option.none, Option.none => True
  | some a, some b => arrayEq a b
  | _, _ => False

/-- `__eq__`: fitswcs.py:834-853; of the centres: celestial.py:841-846. -/
def GS.eq (w v : GS) : Prop :=
  w.wtype = v.wtype ∧ (w.crpix.1 = v.crpix.1 ∧ w.crpix.2 = v.crpix.2) ∧
    (w.cd.a = v.cd.a ∧ w.cd.b = v.cd.b ∧ w.cd.c = v.cd.c ∧ w.cd.d = v.cd.d) ∧
    (w.center.ra = v.center.ra ∧ w.center.dec = v.center.dec) ∧ optEq w.pv v.pv ∧ optEq w.ab v.ab ∧ optEq w.abp v.abp

/-- What `__hash__` hashes: fitswcs.py:875-876. -/
def GS.hashKey (w : GS) : List Txt := w.repr

/-- `tree_flatten`: fitswcs.py:155-169. -/
def GS.flatten (w : GS) : String × ((ℝ × ℝ) × Mat2 × Coord × Option (Tab × Tab) × Option (Tab × Tab) × Option (Tab × Tab)) :=
  (w.wtype.suffix, w.crpix, w.cd, w.center, w.pv, w.ab, w.abp)

/-- `tree_unflatten`: fitswcs.py:172-174, 83-115. -/
def unflatten (d : String × ((ℝ × ℝ) × Mat2 × Coord × Option (Tab × Tab) × Option (Tab × Tab) × Option (Tab × Tab))) : Option GS :=
  (WType.ofSuffix d.1).map fun t => ⟨t, d.2.1, d.2.2.1, d.2.2.2.1, d.2.2.2.2.1, d.2.2.2.2.2.1, d.2.2.2.2.2.2⟩

end JG.FitsW
