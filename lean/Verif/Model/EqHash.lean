import Mathlib.Algebra.Order.Archimedean.Real.Basic
import Mathlib.Algebra.Order.Floor.Ring
import Mathlib.Data.List.Basic
import Mathlib.Algebra.BigOperators.Group.List.Basic

/-!
Model of equality and hashing of profiles: `is_equal_with_arrays` and `ensure_hashable` (core/utils.py:80-163), `GSObject.__eq__`
(gsobject.py:199-203) and the `__eq__` and `__hash__` methods of `GSParams`, the profiles and the local WCS classes.

Numbers are exact reals or NaN, so that two numbers which Python finds equal have the same hash whatever their types are, while
their `repr` shows the type.  A hash is modelled by the value that is hashed (`HKey`): equal keys have equal hashes, and different
keys count as different hashes.  Exceptions are `none`.
-/

namespace JG.EqH

/-- A floating-point or integer value; `none` is NaN. -/
abbrev V := Option ℝ

/-- `==` of two numbers: NaN equals nothing. -/
noncomputable def V.eq : V → V → Bool
  | some x, some y => decide (x = y)
  | _, _ => false

/-- The Python type of a number, which `repr` shows (`5`, `5.0`, `np.float64(5.0)`). -/
inductive Kind
  | pyInt | pyFloat | numpy
  deriving DecidableEq

/-- A parameter value: a Python or numpy number, or a jax array given by its shape and its flattened entries. -/
inductive Leaf
  | num (k : Kind) (v : V)
  | arr (shape : List ℕ) (data : List V)

/-- The entries of a value and the dimension. -/
def Leaf.entries : Leaf → List V
  | .num _ v => [v]
  | .arr _ d => d
def Leaf.shape : Leaf → List ℕ
  | .num _ _ => []
  | .arr s _ => s

/-- `jnp.array_equal` for entries of arrays of the same shape. -/
noncomputable def entriesEq (a b : List V) : Bool := a.length == b.length && (List.zipWith V.eq a b).all id

/-- The truth value of `x == y` for two values (`and`/`not` on the result): one entry is its value, otherwise an array of the
broadcast shape, whose truth value is ambiguous (or broadcasting fails). -/
noncomputable def Leaf.pyEq (x y : Leaf) : Option Bool :=
  match x.entries, y.entries with
  | [a], [b] => some (V.eq a b)
  | _, _ => none

/-- The branches of `is_equal_with_arrays` for numbers and arrays: core/utils.py:113-125. -/
noncomputable def Leaf.eq (x y : Leaf) : Option Bool :=
  match x, y with
  | .arr s d, .arr s' d' => some (s == s' && entriesEq d d')
  | .arr [] d, .num _ v => some (entriesEq d [v])
  | .arr (_ :: _) _, .num _ _ => some false
  | .num _ v, .arr [] d => some (entriesEq [v] d)
  | .num k v, .arr (n :: s) d => (Leaf.num k v).pyEq (.arr (n :: s) d)
  | .num k v, .num k' v' => (Leaf.num k v).pyEq (.num k' v')

/-- What is passed to `hash` (see the file comment); `repr` is the text made by `repr`. -/
inductive HKey
  | str (s : String)
  | num (x : ℝ)
  | nan
  | bool (b : Bool)
  | tup (l : List HKey)
  | repr (name : String) (args : List (Option Kind × V))

/-- `_convert_to_numpy_nan`: core/utils.py:128-137. -/
def V.hkey : V → HKey
  | some x => .num x
  | none => .nan

/-- `_recurse_list_to_tuple(v.tolist())` for an array of the given shape: core/utils.py:140-144. -/
def nestTuple : List ℕ → List V → HKey
  | [], d => (d.headD none).hkey
  | _ :: s, d =>
    let m := s.prod
    .tup ((List.range (if m = 0 then 0 else d.length / m)).map fun i => nestTuple s ((d.drop (i * m)).take m))

/-- `ensure_hashable`: core/utils.py:147-162. -/
def Leaf.hkey : Leaf → HKey
  | .num _ v => v.hkey
  | .arr s d => nestTuple s d

/-! ### GSParams -/

/-- The arguments of `GSParams` in the order of `_getinitargs` (gsparams.py:117-132) with their Python types.  Simplification: none
of them is NaN or an array. -/
abbrev GSP := List (Kind × ℝ)

/-- `GSParams.__eq__`: gsparams.py:147-150. -/
noncomputable def GSP.eq (a b : GSP) : Bool := decide (a.map Prod.snd = b.map Prod.snd)

/-- The `%d` places of the `repr` format: gsparams.py:140-144. -/
def GSP.isD (i : ℕ) : Bool := i == 0 || i == 1 || i == 7

/-- `hash(repr(self))`: gsparams.py:140-144, 155-156.  `%d` prints the integer part whatever the type is. -/
noncomputable def GSP.hkey (a : GSP) : HKey :=
  .repr "galsim.GSParams" (a.mapIdx fun i p =>
    if GSP.isD i then (none, some ((if 0 ≤ p.2 then ⌊p.2⌋ else ⌈p.2⌉ : ℤ) : ℝ)) else (some p.1, some p.2))

/-! ### Profiles -/

/-- The elementary profile classes. -/
inductive ECls
  | gaussian | exponential | moffat | spergel | box | pixel | deltaFunction
  deriving DecidableEq

/-- The keywords given to `GSObject.__init__`, that is the keys of `params`: gaussian.py:31-62, exponential.py:25-49,
moffat.py:66-127, spergel.py:283-321, box.py:19-20 (also for `Pixel`, box.py:131-134), deltafunction.py:25-26. -/
def ECls.keys : ECls → List String
  | .gaussian => ["sigma", "flux"]
  | .exponential => ["scale_radius", "flux"]
  | .moffat => ["beta", "scale_radius", "flux"]
  | .spergel => ["nu", "scale_radius", "flux"]
  | .box => ["width", "height", "flux"]
  | .pixel => ["width", "height", "flux"]
  | .deltaFunction => ["flux"]

/-- Profiles.  The parameters of an elementary profile are in the order of `keys`.  `tuple` tells whether the `obj_list` of a
convolution is a tuple (it is the arguments as given if `propagate_gsparams` is false, convolve.py:133-138).  `jac` is the
flattened Jacobian after broadcasting to four numbers (transform.py:110-115). -/
inductive Prof
  | elem (c : ECls) (params : List Leaf) (gs : GSP)
  | sum (objs : List Prof) (gs : GSP) (prop : Bool)
  | conv (tuple : Bool) (objs : List Prof) (realSpace : Bool) (gs : GSP) (prop : Bool)
  | deconv (orig : Prof) (gs : GSP) (prop : Bool)
  | trans (orig : Prof) (jac : List V) (dx dy : Leaf) (fluxRatio : Leaf) (gs : GSP) (prop : Bool)

/-- Python's `a and b` for comparisons that may raise. -/
def andP (a : Option Bool) (b : Option Bool) : Option Bool :=
  match a with
  | none => none
  | some false => some false
  | some true => b

/-- The loop of `is_equal_with_arrays` over two lists (or the values of two dictionaries with the same keys): core/utils.py:82-89,
105-112. -/
noncomputable def leavesEq : List Leaf → List Leaf → Option Bool
  | [], [] => some true
  | x :: xs, y :: ys => andP (x.eq y) (leavesEq xs ys)
  | _, _ => some false

/-- The leaves compared for an elementary profile: the values of `params` (gsobject.py:1376-1383), except for `Pixel`, whose
`tree_flatten` gives `scale` (the width) and `flux` (box.py:159-162). -/
def elemLeaves (c : ECls) (params : List Leaf) : List Leaf :=
  match c, params with
  | .pixel, [w, _, f] => [w, f]
  | _, _ => params

mutual
/-- `p == q` for profiles: gsobject.py:199-203 (elementary profiles and, through `tree_flatten`, sum.py:242-252), convolve.py:164-171,
405-411, transform.py:160-169.  `same p q` is Python's `p is q`. -/
noncomputable def Prof.eq (same : Prof → Prof → Bool) (p q : Prof) : Option Bool :=
  if same p q then some true
  else
    match p, q with
    | .elem c l g, .elem c' l' g' =>
      if c = c' then andP (leavesEq (elemLeaves c l) (elemLeaves c l')) (some (g.eq g')) else some false
    | .sum o g pr, .sum o' g' pr' =>
      andP (if o.length = o'.length then listEq same o o' else some false) (some (g.eq g' && (pr == pr')))
    | .conv t o r g pr, .conv t' o' r' g' pr' =>
      andP (if t = t' ∧ o.length = o'.length then listEq same o o' else some false)
        (some ((r == r') && g.eq g' && (pr == pr')))
    | .deconv o g pr, .deconv o' g' pr' => andP (Prof.eq same o o') (some (g.eq g' && (pr == pr')))
    | .trans o j dx dy f g pr, .trans o' j' dx' dy' f' g' pr' =>
      andP (Prof.eq same o o') (andP (some (entriesEq j j')) (andP (dx.pyEq dx') (andP (dy.pyEq dy') (andP (f.pyEq f')
        (some (g.eq g' && (pr == pr')))))))
    | _, _ => some false
/-- Comparison of two lists of profiles of the same length, entry by entry: core/utils.py:82-86 and Python's `==` of lists. -/
noncomputable def listEq (same : Prof → Prof → Bool) (o o' : List Prof) : Option Bool :=
  match o, o' with
  | p :: ps, q :: qs => andP (Prof.eq same p q) (listEq same ps qs)
  | _, _ => some true
end

/-- The class name in the hash of an elementary profile (`Pixel` inherits that of `Box`): gaussian.py:92-100, exponential.py:77-85,
moffat.py:215-225, spergel.py:365-374, box.py:40-49, deltafunction.py:28-29. -/
def ECls.hashName : ECls → String
  | .gaussian => "galsim.Gaussian"
  | .exponential => "galsim.Exponential"
  | .moffat => "galsim.Moffat"
  | .spergel => "galsim.Spergel"
  | .box => "galsim.Box"
  | .pixel => "galsim.Box"
  | .deltaFunction => "galsim.DeltaFunction"

/-- The numbers hashed for an elementary profile (the same lines); `Moffat` adds its `trunc`, which is always `0.0`
(moffat.py:140-143, 221). -/
def elemHash (c : ECls) (params : List Leaf) : List HKey :=
  match c, params with
  | .moffat, [b, r, f] => [b.hkey, r.hkey, .num 0, f.hkey]
  | _, _ => params.map Leaf.hkey

mutual
/-- `hash(p)`: the lines of `hashName` and `elemHash`, sum.py:93-101, convolve.py:173-182, 413-421, transform.py:171-183. -/
noncomputable def Prof.hkey : Prof → HKey
  | .elem c l g => .tup (.str c.hashName :: elemHash c l ++ [g.hkey])
  | .sum o g pr => .tup [.str "galsim.Sum", .tup (listKeys o), g.hkey, .bool pr]
  | .conv _ o r g pr => .tup [.str "galsim.Convolution", .tup (listKeys o), .bool r, g.hkey, .bool pr]
  | .deconv o g pr => .tup [.str "galsim.Deconvolution", o.hkey, g.hkey, .bool pr]
  | .trans o j dx dy f g pr =>
    .tup [.str "galsim.Transformation", o.hkey, .tup (j.map V.hkey), dx.hkey, dy.hkey, f.hkey, g.hkey, .bool pr]
/-- The tuple of the objects of a list. -/
noncomputable def listKeys : List Prof → List HKey
  | [] => []
  | p :: ps => p.hkey :: listKeys ps
end

/-! ### Local WCS -/

/-- `PixelScale` and `JacobianWCS` with their constructor arguments. -/
inductive LWcs
  | pixelScale (s : Leaf)
  | jacobian (dudx dudy dvdx dvdy : Leaf)

/-- `__eq__`: wcs.py:954-957, 1283-1290. -/
noncomputable def LWcs.eq : LWcs → LWcs → Option Bool
  | .pixelScale s, .pixelScale s' => s.pyEq s'
  | .jacobian a b c d, .jacobian a' b' c' d' => andP (a.pyEq a') (andP (b.pyEq b') (andP (c.pyEq c') (d.pyEq d')))
  | _, _ => some false

/-- What `%r` of `ensure_hashable(v)` shows for numbers and arrays without dimension (`v.item()` is a Python number; `float` for
the float arrays considered here).  Simplification: arrays with dimensions show their first entry only. -/
def Leaf.shown : Leaf → Option Kind × V
  | .num k v => (some k, v)
  | .arr _ d => (some .pyFloat, d.headD none)

/-- `__hash__`: `hash(repr(self))`, wcs.py:959-963, 1292-1301. -/
def LWcs.hkey : LWcs → HKey
  | .pixelScale s => .repr "galsim.PixelScale" [s.shown]
  | .jacobian a b c d => .repr "galsim.JacobianWCS" [a.shown, b.shown, c.shown, d.shown]

end JG.EqH
