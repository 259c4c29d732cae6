import Verif.Model.GSParams
import Verif.Model.EqHash

/-!
The names, parameters and identity of interpolants: `/repo/jax_galsim/interpolant.py:26-184, 1365-1432`.

A string is the list of its characters.  Simplifications: `str.lower`, `str.upper` and `int` are modelled for ASCII characters
(python also takes the digits and spaces of other scripts in `int`; no other character has the lower case of one of the letters of
the names); the deprecation warnings are not modelled.
-/

namespace JG.IName

/-- The interpolant classes with their own parameters. -/
inductive Cls
  | quintic | linear | cubic | nearest | delta | sinc
  | lanczos (n : ℤ) (dc : Bool)
  deriving DecidableEq

/-- An interpolant: the class and `_gsparams`. -/
structure Interp (G : Type) where
  cls : Cls
  gs : G

/-- The exceptions: `GalSimValueError`, and the `KeyError` of the tables of `Lanczos.__init__`. -/
inductive Err
  | value | key
  deriving DecidableEq

/-- ASCII `str.lower` of a character. -/
def lowerC (c : Char) : Char := if 'A' ≤ c ∧ c ≤ 'Z' then Char.ofNat (c.toNat + 32) else c

/-- `str.lower()`. -/
def lower (s : List Char) : List Char := s.map lowerC

/-- The white space `int` strips. -/
def isSpace (c : Char) : Bool := c == ' ' || (9 ≤ c.toNat && c.toNat ≤ 13) || (28 ≤ c.toNat && c.toNat ≤ 31)

/-- The value of a digit. -/
def digVal (c : Char) : ℕ := c.toNat - 48

/-- The digits of an integer literal, the last character read was a digit iff `d`; underscores stand between digits. -/
def digits : List Char → Bool → ℕ → Option ℕ
  | [], d, acc => if d then some acc else none
  | c :: cs, d, acc =>
    if c.isDigit then digits cs true (10 * acc + digVal c)
    else if c == '_' && d then digits cs false acc
    else none

/-- `s.strip()`. -/
def strip (s : List Char) : List Char := ((s.dropWhile isSpace).reverse.dropWhile isSpace).reverse

/-- `int(s)`, `none`: `ValueError`. -/
def pyInt (s : List Char) : Option ℤ :=
  match strip s with
  | '-' :: t => (digits t false 0).map fun n : ℕ => -(n : ℤ)
  | '+' :: t => (digits t false 0).map fun n : ℕ => (n : ℤ)
  | t => (digits t false 0).map fun n : ℕ => (n : ℤ)

/-- `Lanczos.__init__`: interpolant.py:1366-1382; the tables have the keys 1 to 30 (interpolant.py:1642-1645). -/
def mkLanczos {G : Type} (n : ℤ) (dc : Bool) (g : G) : Except Err (Interp G) :=
  if 1 ≤ n ∧ n ≤ 30 then .ok ⟨.lanczos n dc, g⟩ else .error .key

/-- The branch of `from_name` for `lanczos`: interpolant.py:59-71. -/
def lanczosName {G : Type} (name : List Char) (g : G) : Except Err (Interp G) :=
  let last := lowerC (name.getLastD ' ')
  let tf := last == 't' || last == 'f'
  let dc := if tf then last == 't' else true
  let name := if tf then name.dropLast else name
  match pyInt (name.drop 7) with
  | none => .error .value
  | some n => mkLanczos n dc g

/-- The `gsparams` which `from_name` and the constructors use: interpolant.py:48-53, 1373-1379 and the other `__init__`. -/
noncomputable def useGS (dflt : GSP) (tol : Option ℝ) (gs : Option GSP) : GSP :=
  match tol with
  | some t => fun f => if f = .kvalue_accuracy then t else dflt f
  | none => gs.getD dflt

/-- `Interpolant.from_name`, for the `gsparams` in use: interpolant.py:55-95. -/
def fromName {G : Type} (name : List Char) (g : G) : Except Err (Interp G) :=
  if lower name = "quintic".toList then .ok ⟨.quintic, g⟩
  else if (lower name).take 7 = "lanczos".toList then lanczosName name g
  else if lower name = "linear".toList then .ok ⟨.linear, g⟩
  else if lower name = "cubic".toList then .ok ⟨.cubic, g⟩
  else if lower name = "nearest".toList then .ok ⟨.nearest, g⟩
  else if lower name = "delta".toList then .ok ⟨.delta, g⟩
  else if lower name = "sinc".toList then .ok ⟨.sinc, g⟩
  else .error .value

/-- `tree_unflatten(aux_data, children)`: interpolant.py:180-183, 1415-1422; `aux_data` holds what `tree_flatten`
(interpolant.py:169-178, 1402-1413) put there. -/
def unflatten {G : Type} (c : Cls) (g : G) : Except Err (Interp G) :=
  match c with
  | .lanczos n dc => mkLanczos n dc g
  | c => .ok ⟨c, g⟩

open Classical in
/-- `withGSParams(gsparams, **kwargs)`: interpolant.py:110-119; `none`: `TypeError` for an unknown keyword. -/
noncomputable def Interp.withGSParams (dflt : GSP) (i : Interp GSP) (gs : Option GSP) (kw : List (String × ℝ)) :
    Option (Except Err (Interp GSP)) :=
  if gs = some i.gs then some (.ok i)
  else (GSP.check dflt gs (some i.gs) kw).map fun g => unflatten i.cls g

/-- `__eq__`: interpolant.py:133-137; the `aux_data` of two objects of the same class have the same keys. -/
noncomputable def Interp.eq (a b : Interp EqH.GSP) : Bool :=
  match a.cls, b.cls with
  | .lanczos n d, .lanczos n' d' => a.gs.eq b.gs && n == n' && d == d'
  | c, c' => c == c' && a.gs.eq b.gs

/-- `hash(repr(self))`: interpolant.py:121-122, 142-143, 1424-1429. -/
noncomputable def Interp.hkey (a : Interp EqH.GSP) : EqH.HKey :=
  match a.cls with
  | .quintic => .tup [.str "galsim.Quintic", a.gs.hkey]
  | .linear => .tup [.str "galsim.Linear", a.gs.hkey]
  | .cubic => .tup [.str "galsim.Cubic", a.gs.hkey]
  | .nearest => .tup [.str "galsim.Nearest", a.gs.hkey]
  | .delta => .tup [.str "galsim.Delta", a.gs.hkey]
  | .sinc => .tup [.str "galsim.SincInterpolant", a.gs.hkey]
  | .lanczos n d => .tup [.str "galsim.Lanczos", .num (n : ℝ), .bool d, a.gs.hkey]

end JG.IName
