import Mathlib.Data.Nat.Digits.Defs
import Mathlib.Data.List.DropRight
import Mathlib.Analysis.SpecialFunctions.Trigonometric.Basic

/-!
Model of `/repo/jax_galsim/angle.py`.  Angles are exact reals (radians); strings are lists of
characters.
-/

namespace JG

/-! ### Angles and units -/

/-- An `Angle`, its `_rad` attribute: angle.py:148-170. -/
structure Angle where
  rad : ℝ

/-- An `AngleUnit`, its value in radians: angle.py:49-62. -/
structure AngleUnit where
  value : ℝ

/-- angle.py:141. -/
noncomputable def radians : AngleUnit := ⟨1⟩
/-- angle.py:142. -/
noncomputable def hours : AngleUnit := ⟨Real.pi / 12⟩
/-- angle.py:143. -/
noncomputable def degrees : AngleUnit := ⟨Real.pi / 180⟩
/-- angle.py:144. -/
noncomputable def arcmin : AngleUnit := ⟨Real.pi / 10800⟩
/-- angle.py:145. -/
noncomputable def arcsec : AngleUnit := ⟨Real.pi / 648000⟩

/-- `theta * unit`: angle.py:64-66, 163-165. -/
noncomputable def mkAngle (theta : ℝ) (u : AngleUnit) : Angle := ⟨theta * u.value⟩
/-- `angle / unit`: angle.py:209-211. -/
noncomputable def Angle.divU (a : Angle) (u : AngleUnit) : ℝ := a.rad / u.value
/-- `unit / unit`: angle.py:68-77. -/
noncomputable def AngleUnit.div (u v : AngleUnit) : ℝ := u.value / v.value
/-- angle.py:177-178. -/
noncomputable def Angle.neg (a : Angle) : Angle := ⟨-a.rad⟩
/-- angle.py:183-184. -/
noncomputable def Angle.abs (a : Angle) : Angle := ⟨|a.rad|⟩
/-- angle.py:186-191. -/
noncomputable def Angle.add (a b : Angle) : Angle := ⟨a.rad + b.rad⟩
/-- angle.py:193-198. -/
noncomputable def Angle.sub (a b : Angle) : Angle := ⟨a.rad - b.rad⟩
/-- angle.py:200-207. -/
noncomputable def Angle.mul (a : Angle) (s : ℝ) : Angle := ⟨a.rad * s⟩

/-- `wrap(center)`: angle.py:221-229 (`//` is floor division). -/
noncomputable def Angle.wrap (a : Angle) (center : Angle := ⟨0⟩) : Angle :=
  let start := center.rad - Real.pi
  let offset : ℤ := ⌊(a.rad - start) / (2 * Real.pi)⌋
  ⟨a.rad - offset * 2 * Real.pi⟩

/-! ### DMS/HMS strings -/

/-- `"%d" % n` for a natural number. -/
def decStr (n : ℕ) : List Char :=
  if n = 0 then ['0'] else (Nat.digits 10 n).reverse.map Nat.digitChar

/-- `"%0*d" % (w, n)`: zero padding on the left to width `w`. -/
def padStr (w n : ℕ) : List Char :=
  List.replicate (w - (decStr n).length) '0' ++ decStr n

/-- The three separators chosen from `sep`: angle.py:303-311; `sep` is a sequence of strings
(a python string is the sequence of its characters); `none` is the `ValueError` of
angle.py:354, 362 for longer ones. -/
def pickSeps : List (List Char) → Option (List Char × List Char × List Char)
  | [] => some ([], [], [])
  | [s] => some (s, s, [])
  | [s1, s2] => some (s1, s2, [])
  | [s1, s2, s3] => some (s1, s2, s3)
  | _ => none

/-- The four integers of angle.py:313-324 from the scaled integer `n`: degrees, minutes, seconds,
fraction. -/
def dmsParts (n prec : ℕ) : ℕ × ℕ × ℕ × ℕ :=
  let digits := 10 ^ prec
  let d := n / (3600 * digits)
  let n1 := n - d * (3600 * digits)
  let m := n1 / (60 * digits)
  let n2 := n1 - m * (60 * digits)
  let s := n2 / digits
  let n3 := n2 - s * digits
  (d, m, s, n3)

/-- The scaled integer `int(3600 * digits * |decimal| + 0.5)`: angle.py:313-317. -/
noncomputable def dmsRound (x : ℝ) (prec : ℕ) : ℕ := ⌊3600 * (10:ℝ) ^ prec * |x| + 1/2⌋₊

/-- `%02d` or `%d`: angle.py:326-334. -/
def compStr (pad : Bool) (n : ℕ) : List Char := if pad then padStr 2 n else decStr n

/-- `rstrip("0")` then `rstrip(".")` unless `prec` is given and non-zero: angle.py:345-347. -/
def dmsStrip (prec : Option ℕ) (s : List Char) : List Char :=
  if prec = none ∨ prec = some 0 then (s.rdropWhile (· == '0')).rdropWhile (· == '.') else s

/-- Sign string: angle.py:294-301. -/
noncomputable def dmsSign (x : ℝ) (plus : Bool) : List Char :=
  if x < 0 then ['-'] else if plus then ['+'] else []

/-- String assembly from the scaled integer: angle.py:319-350. -/
def dmsFormat (sign : List Char) (n : ℕ) (sep1 sep2 sep3 : List Char) (prec : Option ℕ)
    (pad : Bool) : List Char :=
  let p := prec.getD 8
  let c := dmsParts n p
  dmsStrip prec (sign ++ compStr pad c.1 ++ sep1 ++ compStr pad c.2.1 ++ sep2
    ++ compStr pad c.2.2.1 ++ ['.'] ++ padStr p c.2.2.2) ++ sep3

/-- `_make_dms_string`: angle.py:292-350. -/
noncomputable def makeDms (x : ℝ) (sep : List (List Char)) (prec : Option ℕ) (pad plus : Bool) :
    Option (List Char) :=
  (pickSeps sep).map fun s =>
    dmsFormat (dmsSign x plus) (dmsRound x (prec.getD 8)) s.1 s.2.1 s.2.2 prec pad

/-- `dms`: angle.py:360-366. -/
noncomputable def Angle.dms (a : Angle) (sep : List (List Char)) (prec : Option ℕ)
    (pad plus : Bool) : Option (List Char) := makeDms (a.divU degrees) sep prec pad plus
/-- `hms`: angle.py:352-358. -/
noncomputable def Angle.hms (a : Angle) (sep : List (List Char)) (prec : Option ℕ)
    (pad plus : Bool) : Option (List Char) := makeDms (a.divU hours) sep prec pad plus

/-- Characters matched by the regular expression `[\.\d]` (ASCII digits only): angle.py:383. -/
def isTok (c : Char) : Bool := c.isDigit || c == '.'

/-- `filter(None, re.split(r"([\.\d]+)", s))`: maximal runs of characters inside / outside the
class, in order: angle.py:383. -/
def tokens : List Char → List (List Char)
  | [] => []
  | c :: cs =>
    match tokens cs with
    | [] => [[c]]
    | [] :: gs => [c] :: gs
    | (d :: g) :: gs => if isTok c = isTok d then (c :: d :: g) :: gs else [c] :: (d :: g) :: gs

/-- `str.strip()`. -/
def pyStrip (s : List Char) : List Char := (s.dropWhile Char.isWhitespace).rdropWhile Char.isWhitespace

/-- Value of a run of decimal digits. -/
def digitsVal (l : List Char) : ℕ := l.foldl (fun acc c => 10 * acc + (c.toNat - 48)) 0

/-- `float(token)` for the tokens at hand: digits with at most one dot and at least one digit;
anything else raises `ValueError` (`none`).  (Python also accepts words such as `inf` and `nan`
and signed numbers, which cannot be a whole token here except `inf`/`nan`; those are not modelled.) -/
def floatTok (t : List Char) : Option ℚ :=
  let ip := t.takeWhile Char.isDigit
  match t.dropWhile Char.isDigit with
  | [] => if ip = [] then none else some (digitsVal ip)
  | c :: fp =>
    if c = '.' ∧ fp.all Char.isDigit ∧ (ip ≠ [] ∨ fp ≠ []) then
      some (digitsVal ip + digitsVal fp / (10:ℚ) ^ fp.length)
    else none

/-- The part of `_parse_dms` after the sign has been dealt with: angle.py:396-404. -/
def parseRest (sign : ℚ) (ts : List (List Char)) (dd : ℚ) : Option ℚ :=
  if ts.length ≤ 2 then some (sign * dd)
  else do
    let mm ← floatTok (ts.getD 2 [])
    if ts.length ≤ 4 then some (sign * (dd + mm / 60))
    else if 7 ≤ ts.length then none
    else do
      let ss ← floatTok (ts.getD 4 [])
      some (sign * (dd + mm / 60 + ss / 3600))

/-- `_parse_dms`: angle.py:378-404. -/
def parseDms (str : List Char) : Option ℚ :=
  match tokens (pyStrip str) with
  | [] => none
  | [_] => none
  | t0 :: t1 :: ts =>
    match floatTok t0 with
    | some dd => parseRest 1 (t0 :: t1 :: ts) dd
    | none =>
      let sign : ℚ := if pyStrip t0 = ['-'] then -1 else 1
      match floatTok t1 with
      | none => none
      | some dd => if ts = [] then none else parseRest sign (t1 :: ts) dd

/-- `from_dms`: angle.py:373-376. -/
noncomputable def fromDms (s : List Char) : Option Angle :=
  (parseDms s).map fun q => mkAngle q degrees
/-- `from_hms`: angle.py:368-371. -/
noncomputable def fromHms (s : List Char) : Option Angle :=
  (parseDms s).map fun q => mkAngle q hours

end JG
