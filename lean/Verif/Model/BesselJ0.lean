import Mathlib.Analysis.SpecialFunctions.Trigonometric.Basic
import Mathlib.Analysis.SpecialFunctions.Pow.Real

/-!
Model of `j0`, the Bessel function of order zero.

Source: jax_galsim/bessel.py:568-718. Floating point numbers are real numbers, the constants of the tables are exact decimal
fractions. The argument is one number: `vmap`, `atleast_1d` and `reshape` apply the formula to each entry of an array.
-/

namespace JG.J0

/-- `jnp.polyval(coeffs, z)`, highest power first. -/
noncomputable def polyval (coeffs : List ℚ) (z : ℝ) : ℝ := coeffs.foldl (fun (r : ℝ) (c : ℚ) => r * z + c) 0

/-- `_R` (bessel.py:568-570). -/
noncomputable def ratio (z : ℝ) (num den : List ℚ) : ℝ := polyval num z / polyval den z

/-- `_evaluate_rational` (bessel.py:573-575). -/
noncomputable def rational (z : ℝ) (num den : List ℚ) : ℝ := ratio z num.reverse den.reverse

/-- Numerator for arguments up to 4, lowest power first (bessel.py:594-604). -/
def p1 : List ℚ :=
  [-4.1298668500990866786e11, 2.7282507878605942706e10, -6.2140700423540120665e8, 6.6302997904833794242e6,
    -3.6629814655107086448e4, 1.0344222815443188943e2, -1.2117036164593528341e-1]

/-- Denominator for arguments up to 4, lowest power first (bessel.py:605-615). -/
def q1 : List ℚ :=
  [2.3883787996332290397e12, 2.6328198300859648632e10, 1.3985097372263433271e8, 4.5612696224219938200e5,
    9.3614022392337710626e2, 1, 0]

/-- Numerator for arguments from 4 to 8, lowest power first (bessel.py:617-628). -/
def p2 : List ℚ :=
  [-1.8319397969392084011e3, -1.2254078161378989535e4, -7.2879702464464618998e3, 1.0341910641583726701e4,
    1.1725046279757103576e4, 4.4176707025325087628e3, 7.4321196680624245801e2, 4.8591703355916499363e1]

/-- Denominator for arguments from 4 to 8, lowest power first (bessel.py:629-640). -/
def q2 : List ℚ :=
  [-3.5783478026152301072e5, 2.4599102262586308984e5, -8.4055062591169562211e4, 1.8680990008359188352e4,
    -2.9458766545509337327e3, 3.3307310774649071172e2, -2.5258076240801555057e1, 1]

/-- Numerator of the even part above 8, lowest power first (bessel.py:642-651). -/
def pC : List ℚ :=
  [2.2779090197304684302e4, 4.1345386639580765797e4, 2.1170523380864944322e4, 3.4806486443249270347e3,
    1.5376201909008354296e2, 8.8961548424210455236e-1]

/-- Denominator of the even part above 8, lowest power first (bessel.py:652-661). -/
def qC : List ℚ :=
  [2.2779090197304684318e4, 4.1370412495510416640e4, 2.1215350561880115730e4, 3.5028735138235608207e3,
    1.5711159858080893649e2, 1]

/-- Numerator of the odd part above 8, lowest power first (bessel.py:663-672). -/
def pS : List ℚ :=
  [-8.9226600200800094098e1, -1.8591953644342993800e2, -1.1183429920482737611e2, -2.2300261666214198472e1,
    -1.2441026745835638459, -8.8033303048680751817e-3]

/-- Denominator of the odd part above 8, lowest power first (bessel.py:673-682). -/
def qS : List ℚ :=
  [5.7105024128512061905e3, 1.1951131543434613647e4, 7.2642780169211018836e3, 1.4887231232283756582e3,
    9.0593769594993125859e1, 1]


/-- `x1`, the first zero (bessel.py:684). -/
def x1 : ℚ := 2.4048255576957727686

/-- `x2`, the second zero (bessel.py:685). -/
def x2 : ℚ := 5.5200781102863106496

/-- `x11` (bessel.py:686). -/
def x11 : ℚ := 616

/-- `x12` (bessel.py:687). -/
def x12 : ℚ := -1.42444230422723137837e-3

/-- `x21` (bessel.py:688). -/
def x21 : ℚ := 1413

/-- `x22` (bessel.py:689). -/
def x22 : ℚ := 5.46860286310649596604e-4

/-- `one_div_root_pi` (bessel.py:690). -/
def rootPi : ℚ := 5.641895835477562869480794515607725858e-1

/-- `t1` (bessel.py:692-696). -/
noncomputable def t1 (x : ℝ) : ℝ :=
  let y := x * x
  let r := rational y p1 q1
  let factor := (x + x1) * ((x - x11 / 256) - x12)
  factor * r

/-- `t2` (bessel.py:698-702). -/
noncomputable def t2 (x : ℝ) : ℝ :=
  let y := 1 - (x * x) / 64
  let r := rational y p2 q2
  let factor := (x + x2) * ((x - x21 / 256) - x22)
  factor * r

/-- `t3` (bessel.py:704-712). -/
noncomputable def t3 (x : ℝ) : ℝ :=
  let y := 8 / x
  let y2 := y * y
  let rc := rational y2 pC qC
  let rs := rational y2 pS qS
  let factor := rootPi / Real.sqrt x
  let sx := Real.sin x
  let cx := Real.cos x
  factor * (rc * (cx + sx) - y * rs * (sx - cx))

/-- `j0` (bessel.py:582-718). `select` takes the first condition that holds; the last list entry is the default. -/
noncomputable def j0 (x : ℝ) : ℝ :=
  let x := |x|
  let x_ := if x ≠ 0 then x else 1
  if x = 0 then 1 else if x ≤ 4 then t1 x_ else if x ≤ 8 then t2 x_ else if x > 8 then t3 x_ else x

end JG.J0
