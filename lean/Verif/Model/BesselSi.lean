import Mathlib.Analysis.SpecialFunctions.Trigonometric.Basic
import Mathlib.Data.Sign.Basic

/-!
# The sine integral `si`

Source: jax_galsim/bessel.py:8-104. Floating point numbers are real numbers, the constants of the tables are exact decimal
fractions, and `jnp.pi` is `π`. An array argument is a list of independent numbers and is not modelled.
-/

namespace JG.Si

/-- The nested parentheses `c₀ + y*(c₁ + y*(… + y*(cₙ)))` of the three approximations. -/
noncomputable def nest (y : ℝ) : List ℚ → ℝ
  | [] => 0
  | a :: l => (a : ℝ) + y * nest y l

/-- Numerator of `_f_pade` (bessel.py:14-24). -/
def fNum : List ℚ :=
  [1, 7.44437068161936700618e2, 1.96396372895146869801e5, 2.37750310125431834034e7, 1.43073403821274636888e9,
    4.33736238870432522765e10, 6.40533830574022022911e11, 4.20968180571076940208e12, 1.00795182980368574617e13,
    4.94816688199951963482e12, -4.94701168645415959931e11]

/-- Denominator of `_f_pade` without the factor `x` (bessel.py:25-34). -/
def fDen : List ℚ :=
  [1, 7.46437068161927678031e2, 1.97865247031583951450e5, 2.41535670165126845144e7, 1.47478952192985464958e9,
    4.58595115847765779830e10, 7.08501308149515401563e11, 5.06084464593475076774e12, 1.43468549171581016479e13,
    1.11535493509914254097e13]

/-- `_f_pade` (bessel.py:9-37). -/
noncomputable def fPade (x x2 : ℝ) : ℝ :=
  let y := 1 / x2
  nest y fNum / (x * nest y fDen)

/-- Numerator of `_g_pade` without the factor `y` (bessel.py:45-55). -/
def gNum : List ℚ :=
  [1, 8.1359520115168615e2, 2.35239181626478200e5, 3.12557570795778731e7, 2.06297595146763354e9,
    6.83052205423625007e10, 1.09049528450362786e12, 7.57664583257834349e12, 1.81004487464664575e13,
    6.43291613143049485e12, -1.36517137670871689e12]

/-- Denominator of `_g_pade` (bessel.py:56-65). -/
def gDen : List ℚ :=
  [1, 8.19595201151451564e2, 2.40036752835578777e5, 3.26026661647090822e7, 2.23355543278099360e9,
    7.87465017341829930e10, 1.39866710696414565e12, 1.17164723371736605e13, 4.01839087307656620e13,
    3.99653257887490811e13]

/-- `_g_pade` (bessel.py:40-68). -/
noncomputable def gPade (x2 : ℝ) : ℝ :=
  let y := 1 / x2
  y * nest y gNum / nest y gDen

/-- Numerator of `_si_small_pade` without the factor `x` (bessel.py:75-82). -/
def sNum : List ℚ :=
  [1, -4.54393409816329991e-2, 1.15457225751016682e-3, -1.41018536821330254e-5, 9.43280809438713025e-8,
    -3.53201978997168357e-10, 7.08240282274875911e-13, -6.05338212010422477e-16]

/-- Denominator of `_si_small_pade` (bessel.py:83-89). -/
def sDen : List ℚ :=
  [1, 1.01162145739225565e-2, 4.99175116169755106e-5, 1.55654986308745614e-7, 3.28067571055789734e-10,
    4.5049097575386581e-13, 3.21107051193712168e-16]

/-- `_si_small_pade` (bessel.py:71-91). -/
noncomputable def siSmallPade (x x2 : ℝ) : ℝ := x * nest x2 sNum / nest x2 sDen

/-- `si` (bessel.py:94-104). -/
noncomputable def si (x : ℝ) : ℝ :=
  let x2 := x * x
  if x2 > 16 then
    (SignType.sign x : ℝ) * (Real.pi / 2) - fPade x x2 * Real.cos x - gPade x2 * Real.sin x
  else siSmallPade x x2

end JG.Si
