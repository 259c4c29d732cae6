import Verif.Model.Elementary
import Mathlib.Analysis.SpecialFunctions.Log.Basic
import Mathlib.Analysis.SpecialFunctions.Trigonometric.Sinc

/-!
# The algorithm of `kv` (jax_galsim/bessel.py)

`Verif.Model.Elementary` uses the exact function `K_ν`; here the algorithm that computes it is written out: the power
series of Temme for a small argument, Steed's continued fraction for a larger one, the recurrence over the order, the asymptotic expansion of Olver for a large order,
the edge cases and the custom gradient.

Simplifications: numbers are real numbers, so the relative precision `tol` of the number type is a parameter; `log` of a negative number does not
arise where the code uses it. `jnp.where` evaluates both of its branches, which has no effect on the value chosen.
-/

namespace JG.BesK

/-- A float: a number, infinity or not a number. -/
inductive Flt where
  | num (x : ℝ)
  | inf
  | nan

/-- `jnp.round`: to the nearest integer, halves to the even one. -/
noncomputable def roundEven (x : ℝ) : ℤ :=
  if x - ⌊x⌋ < 1 / 2 then ⌊x⌋
  else if x - ⌊x⌋ = 1 / 2 then (if ⌊x⌋ % 2 = 0 then ⌊x⌋ else ⌊x⌋ + 1)
  else ⌊x⌋ + 1

/-! ### Coefficients of the Gamma function -/

/-- The list `coeff1_coeffs` (bessel.py:196-204). -/
noncomputable def coeff1Coeffs : List ℝ :=
  [-1.142022680371168e0, 6.5165112670737e-3, 3.087090173086e-4, -3.4706269649e-6, 6.9437664e-9, 3.67795e-11, -1.356e-13]

/-- The list `coeff2_coeffs` (bessel.py:205-214). -/
noncomputable def coeff2Coeffs : List ℝ :=
  [1.843740587300905e0, -7.68528408447867e-2, 1.2719271366546e-3, -4.9717367042e-6, -3.31261198e-8, 2.423096e-10,
    -1.702e-13, -1.49e-15]

/-- The loop `for i in reversed(range(1, len(coeffs)))` of Clenshaw's recurrence (bessel.py:218-224, 227-233) over the
coefficients from index 1 on; returns `(current, prev)`. -/
noncomputable def clenshawLoop (y : ℝ) : List ℝ → ℝ × ℝ
  | [] => (0, 0)
  | c :: cs =>
    let s := clenshawLoop y cs
    (y * s.1 - s.2 + c, s.1)

/-- The value computed from one list of coefficients (bessel.py:215-234). -/
noncomputable def clenshaw (w : ℝ) (coeffs : List ℝ) : ℝ :=
  let s := clenshawLoop (2 * w) coeffs.tail
  w * s.1 - s.2 + 0.5 * coeffs.headD 0

/-- The four values returned by `_evaluate_temme_coeffs`. -/
structure TemmeCoeffs where
  coeff1 : ℝ
  coeff2 : ℝ
  gamma1pv : ℝ
  gamma1mv : ℝ

/-- The last lines of `_evaluate_temme_coeffs` (bessel.py:236-238). -/
noncomputable def ofCoeffs (v coeff1 coeff2 : ℝ) : TemmeCoeffs :=
  ⟨coeff1, coeff2, coeff2 - v * coeff1, coeff2 + v * coeff1⟩

/-- `_evaluate_temme_coeffs` (bessel.py:185-238). -/
noncomputable def evaluateTemmeCoeffs (v : ℝ) : TemmeCoeffs :=
  let w := 8 * v * v - 1
  ofCoeffs v (clenshaw w coeff1Coeffs) (clenshaw w coeff2Coeffs)

/-! ### The power series -/

/-- The values carried by the loop of `_temme_series_kve` (bessel.py:264-281), without `should_stop`. -/
structure TemmeState where
  index : ℝ
  f : ℝ
  p : ℝ
  q : ℝ
  coeff : ℝ
  kvSum : ℝ
  kvp1Sum : ℝ

/-- The values before the loop (bessel.py:248-262, 287-296), for given coefficients. -/
noncomputable def temmeInit (tc : TemmeCoeffs) (v z : ℝ) : TemmeState :=
  let logzo2 := Real.log (z / 2)
  let mu := -v * logzo2
  let sincV := Elt.npSinc v
  let sinhcMu := if mu = 0 then 1 else Real.sinh mu / mu
  let f := (tc.coeff1 * Real.cosh mu + tc.coeff2 * (-logzo2) * sinhcMu) / sincV
  let p := 0.5 * Real.exp mu / tc.gamma1pv
  let q := 0.5 * Real.exp (-mu) / tc.gamma1mv
  ⟨1, f, p, q, 1, f, p⟩

/-- `body_fn` with `should_stop` false (bessel.py:264-281), as the loop only runs it then. -/
noncomputable def temmeBody (v z : ℝ) (s : TemmeState) : TemmeState :=
  let f := (s.index * s.f + s.p + s.q) / (s.index * s.index - v * v)
  let p := s.p / (s.index - v)
  let q := s.q / (s.index + v)
  let h := p - s.index * f
  let coeff := s.coeff * (z * z) / (4 * s.index)
  ⟨s.index + 1, f, p, q, coeff, s.kvSum + coeff * f, s.kvp1Sum + coeff * h⟩

/-- `should_stop` as computed from the new values (bessel.py:278-280). -/
def temmeStop (tol : ℝ) (s : TemmeState) : Prop :=
  |s.coeff * s.f| < |s.kvSum| * tol ∨ s.index > 1000

open Classical in
/-- `jax.lax.while_loop(cond_fn, body_fn, init)` (bessel.py:283-297): the body runs, and runs again until it says to stop.
The index passes 1000 after at most 1000 turns, so `fuel = 1000` turns are always enough (`C93_loop_ends`). -/
noncomputable def temmeLoop (tol v z : ℝ) : ℕ → TemmeState → TemmeState
  | 0, s => s
  | fuel + 1, s =>
    let s' := temmeBody v z s
    if temmeStop tol s' then s' else temmeLoop tol v z fuel s'

/-- `_temme_series_kve` (bessel.py:241-303) for given coefficients. -/
noncomputable def temmeSeriesKve (tol : ℝ) (tc : TemmeCoeffs) (v z : ℝ) : ℝ × ℝ :=
  let s := temmeLoop tol v z 1000 (temmeInit tc v z)
  (s.kvSum * Real.exp z, 2 * s.kvp1Sum * Real.exp z / z)

/-! ### The continued fraction -/

/-- The values carried by the loop of `_continued_fraction_kve` (bessel.py:320-334), without `should_stop`. -/
structure SteedState where
  index : ℝ
  partialNumerator : ℝ
  partialDenominator : ℝ
  denominatorRatio : ℝ
  convergentDifference : ℝ
  hypergeometricRatio : ℝ
  k0 : ℝ
  k1 : ℝ
  c : ℝ
  q : ℝ
  hypergeometricSum : ℝ

/-- The values before the loop (bessel.py:315-318, 383-396). -/
noncomputable def steedInit (v z : ℝ) : SteedState :=
  let initialNumerator := v * v - 0.25
  let initialDenominator := 2 * (z + 1)
  let initialRatio := 1 / initialDenominator
  let initialSeq := -initialNumerator
  ⟨2, initialNumerator, initialDenominator, initialRatio, initialRatio, initialRatio, 0, 1, initialSeq, initialSeq,
    1 - initialNumerator * initialRatio⟩

/-- `steeds_body` with `should_stop` false (bessel.py:336-378), as the loop only runs it then. -/
noncomputable def steedBody (s : SteedState) : SteedState :=
  let partialNumerator := s.partialNumerator - 2 * (s.index - 1)
  let c := -s.c * partialNumerator / s.index
  let nextK := (s.k0 - s.partialDenominator * s.k1) / partialNumerator
  let k0 := s.k1
  let k1 := nextK
  let q := s.q + c * nextK
  let partialDenominator := s.partialDenominator + 2
  let denominatorRatio := 1 / (partialDenominator + partialNumerator * s.denominatorRatio)
  let convergentDifference := s.convergentDifference * (partialDenominator * denominatorRatio - 1)
  let hypergeometricRatio := s.hypergeometricRatio + convergentDifference
  let hypergeometricSum := s.hypergeometricSum + q * convergentDifference
  ⟨s.index + 1, partialNumerator, partialDenominator, denominatorRatio, convergentDifference, hypergeometricRatio, k0, k1,
    c, q, hypergeometricSum⟩

/-- `should_stop` as computed from the new values (bessel.py:362-364). -/
def steedStop (tol : ℝ) (s : SteedState) : Prop :=
  |s.q * s.convergentDifference| < |s.hypergeometricSum| * tol ∨ s.index > 1000

open Classical in
/-- `jax.lax.while_loop(cond_fn, steeds_body, init)` (bessel.py:380-397): the index starts at 2 and passes 1000 after at
most 999 turns. -/
noncomputable def steedLoop (tol : ℝ) : ℕ → SteedState → SteedState
  | 0, s => s
  | fuel + 1, s =>
    let s' := steedBody s
    if steedStop tol s' then s' else steedLoop tol fuel s'

/-- The two results from the final values (bessel.py:398-409); `log1p x` is `log (1 + x)`. -/
noncomputable def steedOut (v z : ℝ) (s : SteedState) : ℝ × ℝ :=
  let logKve := 0.5 * Real.log (Real.pi / (2 * z)) - Real.log s.hypergeometricSum
  let logKvp1e := logKve + Real.log (1 + 2 * (v + z + (v * v - 0.25) * s.hypergeometricRatio)) - Real.log z - Real.log 2
  (Real.exp logKve, Real.exp logKvp1e)

/-- `_continued_fraction_kve` (bessel.py:306-409). -/
noncomputable def continuedFractionKve (tol v z : ℝ) : ℝ × ℝ :=
  steedOut v z (steedLoop tol 1000 (steedInit v z))

/-! ### Olver's expansion -/

/-- `_sqrt1px2` (bessel.py:175-182). -/
noncomputable def sqrt1px2 (eps x : ℝ) : ℝ :=
  if |x| * Real.sqrt eps ≤ 1 then Real.exp (0.5 * Real.log (1 + x * x)) else |x|

/-- The inner loop over the coefficients of one polynomial (bessel.py:427-429). -/
noncomputable def horner (t : ℝ) (cs : List ℝ) : ℝ := cs.foldl (fun coeff c => coeff * t + c) 0

/-- The outer loop (bessel.py:421-433) from polynomial `i` on, with the current `divisor` and `kve_sum`. -/
noncomputable def olverLoop (vAbs t : ℝ) : ℕ → ℝ → ℝ → List (List ℝ) → ℝ
  | _, _, kveSum, [] => kveSum
  | i, divisor, kveSum, cs :: rest =>
    let term := horner t cs / divisor
    olverLoop vAbs t (i + 1) (divisor * vAbs) (kveSum + (if i % 2 = 1 then term else -term)) rest

/-- `_ASYMPTOTIC_OLVER_COEFFICIENTS` (bessel.py:130-171), as decimal fractions. -/
def olverTableQ : List (List ℚ) :=
  [[0, 0, 0, 0, 0, 0, 0, 0, 0, 0, 0, 0, 0, 0, 0, 0, 0, 0, 0, 0, 0, 0, 0, 0, 0, 0, 0, -0.20833333333333334, 0,
      0.125, 0],
   [0, 0, 0, 0, 0, 0, 0, 0, 0, 0, 0, 0, 0, 0, 0, 0, 0, 0, 0, 0, 0, 0, 0, 0, 0.3342013888888889, 0,
      -0.40104166666666669, 0, 0.0703125, 0, 0],
   [0, 0, 0, 0, 0, 0, 0, 0, 0, 0, 0, 0, 0, 0, 0, 0, 0, 0, 0, 0, 0, -1.0258125964506173, 0, 1.8464626736111112,
      0, -0.89121093750000002, 0, 0.0732421875, 0, 0, 0],
   [0, 0, 0, 0, 0, 0, 0, 0, 0, 0, 0, 0, 0, 0, 0, 0, 0, 0, 4.6695844234262474, 0, -11.207002616222995, 0,
      8.78912353515625, 0, -2.3640869140624998, 0, 0.112152099609375, 0, 0, 0, 0],
   [0, 0, 0, 0, 0, 0, 0, 0, 0, 0, 0, 0, 0, 0, 0, -28.212072558200244, 0, 84.636217674600744, 0,
      -91.818241543240035, 0, 42.534998745388457, 0, -7.3687943594796312, 0, 0.22710800170898438, 0, 0, 0, 0, 0],
   [0, 0, 0, 0, 0, 0, 0, 0, 0, 0, 0, 0, 212.5701300392171, 0, -765.25246814118157, 0, 1059.9904525279999, 0,
      -699.57962737613275, 0, 218.19051174421159, 0, -26.491430486951554, 0, 0.57250142097473145, 0, 0, 0, 0, 0,
      0],
   [0, 0, 0, 0, 0, 0, 0, 0, 0, -1919.4576623184068, 0, 8061.7221817373083, 0, -13586.550006434136, 0,
      11655.393336864536, 0, -5305.6469786134048, 0, 1200.9029132163525, 0, -108.09091978839464, 0,
      1.7277275025844574, 0, 0, 0, 0, 0, 0, 0],
   [0, 0, 0, 0, 0, 0, 20204.291330966149, 0, -96980.598388637503, 0, 192547.0012325315, 0, -203400.17728041555,
      0, 122200.46498301747, 0, -41192.654968897557, 0, 7109.5143024893641, 0, -493.915304773088, 0,
      6.074042001273483, 0, 0, 0, 0, 0, 0, 0, 0],
   [0, 0, 0, -242919.18790055133, 0, 1311763.6146629769, 0, -2998015.9185381061, 0, 3763271.2976564039, 0,
      -2813563.2265865342, 0, 1268365.2733216248, 0, -331645.17248456361, 0, 45218.768981362737, 0,
      -2499.8304818112092, 0, 24.380529699556064, 0, 0, 0, 0, 0, 0, 0, 0, 0],
   [3284469.8530720375, 0, -19706819.11843222, 0, 50952602.492664628, 0, -74105148.211532637, 0,
      66344512.274729028, 0, -37567176.660763353, 0, 13288767.166421819, 0, -2785618.1280864552, 0,
      308186.40461266245, 0, -13886.089753717039, 0, 110.01714026924674, 0, 0, 0, 0, 0, 0, 0, 0, 0, 0]]

/-- The table as real numbers. -/
noncomputable def olverTable : List (List ℝ) := olverTableQ.map (List.map fun c : ℚ => (c : ℝ))

/-- `_olver_kve` (bessel.py:412-441); the table of coefficients is the parameter `table`. -/
noncomputable def olverKve (eps : ℝ) (table : List (List ℝ)) (v z : ℝ) : ℝ :=
  let vAbs := |v|
  let w := z / vAbs
  let t := 1 / sqrt1px2 eps w
  let kveSum := olverLoop vAbs t 0 vAbs 1 table
  let sharedPrefactor := 1 / (sqrt1px2 eps w + w) + Real.log w - Real.log (1 + 1 / t)
  let logKPrefactor := 0.5 * Real.log (Real.pi * t / (2 * vAbs)) - vAbs * sharedPrefactor
  Real.exp (logKPrefactor + Real.log kveSum)

/-! ### The recurrence over the order -/

/-- The loop of `bessel_recurrence` (bessel.py:467-480): runs while `index ≤ n`, that is for `index = 1, …, n`, from the
values `kve`, `kvep1` at `index = i + 1` with `k` turns left. (`jnp.where(index > n, …)` in the body never applies.) -/
noncomputable def recurrence (u x : ℝ) : ℕ → ℕ → ℝ × ℝ → ℝ × ℝ
  | 0, _, s => s
  | k + 1, i, s => recurrence u x k (i + 1) (s.2, 2 * (u + ((i : ℝ) + 1)) * s.2 / x + s.1)

/-- The two methods that give `Kve(u, x)` and `Kve(u+1, x)`, and the one for large orders. -/
structure Methods where
  series : ℝ → ℝ → ℝ × ℝ
  cf : ℝ → ℝ → ℝ × ℝ
  olver : ℝ → ℝ → ℝ

/-- The methods as the code calls them (bessel.py:459-460, 496): the series takes its coefficients from
`_evaluate_temme_coeffs` (bessel.py:249). The tolerance of the two loops and the `eps` of `_sqrt1px2` are both
`jnp.finfo(dtype).eps` in the code; here they are two numbers. -/
noncomputable def codeMethods (tol eps : ℝ) : Methods :=
  ⟨fun v z => temmeSeriesKve tol (evaluateTemmeCoeffs v) v z, continuedFractionKve tol, olverKve eps olverTable⟩

/-- `_temme_kve` (bessel.py:444-481). -/
noncomputable def temmeKve (m : Methods) (v x : ℝ) : ℝ :=
  let v := |v|
  let n := roundEven v
  let u := v - n
  let smallX := if x ≤ 2 then x else 0.1
  let largeX := if x > 2 then x else 1000
  let t := m.series u smallX
  let c := m.cf u largeX
  let kue := if x ≤ 2 then t.1 else c.1
  let kuep1 := if x ≤ 2 then t.2 else c.2
  (recurrence u x n.toNat 0 (kue, kuep1)).1

/-- `_kve_core` (bessel.py:484-499). -/
noncomputable def kveCore (m : Methods) (nu x : ℝ) : ℝ :=
  let nu := |nu|
  let smallNu := if nu < 50 then nu else 0.1
  let largeNu := if nu ≥ 50 then nu else 1000
  let olver := m.olver largeNu x
  let temme := temmeKve m smallNu x
  if nu ≥ 50 then olver else temme

/-- `_kv_scalar` (bessel.py:502-519). -/
noncomputable def kvScalar (m : Methods) (nu x : ℝ) : Flt :=
  let nu := |nu|
  let safeX := if x > 0 then x else 1
  let kve := kveCore m nu safeX
  let result := Flt.num (kve * Real.exp (-safeX))
  let result := if x = 0 then Flt.inf else result
  if x < 0 then Flt.nan else result

/-- `-0.5 * (kv_prev + kv_next) * g` on floats, for two numbers; what happens to infinite values
is not followed (`nan` here). -/
noncomputable def gradX (prev next : Flt) (g : ℝ) : Flt :=
  match prev, next with
  | .num a, .num b => .num (-0.5 * (a + b) * g)
  | _, _ => .nan

/-- `_kv_fwd` followed by `_kv_bwd` (bessel.py:551-562): the gradients for `nu` and `x`. Infinite values of `kv` are
not followed further (`nan` here). -/
noncomputable def kvGrad (m : Methods) (nu x g : ℝ) : ℝ × Flt :=
  let prev := kvScalar m (nu - 1) x
  let next := kvScalar m (nu + 1) x
  (0, gradX prev next g)

end JG.BesK
