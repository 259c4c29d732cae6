import Verif.Lemmas.BesselCFEnd
import Verif.Lemmas.BesselTail
import Verif.Lemmas.BesselOlverEnd
import Verif.Lemmas.TemmeStart
import Mathlib.RingTheory.Polynomial.Chebyshev

/-!
# C93: the Bessel function `kv`

The exact function is `Elt.kv`, defined by an integral. The theorems say how the value returned by `kv` and its gradient
relate to it.
-/

namespace JG.BesK

open Real JG.Elt

/-- `r` is `k` with relative error at most `δ`. -/
def Close (δ r k : ℝ) : Prop := |r - k| ≤ δ * k

/-! ### Rounding the order -/

theorem roundEven_close (x : ℝ) : |x - roundEven x| ≤ 1 / 2 := by
  have h1 := Int.floor_le x
  have h2 := Int.lt_floor_add_one x
  rw [roundEven, abs_le]
  split_ifs with a b c <;> push_cast <;> constructor <;> linarith

theorem roundEven_nonneg {x : ℝ} (h : 0 ≤ x) : 0 ≤ roundEven x := by
  have h1 : 0 ≤ ⌊x⌋ := Int.floor_nonneg.mpr h
  rw [roundEven]
  split_ifs <;> omega

/-! ### The recurrence over the order -/

theorem recurrence_close {δ u x : ℝ} (hx : 0 < x) (hu : |u| ≤ 1 / 2) (E : ℝ) (k : ℕ) :
    ∀ (i : ℕ) (s : ℝ × ℝ), Close δ s.1 (kv (u + i) x * E) → Close δ s.2 (kv (u + i + 1) x * E) →
    Close δ (recurrence u x k i s).1 (kv (u + (i + k : ℕ)) x * E) := by
  obtain ⟨hu1, hu2⟩ := abs_le.mp hu
  induction k with
  | zero => intro i s h1 _; simpa [recurrence] using h1
  | succ k ih =>
    intro i s h1 h2
    have hi : (0 : ℝ) ≤ i := Nat.cast_nonneg i
    rw [recurrence, show i + (k + 1) = i + 1 + k by omega]
    refine ih (i + 1) _ ?_ ?_
    · push_cast
      rw [← add_assoc]
      exact h2
    · have hr := kv_recurrence (u + i + 1) hx
      rw [show u + (i : ℝ) + 1 - 1 = u + i by ring] at hr
      push_cast
      rw [show u + ((i : ℝ) + 1) + 1 = u + i + 1 + 1 by ring, hr]
      simp only [Close] at h1 h2 ⊢
      have hc : 0 ≤ 2 * (u + ((i : ℝ) + 1)) / x := by
        have : 0 ≤ u + ((i : ℝ) + 1) := by linarith
        positivity
      have e : 2 * (u + ((i : ℝ) + 1)) * s.2 / x + s.1 - (2 * (u + i + 1) * kv (u + i + 1) x / x + kv (u + i) x) * E
          = 2 * (u + ((i : ℝ) + 1)) / x * (s.2 - kv (u + i + 1) x * E) + (s.1 - kv (u + i) x * E) := by
        field_simp
        ring
      rw [e]
      refine (abs_add_le _ _).trans ?_
      rw [abs_mul, abs_of_nonneg hc]
      have := mul_le_mul_of_nonneg_left h2 hc
      calc _ ≤ 2 * (u + ((i : ℝ) + 1)) / x * (δ * (kv (u + i + 1) x * E)) + δ * (kv (u + i) x * E) := by linarith
        _ = _ := by field_simp; ring

/-- What is asked of the three methods: relative error at most `δ` on the part of the plane where each is used. The one for
large orders is asked only where `x √eps ≤ ν`; for larger arguments `_sqrt1px2` no longer computes `√(1 + (x/ν)²)`. -/
structure Good (δ eps : ℝ) (m : Methods) : Prop where
  series : ∀ u x : ℝ, |u| ≤ 1 / 2 → 0 < x → x ≤ 2 →
    Close δ (m.series u x).1 (kv u x * exp x) ∧ Close δ (m.series u x).2 (kv (u + 1) x * exp x)
  cf : ∀ u x : ℝ, |u| ≤ 1 / 2 → 2 < x →
    Close δ (m.cf u x).1 (kv u x * exp x) ∧ Close δ (m.cf u x).2 (kv (u + 1) x * exp x)
  olver : ∀ nu x : ℝ, 50 ≤ nu → 0 < x → x * sqrt eps ≤ nu → Close δ (m.olver nu x) (kv nu x * exp x)

theorem temmeKve_close {δ : ℝ} {m : Methods} {x : ℝ} (hx : 0 < x)
    (hs : x ≤ 2 → ∀ u : ℝ, |u| ≤ 1 / 2 →
      Close δ (m.series u x).1 (kv u x * exp x) ∧ Close δ (m.series u x).2 (kv (u + 1) x * exp x))
    (hc : 2 < x → ∀ u : ℝ, |u| ≤ 1 / 2 →
      Close δ (m.cf u x).1 (kv u x * exp x) ∧ Close δ (m.cf u x).2 (kv (u + 1) x * exp x)) (v : ℝ) :
    Close δ (temmeKve m v x) (kv v x * exp x) := by
  have hn := roundEven_nonneg (abs_nonneg v)
  have hu := roundEven_close |v|
  have hN : ((roundEven |v|).toNat : ℝ) = (roundEven |v| : ℝ) := by
    have : ((roundEven |v|).toNat : ℤ) = roundEven |v| := Int.toNat_of_nonneg hn
    exact_mod_cast this
  have key : ∀ s : ℝ × ℝ, Close δ s.1 (kv (|v| - roundEven |v|) x * exp x) →
      Close δ s.2 (kv (|v| - roundEven |v| + 1) x * exp x) →
      Close δ (recurrence (|v| - roundEven |v|) x (roundEven |v|).toNat 0 s).1 (kv v x * exp x) := by
    intro s h1 h2
    have := recurrence_close hx hu (exp x) (roundEven |v|).toNat 0 s (by simpa using h1) (by simpa using h2)
    rw [zero_add, hN, sub_add_cancel, kv_abs v hx] at this
    exact this
  simp only [temmeKve]
  by_cases h : x ≤ 2
  · simp only [if_pos h]
    exact key _ (hs h _ hu).1 (hs h _ hu).2
  · have h' : 2 < x := lt_of_not_ge h
    simp only [if_neg h, if_pos h']
    exact key _ (hc h' _ hu).1 (hc h' _ hu).2

/-- **C93** (orders). The value returned has no larger relative error than the three methods it starts from, for every
order and every positive argument (up to `|ν|/√eps` for the orders from 50 on): the loop over the order adds nothing to
it. -/
theorem C93_orders {δ eps : ℝ} {m : Methods} (hm : Good δ eps m) (nu : ℝ) {x : ℝ} (hx : 0 < x)
    (hx2 : 50 ≤ |nu| → x * sqrt eps ≤ |nu|) :
    ∃ r, kvScalar m nu x = Flt.num r ∧ Close δ r (kv nu x) := by
  refine ⟨kveCore m |nu| x * exp (-x), ?_, ?_⟩
  · simp only [kvScalar, if_pos hx, if_neg hx.ne', if_neg (not_lt.mpr hx.le), gt_iff_lt]
  · have hcore : Close δ (kveCore m |nu| x) (kv nu x * exp x) := by
      simp only [kveCore, abs_abs]
      by_cases h : |nu| ≥ 50
      · simp only [if_pos h]
        have := hm.olver |nu| x h hx (hx2 h)
        rwa [kv_abs nu hx] at this
      · have h' : |nu| < 50 := lt_of_not_ge h
        simp only [if_neg h, if_pos h']
        have := temmeKve_close (δ := δ) (m := m) hx (fun h2 u hu => hm.series u x hu hx h2)
          (fun h2 u hu => hm.cf u x hu h2) |nu|
        rwa [kv_abs nu hx] at this
    simp only [Close] at hcore ⊢
    have e : kveCore m |nu| x * exp (-x) - kv nu x = (kveCore m |nu| x - kv nu x * exp x) * exp (-x) := by
      rw [sub_mul, mul_assoc (kv nu x), ← exp_add, add_neg_cancel, exp_zero, mul_one]
    rw [e, abs_mul, abs_of_pos (exp_pos _)]
    have := mul_le_mul_of_nonneg_right hcore (exp_pos (-x)).le
    calc _ ≤ δ * (kv nu x * exp x) * exp (-x) := this
      _ = δ * kv nu x := by rw [mul_assoc, mul_assoc (kv nu x), ← exp_add, add_neg_cancel, exp_zero, mul_one]

/-- The exact function as a method. -/
noncomputable def exactMethods : Methods :=
  ⟨fun u x => (kv u x * exp x, kv (u + 1) x * exp x), fun u x => (kv u x * exp x, kv (u + 1) x * exp x),
    fun nu x => kv nu x * exp x⟩

theorem good_exact : Good 0 0 exactMethods :=
  ⟨fun u x _ _ _ => by simp [Close, exactMethods], fun u x _ _ => by simp [Close, exactMethods],
    fun nu x _ _ _ => by simp [Close, exactMethods]⟩

/-- Non-trivial instance: three turns of the loop, order 2.7, argument 1. -/
example : kvScalar exactMethods 2.7 1 = Flt.num (kv 2.7 1) := by
  obtain ⟨r, h1, h2⟩ := C93_orders good_exact 2.7 one_pos (fun h => by norm_num)
  rw [h1]
  simp only [Close, zero_mul, abs_nonpos_iff, sub_eq_zero] at h2
  rw [h2]

theorem kvScalar_close {δ : ℝ} {m : Methods} {nu x : ℝ} (hnu : |nu| < 50) (hx : 0 < x)
    (hmm : Close δ (temmeKve m |nu| x) (kv |nu| x * exp x)) :
    ∃ r, kvScalar m nu x = Flt.num r ∧ Close δ r (kv nu x) := by
  refine ⟨kveCore m |nu| x * exp (-x), ?_, ?_⟩
  · simp only [kvScalar, if_pos hx, if_neg hx.ne', if_neg (not_lt.mpr hx.le), gt_iff_lt]
  · have e0 : kveCore m |nu| x = temmeKve m |nu| x := by
      simp only [kveCore, abs_abs]
      rw [if_neg (not_le.mpr hnu), if_pos hnu]
    rw [kv_abs nu hx] at hmm
    rw [e0]
    simp only [Close] at hmm ⊢
    have e : temmeKve m |nu| x * exp (-x) - kv nu x = (temmeKve m |nu| x - kv nu x * exp x) * exp (-x) := by
      rw [sub_mul, mul_assoc (kv nu x), ← exp_add, add_neg_cancel, exp_zero, mul_one]
    rw [e, abs_mul, abs_of_pos (exp_pos _)]
    have := mul_le_mul_of_nonneg_right hmm (exp_pos (-x)).le
    calc _ ≤ _ := this
      _ = _ := by rw [mul_assoc, mul_assoc (kv nu x), ← exp_add, add_neg_cancel, exp_zero, mul_one]

/-! ### The power series -/

/-- The coefficients are the ones described in the docstring of `_evaluate_temme_coeffs`, without error; at `v = 0` the
first one is the limit `Γ'(1)`. -/
structure ExactCoeffs (v : ℝ) (tc : TemmeCoeffs) : Prop where
  c1 : v ≠ 0 → tc.coeff1 = (1 / Gamma (1 - v) - 1 / Gamma (1 + v)) / (2 * v)
  c1' : v = 0 → tc.coeff1 = deriv Gamma 1
  c2 : tc.coeff2 = (1 / Gamma (1 - v) + 1 / Gamma (1 + v)) / 2
  gp : tc.gamma1pv = 1 / Gamma (1 + v)
  gm : tc.gamma1mv = 1 / Gamma (1 - v)

theorem exactCoeffs_init {v : ℝ} {tc : TemmeCoeffs} (h : ExactCoeffs v tc) (z : ℝ) :
    temmeInit tc v z = exactInit v z := by
  have e : tc = ofCoeffs v (gamma1 v) (gamma2 v) := by
    obtain ⟨a, b, c, d⟩ := tc
    have h1 : a = gamma1 v := by
      by_cases h0 : v = 0
      · rw [gamma1, if_pos h0]; exact h.c1' h0
      · rw [gamma1, if_neg h0]; exact h.c1 h0
    have h2 : b = gamma2 v := h.c2
    have h3 : c = gamma2 v - v * gamma1 v := by rw [gamma_plus]; exact h.gp
    have h4 : d = gamma2 v + v * gamma1 v := by rw [gamma_minus]; exact h.gm
    rw [ofCoeffs, h1, h2, h3, h4]
  rw [e]
  rfl

theorem exactCoeffs_exists (v : ℝ) : ExactCoeffs v (ofCoeffs v (gamma1 v) (gamma2 v)) :=
  ⟨fun h => by simp [ofCoeffs, gamma1, h], fun h => by simp [ofCoeffs, gamma1, h], rfl, gamma_plus v, gamma_minus v⟩

/-- **C93** (stopping). With exact coefficients of the Gamma function, what the loop of Temme's series leaves out when it
stops changes the two results by at most 4 and 34 times the tolerance, for every order up to one half and every argument
up to 2. -/
theorem C93_series_exact {tol : ℝ} (ht : (1 / 2) ^ 200 ≤ tol) (ht2 : tol ≤ 1 / 8) {v z : ℝ} (hv : |v| ≤ 1 / 2) (hz : 0 < z)
    (hz2 : z ≤ 2) {tc : TemmeCoeffs} (htc : ExactCoeffs v tc) :
    Close (4 * tol) (temmeSeriesKve tol tc v z).1 (kv v z * exp z) ∧
      Close (34 * tol) (temmeSeriesKve tol tc v z).2 (kv (v + 1) z * exp z) := by
  obtain ⟨h1, h2⟩ := exact_loop ht ht2 hv hz hz2
  simp only [temmeSeriesKve, exactCoeffs_init htc, Close]
  obtain ⟨s, hs⟩ : ∃ s, s = temmeLoop tol v z 1000 (exactInit v z) := ⟨_, rfl⟩
  rw [← hs] at h1 h2 ⊢
  constructor
  · rw [← sub_mul, abs_mul, abs_of_pos (exp_pos z)]
    have := mul_le_mul_of_nonneg_right h1 (exp_pos z).le
    linarith
  · have e : 2 * s.kvp1Sum * exp z / z - kv (v + 1) z * exp z = (s.kvp1Sum - z / 2 * kv (v + 1) z) * (2 * exp z / z) := by
      field_simp
    have hp : 0 < 2 * exp z / z := by positivity
    rw [e, abs_mul, abs_of_pos hp]
    have := mul_le_mul_of_nonneg_right h2 hp.le
    calc _ ≤ _ := this
      _ = _ := by field_simp

example : ∃ tc, ExactCoeffs (0.3 : ℝ) tc := ⟨_, exactCoeffs_exists _⟩

/-- The loop ends by its own rule: it never runs out of turns while its last term is large. -/
theorem C93_loop_ends {tol : ℝ} {v z : ℝ} (tc : TemmeCoeffs) :
    temmeStop tol (temmeLoop tol v z 1000 (temmeInit tc v z)) := by
  obtain ⟨m, h1, h2, h3, h4⟩ := loop_iter tol v z (temmeInit tc v z) 1000 0 (by norm_num)
  have h3' : temmeLoop tol v z 1000 (temmeInit tc v z) = temmeIter v z (temmeInit tc v z) m := h3
  rw [h3']
  rcases h4 with h4 | h4
  · exact h4
  · right
    rw [iter_index v z (start_init tc v z), h4]
    norm_num

/-- **C93** (small arguments). With exact coefficients, `kv` has relative error at most 34 times the tolerance for every
order below 50 and every argument up to 2. -/
theorem C93_small_exact {tol : ℝ} (ht : (1 / 2) ^ 200 ≤ tol) (ht2 : tol ≤ 1 / 8) {coeffs : ℝ → TemmeCoeffs}
    (hc : ∀ v, ExactCoeffs v (coeffs v)) {m : Methods} (hm : m.series = fun v z => temmeSeriesKve tol (coeffs v) v z)
    {nu x : ℝ} (hnu : |nu| < 50) (hx : 0 < x) (hx2 : x ≤ 2) :
    ∃ r, kvScalar m nu x = Flt.num r ∧ Close (34 * tol) r (kv nu x) := by
  have htol : 0 < tol := lt_of_lt_of_le (by positivity) ht
  have hmm : Close (34 * tol) (temmeKve m |nu| x) (kv |nu| x * exp x) := by
    refine temmeKve_close hx (fun _ u hu => ?_) (fun h => absurd hx2 (not_le.mpr h)) _
    rw [hm]
    obtain ⟨a, b⟩ := C93_series_exact ht ht2 hu hx hx2 (hc u)
    refine ⟨?_, b⟩
    have hK : 0 ≤ kv u x * exp x := mul_nonneg (kv_pos u hx).le (exp_pos x).le
    exact le_trans a (mul_le_mul_of_nonneg_right (by linarith) hK)
  exact kvScalar_close hnu hx hmm

/-- Double precision, order 7/2, argument 1. -/
example : ∃ r, kvScalar ⟨fun v z => temmeSeriesKve ((1 / 2) ^ 52) (ofCoeffs v (gamma1 v) (gamma2 v)) v z,
    fun _ _ => (0, 0), fun _ _ => 0⟩ (7 / 2) 1 = Flt.num r ∧ Close (34 * (1 / 2) ^ 52) r (kv (7 / 2) 1) :=
  C93_small_exact (by norm_num) (by norm_num) exactCoeffs_exists rfl (by norm_num [abs_of_pos]) one_pos (by norm_num)

/-! ### The continued fraction -/

theorem half_cases {v : ℝ} (hv : |v| ≤ 1 / 2) : (v = 1 / 2 ∨ v = -(1 / 2)) ∨ (-(1 / 2) < v ∧ v < 1 / 2) := by
  rw [abs_le] at hv
  by_cases hh : v = 1 / 2 ∨ v = -(1 / 2)
  · exact Or.inl hh
  · push Not at hh
    exact Or.inr ⟨lt_of_le_of_ne hv.1 (Ne.symm hh.2), lt_of_le_of_ne hv.2 hh.1⟩

/-- **C93** (limit of the continued fraction). Run without an end, Steed's algorithm converges to the exact functions: for
every order up to one half and every positive argument the two results computed after `n` turns tend to
`K_v(z) e^z` and `K_{v+1}(z) e^z`. -/
theorem C93_fraction_limit {v z : ℝ} (hv : |v| ≤ 1 / 2) (hz : 0 < z) :
    Filter.Tendsto (fun n => steedOut v z (steedBody^[n] (steedInit v z))) Filter.atTop
      (nhds (kv v z * exp z, kv (v + 1) z * exp z)) := out_tendsto hv hz

example : |(0.3 : ℝ)| ≤ 1 / 2 ∧ (0 : ℝ) < 5 := by norm_num [abs_of_pos]

/-- **C93** (continued fraction). For every order up to one half, every argument above 2 and every tolerance from that of
double precision to `2⁻²⁰`, what the loop leaves out when it stops changes the two results by at most 1100 times the
tolerance; the loop ends by its own rule after at most 999 turns. -/
theorem C93_fraction {tol : ℝ} (ht : (1 / 2) ^ 53 ≤ tol) (ht2 : tol ≤ (1 / 2) ^ 20) {v z : ℝ} (hv : |v| ≤ 1 / 2)
    (hz : 2 < z) :
    Close (1100 * tol) (continuedFractionKve tol v z).1 (kv v z * exp z) ∧
    Close (1100 * tol) (continuedFractionKve tol v z).2 (kv (v + 1) z * exp z) ∧
    ∃ n, n ≤ 999 ∧ continuedFractionKve tol v z = steedOut v z (steedBody^[n] (steedInit v z)) ∧
      steedStop tol (steedBody^[n] (steedInit v z)) := by
  obtain ⟨n, _, b2, b3, b4⟩ := steedLoop_ends tol v z
  have hn : continuedFractionKve tol v z = steedOut v z (steedIter v z n) := by rw [continuedFractionKve, b3]
  have ht0 : 0 < tol := lt_of_lt_of_le (by positivity) ht
  rcases half_cases hv with hh | ⟨h1, h2⟩
  · have hz' : 0 < z := by linarith
    refine ⟨?_, ?_, n, b2, hn, b4⟩
    · rw [hn, half_out hz' hh, Close, sub_self, abs_zero]
      have := mul_pos (kv_pos v hz') (exp_pos z)
      positivity
    · rw [hn, half_out hz' hh, Close, sub_self, abs_zero]
      have := mul_pos (kv_pos (v + 1) hz') (exp_pos z)
      positivity
  · obtain ⟨a, b⟩ := cf_error h1 h2 hz.le ht ht2
    exact ⟨a, b, n, b2, hn, b4⟩

example : Close (1100 * (1 / 2) ^ 52) (continuedFractionKve ((1 / 2) ^ 52) (1 / 3) 5).1 (kv (1 / 3) 5 * exp 5) :=
  (C93_fraction (by norm_num) (by norm_num) (by norm_num [abs_of_pos]) (by norm_num)).1

/-- **C93** (large arguments). `kv` has relative error at most 1100 times the tolerance for every order below 50 and every
argument above 2, from the code alone: nothing is assumed about the values of the Gamma function. -/
theorem C93_large {tol : ℝ} (ht : (1 / 2) ^ 53 ≤ tol) (ht2 : tol ≤ (1 / 2) ^ 20) {m : Methods}
    (hm : m.cf = continuedFractionKve tol) {nu x : ℝ} (hnu : |nu| < 50) (hx : 2 < x) :
    ∃ r, kvScalar m nu x = Flt.num r ∧ Close (1100 * tol) r (kv nu x) := by
  have hx' : 0 < x := by linarith
  refine kvScalar_close hnu hx' (temmeKve_close hx' (fun h => absurd hx (not_lt.mpr h)) (fun _ u hu => ?_) _)
  rw [hm]
  obtain ⟨a, b, _⟩ := C93_fraction ht ht2 hu hx
  exact ⟨a, b⟩

/-- Single precision, order -7/2, argument 10. -/
example : ∃ r, kvScalar ⟨fun _ _ => (0, 0), continuedFractionKve ((1 / 2) ^ 23), fun _ _ => 0⟩ (-7 / 2) 10 = Flt.num r ∧
    Close (1100 * (1 / 2) ^ 23) r (kv (-7 / 2) 10) :=
  C93_large (by norm_num) (by norm_num) rfl (by norm_num [abs_of_neg]) (by norm_num)

/-! ### Olver's expansion -/

/-- **C93** (Olver's expansion). For every order from 50 on and every positive argument up to `ν/√eps` the expansion with
the table of coefficients written in the code has relative error at most `10⁻¹⁶`. -/
theorem C93_olver {eps nu z : ℝ} (hnu : 50 ≤ nu) (hz : 0 < z) (he : z * sqrt eps ≤ nu) :
    Close (1 / 10 ^ 16) (olverKve eps olverTable nu z) (kv nu z * exp z) := olver_error hnu hz he

/-- Double precision, order 100, argument 20. -/
example : Close (1 / 10 ^ 16) (olverKve ((1 / 2) ^ 52) olverTable 100 20) (kv 100 20 * exp 20) := by
  refine C93_olver (by norm_num) (by norm_num) ?_
  have : sqrt ((1 / 2) ^ 52) ≤ 1 := by rw [Real.sqrt_le_one]; norm_num
  linarith

/-- **C93** (all orders, large arguments). With the continued fraction and Olver's expansion of the code, `kv` has relative
error at most 1100 times the tolerance for every real order and every argument above 2 (up to `|ν|/√eps` for the orders
from 50 on). -/
theorem C93_above_two {tol eps : ℝ} (ht : (1 / 2) ^ 53 ≤ tol) (ht2 : tol ≤ (1 / 2) ^ 20) {m : Methods}
    (hm : m.cf = continuedFractionKve tol) (hm2 : m.olver = olverKve eps olverTable) (nu : ℝ) {x : ℝ} (hx : 2 < x)
    (hx2 : 50 ≤ |nu| → x * sqrt eps ≤ |nu|) :
    ∃ r, kvScalar m nu x = Flt.num r ∧ Close (1100 * tol) r (kv nu x) := by
  have hx' : 0 < x := by linarith
  -- the series is not used for these arguments
  obtain ⟨m', hm'⟩ : ∃ m' : Methods, m' = ⟨fun u x => (kv u x * exp x, kv (u + 1) x * exp x), m.cf, m.olver⟩ := ⟨_, rfl⟩
  have hsame : kvScalar m nu x = kvScalar m' nu x := by
    have hn : ¬ x ≤ 2 := not_le.mpr hx
    rw [hm']
    simp only [kvScalar, kveCore, temmeKve, gt_iff_lt, if_pos hx', if_neg hn]
  have hp : (0 : ℝ) ≤ 1100 * tol := by
    have : (0 : ℝ) < tol := lt_of_lt_of_le (by positivity) ht
    linarith
  have hg : Good (1100 * tol) eps m' := by
    rw [hm']
    refine ⟨fun u y _ h _ => ?_, fun u y h h2 => ?_, fun v y h h2 h3 => ?_⟩
    · have h1 := mul_pos (kv_pos u h) (exp_pos y)
      have h2 := mul_pos (kv_pos (u + 1) h) (exp_pos y)
      simp only [Close, sub_self, abs_zero]
      exact ⟨by positivity, by positivity⟩
    · simp only [hm]
      obtain ⟨a, b, _⟩ := C93_fraction ht ht2 h h2
      exact ⟨a, b⟩
    · simp only [hm2]
      refine (C93_olver h h2 h3).trans (mul_le_mul_of_nonneg_right ?_ (mul_pos (kv_pos v h2) (exp_pos y)).le)
      norm_num at ht ⊢
      linarith
  rw [hsame]
  exact C93_orders hg nu hx' hx2

/-- Double precision, order 1000.5, argument 30. -/
example : ∃ r, kvScalar ⟨fun _ _ => (0, 0), continuedFractionKve ((1 / 2) ^ 52), olverKve ((1 / 2) ^ 52) olverTable⟩ 1000.5 30
    = Flt.num r ∧ Close (1100 * (1 / 2) ^ 52) r (kv 1000.5 30) := by
  refine C93_above_two (by norm_num) (by norm_num) rfl rfl _ (by norm_num) fun h => ?_
  have : sqrt ((1 / 2) ^ 52) ≤ 1 := by rw [Real.sqrt_le_one]; norm_num
  linarith

/-! ### The code as it is -/

/-- **C93** (table). The Chebyshev tables of `_evaluate_temme_coeffs` give the Gamma function: for every `|v| ≤ 1/2` the four
coefficients are within `6·10⁻¹⁶` (the last two `9·10⁻¹⁶`) of what its docstring says. At `v = 0` the first one is the
limit `Γ'(1)`. -/
theorem C93_tables {v : ℝ} (hv : |v| ≤ 1 / 2) :
    (v ≠ 0 → |(evaluateTemmeCoeffs v).coeff1 - (1 / Gamma (1 - v) - 1 / Gamma (1 + v)) / (2 * v)| ≤ 6 / 10 ^ 16) ∧
    (v = 0 → |(evaluateTemmeCoeffs v).coeff1 - deriv Gamma 1| ≤ 6 / 10 ^ 16) ∧
    |(evaluateTemmeCoeffs v).coeff2 - (1 / Gamma (1 - v) + 1 / Gamma (1 + v)) / 2| ≤ 6 / 10 ^ 16 ∧
    |(evaluateTemmeCoeffs v).gamma1pv - 1 / Gamma (1 + v)| ≤ 9 / 10 ^ 16 ∧
    |(evaluateTemmeCoeffs v).gamma1mv - 1 / Gamma (1 - v)| ≤ 9 / 10 ^ 16 := by
  have h1 := coeff1_close hv
  have h2 := coeff2_close hv
  have hp : |v * ((evaluateTemmeCoeffs v).coeff1 - gamma1 v)| ≤ 3 / 10 ^ 16 := by
    rw [abs_mul]
    refine (mul_le_mul hv h1 (abs_nonneg _) (by norm_num)).trans ?_
    norm_num
  refine ⟨fun h => ?_, fun h => ?_, h2, ?_, ?_⟩
  · rwa [gamma1, if_neg h] at h1
  · rwa [gamma1, if_pos h] at h1
  · have e : (evaluateTemmeCoeffs v).gamma1pv - 1 / Gamma (1 + v) =
        ((evaluateTemmeCoeffs v).coeff2 - gamma2 v) - v * ((evaluateTemmeCoeffs v).coeff1 - gamma1 v) := by
      rw [← gamma_plus]; simp only [evaluateTemmeCoeffs, ofCoeffs]; ring
    rw [e]
    refine (abs_sub _ _).trans ((add_le_add h2 hp).trans ?_)
    norm_num
  · have e : (evaluateTemmeCoeffs v).gamma1mv - 1 / Gamma (1 - v) =
        ((evaluateTemmeCoeffs v).coeff2 - gamma2 v) + v * ((evaluateTemmeCoeffs v).coeff1 - gamma1 v) := by
      rw [← gamma_minus]; simp only [evaluateTemmeCoeffs, ofCoeffs]; ring
    rw [e]
    refine (abs_add_le _ _).trans ((add_le_add h2 hp).trans ?_)
    norm_num

example : |(evaluateTemmeCoeffs (1 / 3)).gamma1mv - 1 / Gamma (2 / 3)| ≤ 9 / 10 ^ 16 := by
  have := (C93_tables (v := 1 / 3) (by norm_num [abs_of_pos])).2.2.2.2
  norm_num at this ⊢
  exact this

/-- **C93** (series). Temme's series of the code, with its tables and as its loop stops it, gives the two functions with
relative error at most 5 tolerances and `10⁻¹²`, and 36 tolerances and `5.2·10⁻¹²`, for every order up to one half and
every argument up to 2. -/
theorem C93_series {tol : ℝ} (ht : (1 / 2) ^ 200 ≤ tol) (ht2 : tol ≤ 1 / 1000) {v z : ℝ} (hv : |v| ≤ 1 / 2) (hz : 0 < z)
    (hz2 : z ≤ 2) :
    Close (5 * tol + 1 / 10 ^ 12) (temmeSeriesKve tol (evaluateTemmeCoeffs v) v z).1 (kv v z * exp z) ∧
      Close (36 * tol + 52 / 10 ^ 13) (temmeSeriesKve tol (evaluateTemmeCoeffs v) v z).2 (kv (v + 1) z * exp z) := by
  obtain ⟨h1, h2⟩ := code_loop ht ht2 hv hz hz2
  simp only [temmeSeriesKve, Close]
  obtain ⟨s, hs⟩ : ∃ s, s = temmeLoop tol v z 1000 (temmeInit (evaluateTemmeCoeffs v) v z) := ⟨_, rfl⟩
  rw [← hs] at h1 h2 ⊢
  constructor
  · rw [← sub_mul, abs_mul, abs_of_pos (exp_pos z), ← mul_assoc]
    exact mul_le_mul_of_nonneg_right h1 (exp_pos z).le
  · have e : 2 * s.kvp1Sum * exp z / z - kv (v + 1) z * exp z = (s.kvp1Sum - z / 2 * kv (v + 1) z) * (2 * exp z / z) := by
      field_simp
    have hp : 0 < 2 * exp z / z := by positivity
    rw [e, abs_mul, abs_of_pos hp]
    have := mul_le_mul_of_nonneg_right h2 hp.le
    calc _ ≤ _ := this
      _ = _ := by field_simp

/-- Double precision, order 0, argument 1/10: the removable singularity. -/
example : Close (5 * (1 / 2) ^ 52 + 1 / 10 ^ 12) (temmeSeriesKve ((1 / 2) ^ 52) (evaluateTemmeCoeffs 0) 0 0.1).1
    (kv 0 0.1 * exp 0.1) := (C93_series (by norm_num) (by norm_num) (by norm_num) (by norm_num) (by norm_num)).1

theorem good_code {tol eps : ℝ} (ht : (1 / 2) ^ 53 ≤ tol) (ht2 : tol ≤ (1 / 2) ^ 20) :
    Good (1100 * tol + 52 / 10 ^ 13) eps (codeMethods tol eps) := by
  have h0 : (0 : ℝ) < tol := lt_of_lt_of_le (by positivity) ht
  refine ⟨fun u y h h2 h3 => ?_, fun u y h h2 => ?_, fun v y h h2 h3 => ?_⟩
  · obtain ⟨a, b⟩ := C93_series (le_trans (by norm_num) ht) (ht2.trans (by norm_num)) h h2 h3
    refine ⟨a.trans (mul_le_mul_of_nonneg_right ?_ (mul_pos (kv_pos u h2) (exp_pos y)).le),
      b.trans (mul_le_mul_of_nonneg_right ?_ (mul_pos (kv_pos (u + 1) h2) (exp_pos y)).le)⟩
    · norm_num; linarith
    · linarith
  · obtain ⟨a, b, _⟩ := C93_fraction ht ht2 h h2
    have hy : 0 < y := by linarith
    refine ⟨a.trans (mul_le_mul_of_nonneg_right ?_ (mul_pos (kv_pos u hy) (exp_pos y)).le),
      b.trans (mul_le_mul_of_nonneg_right ?_ (mul_pos (kv_pos (u + 1) hy) (exp_pos y)).le)⟩ <;> norm_num
  · refine (C93_olver h h2 h3).trans (mul_le_mul_of_nonneg_right ?_ (mul_pos (kv_pos v h2) (exp_pos y)).le)
    norm_num at ht ⊢
    linarith

/-- **C93** (accuracy). The value `kv` returns has relative error at most 1100 tolerances and `5.2·10⁻¹²`, for every real
order and every positive argument (up to `|ν|/√eps` for the orders from 50 on, about `3·10⁹` in double precision), with all
the tables and loops of the code. -/
theorem C93_accuracy {tol eps : ℝ} (ht : (1 / 2) ^ 53 ≤ tol) (ht2 : tol ≤ (1 / 2) ^ 20) (nu : ℝ) {x : ℝ} (hx : 0 < x)
    (hx2 : 50 ≤ |nu| → x * sqrt eps ≤ |nu|) :
    ∃ r, kvScalar (codeMethods tol eps) nu x = Flt.num r ∧ Close (1100 * tol + 52 / 10 ^ 13) r (kv nu x) :=
  C93_orders (good_code ht ht2) nu hx hx2

/-- Double precision, order -80.3, arguments up to 1000. -/
example (x : ℝ) (hx : 0 < x) (hx2 : x ≤ 1000) :
    ∃ r, kvScalar (codeMethods ((1 / 2) ^ 52) ((1 / 2) ^ 52)) (-80.3) x = Flt.num r ∧
    Close (1100 * (1 / 2) ^ 52 + 52 / 10 ^ 13) r (kv (-80.3) x) := by
  refine C93_accuracy (by norm_num) (by norm_num) _ hx fun h => ?_
  have : sqrt ((1 / 2) ^ 52) ≤ 1 / 1000 := by rw [Real.sqrt_le_left (by norm_num)]; norm_num
  nlinarith

/-- Double precision, order 3, every argument. -/
example (x : ℝ) (hx : 0 < x) : ∃ r, kvScalar (codeMethods ((1 / 2) ^ 52) ((1 / 2) ^ 52)) 3 x = Flt.num r ∧
    Close (1100 * (1 / 2) ^ 52 + 52 / 10 ^ 13) r (kv 3 x) :=
  C93_accuracy (by norm_num) (by norm_num) _ hx fun h => absurd h (by norm_num [abs_of_pos])

/-! ### Coefficients -/

/-- The sum `½ c₀ + Σ c_k T_k(w)` over a list of coefficients `c₀, c₁, …`. -/
noncomputable def chebSum (w : ℝ) (coeffs : List ℝ) : ℝ :=
  coeffs.headD 0 / 2 + ∑ k ∈ Finset.range coeffs.tail.length,
    coeffs.tail.getD k 0 * (Polynomial.Chebyshev.T ℝ (k + 1)).eval w

theorem clenshawLoop_eq (w : ℝ) (cs : List ℝ) : ∀ n : ℤ,
    (clenshawLoop (2 * w) cs).1 * (Polynomial.Chebyshev.T ℝ (n + 1)).eval w
      - (clenshawLoop (2 * w) cs).2 * (Polynomial.Chebyshev.T ℝ n).eval w
    = ∑ k ∈ Finset.range cs.length, cs.getD k 0 * (Polynomial.Chebyshev.T ℝ (n + 1 + k)).eval w := by
  induction cs with
  | nil => intro n; simp [clenshawLoop]
  | cons c cs ih =>
    intro n
    have h := ih (n + 1)
    simp only [clenshawLoop, List.length_cons]
    rw [Finset.sum_range_succ']
    have e : ∀ k : ℕ, (c :: cs).getD (k + 1) 0 * (Polynomial.Chebyshev.T ℝ (n + 1 + ((k + 1 : ℕ) : ℤ))).eval w
        = cs.getD k 0 * (Polynomial.Chebyshev.T ℝ (n + 1 + 1 + k)).eval w := by
      intro k
      rw [show n + 1 + ((k + 1 : ℕ) : ℤ) = n + 1 + 1 + k by push_cast; ring]
      simp
    simp only [e]
    rw [← h]
    have hT : (Polynomial.Chebyshev.T ℝ (n + 1 + 1)).eval w
        = 2 * w * (Polynomial.Chebyshev.T ℝ (n + 1)).eval w - (Polynomial.Chebyshev.T ℝ n).eval w := by
      rw [show n + 1 + 1 = n + 2 by ring, Polynomial.Chebyshev.T_add_two]
      simp
    rw [hT]
    simp
    ring

/-- **C93** (coefficients). Clenshaw's recurrence sums the Chebyshev series of any coefficients; the four results of
`_evaluate_temme_coeffs` are consistent with their description: even parts, odd parts and the value at `v`. -/
theorem C93_coefficients (v : ℝ) :
    (∀ (w : ℝ) (cs : List ℝ), clenshaw w cs = chebSum w cs) ∧
    (evaluateTemmeCoeffs v).coeff1 = chebSum ((Polynomial.Chebyshev.T ℝ 2).eval (2 * v)) coeff1Coeffs ∧
    (evaluateTemmeCoeffs v).coeff2 = chebSum ((Polynomial.Chebyshev.T ℝ 2).eval (2 * v)) coeff2Coeffs ∧
    (evaluateTemmeCoeffs v).coeff2 = ((evaluateTemmeCoeffs v).gamma1mv + (evaluateTemmeCoeffs v).gamma1pv) / 2 ∧
    (v ≠ 0 → (evaluateTemmeCoeffs v).coeff1
      = ((evaluateTemmeCoeffs v).gamma1mv - (evaluateTemmeCoeffs v).gamma1pv) / (2 * v)) ∧
    (evaluateTemmeCoeffs (-v)).gamma1pv = (evaluateTemmeCoeffs v).gamma1mv := by
  have hC : ∀ (w : ℝ) (cs : List ℝ), clenshaw w cs = chebSum w cs := by
    intro w cs
    have h := clenshawLoop_eq w cs.tail 0
    simp only [zero_add, Polynomial.Chebyshev.T_one, Polynomial.Chebyshev.T_zero, Polynomial.eval_X, Polynomial.eval_one,
      mul_one] at h
    rw [clenshaw, chebSum]
    simp only [add_comm (_ : ℤ) 1] at h ⊢
    rw [← h]
    norm_num
    ring
  have hT : (Polynomial.Chebyshev.T ℝ 2).eval (2 * v) = 8 * v * v - 1 := by
    rw [Polynomial.Chebyshev.T_two]
    simp
    ring
  refine ⟨hC, ?_, ?_, ?_, ?_, ?_⟩
  · rw [hT, ← hC]; rfl
  · rw [hT, ← hC]; rfl
  · simp only [evaluateTemmeCoeffs, ofCoeffs]; ring
  · intro h0
    simp only [evaluateTemmeCoeffs, ofCoeffs]
    field_simp
    ring
  · simp only [evaluateTemmeCoeffs, ofCoeffs]
    ring_nf

/-! ### Symmetry, edge cases, gradient -/

/-- **C93** (edges). `K_{-ν} = K_ν`; zero gives infinity, a negative argument is not a number. -/
theorem C93_edges (m : Methods) (nu x : ℝ) :
    kvScalar m (-nu) x = kvScalar m nu x ∧ kvScalar m nu 0 = Flt.inf ∧ (x < 0 → kvScalar m nu x = Flt.nan) := by
  refine ⟨by simp only [kvScalar, abs_neg], by simp [kvScalar], fun h => by simp [kvScalar, h]⟩

example : ∃ x : ℝ, x < 0 := ⟨-1, by norm_num⟩

/-- **C93** (gradient). The custom gradient is the derivative of the exact function, with the relative error of the
values it is computed from. -/
theorem C93_gradient {δ eps : ℝ} {m : Methods} (hm : Good δ eps m) (nu g : ℝ) {x : ℝ} (hx : 0 < x)
    (hx2 : x * sqrt eps ≤ 50) :
    ∃ d r, HasDerivAt (kv nu) d x ∧ kvGrad m nu x g = (0, Flt.num r) ∧ |r - d * g| ≤ δ * |d * g| := by
  obtain ⟨a, ha, ha2⟩ := C93_orders hm (nu - 1) hx fun h => hx2.trans h
  obtain ⟨b, hb, hb2⟩ := C93_orders hm (nu + 1) hx fun h => hx2.trans h
  refine ⟨_, -0.5 * (a + b) * g, kv_hasDerivAt nu hx, by simp only [kvGrad, ha, hb, gradX], ?_⟩
  simp only [Close] at ha2 hb2
  have k1 := kv_pos (nu - 1) hx
  have k2 := kv_pos (nu + 1) hx
  have e : -0.5 * (a + b) * g - -(1 / 2) * (kv (nu - 1) x + kv (nu + 1) x) * g
      = -(1 / 2) * g * ((a - kv (nu - 1) x) + (b - kv (nu + 1) x)) := by norm_num; ring
  rw [e, abs_mul, abs_mul, abs_mul, abs_mul, abs_neg, abs_of_pos (by norm_num : (0 : ℝ) < 1 / 2),
    abs_of_pos (by linarith : 0 < kv (nu - 1) x + kv (nu + 1) x)]
  have := abs_add_le (a - kv (nu - 1) x) (b - kv (nu + 1) x)
  have hg : 0 ≤ 1 / 2 * |g| := by positivity
  calc _ ≤ 1 / 2 * |g| * (δ * kv (nu - 1) x + δ * kv (nu + 1) x) := mul_le_mul_of_nonneg_left (by linarith) hg
    _ = _ := by ring

/-- The gradient of the code. -/
example {tol eps : ℝ} (ht : (1 / 2) ^ 53 ≤ tol) (ht2 : tol ≤ (1 / 2) ^ 20) (nu g : ℝ) {x : ℝ} (hx : 0 < x)
    (hx2 : x * sqrt eps ≤ 50) : ∃ d r, HasDerivAt (kv nu) d x ∧ kvGrad (codeMethods tol eps) nu x g = (0, Flt.num r) ∧
      |r - d * g| ≤ (1100 * tol + 52 / 10 ^ 13) * |d * g| := C93_gradient (good_code ht ht2) nu g hx hx2

/-- Disagreement: the gradient for the order is always zero, but the function depends on its order
(bessel.py:563, "not supported"). -/
theorem C93_counterexample_order :
    (∀ (m : Methods) (nu x g : ℝ), (kvGrad m nu x g).1 = 0) ∧ ¬ ∀ nu : ℝ, HasDerivAt (fun a => kv a 1) 0 nu := by
  refine ⟨fun _ _ _ _ => rfl, fun h => ?_⟩
  have hc : kv (1 / 2) 1 = kv (3 / 2) 1 := is_const_of_deriv_eq_zero (fun a => (h a).differentiableAt)
    (fun a => (h a).deriv) _ _
  have r := kv_recurrence (1 / 2) one_pos
  rw [show (1 / 2 : ℝ) + 1 = 3 / 2 by norm_num, show (1 / 2 : ℝ) - 1 = -(1 / 2) by norm_num, kv_neg _ one_pos, ← hc] at r
  have := kv_pos (1 / 2) one_pos
  linarith

end JG.BesK
