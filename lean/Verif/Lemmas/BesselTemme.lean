import Verif.Lemmas.BesselSeries
import Mathlib.Analysis.SpecialFunctions.Trigonometric.DerivHyp
import Mathlib.Analysis.Normed.Group.Tannery
import Mathlib.Analysis.SpecialFunctions.Gamma.Deriv
import Mathlib.Analysis.SpecialFunctions.Gamma.Beta

/-! # The loop of Temme's power series -/

namespace JG.BesK

open Real Set Filter Topology JG.Elt

/-- The state after `k` turns of the loop, if nothing stops it. -/
noncomputable def temmeIter (v z : ℝ) (s : TemmeState) : ℕ → TemmeState
  | 0 => s
  | k + 1 => temmeBody v z (temmeIter v z s k)

/-- A start of the loop. -/
def Start (s : TemmeState) : Prop := s.index = 1 ∧ s.coeff = 1 ∧ s.kvSum = s.f ∧ s.kvp1Sum = s.p

theorem start_init (tc : TemmeCoeffs) (v z : ℝ) : Start (temmeInit tc v z) := ⟨rfl, rfl, rfl, rfl⟩

theorem iter_index (v z : ℝ) {s : TemmeState} (hs : Start s) (k : ℕ) : (temmeIter v z s k).index = (k : ℝ) + 1 := by
  induction k with
  | zero => simp [temmeIter, hs.1]
  | succ k ih => simp only [temmeIter, temmeBody, ih]; push_cast; ring

theorem iter_coeff (v z : ℝ) {s : TemmeState} (hs : Start s) (k : ℕ) :
    (temmeIter v z s k).coeff = (z ^ 2 / 4) ^ k / k.factorial := by
  induction k with
  | zero => simp [temmeIter, hs.2.1]
  | succ k ih =>
    have h2 : (k.factorial : ℝ) ≠ 0 := by positivity
    simp only [temmeIter, temmeBody, ih, iter_index v z hs k]
    rw [Nat.factorial_succ, pow_succ]
    push_cast
    field_simp
    ring

theorem iter_p (v z : ℝ) {s : TemmeState} (hs : Start s) (k : ℕ) :
    (temmeIter v z s k).p = s.p / poch v k := by
  induction k with
  | zero => simp [temmeIter, poch]
  | succ k ih => simp only [temmeIter, temmeBody, ih, iter_index v z hs k]; rw [poch_succ, div_div]

theorem iter_q (v z : ℝ) {s : TemmeState} (hs : Start s) (k : ℕ) :
    (temmeIter v z s k).q = s.q / poch (-v) k := by
  induction k with
  | zero => simp [temmeIter, poch]
  | succ k ih =>
    simp only [temmeIter, temmeBody, ih, iter_index v z hs k]
    rw [poch_succ, div_div, sub_neg_eq_add]

theorem iter_f {v : ℝ} (h : v < 1) (h' : -1 < v) (z : ℝ) {s : TemmeState} (hs : Start s) (hf : v * s.f = s.p - s.q) (k : ℕ) :
    v * (temmeIter v z s k).f = (temmeIter v z s k).p - (temmeIter v z s k).q := by
  induction k with
  | zero => exact hf
  | succ k ih =>
    simp only [temmeIter, temmeBody]
    rw [iter_index v z hs k]
    have h0 : (0 : ℝ) ≤ k := Nat.cast_nonneg k
    have h1 : (k : ℝ) + 1 - v ≠ 0 := by linarith
    have h2 : (k : ℝ) + 1 + v ≠ 0 := by linarith
    have h3 : ((k : ℝ) + 1) * ((k : ℝ) + 1) - v * v ≠ 0 := by
      rw [show ((k : ℝ) + 1) * ((k : ℝ) + 1) - v * v = ((k : ℝ) + 1 - v) * ((k : ℝ) + 1 + v) by ring]
      exact mul_ne_zero h1 h2
    rw [div_sub_div _ _ h1 h2, mul_div_assoc', div_eq_div_iff h3 (mul_ne_zero h1 h2)]
    linear_combination ((k : ℝ) + 1) * (((k : ℝ) + 1 - v) * ((k : ℝ) + 1 + v)) * ih

/-- Term `j` of the two sums. -/
noncomputable def kvTerm (v z : ℝ) (s : TemmeState) (j : ℕ) : ℝ :=
  (temmeIter v z s j).coeff * (temmeIter v z s j).f

noncomputable def kvp1Term (v z : ℝ) (s : TemmeState) (j : ℕ) : ℝ :=
  (temmeIter v z s j).coeff * ((temmeIter v z s j).p - j * (temmeIter v z s j).f)

theorem iter_kvSum (v z : ℝ) {s : TemmeState} (hs : Start s) (k : ℕ) :
    (temmeIter v z s k).kvSum = ∑ j ∈ Finset.range (k + 1), kvTerm v z s j := by
  induction k with
  | zero => simp [temmeIter, kvTerm, hs.2.1, hs.2.2.1]
  | succ k ih => rw [Finset.sum_range_succ, ← ih]; rfl

theorem iter_kvp1Sum (v z : ℝ) {s : TemmeState} (hs : Start s) (k : ℕ) :
    (temmeIter v z s k).kvp1Sum = ∑ j ∈ Finset.range (k + 1), kvp1Term v z s j := by
  induction k with
  | zero => simp [temmeIter, kvp1Term, hs.2.1, hs.2.2.2]
  | succ k ih =>
    rw [Finset.sum_range_succ, ← ih, kvp1Term]
    simp only [temmeIter, temmeBody, iter_index v z hs k]
    push_cast
    ring

/-- The loop returns the state after some number of turns. -/
theorem loop_iter (tol v z : ℝ) (s : TemmeState) (fuel : ℕ) (k : ℕ) (hk : 1 ≤ fuel) :
    ∃ m, k + 1 ≤ m ∧ m ≤ k + fuel ∧ temmeLoop tol v z fuel (temmeIter v z s k) = temmeIter v z s m ∧
      (temmeStop tol (temmeIter v z s m) ∨ m = k + fuel) := by
  induction fuel generalizing k with
  | zero => omega
  | succ fuel ih =>
    simp only [temmeLoop]
    have e : temmeBody v z (temmeIter v z s k) = temmeIter v z s (k + 1) := rfl
    rw [e]
    by_cases hstop : temmeStop tol (temmeIter v z s (k + 1))
    · rw [if_pos hstop]
      exact ⟨k + 1, le_refl _, by omega, rfl, Or.inl hstop⟩
    · rw [if_neg hstop]
      rcases Nat.eq_zero_or_pos fuel with rfl | hf
      · exact ⟨k + 1, le_refl _, by omega, rfl, Or.inr rfl⟩
      · obtain ⟨m, h1, h2, h3, h4⟩ := ih (k + 1) hf
        exact ⟨m, by omega, by omega, h3, h4.imp id (fun h => by omega)⟩

/-! ### Sum of the series, order not zero -/

theorem kvTerm_eq {v : ℝ} (h0 : v ≠ 0) (h : v < 1) (h' : -1 < v) (z : ℝ) {s : TemmeState} (hs : Start s)
    (hf : v * s.f = s.p - s.q) (j : ℕ) :
    kvTerm v z s j = (s.p * gTerm v (z ^ 2 / 4) j - s.q * gTerm (-v) (z ^ 2 / 4) j) / v := by
  have hfj := iter_f h h' z hs hf j
  rw [iter_p v z hs, iter_q v z hs] at hfj
  rw [eq_div_iff h0, kvTerm, iter_coeff v z hs, gTerm, gTerm, mul_assoc, mul_comm (TemmeState.f _) v, hfj]
  have h1 := (poch_pos h j).ne'
  have h2 := (poch_pos (show -v < 1 by linarith) j).ne'
  have h3 : (j.factorial : ℝ) ≠ 0 := by positivity
  field_simp

theorem kvTerm_hasSum {v : ℝ} (h0 : v ≠ 0) (h : v < 1) (h' : -1 < v) {z : ℝ} (hz : 0 < z) {s : TemmeState} (hs : Start s)
    (hf : v * s.f = s.p - s.q) (hp : s.p = 1 / 2 * (z / 2) ^ (-v) * Real.Gamma (1 + v))
    (hq : s.q = 1 / 2 * (z / 2) ^ v * Real.Gamma (1 - v)) : HasSum (kvTerm v z s) (kv v z) := by
  have e : kvTerm v z s = fun j => (s.p * gTerm v (z ^ 2 / 4) j - s.q * gTerm (-v) (z ^ 2 / 4) j) / v :=
    funext (kvTerm_eq h0 h h' z hs hf)
  have hm : -v < 1 := by linarith
  have h1 := (gTerm_summable h (z ^ 2 / 4)).hasSum
  have h2 := (gTerm_summable hm (z ^ 2 / 4)).hasSum
  have := ((h1.mul_left s.p).sub (h2.mul_left s.q)).div_const v
  rw [e]
  have hval : (s.p * ∑' j, gTerm v (z ^ 2 / 4) j - s.q * ∑' j, gTerm (-v) (z ^ 2 / 4) j) / v = kv v z := by
    rw [kv_eq_u h0 h h' hz, uFun, uFun, hp, hq, neg_neg, ← gFun, ← gFun]
    field_simp
  rw [← hval]
  exact this

theorem kTerm_hasSum {v : ℝ} (h : v < 1) (z : ℝ) :
    HasSum (fun j : ℕ => (j : ℝ) * gTerm v (z ^ 2 / 4) j) (z ^ 2 / 4 * (gFun (v - 1) (z ^ 2 / 4) / (1 - v))) := by
  have := ((gTerm_deriv_summable h (z ^ 2 / 4)).hasSum).mul_left (z ^ 2 / 4)
  rw [gTerm_deriv_tsum h] at this
  refine this.congr_fun ?_
  intro j
  rcases j with _ | j
  · simp
  · rw [gTerm, Nat.add_sub_cancel, pow_succ]; ring

theorem kvp1Term_hasSum {v : ℝ} (h0 : v ≠ 0) (h : v < 1) (h' : -1 < v) {z : ℝ} (hz : 0 < z) {s : TemmeState} (hs : Start s)
    (hf : v * s.f = s.p - s.q) (hp : s.p = 1 / 2 * (z / 2) ^ (-v) * Real.Gamma (1 + v))
    (hq : s.q = 1 / 2 * (z / 2) ^ v * Real.Gamma (1 - v)) :
    HasSum (kvp1Term v z s) (z / 2 * kv (v + 1) z) := by
  have hm : -v < 1 := by linarith
  have e : kvp1Term v z s = fun j => s.p * gTerm v (z ^ 2 / 4) j
      - (s.p * ((j : ℝ) * gTerm v (z ^ 2 / 4) j) - s.q * ((j : ℝ) * gTerm (-v) (z ^ 2 / 4) j)) / v := by
    funext j
    have hk := kvTerm_eq h0 h h' z hs hf j
    rw [kvTerm] at hk
    rw [kvp1Term, mul_sub, mul_left_comm, hk, iter_p v z hs, iter_coeff v z hs, gTerm, gTerm]
    have h1 := (poch_pos h j).ne'
    have h3 : (j.factorial : ℝ) ≠ 0 := by positivity
    field_simp
  have h1 := (gTerm_summable h (z ^ 2 / 4)).hasSum
  have := (h1.mul_left s.p).sub ((((kTerm_hasSum h z).mul_left s.p).sub ((kTerm_hasSum hm z).mul_left s.q)).div_const v)
  rw [e]
  have h2 : 0 < z / 2 := by positivity
  have e1 : (z / 2) ^ (-(v - 1)) = (z / 2) ^ (-v) * (z / 2) := by
    rw [neg_sub, sub_eq_add_neg, add_comm, Real.rpow_add_one h2.ne']
  have e2 : (z / 2) ^ (-(-v - 1)) = (z / 2) ^ v * (z / 2) := by
    rw [show -(-v - 1) = v + 1 by ring, Real.rpow_add_one h2.ne']
  have h3 : 1 - v ≠ 0 := by linarith
  have h4 : 1 + v ≠ 0 := by linarith
  have h5 : 1 - -v ≠ 0 := by linarith
  have hval : s.p * ∑' j, gTerm v (z ^ 2 / 4) j - (s.p * (z ^ 2 / 4 * (gFun (v - 1) (z ^ 2 / 4) / (1 - v)))
      - s.q * (z ^ 2 / 4 * (gFun (-v - 1) (z ^ 2 / 4) / (1 - -v)))) / v = z / 2 * kv (v + 1) z := by
    rw [kvp1_eq_u h0 h h' hz, uFun, uFun, uFun, hp, hq, e1, e2, sub_neg_eq_add, ← gFun]
    field_simp
    ring
  rw [← hval]
  exact this

/-! ### The start of the loop with the exact coefficients -/

/-- `(1/Γ(1-v) - 1/Γ(1+v)) / (2v)`, and its limit `Γ'(1)` at zero. -/
noncomputable def gamma1 (v : ℝ) : ℝ :=
  if v = 0 then deriv Real.Gamma 1 else (1 / Real.Gamma (1 - v) - 1 / Real.Gamma (1 + v)) / (2 * v)

/-- `(1/Γ(1-v) + 1/Γ(1+v)) / 2`. -/
noncomputable def gamma2 (v : ℝ) : ℝ := (1 / Real.Gamma (1 - v) + 1 / Real.Gamma (1 + v)) / 2

theorem gamma_plus (v : ℝ) : gamma2 v - v * gamma1 v = 1 / Real.Gamma (1 + v) := by
  by_cases h : v = 0
  · subst h; simp [gamma2, Real.Gamma_one]
  · rw [gamma1, if_neg h, gamma2]; field_simp; ring

theorem gamma_minus (v : ℝ) : gamma2 v + v * gamma1 v = 1 / Real.Gamma (1 - v) := by
  by_cases h : v = 0
  · subst h; simp [gamma2, Real.Gamma_one]
  · rw [gamma1, if_neg h, gamma2]; field_simp; ring

/-- The start with the exact coefficients. -/
noncomputable def exactInit (v z : ℝ) : TemmeState := temmeInit (ofCoeffs v (gamma1 v) (gamma2 v)) v z

theorem exactInit_p (v : ℝ) {z : ℝ} (hz : 0 < z) :
    (exactInit v z).p = 1 / 2 * (z / 2) ^ (-v) * Real.Gamma (1 + v) := by
  have h2 : 0 < z / 2 := by positivity
  show 0.5 * Real.exp (-v * Real.log (z / 2)) / (gamma2 v - v * gamma1 v) = _
  rw [gamma_plus, Real.rpow_def_of_pos h2, mul_comm (-v)]
  norm_num

theorem exactInit_q (v : ℝ) {z : ℝ} (hz : 0 < z) :
    (exactInit v z).q = 1 / 2 * (z / 2) ^ v * Real.Gamma (1 - v) := by
  have h2 : 0 < z / 2 := by positivity
  show 0.5 * Real.exp (-(-v * Real.log (z / 2))) / (gamma2 v + v * gamma1 v) = _
  rw [gamma_minus, Real.rpow_def_of_pos h2, neg_mul, neg_neg, mul_comm v]
  norm_num

theorem gamma_refl {v : ℝ} (h0 : v ≠ 0) :
    Real.Gamma (1 + v) * Real.Gamma (1 - v) * Real.sin (Real.pi * v) = Real.pi * v ∨ Real.sin (Real.pi * v) = 0 := by
  by_cases hs : Real.sin (Real.pi * v) = 0
  · exact Or.inr hs
  · left
    rw [add_comm 1 v, Real.Gamma_add_one h0, mul_assoc v, Real.Gamma_mul_Gamma_one_sub, mul_assoc,
      div_mul_cancel₀ _ hs, mul_comm]

theorem sin_pi_ne {v : ℝ} (h0 : v ≠ 0) (h : v < 1) (h' : -1 < v) : Real.sin (Real.pi * v) ≠ 0 := by
  have hp := Real.pi_pos
  rcases lt_or_gt_of_ne h0 with hv | hv
  · have : 0 < Real.sin (Real.pi * -v) := Real.sin_pos_of_pos_of_lt_pi (by nlinarith) (by nlinarith)
    rw [mul_neg, Real.sin_neg] at this
    linarith
  · exact (Real.sin_pos_of_pos_of_lt_pi (by positivity) (by nlinarith)).ne'

theorem exactInit_f {v : ℝ} (h : v < 1) (h' : -1 < v) {z : ℝ} (hz : 0 < z) :
    v * (exactInit v z).f = (exactInit v z).p - (exactInit v z).q := by
  by_cases h0 : v = 0
  · subst h0; rw [exactInit_p 0 hz, exactInit_q 0 hz]; simp
  rw [exactInit_p v hz, exactInit_q v hz]
  have h2 : 0 < z / 2 := by positivity
  have hr := (gamma_refl h0).resolve_right (sin_pi_ne h0 h h')
  have hG1 : Real.Gamma (1 + v) ≠ 0 := (Real.Gamma_pos_of_pos (by linarith)).ne'
  have hG2 : Real.Gamma (1 - v) ≠ 0 := (Real.Gamma_pos_of_pos (by linarith)).ne'
  have hs := sin_pi_ne h0 h h'
  obtain ⟨L, hL⟩ : ∃ L, L = Real.log (z / 2) := ⟨_, rfl⟩
  have e1 : (z / 2) ^ (-v) = Real.exp (-v * L) := by rw [Real.rpow_def_of_pos h2, hL, mul_comm]
  have e2 : (z / 2) ^ v = Real.exp (-(-v * L)) := by rw [Real.rpow_def_of_pos h2, hL]; ring_nf
  show v * ((gamma1 v * Real.cosh (-v * Real.log (z / 2)) + gamma2 v * (-Real.log (z / 2))
    * (if -v * Real.log (z / 2) = 0 then 1 else Real.sinh (-v * Real.log (z / 2)) / (-v * Real.log (z / 2))))
    / npSinc v) = _
  rw [← hL, e1, e2]
  have hsinh : v * (-L * (if -v * L = 0 then 1 else Real.sinh (-v * L) / (-v * L))) = Real.sinh (-v * L) := by
    by_cases hl : -v * L = 0
    · rw [if_pos hl, hl, Real.sinh_zero]; linarith
    · rw [if_neg hl]; rw [show v * (-L * (Real.sinh (-v * L) / (-v * L))) = (-v * L) * (Real.sinh (-v * L) / (-v * L)) by ring]
      exact mul_div_cancel₀ _ hl
  have hsinc : npSinc v = Real.sin (Real.pi * v) / (Real.pi * v) := by
    rw [npSinc, Real.sinc_of_ne_zero (mul_ne_zero Real.pi_ne_zero h0)]
  have hpv : Real.pi * v ≠ 0 := mul_ne_zero Real.pi_ne_zero h0
  have hsv : npSinc v ≠ 0 := by rw [hsinc]; exact div_ne_zero hs hpv
  have hcs : Real.Gamma (1 + v) * Real.Gamma (1 - v) * npSinc v = 1 := by
    rw [hsinc, ← mul_div_assoc, hr]; exact div_self hpv
  have g1 : v * gamma1 v = (1 / Real.Gamma (1 - v) - 1 / Real.Gamma (1 + v)) / 2 := by
    rw [gamma1, if_neg h0]; field_simp
  have key : v * (gamma1 v * Real.cosh (-v * L) + gamma2 v * (-L) * (if -v * L = 0 then 1 else Real.sinh (-v * L) / (-v * L)))
      = (1 / Real.Gamma (1 - v) - 1 / Real.Gamma (1 + v)) / 2 * Real.cosh (-v * L) + gamma2 v * Real.sinh (-v * L) := by
    linear_combination Real.cosh (-v * L) * g1 + gamma2 v * hsinh
  rw [← mul_div_assoc, key, div_eq_iff hsv, gamma2, Real.cosh_eq, Real.sinh_eq]
  field_simp
  linear_combination (-2 * (Real.exp (-(v * L)) * Real.Gamma (1 + v) - Real.exp (v * L) * Real.Gamma (1 - v))) * hcs

/-! ### Continuity in the order -/

theorem kv_continuousAt (mu0 : ℝ) {z : ℝ} (hz : 0 < z) : Tendsto (fun mu => kv mu z) (𝓝 mu0) (𝓝 (kv mu0 z)) := by
  have h2 : 0 < z / 2 := by positivity
  have hI : Tendsto (fun mu => kvInt mu z) (𝓝 mu0) (𝓝 (kvInt mu0 z)) := by
    have hb := (kvInt_integrable (mu0 - 1) hz).add (kvInt_integrable (mu0 + 1) hz)
    refine MeasureTheory.tendsto_integral_filter_of_dominated_convergence
      (bound := fun t : ℝ => t ^ (mu0 - 1 - 1) * Real.exp (-t - z ^ 2 / (4 * t))
        + t ^ (mu0 + 1 - 1) * Real.exp (-t - z ^ 2 / (4 * t))) ?_ ?_ hb ?_
    · exact Eventually.of_forall fun mu => kvInt_meas mu z
    · have : ∀ᶠ mu in 𝓝 mu0, |mu - mu0| < 1 := by
        have := Metric.ball_mem_nhds mu0 one_pos
        filter_upwards [this] with mu hmu
        rwa [Metric.mem_ball, Real.dist_eq] at hmu
      filter_upwards [this] with mu hmu
      filter_upwards [MeasureTheory.ae_restrict_mem measurableSet_Ioi] with t ht
      have ht0 : 0 < t := ht
      obtain ⟨ha, hb⟩ := abs_lt.mp hmu
      rw [Real.norm_of_nonneg (kvInt_integrand_nonneg mu z ht0), ← add_mul]
      refine mul_le_mul_of_nonneg_right ?_ (Real.exp_nonneg _)
      have n1 := Real.rpow_nonneg ht0.le (mu0 - 1 - 1)
      have n2 := Real.rpow_nonneg ht0.le (mu0 + 1 - 1)
      rcases le_total t 1 with h | h
      · have := Real.rpow_le_rpow_of_exponent_ge ht0 h (show mu0 - 1 - 1 ≤ mu - 1 by linarith)
        linarith
      · have := Real.rpow_le_rpow_of_exponent_le h (show mu - 1 ≤ mu0 + 1 - 1 by linarith)
        linarith
    · filter_upwards [MeasureTheory.ae_restrict_mem measurableSet_Ioi] with t ht
      have ht0 : 0 < t := ht
      have : ContinuousAt (fun mu : ℝ => t ^ (mu - 1)) mu0 :=
        ContinuousAt.rpow continuousAt_const (by fun_prop) (Or.inl ht0.ne')
      exact this.tendsto.mul_const _
  have hp : Tendsto (fun mu : ℝ => 1 / 2 * (z / 2) ^ (-mu)) (𝓝 mu0) (𝓝 (1 / 2 * (z / 2) ^ (-mu0))) := by
    have : ContinuousAt (fun mu : ℝ => (z / 2) ^ (-mu)) mu0 :=
      ContinuousAt.rpow continuousAt_const (by fun_prop) (Or.inl h2.ne')
    exact this.tendsto.const_mul _
  exact hp.mul hI

/-- `sinh x / x` is continuous at zero. -/
theorem sinhc_tendsto : Tendsto (fun x : ℝ => if x = 0 then 1 else Real.sinh x / x) (𝓝 0) (𝓝 1) := by
  have h := (Real.hasDerivAt_sinh 0).tendsto_slope
  rw [Real.cosh_zero] at h
  rw [← nhdsNE_sup_pure, tendsto_sup]
  constructor
  · refine h.congr' ?_
    filter_upwards [self_mem_nhdsWithin] with x hx
    have hx : x ≠ 0 := hx
    rw [if_neg hx, slope_def_field, Real.sinh_zero, sub_zero, sub_zero]
  · rw [tendsto_pure_left]
    intro s hs
    simpa using mem_of_mem_nhds hs

theorem gammaDiff (x : ℝ) (hx : 0 < x) : DifferentiableAt ℝ Real.Gamma x :=
  Real.differentiableAt_Gamma fun m h => by have : (0 : ℝ) ≤ m := Nat.cast_nonneg m; linarith

theorem gamma1_tendsto : Tendsto gamma1 (𝓝 0) (𝓝 (gamma1 0)) := by
  have hG := (gammaDiff 1 one_pos).hasDerivAt
  have hinv : HasDerivAt (fun x : ℝ => 1 / Real.Gamma (1 + x)) (-deriv Real.Gamma 1) 0 := by
    have h1 : HasDerivAt (fun x : ℝ => Real.Gamma (1 + x)) (deriv Real.Gamma 1) 0 := by
      refine HasDerivAt.comp_const_add 1 0 ?_
      rw [add_zero]; exact hG
    have h2 := h1.fun_inv (by simp [Real.Gamma_one])
    simp only [add_zero, Real.Gamma_one, one_pow, div_one] at h2
    simpa only [one_div] using h2
  have hinv' : HasDerivAt (fun x : ℝ => 1 / Real.Gamma (1 - x)) (deriv Real.Gamma 1) 0 := by
    have h1 : HasDerivAt (fun x : ℝ => 1 / Real.Gamma (1 + x)) (-deriv Real.Gamma 1) (-0) := by
      rw [neg_zero]; exact hinv
    have := HasDerivAt.comp (h := fun x : ℝ => -x) 0 h1 (hasDerivAt_neg 0)
    refine (this.congr_deriv (by ring)).congr_of_eventuallyEq (Eventually.of_forall fun x => ?_)
    simp [sub_eq_add_neg]
  have hd := (hinv'.sub hinv).tendsto_slope
  rw [← nhdsNE_sup_pure, tendsto_sup]
  constructor
  · have := hd.div_const 2
    rw [show (deriv Real.Gamma 1 - -deriv Real.Gamma 1) / 2 = gamma1 0 by rw [gamma1, if_pos rfl]; ring] at this
    refine this.congr' ?_
    filter_upwards [self_mem_nhdsWithin] with x hx
    have hx : x ≠ 0 := hx
    rw [gamma1, if_neg hx, slope_def_field]
    simp only [Pi.sub_apply, sub_zero, add_zero, sub_self]
    field_simp
  · rw [tendsto_pure_left]
    intro s hs
    exact mem_of_mem_nhds hs

theorem gamma2_tendsto : Tendsto gamma2 (𝓝 0) (𝓝 (gamma2 0)) := by
  have c1 : ContinuousAt (fun v : ℝ => Real.Gamma (1 - v)) 0 :=
    ContinuousAt.comp (f := fun v : ℝ => 1 - v) (g := Real.Gamma) (x := 0)
      (by simpa using (gammaDiff 1 one_pos).continuousAt) (by fun_prop)
  have c2 : ContinuousAt (fun v : ℝ => Real.Gamma (1 + v)) 0 :=
    ContinuousAt.comp (f := fun v : ℝ => 1 + v) (g := Real.Gamma) (x := 0)
      (by simpa using (gammaDiff 1 one_pos).continuousAt) (by fun_prop)
  have : ContinuousAt gamma2 0 := by
    refine ((continuousAt_const.div c1 ?_).add (continuousAt_const.div c2 ?_)).div_const 2 <;> simp [Real.Gamma_one]
  exact this

theorem gamma2_zero : gamma2 0 = 1 := by simp [gamma2, Real.Gamma_one]

theorem exactInit_tendsto (z : ℝ) : Tendsto (fun v => (exactInit v z).f) (𝓝 0) (𝓝 (exactInit 0 z).f) ∧
    Tendsto (fun v => (exactInit v z).p) (𝓝 0) (𝓝 (exactInit 0 z).p) ∧
    Tendsto (fun v => (exactInit v z).q) (𝓝 0) (𝓝 (exactInit 0 z).q) := by
  obtain ⟨L, hL⟩ : ∃ L, L = Real.log (z / 2) := ⟨_, rfl⟩
  have hmu : Tendsto (fun v : ℝ => -v * L) (𝓝 0) (𝓝 0) := by
    have : Continuous fun v : ℝ => -v * L := by fun_prop
    simpa using this.tendsto 0
  have hid : Tendsto (fun v : ℝ => v) (𝓝 0) (𝓝 0) := tendsto_id
  refine ⟨?_, ?_, ?_⟩
  · have hc : Tendsto (fun v : ℝ => Real.cosh (-v * L)) (𝓝 0) (𝓝 1) := by
      have := (Real.continuous_cosh.tendsto 0).comp hmu
      rwa [Real.cosh_zero] at this
    have hs := sinhc_tendsto.comp hmu
    have hn : Tendsto (fun v : ℝ => npSinc v) (𝓝 0) (𝓝 1) := by
      have hcont : Continuous fun v : ℝ => npSinc v := Real.continuous_sinc.comp (by fun_prop)
      have := hcont.tendsto 0
      simpa [npSinc] using this
    have key := ((gamma1_tendsto.mul hc).add ((gamma2_tendsto.mul_const (-L)).mul hs)).div hn one_ne_zero
    have e : (exactInit 0 z).f = (gamma1 0 * 1 + gamma2 0 * -L * 1) / 1 := by
      show (gamma1 0 * Real.cosh (-0 * Real.log (z / 2)) + gamma2 0 * (-Real.log (z / 2))
        * (if -0 * Real.log (z / 2) = 0 then 1 else _)) / npSinc 0 = _
      rw [← hL]
      simp [npSinc]
    rw [e]
    refine key.congr fun v => ?_
    rw [hL]
    rfl
  · have he : Tendsto (fun v : ℝ => 0.5 * Real.exp (-v * L)) (𝓝 0) (𝓝 (0.5 * 1)) := by
      have := (Real.continuous_exp.tendsto 0).comp hmu
      rw [Real.exp_zero] at this
      exact this.const_mul _
    have key := he.div (gamma2_tendsto.sub (hid.mul gamma1_tendsto)) (by rw [gamma2_zero]; norm_num)
    have e : (exactInit 0 z).p = 0.5 * 1 / (gamma2 0 - 0 * gamma1 0) := by
      show 0.5 * Real.exp (-0 * Real.log (z / 2)) / (gamma2 0 - 0 * gamma1 0) = _
      simp
    rw [e]
    refine key.congr fun v => ?_
    rw [hL]
    rfl
  · have he : Tendsto (fun v : ℝ => 0.5 * Real.exp (-(-v * L))) (𝓝 0) (𝓝 (0.5 * 1)) := by
      have := (Real.continuous_exp.tendsto (-0)).comp hmu.neg
      rw [neg_zero, Real.exp_zero] at this
      exact this.const_mul _
    have key := he.div (gamma2_tendsto.add (hid.mul gamma1_tendsto)) (by rw [gamma2_zero]; norm_num)
    have e : (exactInit 0 z).q = 0.5 * 1 / (gamma2 0 + 0 * gamma1 0) := by
      show 0.5 * Real.exp (-(-0 * Real.log (z / 2))) / (gamma2 0 + 0 * gamma1 0) = _
      simp
    rw [e]
    refine key.congr fun v => ?_
    rw [hL]
    rfl

/-- The state of the loop with the exact coefficients. -/
noncomputable def exactIter (v z : ℝ) (k : ℕ) : TemmeState := temmeIter v z (exactInit v z) k

theorem exactStart (v z : ℝ) : Start (exactInit v z) := start_init _ _ _

theorem exactIter_tendsto (z : ℝ) (k : ℕ) :
    Tendsto (fun v => (exactIter v z k).f) (𝓝 0) (𝓝 (exactIter 0 z k).f) ∧
    Tendsto (fun v => (exactIter v z k).p) (𝓝 0) (𝓝 (exactIter 0 z k).p) ∧
    Tendsto (fun v => (exactIter v z k).q) (𝓝 0) (𝓝 (exactIter 0 z k).q) := by
  induction k with
  | zero => exact exactInit_tendsto z
  | succ k ih =>
    obtain ⟨hf, hp, hq⟩ := ih
    have hid : Tendsto (fun v : ℝ => v) (𝓝 0) (𝓝 0) := tendsto_id
    have hi : ∀ v, (exactIter v z k).index = (k : ℝ) + 1 := fun v => iter_index v z (exactStart v z) k
    have h0 : (0 : ℝ) ≤ k := Nat.cast_nonneg k
    have h1 : (k : ℝ) + 1 ≠ 0 := by positivity
    refine ⟨?_, ?_, ?_⟩
    · have key := (((hf.const_mul ((k : ℝ) + 1)).add hp).add hq).div
        ((tendsto_const_nhds (x := ((k : ℝ) + 1) * ((k : ℝ) + 1))).sub (hid.mul hid)) (by simpa using h1)
      refine Tendsto.congr' (Eventually.of_forall fun v => ?_) (key.trans_eq ?_)
      all_goals simp only [exactIter, temmeIter, temmeBody]
      all_goals rw [← exactIter, hi]
      rfl
    · have key := hp.div ((tendsto_const_nhds (x := (k : ℝ) + 1)).sub hid) (by simpa using h1)
      refine Tendsto.congr' (Eventually.of_forall fun v => ?_) (key.trans_eq ?_)
      all_goals simp only [exactIter, temmeIter, temmeBody]
      all_goals rw [← exactIter, hi]
      rfl
    · have key := hq.div ((tendsto_const_nhds (x := (k : ℝ) + 1)).add hid) (by simpa using h1)
      refine Tendsto.congr' (Eventually.of_forall fun v => ?_) (key.trans_eq ?_)
      all_goals simp only [exactIter, temmeIter, temmeBody]
      all_goals rw [← exactIter, hi]
      rfl

/-- A crude bound on the states. -/
theorem iter_bound {v : ℝ} (hv : |v| ≤ 1 / 2) (z : ℝ) {s : TemmeState} (hs : Start s) {M : ℝ}
    (hf : |s.f| ≤ M) (hp : |s.p| ≤ M) (hq : |s.q| ≤ M) (k : ℕ) :
    |(temmeIter v z s k).f| ≤ M * 4 ^ k ∧ |(temmeIter v z s k).p| ≤ M * 4 ^ k ∧ |(temmeIter v z s k).q| ≤ M * 4 ^ k := by
  obtain ⟨hv1, hv2⟩ := abs_le.mp hv
  induction k with
  | zero => simpa [temmeIter] using ⟨hf, hp, hq⟩
  | succ k ih =>
    obtain ⟨i1, i2, i3⟩ := ih
    have h0 : (0 : ℝ) ≤ k := Nat.cast_nonneg k
    have hM : 0 ≤ M * 4 ^ k := (abs_nonneg _).trans i1
    have d1 : 0 < (k : ℝ) + 1 - v := by linarith
    have d2 : 0 < (k : ℝ) + 1 + v := by linarith
    have d3 : 0 < ((k : ℝ) + 1) * ((k : ℝ) + 1) - v * v := by nlinarith
    simp only [temmeIter, temmeBody, iter_index v z hs k]
    rw [pow_succ]
    refine ⟨?_, ?_, ?_⟩
    · rw [abs_div, abs_of_pos d3, div_le_iff₀ d3]
      have t1 := abs_add_le (((k : ℝ) + 1) * (temmeIter v z s k).f + (temmeIter v z s k).p) (temmeIter v z s k).q
      have t2 := abs_add_le (((k : ℝ) + 1) * (temmeIter v z s k).f) (temmeIter v z s k).p
      rw [abs_mul, abs_of_pos (by linarith : 0 < (k : ℝ) + 1)] at t2
      have t3 : ((k : ℝ) + 1) * |(temmeIter v z s k).f| ≤ ((k : ℝ) + 1) * (M * 4 ^ k) :=
        mul_le_mul_of_nonneg_left i1 (by linarith)
      have t4 : ((k : ℝ) + 1) * (M * 4 ^ k) + M * 4 ^ k + M * 4 ^ k = (M * 4 ^ k) * ((k : ℝ) + 3) := by ring
      have t5 : (k : ℝ) + 3 ≤ 4 * (((k : ℝ) + 1) * ((k : ℝ) + 1) - v * v) := by nlinarith
      have t6 := mul_le_mul_of_nonneg_left t5 hM
      nlinarith
    · rw [abs_div, abs_of_pos d1, div_le_iff₀ d1]
      have t5 : 1 ≤ 4 * ((k : ℝ) + 1 - v) := by linarith
      have t6 := mul_le_mul_of_nonneg_left t5 hM
      nlinarith
    · rw [abs_div, abs_of_pos d2, div_le_iff₀ d2]
      have t5 : 1 ≤ 4 * ((k : ℝ) + 1 + v) := by linarith
      have t6 := mul_le_mul_of_nonneg_left t5 hM
      nlinarith

theorem term_bound {v : ℝ} (hv : |v| ≤ 1 / 2) (z : ℝ) {s : TemmeState} (hs : Start s) {M : ℝ}
    (hf : |s.f| ≤ M) (hp : |s.p| ≤ M) (hq : |s.q| ≤ M) (k : ℕ) :
    |kvTerm v z s k| ≤ M * ((2 * z ^ 2) ^ k / k.factorial) ∧ |kvp1Term v z s k| ≤ M * ((2 * z ^ 2) ^ k / k.factorial) := by
  obtain ⟨b1, b2, _⟩ := iter_bound hv z hs hf hp hq k
  have hc : 0 ≤ (z ^ 2 / 4) ^ k / (k.factorial : ℝ) := by positivity
  have hM : 0 ≤ M := (abs_nonneg _).trans hf
  have h4 : (z ^ 2 / 4) ^ k * (4 ^ k * 2 ^ k) = (2 * z ^ 2) ^ k := by
    rw [← mul_pow, ← mul_pow]; congr 1; ring
  have hk2 : (k : ℝ) + 1 ≤ 2 ^ k := by exact_mod_cast Nat.lt_two_pow_self
  have h1k : (1 : ℝ) ≤ 2 ^ k := one_le_pow₀ (by norm_num)
  have e : M * ((2 * z ^ 2) ^ k / k.factorial) = (z ^ 2 / 4) ^ k / (k.factorial : ℝ) * (M * 4 ^ k * 2 ^ k) := by
    rw [← h4]; ring
  have hM4 : 0 ≤ M * 4 ^ k := by positivity
  constructor
  · rw [kvTerm, iter_coeff v z hs, abs_mul, abs_of_nonneg hc, e]
    refine mul_le_mul_of_nonneg_left ?_ hc
    nlinarith
  · rw [kvp1Term, iter_coeff v z hs, abs_mul, abs_of_nonneg hc, e]
    refine mul_le_mul_of_nonneg_left ?_ hc
    have t1 := abs_sub (temmeIter v z s k).p (k * (temmeIter v z s k).f)
    rw [abs_mul, abs_of_nonneg (Nat.cast_nonneg k : (0 : ℝ) ≤ k)] at t1
    have t2 : (k : ℝ) * |(temmeIter v z s k).f| ≤ k * (M * 4 ^ k) :=
      mul_le_mul_of_nonneg_left b1 (Nat.cast_nonneg k)
    nlinarith

/-- The exact series sum to `K_v` and `(z/2) K_{v+1}`. -/
theorem exact_hasSum {v : ℝ} (hv : |v| ≤ 1 / 2) {z : ℝ} (hz : 0 < z) :
    HasSum (kvTerm v z (exactInit v z)) (kv v z) ∧
      HasSum (kvp1Term v z (exactInit v z)) (z / 2 * kv (v + 1) z) := by
  have main : ∀ v : ℝ, v ≠ 0 → |v| ≤ 1 / 2 → HasSum (kvTerm v z (exactInit v z)) (kv v z) ∧
      HasSum (kvp1Term v z (exactInit v z)) (z / 2 * kv (v + 1) z) := by
    intro v h0 hv
    obtain ⟨hv1, hv2⟩ := abs_le.mp hv
    have h : v < 1 := by linarith
    have h' : -1 < v := by linarith
    exact ⟨kvTerm_hasSum h0 h h' hz (exactStart v z) (exactInit_f h h' hz) (exactInit_p v hz) (exactInit_q v hz),
      kvp1Term_hasSum h0 h h' hz (exactStart v z) (exactInit_f h h' hz) (exactInit_p v hz) (exactInit_q v hz)⟩
  by_cases h0 : v = 0
  · subst h0
    obtain ⟨t1, t2, t3⟩ := exactInit_tendsto z
    obtain ⟨M, hMd⟩ : ∃ M, M = |(exactInit 0 z).f| + |(exactInit 0 z).p| + |(exactInit 0 z).q| + 1 := ⟨_, rfl⟩
    have n1 := abs_nonneg (exactInit 0 z).f
    have n2 := abs_nonneg (exactInit 0 z).p
    have n3 := abs_nonneg (exactInit 0 z).q
    have ev1 := t1.abs.eventually (gt_mem_nhds (show |(exactInit 0 z).f| < M by linarith))
    have ev2 := t2.abs.eventually (gt_mem_nhds (show |(exactInit 0 z).p| < M by linarith))
    have ev3 := t3.abs.eventually (gt_mem_nhds (show |(exactInit 0 z).q| < M by linarith))
    have evh : ∀ᶠ v : ℝ in 𝓝 0, |v| ≤ 1 / 2 := by
      have := Metric.closedBall_mem_nhds (0 : ℝ) (show (0 : ℝ) < 1 / 2 by norm_num)
      filter_upwards [this] with v hv
      rwa [Metric.mem_closedBall, Real.dist_eq, sub_zero] at hv
    have hsum : Summable fun k : ℕ => M * ((2 * z ^ 2) ^ k / (k.factorial : ℝ)) :=
      (Real.summable_pow_div_factorial _).mul_left M
    have hb0 := fun k => term_bound hv z (exactStart 0 z) (M := M) (by linarith) (by linarith) (by linarith) k
    have hS1 : Summable (kvTerm 0 z (exactInit 0 z)) :=
      Summable.of_norm_bounded hsum fun k => (hb0 k).1
    have hS2 : Summable (kvp1Term 0 z (exactInit 0 z)) :=
      Summable.of_norm_bounded hsum fun k => (hb0 k).2
    have hbd : ∀ᶠ v : ℝ in 𝓝 0, ∀ k, |kvTerm v z (exactInit v z) k| ≤ M * ((2 * z ^ 2) ^ k / k.factorial) ∧
        |kvp1Term v z (exactInit v z) k| ≤ M * ((2 * z ^ 2) ^ k / k.factorial) := by
      filter_upwards [ev1, ev2, ev3, evh] with v a b c d k
      exact term_bound d z (exactStart v z) a.le b.le c.le k
    have lim1 : ∀ k, Tendsto (fun v => kvTerm v z (exactInit v z) k) (𝓝 0) (𝓝 (kvTerm 0 z (exactInit 0 z) k)) := by
      intro k
      have := (exactIter_tendsto z k).1.const_mul ((z ^ 2 / 4) ^ k / (k.factorial : ℝ))
      refine Tendsto.congr (fun v => ?_) (this.trans_eq ?_)
      all_goals rw [kvTerm, iter_coeff _ z (exactStart _ z)]; rfl
    have lim2 : ∀ k, Tendsto (fun v => kvp1Term v z (exactInit v z) k) (𝓝 0) (𝓝 (kvp1Term 0 z (exactInit 0 z) k)) := by
      intro k
      have := ((exactIter_tendsto z k).2.1.sub ((exactIter_tendsto z k).1.const_mul (k : ℝ))).const_mul
        ((z ^ 2 / 4) ^ k / (k.factorial : ℝ))
      refine Tendsto.congr (fun v => ?_) (this.trans_eq ?_)
      all_goals rw [kvp1Term, iter_coeff _ z (exactStart _ z)]; rfl
    have T1 := tendsto_tsum_of_dominated_convergence hsum lim1 (hbd.mono fun v h k => (h k).1)
    have T2 := tendsto_tsum_of_dominated_convergence hsum lim2 (hbd.mono fun v h k => (h k).2)
    have K1 := (kv_continuousAt 0 hz).mono_left (nhdsWithin_le_nhds (s := {0}ᶜ))
    have K2 : Tendsto (fun v => z / 2 * kv (v + 1) z) (𝓝[≠] 0) (𝓝 (z / 2 * kv (0 + 1) z)) := by
      have ha : Tendsto (fun v : ℝ => v + 1) (𝓝 0) (𝓝 (0 + 1)) := tendsto_id.add_const 1
      exact (((kv_continuousAt (0 + 1) hz).comp ha).const_mul (z / 2)).mono_left nhdsWithin_le_nhds
    have evn : ∀ᶠ v : ℝ in 𝓝[≠] 0, v ≠ 0 ∧ |v| ≤ 1 / 2 := by
      filter_upwards [self_mem_nhdsWithin, evh.filter_mono nhdsWithin_le_nhds] with v a b using ⟨a, b⟩
    have E1 : ∑' k, kvTerm 0 z (exactInit 0 z) k = kv 0 z := by
      refine tendsto_nhds_unique (T1.mono_left (nhdsWithin_le_nhds (s := {0}ᶜ))) (K1.congr' ?_)
      filter_upwards [evn] with v hv using (main v hv.1 hv.2).1.tsum_eq.symm
    have E2 : ∑' k, kvp1Term 0 z (exactInit 0 z) k = z / 2 * kv (0 + 1) z := by
      refine tendsto_nhds_unique (T2.mono_left (nhdsWithin_le_nhds (s := {0}ᶜ))) (K2.congr' ?_)
      filter_upwards [evn] with v hv using (main v hv.1 hv.2).2.tsum_eq.symm
    exact ⟨E1 ▸ hS1.hasSum, E2 ▸ hS2.hasSum⟩
  · exact main v h0 hv

end JG.BesK
