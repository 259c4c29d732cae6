import Verif.Lemmas.BesselTemme
import Mathlib.Analysis.SpecialFunctions.Gamma.BohrMollerup
import Mathlib.Analysis.Complex.ExponentialBounds

/-! # What the series of Temme leaves out when its loop stops -/

namespace JG.BesK

open Real Set Filter Topology JG.Elt

/-! ### `K_ν` grows with the size of the order -/

theorem cosh_point (nu : ℝ) {z : ℝ} (hz : 0 < z) {t : ℝ} (ht : 0 < t) :
    1 / 2 * ((z / 2) ^ (-nu) * (t ^ (nu - 1) * Real.exp (-t - z ^ 2 / (4 * t)))
      + (z / 2) ^ (- -nu) * (t ^ (-nu - 1) * Real.exp (-t - z ^ 2 / (4 * t))))
    = Real.cosh (nu * Real.log (t / (z / 2))) * (t⁻¹ * Real.exp (-t - z ^ 2 / (4 * t))) := by
  have h2 : 0 < z / 2 := by positivity
  have r : ∀ a : ℝ, (z / 2) ^ (-a) * t ^ (a - 1) = Real.exp (a * Real.log (t / (z / 2))) * t⁻¹ := by
    intro a
    rw [Real.rpow_sub_one ht.ne', Real.rpow_def_of_pos h2, Real.rpow_def_of_pos ht, Real.log_div ht.ne' h2.ne',
      ← mul_div_assoc, ← Real.exp_add, div_eq_mul_inv]
    ring_nf
  have r1 := r nu
  have r2 := r (-nu)
  rw [Real.cosh_eq, ← neg_mul, ← mul_assoc ((z / 2) ^ (-nu)), r1, ← mul_assoc ((z / 2) ^ (- -nu)), r2]
  ring

theorem kv_cosh_integrable (nu : ℝ) {z : ℝ} (hz : 0 < z) : MeasureTheory.IntegrableOn
    (fun t : ℝ => Real.cosh (nu * Real.log (t / (z / 2))) * (t⁻¹ * Real.exp (-t - z ^ 2 / (4 * t)))) (Ioi 0) := by
  have i1 := (kvInt_integrable nu hz).const_mul ((z / 2) ^ (-nu))
  have i2 := (kvInt_integrable (-nu) hz).const_mul ((z / 2) ^ (- -nu))
  have i3 : MeasureTheory.IntegrableOn (fun t : ℝ => 1 / 2 * ((z / 2) ^ (-nu) * (t ^ (nu - 1) * Real.exp (-t - z ^ 2 / (4 * t)))
      + (z / 2) ^ (- -nu) * (t ^ (-nu - 1) * Real.exp (-t - z ^ 2 / (4 * t))))) (Ioi 0) := (i1.add i2).const_mul (1 / 2)
  exact i3.congr_fun (fun t ht => cosh_point nu hz ht) measurableSet_Ioi

theorem kv_cosh (nu : ℝ) {z : ℝ} (hz : 0 < z) :
    kv nu z = 1 / 2 * ∫ t in Ioi (0 : ℝ), Real.cosh (nu * Real.log (t / (z / 2))) * (t⁻¹ * Real.exp (-t - z ^ 2 / (4 * t))) := by
  have i1 := (kvInt_integrable nu hz).const_mul ((z / 2) ^ (-nu))
  have i2 := (kvInt_integrable (-nu) hz).const_mul ((z / 2) ^ (- -nu))
  have e : kv nu z = 1 / 2 * ((kv nu z + kv (-nu) z)) := by rw [kv_neg nu hz]; ring
  rw [← MeasureTheory.setIntegral_congr_fun measurableSet_Ioi (fun t ht => cosh_point nu hz ht),
    MeasureTheory.integral_const_mul, MeasureTheory.integral_add i1 i2, MeasureTheory.integral_const_mul,
    MeasureTheory.integral_const_mul, e, kv_eq, kv_eq, kvInt, kvInt]
  ring

theorem kv_mono {mu nu : ℝ} (h : |mu| ≤ |nu|) {z : ℝ} (hz : 0 < z) : kv mu z ≤ kv nu z := by
  rw [kv_cosh mu hz, kv_cosh nu hz]
  refine mul_le_mul_of_nonneg_left ?_ (by norm_num)
  refine MeasureTheory.setIntegral_mono_on (kv_cosh_integrable mu hz) (kv_cosh_integrable nu hz) measurableSet_Ioi
    fun t ht => ?_
  have ht : 0 < t := ht
  refine mul_le_mul_of_nonneg_right ?_ (by positivity)
  rw [Real.cosh_le_cosh, abs_mul, abs_mul]
  exact mul_le_mul_of_nonneg_right h (abs_nonneg _)

/-! ### The start of the series -/

theorem gamma_ratio {v : ℝ} (h0 : 0 < v) (h : v ≤ 1 / 2) :
    Real.Gamma (1 - v) * (1 - 9 / 10 * v) ≤ Real.Gamma (1 + v) * (1 + 9 / 10 * v) := by
  have hc := Real.convexOn_log_Gamma
  have m2 : (2 : ℝ) ∈ Ioi (0 : ℝ) := by simp
  have m3 : (3 : ℝ) ∈ Ioi (0 : ℝ) := by simp
  have G2 : Real.Gamma 2 = 1 := Real.Gamma_two
  have G3 : Real.Gamma 3 = 2 := by
    rw [show (3 : ℝ) = 2 + 1 by norm_num, Real.Gamma_add_one (by norm_num), G2, mul_one]
  have pA : 0 < Real.Gamma (3 + v) := Real.Gamma_pos_of_pos (by linarith)
  have pB : 0 < Real.Gamma (3 - v) := Real.Gamma_pos_of_pos (by linarith)
  -- upper bound between 2 and 3
  have up : Real.log (Real.Gamma (3 - v)) ≤ (1 - v) * Real.log 2 := by
    have := hc.2 m2 m3 h0.le (show 0 ≤ 1 - v by linarith) (by ring)
    simp only [smul_eq_mul, Function.comp] at this
    rw [show v * 2 + (1 - v) * 3 = 3 - v by ring, G2, G3, Real.log_one] at this
    linarith
  -- lower bound beyond 3
  have lo : (1 + v) * Real.log 2 ≤ Real.log (Real.Gamma (3 + v)) := by
    have m4 : (3 + v) ∈ Ioi (0 : ℝ) := by simp; linarith
    have hd : 0 < 1 + v := by linarith
    have := hc.2 m2 m4 (show 0 ≤ v / (1 + v) by positivity) (show 0 ≤ 1 / (1 + v) by positivity) (by field_simp; ring)
    simp only [smul_eq_mul, Function.comp] at this
    rw [show v / (1 + v) * 2 + 1 / (1 + v) * (3 + v) = 3 by field_simp; ring, G2, G3, Real.log_one] at this
    rw [mul_zero, zero_add, div_mul_eq_mul_div, one_mul, le_div_iff₀ hd] at this
    linarith
  have hl2 := Real.log_two_gt_d9
  have hR : Real.Gamma (3 - v) * (1 + 1.386 * v + 0.96 * v ^ 2) ≤ Real.Gamma (3 + v) := by
    have e1 : Real.Gamma (3 + v) = Real.exp (Real.log (Real.Gamma (3 + v))) := (Real.exp_log pA).symm
    have e2 : Real.Gamma (3 - v) = Real.exp (Real.log (Real.Gamma (3 - v))) := (Real.exp_log pB).symm
    have q := Real.quadratic_le_exp_of_nonneg (x := 1.386 * v) (by positivity)
    have q1 : 1 + 1.386 * v + 0.96 * v ^ 2 ≤ Real.exp (1.386 * v) := by nlinarith [sq_nonneg v]
    calc Real.Gamma (3 - v) * (1 + 1.386 * v + 0.96 * v ^ 2) ≤ Real.Gamma (3 - v) * Real.exp (1.386 * v) :=
          mul_le_mul_of_nonneg_left q1 pB.le
      _ = Real.exp (Real.log (Real.Gamma (3 - v)) + 1.386 * v) := by rw [Real.exp_add, ← e2]
      _ ≤ Real.exp (Real.log (Real.Gamma (3 + v))) := Real.exp_le_exp.mpr (by nlinarith)
      _ = _ := e1.symm
  have s1 : Real.Gamma (3 + v) = (2 + v) * ((1 + v) * Real.Gamma (1 + v)) := by
    rw [show (3 : ℝ) + v = (2 + v) + 1 by ring, Real.Gamma_add_one (by linarith), show (2 : ℝ) + v = (1 + v) + 1 by ring,
      Real.Gamma_add_one (by linarith)]
  have s2 : Real.Gamma (3 - v) = (2 - v) * ((1 - v) * Real.Gamma (1 - v)) := by
    rw [show (3 : ℝ) - v = (2 - v) + 1 by ring, Real.Gamma_add_one (by linarith), show (2 : ℝ) - v = (1 - v) + 1 by ring,
      Real.Gamma_add_one (by linarith)]
  rw [s1, s2] at hR
  have pC : 0 < Real.Gamma (1 - v) := Real.Gamma_pos_of_pos (by linarith)
  have poly : (1 - 9 / 10 * v) * ((2 + v) * (1 + v)) ≤
      (1 + 9 / 10 * v) * ((2 - v) * (1 - v) * (1 + 1.386 * v + 0.96 * v ^ 2)) := by
    have h2 : v ^ 2 ≤ v / 2 := by nlinarith
    nlinarith [mul_nonneg h0.le (sub_nonneg.mpr h), pow_pos h0 3, pow_pos h0 4, pow_pos h0 2,
      mul_nonneg (pow_pos h0 2).le (sub_nonneg.mpr h), mul_nonneg (pow_pos h0 3).le (sub_nonneg.mpr h),
      mul_nonneg (pow_pos h0 4).le (sub_nonneg.mpr h)]
  have hpos : 0 < (2 + v) * (1 + v) := by positivity
  refine le_of_mul_le_mul_left ?_ hpos
  calc (2 + v) * (1 + v) * (Real.Gamma (1 - v) * (1 - 9 / 10 * v))
      = Real.Gamma (1 - v) * ((1 - 9 / 10 * v) * ((2 + v) * (1 + v))) := by ring
    _ ≤ Real.Gamma (1 - v) * ((1 + 9 / 10 * v) * ((2 - v) * (1 - v) * (1 + 1.386 * v + 0.96 * v ^ 2))) :=
        mul_le_mul_of_nonneg_left poly pC.le
    _ = (1 + 9 / 10 * v) * ((2 - v) * ((1 - v) * Real.Gamma (1 - v)) * (1 + 1.386 * v + 0.96 * v ^ 2)) := by ring
    _ ≤ (1 + 9 / 10 * v) * ((2 + v) * ((1 + v) * Real.Gamma (1 + v))) :=
        mul_le_mul_of_nonneg_left hR (by linarith)
    _ = _ := by ring

theorem exactInit_p_pos {v : ℝ} (h' : -1 < v) {z : ℝ} (hz : 0 < z) : 0 < (exactInit v z).p := by
  rw [exactInit_p v hz]
  have := Real.rpow_pos_of_pos (by positivity : 0 < z / 2) (-v)
  have := Real.Gamma_pos_of_pos (by linarith : 0 < 1 + v)
  positivity

theorem exactInit_q_pos {v : ℝ} (h : v < 1) {z : ℝ} (hz : 0 < z) : 0 < (exactInit v z).q := by
  rw [exactInit_q v hz]
  have := Real.rpow_pos_of_pos (by positivity : 0 < z / 2) v
  have := Real.Gamma_pos_of_pos (by linarith : 0 < 1 - v)
  positivity

theorem exactInit_f_ge {v : ℝ} (hv : |v| ≤ 1 / 2) {z : ℝ} (hz : 0 < z) (hz2 : z ≤ 2) :
    -(9 / 10) * ((exactInit v z).p + (exactInit v z).q) ≤ (exactInit v z).f := by
  have main : ∀ v : ℝ, v ≠ 0 → |v| ≤ 1 / 2 →
      -(9 / 10) * ((exactInit v z).p + (exactInit v z).q) ≤ (exactInit v z).f := by
    intro v h0 hv
    obtain ⟨hv1, hv2⟩ := abs_le.mp hv
    have hf := exactInit_f (v := v) (by linarith) (by linarith) hz
    have h2 : 0 < z / 2 := by positivity
    have h3 : z / 2 ≤ 1 := by linarith
    have G1 := Real.Gamma_pos_of_pos (by linarith : 0 < 1 - v)
    have G2 := Real.Gamma_pos_of_pos (by linarith : 0 < 1 + v)
    have P1 := Real.rpow_pos_of_pos h2 (-v)
    have P2 := Real.rpow_pos_of_pos h2 v
    rw [exactInit_p v hz, exactInit_q v hz] at hf ⊢
    rcases lt_or_gt_of_ne h0 with hneg | hpos
    · have g := gamma_ratio (v := -v) (by linarith) (by linarith)
      rw [sub_neg_eq_add, ← sub_eq_add_neg] at g
      have r := Real.rpow_le_rpow_of_exponent_ge h2 h3 (show v ≤ -v by linarith)
      have a : (z / 2) ^ (-v) * (Real.Gamma (1 + v) * (1 + 9 / 10 * v)) ≤ (z / 2) ^ v * (Real.Gamma (1 - v) * (1 - 9 / 10 * v)) :=
        mul_le_mul r (by linarith) (mul_nonneg G2.le (by linarith)) P2.le
      nlinarith
    · have g := gamma_ratio hpos hv2
      have r := Real.rpow_le_rpow_of_exponent_ge h2 h3 (show -v ≤ v by linarith)
      have a : (z / 2) ^ v * (Real.Gamma (1 - v) * (1 - 9 / 10 * v)) ≤ (z / 2) ^ (-v) * (Real.Gamma (1 + v) * (1 + 9 / 10 * v)) :=
        mul_le_mul r g (mul_nonneg G1.le (by linarith)) P1.le
      nlinarith
  by_cases h0 : v = 0
  · subst h0
    obtain ⟨t1, t2, t3⟩ := exactInit_tendsto z
    have a := (((t2.add t3).const_mul (-(9 / 10)))).mono_left (nhdsWithin_le_nhds (s := {0}ᶜ))
    have b := t1.mono_left (nhdsWithin_le_nhds (s := {0}ᶜ))
    refine le_of_tendsto_of_tendsto a b ?_
    have evh : ∀ᶠ v : ℝ in 𝓝[≠] 0, |v| ≤ 1 / 2 := by
      have := Metric.closedBall_mem_nhds (0 : ℝ) (show (0 : ℝ) < 1 / 2 by norm_num)
      filter_upwards [nhdsWithin_le_nhds this] with v hv
      rwa [Metric.mem_closedBall, Real.dist_eq, sub_zero] at hv
    filter_upwards [self_mem_nhdsWithin, evh] with v hv1 hv2 using main v hv1 hv2
  · exact main v h0 hv

/-! ### The terms of the series -/

/-- From the first turn on `f` is positive and not small against `p` and `q`. -/
theorem exact_pos {v : ℝ} (hv : |v| ≤ 1 / 2) {z : ℝ} (hz : 0 < z) (hz2 : z ≤ 2) (j : ℕ) :
    0 < (exactIter v z j).p ∧ 0 < (exactIter v z j).q ∧ (1 ≤ j → 0 < (exactIter v z j).f ∧
      (exactIter v z j).p + (exactIter v z j).q ≤ 10 * (exactIter v z j).f) := by
  obtain ⟨hv1, hv2⟩ := abs_le.mp hv
  have h : v < 1 := by linarith
  have h' : -1 < v := by linarith
  have hvv : v * v ≤ 1 / 4 := by nlinarith
  induction j with
  | zero => exact ⟨exactInit_p_pos h' hz, exactInit_q_pos h hz, fun h => by omega⟩
  | succ j ih =>
    obtain ⟨i1, i2, i3⟩ := ih
    have h0 : (0 : ℝ) ≤ j := Nat.cast_nonneg j
    have d1 : 0 < (j : ℝ) + 1 - v := by linarith
    have d2 : 0 < (j : ℝ) + 1 + v := by linarith
    have d3 : 0 < ((j : ℝ) + 1) * ((j : ℝ) + 1) - v * v := by nlinarith
    have hi : (exactIter v z j).index = (j : ℝ) + 1 := iter_index v z (exactStart v z) j
    have hf : v * (exactIter v z j).f = (exactIter v z j).p - (exactIter v z j).q :=
      iter_f h h' z (exactStart v z) (exactInit_f h h' hz) j
    have e1 : (exactIter v z (j + 1)).p = (exactIter v z j).p / ((j : ℝ) + 1 - v) := by rw [← hi]; rfl
    have e2 : (exactIter v z (j + 1)).q = (exactIter v z j).q / ((j : ℝ) + 1 + v) := by rw [← hi]; rfl
    have e3 : (exactIter v z (j + 1)).f = (((j : ℝ) + 1) * (exactIter v z j).f + (exactIter v z j).p + (exactIter v z j).q)
        / (((j : ℝ) + 1) * ((j : ℝ) + 1) - v * v) := by rw [← hi]; rfl
    obtain ⟨f, hfd⟩ : ∃ f, f = (exactIter v z j).f := ⟨_, rfl⟩
    obtain ⟨p, hpd⟩ : ∃ p, p = (exactIter v z j).p := ⟨_, rfl⟩
    obtain ⟨q, hqd⟩ : ∃ q, q = (exactIter v z j).q := ⟨_, rfl⟩
    rw [e1, e2, e3]
    rw [← hfd, ← hpd, ← hqd] at hf ⊢
    rw [← hpd] at i1
    rw [← hqd] at i2
    refine ⟨div_pos i1 d1, div_pos i2 d2, fun _ => ?_⟩
    have hg : p / ((j : ℝ) + 1 - v) + q / ((j : ℝ) + 1 + v)
        = (((j : ℝ) + 1) * (p + q) + v * v * f) / (((j : ℝ) + 1) * ((j : ℝ) + 1) - v * v) := by
      rw [div_add_div _ _ d1.ne' d2.ne', div_eq_div_iff (mul_pos d1 d2).ne' d3.ne']
      linear_combination (-v * (((j : ℝ) + 1 - v) * ((j : ℝ) + 1 + v))) * hf
    rw [hg]
    have key : 0 < ((j : ℝ) + 1) * f + p + q ∧ ((j : ℝ) + 1) * (p + q) + v * v * f ≤ 10 * (((j : ℝ) + 1) * f + p + q) := by
      rcases Nat.eq_zero_or_pos j with rfl | hj
      · have hge := exactInit_f_ge hv hz hz2
        have : -(9 / 10) * (p + q) ≤ f := by rw [hpd, hqd, hfd]; exact hge
        push_cast
        constructor
        · linarith
        · have hvv0 : 0 ≤ v * v := mul_self_nonneg v
          nlinarith
      · obtain ⟨k1, k2⟩ := i3 hj
        rw [← hfd] at k1 k2
        rw [← hpd, ← hqd] at k2
        constructor
        · positivity
        · have hvv0 : 0 ≤ v * v := mul_self_nonneg v
          have a1 : ((j : ℝ)) * (p + q) ≤ j * (10 * f) := mul_le_mul_of_nonneg_left k2 h0
          nlinarith
    refine ⟨div_pos key.1 d3, ?_⟩
    rw [← mul_div_assoc]
    exact div_le_div_of_nonneg_right key.2 d3.le

/-- Bound on the ratio of successive terms. -/
noncomputable def rat (m : ℝ) : ℝ := (m + 10) / (m * (m ^ 2 - 1 / 4))

theorem exact_ratio {v : ℝ} (hv : |v| ≤ 1 / 2) {z : ℝ} (hz : 0 < z) (hz2 : z ≤ 2) {j : ℕ} (hj : 1 ≤ j) :
    0 ≤ kvTerm v z (exactInit v z) j ∧
    kvTerm v z (exactInit v z) (j + 1) ≤ z ^ 2 / 4 * rat ((j : ℝ) + 1) * kvTerm v z (exactInit v z) j ∧
    |kvp1Term v z (exactInit v z) j| ≤ (10 + j) * kvTerm v z (exactInit v z) j := by
  obtain ⟨hv1, hv2⟩ := abs_le.mp hv
  obtain ⟨i1, i2, i3⟩ := exact_pos hv hz hz2 j
  obtain ⟨k1, k2⟩ := i3 hj
  have hvv : v * v ≤ 1 / 4 := by nlinarith
  have hj1 : (1 : ℝ) ≤ j := by exact_mod_cast hj
  have hi : (exactIter v z j).index = (j : ℝ) + 1 := iter_index v z (exactStart v z) j
  have hc : (exactIter v z j).coeff = (z ^ 2 / 4) ^ j / (j.factorial : ℝ) := iter_coeff v z (exactStart v z) j
  have hc0 : 0 < (exactIter v z j).coeff := by rw [hc]; positivity
  have e3 : (exactIter v z (j + 1)).f = (((j : ℝ) + 1) * (exactIter v z j).f + (exactIter v z j).p + (exactIter v z j).q)
        / (((j : ℝ) + 1) * ((j : ℝ) + 1) - v * v) := by rw [← hi]; rfl
  have e4 : (exactIter v z (j + 1)).coeff = (exactIter v z j).coeff * (z * z) / (4 * ((j : ℝ) + 1)) := by rw [← hi]; rfl
  refine ⟨mul_nonneg hc0.le k1.le, ?_, ?_⟩
  · show (exactIter v z (j + 1)).coeff * (exactIter v z (j + 1)).f ≤ _ * ((exactIter v z j).coeff * (exactIter v z j).f)
    rw [e3, e4, rat]
    have d4 : 0 < ((j : ℝ) + 1) ^ 2 - 1 / 4 := by nlinarith
    have d3 : 0 < ((j : ℝ) + 1) * ((j : ℝ) + 1) - v * v := by nlinarith
    have hle : (((j : ℝ) + 1) * (exactIter v z j).f + (exactIter v z j).p + (exactIter v z j).q)
        / (((j : ℝ) + 1) * ((j : ℝ) + 1) - v * v) ≤ ((j : ℝ) + 1 + 10) * (exactIter v z j).f / (((j : ℝ) + 1) ^ 2 - 1 / 4) :=
      div_le_div₀ (by positivity) (by linarith) d4 (by nlinarith)
    calc _ ≤ (exactIter v z j).coeff * (z * z) / (4 * ((j : ℝ) + 1)) *
          (((j : ℝ) + 1 + 10) * (exactIter v z j).f / (((j : ℝ) + 1) ^ 2 - 1 / 4)) :=
          mul_le_mul_of_nonneg_left hle (by positivity)
      _ = _ := by field_simp
  · show |(exactIter v z j).coeff * ((exactIter v z j).p - j * (exactIter v z j).f)| ≤
      (10 + j) * ((exactIter v z j).coeff * (exactIter v z j).f)
    rw [abs_mul, abs_of_pos hc0]
    have : |(exactIter v z j).p - j * (exactIter v z j).f| ≤ (10 + j) * (exactIter v z j).f := by
      rw [abs_le]; constructor <;> nlinarith
    calc _ ≤ (exactIter v z j).coeff * ((10 + j) * (exactIter v z j).f) := mul_le_mul_of_nonneg_left this hc0.le
      _ = _ := by ring

theorem rat_anti {m : ℝ} (h : 3 ≤ m) : rat m ≤ 1 / 2 := by
  have : 0 < m ^ 2 - 1 / 4 := by nlinarith
  rw [rat, div_le_iff₀ (by positivity)]
  nlinarith

theorem rat_two : rat 2 = 8 / 5 := by norm_num [rat]

theorem rat_three : rat 3 ≤ 1 / 2 := rat_anti le_rfl

theorem rat_four {m : ℝ} (h : 4 ≤ m) : rat m * (10 + m + 4) ≤ 4 := by
  have : 0 < m ^ 2 - 1 / 4 := by nlinarith
  rw [rat, div_mul_eq_mul_div, div_le_iff₀ (by positivity)]
  nlinarith [mul_nonneg (sub_nonneg.mpr h) (sub_nonneg.mpr h), mul_nonneg (mul_nonneg (sub_nonneg.mpr h) (sub_nonneg.mpr h)) (sub_nonneg.mpr h)]

/-- What is left of the first sum after term `j`, in units of that term. -/
noncomputable def rest (j : ℕ) : ℝ := if j = 1 then 4 else 1

/-- The same for the second sum, in units of `z²/4` times term `j`. -/
noncomputable def rest1 (j : ℕ) : ℝ := if j = 1 then 34 else if j = 2 then 9 else 4

theorem rest_step {j : ℕ} (hj : 1 ≤ j) : rat ((j : ℝ) + 1) * (1 + rest (j + 1)) ≤ rest j := by
  have h1 : j + 1 ≠ 1 := by omega
  rw [rest, if_neg h1, rest]
  split_ifs with h
  · subst h
    norm_num [rat]
  · have : (3 : ℝ) ≤ (j : ℝ) + 1 := by
      have : (2 : ℝ) ≤ j := by exact_mod_cast (show 2 ≤ j by omega)
      linarith
    have := rat_anti this
    linarith

theorem rest1_step {j : ℕ} (hj : 1 ≤ j) : rat ((j : ℝ) + 1) * (10 + ((j : ℝ) + 1) + rest1 (j + 1)) ≤ rest1 j := by
  have h1 : j + 1 ≠ 1 := by omega
  rw [rest1, if_neg h1, rest1]
  by_cases ha : j = 1
  · subst ha
    norm_num [rat]
  · rw [if_neg ha, if_neg (show ¬ j + 1 = 2 by omega)]
    by_cases hb : j = 2
    · subst hb
      norm_num [rat]
    · rw [if_neg hb]
      have : (4 : ℝ) ≤ (j : ℝ) + 1 := by
        have : (3 : ℝ) ≤ j := by exact_mod_cast (show 3 ≤ j by omega)
        linarith
      exact rat_four this

theorem rat_nonneg {j : ℕ} (hj : 1 ≤ j) : 0 ≤ rat ((j : ℝ) + 1) := by
  have hj1 : (1 : ℝ) ≤ j := by exact_mod_cast hj
  have : 0 < ((j : ℝ) + 1) ^ 2 - 1 / 4 := by nlinarith
  rw [rat]
  positivity

/-- Sums of a sequence whose terms fall at least that fast. -/
theorem tail_sum {t : ℕ → ℝ} {y : ℝ} (hy0 : 0 ≤ y) (hy : y ≤ 1) (h0 : ∀ j, 1 ≤ j → 0 ≤ t j)
    (hr : ∀ j : ℕ, 1 ≤ j → t (j + 1) ≤ y * rat ((j : ℝ) + 1) * t j) (n : ℕ) : ∀ j, 1 ≤ j →
    ∑ i ∈ Finset.range n, t (i + (j + 1)) ≤ rest j * t j ∧
    ∑ i ∈ Finset.range n, (10 + ((i + (j + 1) : ℕ) : ℝ)) * t (i + (j + 1)) ≤ y * rest1 j * t j := by
  induction n with
  | zero =>
    intro j hj
    have := h0 j hj
    have hR : 0 ≤ rest j := by rw [rest]; split_ifs <;> norm_num
    have hR1 : 0 ≤ rest1 j := by rw [rest1]; split_ifs <;> norm_num
    simp only [Finset.range_zero, Finset.sum_empty]
    constructor <;> positivity
  | succ n ih =>
    intro j hj
    have hj0 := h0 j hj
    have hr0 := rat_nonneg hj
    obtain ⟨a, b⟩ := ih (j + 1) (by omega)
    have hr1 := hr j hj
    have s1 := rest_step hj
    have s2 := rest1_step hj
    have hR : 0 ≤ rest (j + 1) := by rw [rest]; split_ifs <;> norm_num
    have hR1 : 0 ≤ rest1 (j + 1) := by rw [rest1]; split_ifs <;> norm_num
    have hn : 0 ≤ t (j + 1) := h0 (j + 1) (by omega)
    have hyr : y * rat ((j : ℝ) + 1) * t j ≤ rat ((j : ℝ) + 1) * t j := by
      have := mul_nonneg hr0 hj0
      nlinarith
    have hjj : (0 : ℝ) ≤ j := Nat.cast_nonneg j
    constructor
    · rw [Finset.sum_range_succ', zero_add]
      have e : ∀ i : ℕ, t (i + 1 + (j + 1)) = t (i + (j + 1 + 1)) := fun i => by congr 1; omega
      simp only [e]
      calc _ ≤ rest (j + 1) * t (j + 1) + t (j + 1) := by linarith
        _ = (1 + rest (j + 1)) * t (j + 1) := by ring
        _ ≤ (1 + rest (j + 1)) * (rat ((j : ℝ) + 1) * t j) := mul_le_mul_of_nonneg_left (hr1.trans hyr) (by linarith)
        _ = rat ((j : ℝ) + 1) * (1 + rest (j + 1)) * t j := by ring
        _ ≤ _ := mul_le_mul_of_nonneg_right s1 hj0
    · rw [Finset.sum_range_succ', zero_add]
      have e : ∀ i : ℕ, i + 1 + (j + 1) = i + (j + 1 + 1) := fun i => by omega
      simp only [e]
      have hb : y * rest1 (j + 1) * t (j + 1) ≤ rest1 (j + 1) * t (j + 1) := by
        have := mul_nonneg hR1 hn
        nlinarith
      push_cast at b ⊢
      calc _ ≤ rest1 (j + 1) * t (j + 1) + (10 + ((j : ℝ) + 1)) * t (j + 1) := by linarith
        _ = (10 + ((j : ℝ) + 1) + rest1 (j + 1)) * t (j + 1) := by ring
        _ ≤ (10 + ((j : ℝ) + 1) + rest1 (j + 1)) * (y * rat ((j : ℝ) + 1) * t j) :=
            mul_le_mul_of_nonneg_left hr1 (by linarith)
        _ = y * (rat ((j : ℝ) + 1) * (10 + ((j : ℝ) + 1) + rest1 (j + 1))) * t j := by ring
        _ ≤ _ := mul_le_mul_of_nonneg_right (mul_le_mul_of_nonneg_left s2 hy0) hj0

/-- What the sums leave out after `k` turns. -/
theorem exact_tail {v : ℝ} (hv : |v| ≤ 1 / 2) {z : ℝ} (hz : 0 < z) (hz2 : z ≤ 2) {k : ℕ} (hk : 1 ≤ k) :
    (exactIter v z k).kvSum ≤ kv v z ∧
    kv v z - (exactIter v z k).kvSum ≤ 4 * kvTerm v z (exactInit v z) k ∧
    |z / 2 * kv (v + 1) z - (exactIter v z k).kvp1Sum| ≤ z ^ 2 / 4 * 34 * kvTerm v z (exactInit v z) k := by
  obtain ⟨s1, s2⟩ := exact_hasSum hv hz
  have hx := fun (j : ℕ) (hj : 1 ≤ j) => exact_ratio hv hz hz2 hj
  obtain ⟨t, htd⟩ : ∃ t, t = kvTerm v z (exactInit v z) := ⟨_, rfl⟩
  obtain ⟨u, hud⟩ : ∃ u, u = kvp1Term v z (exactInit v z) := ⟨_, rfl⟩
  have hS1 : (exactIter v z k).kvSum = ∑ j ∈ Finset.range (k + 1), t j := by
    rw [htd]; exact iter_kvSum v z (exactStart v z) k
  have hS2 : (exactIter v z k).kvp1Sum = ∑ j ∈ Finset.range (k + 1), u j := by
    rw [hud]; exact iter_kvp1Sum v z (exactStart v z) k
  rw [← htd] at s1 hx ⊢
  rw [← hud] at s2 hx
  have hy0 : 0 ≤ z ^ 2 / 4 := by positivity
  have hy : z ^ 2 / 4 ≤ 1 := by nlinarith
  have T := fun n => tail_sum hy0 hy (fun j hj => (hx j hj).1) (fun j hj => (hx j hj).2.1) n k hk
  have hk0 := (hx k hk).1
  have hR : rest k ≤ 4 := by rw [rest]; split_ifs <;> norm_num
  have hR1 : rest1 k ≤ 34 := by rw [rest1]; split_ifs <;> norm_num
  have e1 : kv v z - (exactIter v z k).kvSum = ∑' i, t (i + (k + 1)) := by
    rw [hS1, ← s1.tsum_eq, ← s1.summable.sum_add_tsum_nat_add (k + 1)]; ring
  have e2 : z / 2 * kv (v + 1) z - (exactIter v z k).kvp1Sum = ∑' i, u (i + (k + 1)) := by
    rw [hS2, ← s2.tsum_eq, ← s2.summable.sum_add_tsum_nat_add (k + 1)]; ring
  have n0 : ∀ i, 0 ≤ t (i + (k + 1)) := fun i => (hx _ (by omega)).1
  have hnn : 0 ≤ ∑' i, t (i + (k + 1)) := tsum_nonneg n0
  refine ⟨by linarith, ?_, ?_⟩
  · rw [e1]
    exact (Real.tsum_le_of_sum_range_le n0 fun n => (T n).1).trans (mul_le_mul_of_nonneg_right hR hk0)
  · rw [e2]
    have hsu : Summable fun i => ‖u (i + (k + 1))‖ := by
      have := ((summable_nat_add_iff (k + 1)).2 s2.summable)
      exact this.norm
    have hb : ∑' i, ‖u (i + (k + 1))‖ ≤ z ^ 2 / 4 * rest1 k * t k := by
      refine Real.tsum_le_of_sum_range_le (fun i => norm_nonneg _) fun n => ?_
      refine le_trans (Finset.sum_le_sum fun i _ => ?_) (T n).2
      exact (hx (i + (k + 1)) (by omega)).2.2
    have := norm_tsum_le_tsum_norm hsu
    rw [Real.norm_eq_abs] at this
    refine (this.trans hb).trans ?_
    exact mul_le_mul_of_nonneg_right (mul_le_mul_of_nonneg_left hR1 hy0) hk0

/-! ### The loop stops because its terms are small -/

theorem kvInt_ge {w : ℝ} (hw : 0 ≤ w) {z : ℝ} (hz : 0 < z) (hz2 : z ≤ 2) : 1 / 2 * Real.exp (-3) ≤ kvInt w z := by
  have hsub : Icc (1 : ℝ) 2 ⊆ Ioi 0 := fun t ht => lt_of_lt_of_le one_pos ht.1
  have h1 : ∫ t in Icc (1 : ℝ) 2, t ^ (w - 1) * Real.exp (-t - z ^ 2 / (4 * t)) ≤ kvInt w z := by
    refine MeasureTheory.setIntegral_mono_set (kvInt_integrable w hz) ?_ (LE.le.eventuallyLE hsub)
    filter_upwards [MeasureTheory.ae_restrict_mem measurableSet_Ioi] with t ht using kvInt_integrand_nonneg w z ht
  have h2 : ∫ _t in Icc (1 : ℝ) 2, 1 / 2 * Real.exp (-3) ≤ ∫ t in Icc (1 : ℝ) 2, t ^ (w - 1) * Real.exp (-t - z ^ 2 / (4 * t)) := by
    refine MeasureTheory.setIntegral_mono_on (MeasureTheory.integrableOn_const (by simp)) ((kvInt_integrable w hz).mono_set hsub)
      measurableSet_Icc fun t ht => ?_
    have ht0 : 0 < t := lt_of_lt_of_le one_pos ht.1
    refine mul_le_mul ?_ (Real.exp_le_exp.mpr ?_) (Real.exp_nonneg _) (Real.rpow_nonneg ht0.le _)
    · have a := Real.rpow_le_rpow_of_exponent_le ht.1 (show (-1 : ℝ) ≤ w - 1 by linarith)
      rw [Real.rpow_neg_one] at a
      have b : (1 / 2 : ℝ) ≤ t⁻¹ := by rw [one_div]; exact inv_anti₀ ht0 ht.2
      linarith
    · have : z ^ 2 / (4 * t) ≤ 1 := by
        rw [div_le_one (by positivity)]
        nlinarith [ht.1]
      linarith [ht.2]
  rw [MeasureTheory.setIntegral_const] at h2
  have hv : MeasureTheory.volume.real (Icc (1 : ℝ) 2) = 1 := by norm_num
  rw [hv, one_smul] at h2
  linarith

theorem exp_three : Real.exp 3 < 21 := by
  have h := Real.exp_one_lt_d9
  have e : Real.exp 3 = Real.exp 1 ^ 3 := by rw [← Real.exp_nat_mul]; norm_num
  rw [e]
  have h0 := Real.exp_pos 1
  calc Real.exp 1 ^ 3 ≤ 2.7182818286 ^ 3 := by gcongr
    _ < 21 := by norm_num

theorem kv_ge {v : ℝ} {z : ℝ} (hz : 0 < z) (hz2 : z ≤ 2) : 1 / 84 * (z / 2) ^ (-|v|) ≤ kv v z := by
  rw [← kv_abs v hz, kv_eq]
  have h := kvInt_ge (abs_nonneg v) hz hz2
  have P := Real.rpow_pos_of_pos (by positivity : 0 < z / 2) (-|v|)
  have e : 1 / 21 ≤ Real.exp (-3) := by
    rw [Real.exp_neg, one_div]
    exact inv_anti₀ (Real.exp_pos 3) exp_three.le
  calc _ = 1 / 2 * (z / 2) ^ (-|v|) * (1 / 2 * (1 / 21)) := by ring
    _ ≤ 1 / 2 * (z / 2) ^ (-|v|) * kvInt |v| z := mul_le_mul_of_nonneg_left (by linarith) (by positivity)

theorem gamma_le {x : ℝ} (h1 : 1 / 2 ≤ x) (h2 : x ≤ 3 / 2) : Real.Gamma x ≤ 2 := by
  have hpi : Real.sqrt Real.pi ≤ 2 := by
    rw [show (2 : ℝ) = Real.sqrt 4 by rw [show (4 : ℝ) = 2 ^ 2 by norm_num, Real.sqrt_sq (by norm_num)]]
    exact Real.sqrt_le_sqrt Real.pi_le_four
  have hm := Real.convexOn_Gamma.le_max_of_mem_Icc (x := 1 / 2) (y := 3 / 2) (z := x) (by simp) (by simp) ⟨h1, h2⟩
  have e : Real.Gamma (3 / 2) = 1 / 2 * Real.sqrt Real.pi := by
    rw [show (3 / 2 : ℝ) = 1 / 2 + 1 by norm_num, Real.Gamma_add_one (by norm_num), Real.Gamma_one_half_eq]
  rw [Real.Gamma_one_half_eq, e] at hm
  have := Real.sqrt_nonneg Real.pi
  exact hm.trans (max_le hpi (by linarith))

theorem exact_pq_le {v : ℝ} (hv : |v| ≤ 1 / 2) {z : ℝ} (hz : 0 < z) (hz2 : z ≤ 2) :
    (exactInit v z).p + (exactInit v z).q ≤ 2 * (z / 2) ^ (-|v|) := by
  obtain ⟨hv1, hv2⟩ := abs_le.mp hv
  have h2 : 0 < z / 2 := by positivity
  have h3 : z / 2 ≤ 1 := by linarith
  have P := Real.rpow_pos_of_pos h2 (-|v|)
  have a1 := Real.rpow_le_rpow_of_exponent_ge h2 h3 (show -|v| ≤ v from neg_abs_le v)
  have a2 := Real.rpow_le_rpow_of_exponent_ge h2 h3 (show -|v| ≤ -v from neg_le_neg (le_abs_self v))
  have g1 := gamma_le (x := 1 + v) (by linarith) (by linarith)
  have g2 := gamma_le (x := 1 - v) (by linarith) (by linarith)
  have p1 := Real.Gamma_pos_of_pos (by linarith : 0 < 1 - v)
  have p2 := Real.Gamma_pos_of_pos (by linarith : 0 < 1 + v)
  rw [exactInit_p v hz, exactInit_q v hz]
  have b1 : (z / 2) ^ (-v) * Real.Gamma (1 + v) ≤ (z / 2) ^ (-|v|) * 2 := mul_le_mul a2 g1 p2.le P.le
  have b2 : (z / 2) ^ v * Real.Gamma (1 - v) ≤ (z / 2) ^ (-|v|) * 2 := mul_le_mul a1 g2 p1.le P.le
  linarith

theorem term_two {v : ℝ} (hv : |v| ≤ 1 / 2) {z : ℝ} (hz : 0 < z) (hz2 : z ≤ 2) (i : ℕ) :
    kvTerm v z (exactInit v z) (2 + i) ≤ 153 * kv v z * (1 / 2) ^ i := by
  induction i with
  | zero =>
    obtain ⟨s1, _⟩ := exact_hasSum hv hz
    have hx := fun (j : ℕ) (hj : 1 ≤ j) => (exact_ratio hv hz hz2 hj).1
    have : ∑ j ∈ ({0, 2} : Finset ℕ), kvTerm v z (exactInit v z) j ≤ kv v z :=
      sum_le_hasSum _ (fun j hj => hx j (by
        rcases Nat.eq_zero_or_pos j with rfl | h
        · simp at hj
        · exact h)) s1
    rw [Finset.sum_pair (by norm_num)] at this
    have e0 : kvTerm v z (exactInit v z) 0 = (exactInit v z).f := by simp [kvTerm, temmeIter, (exactStart v z).2.1]
    have g := exactInit_f_ge hv hz hz2
    have pq := exact_pq_le hv hz hz2
    have K := kv_ge (v := v) hz hz2
    have hK := kv_pos v hz
    rw [e0] at this
    simp only [pow_zero, mul_one, add_zero]
    linarith
  | succ i ih =>
    obtain ⟨h0, h1, _⟩ := exact_ratio hv hz hz2 (show 1 ≤ 2 + i by omega)
    have hr := rat_anti (m := ((2 + i : ℕ) : ℝ) + 1) (by push_cast; have : (0 : ℝ) ≤ i := Nat.cast_nonneg i; linarith)
    have hr0 := rat_nonneg (show 1 ≤ 2 + i by omega)
    have hy : z ^ 2 / 4 ≤ 1 := by nlinarith
    have hy0 : 0 ≤ z ^ 2 / 4 := by positivity
    have hyr : z ^ 2 / 4 * rat (((2 + i : ℕ) : ℝ) + 1) ≤ 1 / 2 := by nlinarith
    rw [pow_succ, ← add_assoc]
    have := mul_le_mul_of_nonneg_right hyr h0
    linarith

/-- The loop with the exact coefficients, for a tolerance that is not absurdly small. -/
theorem exact_loop {tol : ℝ} (ht : (1 / 2) ^ 200 ≤ tol) (ht2 : tol ≤ 1 / 8) {v : ℝ} (hv : |v| ≤ 1 / 2) {z : ℝ}
    (hz : 0 < z) (hz2 : z ≤ 2) :
    |(temmeLoop tol v z 1000 (exactInit v z)).kvSum - kv v z| ≤ 4 * tol * kv v z ∧
    |(temmeLoop tol v z 1000 (exactInit v z)).kvp1Sum - z / 2 * kv (v + 1) z| ≤ 34 * tol * (z / 2 * kv (v + 1) z) := by
  obtain ⟨m, h1, h2, h3, h4⟩ := loop_iter tol v z (exactInit v z) 1000 0 (by norm_num)
  have h3' : temmeLoop tol v z 1000 (exactInit v z) = exactIter v z m := h3
  rw [h3']
  have hm : 1 ≤ m := by omega
  obtain ⟨t1, t2, t3⟩ := exact_tail hv hz hz2 hm
  obtain ⟨n0, _, _⟩ := exact_ratio hv hz hz2 hm
  have hK := kv_pos v hz
  have htol : 0 < tol := lt_of_lt_of_le (by positivity) ht
  obtain ⟨t, htd⟩ : ∃ t, t = kvTerm v z (exactInit v z) m := ⟨_, rfl⟩
  have hsmall : |t| < |(exactIter v z m).kvSum| * tol := by
    by_contra hcon
    have hbig : 1000 ≤ m := by
      rcases h4 with h4 | h4
      · rcases h4 with h4 | h4
        · exact absurd (by rw [htd]; exact h4) hcon
        · rw [iter_index v z (exactStart v z)] at h4
          have : (999 : ℝ) < m := by linarith
          have : 999 < m := by exact_mod_cast this
          omega
      · omega
    obtain ⟨i, rfl⟩ : ∃ i, m = 2 + i := ⟨m - 2, by omega⟩
    have hT := term_two hv hz hz2 i
    have hp : ((1 : ℝ) / 2) ^ i ≤ (1 / 2) ^ 240 := pow_le_pow_of_le_one (by norm_num) (by norm_num) (by omega)
    have hT2 : t ≤ 153 * kv v z * (1 / 2) ^ 240 := by
      rw [htd]
      exact hT.trans (mul_le_mul_of_nonneg_left hp (by positivity))
    have n1 : (153 : ℝ) * (1 / 2) ^ 240 ≤ (1 / 2) ^ 230 := by norm_num
    have hT3 : t ≤ (1 / 2) ^ 230 * kv v z := by
      have := mul_le_mul_of_nonneg_right n1 hK.le
      linarith
    have n2 : ((1 : ℝ) / 2) ^ 230 ≤ 1 / 8 := by norm_num
    have hT4 : t ≤ 1 / 8 * kv v z := hT3.trans (mul_le_mul_of_nonneg_right n2 hK.le)
    rw [← htd] at t2 n0
    have hS : 1 / 2 * kv v z ≤ (exactIter v z (2 + i)).kvSum := by linarith
    apply hcon
    rw [abs_of_nonneg n0, abs_of_nonneg (by linarith)]
    have n3 : ((1 : ℝ) / 2) ^ 230 < (1 / 2) * tol := by
      have : ((1 : ℝ) / 2) ^ 230 < (1 / 2) * (1 / 2) ^ 200 := by norm_num
      have := mul_le_mul_of_nonneg_left ht (show (0 : ℝ) ≤ 1 / 2 by norm_num)
      linarith
    calc t ≤ (1 / 2) ^ 230 * kv v z := hT3
      _ < (1 / 2) * tol * kv v z := mul_lt_mul_of_pos_right n3 hK
      _ = 1 / 2 * kv v z * tol := by ring
      _ ≤ _ := mul_le_mul_of_nonneg_right hS htol.le
  rw [← htd] at t2 t3 n0
  rw [abs_of_nonneg n0] at hsmall
  have hSpos : 0 ≤ (exactIter v z m).kvSum := by
    by_contra hneg
    push Not at hneg
    rw [abs_of_neg hneg] at hsmall
    nlinarith
  rw [abs_of_nonneg hSpos] at hsmall
  have htK : t ≤ tol * kv v z := by nlinarith
  constructor
  · rw [abs_sub_comm, abs_of_nonneg (by linarith)]
    linarith
  · rw [abs_sub_comm]
    refine t3.trans ?_
    have hmono : kv v z ≤ kv (v + 1) z := by
      refine kv_mono ?_ hz
      obtain ⟨hv1, hv2⟩ := abs_le.mp hv
      rw [abs_of_nonneg (by linarith : 0 ≤ v + 1)]
      rcases abs_cases v with ⟨e, _⟩ | ⟨e, _⟩ <;> rw [e] <;> linarith
    have hK1 := kv_pos (v + 1) hz
    calc z ^ 2 / 4 * 34 * t ≤ z ^ 2 / 4 * 34 * (tol * kv v z) := mul_le_mul_of_nonneg_left htK (by positivity)
      _ ≤ z ^ 2 / 4 * 34 * (tol * kv (v + 1) z) := by gcongr
      _ = 34 * tol * (z / 2 * kv (v + 1) z) * (z / 2) := by ring
      _ ≤ 34 * tol * (z / 2 * kv (v + 1) z) * 1 := mul_le_mul_of_nonneg_left (by linarith) (by positivity)
      _ = _ := mul_one _

end JG.BesK
