import Verif.Model.Elementary
import Mathlib.MeasureTheory.Integral.IntegralEqImproper
import Mathlib.Analysis.Calculus.ParametricIntegral
import Mathlib.Analysis.Calculus.MeanValue
import Mathlib.Analysis.SpecialFunctions.Gaussian.GaussianIntegral
import Mathlib.Analysis.SpecialFunctions.Gamma.Beta

/-! The integral that defines the modified Bessel function: integrability, symmetry, derivative, monotonicity and the
closed form of order one half. -/

namespace JG.Elt

open MeasureTheory Set

/-- `∫₀^∞ t^(μ-1) exp(-t - z²/(4t)) dt`. -/
noncomputable def kvInt (mu z : ℝ) : ℝ := ∫ t in Ioi (0 : ℝ), t ^ (mu - 1) * Real.exp (-t - z ^ 2 / (4 * t))

theorem kv_eq (mu z : ℝ) : kv mu z = 1 / 2 * (z / 2) ^ (-mu) * kvInt mu z := rfl

theorem gammaInt_integrable {mu : ℝ} (h : 0 < mu) :
    IntegrableOn (fun t : ℝ => t ^ (mu - 1) * Real.exp (-t)) (Ioi 0) := by
  have := Real.GammaIntegral_convergent h
  refine this.congr_fun (fun t _ => ?_) measurableSet_Ioi
  simp only
  ring

theorem kvInt_meas (mu z : ℝ) :
    AEStronglyMeasurable (fun t : ℝ => t ^ (mu - 1) * Real.exp (-t - z ^ 2 / (4 * t))) (volume.restrict (Ioi 0)) := by
  refine ContinuousOn.aestronglyMeasurable ?_ measurableSet_Ioi
  intro t ht
  have h0 : (t : ℝ) ≠ 0 := ne_of_gt ht
  apply ContinuousAt.continuousWithinAt
  apply ContinuousAt.mul
  · exact Real.continuousAt_rpow_const _ _ (Or.inl h0)
  · apply Real.continuous_exp.continuousAt.comp
    apply ContinuousAt.sub
    · exact continuousAt_id.neg
    · apply ContinuousAt.div continuousAt_const
      · exact continuousAt_const.mul continuousAt_id
      · simpa using h0

theorem kvInt_integrand_nonneg (mu z : ℝ) {t : ℝ} (ht : 0 < t) :
    0 ≤ t ^ (mu - 1) * Real.exp (-t - z ^ 2 / (4 * t)) :=
  mul_nonneg (Real.rpow_nonneg ht.le _) (Real.exp_nonneg _)

theorem kvInt_integrable_pos {mu : ℝ} (z : ℝ) (h : 0 < mu) :
    IntegrableOn (fun t : ℝ => t ^ (mu - 1) * Real.exp (-t - z ^ 2 / (4 * t))) (Ioi 0) := by
  refine Integrable.mono' (gammaInt_integrable h) (kvInt_meas mu z) ?_
  filter_upwards [ae_restrict_mem measurableSet_Ioi] with t ht
  have ht0 : (0 : ℝ) < t := ht
  rw [Real.norm_of_nonneg (kvInt_integrand_nonneg mu z ht0)]
  have : 0 ≤ z ^ 2 / (4 * t) := by positivity
  exact mul_le_mul_of_nonneg_left (Real.exp_le_exp.mpr (by linarith)) (Real.rpow_nonneg ht0.le _)

theorem kvInt_integrable (mu : ℝ) {z : ℝ} (hz : 0 < z) :
    IntegrableOn (fun t : ℝ => t ^ (mu - 1) * Real.exp (-t - z ^ 2 / (4 * t))) (Ioi 0) := by
  obtain ⟨n, hn⟩ := exists_nat_gt (-mu)
  have hpos : 0 < mu + n := by linarith
  have hi := (gammaInt_integrable hpos).const_mul ((n.factorial : ℝ) * (4 / z ^ 2) ^ n)
  refine Integrable.mono' hi (kvInt_meas mu z) ?_
  filter_upwards [ae_restrict_mem measurableSet_Ioi] with t ht
  have ht0 : (0 : ℝ) < t := ht
  rw [Real.norm_of_nonneg (kvInt_integrand_nonneg mu z ht0)]
  have hx : 0 < z ^ 2 / (4 * t) := by positivity
  have hb := Real.pow_div_factorial_le_exp (z ^ 2 / (4 * t)) hx.le n
  have hf : (0 : ℝ) < n.factorial := by exact_mod_cast Nat.factorial_pos n
  have hp : 0 < (z ^ 2 / (4 * t)) ^ n := by positivity
  have he : Real.exp (-(z ^ 2 / (4 * t))) ≤ n.factorial * (4 / z ^ 2) ^ n * t ^ n := by
    rw [Real.exp_neg, inv_le_comm₀ (Real.exp_pos _) (by positivity)]
    refine le_trans (le_of_eq ?_) hb
    rw [div_pow, div_pow, mul_pow]
    field_simp
  have e1 : t ^ (mu + n - 1) = t ^ (mu - 1) * t ^ n := by
    rw [← Real.rpow_natCast t n, ← Real.rpow_add ht0]
    congr 1
    ring
  rw [sub_eq_add_neg (-t), Real.exp_add, e1]
  have h1 : 0 ≤ t ^ (mu - 1) := Real.rpow_nonneg ht0.le _
  have h2 := Real.exp_pos (-t)
  calc t ^ (mu - 1) * (Real.exp (-t) * Real.exp (-(z ^ 2 / (4 * t))))
      ≤ t ^ (mu - 1) * (Real.exp (-t) * (n.factorial * (4 / z ^ 2) ^ n * t ^ n)) := by gcongr
    _ = _ := by ring

theorem kvInt_zero {mu : ℝ} (h : 0 < mu) : kvInt mu 0 = Real.Gamma mu := by
  rw [Real.Gamma_eq_integral h, kvInt]
  refine setIntegral_congr_fun measurableSet_Ioi fun t _ => ?_
  norm_num
  ring

theorem kvInt_nonneg (mu z : ℝ) : 0 ≤ kvInt mu z :=
  setIntegral_nonneg measurableSet_Ioi fun _ ht => kvInt_integrand_nonneg mu z ht

theorem kvInt_pos (mu : ℝ) {z : ℝ} (hz : 0 < z) : 0 < kvInt mu z := by
  rw [kvInt, setIntegral_pos_iff_support_of_nonneg_ae _ (kvInt_integrable mu hz)]
  · have : (Function.support fun t : ℝ => t ^ (mu - 1) * Real.exp (-t - z ^ 2 / (4 * t))) ∩ Ioi 0 = Ioi 0 := by
      ext t
      simp only [mem_inter_iff, Function.mem_support, mem_Ioi, and_iff_right_iff_imp]
      intro ht
      exact (mul_pos (Real.rpow_pos_of_pos ht _) (Real.exp_pos _)).ne'
    rw [this]
    simp
  · filter_upwards [ae_restrict_mem measurableSet_Ioi] with t ht
    exact kvInt_integrand_nonneg mu z ht

theorem kvInt_antitone {mu : ℝ} (h : 0 < mu) {z w : ℝ} (hz : 0 ≤ z) (hzw : z ≤ w) : kvInt mu w ≤ kvInt mu z := by
  refine setIntegral_mono_on (kvInt_integrable_pos w h) (kvInt_integrable_pos z h) measurableSet_Ioi fun t ht => ?_
  have ht0 : (0 : ℝ) < t := ht
  refine mul_le_mul_of_nonneg_left (Real.exp_le_exp.mpr ?_) (Real.rpow_nonneg ht0.le _)
  have : z ^ 2 / (4 * t) ≤ w ^ 2 / (4 * t) := by gcongr
  linarith

/-- `K` is even in its order. -/
theorem kvInt_neg (mu : ℝ) {z : ℝ} (hz : 0 < z) : kvInt (-mu) z = (z ^ 2 / 4) ^ (-mu) * kvInt mu z := by
  have hc : 0 < z ^ 2 / 4 := by positivity
  set c := z ^ 2 / 4 with hcdef
  -- `t = y⁻¹`
  have h1 := integral_comp_rpow_Ioi (fun t : ℝ => t ^ (-mu - 1) * Real.exp (-t - c / t)) (p := -1) (by norm_num)
  -- `y = s / c`
  have h2 := integral_comp_mul_left_Ioi (fun y : ℝ => y ^ (mu - 1) * Real.exp (-y⁻¹ - c * y)) 0 (inv_pos.mpr hc)
  have e0 : kvInt (-mu) z = ∫ t in Ioi (0 : ℝ), t ^ (-mu - 1) * Real.exp (-t - c / t) := by
    refine setIntegral_congr_fun measurableSet_Ioi fun t ht => ?_
    have ht0 : (t : ℝ) ≠ 0 := ne_of_gt ht
    simp only [hcdef]
    congr 2
    field_simp
  have e1 : ∫ x in Ioi (0 : ℝ), (|(-1 : ℝ)| * x ^ ((-1 : ℝ) - 1)) •
      ((x ^ (-1 : ℝ)) ^ (-mu - 1) * Real.exp (-x ^ (-1 : ℝ) - c / x ^ (-1 : ℝ))) =
      ∫ y in Ioi (0 : ℝ), y ^ (mu - 1) * Real.exp (-y⁻¹ - c * y) := by
    refine setIntegral_congr_fun measurableSet_Ioi fun y hy => ?_
    have hy0 : (0 : ℝ) < y := hy
    simp only [smul_eq_mul, abs_neg, abs_one, one_mul]
    rw [← Real.rpow_mul hy0.le, ← mul_assoc, ← Real.rpow_add hy0, Real.rpow_neg_one, div_inv_eq_mul]
    congr 2
    ring
  have e2 : ∫ s in Ioi (0 : ℝ), (c⁻¹ * s) ^ (mu - 1) * Real.exp (-(c⁻¹ * s)⁻¹ - c * (c⁻¹ * s)) =
      (c⁻¹) ^ (mu - 1) * kvInt mu z := by
    rw [kvInt, ← integral_const_mul]
    refine setIntegral_congr_fun measurableSet_Ioi fun s hs => ?_
    have hs0 : (0 : ℝ) < s := hs
    rw [Real.mul_rpow (inv_nonneg.mpr hc.le) hs0.le, mul_assoc]
    congr 3
    have : c * (c⁻¹ * s) = s := by field_simp
    rw [this, mul_inv, inv_inv, hcdef]
    field_simp
    ring
  rw [mul_zero] at h2
  rw [e0, ← h1, e1]
  have h3 : ∫ y in Ioi (0 : ℝ), y ^ (mu - 1) * Real.exp (-y⁻¹ - c * y) =
      c⁻¹ * ((c⁻¹) ^ (mu - 1) * kvInt mu z) := by
    rw [← e2, h2, smul_eq_mul, inv_inv, ← mul_assoc, inv_mul_cancel₀ hc.ne', one_mul]
  rw [h3, ← mul_assoc]
  congr 1
  have hci : 0 < c⁻¹ := inv_pos.mpr hc
  rw [Real.rpow_sub_one hci.ne', mul_div_cancel₀ _ hci.ne', Real.inv_rpow hc.le, Real.rpow_neg hc.le]

theorem kvInt_hasDerivAt (mu : ℝ) {z : ℝ} (hz : 0 < z) :
    HasDerivAt (kvInt mu) (-(z / 2) * kvInt (mu - 1) z) z := by
  have hz2 : 0 < z / 2 := by positivity
  have key := hasDerivAt_integral_of_dominated_loc_of_deriv_le (μ := volume.restrict (Ioi (0 : ℝ)))
    (F := fun y t : ℝ => t ^ (mu - 1) * Real.exp (-t - y ^ 2 / (4 * t)))
    (F' := fun y t : ℝ => -(y / 2) * (t ^ (mu - 1 - 1) * Real.exp (-t - y ^ 2 / (4 * t))))
    (bound := fun t : ℝ => z * (t ^ (mu - 1 - 1) * Real.exp (-t - (z / 2) ^ 2 / (4 * t))))
    (x₀ := z) (s := Metric.ball z (z / 2)) (Metric.ball_mem_nhds z hz2)
    (Filter.Eventually.of_forall fun y => kvInt_meas mu y) (kvInt_integrable mu hz)
    ((kvInt_meas (mu - 1) z).const_mul _) ?_ ((kvInt_integrable (mu - 1) hz2).const_mul z) ?_
  · have h := key.2
    rw [integral_const_mul] at h
    exact h
  · filter_upwards [ae_restrict_mem measurableSet_Ioi] with t ht y hy
    have ht0 : (0 : ℝ) < t := ht
    rw [Metric.mem_ball, Real.dist_eq, abs_lt] at hy
    have hy0 : z / 2 < y := by linarith [hy.1]
    have hy1 : y < 3 * z / 2 := by linarith [hy.2]
    have hyp : 0 < y := by linarith
    rw [norm_mul, Real.norm_of_nonneg (kvInt_integrand_nonneg (mu - 1) y ht0), norm_neg, Real.norm_of_nonneg (by linarith)]
    have hle : y / 2 ≤ z := by linarith
    have hexp : Real.exp (-t - y ^ 2 / (4 * t)) ≤ Real.exp (-t - (z / 2) ^ 2 / (4 * t)) := by
      apply Real.exp_le_exp.mpr
      have : (z / 2) ^ 2 / (4 * t) ≤ y ^ 2 / (4 * t) := by gcongr
      linarith
    have h1 : 0 ≤ t ^ (mu - 1 - 1) := Real.rpow_nonneg ht0.le _
    gcongr
  · filter_upwards [ae_restrict_mem measurableSet_Ioi] with t ht y _
    have ht0 : (0 : ℝ) < t := ht
    have hd : HasDerivAt (fun y : ℝ => -t - y ^ 2 / (4 * t)) (-(2 * y / (4 * t))) y := by
      have := ((hasDerivAt_pow 2 y).div_const (4 * t)).const_sub (-t)
      simpa using this
    have h := (hd.exp).const_mul (t ^ (mu - 1))
    have e : t ^ (mu - 1) * (Real.exp (-t - y ^ 2 / (4 * t)) * -(2 * y / (4 * t))) =
        -(y / 2) * (t ^ (mu - 1 - 1) * Real.exp (-t - y ^ 2 / (4 * t))) := by
      rw [Real.rpow_sub_one ht0.ne' (mu - 1)]
      field_simp
      ring
    rw [e] at h
    exact h

theorem kvInt_continuous {mu : ℝ} (h : 0 < mu) : Continuous (kvInt mu) := by
  refine continuous_of_dominated (fun z => kvInt_meas mu z) (bound := fun t => t ^ (mu - 1) * Real.exp (-t)) ?_
    (gammaInt_integrable h) ?_
  · intro z
    filter_upwards [ae_restrict_mem measurableSet_Ioi] with t ht
    have ht0 : (0 : ℝ) < t := ht
    rw [Real.norm_of_nonneg (kvInt_integrand_nonneg mu z ht0)]
    have : 0 ≤ z ^ 2 / (4 * t) := by positivity
    exact mul_le_mul_of_nonneg_left (Real.exp_le_exp.mpr (by linarith)) (Real.rpow_nonneg ht0.le _)
  · filter_upwards [ae_restrict_mem measurableSet_Ioi] with t _
    fun_prop

theorem kvInt_even (mu z : ℝ) : kvInt mu (-z) = kvInt mu z := by
  simp only [kvInt, neg_sq]

/-- Order one half. -/
theorem kvInt_half {z : ℝ} (hz : 0 ≤ z) : kvInt (1 / 2) z = Real.sqrt Real.pi * Real.exp (-z) := by
  have hd : ∀ y : ℝ, 0 < y → HasDerivAt (kvInt (1 / 2)) (-kvInt (1 / 2) y) y := by
    intro y hy
    have h := kvInt_hasDerivAt (1 / 2) hy
    have e : (1 / 2 - 1 : ℝ) = -(1 / 2) := by norm_num
    rw [e, kvInt_neg (1 / 2) hy] at h
    have e2 : (y ^ 2 / 4) ^ (-(1 / 2) : ℝ) = 2 / y := by
      rw [Real.rpow_neg (by positivity), ← Real.sqrt_eq_rpow, show y ^ 2 / 4 = (y / 2) ^ 2 by ring,
        Real.sqrt_sq (by positivity)]
      field_simp
    rw [e2] at h
    convert h using 1
    field_simp
  have hd2 : ∀ y : ℝ, 0 < y → HasDerivAt (fun y => Real.exp y * kvInt (1 / 2) y) 0 y := by
    intro y hy
    have h := (Real.hasDerivAt_exp y).mul (hd y hy)
    have e : Real.exp y * kvInt (1 / 2) y + Real.exp y * -kvInt (1 / 2) y = 0 := by ring
    rw [e] at h
    exact h
  have hcont : Continuous fun y => Real.exp y * kvInt (1 / 2) y :=
    Real.continuous_exp.mul (kvInt_continuous (by norm_num))
  have hconst : Real.exp z * kvInt (1 / 2) z = Real.exp 0 * kvInt (1 / 2) 0 := by
    rcases eq_or_lt_of_le hz with h | h
    · rw [← h]
    · obtain ⟨c, hc, hc2⟩ := exists_hasDerivAt_eq_slope (fun y => Real.exp y * kvInt (1 / 2) y) (fun _ => 0) h
        hcont.continuousOn (fun x hx => hd2 x hx.1)
      have : Real.exp z * kvInt (1 / 2) z - Real.exp 0 * kvInt (1 / 2) 0 = 0 := by
        have h3 := hc2.symm
        rw [div_eq_zero_iff] at h3
        rcases h3 with h3 | h3
        · exact h3
        · linarith
      linarith
  rw [kvInt_zero (by norm_num), Real.exp_zero, one_mul, Real.Gamma_one_half_eq] at hconst
  rw [Real.exp_neg, ← hconst]
  have := Real.exp_pos z
  field_simp

/-- `z^μ K_μ(z)`. -/
theorem rpow_mul_kv (mu : ℝ) {z : ℝ} (hz : 0 < z) : z ^ mu * kv mu z = (2 : ℝ) ^ (mu - 1) * kvInt mu z := by
  rw [kv_eq, Real.div_rpow hz.le (by norm_num), Real.rpow_neg hz.le, Real.rpow_neg (by norm_num : (0 : ℝ) ≤ 2),
    Real.rpow_sub_one (by norm_num : (2 : ℝ) ≠ 0)]
  have h1 : 0 < z ^ mu := Real.rpow_pos_of_pos hz _
  have h2 : 0 < (2 : ℝ) ^ mu := Real.rpow_pos_of_pos (by norm_num) _
  field_simp

theorem kv_pos (mu : ℝ) {z : ℝ} (hz : 0 < z) : 0 < kv mu z := by
  rw [kv_eq]
  have := kvInt_pos mu hz
  have := Real.rpow_pos_of_pos (by positivity : 0 < z / 2) (-mu)
  positivity

/-- Strict decrease. -/
theorem kvInt_strictAnti {mu : ℝ} (h : 0 < mu) {z w : ℝ} (hz : 0 ≤ z) (hzw : z < w) : kvInt mu w < kvInt mu z := by
  obtain ⟨c, hc, hc2⟩ := exists_hasDerivAt_eq_slope (kvInt mu) (fun y => -(y / 2) * kvInt (mu - 1) y) hzw
    (kvInt_continuous h).continuousOn (fun x hx => kvInt_hasDerivAt mu (lt_of_le_of_lt hz hx.1))
  have hc0 : 0 < c := lt_of_le_of_lt hz hc.1
  have hp := kvInt_pos (mu - 1) hc0
  have hn : (kvInt mu w - kvInt mu z) / (w - z) < 0 := by
    rw [← hc2]
    have : 0 < c / 2 * kvInt (mu - 1) c := by positivity
    linarith
  have hwz : 0 < w - z := by linarith
  rw [div_neg_iff] at hn
  rcases hn with hn | hn
  · linarith [hn.2]
  · linarith [hn.1]

/-- Order three halves. -/
theorem kvInt_three_half {z : ℝ} (hz : 0 ≤ z) :
    kvInt (3 / 2) z = Real.sqrt Real.pi / 2 * ((1 + z) * Real.exp (-z)) := by
  have hd : ∀ y : ℝ, 0 < y → HasDerivAt
      (fun y => kvInt (3 / 2) y - Real.sqrt Real.pi / 2 * ((1 + y) * Real.exp (-y))) 0 y := by
    intro y hy
    have h := kvInt_hasDerivAt (3 / 2) hy
    rw [show (3 / 2 - 1 : ℝ) = 1 / 2 by norm_num, kvInt_half hy.le] at h
    have h1 : HasDerivAt (fun y : ℝ => 1 + y) 1 y := (hasDerivAt_id y).const_add 1
    have h2 : HasDerivAt (fun y : ℝ => Real.exp (-y)) (Real.exp (-y) * -1) y := (hasDerivAt_id y).neg.exp
    refine (h.sub ((h1.mul h2).const_mul (Real.sqrt Real.pi / 2))).congr_deriv ?_
    ring
  have hcont : Continuous fun y => kvInt (3 / 2) y - Real.sqrt Real.pi / 2 * ((1 + y) * Real.exp (-y)) := by
    have := kvInt_continuous (mu := 3 / 2) (by norm_num)
    fun_prop
  have h0 : kvInt (3 / 2) 0 - Real.sqrt Real.pi / 2 * ((1 + 0) * Real.exp (-0)) = 0 := by
    rw [kvInt_zero (by norm_num), show (3 / 2 : ℝ) = 1 / 2 + 1 by norm_num, Real.Gamma_add_one (by norm_num),
      Real.Gamma_one_half_eq]
    simp
    ring
  rcases eq_or_lt_of_le hz with h | h
  · rw [← h]; linarith
  · obtain ⟨c, hc, hc2⟩ := exists_hasDerivAt_eq_slope
      (fun y => kvInt (3 / 2) y - Real.sqrt Real.pi / 2 * ((1 + y) * Real.exp (-y))) (fun _ => 0) h
      hcont.continuousOn (fun x hx => hd x hx.1)
    have h3 := hc2.symm
    rw [div_eq_zero_iff] at h3
    rcases h3 with h3 | h3 <;> linarith

end JG.Elt
