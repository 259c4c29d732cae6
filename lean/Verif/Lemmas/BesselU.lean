import Verif.Lemmas.BesselTail
import Mathlib.Analysis.Analytic.Binomial
import Mathlib.Analysis.SpecialFunctions.Gaussian.GaussianIntegral
import Mathlib.MeasureTheory.Integral.IntegralEqImproper

/-! # The integrals behind Steed's continued fraction -/

namespace JG.BesK

open Real Set Filter Topology MeasureTheory JG.Elt

/-- The integrand. -/
noncomputable def gF (s b z t : ℝ) : ℝ := t ^ s * (1 + t) ^ b * exp (-2 * z * t)

/-- `∫₀^∞ t^s (1+t)^b exp(-2 z t) dt`. -/
noncomputable def gI (s b z : ℝ) : ℝ := ∫ t in Ioi (0 : ℝ), gF s b z t

theorem gF_pos (s b z : ℝ) {t : ℝ} (ht : 0 < t) : 0 < gF s b z t := by
  have h1 := rpow_pos_of_pos ht s
  have h2 := rpow_pos_of_pos (by linarith : 0 < 1 + t) b
  have h3 := exp_pos (-2 * z * t)
  exact mul_pos (mul_pos h1 h2) h3

theorem gF_meas (s b z : ℝ) : AEStronglyMeasurable (gF s b z) (volume.restrict (Ioi 0)) := by
  refine ContinuousOn.aestronglyMeasurable ?_ measurableSet_Ioi
  intro t ht
  have ht0 : (0 : ℝ) < t := ht
  refine ContinuousAt.continuousWithinAt ?_
  refine ContinuousAt.mul (ContinuousAt.mul ?_ ?_) ?_
  · exact continuousAt_id.rpow_const (Or.inl ht0.ne')
  · exact (continuousAt_const.add continuousAt_id).rpow_const (Or.inl (by show 1 + t ≠ 0; linarith))
  · fun_prop

theorem gF_le {s b z : ℝ} (hb : b ≤ 0) {t : ℝ} (ht : 0 < t) : gF s b z t ≤ t ^ s * exp (-(2 * z) * t) := by
  have h1 : (1 + t) ^ b ≤ 1 := rpow_le_one_of_one_le_of_nonpos (by linarith) hb
  have h2 := rpow_pos_of_pos ht s
  rw [gF, show -2 * z * t = -(2 * z) * t by ring]
  exact mul_le_mul_of_nonneg_right (mul_le_of_le_one_right h2.le h1) (exp_pos _).le

theorem base_integrable {s z : ℝ} (hs : -1 < s) (hz : 0 < z) :
    IntegrableOn (fun t : ℝ => t ^ s * exp (-(2 * z) * t)) (Ioi 0) := by
  have := integrableOn_rpow_mul_exp_neg_mul_rpow hs one_pos (by linarith : 0 < 2 * z)
  refine this.congr_fun (fun t _ => ?_) measurableSet_Ioi
  simp only [rpow_one]

theorem gF_integrable {s b z : ℝ} (hs : -1 < s) (hb : b ≤ 0) (hz : 0 < z) : IntegrableOn (gF s b z) (Ioi 0) := by
  refine Integrable.mono' (base_integrable hs hz) (gF_meas s b z) ?_
  filter_upwards [ae_restrict_mem measurableSet_Ioi] with t ht
  rw [Real.norm_of_nonneg (gF_pos s b z ht).le]
  exact gF_le hb ht

theorem gI_pos {s b z : ℝ} (hs : -1 < s) (hb : b ≤ 0) (hz : 0 < z) : 0 < gI s b z := by
  rw [gI, setIntegral_pos_iff_support_of_nonneg_ae _ (gF_integrable hs hb hz)]
  · have : Function.support (gF s b z) ∩ Ioi 0 = Ioi 0 := by
      ext t
      simp only [mem_inter_iff, Function.mem_support, mem_Ioi, and_iff_right_iff_imp]
      intro ht
      exact (gF_pos s b z ht).ne'
    rw [this]
    simp
  · filter_upwards [ae_restrict_mem measurableSet_Ioi] with t ht
    exact (gF_pos s b z ht).le

/-- Splitting off a factor `1 + t`. -/
theorem gI_split {s b z : ℝ} (hs : -1 < s) (hb : b + 1 ≤ 0) (hz : 0 < z) :
    gI s (b + 1) z = gI s b z + gI (s + 1) b z := by
  rw [gI, gI, gI, ← integral_add (gF_integrable hs (by linarith) hz) (gF_integrable (by linarith) (by linarith) hz)]
  refine setIntegral_congr_fun measurableSet_Ioi fun t ht => ?_
  have ht0 : (0 : ℝ) < t := ht
  simp only [gF]
  rw [rpow_add_one (by linarith : 1 + t ≠ 0), rpow_add_one ht0.ne']
  ring

/-- Integration by parts. -/
theorem gI_parts {s b z : ℝ} (hs : 0 < s) (hb : b ≤ 0) (hz : 0 < z) :
    2 * z * gI s b z = s * gI (s - 1) b z + b * gI s (b - 1) z := by
  have hd : ∀ t ∈ Ioi (0 : ℝ), HasDerivAt (gF s b z)
      (s * gF (s - 1) b z t + b * gF s (b - 1) z t - 2 * z * gF s b z t) t := by
    intro t ht
    have ht0 : (0 : ℝ) < t := ht
    have h1 := hasDerivAt_rpow_const (x := t) (p := s) (Or.inl ht0.ne')
    have h2 : HasDerivAt (fun y : ℝ => (1 + y) ^ b) (b * (1 + t) ^ (b - 1)) t := by
      have := ((hasDerivAt_id' t).const_add 1).rpow_const (p := b) (Or.inl (by linarith : 1 + t ≠ 0))
      exact this.congr_deriv (by ring)
    have h3 : HasDerivAt (fun y : ℝ => exp (-2 * z * y)) (exp (-2 * z * t) * (-2 * z)) t := by
      have := ((hasDerivAt_id' t).const_mul (-2 * z)).exp
      exact this.congr_deriv (by ring)
    refine ((h1.fun_mul h2).fun_mul h3).congr_deriv ?_
    simp only [gF]
    ring
  have hint : IntegrableOn (fun t => s * gF (s - 1) b z t + b * gF s (b - 1) z t - 2 * z * gF s b z t) (Ioi 0) :=
    (((gF_integrable (by linarith) hb hz).const_mul s).add
      ((gF_integrable (by linarith) (by linarith) hz).const_mul b)).sub
      ((gF_integrable (by linarith) hb hz).const_mul (2 * z))
  have h0 : gF s b z 0 = 0 := by
    simp [gF, zero_rpow hs.ne']
  have hcont : ContinuousWithinAt (gF s b z) (Ici 0) 0 := by
    refine ContinuousAt.continuousWithinAt ?_
    refine ContinuousAt.mul (ContinuousAt.mul ?_ ?_) ?_
    · exact continuousAt_id.rpow_const (Or.inr hs.le)
    · exact (continuousAt_const.add continuousAt_id).rpow_const (Or.inl (by simp))
    · fun_prop
  have hlim : Tendsto (gF s b z) atTop (𝓝 0) := by
    have hb0 : Tendsto (fun t : ℝ => t ^ s * exp (-(2 * z) * t)) atTop (𝓝 0) :=
      tendsto_rpow_mul_exp_neg_mul_atTop_nhds_zero s (2 * z) (by linarith)
    refine squeeze_zero' ?_ ?_ hb0
    · filter_upwards [eventually_gt_atTop 0] with t ht
      exact (gF_pos s b z ht).le
    · filter_upwards [eventually_gt_atTop 0] with t ht
      exact gF_le hb ht
  have key := integral_Ioi_of_hasDerivAt_of_tendsto hcont hd hint hlim
  rw [h0, sub_zero, integral_sub, integral_add, integral_const_mul, integral_const_mul, integral_const_mul] at key
  · change s * gI (s - 1) b z + b * gI s (b - 1) z - 2 * z * gI s b z = 0 at key
    linarith
  · exact (gF_integrable (by linarith) hb hz).const_mul s
  · exact (gF_integrable (by linarith) (by linarith) hz).const_mul b
  · exact ((gF_integrable (by linarith) hb hz).const_mul s).add
      ((gF_integrable (by linarith) (by linarith) hz).const_mul b)
  · exact (gF_integrable (by linarith) hb hz).const_mul (2 * z)

/-- Derivative. -/
theorem gI_hasDerivAt {s b z : ℝ} (hs : -1 < s) (hb : b ≤ 0) (hz : 0 < z) :
    HasDerivAt (fun y => gI s b y) (-2 * gI (s + 1) b z) z := by
  have hz2 : 0 < z / 2 := by positivity
  have key := hasDerivAt_integral_of_dominated_loc_of_deriv_le (μ := volume.restrict (Ioi (0 : ℝ)))
    (F := fun y t : ℝ => gF s b y t) (F' := fun y t : ℝ => -2 * gF (s + 1) b y t)
    (bound := fun t : ℝ => 2 * gF (s + 1) b (z / 2) t)
    (x₀ := z) (s := Metric.ball z (z / 2)) (Metric.ball_mem_nhds z hz2)
    (Filter.Eventually.of_forall fun y => gF_meas s b y) (gF_integrable hs hb hz)
    ((gF_meas (s + 1) b z).const_mul _) ?_ ((gF_integrable (by linarith) hb hz2).const_mul 2) ?_
  · have h := key.2
    rw [integral_const_mul] at h
    exact h
  · filter_upwards [ae_restrict_mem measurableSet_Ioi] with t ht y hy
    have ht0 : (0 : ℝ) < t := ht
    rw [Metric.mem_ball, Real.dist_eq, abs_lt] at hy
    have hy0 : z / 2 < y := by linarith [hy.1]
    rw [norm_mul, Real.norm_of_nonneg (gF_pos (s + 1) b y ht0).le, norm_neg, Real.norm_of_nonneg (by norm_num)]
    have h1 := rpow_pos_of_pos ht0 (s + 1)
    have h2 := rpow_pos_of_pos (by linarith : 0 < 1 + t) b
    simp only [gF]
    have hexp : exp (-2 * y * t) ≤ exp (-2 * (z / 2) * t) := by
      apply exp_le_exp.mpr
      nlinarith
    gcongr
  · filter_upwards [ae_restrict_mem measurableSet_Ioi] with t ht y _
    have ht0 : (0 : ℝ) < t := ht
    have hd : HasDerivAt (fun y : ℝ => exp (-2 * y * t)) (exp (-2 * y * t) * (-2 * t)) y := by
      have := (((hasDerivAt_id' y).const_mul (-2)).mul_const t).exp
      exact this.congr_deriv (by ring)
    refine (hd.const_mul (t ^ s * (1 + t) ^ b)).congr_deriv ?_
    rw [gF, rpow_add_one ht0.ne']
    ring

theorem gI_anti {s b z z' : ℝ} (hs : -1 < s) (hb : b ≤ 0) (hz : 0 < z) (h : z ≤ z') : gI s b z' ≤ gI s b z := by
  refine setIntegral_mono_on (gF_integrable hs hb (by linarith)) (gF_integrable hs hb hz) measurableSet_Ioi
    fun t ht => ?_
  have ht0 : (0 : ℝ) < t := ht
  have h1 := rpow_pos_of_pos ht0 s
  have h2 := rpow_pos_of_pos (by linarith : 0 < 1 + t) b
  have hexp : exp (-2 * z' * t) ≤ exp (-2 * z * t) := by
    apply exp_le_exp.mpr
    nlinarith
  simp only [gF]
  gcongr

/-- The numbers `w_n = ∫₀^∞ (t(1+t))^(ν-1/2) (t/(1+t))^n exp(-2zt) dt`. -/
noncomputable def wI (nu z : ℝ) (n : ℕ) : ℝ := gI (nu - 1 / 2 + n) (nu - 1 / 2 - n) z

section
variable {nu z : ℝ} (h1 : -(1 / 2) < nu) (h2 : nu < 1 / 2) (hz : 0 < z)
include h1 h2 hz

theorem wI_pos (n : ℕ) : 0 < wI nu z n := by
  have : (0 : ℝ) ≤ n := Nat.cast_nonneg n
  exact gI_pos (by linarith) (by linarith) hz

/-- Three-term recurrence. -/
theorem wI_rec (n : ℕ) : ((n : ℝ) + 1 - 1 / 2 + nu) * wI nu z n - 2 * ((n : ℝ) + 1 + z) * wI nu z (n + 1)
    + ((n : ℝ) + 1 + 1 / 2 - nu) * wI nu z (n + 2) = 0 := by
  have hn : (0 : ℝ) ≤ n := Nat.cast_nonneg n
  have p := gI_parts (s := nu - 1 / 2 + (n + 1)) (b := nu - 1 / 2 - (n + 1)) (by linarith) (by linarith) hz
  have e0 := gI_split (s := nu - 1 / 2 + n) (b := nu - 1 / 2 - (n + 1)) (by linarith) (by linarith) hz
  have e1 := gI_split (s := nu - 1 / 2 + (n + 1)) (b := nu - 1 / 2 - (n + 1) - 1) (by linarith) (by linarith) hz
  simp only [wI]
  push_cast
  rw [show nu - 1 / 2 - ((n : ℝ) + 1) + 1 = nu - 1 / 2 - n by ring,
    show nu - 1 / 2 + (n : ℝ) + 1 = nu - 1 / 2 + (n + 1) by ring] at e0
  rw [show nu - 1 / 2 - ((n : ℝ) + 1) - 1 + 1 = nu - 1 / 2 - (n + 1) by ring,
    show nu - 1 / 2 + ((n : ℝ) + 1) + 1 = nu - 1 / 2 + (n + 2) by ring,
    show nu - 1 / 2 - ((n : ℝ) + 1) - 1 = nu - 1 / 2 - (n + 2) by ring] at e1
  rw [show nu - 1 / 2 + ((n : ℝ) + 1) - 1 = nu - 1 / 2 + n by ring,
    show nu - 1 / 2 - ((n : ℝ) + 1) - 1 = nu - 1 / 2 - (n + 2) by ring] at p
  linear_combination ((n : ℝ) + 1 - 1 / 2 + nu) * e0 - ((n : ℝ) + 1 + 1 / 2 - nu) * e1 - p

theorem first_moment : 2 * z * gI (nu + 1 / 2) (nu - 1 / 2) z
    = (nu + 1 / 2) * wI nu z 0 + (nu - 1 / 2) * wI nu z 1 := by
  have p := gI_parts (s := nu + 1 / 2) (b := nu - 1 / 2) (by linarith) (by linarith) hz
  simp only [wI]
  push_cast
  rw [show nu - 1 / 2 + (0 : ℝ) = nu + 1 / 2 - 1 by ring, show nu - 1 / 2 - (0 : ℝ) = nu - 1 / 2 by ring,
    show nu - 1 / 2 + (1 : ℝ) = nu + 1 / 2 by ring]
  exact p

theorem second_moment : 2 * z * (gI (nu + 1 / 2) (nu - 1 / 2) z + gI (nu + 3 / 2) (nu - 1 / 2) z)
    = (nu + 1 / 2) * wI nu z 0 + (2 * nu + 1) * gI (nu + 1 / 2) (nu - 1 / 2) z := by
  have p := gI_parts (s := nu + 3 / 2) (b := nu - 1 / 2) (by linarith) (by linarith) hz
  have q := first_moment h1 h2 hz
  have e := gI_split (s := nu + 1 / 2) (b := nu - 3 / 2) (by linarith) (by linarith) hz
  have w1 : wI nu z 1 = gI (nu + 1 / 2) (nu - 3 / 2) z := by
    simp only [wI]
    push_cast
    rw [show nu - 1 / 2 + (1 : ℝ) = nu + 1 / 2 by ring, show nu - 1 / 2 - (1 : ℝ) = nu - 3 / 2 by ring]
  rw [w1] at q
  rw [show nu + 3 / 2 - 1 = nu + 1 / 2 by ring, show nu - 1 / 2 - 1 = nu - 3 / 2 by ring] at p
  rw [show nu - 3 / 2 + 1 = nu - 1 / 2 by ring, show nu + 1 / 2 + 1 = nu + 3 / 2 by ring] at e
  linear_combination q + p - (nu - 1 / 2) * e

/-- The numbers tend to zero at least like `1/n`. -/
theorem wI_le (n : ℕ) : wI nu z (n + 1) ≤ (wI nu z 0 + gI (nu + 1 / 2) (nu - 1 / 2) z) / (n + 1) := by
  have hn : (0 : ℝ) ≤ n := Nat.cast_nonneg n
  have hw : wI nu z 0 = gI (nu - 1 / 2) (nu - 1 / 2) z := by simp [wI]
  rw [le_div_iff₀ (by linarith), hw, wI, gI, gI, gI,
    ← integral_add (gF_integrable (by linarith) (by linarith) hz) (gF_integrable (by linarith) (by linarith) hz),
    ← integral_mul_const]
  push_cast
  refine setIntegral_mono_on ((gF_integrable (by linarith) (by linarith) hz).mul_const _)
    ((gF_integrable (by linarith) (by linarith) hz).add (gF_integrable (by linarith) (by linarith) hz))
    measurableSet_Ioi fun t ht => ?_
  have ht0 : (0 : ℝ) < t := ht
  have ht1 : (0 : ℝ) < 1 + t := by linarith
  have e1 : gF (nu - 1 / 2 + (n + 1)) (nu - 1 / 2 - (n + 1)) z t = gF (nu - 1 / 2) (nu - 1 / 2) z t * (t / (1 + t)) ^ (n + 1) := by
    simp only [gF]
    rw [rpow_add ht0, rpow_sub ht1, show ((n : ℝ) + 1) = ((n + 1 : ℕ) : ℝ) by push_cast; ring, rpow_natCast, rpow_natCast,
      div_pow]
    ring
  have e2 : gF (nu - 1 / 2) (nu - 1 / 2) z t + gF (nu + 1 / 2) (nu - 1 / 2) z t = gF (nu - 1 / 2) (nu - 1 / 2) z t * (1 + t) := by
    simp only [gF]
    rw [show nu + 1 / 2 = nu - 1 / 2 + 1 by ring, rpow_add_one ht0.ne']
    ring
  rw [e1, e2, mul_assoc]
  refine mul_le_mul_of_nonneg_left ?_ (gF_pos _ _ _ ht0).le
  -- Bernoulli: `(1 + 1/t)^(n+1) ≥ 1 + (n+1)/t`
  have hti : 0 < 1 / t := by positivity
  have hb := one_add_mul_le_pow (a := 1 / t) (by linarith) (n + 1)
  have e3 : (t / (1 + t)) ^ (n + 1) * (1 + 1 / t) ^ (n + 1) = 1 := by
    rw [← mul_pow, show t / (1 + t) * (1 + 1 / t) = 1 by field_simp; ring, one_pow]
  have hp : 0 < (t / (1 + t)) ^ (n + 1) := by positivity
  have : (t / (1 + t)) ^ (n + 1) * (1 + ((n + 1 : ℕ) : ℝ) * (1 / t)) ≤ 1 := by
    calc _ ≤ (t / (1 + t)) ^ (n + 1) * (1 + 1 / t) ^ (n + 1) := mul_le_mul_of_nonneg_left hb hp.le
      _ = 1 := e3
  push_cast at this
  have h4 : (t / (1 + t)) ^ (n + 1) * ((n : ℝ) + 1) / t ≤ 1 := by
    have : (t / (1 + t)) ^ (n + 1) * ((n : ℝ) + 1) / t
      = (t / (1 + t)) ^ (n + 1) * (1 + ((n : ℝ) + 1) * (1 / t)) - (t / (1 + t)) ^ (n + 1) := by field_simp; ring
    linarith
  rw [div_le_one ht0] at h4
  linarith

end

end JG.BesK
