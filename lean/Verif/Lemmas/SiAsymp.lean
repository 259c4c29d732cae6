import Verif.Lemmas.LanczosFT
import Mathlib.Analysis.Calculus.ParametricIntegral
import Mathlib.Analysis.Calculus.MeanValue
import Mathlib.MeasureTheory.Integral.IntegralEqImproper
import Mathlib.MeasureTheory.Integral.Gamma
import Mathlib.Analysis.SpecialFunctions.Gaussian.GaussianIntegral

/-! The sine integral far from zero. -/

namespace JG.Lz
open Real MeasureTheory Set Filter Topology JG.Si

theorem exp_pow_integrable (k : ℕ) {y : ℝ} (hy : 0 < y) : IntegrableOn (fun t => t ^ k * exp (-(y * t))) (Ioi 0) := by
  have h := integrableOn_rpow_mul_exp_neg_mul_rpow (s := k) (p := 1) (b := y) (by have : (0 : ℝ) ≤ k := Nat.cast_nonneg k; linarith) one_pos hy
  refine h.congr_fun (fun t _ => ?_) measurableSet_Ioi
  simp only [rpow_one, rpow_natCast, neg_mul]

theorem exp_pow_integral (k : ℕ) {y : ℝ} (hy : 0 < y) :
    ∫ t in Ioi (0 : ℝ), t ^ k * exp (-(y * t)) = k.factorial / y ^ (k + 1) := by
  have h := Real.integral_rpow_mul_exp_neg_mul_Ioi (a := k + 1) (r := y) (by positivity) hy
  rw [Real.Gamma_nat_eq_factorial, show ((k : ℝ) + 1) = ((k + 1 : ℕ) : ℝ) by push_cast; ring, rpow_natCast] at h
  rw [show (k.factorial : ℝ) / y ^ (k + 1) = (1 / y) ^ (k + 1) * k.factorial by rw [div_pow, one_pow]; ring, ← h]
  refine setIntegral_congr_fun measurableSet_Ioi fun t _ => ?_
  rw [show ((k + 1 : ℕ) : ℝ) - 1 = k by push_cast; ring, rpow_natCast]

/-- The Laplace transform of `w`. -/
noncomputable def lap (w : ℝ → ℝ) (y : ℝ) : ℝ := ∫ t in Ioi (0 : ℝ), w t * exp (-(y * t))

theorem lap_integrable {w : ℝ → ℝ} (hw : Continuous w) {C : ℝ} {k : ℕ} (hb : ∀ t, 0 < t → |w t| ≤ C * t ^ k) {y : ℝ} (hy : 0 < y) :
    IntegrableOn (fun t => w t * exp (-(y * t))) (Ioi 0) := by
  refine ((exp_pow_integrable k hy).const_mul C).mono' ?_ ?_
  · exact (by fun_prop : Continuous fun t => w t * exp (-(y * t))).aestronglyMeasurable
  · refine (ae_restrict_iff' measurableSet_Ioi).mpr (ae_of_all _ fun t ht => ?_)
    rw [norm_mul, norm_eq_abs, norm_eq_abs, abs_of_pos (exp_pos _), ← mul_assoc]
    exact mul_le_mul_of_nonneg_right (hb t ht) (exp_pos _).le

theorem lap_deriv {w : ℝ → ℝ} (hw : Continuous w) (hb : ∀ t, 0 < t → |w t| ≤ 1) {y : ℝ} (hy : 0 < y) :
    HasDerivAt (lap w) (-lap (fun t => t * w t) y) y := by
  have hb' : ∀ t, 0 < t → |w t| ≤ 1 * t ^ 0 := by simpa using hb
  have h := hasDerivAt_integral_of_dominated_loc_of_deriv_le (𝕜 := ℝ) (μ := volume.restrict (Ioi (0 : ℝ)))
    (F := fun y t => w t * exp (-(y * t))) (F' := fun y t => w t * (exp (-(y * t)) * -t)) (x₀ := y)
    (bound := fun t => t ^ 1 * exp (-(y / 2 * t))) (s := Ioi (y / 2)) (Ioi_mem_nhds (by linarith))
    (Eventually.of_forall fun z => (by fun_prop : Continuous fun t => w t * exp (-(z * t))).aestronglyMeasurable)
    (lap_integrable hw hb' hy) (by fun_prop : Continuous fun t => w t * (exp (-(y * t)) * -t)).aestronglyMeasurable
    ((ae_restrict_iff' measurableSet_Ioi).mpr (ae_of_all _ fun t ht z hz => by
      have ht' : (0 : ℝ) < t := ht
      have hz' : y / 2 < z := hz
      rw [norm_mul, norm_mul, norm_neg, norm_eq_abs, norm_eq_abs, norm_eq_abs, abs_of_pos (exp_pos _), abs_of_pos ht', pow_one]
      have h1 : exp (-(z * t)) ≤ exp (-(y / 2 * t)) := exp_le_exp.mpr (by nlinarith)
      calc |w t| * (exp (-(z * t)) * t) ≤ 1 * (exp (-(y / 2 * t)) * t) := by
            gcongr
            exact hb t ht'
        _ = _ := by ring))
    (exp_pow_integrable 1 (by linarith))
    ((ae_of_all _ fun t z _ => by
      have := ((hasDerivAt_id z).mul_const t).neg.exp.const_mul (w t)
      simpa using this))
  refine h.2.congr_deriv ?_
  rw [lap, ← integral_neg]
  congr 1
  ext t
  ring

theorem lap_diff {w : ℝ → ℝ} (hw : Continuous w) {C : ℝ} {k : ℕ} (hb : ∀ t, 0 < t → |w t| ≤ C * t ^ k) {a b : ℝ} (ha : 0 < a)
    (hab : a ≤ b) : |lap w b - lap w a| ≤ (b - a) * (C * ((k + 1).factorial / a ^ (k + 2))) := by
  rw [lap, lap, ← integral_sub (lap_integrable hw hb (ha.trans_le hab)) (lap_integrable hw hb ha)]
  rw [← exp_pow_integral (k + 1) ha, ← mul_assoc, ← integral_const_mul, ← norm_eq_abs]
  apply norm_integral_le_of_norm_le ((exp_pow_integrable (k + 1) ha).const_mul _)
  refine (ae_restrict_iff' measurableSet_Ioi).mpr (ae_of_all _ fun t ht => ?_)
  have ht' : (0 : ℝ) < t := ht
  have h1 : exp (-(b * t)) = exp (-(a * t)) * exp (-((b - a) * t)) := by rw [← exp_add]; congr 1; ring
  have h2 := add_one_le_exp (-((b - a) * t))
  have h3 : exp (-((b - a) * t)) ≤ 1 := exp_le_one_iff.mpr (by nlinarith)
  rw [← mul_sub, norm_mul, norm_eq_abs, norm_eq_abs, h1, show exp (-(a * t)) * exp (-((b - a) * t)) - exp (-(a * t)) =
    -(exp (-(a * t)) * (1 - exp (-((b - a) * t)))) by ring, abs_neg, abs_of_nonneg (mul_nonneg (exp_pos _).le (by linarith))]
  have hC : 0 ≤ C * t ^ k := (abs_nonneg _).trans (hb t ht')
  calc |w t| * (exp (-(a * t)) * (1 - exp (-((b - a) * t)))) ≤ C * t ^ k * (exp (-(a * t)) * ((b - a) * t)) := by
        gcongr
        · exact hb t ht'
        · linarith
    _ = _ := by ring

/-- Laplace weights of the two auxiliary functions of the sine integral and of their products with the argument. -/
noncomputable def wF (t : ℝ) : ℝ := 1 / (1 + t ^ 2)
noncomputable def wG (t : ℝ) : ℝ := t / (1 + t ^ 2)
noncomputable def wR (t : ℝ) : ℝ := 2 * t / (1 + t ^ 2) ^ 2
noncomputable def wP (t : ℝ) : ℝ := (1 - t ^ 2) / (1 + t ^ 2) ^ 2

theorem one_add_sq (t : ℝ) : 1 + t ^ 2 ≠ 0 := by positivity

theorem wF_cont : Continuous wF := by
  unfold wF; exact continuous_const.div (by fun_prop) one_add_sq
theorem wG_cont : Continuous wG := by
  unfold wG; exact continuous_id.div (by fun_prop) one_add_sq
theorem wR_cont : Continuous wR := by
  unfold wR; exact (by fun_prop : Continuous fun t : ℝ => 2 * t).div (by fun_prop) fun t => pow_ne_zero 2 (one_add_sq t)
theorem wP_cont : Continuous wP := by
  unfold wP; exact (by fun_prop : Continuous fun t : ℝ => 1 - t ^ 2).div (by fun_prop) fun t => pow_ne_zero 2 (one_add_sq t)

theorem wF_le (t : ℝ) (_ : 0 < t) : |wF t| ≤ 1 := by
  rw [wF, abs_of_pos (by positivity), div_le_one (by positivity)]
  nlinarith [sq_nonneg t]
theorem wG_le (t : ℝ) (ht : 0 < t) : |wG t| ≤ 1 := by
  rw [wG, abs_of_pos (by positivity), div_le_one (by positivity)]
  nlinarith [sq_nonneg (t - 1)]
theorem wR_le (t : ℝ) (ht : 0 < t) : |wR t| ≤ 2 * t ^ 1 := by
  rw [wR, abs_of_pos (by positivity), div_le_iff₀ (by positivity), pow_one]
  nlinarith [sq_nonneg t, mul_pos ht ht, mul_nonneg ht.le (sq_nonneg t), mul_nonneg ht.le (sq_nonneg (t ^ 2))]
theorem wP_le (t : ℝ) (_ : 0 < t) : |wP t| ≤ 1 * t ^ 0 := by
  rw [wP, abs_div, abs_of_pos (show 0 < (1 + t ^ 2) ^ 2 by positivity), div_le_iff₀ (by positivity), abs_le]
  constructor <;> nlinarith [sq_nonneg t, sq_nonneg (t ^ 2)]

theorem lap_by_parts {w w' : ℝ → ℝ} (hw : Continuous w) (hw' : Continuous w') (hd : ∀ t, HasDerivAt w (w' t) t) {C C' : ℝ}
    {k k' : ℕ} (hb : ∀ t, 0 < t → |w t| ≤ C * t ^ k) (hb' : ∀ t, 0 < t → |w' t| ≤ C' * t ^ k') (h1 : ∀ t, 0 < t → |w t| ≤ 1)
    {y : ℝ} (hy : 0 < y) : y * lap w y = w 0 + lap w' y := by
  have hD : ∀ t ∈ Ici (0 : ℝ), HasDerivAt (fun t => w t * exp (-(y * t))) (w' t * exp (-(y * t)) - y * (w t * exp (-(y * t)))) t := by
    intro t _
    have := (hd t).fun_mul ((hasDerivAt_id t).const_mul y).neg.exp
    refine this.congr_deriv ?_
    simp
    ring
  have ht : Tendsto (fun t => w t * exp (-(y * t))) atTop (𝓝 0) := by
    have h0 : Tendsto (fun t => exp (-(y * t))) atTop (𝓝 0) :=
      tendsto_exp_atBot.comp (tendsto_neg_atTop_atBot.comp (tendsto_id.const_mul_atTop hy))
    rw [tendsto_zero_iff_abs_tendsto_zero]
    refine squeeze_zero' (Eventually.of_forall fun t => abs_nonneg _) ?_ h0
    filter_upwards [eventually_gt_atTop 0] with t ht
    simp only [Function.comp]
    rw [abs_mul, abs_of_pos (exp_pos _)]
    exact mul_le_of_le_one_left (exp_pos _).le (h1 t ht)
  have hi := lap_integrable hw hb hy
  have hi' := lap_integrable hw' hb' hy
  have h := integral_Ioi_of_hasDerivAt_of_tendsto' hD (hi'.sub (hi.const_mul y)) ht
  rw [integral_sub hi' (hi.const_mul y), integral_const_mul] at h
  rw [lap, lap]
  simp only [mul_zero, neg_zero, exp_zero, mul_one] at h
  linarith

theorem y_lapF {y : ℝ} (hy : 0 < y) : y * lap wF y = 1 - lap wR y := by
  have hd : ∀ t, HasDerivAt wF (-wR t) t := by
    intro t
    have := (((hasDerivAt_id t).fun_pow 2).const_add 1).fun_inv (one_add_sq t)
    refine (this.congr_deriv ?_).congr_of_eventuallyEq (Eventually.of_forall fun x => ?_)
    · simp only [wR, id]; push_cast; ring
    · simp only [wF, id, one_div]
  have h := lap_by_parts (w' := fun t => -wR t) wF_cont wR_cont.neg hd (C := 1) (k := 0) (fun t ht => by simpa using wF_le t ht)
    (fun t ht => by rw [abs_neg]; exact wR_le t ht) wF_le hy
  rw [h, wF, lap, lap]
  simp only [neg_mul, integral_neg]
  norm_num
  ring

theorem y_lapG {y : ℝ} (hy : 0 < y) : y * lap wG y = lap wP y := by
  have hd : ∀ t, HasDerivAt wG (wP t) t := by
    intro t
    have := (hasDerivAt_id t).fun_div (((hasDerivAt_id t).fun_pow 2).const_add 1) (one_add_sq t)
    refine this.congr_deriv ?_
    simp only [wP, id]; push_cast; ring
  have h := lap_by_parts wG_cont wP_cont hd (C := 1) (k := 0) (fun t ht => by simpa using wG_le t ht) wP_le wG_le hy
  rw [h, wG]
  norm_num

theorem lap_tG {y : ℝ} (hy : 0 < y) : lap (fun t => t * wG t) y = 1 / y - lap wF y := by
  have hF := lap_integrable wF_cont (C := 1) (k := 0) (fun t ht => by simpa using wF_le t ht) hy
  have h0 := exp_pow_integrable 0 hy
  have h1 := exp_pow_integral 0 hy
  rw [show (1 : ℝ) / y = ((0 : ℕ).factorial : ℝ) / y ^ (0 + 1) by simp, ← h1, lap, lap, ← integral_sub h0 hF]
  congr 1
  ext t
  simp only [wG, wF]
  have := one_add_sq t
  field_simp
  ring

/-- The constant that the sine integral tends to. -/
noncomputable def siC : ℝ := sinInt 1 + cos 1 * lap wF 1 + sin 1 * lap wG 1

theorem sinInt_aux {y : ℝ} (hy : 0 < y) : sinInt y = siC - cos y * lap wF y - sin y * lap wG y := by
  have hd : ∀ z ∈ Ioi (0 : ℝ), HasDerivWithinAt (fun z => sinInt z + cos z * lap wF z + sin z * lap wG z) 0 (Ioi 0) z := by
    intro z hz
    have hz' : (0 : ℝ) < z := hz
    have h1 := lap_deriv wF_cont wF_le hz'
    have h2 := lap_deriv wG_cont wG_le hz'
    have h := ((sinInt_deriv z).fun_add ((hasDerivAt_cos z).fun_mul h1)).fun_add ((hasDerivAt_sin z).fun_mul h2)
    refine (h.congr_deriv ?_).hasDerivWithinAt
    rw [lap_tG hz', sinc_of_ne_zero hz'.ne']
    rw [show lap (fun t => t * wF t) z = lap wG z by
      rw [lap, lap]; congr 1; ext t; simp only [wF, wG]; ring]
    field_simp
    ring
  have h := (convex_Ioi (0 : ℝ)).norm_image_sub_le_of_norm_hasDerivWithin_le (C := 0) hd (fun _ _ => by simp) (mem_Ioi.mpr one_pos) (mem_Ioi.mpr hy)
  rw [zero_mul] at h
  have h' := sub_eq_zero.mp (norm_le_zero_iff.mp h)
  rw [siC, ← h']
  ring

theorem ySi_aux {y : ℝ} (hy : 0 < y) : ySi y = siC * y - (1 - lap wR y) * cos y - lap wP y * sin y := by
  rw [ySi, sinInt_aux hy, ← y_lapF hy, ← y_lapG hy]
  ring

/-- Over one period `y Si(y)` grows by a constant, up to terms that fall off. -/
theorem ySi_step {a : ℝ} (ha : 0 < a) :
    |ySi (a + 2 * π) - ySi a - 2 * π * siC| ≤ |cos a| * (8 * π / a ^ 3) + |sin a| * (2 * π / a ^ 2) := by
  have hp := pi_pos
  have hb : 0 < a + 2 * π := by linarith
  have hR := lap_diff wR_cont wR_le ha (show a ≤ a + 2 * π by linarith)
  have hP := lap_diff wP_cont wP_le ha (show a ≤ a + 2 * π by linarith)
  rw [ySi_aux ha, ySi_aux hb, cos_add_two_pi, sin_add_two_pi]
  rw [show siC * (a + 2 * π) - (1 - lap wR (a + 2 * π)) * cos a - lap wP (a + 2 * π) * sin a -
      (siC * a - (1 - lap wR a) * cos a - lap wP a * sin a) - 2 * π * siC =
      cos a * (lap wR (a + 2 * π) - lap wR a) - sin a * (lap wP (a + 2 * π) - lap wP a) by ring]
  refine (abs_sub _ _).trans ?_
  rw [abs_mul, abs_mul]
  refine add_le_add (mul_le_mul_of_nonneg_left (hR.trans (le_of_eq ?_)) (abs_nonneg _))
    (mul_le_mul_of_nonneg_left (hP.trans (le_of_eq ?_)) (abs_nonneg _))
  · norm_num [Nat.factorial]; ring
  · norm_num [Nat.factorial]; ring

end JG.Lz
