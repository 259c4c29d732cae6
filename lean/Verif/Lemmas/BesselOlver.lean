import Verif.Lemmas.OlverPoly
import Verif.Lemmas.BesselSteed
import Mathlib.Analysis.Calculus.Deriv.Polynomial
import Mathlib.Analysis.Calculus.Deriv.MeanValue
import Mathlib.Topology.Algebra.Polynomial

/-! # Olver's expansion: comparison with the exact function -/

namespace JG.BesK

open Real Set Filter Topology JG.Elt Polynomial

/-! ### The exact function at infinity -/

theorem kv_nat_half_lim (n : ℕ) : Tendsto (fun z => kv (n + 1 / 2) z / kv (1 / 2) z) atTop (𝓝 1) ∧
    Tendsto (fun z => kv (n + 3 / 2) z / kv (1 / 2) z) atTop (𝓝 1) := by
  have hinv : Tendsto (fun z : ℝ => 1 / z) atTop (𝓝 0) := by simpa using tendsto_inv_atTop_zero (𝕜 := ℝ)
  have step : ∀ mu : ℝ, Tendsto (fun z => kv (mu - 1) z / kv (1 / 2) z) atTop (𝓝 1) →
      Tendsto (fun z => kv mu z / kv (1 / 2) z) atTop (𝓝 1) →
      Tendsto (fun z => kv (mu + 1) z / kv (1 / 2) z) atTop (𝓝 1) := by
    intro mu a b
    have := ((hinv.mul b).const_mul (2 * mu)).add a
    rw [zero_mul, mul_zero, zero_add] at this
    refine this.congr' ?_
    filter_upwards [eventually_gt_atTop 0] with z hz
    rw [kv_recurrence mu hz]
    have := (kv_pos (1 / 2) hz).ne'
    field_simp
  have h0 : Tendsto (fun z => kv (1 / 2) z / kv (1 / 2) z) atTop (𝓝 1) := by
    refine tendsto_const_nhds.congr' ?_
    filter_upwards [eventually_gt_atTop 0] with z hz
    rw [div_self (kv_pos (1 / 2) hz).ne']
  induction n with
  | zero =>
    have e : (((0 : ℕ) : ℝ) + 1 / 2) = 1 / 2 := by norm_num
    have e2 : (((0 : ℕ) : ℝ) + 3 / 2) = 1 / 2 + 1 := by norm_num
    rw [e, e2]
    refine ⟨h0, step (1 / 2) ?_ h0⟩
    refine h0.congr' ?_
    filter_upwards [eventually_gt_atTop 0] with z hz
    rw [show (1 / 2 : ℝ) - 1 = -(1 / 2) by norm_num, kv_neg _ hz]
  | succ n ih =>
    have e : (((n + 1 : ℕ) : ℝ) + 1 / 2) = n + 3 / 2 := by push_cast; ring
    have e2 : (((n + 1 : ℕ) : ℝ) + 3 / 2) = n + 3 / 2 + 1 := by push_cast; ring
    rw [e, e2]
    refine ⟨ih.2, step _ ?_ ih.2⟩
    rw [show (n : ℝ) + 3 / 2 - 1 = n + 1 / 2 by ring]
    exact ih.1

theorem kv_lim (mu : ℝ) : Tendsto (fun z => kv mu z / kv (1 / 2) z) atTop (𝓝 1) := by
  have hlo := kv_half_lim (nu := 0) (by norm_num) (by norm_num)
  obtain ⟨n, hn⟩ := exists_nat_ge |mu|
  have hhi := (kv_nat_half_lim n).1
  refine tendsto_of_tendsto_of_tendsto_of_le_of_le' hlo hhi ?_ ?_
  · filter_upwards [eventually_gt_atTop 0] with z hz
    exact div_le_div_of_nonneg_right (kv_mono (by simp) hz) (kv_pos _ hz).le
  · filter_upwards [eventually_gt_atTop 0] with z hz
    refine div_le_div_of_nonneg_right (kv_mono ?_ hz) (kv_pos _ hz).le
    rw [abs_of_nonneg (by positivity : (0 : ℝ) ≤ n + 1 / 2)]
    linarith

section
variable {nu : ℝ} (hnu : 0 < nu)
include hnu

theorem kv_scaled_lim (mu : ℝ) :
    Tendsto (fun w => kv mu (nu * w) * (sqrt w * exp (nu * w))) atTop (𝓝 (sqrt (π / (2 * nu)))) := by
  have h := (kv_lim mu).comp (tendsto_id.const_mul_atTop hnu)
  have h2 := h.mul_const (sqrt (π / (2 * nu)))
  rw [one_mul] at h2
  refine h2.congr' ?_
  filter_upwards [eventually_gt_atTop 0] with w hw
  have hz : 0 < nu * w := by positivity
  simp only [Function.comp, id]
  have e : kv (1 / 2) (nu * w) * (sqrt w * exp (nu * w)) = sqrt (π / (2 * nu)) := by
    rw [kv_half hz, rpow_neg (by positivity), ← sqrt_eq_rpow, sqrt_div pi_pos.le,
      show 2 * (nu * w) = (2 * nu) * w by ring, sqrt_mul (by positivity), exp_neg]
    have := (sqrt_pos.mpr hw).ne'
    have := (exp_pos (nu * w)).ne'
    field_simp
  rw [← e]
  have := (kv_pos (1 / 2) hz).ne'
  field_simp

theorem kv_mul_lim (mu : ℝ) : Tendsto (fun w => w * kv mu (nu * w)) atTop (𝓝 0) := by
  have h := (kv_scaled_lim hnu mu).mul (tendsto_rpow_mul_exp_neg_mul_atTop_nhds_zero (1 / 2) nu hnu)
  rw [mul_zero] at h
  refine h.congr' ?_
  filter_upwards [eventually_gt_atTop 0] with w hw
  rw [← sqrt_eq_rpow, neg_mul, exp_neg]
  have h1 := mul_self_sqrt hw.le
  have := (exp_pos (nu * w)).ne'
  field_simp
  linear_combination kv mu (nu * w) * h1

theorem kv_zero_lim (mu : ℝ) : Tendsto (fun w => kv mu (nu * w)) atTop (𝓝 0) := by
  have h := (kv_mul_lim hnu mu).mul (tendsto_inv_atTop_zero (𝕜 := ℝ))
  rw [mul_zero] at h
  refine h.congr' ?_
  filter_upwards [eventually_gt_atTop 0] with w hw
  field_simp

end

/-! ### The leading factor -/

/-- `√(1+w²)`. -/
noncomputable def sqw (w : ℝ) : ℝ := sqrt (1 + w ^ 2)

/-- `1/√(1+w²)`. -/
noncomputable def ppw (w : ℝ) : ℝ := 1 / sqw w

/-- The exponent of the expansion. -/
noncomputable def etaw (w : ℝ) : ℝ := sqw w + Real.log (w / (1 + sqw w))

/-- The leading factor of the expansion. -/
noncomputable def bigE (nu w : ℝ) : ℝ := sqrt (ppw w) * exp (-nu * etaw w)

theorem sqw_sq (w : ℝ) : sqw w ^ 2 = 1 + w ^ 2 := sq_sqrt (by positivity)

theorem sqw_pos (w : ℝ) : 0 < sqw w := sqrt_pos.mpr (by positivity)

theorem ppw_pos (w : ℝ) : 0 < ppw w := one_div_pos.mpr (sqw_pos w)

theorem ppw_sq (w : ℝ) : ppw w ^ 2 * (1 + w ^ 2) = 1 := by
  rw [ppw, ← sqw_sq]
  have := (sqw_pos w).ne'
  field_simp

theorem ppw_le_one (w : ℝ) : ppw w ≤ 1 := by
  have h := ppw_sq w
  have := ppw_pos w
  nlinarith [mul_nonneg (sq_nonneg (ppw w)) (sq_nonneg w)]

theorem bigE_pos (nu w : ℝ) : 0 < bigE nu w := mul_pos (sqrt_pos.mpr (ppw_pos w)) (exp_pos _)

theorem sqw_hasDerivAt (w : ℝ) : HasDerivAt sqw (w / sqw w) w := by
  have h : HasDerivAt (fun w : ℝ => 1 + w ^ 2) (2 * w) w := by
    have := ((hasDerivAt_id' w).fun_pow 2).const_add 1
    simpa using this
  have := h.sqrt (by positivity)
  refine this.congr_deriv ?_
  have hs : sqrt (1 + w ^ 2) = sqw w := rfl
  have := (sqw_pos w).ne'
  rw [hs]
  field_simp

theorem ppw_hasDerivAt (w : ℝ) : HasDerivAt ppw (-w * ppw w ^ 3) w := by
  have h := ((hasDerivAt_const w (1 : ℝ)).fun_div (sqw_hasDerivAt w) (sqw_pos w).ne')
  refine h.congr_deriv ?_
  rw [ppw]
  have := (sqw_pos w).ne'
  field_simp
  ring

theorem etaw_hasDerivAt {w : ℝ} (hw : 0 < w) : HasDerivAt etaw (1 / (w * ppw w)) w := by
  have hs := sqw_pos w
  have h1 : HasDerivAt (fun w => w / (1 + sqw w)) ((1 * (1 + sqw w) - w * (w / sqw w)) / (1 + sqw w) ^ 2) w :=
    (hasDerivAt_id' w).fun_div ((sqw_hasDerivAt w).const_add 1) (by linarith)
  have h2 := (sqw_hasDerivAt w).fun_add (h1.log (div_pos hw (by linarith)).ne')
  refine h2.congr_deriv ?_
  have e := sqw_sq w
  rw [ppw]
  obtain ⟨s, hsd⟩ : ∃ s, s = sqw w := ⟨_, rfl⟩
  rw [← hsd] at hs e ⊢
  have h3 : 1 + s ≠ 0 := by linarith
  have e2 : w ^ 2 = (s - 1) * (1 + s) := by linear_combination -e
  field_simp
  linear_combination s * e2

theorem bigE_hasDerivAt (nu : ℝ) {w : ℝ} (hw : 0 < w) :
    HasDerivAt (bigE nu) (bigE nu w * (-(1 / 2) * w * ppw w ^ 2 - nu / (w * ppw w))) w := by
  have hp := ppw_pos w
  have h1 := (ppw_hasDerivAt w).sqrt hp.ne'
  have h2 := ((etaw_hasDerivAt hw).const_mul (-nu)).exp
  refine (h1.fun_mul h2).congr_deriv ?_
  rw [bigE]
  have hs := (sqrt_pos.mpr hp).ne'
  have e := mul_self_sqrt hp.le
  obtain ⟨r, hr⟩ : ∃ r, r = sqrt (ppw w) := ⟨_, rfl⟩
  rw [← hr] at hs e ⊢
  rw [← e]
  field_simp
  ring

theorem bigE_scaled_lim (nu : ℝ) : Tendsto (fun w => bigE nu w * (sqrt w * exp (nu * w))) atTop (𝓝 1) := by
  have hinv : Tendsto (fun z : ℝ => 1 / z) atTop (𝓝 0) := by simpa using tendsto_inv_atTop_zero (𝕜 := ℝ)
  -- `√(1+w²) - w → 0`
  have a1 : Tendsto (fun w => sqw w - w) atTop (𝓝 0) := by
    refine tendsto_of_tendsto_of_tendsto_of_le_of_le' tendsto_const_nhds hinv ?_ ?_
    · filter_upwards [eventually_gt_atTop 0] with w hw
      have := sqw_sq w
      have := sqw_pos w
      nlinarith
    · filter_upwards [eventually_gt_atTop 0] with w hw
      have h1 := sqw_sq w
      have h2 := sqw_pos w
      rw [le_div_iff₀ hw]
      nlinarith
  have a2 : Tendsto (fun w => w / (1 + sqw w)) atTop (𝓝 1) := by
    have : Tendsto (fun w : ℝ => (1 : ℝ) / (1 / w + (1 + 1 / w * (sqw w - w)))) atTop (𝓝 (1 / (0 + (1 + 0 * 0)))) := by
      refine tendsto_const_nhds.div (hinv.add ((hinv.mul a1).const_add 1)) (by norm_num)
    norm_num at this
    refine this.congr' ?_
    filter_upwards [eventually_gt_atTop 0] with w hw
    have e : w⁻¹ + (1 + w⁻¹ * (sqw w - w)) = (1 + sqw w) / w := by field_simp; ring
    rw [e, inv_div]
  have a3 : Tendsto (fun w => etaw w - w) atTop (𝓝 0) := by
    have h := a1.add ((continuousAt_log one_ne_zero).tendsto.comp a2)
    rw [log_one, add_zero] at h
    refine h.congr fun w => ?_
    simp only [etaw, Function.comp]
    ring
  have a4 : Tendsto (fun w => ppw w * w) atTop (𝓝 1) := by
    have : Tendsto (fun w : ℝ => (1 : ℝ) / (1 + 1 / w * (sqw w - w))) atTop (𝓝 (1 / (1 + 0 * 0))) := by
      refine tendsto_const_nhds.div ((hinv.mul a1).const_add 1) (by norm_num)
    norm_num at this
    refine this.congr' ?_
    filter_upwards [eventually_gt_atTop 0] with w hw
    have e : 1 + w⁻¹ * (sqw w - w) = sqw w / w := by field_simp; ring
    rw [e, inv_div, ppw]
    ring
  have a5 : Tendsto (fun w => sqrt (ppw w * w)) atTop (𝓝 1) := by
    have := (continuous_sqrt.tendsto 1).comp a4
    rwa [sqrt_one] at this
  have a6 : Tendsto (fun w => exp (-nu * (etaw w - w))) atTop (𝓝 1) := by
    have := (continuous_exp.tendsto (-nu * 0)).comp (a3.const_mul (-nu))
    rwa [mul_zero, exp_zero] at this
  have := a5.mul a6
  rw [one_mul] at this
  refine this.congr' ?_
  filter_upwards [eventually_gt_atTop 0] with w hw
  rw [bigE, sqrt_mul (ppw_pos w).le, mul_sub, exp_sub, show -nu * w = -(nu * w) by ring, exp_neg]
  have := (exp_pos (nu * w)).ne'
  field_simp

theorem ppw_lim : Tendsto ppw atTop (𝓝 0) := by
  have hinv : Tendsto (fun z : ℝ => 1 / z) atTop (𝓝 0) := by simpa using tendsto_inv_atTop_zero (𝕜 := ℝ)
  refine tendsto_of_tendsto_of_tendsto_of_le_of_le' tendsto_const_nhds hinv (Eventually.of_forall fun w => (ppw_pos w).le) ?_
  filter_upwards [eventually_gt_atTop 0] with w hw
  rw [ppw]
  refine one_div_le_one_div_of_le hw ?_
  have := sqw_sq w
  have := sqw_pos w
  nlinarith

theorem bigE_lim {nu : ℝ} (hnu : 0 < nu) : Tendsto (bigE nu) atTop (𝓝 0) := by
  have h := (bigE_scaled_lim nu).mul (tendsto_rpow_mul_exp_neg_mul_atTop_nhds_zero (-(1 / 2)) nu hnu)
  rw [mul_zero] at h
  refine h.congr' ?_
  filter_upwards [eventually_gt_atTop 0] with w hw
  rw [rpow_neg hw.le, ← sqrt_eq_rpow, neg_mul, exp_neg]
  have := (sqrt_pos.mpr hw).ne'
  have := (exp_pos (nu * w)).ne'
  field_simp

/-! ### The comparison -/

/-- The factor of `w d/dw` of an approximant `E·Φ(p)`. -/
noncomputable def psi (nu : ℝ) (F : ℝ[X]) (p : ℝ) : ℝ :=
  (-(1 / 2) * (1 - p ^ 2) - nu / p) * F.eval p - p * (1 - p ^ 2) * (derivative F).eval p

/-- What an approximant leaves in Bessel's equation. -/
noncomputable def resid (nu : ℝ) (F : ℝ[X]) (p : ℝ) : ℝ :=
  (olT F).eval p + nu * (derivative F).eval p

theorem psi_hasDerivAt (nu : ℝ) (F : ℝ[X]) {p : ℝ} (hp : 0 < p) :
    HasDerivAt (psi nu F) ((p + nu / p ^ 2) * F.eval p
      + (-(1 / 2) * (1 - p ^ 2) - nu / p) * (derivative F).eval p
      - ((1 - 3 * p ^ 2) * (derivative F).eval p
        + p * (1 - p ^ 2) * (derivative (derivative F)).eval p)) p := by
  have a : HasDerivAt (fun p : ℝ => -(1 / 2) * (1 - p ^ 2) - nu / p) (p + nu / p ^ 2) p := by
    have h1 := (((hasDerivAt_id' p).fun_pow 2).const_sub 1).const_mul (-(1 / 2))
    have h2 := (hasDerivAt_const p nu).fun_div (hasDerivAt_id' p) hp.ne'
    refine (h1.fun_sub h2).congr_deriv ?_
    simp
    ring
  have b : HasDerivAt (fun p : ℝ => p * (1 - p ^ 2)) (1 - 3 * p ^ 2) p := by
    refine ((hasDerivAt_id' p).fun_mul (((hasDerivAt_id' p).fun_pow 2).const_sub 1)).congr_deriv ?_
    simp
    ring
  exact (a.fun_mul (F.hasDerivAt p)).fun_sub (b.fun_mul ((derivative F).hasDerivAt p))

/-- The Wronskian of the exact function and the approximant. -/
noncomputable def wron (nu : ℝ) (F : ℝ[X]) (w : ℝ) : ℝ :=
  -(1 / 2) * nu * (w * kv (nu - 1) (nu * w) + w * kv (nu + 1) (nu * w)) * (bigE nu w * F.eval (ppw w))
    - kv nu (nu * w) * (bigE nu w * psi nu F (ppw w))

theorem kv_flux_hasDerivAt (nu : ℝ) {z : ℝ} (hz : 0 < z) :
    HasDerivAt (fun z => z * kv (nu - 1) z + z * kv (nu + 1) z)
      (-2 * (z + nu ^ 2 / z) * kv nu z) z := by
  have h1 := kv_hasDerivAt_up (nu - 1) hz
  have h2 := kv_hasDerivAt_down (nu + 1) hz
  rw [sub_add_cancel] at h1
  rw [add_sub_cancel_right] at h2
  refine (((hasDerivAt_id' z).fun_mul h1).fun_add ((hasDerivAt_id' z).fun_mul h2)).congr_deriv ?_
  rw [kv_recurrence nu hz]
  field_simp
  ring

theorem resid_eq (nu : ℝ) (F : ℝ[X]) (p : ℝ) : resid nu F p
    = 1 / 2 * ((2 * p - 4 * p ^ 3) * (derivative F).eval p + p ^ 2 * (1 - p ^ 2) * (derivative (derivative F)).eval p)
      + 1 / 8 * (1 - 5 * p ^ 2) * F.eval p + nu * (derivative F).eval p := by
  rw [resid, olT]
  simp only [derivative_mul, derivative_sub, derivative_X_pow, derivative_one, eval_add, eval_mul, eval_C, eval_sub,
    eval_pow, eval_X, eval_one, eval_ofNat, eval_zero]
  norm_num
  ring

theorem resid_identity (nu p f f1 f2 : ℝ) (hp : p ≠ 0) :
    nu ^ 2 / p ^ 2 * f - (-(1 / 2) * (1 - p ^ 2) - nu / p)
        * ((-(1 / 2) * (1 - p ^ 2) - nu / p) * f - p * (1 - p ^ 2) * f1)
      + ((p + nu / p ^ 2) * f + (-(1 / 2) * (1 - p ^ 2) - nu / p) * f1
        - ((1 - 3 * p ^ 2) * f1 + p * (1 - p ^ 2) * f2)) * (p * (1 - p ^ 2))
      = -2 * (1 - p ^ 2) * (1 / 2 * ((2 * p - 4 * p ^ 3) * f1 + p ^ 2 * (1 - p ^ 2) * f2)
      + 1 / 8 * (1 - 5 * p ^ 2) * f + nu * f1) := by
  field_simp
  ring

section
variable {nu : ℝ} (hnu : 0 < nu)
include hnu

theorem y_hasDerivAt {w : ℝ} (hw : 0 < w) : HasDerivAt (fun w => kv nu (nu * w))
    (-(1 / 2) * nu * (kv (nu - 1) (nu * w) + kv (nu + 1) (nu * w))) w := by
  have h := (kv_hasDerivAt nu (mul_pos hnu hw)).comp w ((hasDerivAt_id' w).const_mul nu)
  refine h.congr_deriv ?_
  ring

theorem y1_hasDerivAt {w : ℝ} (hw : 0 < w) :
    HasDerivAt (fun w => -(1 / 2) * nu * (w * kv (nu - 1) (nu * w) + w * kv (nu + 1) (nu * w)))
      (nu ^ 2 * (1 + w ^ 2) / w * kv nu (nu * w)) w := by
  have h := ((kv_flux_hasDerivAt nu (mul_pos hnu hw)).comp w ((hasDerivAt_id' w).const_mul nu)).const_mul (-(1 / 2))
  refine (h.congr_deriv ?_).congr_of_eventuallyEq (Eventually.of_forall fun w => ?_)
  · field_simp
    ring
  · simp only [Function.comp]
    ring

omit hnu in
theorem g_hasDerivAt (F : ℝ[X]) {w : ℝ} (hw : 0 < w) : HasDerivAt (fun w => bigE nu w * F.eval (ppw w))
    (bigE nu w * psi nu F (ppw w) / w) w := by
  have h1 := (F.hasDerivAt (ppw w)).comp w (ppw_hasDerivAt w)
  refine ((bigE_hasDerivAt nu hw).fun_mul h1).congr_deriv ?_
  have hp := ppw_sq w
  have hp0 := ppw_pos w
  rw [psi]
  obtain ⟨p, hpd⟩ : ∃ p, p = ppw w := ⟨_, rfl⟩
  simp only [Function.comp]
  rw [← hpd] at hp hp0 ⊢
  have e : p ^ 2 * w ^ 2 = 1 - p ^ 2 := by linear_combination hp
  rw [← e]
  field_simp
  ring

theorem wron_hasDerivAt (F : ℝ[X]) {w : ℝ} (hw : 0 < w) : HasDerivAt (wron nu F)
    (-(2 * kv nu (nu * w) * bigE nu w * (1 - ppw w ^ 2) / w) * resid nu F (ppw w)) w := by
  have hE := bigE_hasDerivAt nu hw
  have hp := ppw_sq w
  have hp0 := ppw_pos w
  have hpsi := (psi_hasDerivAt nu F hp0).comp w (ppw_hasDerivAt w)
  have h := ((y1_hasDerivAt hnu hw).fun_mul (g_hasDerivAt (nu := nu) F hw)).fun_sub
    ((y_hasDerivAt hnu hw).fun_mul (hE.fun_mul hpsi))
  refine h.congr_deriv ?_
  rw [resid_eq]
  simp only [Function.comp]
  have id := resid_identity nu (ppw w) (F.eval (ppw w)) ((derivative F).eval (ppw w))
    ((derivative (derivative F)).eval (ppw w)) hp0.ne'
  obtain ⟨R, hR⟩ : ∃ R, R = 1 / 2 * ((2 * ppw w - 4 * ppw w ^ 3) * (derivative F).eval (ppw w)
      + ppw w ^ 2 * (1 - ppw w ^ 2) * (derivative (derivative F)).eval (ppw w))
      + 1 / 8 * (1 - 5 * ppw w ^ 2) * F.eval (ppw w) + nu * (derivative F).eval (ppw w) := ⟨_, rfl⟩
  obtain ⟨P, hP⟩ : ∃ P, P = psi nu F (ppw w) := ⟨_, rfl⟩
  have hP' := hP
  rw [psi] at hP'
  rw [← hR] at id ⊢
  rw [← hP'] at id
  rw [← hP]
  obtain ⟨D, hD⟩ : ∃ D, D = (ppw w + nu / ppw w ^ 2) * F.eval (ppw w)
      + (-(1 / 2) * (1 - ppw w ^ 2) - nu / ppw w) * (derivative F).eval (ppw w)
      - ((1 - 3 * ppw w ^ 2) * (derivative F).eval (ppw w)
        + ppw w * (1 - ppw w ^ 2) * (derivative (derivative F)).eval (ppw w)) := ⟨_, rfl⟩
  rw [← hD] at id ⊢
  obtain ⟨f, hf⟩ : ∃ f, f = F.eval (ppw w) := ⟨_, rfl⟩
  rw [← hf] at id ⊢
  clear hf hD hP hP' hR h hpsi hE
  obtain ⟨E, hE⟩ : ∃ f, f = bigE nu w := ⟨_, rfl⟩
  obtain ⟨Y, hY⟩ : ∃ f, f = kv nu (nu * w) := ⟨_, rfl⟩
  obtain ⟨Y1, hY1⟩ : ∃ f, f = kv (nu - 1) (nu * w) := ⟨_, rfl⟩
  obtain ⟨Y2, hY2⟩ : ∃ f, f = kv (nu + 1) (nu * w) := ⟨_, rfl⟩
  rw [← hE, ← hY, ← hY1, ← hY2]
  obtain ⟨p, hpd⟩ : ∃ p, p = ppw w := ⟨_, rfl⟩
  rw [← hpd] at id hp hp0 ⊢
  have e1 : 1 - p ^ 2 = p ^ 2 * w ^ 2 := by linear_combination -hp
  have e2 : nu ^ 2 / p ^ 2 = nu ^ 2 * (1 + w ^ 2) := by
    rw [div_eq_iff (by positivity)]; linear_combination -nu ^ 2 * hp
  rw [e1, e2] at id
  rw [e1]
  have id2 : nu ^ 2 * (1 + w ^ 2) / w * f - (-(1 / 2) * w * p ^ 2 - nu / (w * p)) * P + D * (w * p ^ 3)
      = -2 * p ^ 2 * w * R := by
    have : nu ^ 2 * (1 + w ^ 2) / w * f - (-(1 / 2) * w * p ^ 2 - nu / (w * p)) * P + D * (w * p ^ 3)
      = (nu ^ 2 * (1 + w ^ 2) * f - (-(1 / 2) * (p ^ 2 * w ^ 2) - nu / p) * P + D * (p * (p ^ 2 * w ^ 2))) / w := by
      field_simp
    rw [this, id]
    field_simp
  have e3 : -(2 * Y * E * (p ^ 2 * w ^ 2) / w) * R = Y * E * (-2 * p ^ 2 * w * R) := by
    field_simp
  rw [e3, ← id2]
  field_simp
  ring

theorem wron_lim (F : ℝ[X]) : Tendsto (wron nu F) atTop (𝓝 0) := by
  have hE := bigE_lim hnu
  have hF : ∀ G : ℝ[X], Tendsto (fun w => G.eval (ppw w)) atTop (𝓝 (G.eval 0)) := fun G =>
    (G.continuous.tendsto 0).comp ppw_lim
  have hy1 := ((kv_mul_lim hnu (nu - 1)).add (kv_mul_lim hnu (nu + 1))).const_mul (-(1 / 2) * nu)
  have hy := kv_zero_lim hnu nu
  have hyw := kv_mul_lim hnu nu
  have hys : Tendsto (fun w => kv nu (nu * w) * (1 / ppw w)) atTop (𝓝 0) := by
    have hup := hy.add hyw
    rw [add_zero] at hup
    refine tendsto_of_tendsto_of_tendsto_of_le_of_le' tendsto_const_nhds hup ?_ ?_
    · filter_upwards [eventually_gt_atTop 0] with w hw
      have := kv_pos nu (mul_pos hnu hw)
      have := ppw_pos w
      positivity
    · filter_upwards [eventually_gt_atTop 0] with w hw
      have h1 := kv_pos nu (mul_pos hnu hw)
      have h2 := sqw_sq w
      have h3 := sqw_pos w
      rw [ppw, one_div_one_div]
      have : sqw w ≤ 1 + w := by nlinarith
      nlinarith
  have hp2 : Tendsto (fun w => 1 - ppw w ^ 2) atTop (𝓝 (1 - 0 ^ 2)) := (ppw_lim.pow 2).const_sub 1
  have hpsi : Tendsto (fun w => kv nu (nu * w) * psi nu F (ppw w)) atTop (𝓝 0) := by
    have a := ((hy.mul hp2).mul (hF F)).const_mul (-(1 / 2))
    have b := (hys.mul (hF F)).const_mul nu
    have c := ((hy.mul ppw_lim).mul hp2).mul (hF (derivative F))
    have := (a.sub b).sub c
    simp only [zero_mul, mul_zero, sub_zero] at this
    refine this.congr fun w => ?_
    rw [psi]
    ring
  have := (hE.mul (hy1.mul (hF F))).sub (hE.mul hpsi)
  simp only [zero_mul, mul_zero, sub_zero] at this
  refine this.congr fun w => ?_
  rw [wron]
  ring

/-- The comparison: an approximant whose residual has one sign stays on one side of the exact function. -/
theorem kv_compare (F : ℝ[X]) (e : ℝ) (h0 : F.eval 0 = 1) (hpos : ∀ p, 0 < p → p ≤ 1 → 0 < F.eval p)
    (hsgn : ∀ p, 0 < p → p ≤ 1 → e * resid nu F p ≤ 0) {w : ℝ} (hw : 0 < w) :
    0 ≤ e * (kv nu (nu * w) - sqrt (π / (2 * nu)) * (bigE nu w * F.eval (ppw w))) := by
  have hW : MonotoneOn (fun w => e * wron nu F w) (Ioi 0) := by
    refine monotoneOn_of_deriv_nonneg (convex_Ioi 0) (fun x hx =>
      ((wron_hasDerivAt hnu F hx).const_mul e).continuousAt.continuousWithinAt) ?_ ?_
    · rw [interior_Ioi]
      exact fun x hx => ((wron_hasDerivAt hnu F hx).const_mul e).differentiableAt.differentiableWithinAt
    · rw [interior_Ioi]
      intro x hx
      have hx : 0 < x := hx
      rw [((wron_hasDerivAt hnu F hx).const_mul e).deriv]
      have h1 := hsgn _ (ppw_pos x) (ppw_le_one x)
      have h2 := kv_pos nu (mul_pos hnu hx)
      have h3 := bigE_pos nu x
      have h4 : 0 ≤ 1 - ppw x ^ 2 := by
        have := ppw_pos x
        have := ppw_le_one x
        nlinarith
      have h5 : 0 ≤ 2 * kv nu (nu * x) * bigE nu x * (1 - ppw x ^ 2) / x := by positivity
      nlinarith
  have hW0 : ∀ x, 0 < x → e * wron nu F x ≤ 0 := by
    intro x hx
    have := (wron_lim hnu F).const_mul e
    rw [mul_zero] at this
    refine ge_of_tendsto this ?_
    filter_upwards [eventually_ge_atTop x] with y hy
    exact hW hx (lt_of_lt_of_le hx hy) hy
  have hg : ∀ x, 0 < bigE nu x * F.eval (ppw x) := fun x =>
    mul_pos (bigE_pos nu x) (hpos _ (ppw_pos x) (ppw_le_one x))
  have hd : ∀ x, 0 < x → HasDerivAt (fun x => e * (kv nu (nu * x) / (bigE nu x * F.eval (ppw x))))
      (e * wron nu F x / (x * (bigE nu x * F.eval (ppw x)) ^ 2)) x := by
    intro x hx
    have h := ((y_hasDerivAt hnu hx).fun_div (g_hasDerivAt (nu := nu) F hx) (hg x).ne').const_mul e
    refine h.congr_deriv ?_
    have := (hg x).ne'
    rw [wron]
    field_simp
  have hR : AntitoneOn (fun x => e * (kv nu (nu * x) / (bigE nu x * F.eval (ppw x)))) (Ioi 0) := by
    refine antitoneOn_of_deriv_nonpos (convex_Ioi 0) (fun x hx => (hd x hx).continuousAt.continuousWithinAt) ?_ ?_
    · rw [interior_Ioi]
      exact fun x hx => (hd x hx).differentiableAt.differentiableWithinAt
    · rw [interior_Ioi]
      intro x hx
      have hx : 0 < x := hx
      rw [(hd x hx).deriv]
      exact div_nonpos_of_nonpos_of_nonneg (hW0 x hx) (by positivity)
  have hlim : Tendsto (fun x => e * (kv nu (nu * x) / (bigE nu x * F.eval (ppw x)))) atTop
      (𝓝 (e * (sqrt (π / (2 * nu)) / (1 * F.eval 0)))) := by
    have hF : Tendsto (fun w => F.eval (ppw w)) atTop (𝓝 (F.eval 0)) := (F.continuous.tendsto 0).comp ppw_lim
    have := ((kv_scaled_lim hnu nu).div ((bigE_scaled_lim nu).mul hF) (by rw [h0]; norm_num)).const_mul e
    refine this.congr' ?_
    filter_upwards [eventually_gt_atTop 0] with x hx
    have h1 := (sqrt_pos.mpr hx).ne'
    have h2 := (exp_pos (nu * x)).ne'
    have h3 := (bigE_pos nu x).ne'
    have h4 := (hpos _ (ppw_pos x) (ppw_le_one x)).ne'
    simp only [Pi.div_apply]
    field_simp
  rw [h0] at hlim
  have key : e * (sqrt (π / (2 * nu)) / (1 * 1)) ≤ e * (kv nu (nu * w) / (bigE nu w * F.eval (ppw w))) := by
    refine le_of_tendsto hlim ?_
    filter_upwards [eventually_ge_atTop w] with x hx
    exact hR hw (lt_of_lt_of_le hw hx) hx
  have h5 := mul_le_mul_of_nonneg_right key (hg w).le
  have h6 : e * (kv nu (nu * w) / (bigE nu w * F.eval (ppw w))) * (bigE nu w * F.eval (ppw w)) = e * kv nu (nu * w) := by
    rw [mul_assoc, div_mul_cancel₀ _ (hg w).ne']
  rw [h6] at h5
  linarith

end

end JG.BesK
