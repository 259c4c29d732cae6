import Verif.Lemmas.BesselU

/-! # `K_ν` as an integral of Laplace type, and its sum rule -/

namespace JG.BesK

open Real Set Filter Topology MeasureTheory JG.Elt

/-- A function that is constant for positive arguments and has a limit at infinity equals the limit. -/
theorem const_of_deriv_top {F : ℝ → ℝ} {l : ℝ} (hd : ∀ z : ℝ, 0 < z → HasDerivAt F 0 z)
    (hl : Tendsto F atTop (𝓝 l)) {z : ℝ} (hz : 0 < z) : F z = l := by
  have hc : ∀ y : ℝ, 0 < y → F y = F z := by
    intro y hy
    refine (convex_Ioi (0 : ℝ)).is_const_of_fderivWithin_eq_zero (𝕜 := ℝ) (f := F) ?_ ?_ hy hz
    · exact fun x hx => (hd x hx).differentiableAt.differentiableWithinAt
    · intro x hx
      have := (hd x hx).hasDerivWithinAt (s := Ioi 0)
      rw [hasDerivWithinAt_iff_hasFDerivWithinAt] at this
      rw [this.fderivWithin (isOpen_Ioi.uniqueDiffWithinAt hx)]
      ext
      simp
  refine tendsto_nhds_unique (Tendsto.congr' ?_ tendsto_const_nhds) hl
  filter_upwards [eventually_gt_atTop 0] with y hy
  exact (hc y hy).symm

/-- `(2z)^ν e^{-z} w₀` and the function that goes with `K_{ν+1}`. -/
noncomputable def bX (nu z : ℝ) : ℝ := (2 * z) ^ nu * exp (-z) * gI (nu - 1 / 2) (nu - 1 / 2) z
noncomputable def bY (nu z : ℝ) : ℝ :=
  (2 * z) ^ nu * exp (-z) * (gI (nu - 1 / 2) (nu - 1 / 2) z + 2 * gI (nu + 1 / 2) (nu - 1 / 2) z)

theorem kv_three {z : ℝ} (hz : 0 < z) : kv 3 z ≤ 8 / z ^ 3 := by
  have h := rpow_mul_kv 3 hz
  have h1 : kvInt 3 z ≤ Gamma 3 := by
    rw [← kvInt_zero (by norm_num : (0 : ℝ) < 3)]
    exact kvInt_antitone (by norm_num) le_rfl hz.le
  have h2 : Gamma 3 = 2 := by
    rw [show (3 : ℝ) = ((2 : ℕ) : ℝ) + 1 by norm_num, Real.Gamma_nat_eq_factorial]
    norm_num [Nat.factorial]
  have h3 : (2 : ℝ) ^ ((3 : ℝ) - 1) = 4 := by
    rw [show (3 : ℝ) - 1 = ((2 : ℕ) : ℝ) by norm_num, rpow_natCast]; norm_num
  have h4 : z ^ (3 : ℝ) = z ^ 3 := by
    rw [show (3 : ℝ) = ((3 : ℕ) : ℝ) by norm_num, rpow_natCast]
  rw [h3, h4] at h
  rw [le_div_iff₀ (by positivity)]
  nlinarith

section
variable {nu : ℝ} (h1 : -(1 / 2) < nu) (h2 : nu < 1 / 2)
include h1 h2

omit h1 h2 in
theorem pre_hasDerivAt {z : ℝ} (hz : 0 < z) : HasDerivAt (fun y : ℝ => (2 * y) ^ nu * exp (-y))
    ((nu / z - 1) * ((2 * z) ^ nu * exp (-z))) z := by
  have a := ((hasDerivAt_id' z).const_mul 2).rpow_const (p := nu) (Or.inl (by linarith : 2 * z ≠ 0))
  have b : HasDerivAt (fun y : ℝ => exp (-y)) (-exp (-z)) z := by
    have := (hasDerivAt_id' z).fun_neg.exp
    exact this.congr_deriv (by ring)
  refine (a.fun_mul b).congr_deriv ?_
  rw [rpow_sub_one (by linarith : 2 * z ≠ 0)]
  field_simp
  ring

theorem bX_hasDerivAt {z : ℝ} (hz : 0 < z) : HasDerivAt (bX nu) (nu / z * bX nu z - bY nu z) z := by
  have a := gI_hasDerivAt (s := nu - 1 / 2) (b := nu - 1 / 2) (by linarith) (by linarith) hz
  rw [show nu - 1 / 2 + 1 = nu + 1 / 2 by ring] at a
  refine ((pre_hasDerivAt (nu := nu) hz).fun_mul a).congr_deriv ?_
  simp only [bX, bY]
  ring

theorem bY_hasDerivAt {z : ℝ} (hz : 0 < z) : HasDerivAt (bY nu) (-bX nu z - (nu + 1) / z * bY nu z) z := by
  have a := gI_hasDerivAt (s := nu - 1 / 2) (b := nu - 1 / 2) (by linarith) (by linarith) hz
  have b := gI_hasDerivAt (s := nu + 1 / 2) (b := nu - 1 / 2) (by linarith) (by linarith) hz
  rw [show nu - 1 / 2 + 1 = nu + 1 / 2 by ring] at a
  rw [show nu + 1 / 2 + 1 = nu + 3 / 2 by ring] at b
  have m := second_moment h1 h2 hz
  have hw : wI nu z 0 = gI (nu - 1 / 2) (nu - 1 / 2) z := by simp [wI]
  rw [hw] at m
  refine ((pre_hasDerivAt (nu := nu) hz).fun_mul (a.fun_add (b.const_mul 2))).congr_deriv ?_
  simp only [bX, bY]
  obtain ⟨P, hP⟩ : ∃ P, P = (2 * z) ^ nu * exp (-z) := ⟨_, rfl⟩
  rw [← hP]
  obtain ⟨A, hA⟩ : ∃ A, A = gI (nu - 1 / 2) (nu - 1 / 2) z := ⟨_, rfl⟩
  obtain ⟨B, hB⟩ : ∃ B, B = gI (nu + 1 / 2) (nu - 1 / 2) z := ⟨_, rfl⟩
  obtain ⟨D, hD⟩ : ∃ D, D = gI (nu + 3 / 2) (nu - 1 / 2) z := ⟨_, rfl⟩
  rw [← hA, ← hB, ← hD] at m ⊢
  field_simp
  linear_combination (-2 * P) * m

theorem bX_pos {z : ℝ} (hz : 0 < z) : 0 < bX nu z := by
  have a := gI_pos (s := nu - 1 / 2) (b := nu - 1 / 2) (z := z) (by linarith) (by linarith) hz
  have b := rpow_pos_of_pos (by linarith : 0 < 2 * z) nu
  have c := exp_pos (-z)
  rw [bX]
  positivity

/-- The Wronskian vanishes. -/
theorem bW {z : ℝ} (hz : 0 < z) : kv nu z * bY nu z = bX nu z * kv (nu + 1) z := by
  have key : z * (kv nu z * bY nu z - bX nu z * kv (nu + 1) z) = 0 := by
    refine const_of_deriv_top (F := fun z => z * (kv nu z * bY nu z - bX nu z * kv (nu + 1) z)) ?_ ?_ hz
    · intro z hz
      have k0 := kv_hasDerivAt_up nu hz
      have k1 := kv_hasDerivAt_down (nu + 1) hz
      rw [add_sub_cancel_right] at k1
      have x := bX_hasDerivAt h1 h2 hz
      have y := bY_hasDerivAt h1 h2 hz
      refine ((hasDerivAt_id' z).fun_mul ((k0.fun_mul y).fun_sub (x.fun_mul k1))).congr_deriv ?_
      field_simp
      ring
    · obtain ⟨C, hC⟩ : ∃ C, C = gI (nu - 1 / 2) (nu - 1 / 2) 1 + 2 * gI (nu + 1 / 2) (nu - 1 / 2) 1 := ⟨_, rfl⟩
      have hlim : Tendsto (fun z : ℝ => 32 * C * z⁻¹) atTop (𝓝 0) := by
        simpa using tendsto_inv_atTop_zero.const_mul (32 * C)
      refine squeeze_zero_norm' ?_ hlim
      filter_upwards [eventually_ge_atTop 1] with y hy
      have hy0 : 0 < y := by linarith
      have a0 := gI_pos (s := nu - 1 / 2) (b := nu - 1 / 2) (z := y) (by linarith) (by linarith) hy0
      have b0 := gI_pos (s := nu + 1 / 2) (b := nu - 1 / 2) (z := y) (by linarith) (by linarith) hy0
      have a1 := gI_anti (s := nu - 1 / 2) (b := nu - 1 / 2) (z := 1) (z' := y) (by linarith) (by linarith) one_pos hy
      have b1 := gI_anti (s := nu + 1 / 2) (b := nu - 1 / 2) (z := 1) (z' := y) (by linarith) (by linarith) one_pos hy
      have p1 : (2 * y) ^ nu ≤ 2 * y := by
        calc (2 * y) ^ nu ≤ (2 * y) ^ (1 : ℝ) := rpow_le_rpow_of_exponent_le (by linarith) (by linarith)
          _ = _ := rpow_one _
      have p0 := rpow_pos_of_pos (by linarith : 0 < 2 * y) nu
      have e1 : exp (-y) ≤ 1 := exp_le_one_iff.mpr (by linarith)
      have e0 := exp_pos (-y)
      have pe : (2 * y) ^ nu * exp (-y) ≤ 2 * y := by nlinarith
      have hX : bX nu y ≤ 2 * y * C := by
        rw [bX, hC]
        exact mul_le_mul pe (by linarith) a0.le (by linarith)
      have hY : bY nu y ≤ 2 * y * C := by
        rw [bY, hC]
        exact mul_le_mul pe (by linarith) (by linarith) (by linarith)
      have hX0 := bX_pos h1 h2 hy0
      have hY0 : 0 ≤ bY nu y := by
        rw [bY]
        have := mul_pos p0 e0
        exact mul_nonneg this.le (by linarith)
      have hC0 : 0 ≤ C := by rw [hC]; linarith
      have k3 := kv_three hy0
      have m0 : |nu| ≤ |(3 : ℝ)| := by
        rw [abs_of_pos (by norm_num : (0 : ℝ) < 3), abs_le]
        constructor <;> linarith
      have m1 : |nu + 1| ≤ |(3 : ℝ)| := by
        rw [abs_of_pos (by norm_num : (0 : ℝ) < 3), abs_le]
        constructor <;> linarith
      have k0 : kv nu y ≤ 8 / y ^ 3 := (kv_mono m0 hy0).trans k3
      have k1 : kv (nu + 1) y ≤ 8 / y ^ 3 := (kv_mono m1 hy0).trans k3
      have k00 := kv_pos nu hy0
      have k10 := kv_pos (nu + 1) hy0
      have u1 : kv nu y * bY nu y ≤ 8 / y ^ 3 * (2 * y * C) := mul_le_mul k0 hY hY0 (by positivity)
      have u2 : bX nu y * kv (nu + 1) y ≤ 2 * y * C * (8 / y ^ 3) := mul_le_mul hX k1 k10.le (by positivity)
      have v1 : 0 ≤ kv nu y * bY nu y := mul_nonneg k00.le hY0
      have v2 : 0 ≤ bX nu y * kv (nu + 1) y := mul_nonneg hX0.le k10.le
      rw [norm_mul, Real.norm_of_nonneg hy0.le, Real.norm_eq_abs]
      have : abs (kv nu y * bY nu y - bX nu y * kv (nu + 1) y) ≤ 32 * C / y ^ 2 := by
        have e : 8 / y ^ 3 * (2 * y * C) = 16 * C / y ^ 2 := by field_simp; ring
        rw [e] at u1
        rw [mul_comm (2 * y * C), e] at u2
        have e2 : 32 * C / y ^ 2 = 16 * C / y ^ 2 + 16 * C / y ^ 2 := by ring
        rw [abs_le, e2]
        constructor <;> linarith
      calc _ ≤ y * (32 * C / y ^ 2) := mul_le_mul_of_nonneg_left this hy0.le
        _ = _ := by field_simp
  have := (mul_eq_zero.mp key).resolve_left hz.ne'
  linarith

/-- The ratio of `K_ν` and the integral does not depend on `z`. -/
theorem ratio_const {l : ℝ} (hl : Tendsto (fun z => kv nu z / bX nu z) atTop (𝓝 l)) {z : ℝ} (hz : 0 < z) :
    kv nu z / bX nu z = l := by
  refine const_of_deriv_top (F := fun z => kv nu z / bX nu z) (fun y hy => ?_) hl hz
  have hp := bX_pos h1 h2 hy
  refine ((kv_hasDerivAt_up nu hy).fun_div (bX_hasDerivAt h1 h2 hy) hp.ne').congr_deriv ?_
  have := bW h1 h2 hy
  rw [div_eq_zero_iff]
  left
  linear_combination this

omit h1 h2 in
theorem kv_half {z : ℝ} (hz : 0 < z) : kv (1 / 2) z = sqrt π * (2 * z) ^ (-(1 / 2) : ℝ) * exp (-z) := by
  rw [kv_eq, kvInt_half hz.le, show z / 2 = (2 * z) * (1 / 2) ^ 2 by ring, mul_rpow (by linarith) (by positivity),
    ← rpow_natCast, ← rpow_mul (by norm_num)]
  norm_num [rpow_neg_one]
  ring

theorem kv_near_half {z : ℝ} (hz : 0 < z) : (1 - 1 / z) * kv (1 / 2) z ≤ kv nu z ∧ kv nu z ≤ kv (1 / 2) z := by
  have ha : |nu| ≤ |(1 / 2 : ℝ)| := by
    rw [abs_of_pos (by norm_num : (0 : ℝ) < 1 / 2), abs_le]
    constructor <;> linarith
  have hb : |1 - nu| ≤ |(3 / 2 : ℝ)| := by
    rw [abs_of_pos (by norm_num : (0 : ℝ) < 3 / 2), abs_le]
    constructor <;> linarith
  refine ⟨?_, kv_mono ha hz⟩
  have hm := kv_mono hb hz
  have hr := kv_recurrence (1 / 2) hz
  rw [show (1 / 2 : ℝ) + 1 = 3 / 2 by norm_num, show (1 / 2 : ℝ) - 1 = -(1 / 2) by norm_num, kv_neg _ hz] at hr
  have hs : 2 * kv (1 / 2) z ≤ kv nu z + kv (1 - nu) z := by
    rw [kv_cosh nu hz, kv_cosh (1 - nu) hz, kv_cosh (1 / 2) hz, ← mul_add,
      ← integral_add (kv_cosh_integrable nu hz) (kv_cosh_integrable (1 - nu) hz), mul_left_comm, ← integral_const_mul]
    refine mul_le_mul_of_nonneg_left ?_ (by norm_num)
    refine setIntegral_mono_on ((kv_cosh_integrable (1 / 2) hz).const_mul 2)
      ((kv_cosh_integrable nu hz).add (kv_cosh_integrable (1 - nu) hz)) measurableSet_Ioi fun t ht => ?_
    have ht0 : (0 : ℝ) < t := ht
    obtain ⟨L, hL⟩ : ∃ L, L = Real.log (t / (z / 2)) := ⟨_, rfl⟩
    rw [← hL, ← add_mul, ← mul_assoc]
    refine mul_le_mul_of_nonneg_right ?_ (by positivity)
    have e : cosh (nu * L) + cosh ((1 - nu) * L) = 2 * cosh (1 / 2 * L) * cosh ((1 / 2 - nu) * L) := by
      have e1 : nu * L = 1 / 2 * L - (1 / 2 - nu) * L := by ring
      have e2 : (1 - nu) * L = 1 / 2 * L + (1 / 2 - nu) * L := by ring
      rw [e1, e2, cosh_add, cosh_sub]
      ring
    rw [e]
    have := one_le_cosh ((1 / 2 - nu) * L)
    have h3 := one_le_cosh (1 / 2 * L)
    nlinarith
  have : 2 * (1 / 2) * kv (1 / 2) z / z = 1 / z * kv (1 / 2) z := by ring
  rw [this] at hr
  linarith

theorem kv_half_lim : Tendsto (fun z => kv nu z / kv (1 / 2) z) atTop (𝓝 1) := by
  have hl : Tendsto (fun z : ℝ => 1 - 1 / z) atTop (𝓝 1) := by
    simpa using (tendsto_inv_atTop_zero (𝕜 := ℝ)).const_sub 1
  refine tendsto_of_tendsto_of_tendsto_of_le_of_le' hl tendsto_const_nhds ?_ ?_
  · filter_upwards [eventually_gt_atTop 0] with z hz
    rw [le_div_iff₀ (kv_pos _ hz)]
    exact (kv_near_half h1 h2 hz).1
  · filter_upwards [eventually_gt_atTop 0] with z hz
    rw [div_le_one (kv_pos _ hz)]
    exact (kv_near_half h1 h2 hz).2

omit h1 h2 in
theorem gI_scaled {z : ℝ} (hz : 0 < z) : (2 * z) ^ (nu + 1 / 2) * gI (nu - 1 / 2) (nu - 1 / 2) z
    = ∫ s in Ioi (0 : ℝ), s ^ (nu - 1 / 2) * (1 + s * (1 / (2 * z))) ^ (nu - 1 / 2) * exp (-s) := by
  have hz2 : 0 < 2 * z := by linarith
  have := integral_comp_mul_left_Ioi
    (fun s : ℝ => s ^ (nu - 1 / 2) * (1 + s * (1 / (2 * z))) ^ (nu - 1 / 2) * exp (-s)) 0 hz2
  rw [mul_zero, smul_eq_mul] at this
  have h3 : ∫ s in Ioi (0 : ℝ), s ^ (nu - 1 / 2) * (1 + s * (1 / (2 * z))) ^ (nu - 1 / 2) * exp (-s)
      = (2 * z) * ((2 * z)⁻¹ * ∫ s in Ioi (0 : ℝ), s ^ (nu - 1 / 2) * (1 + s * (1 / (2 * z))) ^ (nu - 1 / 2) * exp (-s)) := by
    field_simp
  rw [h3, ← this, gI, ← integral_const_mul, ← integral_const_mul]
  refine setIntegral_congr_fun measurableSet_Ioi fun t ht => ?_
  have ht0 : (0 : ℝ) < t := ht
  simp only [gF]
  rw [mul_rpow hz2.le ht0.le, show 2 * z * t * (1 / (2 * z)) = t by field_simp, show -(2 * z * t) = -2 * z * t by ring,
    show nu + 1 / 2 = nu - 1 / 2 + 1 by ring, rpow_add_one hz2.ne']
  ring

theorem gI_scaled_lim : Tendsto (fun z => (2 * z) ^ (nu + 1 / 2) * gI (nu - 1 / 2) (nu - 1 / 2) z) atTop
    (𝓝 (Gamma (nu + 1 / 2))) := by
  have hG : Gamma (nu + 1 / 2) = ∫ s in Ioi (0 : ℝ), s ^ (nu - 1 / 2) * (1 + s * 0) ^ (nu - 1 / 2) * exp (-s) := by
    rw [Gamma_eq_integral (by linarith)]
    refine setIntegral_congr_fun measurableSet_Ioi fun t _ => ?_
    simp only [mul_zero, add_zero, one_rpow, mul_one]
    rw [mul_comm, show nu + 1 / 2 - 1 = nu - 1 / 2 by ring]
  have key : Tendsto (fun z : ℝ => ∫ s in Ioi (0 : ℝ), s ^ (nu - 1 / 2) * (1 + s * (1 / (2 * z))) ^ (nu - 1 / 2) * exp (-s))
      atTop (𝓝 (Gamma (nu + 1 / 2))) := by
    rw [hG]
    refine tendsto_integral_filter_of_dominated_convergence (fun s => s ^ (nu - 1 / 2) * exp (-s)) ?_ ?_ ?_ ?_
    · filter_upwards [eventually_gt_atTop 0] with z hz
      refine ContinuousOn.aestronglyMeasurable ?_ measurableSet_Ioi
      intro t ht
      have ht0 : (0 : ℝ) < t := ht
      have : 0 < t * (1 / (2 * z)) := by positivity
      refine ContinuousAt.continuousWithinAt ?_
      refine ContinuousAt.mul (ContinuousAt.mul ?_ ?_) ?_
      · exact continuousAt_id.rpow_const (Or.inl ht0.ne')
      · refine ContinuousAt.rpow_const (by fun_prop) (Or.inl ?_)
        linarith
      · fun_prop
    · filter_upwards [eventually_gt_atTop 0] with z hz
      filter_upwards [ae_restrict_mem measurableSet_Ioi] with t ht
      have ht0 : (0 : ℝ) < t := ht
      have hq : 0 < t * (1 / (2 * z)) := by positivity
      have a := rpow_pos_of_pos ht0 (nu - 1 / 2)
      have b := rpow_pos_of_pos (by linarith : 0 < 1 + t * (1 / (2 * z))) (nu - 1 / 2)
      have c : (1 + t * (1 / (2 * z))) ^ (nu - 1 / 2) ≤ 1 := rpow_le_one_of_one_le_of_nonpos (by linarith) (by linarith)
      rw [Real.norm_of_nonneg (by positivity)]
      refine mul_le_mul_of_nonneg_right ?_ (exp_pos _).le
      exact mul_le_of_le_one_right a.le c
    · have := gammaInt_integrable (mu := nu + 1 / 2) (by linarith)
      rw [show nu + 1 / 2 - 1 = nu - 1 / 2 by ring] at this
      exact this
    · filter_upwards [ae_restrict_mem measurableSet_Ioi] with t ht
      have ht0 : (0 : ℝ) < t := ht
      refine Tendsto.mul_const _ (Tendsto.const_mul _ ?_)
      have hl : Tendsto (fun z : ℝ => 1 + t * (1 / (2 * z))) atTop (𝓝 (1 + t * 0)) := by
        refine Tendsto.const_add _ (Tendsto.const_mul _ ?_)
        have : Tendsto (fun z : ℝ => 1 / 2 * z⁻¹) atTop (𝓝 (1 / 2 * 0)) := tendsto_inv_atTop_zero.const_mul _
        rw [mul_zero] at this
        refine this.congr fun z => ?_
        rw [one_div, one_div, mul_inv]
      exact hl.rpow_const (Or.inl (by norm_num))
  refine key.congr' ?_
  filter_upwards [eventually_gt_atTop 0] with z hz
  exact (gI_scaled hz).symm

/-- `K_ν(z) = √π (2z)^ν e^{-z} / Γ(ν + 1/2) · w₀`. -/
theorem kv_eq_w {z : ℝ} (hz : 0 < z) :
    kv nu z = sqrt π / Gamma (nu + 1 / 2) * ((2 * z) ^ nu * exp (-z) * wI nu z 0) := by
  have hG : 0 < Gamma (nu + 1 / 2) := Gamma_pos_of_pos (by linarith)
  have hw : wI nu z 0 = gI (nu - 1 / 2) (nu - 1 / 2) z := by simp [wI]
  have hlim : Tendsto (fun z => kv nu z / bX nu z) atTop (𝓝 (sqrt π / Gamma (nu + 1 / 2))) := by
    have a := (kv_half_lim h1 h2).mul ((gI_scaled_lim h1 h2).inv₀ hG.ne')
    have b := a.const_mul (sqrt π)
    rw [one_mul, ← div_eq_mul_inv] at b
    refine b.congr' ?_
    filter_upwards [eventually_gt_atTop 0] with y hy
    have hy2 : 0 < 2 * y := by linarith
    have g := gI_pos (s := nu - 1 / 2) (b := nu - 1 / 2) (z := y) (by linarith) (by linarith) hy
    have p1 := rpow_pos_of_pos hy2 nu
    have p2 := rpow_pos_of_pos hy2 (1 / 2)
    have e := exp_pos (-y)
    have sp : 0 < sqrt π := sqrt_pos.mpr pi_pos
    rw [bX, kv_half hy, rpow_add hy2, rpow_neg hy2.le]
    field_simp
  have := ratio_const h1 h2 hlim hz
  rw [div_eq_iff (bX_pos h1 h2 hz).ne'] at this
  rw [this, hw, bX]

/-- `z K_{ν+1} = K_ν (ν + 1/2 + z - (1/2 - ν) w₁/w₀)`. -/
theorem kvp1_eq_w {z : ℝ} (hz : 0 < z) :
    z * kv (nu + 1) z = kv nu z * (nu + 1 / 2 + z - (1 / 2 - nu) * (wI nu z 1 / wI nu z 0)) := by
  have w0 := wI_pos h1 h2 hz 0
  have hw : wI nu z 0 = gI (nu - 1 / 2) (nu - 1 / 2) z := by simp [wI]
  have hW := bW h1 h2 hz
  have m := first_moment h1 h2 hz
  have p := rpow_pos_of_pos (by linarith : 0 < 2 * z) nu
  have e := exp_pos (-z)
  rw [bX, bY, ← hw] at hW
  have hW2 : kv nu z * (wI nu z 0 + 2 * gI (nu + 1 / 2) (nu - 1 / 2) z) = wI nu z 0 * kv (nu + 1) z := by
    have hp : (2 * z) ^ nu * exp (-z) ≠ 0 := by positivity
    apply mul_left_cancel₀ hp
    linear_combination hW
  field_simp
  linear_combination (-2 * z) * hW2 + 2 * kv nu z * m

end

/-! ### The sum rule -/

/-- Coefficients of `(1-τ)^(-α)`. -/
noncomputable def bc (al : ℝ) (n : ℕ) : ℝ := (∏ i ∈ Finset.range n, (al + i)) / n.factorial

theorem bc_nonneg {al : ℝ} (h : 0 ≤ al) (n : ℕ) : 0 ≤ bc al n :=
  div_nonneg (Finset.prod_nonneg fun i _ => by positivity) (by positivity)

theorem bc_choose (al : ℝ) (n : ℕ) : Ring.choose (al + n - 1) n = bc al n := by
  have h := Ring.factorial_nsmul_multichoose_eq_ascPochhammer al n
  have h2 : Ring.choose (al + n - 1) n = Ring.multichoose al n := by
    rw [Ring.choose]
    congr 1
    ring
  rw [h2, bc, eq_div_iff (by positivity), mul_comm, ← nsmul_eq_mul, h]
  clear h h2
  induction n with
  | zero => simp [Polynomial.smeval_one]
  | succ n ih =>
    rw [Finset.prod_range_succ, ← ih, ascPochhammer_succ_right, Polynomial.smeval_mul, Polynomial.smeval_add,
      Polynomial.smeval_X, ← Polynomial.C_eq_natCast, Polynomial.smeval_C]
    simp

theorem bc_hasSum (al : ℝ) {x : ℝ} (h0 : 0 ≤ x) (hx : x < 1) :
    HasSum (fun n => bc al n * x ^ n) ((1 - x) ^ (-al)) := by
  have h := (one_div_one_sub_rpow_hasFPowerSeriesOnBall_zero al).hasSum (y := x)
    (by
      have : |x| < 1 := by rwa [abs_of_nonneg h0]
      simpa [enorm_eq_nnnorm, ← NNReal.coe_lt_coe] using this)
  simp only [FormalMultilinearSeries.ofScalars_apply_eq, smul_eq_mul, bc_choose, zero_add] at h
  rw [rpow_neg (by linarith), ← one_div]
  exact h

/-- `Σ_n C_n y_n` in terms of the integrals. -/
theorem w_hasSum {nu z : ℝ} (h1 : -(1 / 2) < nu) (h2 : nu < 1 / 2) (hz : 0 < z) :
    HasSum (fun n => bc (1 / 2 - nu) n * wI nu z n) (Gamma (nu + 1 / 2) * (2 * z) ^ (-nu - 1 / 2)) := by
  have hz2 : 0 < 2 * z := by linarith
  have hbc : ∀ n, 0 ≤ bc (1 / 2 - nu) n := fun n => bc_nonneg (by linarith) n
  obtain ⟨F, hF⟩ : ∃ F : ℕ → ℝ → ℝ, F = fun n t => bc (1 / 2 - nu) n * gF (nu - 1 / 2 + n) (nu - 1 / 2 - n) z t := ⟨_, rfl⟩
  have hint : ∀ n, Integrable (F n) (volume.restrict (Ioi 0)) := by
    intro n
    have : (0 : ℝ) ≤ n := Nat.cast_nonneg n
    rw [hF]
    exact (gF_integrable (by linarith) (by linarith) hz).const_mul _
  have hpt : ∀ t : ℝ, 0 < t → HasSum (fun n => F n t) (t ^ (nu - 1 / 2) * exp (-(2 * z) * t)) := by
    intro t ht
    have ht1 : 0 < 1 + t := by linarith
    have hs := (bc_hasSum (1 / 2 - nu) (x := t / (1 + t)) (by positivity) (by rw [div_lt_one ht1]; linarith)).mul_left
      (gF (nu - 1 / 2) (nu - 1 / 2) z t)
    have e1 : gF (nu - 1 / 2) (nu - 1 / 2) z t * (1 - t / (1 + t)) ^ (-(1 / 2 - nu)) = t ^ (nu - 1 / 2) * exp (-(2 * z) * t) := by
      rw [show 1 - t / (1 + t) = (1 + t)⁻¹ by field_simp; ring, inv_rpow ht1.le, ← rpow_neg ht1.le, gF,
        show - -(1 / 2 - nu) = -(nu - 1 / 2) by ring, rpow_neg ht1.le, show -2 * z * t = -(2 * z) * t by ring]
      have := rpow_pos_of_pos ht1 (nu - 1 / 2)
      field_simp
    rw [e1] at hs
    have e2 : (fun n => F n t) = fun n => gF (nu - 1 / 2) (nu - 1 / 2) z t * (bc (1 / 2 - nu) n * (t / (1 + t)) ^ n) := by
      funext n
      simp only [hF, gF]
      rw [rpow_add ht, rpow_sub ht1, rpow_natCast, rpow_natCast, div_pow]
      ring
    rw [e2]
    exact hs
  have hval : ∫ t in Ioi (0 : ℝ), t ^ (nu - 1 / 2) * exp (-(2 * z) * t) = Gamma (nu + 1 / 2) * (2 * z) ^ (-nu - 1 / 2) := by
    have := integral_rpow_mul_exp_neg_mul_Ioi (a := nu + 1 / 2) (r := 2 * z) (by linarith) hz2
    rw [one_div (2 * z), inv_rpow hz2.le, ← rpow_neg hz2.le, show -(nu + 1 / 2) = -nu - 1 / 2 by ring,
      show nu + 1 / 2 - 1 = nu - 1 / 2 by ring] at this
    rw [mul_comm (Gamma _), ← this]
    refine setIntegral_congr_fun measurableSet_Ioi fun t _ => ?_
    simp only [neg_mul]
  have hw : ∀ n, ∫ t in Ioi (0 : ℝ), F n t = bc (1 / 2 - nu) n * wI nu z n := by
    intro n
    rw [hF, integral_const_mul]
    rfl
  have hnn : ∀ n (t : ℝ), 0 < t → 0 ≤ F n t := by
    intro n t ht
    rw [hF]
    exact mul_nonneg (hbc n) (gF_pos _ _ _ ht).le
  have hsum : Summable fun n => ∫ t in Ioi (0 : ℝ), ‖F n t‖ := by
    have e : ∀ n, ∫ t in Ioi (0 : ℝ), ‖F n t‖ = bc (1 / 2 - nu) n * wI nu z n := by
      intro n
      rw [← hw]
      exact setIntegral_congr_fun measurableSet_Ioi fun t ht => Real.norm_of_nonneg (hnn n t ht)
    simp only [e]
    refine summable_of_sum_range_le (c := ∫ t in Ioi (0 : ℝ), t ^ (nu - 1 / 2) * exp (-(2 * z) * t))
      (fun n => mul_nonneg (hbc n) (wI_pos h1 h2 hz n).le) (fun N => ?_)
    simp only [← hw]
    rw [← integral_finsetSum _ (fun n _ => hint n)]
    refine setIntegral_mono_on (integrable_finsetSum _ fun n _ => hint n) (base_integrable (by linarith) hz)
      measurableSet_Ioi fun t ht => ?_
    exact sum_le_hasSum _ (fun n _ => hnn n t ht) (hpt t ht)
  have key := hasSum_integral_of_summable_integral_norm hint hsum
  simp only [hw] at key
  rw [← hval]
  have e : ∫ t in Ioi (0 : ℝ), ∑' n, F n t = ∫ t in Ioi (0 : ℝ), t ^ (nu - 1 / 2) * exp (-(2 * z) * t) :=
    setIntegral_congr_fun measurableSet_Ioi fun t ht => (hpt t ht).tsum_eq
  rw [← e]
  exact key

end JG.BesK
