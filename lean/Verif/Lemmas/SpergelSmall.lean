import Verif.Lemmas.BesselTemme
import Verif.Lemmas.TemmeTable
import Mathlib.Analysis.SpecialFunctions.Gamma.Beta
import Mathlib.Analysis.SpecialFunctions.Trigonometric.Bounds

/-! # `z^ν K_ν(z)` near zero -/

namespace JG.BesK

open Real Set Filter Topology MeasureTheory JG.Elt

/-! ### The series `₀F₁` for small arguments -/

theorem gTerm_nonneg {mu : ℝ} (h : mu < 1) {y : ℝ} (hy : 0 ≤ y) (k : ℕ) : 0 ≤ gTerm mu y k :=
  div_nonneg (pow_nonneg hy k) (mul_nonneg (Nat.cast_nonneg _) (poch_pos h k).le)

theorem poch_ge {mu : ℝ} (h : mu < 1) (k : ℕ) : (1 - mu) ^ k ≤ poch mu k := by
  induction k with
  | zero => simp [poch]
  | succ k ih =>
    rw [poch_succ, pow_succ]
    have : (0 : ℝ) ≤ k := Nat.cast_nonneg k
    exact mul_le_mul ih (by linarith) (by linarith) (poch_pos h k).le

theorem gFun_lower {mu : ℝ} (h : mu < 1) {y : ℝ} (hy : 0 ≤ y) : 1 + y / (1 - mu) ≤ gFun mu y := by
  have := (gTerm_summable h y).sum_le_tsum (Finset.range 2) (fun k _ => gTerm_nonneg h hy k)
  refine le_trans (le_of_eq ?_) this
  simp [Finset.sum_range_succ, gTerm, poch]

theorem gFun_ge_one {mu : ℝ} (h : mu < 1) {y : ℝ} (hy : 0 ≤ y) : 1 ≤ gFun mu y := by
  have := gFun_lower h hy
  have h2 : 0 ≤ y / (1 - mu) := div_nonneg hy (by linarith)
  linarith

theorem gFun_upper {mu : ℝ} (h : mu < 1) {y : ℝ} (hy : 0 ≤ y) : gFun mu y ≤ exp (y / (1 - mu)) := by
  have h1 : 0 < 1 - mu := by linarith
  have hs := Real.summable_pow_div_factorial (y / (1 - mu))
  have e : exp (y / (1 - mu)) = ∑' k : ℕ, (y / (1 - mu)) ^ k / (k.factorial : ℝ) := by
    rw [Real.exp_eq_exp_ℝ, NormedSpace.exp_eq_tsum_div]
  rw [e, gFun]
  refine (gTerm_summable h y).tsum_le_tsum (fun k => ?_) hs
  rw [gTerm, div_pow, div_div, mul_comm ((1 - mu) ^ k)]
  refine div_le_div_of_nonneg_left (pow_nonneg hy k) (by positivity) ?_
  exact mul_le_mul_of_nonneg_left (poch_ge h k) (Nat.cast_nonneg _)

/-- `₀F₁` against its first two terms. -/
theorem gFun_two {mu : ℝ} (h : mu < 1) {y : ℝ} (hy : 0 ≤ y) (hy2 : y ≤ 1 - mu) :
    gFun mu y ≤ 1 + y / (1 - mu) + (y / (1 - mu)) ^ 2 := by
  have h1 : 0 < 1 - mu := by linarith
  have := Real.abs_exp_sub_one_sub_id_le (x := y / (1 - mu)) (by
    rw [abs_of_nonneg (div_nonneg hy h1.le), div_le_one h1]; exact hy2)
  have h3 := gFun_upper h hy
  have := (abs_le.mp this).2
  linarith

/-! ### The two leading terms -/

/-- `z^ν K_ν(z)` for `0 < |ν| < 1`. -/
theorem small_exact {nu : ℝ} (h0 : nu ≠ 0) (h : nu < 1) (h' : -1 < nu) {z : ℝ} (hz : 0 < z) :
    (2 : ℝ) ^ (nu - 1) * kvInt nu z = (2 : ℝ) ^ (nu - 1) * Gamma nu * gFun nu (z ^ 2 / 4)
      + (2 : ℝ) ^ (-nu - 1) * Gamma (-nu) * z ^ (2 * nu) * gFun (-nu) (z ^ 2 / 4) := by
  rw [← rpow_mul_kv nu hz, kv_eq_u h0 h h' hz, uFun, uFun, neg_neg]
  have h2 : (0 : ℝ) < 2 := by norm_num
  have e1 : z ^ nu * (z / 2) ^ (-nu) = 2 ^ nu := by
    rw [Real.div_rpow hz.le h2.le, Real.rpow_neg hz.le, Real.rpow_neg h2.le]
    have := (Real.rpow_pos_of_pos hz nu).ne'
    have := (Real.rpow_pos_of_pos h2 nu).ne'
    field_simp
  have e2 : z ^ nu * (z / 2) ^ nu = 2 ^ (-nu) * z ^ (2 * nu) := by
    rw [Real.div_rpow hz.le h2.le, Real.rpow_neg h2.le, two_mul, Real.rpow_add hz]
    have := (Real.rpow_pos_of_pos h2 nu).ne'
    field_simp
  have g1 : Gamma (1 + nu) = nu * Gamma nu := by rw [add_comm, Gamma_add_one h0]
  have g2 : Gamma (1 - nu) = -nu * Gamma (-nu) := by
    rw [sub_eq_neg_add, Gamma_add_one (neg_ne_zero.mpr h0)]
  rw [Real.rpow_sub_one h2.ne', Real.rpow_sub_one h2.ne', g1, g2]
  have : z ^ nu * ((nu * Gamma nu * ((z / 2) ^ (-nu) * gFun nu (z ^ 2 / 4))
      - -nu * Gamma (-nu) * ((z / 2) ^ nu * gFun (-nu) (z ^ 2 / 4))) / (2 * nu))
      = (Gamma nu * (z ^ nu * (z / 2) ^ (-nu)) * gFun nu (z ^ 2 / 4)
      + Gamma (-nu) * (z ^ nu * (z / 2) ^ nu) * gFun (-nu) (z ^ 2 / 4)) / 2 := by
    field_simp
    ring
  rw [this, e1, e2]
  ring

/-! ### The leading term from below -/

theorem one_sub_exp_le_rpow {x a : ℝ} (hx : 0 ≤ x) (h0 : 0 ≤ a) (h1 : a ≤ 1) : 1 - exp (-x) ≤ x ^ a := by
  rcases le_total x 1 with h | h
  · rcases eq_or_lt_of_le hx with rfl | hx0
    · simp only [neg_zero, exp_zero, sub_self]; exact Real.rpow_nonneg le_rfl a
    have : x ^ (1 : ℝ) ≤ x ^ a := Real.rpow_le_rpow_of_exponent_ge hx0 h h1
    rw [Real.rpow_one] at this
    have := Real.add_one_le_exp (-x)
    linarith
  · have := Real.one_le_rpow h h0
    have := exp_pos (-x)
    linarith

/-- `Γ(μ) - y^a Γ(μ-a) ≤ kvInt μ z ≤ Γ(μ)`, `y = z²/4`. -/
theorem kvInt_lower {mu a z : ℝ} (ha : 0 ≤ a) (ha1 : a ≤ 1) (h : a < mu) :
    Gamma mu - (z ^ 2 / 4) ^ a * Gamma (mu - a) ≤ kvInt mu z := by
  have hmu : 0 < mu := by linarith
  have i1 := gammaInt_integrable hmu
  have i2 := (gammaInt_integrable (show 0 < mu - a by linarith)).const_mul ((z ^ 2 / 4) ^ a)
  have i3 := kvInt_integrable_pos z hmu
  have e1 : Gamma mu = ∫ t in Ioi (0 : ℝ), t ^ (mu - 1) * exp (-t) := by
    rw [← kvInt_zero hmu, kvInt]
    refine setIntegral_congr_fun measurableSet_Ioi fun t _ => ?_
    simp
  have e2 : Gamma (mu - a) = ∫ t in Ioi (0 : ℝ), t ^ (mu - a - 1) * exp (-t) := by
    rw [← kvInt_zero (show 0 < mu - a by linarith), kvInt]
    refine setIntegral_congr_fun measurableSet_Ioi fun t _ => ?_
    simp
  rw [e1, e2, ← integral_const_mul, ← integral_sub i1 i2, kvInt]
  refine setIntegral_mono_on (i1.sub i2) i3 measurableSet_Ioi fun t ht => ?_
  have ht0 : 0 < t := ht
  have hy : 0 ≤ z ^ 2 / (4 * t) := by positivity
  have key := one_sub_exp_le_rpow hy ha ha1
  have e3 : (z ^ 2 / (4 * t)) ^ a = (z ^ 2 / 4) ^ a * t ^ (-a) := by
    rw [← div_div, Real.div_rpow (by positivity) ht0.le, Real.rpow_neg ht0.le, div_eq_mul_inv]
  have e4 : t ^ (mu - a - 1) = t ^ (mu - 1) * t ^ (-a) := by
    rw [← Real.rpow_add ht0]; ring_nf
  rw [sub_eq_add_neg (-t), exp_add, e4]
  have hp : 0 ≤ t ^ (mu - 1) * exp (-t) := by positivity
  have : t ^ (mu - 1) * exp (-t) * (1 - exp (-(z ^ 2 / (4 * t)))) ≤ t ^ (mu - 1) * exp (-t) * ((z ^ 2 / 4) ^ a * t ^ (-a)) :=
    mul_le_mul_of_nonneg_left (by rw [← e3]; exact key) hp
  linarith

theorem kvInt_upper {mu z : ℝ} (h : 0 < mu) (hz : 0 ≤ z) : kvInt mu z ≤ Gamma mu := by
  rw [← kvInt_zero h]
  exact kvInt_antitone h le_rfl hz

/-! ### The Gamma function -/

theorem gamma_le_one {x : ℝ} (h1 : 1 ≤ x) (h2 : x ≤ 2) : Gamma x ≤ 1 := by
  have hc := Real.convexOn_Gamma.2 (show (1 : ℝ) ∈ Ioi 0 by simp) (show (2 : ℝ) ∈ Ioi 0 by simp)
    (by linarith : (0 : ℝ) ≤ 2 - x) (by linarith : (0 : ℝ) ≤ x - 1) (by ring)
  simp only [smul_eq_mul, Gamma_one, Gamma_two] at hc
  rw [show (2 - x) * 1 + (x - 1) * 2 = x by ring] at hc
  linarith

/-- The minimum of the Gamma function is above 0.78. -/
theorem gamma_ge_unit {x : ℝ} (h1 : 1 ≤ x) (h2 : x ≤ 2) : 0.78 ≤ Gamma x := by
  have hc := Real.convexOn_log_Gamma.2 (show x ∈ Ioi (0 : ℝ) by simp only [mem_Ioi]; linarith)
    (show 3 - x ∈ Ioi (0 : ℝ) by simp only [mem_Ioi]; linarith)
    (by norm_num : (0 : ℝ) ≤ 1 / 2) (by norm_num : (0 : ℝ) ≤ 1 / 2) (by norm_num)
  simp only [smul_eq_mul, Function.comp] at hc
  rw [show 1 / 2 * x + 1 / 2 * (3 - x) = 3 / 2 by ring] at hc
  have hG := Gamma_pos_of_pos (show 0 < x by linarith)
  have hG3 := Gamma_pos_of_pos (show 0 < 3 - x by linarith)
  have h3 := gamma_le_one (x := 3 - x) (by linarith) (by linarith)
  have h4 : Real.log (Gamma (3 - x)) ≤ 0 := Real.log_nonpos hG3.le h3
  have e : Gamma (3 / 2) = sqrt π / 2 := by
    rw [show (3 / 2 : ℝ) = 1 / 2 + 1 by norm_num, Gamma_add_one (by norm_num), Gamma_one_half_eq]; ring
  have h5 : Real.log (Gamma (3 / 2) ^ 2) ≤ Real.log (Gamma x) := by
    rw [Real.log_pow]; push_cast; linarith
  have h6 : 0 < Gamma (3 / 2) := Gamma_pos_of_pos (by norm_num)
  have h7 := (Real.log_le_log_iff (by positivity) hG).mp h5
  rw [e, div_pow, Real.sq_sqrt Real.pi_pos.le] at h7
  have := Real.pi_gt_d2
  norm_num at this h7 ⊢
  linarith

theorem gamma_ge : ∀ n : ℕ, ∀ x : ℝ, 0 < x → x ≤ n + 2 → 0.78 ≤ Gamma x
  | 0, x, h0, h => by
    rcases le_total 1 x with h1 | h1
    · exact gamma_ge_unit h1 (by simpa using h)
    · have := gamma_ge_unit (x := x + 1) (by linarith) (by linarith)
      rw [Gamma_add_one h0.ne'] at this
      have hG := Gamma_pos_of_pos h0
      nlinarith
  | n + 1, x, h0, h => by
    rcases le_total x (n + 2) with h1 | h1
    · exact gamma_ge n x h0 h1
    · have hn : (0 : ℝ) ≤ n := Nat.cast_nonneg n
      push_cast at h
      have := gamma_ge n (x - 1) (by linarith) (by linarith)
      have e : Gamma x = (x - 1) * Gamma (x - 1) := by
        rw [← Gamma_add_one (by linarith), sub_add_cancel]
      rw [e]
      nlinarith

theorem gamma_ge' {x : ℝ} (h : 0 < x) : 0.78 ≤ Gamma x := by
  obtain ⟨n, hn⟩ := exists_nat_ge x
  exact gamma_ge n x h (by linarith)

/-- `|sin πx| ≥ 2d` at distance `d` from the integers. -/
theorem sin_pi_ge {x d : ℝ} (h : ∀ n : ℤ, d ≤ |x - n|) : 2 * d ≤ |sin (π * x)| := by
  obtain ⟨n, hn⟩ : ∃ n : ℤ, n = round x := ⟨_, rfl⟩
  obtain ⟨e, he⟩ : ∃ e, e = x - n := ⟨_, rfl⟩
  have h1 : |e| ≤ 1 / 2 := by rw [he, hn]; exact abs_sub_round x
  have h2 : d ≤ |e| := by rw [he]; exact h n
  have e1 : |sin (π * x)| = |sin (π * e)| := by
    rw [show π * x = π * e + n * π by rw [he]; ring, Real.sin_add_int_mul_pi, abs_mul]
    rcases Int.even_or_odd n with hp | hp
    · rw [hp.neg_one_zpow]; simp
    · rw [hp.neg_one_zpow]; simp
  rw [e1]
  have hp := Real.pi_pos
  have e2 : |sin (π * e)| = sin (π * |e|) := by
    rw [Real.abs_sin_eq_sin_abs_of_abs_le_pi (x := π * e) (by rw [abs_mul, abs_of_pos hp]; nlinarith), abs_mul,
      abs_of_pos hp]
  rw [e2]
  have := Real.mul_le_sin (x := π * |e|) (by positivity) (by nlinarith)
  rw [show 2 / π * (π * |e|) = 2 * |e| by field_simp] at this
  linarith

/-- `|Γ(-ν)|` at distance `d` from the integers. -/
theorem gamma_neg_le {nu d : ℝ} (hn : -1 < nu) (hd : 0 < d) (h : ∀ n : ℤ, d ≤ |nu - n|) : |Gamma (-nu)| ≤ 2.1 / d := by
  have hs := sin_pi_ge h
  have hs0 : sin (π * nu) ≠ 0 := by intro h0; rw [h0, abs_zero] at hs; linarith
  have hr := Real.Gamma_mul_Gamma_one_sub (-nu)
  rw [sub_neg_eq_add, mul_neg, Real.sin_neg] at hr
  have hG := gamma_ge' (show 0 < 1 + nu by linarith)
  have hG0 := Gamma_pos_of_pos (show 0 < 1 + nu by linarith)
  have h1 : |Gamma (-nu)| * Gamma (1 + nu) * |sin (π * nu)| = π := by
    have : Gamma (-nu) * Gamma (1 + nu) * sin (π * nu) = -π := by rw [hr]; field_simp
    rw [← abs_of_pos hG0, ← abs_mul, ← abs_mul, this, abs_neg, abs_of_pos Real.pi_pos]
  rw [le_div_iff₀ hd]
  have hA := abs_nonneg (Gamma (-nu))
  have hp := Real.pi_lt_d2
  have h2 : |Gamma (-nu)| * (0.78 * (2 * d)) ≤ π := by
    rw [← h1, mul_assoc]
    refine mul_le_mul_of_nonneg_left ?_ hA
    exact mul_le_mul hG hs (by positivity) hG0.le
  norm_num at h2 hp ⊢
  nlinarith

/-- A small step of the argument. -/
theorem gamma_step {x h : ℝ} (hx : 0 < x) (h0 : 0 ≤ h) (h1 : h ≤ 1) :
    Gamma (x + h) ≤ Gamma x * x ^ h ∧ Gamma x * (x / (x + h)) * (x + h) ^ h ≤ Gamma (x + h) := by
  have hxh : 0 < x + h := by linarith
  have key : ∀ y t : ℝ, 0 < y → 0 ≤ t → t ≤ 1 → Gamma (y + t) ≤ Gamma y * y ^ t := by
    intro y t hy t0 t1
    have hc := Real.Gamma_mul_add_mul_le_rpow_Gamma_mul_rpow_Gamma (s := y) (t := y + 1) (a := 1 - t) (b := t)
    rcases eq_or_lt_of_le t0 with rfl | t0'
    · simp
    rcases eq_or_lt_of_le t1 with rfl | t1'
    · rw [Gamma_add_one hy.ne', Real.rpow_one, mul_comm]
    have := hc hy (by linarith) (by linarith) t0' (by ring)
    rw [show (1 - t) * y + t * (y + 1) = y + t by ring, Gamma_add_one hy.ne',
      Real.mul_rpow hy.le (Gamma_pos_of_pos hy).le] at this
    refine this.trans (le_of_eq ?_)
    have hG := Gamma_pos_of_pos hy
    rw [Real.rpow_sub hG, Real.rpow_one]
    have := (Real.rpow_pos_of_pos hG t).ne'
    field_simp
  refine ⟨key x h hx h0 h1, ?_⟩
  have := key (x + h) (1 - h) hxh (by linarith) (by linarith)
  rw [show x + h + (1 - h) = x + 1 by ring, Gamma_add_one hx.ne', Real.rpow_sub hxh, Real.rpow_one] at this
  have hp := Real.rpow_pos_of_pos hxh h
  have hG := Gamma_pos_of_pos hx
  have hG2 := Gamma_pos_of_pos hxh
  rw [show Gamma (x + h) * ((x + h) / (x + h) ^ h) = Gamma (x + h) * (x + h) / (x + h) ^ h by ring, le_div_iff₀ hp] at this
  rw [show Gamma x * (x / (x + h)) * (x + h) ^ h = (x * Gamma x * (x + h) ^ h) / (x + h) by ring, div_le_iff₀ hxh]
  exact this

/-! ### `K_0` near zero -/

theorem kv_zero_small {z : ℝ} (hz : 0 < z) (hz2 : z ≤ 1 / 10) :
    |kv 0 z - (deriv Gamma 1 - Real.log (z / 2))| ≤ (|deriv Gamma 1 - Real.log (z / 2)| + 1) * (4 * z ^ 2) := by
  have hs := (exact_hasSum (v := 0) (by norm_num) hz).1
  have hf : (exactInit 0 z).f = deriv Gamma 1 - Real.log (z / 2) := by
    show (gamma1 0 * Real.cosh (-0 * Real.log (z / 2)) + gamma2 0 * (-Real.log (z / 2))
        * (if -0 * Real.log (z / 2) = 0 then 1 else _)) / npSinc 0 = _
    rw [gamma2_zero, gamma1, if_pos rfl]
    simp [npSinc]
    ring
  have hp : (exactInit 0 z).p = 1 / 2 := by rw [exactInit_p 0 hz]; simp [Gamma_one]
  have hq : (exactInit 0 z).q = 1 / 2 := by rw [exactInit_q 0 hz]; simp [Gamma_one]
  obtain ⟨M, hM⟩ : ∃ M, M = |deriv Gamma 1 - Real.log (z / 2)| + 1 := ⟨_, rfl⟩
  have hA := abs_nonneg (deriv Gamma 1 - Real.log (z / 2))
  have hb := fun k => (term_bound (v := 0) (by norm_num) z (exactStart 0 z) (M := M) (by rw [hf, hM]; linarith)
    (by rw [hp, hM, abs_of_pos (by norm_num)]; linarith) (by rw [hq, hM, abs_of_pos (by norm_num)]; linarith) k).1
  have e0 : kvTerm 0 z (exactInit 0 z) 0 = deriv Gamma 1 - Real.log (z / 2) := by
    rw [kvTerm, iter_coeff 0 z (exactStart 0 z), temmeIter, hf]; simp
  have hs1 := (hasSum_nat_add_iff' 1).mpr hs
  rw [Finset.sum_range_one, e0] at hs1
  have hx : (0 : ℝ) ≤ 2 * z ^ 2 := by positivity
  have hg : HasSum (fun k : ℕ => M * ((2 * z ^ 2) ^ (k + 1) / ((k + 1).factorial : ℝ))) (M * (exp (2 * z ^ 2) - 1)) := by
    have he : HasSum (fun k : ℕ => (2 * z ^ 2) ^ k / (k.factorial : ℝ)) (exp (2 * z ^ 2)) := by
      rw [Real.exp_eq_exp_ℝ]; exact NormedSpace.exp_series_hasSum_exp' (𝕂 := ℝ) (2 * z ^ 2) |>.congr_fun (by
        intro k; simp [div_eq_inv_mul])
    have := ((hasSum_nat_add_iff' 1).mpr he).mul_left M
    simpa using this
  have h1 := hs1.norm_le_of_bounded hg (fun k => hb (k + 1))
  have h2 : exp (2 * z ^ 2) - 1 ≤ 4 * z ^ 2 := by
    have := (abs_le.mp (Real.abs_exp_sub_one_le (x := 2 * z ^ 2) (by rw [abs_of_nonneg hx]; nlinarith))).2
    rw [abs_of_nonneg hx] at this
    linarith
  rw [Real.norm_eq_abs] at h1
  rw [← hM]
  refine h1.trans (mul_le_mul_of_nonneg_left h2 ?_)
  rw [hM]; linarith

/-- Euler's constant from the coefficient table. -/
theorem euler_close : |deriv Gamma 1 + 0.57721566490153286| ≤ 1 / 10 ^ 15 := by
  have h := coeff1_close (v := 0) (by norm_num)
  rw [gamma1, if_pos rfl] at h
  have e : |(evaluateTemmeCoeffs 0).coeff1 + 0.57721566490153286| ≤ 1 / 10 ^ 16 := by
    simp only [evaluateTemmeCoeffs, ofCoeffs, clenshaw, coeff1Coeffs, List.tail, clenshawLoop, List.headD]
    rw [abs_le]
    constructor <;> norm_num
  have := abs_sub_le (deriv Gamma 1) ((evaluateTemmeCoeffs 0).coeff1) (-0.57721566490153286)
  rw [sub_neg_eq_add, sub_neg_eq_add, abs_sub_comm (deriv Gamma 1)] at this
  norm_num at this h e ⊢
  linarith

end JG.BesK
