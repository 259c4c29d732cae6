import Verif.Props.SpergelValue

/-!
# Spergel profile near its centre: error of the series for the surface brightness (C96)
-/

namespace JG.Elt

open Real Set MeasureTheory JG.BesK

theorem dist_half {nu d : ℝ} (h : ∀ n : ℤ, d ≤ |nu - n|) : d ≤ 1 / 2 :=
  (h (round nu)).trans (abs_sub_round nu)

theorem dist_shift {nu d : ℝ} (hd : 1e-9 ≤ d) (h : ∀ n : ℤ, d ≤ |nu - n|) (n : ℤ) : 0.9 * d ≤ |nu + 1e-10 - n| := by
  have k := h n
  have k2 := abs_sub_abs_le_abs_sub (nu - n) (-1e-10)
  rw [show nu - (n : ℝ) - -1e-10 = nu + 1e-10 - n by ring, abs_neg, abs_of_pos (show (0 : ℝ) < 1e-10 by norm_num)] at k2
  norm_num at *
  linarith

/-- The leading term is at least 0.39. -/
theorem lead_ge {nu : ℝ} (hn : 0 < nu) : 0.39 ≤ (2 : ℝ) ^ (nu - 1) * Gamma nu := by
  have h1 := gamma_ge' hn
  have h2 : (1 / 2 : ℝ) ≤ 2 ^ (nu - 1) := by
    rw [Real.rpow_sub (by norm_num), Real.rpow_one]
    have := Real.one_le_rpow (show (1 : ℝ) ≤ 2 by norm_num) hn.le
    linarith
  norm_num at *
  nlinarith

/-- The effect of the index being moved by `e`. -/
theorem shift_pos' {nu e : ℝ} (hn : 0 < nu) (hn4 : nu ≤ 4) (he : 0 < e) (he1 : e ≤ 1) :
    |2 ^ (nu + e - 1) * Gamma (nu + e) - 2 ^ (nu - 1) * Gamma nu| ≤ (7 * e + 1.5 * e / nu) * (2 ^ (nu - 1) * Gamma nu) := by
  obtain ⟨k1, k2⟩ := gamma_step (x := nu) (h := e) hn he.le he1
  have hG := Gamma_pos_of_pos hn
  have h2 : (0 : ℝ) < 2 ^ (nu - 1) := by positivity
  have e0 : (2 : ℝ) ^ (nu + e - 1) = 2 ^ (nu - 1) * 2 ^ e := by
    rw [← Real.rpow_add (by norm_num)]; congr 1; ring
  have hm : 0 < nu + e := by linarith
  have h2p : (0 : ℝ) < 2 ^ e := by positivity
  obtain ⟨P, hP⟩ : ∃ P, P = (2 : ℝ) ^ (nu - 1) * Gamma nu := ⟨_, rfl⟩
  have hP0 : 0 < P := by rw [hP]; positivity
  have up : 2 ^ (nu + e - 1) * Gamma (nu + e) ≤ P * (1 + 7 * e) := by
    have a1 : (2 * nu) ^ e ≤ 1 + 7 * e := by
      have := rpow_one_add_le_one_add_mul_self (s := 2 * nu - 1) (p := e) (by linarith) he.le he1
      rw [show 1 + (2 * nu - 1) = 2 * nu by ring] at this
      nlinarith
    rw [Real.mul_rpow (by norm_num) hn.le] at a1
    calc _ ≤ 2 ^ (nu - 1) * 2 ^ e * (Gamma nu * nu ^ e) := by
          rw [e0]; exact mul_le_mul_of_nonneg_left k1 (by positivity)
      _ = P * (2 ^ e * nu ^ e) := by rw [hP]; ring
      _ ≤ _ := mul_le_mul_of_nonneg_left a1 hP0.le
  have lo : P * (1 - 1.5 * e / nu) ≤ 2 ^ (nu + e - 1) * Gamma (nu + e) := by
    have a1 : 1 - 0.5 * e / nu ≤ (2 * (nu + e)) ^ e := by
      rw [Real.rpow_def_of_pos (by positivity)]
      have b1 := Real.add_one_le_exp (Real.log (2 * (nu + e)) * e)
      have b2 := Real.one_sub_inv_le_log_of_pos (show 0 < 2 * (nu + e) by positivity)
      have b3 : (2 * (nu + e))⁻¹ ≤ 0.5 / nu := by
        rw [mul_inv, div_eq_mul_inv]
        have : (nu + e)⁻¹ ≤ nu⁻¹ := inv_anti₀ hn (by linarith)
        norm_num
        linarith
      have b4 : 0.5 * e / nu = e * (0.5 / nu) := by ring
      rw [b4]
      nlinarith
    have a2 : 1 - e / nu ≤ nu / (nu + e) := by
      rw [le_div_iff₀ hm]
      have : e / nu * nu = e := div_mul_cancel₀ _ hn.ne'
      have : 0 ≤ e / nu * e := by positivity
      nlinarith
    have a3 : 1 - 1.5 * e / nu ≤ nu / (nu + e) * (2 * (nu + e)) ^ e := by
      have c0 : 0 ≤ nu / (nu + e) := by positivity
      have c1 : nu / (nu + e) ≤ 1 := by rw [div_le_one hm]; linarith
      have c2 : 0 ≤ 0.5 * e / nu := by positivity
      have c3 := mul_le_mul_of_nonneg_left a1 c0
      have c4 : 1.5 * e / nu = e / nu + 0.5 * e / nu := by rw [← add_div]; ring
      nlinarith
    rw [Real.mul_rpow (by norm_num) hm.le] at a3
    calc _ ≤ P * (nu / (nu + e) * (2 ^ e * (nu + e) ^ e)) := mul_le_mul_of_nonneg_left a3 hP0.le
      _ = 2 ^ (nu - 1) * 2 ^ e * (Gamma nu * (nu / (nu + e)) * (nu + e) ^ e) := by rw [hP]; ring
      _ ≤ _ := by rw [e0]; exact mul_le_mul_of_nonneg_left k2 (by positivity)
  rw [← hP, abs_le]
  have q0 : 0 ≤ 1.5 * e / nu * P := by positivity
  have q1 : 0 ≤ 7 * e * P := by positivity
  constructor <;> linarith

theorem shift_pos {nu : ℝ} (hn : 0 < nu) (hn4 : nu ≤ 4) :
    |2 ^ (nu + 1e-10 - 1) * Gamma (nu + 1e-10) - 2 ^ (nu - 1) * Gamma nu| ≤
      (7e-10 + 1.5e-10 / nu) * (2 ^ (nu - 1) * Gamma nu) := by
  have := shift_pos' hn hn4 (e := 1e-10) (by norm_num) (by norm_num)
  rw [show (7 * 1e-10 : ℝ) = 7e-10 by norm_num, show (1.5 * 1e-10 : ℝ) = 1.5e-10 by norm_num] at this
  exact this

theorem true_pos {nu z d : ℝ} (hn : 0 < nu) (hd : 1e-9 ≤ d) (h : ∀ n : ℤ, d ≤ |nu - n|) (hz : 0 < z) (hz2 : z ≤ 1e-10) :
    |2 ^ (nu - 1) * kvInt nu z - 2 ^ (nu - 1) * Gamma nu| ≤ (3 * z ^ (2 * nu) + 1e-18) / d * (2 ^ (nu - 1) * Gamma nu) := by
  have hd0 : 0 < d := lt_of_lt_of_le (by norm_num) hd
  have hG := Gamma_pos_of_pos hn
  have h2 : (0 : ℝ) < 2 ^ (nu - 1) := by positivity
  have hL := lead_ge hn
  have hzn : 0 ≤ z ^ (2 * nu) := Real.rpow_nonneg hz.le _
  have hz3 : z ^ 2 ≤ 1e-20 := by nlinarith
  obtain ⟨P, hP⟩ : ∃ P, P = (2 : ℝ) ^ (nu - 1) * Gamma nu := ⟨_, rfl⟩
  rw [← hP] at hL
  have hP0 : 0 < P := lt_of_lt_of_le (by norm_num) hL
  have h1 : nu ≠ 1 := by
    intro h1; have := h 1; rw [h1] at this; norm_num at this; linarith
  rcases lt_or_gt_of_ne h1 with hlt | hgt
  · rw [true_value hn hlt hz]
    have hd1 : d ≤ 1 - nu := by
      have := h 1
      rw [abs_sub_comm, abs_of_pos (by push_cast; linarith)] at this
      push_cast at this; exact this
    obtain ⟨y, hy⟩ : ∃ y, y = z ^ 2 / 4 := ⟨_, rfl⟩
    have hy0 : 0 ≤ y := by rw [hy]; positivity
    have hy1 : y ≤ 1e-20 := by rw [hy]; norm_num at *; linarith
    rw [← hy]
    have hq : y / (1 - nu) ≤ 1e-20 / d := div_le_div₀ (by norm_num) hy1 hd0 hd1
    have hq0 : 0 ≤ y / (1 - nu) := div_nonneg hy0 (by linarith)
    have hd9 : 1e-20 / d ≤ 1 := by rw [div_le_iff₀ hd0]; norm_num at *; linarith
    have g1 := gFun_two (mu := nu) (by linarith) hy0 (by norm_num at *; linarith)
    have g1' := gFun_ge_one (mu := nu) (by linarith) hy0
    have g2 := gFun_two (mu := -nu) (by linarith) hy0 (by norm_num at *; linarith)
    have g2' := gFun_ge_one (mu := -nu) (by linarith) hy0
    have hgn := gamma_neg_le (by linarith) hd0 h
    have k1 : |gFun nu y - 1| ≤ 1e-18 / d := by
      rw [abs_of_nonneg (by linarith)]
      have : (y / (1 - nu)) ^ 2 ≤ 1e-20 / d := by
        rw [sq]; exact (mul_le_of_le_one_left hq0 (hq.trans hd9)).trans hq
      have : 1e-18 / d = 100 * (1e-20 / d) := by ring
      have : 0 ≤ 1e-20 / d := by positivity
      linarith
    have k2 : |gFun (-nu) y| ≤ 1.01 := by
      rw [abs_of_nonneg (by linarith)]
      have a1 : y / (1 - -nu) ≤ y / 1 := div_le_div_of_nonneg_left hy0 one_pos (by linarith)
      have a0 : 0 ≤ y / (1 - -nu) := div_nonneg hy0 (by linarith)
      rw [div_one] at a1
      have a2 : (y / (1 - -nu)) ^ 2 ≤ (1e-20) ^ 2 := pow_le_pow_left₀ a0 (a1.trans hy1) 2
      norm_num at *
      linarith
    have k3 : |2 ^ (-nu - 1) * Gamma (-nu) * z ^ (2 * nu)| ≤ 1.05 / d * z ^ (2 * nu) := by
      rw [abs_mul, abs_mul, abs_of_nonneg hzn, abs_of_pos (by positivity : (0 : ℝ) < 2 ^ (-nu - 1))]
      have a1 : (2 : ℝ) ^ (-nu - 1) ≤ 1 / 2 := by
        have : (2 : ℝ) ^ (-nu - 1) ≤ 2 ^ (-1 : ℝ) := Real.rpow_le_rpow_of_exponent_le (by norm_num) (by linarith)
        rw [Real.rpow_neg_one] at this
        linarith
      refine mul_le_mul_of_nonneg_right ?_ hzn
      calc _ ≤ 1 / 2 * (2.1 / d) := mul_le_mul a1 hgn (abs_nonneg _) (by norm_num)
        _ = _ := by ring
    rw [← hP, show P * gFun nu y + 2 ^ (-nu - 1) * Gamma (-nu) * z ^ (2 * nu) * gFun (-nu) y - P =
      P * (gFun nu y - 1) + 2 ^ (-nu - 1) * Gamma (-nu) * z ^ (2 * nu) * gFun (-nu) y by ring]
    refine (abs_add_le _ _).trans ?_
    rw [abs_mul, abs_mul (2 ^ (-nu - 1) * Gamma (-nu) * z ^ (2 * nu)), abs_of_pos hP0]
    have m1 := mul_le_mul_of_nonneg_left k1 hP0.le
    have m2 : |2 ^ (-nu - 1) * Gamma (-nu) * z ^ (2 * nu)| * |gFun (-nu) y| ≤ 1.05 / d * z ^ (2 * nu) * 1.01 :=
      mul_le_mul k3 k2 (abs_nonneg _) (by positivity)
    have m3 : 1.05 / d * z ^ (2 * nu) * 1.01 ≤ 3 * z ^ (2 * nu) / d * P := by
      have : 3 * z ^ (2 * nu) / d * 0.39 ≤ 3 * z ^ (2 * nu) / d * P := mul_le_mul_of_nonneg_left hL (by positivity)
      have : 1.05 / d * z ^ (2 * nu) * 1.01 = 1.0605 * (z ^ (2 * nu) / d) := by ring
      have : 3 * z ^ (2 * nu) / d * 0.39 = 1.17 * (z ^ (2 * nu) / d) := by ring
      have : 0 ≤ z ^ (2 * nu) / d := by positivity
      norm_num at *
      linarith
    rw [add_div, add_mul]
    linarith
  · obtain ⟨a, b⟩ := kvInt_two_sided hgt hz.le
    have hd1 : d ≤ nu - 1 := by
      have := h 1
      rw [abs_of_pos (by push_cast; linarith)] at this
      push_cast at this; exact this
    have hg1 : Gamma (nu - 1) = Gamma nu / (nu - 1) := by
      have := Gamma_add_one (s := nu - 1) (by linarith)
      rw [sub_add_cancel] at this
      rw [this]
      field_simp [show nu - 1 ≠ 0 by linarith]
    have k : z * z / 4 * Gamma (nu - 1) ≤ 1e-18 / d * Gamma nu := by
      rw [hg1, show z * z / 4 * (Gamma nu / (nu - 1)) = z ^ 2 / 4 / (nu - 1) * Gamma nu by ring]
      refine mul_le_mul_of_nonneg_right ?_ hG.le
      exact div_le_div₀ (by norm_num) (by norm_num at *; linarith) hd0 hd1
    rw [← mul_sub, abs_mul, abs_of_pos h2, abs_of_nonpos (by linarith)]
    have : 2 ^ (nu - 1) * -(kvInt nu z - Gamma nu) ≤ 2 ^ (nu - 1) * (1e-18 / d * Gamma nu) :=
      mul_le_mul_of_nonneg_left (by linarith) h2.le
    refine this.trans ?_
    rw [add_div, add_mul]
    have q : 0 ≤ 3 * z ^ (2 * nu) / d * (2 ^ (nu - 1) * Gamma nu) := by positivity
    linarith

/-- The terms of the series other than the leading one. -/
theorem code_pos {nu z d : ℝ} (hn : 0 < nu) (hn4 : nu ≤ 4) (hd : 1e-9 ≤ d) (h : ∀ n : ℤ, d ≤ |nu - n|) (hz : 0 < z)
    (hz2 : z ≤ 1e-10) :
    |fnuSmall z nu - 2 ^ (nu + 1e-10 - 1) * Gamma (nu + 1e-10)| ≤
      4 * z ^ (2 * nu) / d * (2 ^ (nu - 1) * Gamma nu) + 1e-18 / d * (2 ^ (nu + 1e-10 - 1) * Gamma (nu + 1e-10)) := by
  have hd0 : 0 < d := lt_of_lt_of_le (by norm_num) hd
  have hs := dist_shift hd h
  have hd9 : 0 < 0.9 * d := by positivity
  have hh := dist_half h
  have hL := lead_ge hn
  rw [fnuSmall_eq (by norm_num; linarith) hd9 hs]
  obtain ⟨m, hm⟩ : ∃ m, m = nu + 1e-10 := ⟨_, rfl⟩
  rw [← hm] at hs ⊢
  have hm0 : 0 < m := by rw [hm]; norm_num; linarith
  have hm5 : m ≤ 5 := by rw [hm]; norm_num; linarith
  have hnm : nu ≤ m := by rw [hm]; norm_num
  have hGm := Gamma_pos_of_pos hm0
  have h2 : (0 : ℝ) < 2 ^ (m - 1) := by positivity
  have hgn := gamma_neg_le (nu := m) (by linarith) hd9 hs
  have hzn : 0 ≤ z ^ (2 * nu) := Real.rpow_nonneg hz.le _
  have hz1 : z ≤ 1 := hz2.trans (by norm_num)
  have hz3 : z ^ 2 ≤ 1e-20 := by nlinarith
  rw [abs_of_pos hGm]
  obtain ⟨P, hP⟩ : ∃ P, P = (2 : ℝ) ^ (nu - 1) * Gamma nu := ⟨_, rfl⟩
  obtain ⟨Q, hQ⟩ : ∃ Q, Q = (2 : ℝ) ^ (m - 1) * Gamma m := ⟨_, rfl⟩
  have hQ0 : 0 < Q := by rw [hQ]; positivity
  rw [← hP, ← hQ]
  rw [← hP] at hL
  have t1 : |2 ^ (-1 - m) * z ^ (2 * m) * |Gamma (-m)| * (1 + z ^ 6 / (4 * (1 + m)))| ≤ 4 * z ^ (2 * nu) / d * P := by
    have a0 : 0 ≤ z ^ (2 * m) := Real.rpow_nonneg hz.le _
    rw [abs_of_nonneg (by positivity)]
    have a1 : (2 : ℝ) ^ (-1 - m) ≤ 1 / 2 := by
      have : (2 : ℝ) ^ (-1 - m) ≤ 2 ^ (-1 : ℝ) := Real.rpow_le_rpow_of_exponent_le (by norm_num) (by linarith)
      rw [Real.rpow_neg_one] at this
      linarith
    have a2 : z ^ (2 * m) ≤ z ^ (2 * nu) := Real.rpow_le_rpow_of_exponent_ge hz hz1 (by linarith)
    have a3 : 1 + z ^ 6 / (4 * (1 + m)) ≤ 1.01 := by
      have : z ^ 6 / (4 * (1 + m)) ≤ z ^ 6 / 1 := div_le_div_of_nonneg_left (by positivity) one_pos (by linarith)
      have h6 : z ^ 6 ≤ (1e-10) ^ 6 := pow_le_pow_left₀ hz.le hz2 6
      norm_num at *
      linarith
    have b1 : (2 : ℝ) ^ (-1 - m) * z ^ (2 * m) ≤ 1 / 2 * z ^ (2 * nu) := mul_le_mul a1 a2 a0 (by norm_num)
    have b2 : (2 : ℝ) ^ (-1 - m) * z ^ (2 * m) * |Gamma (-m)| ≤ 1 / 2 * z ^ (2 * nu) * (2.1 / (0.9 * d)) :=
      mul_le_mul b1 hgn (abs_nonneg _) (by positivity)
    have b3 : (2 : ℝ) ^ (-1 - m) * z ^ (2 * m) * |Gamma (-m)| * (1 + z ^ 6 / (4 * (1 + m))) ≤
      1 / 2 * z ^ (2 * nu) * (2.1 / (0.9 * d)) * 1.01 := mul_le_mul b2 a3 (by positivity) (by positivity)
    refine b3.trans ?_
    have : 4 * z ^ (2 * nu) / d * 0.39 ≤ 4 * z ^ (2 * nu) / d * P := mul_le_mul_of_nonneg_left hL (by positivity)
    refine le_trans ?_ this
    have e1 : 1 / 2 * z ^ (2 * nu) * (2.1 / (0.9 * d)) * 1.01 = (1 / 2 * 2.1 / 0.9 * 1.01) * (z ^ (2 * nu) / d) := by
      field_simp
    have e2 : 4 * z ^ (2 * nu) / d * 0.39 = (4 * 0.39) * (z ^ (2 * nu) / d) := by ring
    rw [e1, e2]
    exact mul_le_mul_of_nonneg_right (by norm_num) (by positivity)
  have t2 : |z ^ 2 * (16 + z ^ 2 - 8 * m) / (32 * |(m - 1) * (m - 2)|)| ≤ 1e-18 / d := by
    have a1 := hs 1
    have a2 := hs 2
    push_cast at a1 a2
    have a3 : 0.4 * d ≤ |(m - 1) * (m - 2)| := by
      rw [abs_mul]
      rcases le_total (1 / 2) |m - 1| with k | k
      · have := mul_le_mul k a2 hd9.le (abs_nonneg _)
        linarith
      · have k2 : 1 / 2 ≤ |m - 2| := by
          have := abs_sub_abs_le_abs_sub (1 : ℝ) (m - 1)
          rw [abs_one, show (1 : ℝ) - (m - 1) = -(m - 2) by ring, abs_neg] at this
          linarith
        have := mul_le_mul a1 k2 (by norm_num) (abs_nonneg _)
        linarith
    rw [abs_div, abs_mul, abs_of_nonneg (sq_nonneg z), abs_of_nonneg (by positivity : 0 ≤ 32 * |(m - 1) * (m - 2)|)]
    have b1 : |16 + z ^ 2 - 8 * m| ≤ 100 := by
      rw [abs_le]; norm_num at *; constructor <;> nlinarith [sq_nonneg z]
    have b2 : z ^ 2 * |16 + z ^ 2 - 8 * m| ≤ 1e-20 * 100 := mul_le_mul hz3 b1 (abs_nonneg _) (by norm_num)
    have b3 : d ≤ 32 * |(m - 1) * (m - 2)| := by linarith
    refine (div_le_div₀ (by norm_num) b2 hd0 b3).trans (le_of_eq ?_)
    norm_num
  obtain ⟨A, hA⟩ : ∃ A, A = 2 ^ (-1 - m) * z ^ (2 * m) * |Gamma (-m)| * (1 + z ^ 6 / (4 * (1 + m))) := ⟨_, rfl⟩
  obtain ⟨B, hB⟩ : ∃ B, B = z ^ 2 * (16 + z ^ 2 - 8 * m) / (32 * |(m - 1) * (m - 2)|) := ⟨_, rfl⟩
  rw [← hA] at t1 ⊢
  rw [← hB] at t2 ⊢
  rw [show A + Q * (1 + B) - Q = A + Q * B by ring]
  refine (abs_add_le _ _).trans (add_le_add t1 ?_)
  rw [abs_mul, abs_of_pos hQ0, mul_comm]
  exact mul_le_mul_of_nonneg_right t2 hQ0.le

theorem value_pos {nu z d : ℝ} (hn : 0 < nu) (hn4 : nu ≤ 4) (hd : 1e-9 ≤ d) (h : ∀ n : ℤ, d ≤ |nu - n|) (hz : 0 < z)
    (hz2 : z ≤ 1e-10) :
    |fnuSmall z nu - 2 ^ (nu - 1) * kvInt nu z| ≤ (1e-9 + 10 * z ^ (2 * nu)) / d * (2 ^ (nu - 1) * Gamma nu) := by
  have hd0 : 0 < d := lt_of_lt_of_le (by norm_num) hd
  have hh := dist_half h
  have hL := lead_ge hn
  have hdn : d ≤ nu := by have := h 0; simpa [abs_of_pos hn] using this
  have c1 := code_pos hn hn4 hd h hz hz2
  have c2 := shift_pos hn hn4
  have c3 := true_pos hn hd h hz hz2
  have hzn : 0 ≤ z ^ (2 * nu) := Real.rpow_nonneg hz.le _
  obtain ⟨P, hP⟩ : ∃ P, P = (2 : ℝ) ^ (nu - 1) * Gamma nu := ⟨_, rfl⟩
  obtain ⟨Q, hQ⟩ : ∃ Q, Q = (2 : ℝ) ^ (nu + 1e-10 - 1) * Gamma (nu + 1e-10) := ⟨_, rfl⟩
  obtain ⟨C, hC⟩ : ∃ C, C = fnuSmall z nu := ⟨_, rfl⟩
  obtain ⟨T, hT⟩ : ∃ T, T = (2 : ℝ) ^ (nu - 1) * kvInt nu z := ⟨_, rfl⟩
  rw [← hP] at hL
  rw [← hP, ← hQ, ← hC] at c1
  rw [← hP, ← hQ] at c2
  rw [← hP, ← hT] at c3
  rw [← hP, ← hC, ← hT]
  have hP0 : 0 < P := lt_of_lt_of_le (by norm_num) hL
  have hr : 1.5e-10 / nu ≤ 1.5e-10 / d := div_le_div_of_nonneg_left (by norm_num) hd0 hdn
  have hr1 : 7e-10 ≤ 3.5e-10 / d := by rw [le_div_iff₀ hd0]; norm_num at *; linarith
  have hr2 : 1.5e-10 / d = 1.5e-10 * (1 / d) := by ring
  have hr3 : 3.5e-10 / d = 3.5e-10 * (1 / d) := by ring
  obtain ⟨w, hw⟩ : ∃ w, w = 1 / d := ⟨_, rfl⟩
  rw [← hw] at hr2 hr3
  have hw9 : w ≤ 1e9 := by rw [hw, div_le_iff₀ hd0]; norm_num at *; linarith
  have hw0 : 0 < w := by rw [hw]; positivity
  have s2 : |Q - P| ≤ 5e-10 * w * P := by
    refine c2.trans (mul_le_mul_of_nonneg_right ?_ hP0.le)
    norm_num at *
    linarith
  have hQ2 : Q ≤ 2 * P := by
    have := (abs_le.mp s2).2
    have : 5e-10 * w * P ≤ 1 * P := by
      refine mul_le_mul_of_nonneg_right ?_ hP0.le
      norm_num at *; linarith
    linarith
  have s1 : |C - Q| ≤ 4 * z ^ (2 * nu) * w * P + 2e-18 * w * P := by
    have e1 : 4 * z ^ (2 * nu) / d * P = 4 * z ^ (2 * nu) * w * P := by rw [hw]; ring
    have e2 : 1e-18 / d * Q ≤ 1e-18 / d * (2 * P) := mul_le_mul_of_nonneg_left hQ2 (by positivity)
    have e3 : 1e-18 / d * (2 * P) = 2e-18 * w * P := by rw [hw]; ring
    linarith
  have s3 : |T - P| ≤ 3 * z ^ (2 * nu) * w * P + 1e-18 * w * P := by
    refine c3.trans (le_of_eq ?_)
    rw [hw]; ring
  have e : (1e-9 + 10 * z ^ (2 * nu)) / d * P = 1e-9 * (w * P) + 10 * (z ^ (2 * nu) * w * P) := by rw [hw]; ring
  have f1 : 0 ≤ w * P := by positivity
  have f2 : 0 ≤ z ^ (2 * nu) * w * P := by positivity
  rw [e, show C - T = (C - Q) + (Q - P) - (T - P) by ring]
  have := abs_sub ((C - Q) + (Q - P)) (T - P)
  have := abs_add_le (C - Q) (Q - P)
  norm_num at *
  linarith

/-! ### Integer index -/

theorem value_int {z : ℝ} (hz : 0 ≤ z) (hz2 : z ≤ 1e-10) (n : ℕ) (h1 : 1 ≤ n) (hn : n ≤ 4) :
    |fsmallzNu z n - 2 ^ ((n : ℝ) - 1) * kvInt n z| ≤ 5e-15 * (2 ^ ((n : ℝ) - 1) * Gamma n) := by
  obtain ⟨k, rfl⟩ : ∃ k, n = k + 1 := ⟨n - 1, by omega⟩
  have e : fsmallzNu z ((k + 1 : ℕ) : ℝ) = fsmallzNup1 z k := by
    have : k = 0 ∨ k = 1 ∨ k = 2 ∨ k = 3 := by omega
    rcases this with rfl | rfl | rfl | rfl <;> norm_num [fsmallzNu, fsmallzNup1]
  have := small_flux_int hz hz2 k (by omega)
  have hG := Gamma_pos_of_pos (show (0 : ℝ) < k + 1 by positivity)
  have h2 : (0 : ℝ) < 2 ^ (k : ℝ) := by positivity
  rw [e]
  push_cast
  rw [add_sub_cancel_right]
  obtain ⟨F, hF⟩ : ∃ F, F = fsmallzNup1 z k := ⟨_, rfl⟩
  rw [← hF] at this ⊢
  rw [show F - 2 ^ (k : ℝ) * kvInt (k + 1) z = (F / (2 ^ (k : ℝ) * Gamma (k + 1)) - kvInt (k + 1) z / Gamma (k + 1)) *
    (2 ^ (k : ℝ) * Gamma (k + 1)) by field_simp, abs_mul, abs_of_pos (show 0 < (2 : ℝ) ^ (k : ℝ) * Gamma (k + 1) by positivity)]
  exact mul_le_mul_of_nonneg_right this (by positivity)

theorem value_zero {z : ℝ} (hz : 0 < z) (hz2 : z ≤ 1e-10) : |f0 z - kv 0 z| ≤ 1e-9 := by
  have h := kv_zero_small hz (hz2.trans (by norm_num))
  have hg := euler_close
  have hl := Real.log_two_near_10
  have hz3 : z * z ≤ 1e-20 := by nlinarith
  have hzz : 0 ≤ z * z := mul_nonneg hz.le hz.le
  have hz4 : z * z * (z * z) ≤ 1e-20 := by nlinarith
  have hz5 : 0 ≤ z * z * (z * z) := mul_nonneg hzz hzz
  have hzl := z2log_small hz hz2
  obtain ⟨L, hL⟩ : ∃ L, L = Real.log z := ⟨_, rfl⟩
  have e : Real.log (z / 2) = L - Real.log 2 := by rw [hL, Real.log_div hz.ne' (by norm_num)]
  rw [← hL] at hzl
  rw [e] at h
  obtain ⟨g, hg'⟩ : ∃ g, g = deriv Gamma 1 := ⟨_, rfl⟩
  rw [← hg'] at h hg
  have b1 : |g - (L - Real.log 2)| ≤ 2 + |L| := by
    have := abs_le.mp hg
    have := abs_le.mp hl
    have := neg_abs_le L
    have := le_abs_self L
    rw [abs_le]
    norm_num at *
    constructor <;> linarith
  have b2 : |kv 0 z - (g - (L - Real.log 2))| ≤ 1e-15 := by
    refine h.trans ?_
    have : (|g - (L - Real.log 2)| + 1) * (4 * z ^ 2) ≤ (3 + |L|) * (4 * z ^ 2) :=
      mul_le_mul_of_nonneg_right (by linarith) (by positivity)
    refine this.trans ?_
    rw [abs_mul, abs_of_nonneg hzz] at hzl
    have : (3 + |L|) * (4 * z ^ 2) = 12 * (z * z) + 4 * (z * z * |L|) := by ring
    rw [this]
    norm_num at *
    linarith
  have b3 : |z * z * (z * z) * L| ≤ 1e-16 := by
    rw [mul_assoc, abs_mul, abs_of_nonneg hzz]
    have := abs_nonneg (z * z * L)
    nlinarith
  have b4 : f0 z - kv 0 z = (0.11593151565841244881 + 0.27898287891460311220 * (z * z) + 0.025248929932162694513 * (z * z * (z * z))
      - 0.25 * (z * z * L) - 0.015625 * (z * z * (z * z) * L)) - g - Real.log 2 - (kv 0 z - (g - (L - Real.log 2))) := by
    simp only [f0]
    rw [← hL]
    ring
  rw [b4, abs_le]
  obtain ⟨c1, c2⟩ := abs_le.mp b2
  obtain ⟨c3, c4⟩ := abs_le.mp b3
  obtain ⟨c5, c6⟩ := abs_le.mp hzl
  obtain ⟨c7, c8⟩ := abs_le.mp hg
  obtain ⟨c9, c10⟩ := abs_le.mp hl
  clear b4 h b1 b2 b3 hzl hg hl
  norm_num at *
  constructor <;> linarith

/-! ### Negative index -/

theorem gamma_small_le {m d : ℝ} (h0 : -0.85 ≤ m) (hd : 0 < d) (hm : d ≤ -m) : |Gamma m| ≤ 1 / (0.15 * d) := by
  norm_num at h0
  have e1 := Gamma_add_one (s := m) (by linarith)
  have e2 := Gamma_add_one (s := m + 1) (by linarith)
  rw [e1] at e2
  have k := gamma_le_one (x := m + 1 + 1) (by linarith) (by linarith)
  have k0 := Gamma_pos_of_pos (show 0 < m + 1 + 1 by linarith)
  have e3 : |Gamma m| * ((m + 1) * -m) = Gamma (m + 1 + 1) := by
    rw [← abs_of_pos k0, e2, abs_mul, abs_mul, abs_of_pos (show 0 < m + 1 by linarith), abs_of_neg (show m < 0 by linarith)]
    ring
  rw [le_div_iff₀ (by positivity)]
  have : 0.15 * d ≤ (m + 1) * -m := mul_le_mul (by norm_num; linarith) hm hd.le (by linarith)
  have := mul_le_mul_of_nonneg_left this (abs_nonneg (Gamma m))
  linarith

theorem neg_lead {a b e W ζ s H L d Pa Pb : ℝ} (hW : 0 < W) (hd : 1e-9 ≤ d) (hh : d ≤ 1 / 2) (he : e = 1e-10)
    (hb : 0.9 * d ≤ b) (hP : |Pa - Pb| ≤ (7 * e + 1.5 * e / b) * Pb) (hPb : 0 < Pb) (hPa : 0 < Pa)
    (hζ : 1 - 2 * e * |L| ≤ ζ) (hζ1 : ζ ≤ 1) (hζ0 : 0 ≤ ζ) (hs0 : 0 ≤ s) (hs : s ≤ 1e-18) (hH : 1 ≤ H) (hH1 : H ≤ 1 + 1e-18)
    (_ : a = b + e) :
    |Pb * (W * ζ) * (1 + s) - Pa * W * H| ≤ 1e-9 * (2 + |L|) / d * (Pa * W) := by
  have hd0 : 0 < d := lt_of_lt_of_le (by norm_num) hd
  have hb0 : 0 < b := lt_of_lt_of_le (by positivity) hb
  obtain ⟨w, hw⟩ : ∃ w, w = 1 / d := ⟨_, rfl⟩
  have hw9 : w ≤ 1e9 := by rw [hw, div_le_iff₀ hd0]; norm_num at *; linarith
  have hw2 : 2 ≤ w := by rw [hw, le_div_iff₀ hd0]; linarith
  have hδ : 7 * e + 1.5 * e / b ≤ 5.2e-10 * w := by
    have : 1.5 * e / b ≤ 1.5 * e / (0.9 * d) := div_le_div_of_nonneg_left (by rw [he]; norm_num) (by positivity) hb
    have e2 : 1.5 * e / (0.9 * d) = 1.5 * e / 0.9 * w := by rw [hw]; field_simp
    rw [he] at *
    norm_num at *
    linarith
  have hd1 : |Pa - Pb| ≤ 5.2e-10 * w * Pb := hP.trans (mul_le_mul_of_nonneg_right hδ hPb.le)
  have hPb2 : Pb ≤ 2.1 * Pa := by
    have k1 : 5.2e-10 * w * Pb ≤ 0.52 * Pb := mul_le_mul_of_nonneg_right (by norm_num at *; linarith) hPb.le
    have := (abs_le.mp hd1).1
    norm_num at *
    linarith
  -- a sharper comparison is not needed
  have hL := abs_nonneg L
  have f1 : |Pa - Pb| ≤ 1.1e-9 * w * Pa := by
    refine hd1.trans ?_
    have := mul_le_mul_of_nonneg_left hPb2 (show 0 ≤ 5.2e-10 * w by positivity)
    have k : 0 ≤ w * Pa := by positivity
    norm_num at *
    linarith
  have f2 : Pb * (1 - ζ) ≤ 4.2e-10 * |L| * Pa := by
    have : Pb * (1 - ζ) ≤ 2.1 * Pa * (2 * e * |L|) := mul_le_mul hPb2 (by linarith) (by linarith) (by positivity)
    refine this.trans (le_of_eq ?_)
    rw [he]; ring
  have f3 : Pb * ζ * s ≤ 2.1 * Pa * 1 * 1e-18 :=
    mul_le_mul (mul_le_mul hPb2 hζ1 hζ0 (by positivity)) hs hs0 (by positivity)
  have f4 : Pa * (H - 1) ≤ Pa * 1e-18 := mul_le_mul_of_nonneg_left (by linarith) hPa.le
  have g2 : 0 ≤ Pb * (1 - ζ) := mul_nonneg hPb.le (by linarith)
  have g3 : 0 ≤ Pb * ζ * s := by positivity
  have g4 : 0 ≤ Pa * (H - 1) := mul_nonneg hPa.le (by linarith)
  rw [show Pb * (W * ζ) * (1 + s) - Pa * W * H = W * (-(Pa - Pb) - Pb * (1 - ζ) + Pb * ζ * s - Pa * (H - 1)) by ring,
    abs_mul, abs_of_pos hW, show 1e-9 * (2 + |L|) / d * (Pa * W) = W * (1e-9 * (2 + |L|) * w * Pa) by rw [hw]; ring]
  refine mul_le_mul_of_nonneg_left ?_ hW.le
  obtain ⟨c1, c2⟩ := abs_le.mp f1
  have k1 : 2 * Pa ≤ w * Pa := mul_le_mul_of_nonneg_right hw2 hPa.le
  have k2 : 2 * (|L| * Pa) ≤ w * (|L| * Pa) := mul_le_mul_of_nonneg_right hw2 (by positivity)
  have k3 : 1e-9 * (2 + |L|) * w * Pa = 2e-9 * (w * Pa) + 1e-9 * (w * (|L| * Pa)) := by ring
  have k4 : 0 ≤ |L| * Pa := by positivity
  have k5 : 4.2e-10 * |L| * Pa = 4.2e-10 * (|L| * Pa) := by ring
  have k6 : 1.1e-9 * w * Pa = 1.1e-9 * (w * Pa) := by ring
  rw [k3, abs_le]
  rw [k5] at f2
  rw [k6] at c1 c2
  norm_num at *
  constructor <;> linarith

set_option maxHeartbeats 1000000 in
theorem value_neg {nu z d : ℝ} (hn : -0.85 ≤ nu) (hn0 : nu < 0) (hd : 1e-9 ≤ d) (h : ∀ n : ℤ, d ≤ |nu - n|) (hz : 0 < z)
    (hz2 : z ≤ 1e-10) :
    |fnuSmall z nu - 2 ^ (nu - 1) * kvInt nu z| ≤ (1e-9 * (2 + |Real.log z|) + 20 * z ^ (-(2 * nu))) / d *
      (2 ^ (-nu - 1) * Gamma (-nu) * z ^ (2 * nu)) := by
  have hd0 : 0 < d := lt_of_lt_of_le (by norm_num) hd
  have hs := dist_shift hd h
  have hd9 : 0 < 0.9 * d := by positivity
  have hh := dist_half h
  have hdn : d ≤ -nu := by have := h 0; simpa [abs_of_neg hn0] using this
  have hz1 : z ≤ 1 := hz2.trans (by norm_num)
  have hz3 : z ^ 2 ≤ 1e-20 := by nlinarith
  rw [fnuSmall_eq (by norm_num at *; linarith) hd9 hs, small_exact hn0.ne (by linarith) (by norm_num at hn; linarith) hz]
  obtain ⟨e, he⟩ : ∃ e : ℝ, e = 1e-10 := ⟨_, rfl⟩
  have he0 : 0 < e := by rw [he]; norm_num
  rw [← he]
  obtain ⟨b, hb⟩ : ∃ b, b = -(nu + e) := ⟨_, rfl⟩
  have hbd : 0.9 * d ≤ b := by rw [hb, he]; norm_num at *; linarith
  have hb0 : 0 < b := lt_of_lt_of_le hd9 hbd
  have hm : nu + e = -b := by rw [hb]; ring
  have hnb : -nu = b + e := by rw [hb]; ring
  have hb1 : b ≤ 0.85 := by rw [hb]; norm_num at *; linarith
  have hW : 0 < z ^ (2 * nu) := Real.rpow_pos_of_pos hz _
  have hWi : z ^ (-(2 * nu)) * z ^ (2 * nu) = 1 := by rw [← Real.rpow_add hz]; simp
  have hζe : z ^ (2 * (nu + e)) = z ^ (2 * nu) * z ^ (2 * e) := by rw [← Real.rpow_add hz]; congr 1; ring
  have hζ1 : z ^ (2 * e) ≤ 1 := Real.rpow_le_one hz.le hz1 (by linarith)
  have hζ0 : 0 ≤ z ^ (2 * e) := Real.rpow_nonneg hz.le _
  have hlog : Real.log z ≤ 0 := Real.log_nonpos hz.le hz1
  have hζ : 1 - 2 * e * |Real.log z| ≤ z ^ (2 * e) := by
    rw [Real.rpow_def_of_pos hz, abs_of_nonpos hlog]
    have := Real.add_one_le_exp (Real.log z * (2 * e))
    linarith
  have hPe := shift_pos' hb0 (by norm_num at hb1; linarith) he0 (by rw [he]; norm_num)
  have hPb0 : 0 < (2 : ℝ) ^ (b - 1) * Gamma b := by have := Gamma_pos_of_pos hb0; positivity
  have ha0 : 0 < b + e := by linarith
  have hPa := lead_ge ha0
  have hPa0 : 0 < (2 : ℝ) ^ (b + e - 1) * Gamma (b + e) := lt_of_lt_of_le (by norm_num) hPa
  -- series
  obtain ⟨y, hy⟩ : ∃ y, y = z ^ 2 / 4 := ⟨_, rfl⟩
  have hy0 : 0 ≤ y := by rw [hy]; positivity
  have hy1 : y ≤ 1e-20 := by rw [hy]; norm_num at *; linarith
  rw [← hy]
  have hn15 : 0.15 ≤ 1 + nu := by norm_num at *; linarith
  have hH1 : gFun (-nu) y ≤ 1 + 1e-18 := by
    have g := gFun_two (mu := -nu) (by norm_num at *; linarith) hy0 (by norm_num at *; linarith)
    rw [sub_neg_eq_add] at g
    have a1 : y / (1 + nu) ≤ 1e-20 / 0.15 := div_le_div₀ (by norm_num) hy1 (by norm_num) hn15
    have a0 : 0 ≤ y / (1 + nu) := div_nonneg hy0 (le_trans (by norm_num) hn15)
    have a2 : (y / (1 + nu)) ^ 2 ≤ (1e-20 / 0.15) ^ 2 := pow_le_pow_left₀ a0 a1 2
    norm_num at *
    linarith
  have hH := gFun_ge_one (mu := -nu) (by norm_num at *; linarith) hy0
  have hG1 : |gFun nu y| ≤ 1.01 := by
    have g := gFun_two (mu := nu) (by linarith) hy0 (by norm_num at *; linarith)
    have g' := gFun_ge_one (mu := nu) (by linarith) hy0
    rw [abs_of_nonneg (by linarith)]
    have a1 : y / (1 - nu) ≤ y / 1 := div_le_div_of_nonneg_left hy0 one_pos (by linarith)
    have a0 : 0 ≤ y / (1 - nu) := div_nonneg hy0 (by linarith)
    rw [div_one] at a1
    have a2 : (y / (1 - nu)) ^ 2 ≤ (1e-20) ^ 2 := pow_le_pow_left₀ a0 (a1.trans hy1) 2
    norm_num at *
    linarith
  have hs0 : 0 ≤ z ^ 6 / (4 * (1 + (nu + e))) := div_nonneg (by positivity) (by norm_num at *; linarith)
  have hs1 : z ^ 6 / (4 * (1 + (nu + e))) ≤ 1e-18 := by
    have h6 : z ^ 6 ≤ (1e-10) ^ 6 := pow_le_pow_left₀ hz.le hz2 6
    rw [div_le_iff₀ (by norm_num at *; linarith)]
    norm_num at *
    linarith
  have main := neg_lead (a := b + e) hW hd hh he hbd hPe hPb0 hPa0 hζ hζ1 hζ0 hs0 hs1 hH hH1 rfl
  -- constant terms
  have g1 : |Gamma (nu + e)| ≤ 1 / (0.15 * (0.9 * d)) :=
    gamma_small_le (by linarith) hd9 (by linarith)
  have g2 : |Gamma nu| ≤ 1 / (0.15 * d) := gamma_small_le hn hd0 hdn
  have p1 : (2 : ℝ) ^ (nu + e - 1) ≤ 1 / 2 := by
    have : (2 : ℝ) ^ (nu + e - 1) ≤ 2 ^ (-1 : ℝ) := Real.rpow_le_rpow_of_exponent_le (by norm_num) (by linarith)
    rw [Real.rpow_neg_one] at this
    linarith
  have p2 : (2 : ℝ) ^ (nu - 1) ≤ 1 / 2 := by
    have : (2 : ℝ) ^ (nu - 1) ≤ 2 ^ (-1 : ℝ) := Real.rpow_le_rpow_of_exponent_le (by norm_num) (by linarith)
    rw [Real.rpow_neg_one] at this
    linarith
  have hR : |1 + z ^ 2 * (16 + z ^ 2 - 8 * (nu + e)) / (32 * |(nu + e - 1) * (nu + e - 2)|)| ≤ 1.01 := by
    have q1 : 2 ≤ (nu + e - 1) * (nu + e - 2) := by rw [hm]; nlinarith
    have q2 : 16 + z ^ 2 - 8 * (nu + e) ≤ 30 := by rw [hm]; norm_num at *; linarith
    have q3 : 0 ≤ 16 + z ^ 2 - 8 * (nu + e) := by rw [hm]; nlinarith
    rw [abs_of_nonneg (show 0 ≤ (nu + e - 1) * (nu + e - 2) by linarith)]
    have q4 : 0 ≤ z ^ 2 * (16 + z ^ 2 - 8 * (nu + e)) := by positivity
    have q5 : z ^ 2 * (16 + z ^ 2 - 8 * (nu + e)) ≤ 1e-20 * 30 := mul_le_mul hz3 q2 q3 (by norm_num)
    rw [abs_of_nonneg (by positivity)]
    have : z ^ 2 * (16 + z ^ 2 - 8 * (nu + e)) / (32 * ((nu + e - 1) * (nu + e - 2))) ≤ 0.01 := by
      rw [div_le_iff₀ (by linarith)]
      norm_num at *
      linarith
    linarith
  have B : |2 ^ (nu + e - 1) * |Gamma (nu + e)| *
      (1 + z ^ 2 * (16 + z ^ 2 - 8 * (nu + e)) / (32 * |(nu + e - 1) * (nu + e - 2)|))| ≤ 3.8 / d := by
    rw [abs_mul, abs_mul, abs_abs, abs_of_pos (show (0 : ℝ) < 2 ^ (nu + e - 1) by positivity)]
    have := mul_le_mul (mul_le_mul p1 g1 (abs_nonneg _) (by norm_num)) hR (abs_nonneg _) (by positivity)
    refine this.trans ?_
    rw [show 1 / 2 * (1 / (0.15 * (0.9 * d))) * 1.01 = (1 / 2 / 0.15 / 0.9 * 1.01) / d by field_simp]
    exact div_le_div_of_nonneg_right (by norm_num) hd0.le
  have E : |2 ^ (nu - 1) * Gamma nu * gFun nu y| ≤ 3.5 / d := by
    rw [abs_mul, abs_mul, abs_of_pos (show (0 : ℝ) < 2 ^ (nu - 1) by positivity)]
    have := mul_le_mul (mul_le_mul p2 g2 (abs_nonneg _) (by norm_num)) hG1 (abs_nonneg _) (by positivity)
    refine this.trans ?_
    rw [show 1 / 2 * (1 / (0.15 * d)) * 1.01 = (1 / 2 / 0.15 * 1.01) / d by field_simp]
    exact div_le_div_of_nonneg_right (by norm_num) hd0.le
  have tot : 3.8 / d + 3.5 / d ≤ 20 * z ^ (-(2 * nu)) / d * (2 ^ (b + e - 1) * Gamma (b + e) * z ^ (2 * nu)) := by
    rw [show 20 * z ^ (-(2 * nu)) / d * (2 ^ (b + e - 1) * Gamma (b + e) * z ^ (2 * nu)) =
      20 * (z ^ (-(2 * nu)) * z ^ (2 * nu)) * (2 ^ (b + e - 1) * Gamma (b + e)) / d by ring, hWi, ← add_div]
    refine div_le_div_of_nonneg_right ?_ hd0.le
    norm_num at *
    linarith
  have eA : 2 ^ (-1 - (nu + e)) * z ^ (2 * (nu + e)) * |Gamma (-(nu + e))| * (1 + z ^ 6 / (4 * (1 + (nu + e)))) =
      2 ^ (b - 1) * Gamma b * (z ^ (2 * nu) * z ^ (2 * e)) * (1 + z ^ 6 / (4 * (1 + (nu + e)))) := by
    rw [hζe, ← hb, abs_of_pos (Gamma_pos_of_pos hb0), show -1 - (nu + e) = b - 1 by rw [hb]; ring]
    ring
  have eT : (2 : ℝ) ^ (-nu - 1) * Gamma (-nu) * z ^ (2 * nu) = 2 ^ (b + e - 1) * Gamma (b + e) * z ^ (2 * nu) := by rw [hnb]
  rw [eA, eT, add_div, add_mul]
  obtain ⟨X, hX⟩ : ∃ X, X = 2 ^ (b - 1) * Gamma b * (z ^ (2 * nu) * z ^ (2 * e)) * (1 + z ^ 6 / (4 * (1 + (nu + e)))) := ⟨_, rfl⟩
  obtain ⟨Y, hY⟩ : ∃ Y, Y = 2 ^ (nu + e - 1) * |Gamma (nu + e)| *
      (1 + z ^ 2 * (16 + z ^ 2 - 8 * (nu + e)) / (32 * |(nu + e - 1) * (nu + e - 2)|)) := ⟨_, rfl⟩
  obtain ⟨Z, hZ⟩ : ∃ Z, Z = 2 ^ (nu - 1) * Gamma nu * gFun nu y := ⟨_, rfl⟩
  obtain ⟨V, hV⟩ : ∃ V, V = 2 ^ (b + e - 1) * Gamma (b + e) * z ^ (2 * nu) * gFun (-nu) y := ⟨_, rfl⟩
  rw [← hX, ← hV] at main
  rw [← hY] at B
  rw [← hZ] at E
  rw [← hX, ← hY, ← hZ, ← hV, show X + Y - (Z + V) = (X - V) + (Y - Z) by ring]
  have t1 := abs_add_le (X - V) (Y - Z)
  have t2 := abs_sub Y Z
  linarith

/-! ### The statement -/

/-- C96: error of the series for the surface brightness within `1e-10` scale radii, against `r^ν K_ν(r)`, in terms of the
largest term: index zero; indices one to four; other positive indices at a distance `d` from the integers; negative
indices.  Missing: accuracy for small non-integer indices, where `r^(2|ν|)` is not small and the series is wrong
(`C96_double_counterexample`). -/
theorem C96_value_partial (nu z d : ℝ) (hn : -0.85 ≤ nu) (hn4 : nu ≤ 4) (hd : 1e-9 ≤ d) (h : IndexOk nu d) (hz : 0 < z)
    (hz2 : z ≤ 1e-10) :
    (nu = 0 → |fzNu z nu - z ^ nu * kv nu z| ≤ 1e-9) ∧
    (∀ n : ℕ, 1 ≤ n → nu = n → |fzNu z nu - z ^ nu * kv nu z| ≤ 5e-15 * (2 ^ (nu - 1) * Gamma nu)) ∧
    ((∀ n : ℕ, nu ≠ n) → 0 < nu → |fzNu z nu - z ^ nu * kv nu z| ≤
      (1e-9 + 10 * z ^ (2 * nu)) / d * (2 ^ (nu - 1) * Gamma nu)) ∧
    (nu < 0 → |fzNu z nu - z ^ nu * kv nu z| ≤ (1e-9 * (2 + |Real.log z|) + 20 * z ^ (-(2 * nu))) / d *
      (2 ^ (-nu - 1) * Gamma (-nu) * z ^ (2 * nu))) := by
  have hd0 : 0 < d := lt_of_lt_of_le (by norm_num) hd
  have e : fzNu z nu = fsmallzNu z nu := by unfold fzNu; rw [if_pos hz2]
  have eN : (∀ n : ℕ, nu ≠ n) → fsmallzNu z nu = fnuSmall z nu := by
    intro hne
    unfold fsmallzNu
    rw [if_neg (by simpa using hne 0), if_neg (by simpa using hne 1), if_neg (by simpa using hne 2),
      if_neg (by simpa using hne 3), if_neg (by simpa using hne 4)]
  have hfar : (∀ n : ℕ, nu ≠ n) → ∀ n : ℤ, d ≤ |nu - n| := by
    intro hne
    rcases h with ⟨n, _, hh⟩ | hh
    · exact absurd hh (hne n)
    · exact hh
  rw [e]
  refine ⟨?_, ?_, ?_, ?_⟩
  · rintro rfl
    rw [Real.rpow_zero, one_mul, fsmallzNu, if_pos rfl]
    exact value_zero hz hz2
  · intro n h1 hnn
    rw [rpow_mul_kv _ hz, hnn]
    exact value_int hz.le hz2 n h1 (by rw [hnn] at hn4; exact_mod_cast hn4)
  · intro hne h0
    rw [rpow_mul_kv _ hz, eN hne]
    exact value_pos h0 hn4 hd (hfar hne) hz hz2
  · intro h0
    have hne : ∀ n : ℕ, nu ≠ n := fun n hh => by
      have : (0 : ℝ) ≤ n := Nat.cast_nonneg n
      linarith
    rw [rpow_mul_kv _ hz, eN hne]
    exact value_neg hn h0 hd (hfar hne) hz hz2

/-- Index 5/2 at any such radius: relative error about 2e-9 of the central value. -/
example (z : ℝ) (hz : 0 < z) (hz2 : z ≤ 1e-10) : |fzNu z (5 / 2) - z ^ (5 / 2 : ℝ) * kv (5 / 2) z| ≤
    (1e-9 + 10 * z ^ (2 * (5 / 2 : ℝ))) / (1 / 2) * (2 ^ ((5 / 2 : ℝ) - 1) * Gamma (5 / 2)) := by
  have far : ∀ n : ℤ, (1 / 2 : ℝ) ≤ |5 / 2 - (n : ℝ)| := by
    intro n
    rw [le_abs]
    rcases le_or_gt n 2 with h | h
    · left; have : (n : ℝ) ≤ 2 := by exact_mod_cast h
      linarith
    · right; have : (3 : ℝ) ≤ n := by exact_mod_cast h
      linarith
  refine (C96_value_partial (5 / 2) z (1 / 2) (by norm_num) (by norm_num) (by norm_num) (Or.inr far) hz hz2).2.2.1
    (fun n hn => ?_) (by norm_num)
  have := far n
  rw [hn] at this
  push_cast at this
  rw [sub_self, abs_zero] at this
  norm_num at this

end JG.Elt
