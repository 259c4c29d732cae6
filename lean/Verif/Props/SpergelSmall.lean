import Verif.Lemmas.SpergelSmall
import Verif.Props.ProfileFourier

/-! Property C96: the Spergel profile near its centre. -/

namespace JG.Elt

open Real Set MeasureTheory JG.BesK

/-! ### The Gamma function of the code -/

theorem gammaJ_neg {x : ℝ} (h : x < 0) (h0 : Gamma x ≠ 0) : gammaJ x = |Gamma x| := by
  unfold gammaJ
  rw [if_neg (by linarith), if_neg (by linarith), if_neg (by linarith), if_neg (by linarith), if_neg (by linarith),
    if_neg (by linarith), gammaF, Real.exp_log (abs_pos.mpr h0)]

/-- `Γ(-2-ν)` from `Γ(-ν)`. -/
theorem gamma_m2 {nu : ℝ} (h1 : nu ≠ -1) (h2 : nu ≠ -2) : (1 + nu) * (2 + nu) * Gamma (-2 - nu) = Gamma (-nu) := by
  have a := Gamma_add_one (s := -2 - nu) (by intro h; apply h2; linarith)
  have b := Gamma_add_one (s := -1 - nu) (by intro h; apply h1; linarith)
  rw [show -2 - nu + 1 = -1 - nu by ring] at a
  rw [show -1 - nu + 1 = -nu by ring, a] at b
  rw [b]
  ring

/-- `Γ(ν-2)` from `Γ(ν)`. -/
theorem gamma_p2 {nu : ℝ} (h1 : nu ≠ 1) (h2 : nu ≠ 2) : (nu - 1) * (nu - 2) * Gamma (-2 + nu) = Gamma nu := by
  have := gamma_m2 (nu := -nu) (by intro h; apply h1; linarith) (by intro h; apply h2; linarith)
  rw [neg_neg, sub_neg_eq_add] at this
  rw [← this]
  ring

/-- The code's `Γ(-2-ν)` is positive; it is `|Γ(-ν)| / ((1+ν)(2+ν))`. -/
theorem gammaJ_m2 {nu : ℝ} (hn : -1 < nu) (h : Gamma (-nu) ≠ 0) :
    gammaJ (-2 - nu) = |Gamma (-nu)| / ((1 + nu) * (2 + nu)) := by
  have e := gamma_m2 (nu := nu) (by linarith) (by linarith)
  have hp : 0 < (1 + nu) * (2 + nu) := by nlinarith
  have h0 : Gamma (-2 - nu) ≠ 0 := by intro h0; rw [h0, mul_zero] at e; exact h e.symm
  rw [gammaJ_neg (by linarith) h0, ← e, abs_mul, abs_of_pos hp, mul_div_cancel_left₀ _ hp.ne']

theorem gamma_neg_ne {nu d : ℝ} (hd : 0 < d) (h : ∀ n : ℤ, d ≤ |nu - n|) : Gamma (-nu) ≠ 0 := by
  refine Gamma_ne_zero fun m hm => ?_
  have := h m
  rw [show nu - ((m : ℤ) : ℝ) = 0 by push_cast; linarith, abs_zero] at this
  linarith

/-! ### Enclosed flux -/

/-- Exact enclosed flux fraction: `1 - kvInt (ν+1) z / Γ(ν+1)`. -/
theorem small_flux_pos {nu z d : ℝ} (hn : 0 < nu) (hd : 1e-9 ≤ d) (h : ∀ n : ℤ, d ≤ |nu - n|)
    (hz : 0 ≤ z) (hz2 : z ≤ 1e-10) :
    |fnuSmallP1 z nu / ((2 : ℝ) ^ nu * Gamma (nu + 1)) - kvInt (nu + 1) z / Gamma (nu + 1)| ≤ 2e-20 / d := by
  have hd0 : 0 < d := lt_of_lt_of_le (by norm_num) hd
  have hG := Gamma_pos_of_pos (show 0 < nu + 1 by linarith)
  have hG2 := gamma_ge' (show 0 < nu + 1 by linarith)
  have h2 : (1 : ℝ) ≤ 2 ^ nu := Real.one_le_rpow (by norm_num) hn.le
  have hnd : d ≤ nu := by have := h 0; simpa [abs_of_pos hn] using this
  have hn1 : d ≤ |nu - 1| := by have := h 1; simpa using this
  have hz3 : z * z ≤ 1e-20 := by nlinarith
  have hzz : 0 ≤ z * z := mul_nonneg hz hz
  -- the exact value
  have u1 : kvInt (nu + 1) z / Gamma (nu + 1) ≤ 1 := by
    rw [div_le_one hG]; exact kvInt_upper (by linarith) hz
  have u2 : 1 - 0.25e-20 / d ≤ kvInt (nu + 1) z / Gamma (nu + 1) := by
    have := kvInt_lower (mu := nu + 1) (a := 1) (z := z) (by norm_num) le_rfl (by linarith)
    rw [Real.rpow_one, add_sub_cancel_right, Gamma_add_one hn.ne'] at this
    rw [Gamma_add_one hn.ne', le_div_iff₀ (by rw [← Gamma_add_one hn.ne']; exact hG)]
    have hGn := Gamma_pos_of_pos hn
    have k1 : z ^ 2 / 4 ≤ 0.25e-20 / d * nu := by
      rw [div_mul_eq_mul_div, le_div_iff₀ hd0]
      nlinarith
    nlinarith
  -- the terms of the code
  have t1 : |0.25 * (z * z) / nu| ≤ 0.25e-20 / d := by
    rw [abs_of_nonneg (by positivity)]
    exact div_le_div₀ (by norm_num) (by nlinarith) hd0 hnd
  have t2 : |z * z * (z * z) * 0.03125 / (nu * (nu - 1))| ≤ 0.01e-20 / d := by
    rw [abs_div, abs_of_nonneg (by positivity), abs_mul, abs_of_pos hn, div_le_div_iff₀ (mul_pos hn (by linarith)) hd0]
    have k1 : d * d ≤ nu * |nu - 1| := mul_le_mul hnd hn1 hd0.le hn.le
    have k2 : z * z * (z * z) * 0.03125 * d ≤ 1e-20 * 1e-20 * d := by
      refine mul_le_mul_of_nonneg_right ?_ hd0.le
      nlinarith
    have k3 : (1e-20 * 1e-20 * d : ℝ) ≤ 0.01e-20 * (d * d) := by
      norm_num at hd ⊢
      nlinarith
    linarith [mul_le_mul_of_nonneg_left k1 (show (0 : ℝ) ≤ 0.01e-20 by norm_num)]
  have t3 : |-(2 : ℝ) ^ (-4 - nu) * gammaJ (-2 - nu) * (8 + 4 * nu + z * z) * z ^ (2 * (1 + nu))| ≤ 0.7e-20 / d := by
    have hGn := gamma_neg_le (by linarith) hd0 h
    rw [gammaJ_m2 (by linarith) (gamma_neg_ne hd0 h), abs_mul, abs_mul, abs_mul, abs_neg]
    have a1 : |(2 : ℝ) ^ (-4 - nu)| ≤ 1 / 16 := by
      rw [abs_of_pos (by positivity), show (-4 - nu : ℝ) = -(4 + nu) by ring, Real.rpow_neg (by norm_num), ← one_div]
      refine one_div_le_one_div_of_le (by norm_num) ?_
      have : (2 : ℝ) ^ (4 : ℝ) ≤ 2 ^ (4 + nu) := Real.rpow_le_rpow_of_exponent_le (by norm_num) (by linarith)
      norm_num at this ⊢
      linarith
    have a2 : |(|Gamma (-nu)| / ((1 + nu) * (2 + nu)))| * |8 + 4 * nu + z * z| ≤ 5 * (2.1 / d) := by
      have k1 : 0 ≤ |Gamma (-nu)| / ((1 + nu) * (2 + nu)) := by positivity
      have k2 : 0 < 8 + 4 * nu + z * z := by positivity
      rw [abs_of_nonneg k1, abs_of_pos k2, div_mul_eq_mul_div, div_le_iff₀ (by positivity)]
      have : 8 + 4 * nu + z * z ≤ 5 * ((1 + nu) * (2 + nu)) := by nlinarith
      have hA := abs_nonneg (Gamma (-nu))
      have hq : 0 ≤ 2.1 / d := by positivity
      nlinarith [mul_le_mul hGn this (by positivity) hq]
    have a3 : |z ^ (2 * (1 + nu))| ≤ 1e-20 := by
      rw [abs_of_nonneg (Real.rpow_nonneg hz _)]
      rcases eq_or_lt_of_le hz with rfl | hz0
      · rw [Real.zero_rpow (by linarith)]; norm_num
      have : z ^ (2 * (1 + nu)) ≤ z ^ (2 : ℝ) :=
        Real.rpow_le_rpow_of_exponent_ge hz0 (le_trans hz2 (by norm_num)) (by linarith)
      rw [Real.rpow_two] at this
      nlinarith
    rw [mul_assoc |(2 : ℝ) ^ (-4 - nu)|]
    calc _ ≤ 1 / 16 * (5 * (2.1 / d)) * 1e-20 := by
          refine mul_le_mul (mul_le_mul a1 a2 (by positivity) (by norm_num)) a3 (abs_nonneg _) (by positivity)
      _ ≤ _ := by
        rw [show (1 / 16 * (5 * (2.1 / d)) * 1e-20 : ℝ) = (1 / 16 * 5 * 2.1 * 1e-20) / d by ring]
        exact div_le_div_of_nonneg_right (by norm_num) hd0.le
  obtain ⟨c3, hc3⟩ : ∃ c, c = -(2 : ℝ) ^ (-4 - nu) * gammaJ (-2 - nu) * (8 + 4 * nu + z * z) * z ^ (2 * (1 + nu)) := ⟨_, rfl⟩
  obtain ⟨a, ha⟩ : ∃ a, a = 0.25 * (z * z) / nu := ⟨_, rfl⟩
  obtain ⟨b, hb⟩ : ∃ a, a = z * z * (z * z) * 0.03125 / (nu * (nu - 1)) := ⟨_, rfl⟩
  have e : fnuSmallP1 z nu / ((2 : ℝ) ^ nu * Gamma (nu + 1)) = 1 - a + b + c3 / ((2 : ℝ) ^ nu * Gamma (nu + 1)) := by
    unfold fnuSmallP1 gammaP1
    simp only
    rw [gammaJ_eq (x := nu + 1) (by linarith), ← hc3, ← ha, ← hb]
    field_simp
    ring
  rw [← hc3] at t3
  rw [← ha] at t1
  rw [← hb] at t2
  have t4 : |c3 / ((2 : ℝ) ^ nu * Gamma (nu + 1))| ≤ 0.9e-20 / d := by
    have hP : 0.78 ≤ (2 : ℝ) ^ nu * Gamma (nu + 1) := by nlinarith
    have hP0 : 0 < (2 : ℝ) ^ nu * Gamma (nu + 1) := lt_of_lt_of_le (by norm_num) hP
    rw [abs_div, abs_of_pos hP0, div_le_iff₀ hP0]
    have : 0.7e-20 / d = 0.9e-20 / d * (7 / 9) := by field_simp; norm_num
    have hq : 0 < 0.9e-20 / d := by positivity
    rw [this] at t3
    nlinarith
  rw [e]
  obtain ⟨q, hq⟩ : ∃ q, q = 1e-20 / d := ⟨_, rfl⟩
  have r1 : 0.25e-20 / d = 0.25 * q := by rw [hq]; ring
  have r2 : 0.01e-20 / d = 0.01 * q := by rw [hq]; ring
  have r3 : 0.9e-20 / d = 0.9 * q := by rw [hq]; ring
  have r4 : 2e-20 / d = 2 * q := by rw [hq]; ring
  have hq0 : 0 < q := by rw [hq]; positivity
  rw [r1] at t1 u2
  rw [r2] at t2
  rw [r3] at t4
  rw [r4]
  obtain ⟨x1, x2⟩ := abs_le.mp t1
  obtain ⟨x3, x4⟩ := abs_le.mp t2
  obtain ⟨x5, x6⟩ := abs_le.mp t4
  rw [abs_le]
  constructor <;> linarith

theorem neg_aux1 {nu y q G1 : ℝ} (hn0 : nu < 0) (hy0 : 0 ≤ y) (hy1 : y ≤ 1e-20) (hq0 : 0 ≤ y / -nu)
    (hq : y / -nu ≤ q) (hq9 : q ≤ 1e-11) (g1 : 1 + y / -nu ≤ G1) (g2 : G1 ≤ 1 + y / -nu + (y / -nu) ^ 2) :
    |1 - y / nu + y ^ 2 / (2 * nu * (nu - 1)) - G1| ≤ 0.1 * q := by
  have k2 : y ^ 2 / (2 * nu * (nu - 1)) = y / -nu * (y / (2 * (1 - nu))) := by
    have : nu ≠ 0 := hn0.ne
    have : nu - 1 ≠ 0 := by linarith
    have : 1 - nu ≠ 0 := by linarith
    rw [div_mul_div_comm]
    congr 1 <;> ring
  have k3 : y / (2 * (1 - nu)) ≤ 1e-11 := by
    have : y / (2 * (1 - nu)) ≤ y / 1 := div_le_div_of_nonneg_left hy0 one_pos (by linarith)
    rw [div_one] at this
    have : (1e-20 : ℝ) ≤ 1e-11 := by norm_num
    linarith
  have k4 : 0 ≤ y / (2 * (1 - nu)) := div_nonneg hy0 (by linarith)
  have k7 : y / nu = -(y / -nu) := by rw [div_neg]; ring
  rw [k2, k7]
  obtain ⟨u, hu⟩ : ∃ u, u = y / -nu := ⟨_, rfl⟩
  obtain ⟨v, hv⟩ : ∃ v, v = y / (2 * (1 - nu)) := ⟨_, rfl⟩
  rw [← hu] at hq0 hq g1 g2 ⊢
  rw [← hv] at k3 k4 ⊢
  have k1 : u ^ 2 ≤ 0.05 * q := by
    have : u ^ 2 ≤ 1e-11 * u := by rw [sq]; exact mul_le_mul_of_nonneg_right (hq.trans hq9) hq0
    norm_num at *
    linarith
  have k5 : u * v ≤ 0.05 * q := by
    have : u * v ≤ u * 1e-11 := mul_le_mul_of_nonneg_left k3 hq0
    norm_num at *
    linarith
  have k6 := mul_nonneg hq0 k4
  rw [abs_le]
  norm_num at *
  constructor <;> linarith

theorem neg_aux2 {nu y w q G3 : ℝ} (hn1 : 0 < nu + 1) (hn0 : nu < 0) (hy0 : 0 ≤ y) (hy1 : y ≤ 1e-20) (hw0 : 0 ≤ w)
    (k5 : w ≤ 2e20 * q) (g3 : 1 + y / (2 + nu) ≤ G3) (g4 : G3 ≤ 1 + y / (2 + nu) + (y / (2 + nu)) ^ 2) :
    |(8 + 4 * nu + 4 * y) * w - 4 * (2 + nu) * w * G3| ≤ 0.1 * q := by
  have k1 : (8 + 4 * nu + 4 * y) * w - 4 * (2 + nu) * w * G3 = 4 * (2 + nu) * w * (1 + y / (2 + nu) - G3) := by
    have : 2 + nu ≠ 0 := by linarith
    field_simp
    ring
  have k2 : y / (2 + nu) ≤ 1e-20 := by
    have : y / (2 + nu) ≤ y / 1 := div_le_div_of_nonneg_left hy0 one_pos (by linarith)
    rw [div_one] at this
    exact this.trans hy1
  have k3 : 0 ≤ y / (2 + nu) := div_nonneg hy0 (by linarith)
  have k4 : (y / (2 + nu)) ^ 2 ≤ 1e-40 := by
    refine (pow_le_pow_left₀ k3 k2 2).trans ?_
    norm_num
  have k6 : |1 + y / (2 + nu) - G3| ≤ 1e-40 := by
    rw [abs_le]
    constructor <;> linarith
  have hq0 : 0 ≤ q := by norm_num at k5; linarith
  have k7 : 4 * (2 + nu) * w ≤ 8 * (2e20 * q) := mul_le_mul (by linarith) k5 hw0 (by norm_num)
  rw [k1, abs_mul, abs_of_nonneg (mul_nonneg (by linarith) hw0)]
  calc _ ≤ 8 * (2e20 * q) * 1e-40 := mul_le_mul k7 k6 (abs_nonneg _) (by positivity)
    _ ≤ _ := by norm_num; nlinarith

theorem small_flux_neg {nu z d : ℝ} (hn : -0.85 ≤ nu) (hn0 : nu < 0) (hd : 1e-9 ≤ d) (h : ∀ n : ℤ, d ≤ |nu - n|)
    (hz : 0 < z) (hz2 : z ≤ 1e-10) :
    |fnuSmallP1 z nu / ((2 : ℝ) ^ nu * Gamma (nu + 1)) - kvInt (nu + 1) z / Gamma (nu + 1)| ≤ 2e-20 / d := by
  have hd0 : 0 < d := lt_of_lt_of_le (by norm_num) hd
  have hn' : (0.15 : ℝ) ≤ nu + 1 := by norm_num at hn ⊢; linarith
  have hn1 : 0 < nu + 1 := lt_of_lt_of_le (by norm_num) hn'
  have hG := Gamma_pos_of_pos hn1
  have hG2 := gamma_ge' hn1
  have hdn : d ≤ -nu := by have := h 0; simpa [abs_of_neg hn0] using this
  obtain ⟨y, hy⟩ : ∃ y, y = z ^ 2 / 4 := ⟨_, rfl⟩
  have hy0 : 0 ≤ y := by rw [hy]; positivity
  have hy1 : y ≤ 1e-20 := by rw [hy]; nlinarith
  -- the exact value
  have hx := small_exact (nu := nu + 1) hn1.ne' (by linarith) (by linarith) hz
  rw [add_sub_cancel_right, ← hy] at hx
  have gm := gamma_m2 (nu := nu) (by linarith) (by linarith)
  have gm1 : Gamma (-(nu + 1)) = -(2 + nu) * Gamma (-2 - nu) := by
    have := Gamma_add_one (s := -2 - nu) (by linarith)
    rw [show -(nu + 1) = -2 - nu + 1 by ring, this]; ring
  have hGm := Gamma_pos_of_pos (show 0 < -nu by linarith)
  have hGm2 : 0 < Gamma (-2 - nu) := by
    by_contra hc
    have : (1 + nu) * (2 + nu) * Gamma (-2 - nu) ≤ 0 :=
      mul_nonpos_of_nonneg_of_nonpos (by nlinarith) (not_lt.mp hc)
    linarith
  have hJ : gammaJ (-2 - nu) = Gamma (-2 - nu) := by
    rw [gammaJ_neg (by linarith) hGm2.ne', abs_of_pos hGm2]
  have hgn := gamma_neg_le (by linarith) hd0 h
  rw [abs_of_pos hGm, ← gm] at hgn
  obtain ⟨w, hw⟩ : ∃ w, w = (2 : ℝ) ^ (-4 - nu) * Gamma (-2 - nu) * z ^ (2 * (nu + 1)) := ⟨_, rfl⟩
  have e2 : (2 : ℝ) ^ (-(nu + 1) - 1) = 4 * 2 ^ (-4 - nu) := by
    rw [show -(nu + 1) - 1 = (-4 - nu) + 2 by ring, Real.rpow_add (by norm_num)]; norm_num; ring
  have hx2 : (2 : ℝ) ^ nu * kvInt (nu + 1) z = (2 : ℝ) ^ nu * Gamma (nu + 1) * gFun (nu + 1) y
      - 4 * (2 + nu) * w * gFun (-(nu + 1)) y := by
    rw [hx, gm1, e2, hw]; ring
  obtain ⟨P, hP⟩ : ∃ P, P = (2 : ℝ) ^ nu * Gamma (nu + 1) := ⟨_, rfl⟩
  have h2 : (1 / 2 : ℝ) ≤ 2 ^ nu := by
    have : (2 : ℝ) ^ (-1 : ℝ) ≤ 2 ^ nu := Real.rpow_le_rpow_of_exponent_le (by norm_num) (by linarith)
    rw [Real.rpow_neg_one] at this
    linarith
  have hP1 : 0.39 ≤ P := by rw [hP]; norm_num at hG2 ⊢; nlinarith
  have hP0 : 0 < P := lt_of_lt_of_le (by norm_num) hP1
  have ez : z * z = 4 * y := by rw [hy]; ring
  have ec : fnuSmallP1 z nu = P * (1 - y / nu + y ^ 2 / (2 * nu * (nu - 1))) - (8 + 4 * nu + 4 * y) * w := by
    unfold fnuSmallP1 gammaP1
    simp only
    rw [gammaJ_eq (x := nu + 1) hn1, hJ, ez, hw, hP, show 2 * (1 + nu) = 2 * (nu + 1) by ring]
    have : nu ≠ 0 := hn0.ne
    have : nu - 1 ≠ 0 := by linarith
    field_simp
    norm_num
    ring
  have e1 : kvInt (nu + 1) z / Gamma (nu + 1) = (P * gFun (nu + 1) y - 4 * (2 + nu) * w * gFun (-(nu + 1)) y) / P := by
    rw [hP, ← hx2]
    have : (0 : ℝ) < 2 ^ nu := by linarith
    field_simp
  -- bounds of the series
  have hw0 : 0 ≤ w := by rw [hw]; positivity
  have hw1 : w ≤ 2 / d := by
    have a1 : (2 : ℝ) ^ (-4 - nu) ≤ 1 / 8 := by
      have : (2 : ℝ) ^ (-4 - nu) ≤ 2 ^ (-3 : ℝ) := Real.rpow_le_rpow_of_exponent_le (by norm_num) (by linarith)
      rw [show (-3 : ℝ) = -(3 : ℝ) by norm_num, Real.rpow_neg (by norm_num)] at this
      norm_num at this ⊢
      linarith
    have a2 : Gamma (-2 - nu) ≤ 14 / d := by
      have : 0.15 * Gamma (-2 - nu) ≤ 2.1 / d := by
        refine le_trans (mul_le_mul_of_nonneg_right ?_ hGm2.le) hgn
        nlinarith
      rw [show 14 / d = 2.1 / d / 0.15 by field_simp; norm_num]
      rw [le_div_iff₀ (by norm_num)]
      linarith
    have a3 : z ^ (2 * (nu + 1)) ≤ 1 := Real.rpow_le_one hz.le (le_trans hz2 (by norm_num)) (by linarith)
    have a4 : 0 ≤ z ^ (2 * (nu + 1)) := Real.rpow_nonneg hz.le _
    rw [hw]
    calc _ ≤ 1 / 8 * (14 / d) * 1 := mul_le_mul (mul_le_mul a1 a2 hGm2.le (by norm_num)) a3 a4 (by positivity)
      _ ≤ _ := by rw [show 1 / 8 * (14 / d) * 1 = (14 / 8) / d by ring]; exact div_le_div_of_nonneg_right (by norm_num) hd0.le
  have hyn : y ≤ 1 - (nu + 1) := by
    have : (1e-20 : ℝ) ≤ 1e-9 := by norm_num
    linarith
  have g1 := gFun_lower (mu := nu + 1) (by linarith) hy0
  have g2 := gFun_two (mu := nu + 1) (by linarith) hy0 hyn
  have g3 := gFun_lower (mu := -(nu + 1)) (by linarith) hy0
  have g4 := gFun_two (mu := -(nu + 1)) (by linarith) hy0 (by
    have : (1e-20 : ℝ) ≤ 1 := by norm_num
    linarith)
  rw [show 1 - (nu + 1) = -nu by ring] at g1 g2
  rw [show 1 - -(nu + 1) = 2 + nu by ring] at g3 g4
  obtain ⟨G1, hG1⟩ : ∃ g, g = gFun (nu + 1) y := ⟨_, rfl⟩
  obtain ⟨G3, hG3⟩ : ∃ g, g = gFun (-(nu + 1)) y := ⟨_, rfl⟩
  rw [← hG1] at g1 g2
  rw [← hG3] at g3 g4
  have hq : y / -nu ≤ 1e-20 / d := div_le_div₀ (by norm_num) hy1 hd0 hdn
  have hq0 : 0 ≤ y / -nu := div_nonneg hy0 (by linarith)
  have hd9 : 1e-20 / d ≤ 1e-11 := by rw [div_le_iff₀ hd0]; norm_num at hd ⊢; linarith
  obtain ⟨q, hqd⟩ : ∃ q, q = 1e-20 / d := ⟨_, rfl⟩
  rw [← hqd] at hq hd9
  have hqp : 0 < q := by rw [hqd]; positivity
  have A := neg_aux1 hn0 hy0 hy1 hq0 hq hd9 g1 g2
  have k5 : w ≤ 2e20 * q := by rw [hqd]; refine hw1.trans (le_of_eq ?_); field_simp; norm_num
  have B := neg_aux2 hn1 hn0 hy0 hy1 hw0 k5 g3 g4
  rw [← hP, ec, e1, ← hG1, ← hG3, ← sub_div, abs_div, abs_of_pos hP0, div_le_iff₀ hP0]
  have e3 : P * (1 - y / nu + y ^ 2 / (2 * nu * (nu - 1))) - (8 + 4 * nu + 4 * y) * w
      - (P * G1 - 4 * (2 + nu) * w * G3) = P * (1 - y / nu + y ^ 2 / (2 * nu * (nu - 1)) - G1)
      - ((8 + 4 * nu + 4 * y) * w - 4 * (2 + nu) * w * G3) := by ring
  have t := abs_sub (P * (1 - y / nu + y ^ 2 / (2 * nu * (nu - 1)) - G1))
    ((8 + 4 * nu + 4 * y) * w - 4 * (2 + nu) * w * G3)
  rw [abs_mul, abs_of_pos hP0] at t
  rw [e3, show 2e-20 / d = 2 * q by rw [hqd]; ring]
  have hPq : 0.39 * q ≤ P * q := mul_le_mul_of_nonneg_right hP1 hqp.le
  have hPA := mul_le_mul_of_nonneg_left A hP0.le
  norm_num at *
  linarith

/-- `z² log z` is small. -/
theorem z2log_small {z : ℝ} (hz0 : 0 < z) (hz2 : z ≤ 1e-10) : |z * z * Real.log z| ≤ 1e-16 := by
  have hz := hz0.le
  have hs : 0 < sqrt z := Real.sqrt_pos.mpr hz0
  have h4 : 0 < sqrt (sqrt z) := Real.sqrt_pos.mpr hs
  have e : z = sqrt (sqrt z) ^ 4 := by
    rw [show (4 : ℕ) = 2 * 2 by norm_num, pow_mul, Real.sq_sqrt hs.le, Real.sq_sqrt hz]
  obtain ⟨u, hu⟩ : ∃ u, u = sqrt (sqrt z) := ⟨_, rfl⟩
  rw [← hu] at e h4
  have hu1 : u ≤ 1 := by
    by_contra hc
    have : 1 < u ^ 4 := one_lt_pow₀ (not_le.mp hc) (by norm_num)
    norm_num at hz2
    linarith
  have hl : |Real.log z| ≤ 4 / u := by
    rw [e, Real.log_pow, abs_mul, abs_of_nonpos (Real.log_nonpos h4.le hu1), le_div_iff₀ h4]
    have := Real.one_sub_inv_le_log_of_pos h4
    have h5 : u * u⁻¹ = 1 := mul_inv_cancel₀ h4.ne'
    push_cast
    rw [abs_of_pos (by norm_num)]
    nlinarith
  have h7 : u ^ 7 ≤ 2e-17 := by
    have h28 : (u ^ 7) ^ 4 ≤ (2e-17 : ℝ) ^ 4 := by
      have : (u ^ 7) ^ 4 = z ^ 7 := by rw [e]; ring
      rw [this]
      have := pow_le_pow_left₀ hz hz2 7
      refine this.trans ?_
      norm_num
    exact (pow_le_pow_iff_left₀ (by positivity) (by norm_num) (by norm_num)).mp h28
  rw [abs_mul, abs_of_nonneg (mul_nonneg hz hz)]
  calc _ ≤ z * z * (4 / u) := mul_le_mul_of_nonneg_left hl (mul_nonneg hz hz)
    _ = 4 * u ^ 7 := by rw [e]; field_simp
    _ ≤ _ := by linarith

theorem z2lz_small {z : ℝ} (hz2 : z ≤ 1e-10) : |z2lz z| ≤ 1e-16 := by
  unfold z2lz
  split_ifs with h
  · norm_num
  · exact z2log_small (by by_contra hc; exact h (le_trans (not_lt.mp hc) (by norm_num))) hz2

theorem small_flux_zero {z : ℝ} (hz : 0 ≤ z) (hz2 : z ≤ 1e-10) : |f1 z - kvInt 1 z| ≤ 5e-15 := by
  have u1 := kvInt_upper (mu := 1) one_pos hz
  have u2 := kvInt_lower (mu := 1) (a := 3 / 4) (z := z) (by norm_num) (by norm_num) (by norm_num)
  rw [Gamma_one] at u1 u2
  have hg : Gamma (1 - 3 / 4) ≤ 4 := by
    have := Gamma_add_one (s := 1 / 4) (by norm_num)
    have h2 := gamma_le_one (x := 1 / 4 + 1) (by norm_num) (by norm_num)
    rw [show (1 - 3 / 4 : ℝ) = 1 / 4 by norm_num]
    linarith
  have hy : (z ^ 2 / 4) ^ (3 / 4 : ℝ) ≤ 1e-15 := by
    have h1 : z ^ 2 / 4 ≤ 1e-20 := by nlinarith
    have h2 := Real.rpow_le_rpow (by positivity) h1 (show (0 : ℝ) ≤ 3 / 4 by norm_num)
    refine h2.trans (le_of_eq ?_)
    rw [show (1e-20 : ℝ) = (1e-5) ^ (4 : ℝ) by norm_num, ← Real.rpow_mul (by norm_num)]
    norm_num
  have hy0 : 0 ≤ (z ^ 2 / 4) ^ (3 / 4 : ℝ) := Real.rpow_nonneg (by positivity) _
  have hg0 := Gamma_pos_of_pos (show (0 : ℝ) < 1 - 3 / 4 by norm_num)
  have u3 : (z ^ 2 / 4) ^ (3 / 4 : ℝ) * Gamma (1 - 3 / 4) ≤ 1e-15 * 4 := mul_le_mul hy hg hg0.le (by norm_num)
  have hl := z2lz_small hz2
  have hz3 : z * z ≤ 1e-20 := by nlinarith
  have hzz : 0 ≤ z * z := mul_nonneg hz hz
  have hz4 : z * z * (z * z) ≤ 1e-20 := by nlinarith
  have hz5 : 0 ≤ z * z * (z * z) := mul_nonneg hzz hzz
  have k1 : |z2lz z * (0.5 + 0.0625 * (z * z))| ≤ 1e-16 := by
    rw [abs_mul, abs_of_nonneg (by positivity : 0 ≤ 0.5 + 0.0625 * (z * z))]
    have := abs_nonneg (z2lz z)
    nlinarith
  obtain ⟨k2, k3⟩ := abs_le.mp k1
  simp only [f1]
  rw [abs_le]
  norm_num at *
  constructor <;> linarith

theorem kvInt_two_sided {mu z : ℝ} (h : 1 < mu) (hz : 0 ≤ z) :
    Gamma mu - z * z / 4 * Gamma (mu - 1) ≤ kvInt mu z ∧ kvInt mu z ≤ Gamma mu := by
  refine ⟨?_, kvInt_upper (by linarith) hz⟩
  have := kvInt_lower (mu := mu) (a := 1) (z := z) (by norm_num) le_rfl h
  rw [Real.rpow_one, sq] at this
  exact this

/-- The series of `fsmallz_nup1` at the integers. -/
theorem small_flux_int {z : ℝ} (hz : 0 ≤ z) (hz2 : z ≤ 1e-10) (n : ℕ) (hn : n ≤ 4) :
    |fsmallzNup1 z n / ((2 : ℝ) ^ (n : ℝ) * Gamma (n + 1)) - kvInt (n + 1) z / Gamma (n + 1)| ≤ 5e-15 := by
  have hz3 : z * z ≤ 1e-20 := by nlinarith
  have hzz : 0 ≤ z * z := mul_nonneg hz hz
  have hz4 : z * z * (z * z) ≤ 1e-20 := by nlinarith
  have hz5 : 0 ≤ z * z * (z * z) := mul_nonneg hzz hzz
  have cases5 : n = 0 ∨ n = 1 ∨ n = 2 ∨ n = 3 ∨ n = 4 := by omega
  rcases cases5 with rfl | rfl | rfl | rfl | rfl
  · have := small_flux_zero hz hz2
    norm_num [fsmallzNup1] at this ⊢
    exact this
  · obtain ⟨a, b⟩ := kvInt_two_sided (mu := 2) (by norm_num) hz
    have hl := z2lz_small hz2
    have k1 : |z2lz z * (z * z)| ≤ 1e-16 := by
      rw [abs_mul, abs_of_nonneg hzz]
      have := abs_nonneg (z2lz z)
      nlinarith
    obtain ⟨k2, k3⟩ := abs_le.mp k1
    norm_num at a b
    norm_num [fsmallzNup1, f2]
    rw [abs_le]
    norm_num at *
    constructor <;> linarith
  · obtain ⟨a, b⟩ := kvInt_two_sided (mu := 3) (by norm_num) hz
    norm_num at a b
    norm_num [fsmallzNup1, f3]
    rw [abs_le]
    norm_num at *
    constructor <;> linarith
  · obtain ⟨a, b⟩ := kvInt_two_sided (mu := 4) (by norm_num) hz
    norm_num at a b
    norm_num [fsmallzNup1, f4]
    rw [abs_le]
    norm_num at *
    constructor <;> linarith
  · obtain ⟨a, b⟩ := kvInt_two_sided (mu := 5) (by norm_num) hz
    norm_num at a b
    norm_num [fsmallzNup1, f5]
    rw [abs_le]
    norm_num at *
    constructor <;> linarith

/-- The index is one of the integers with a series of its own, or at least `d` away from every integer. -/
def IndexOk (nu d : ℝ) : Prop := (∃ n : ℕ, n ≤ 4 ∧ nu = n) ∨ ∀ n : ℤ, d ≤ |nu - n|

theorem flux_small {nu z d : ℝ} (hn : -0.85 ≤ nu) (hd : 1e-9 ≤ d) (h : IndexOk nu d)
    (hz : 0 ≤ z) (hz2 : z ≤ 1e-10) (alpha : ℝ) :
    |fluxFraction z nu alpha - (1 - kvInt (nu + 1) z / Gamma (nu + 1) - alpha)| ≤ 5e-15 + 2e-20 / d := by
  have hd0 : 0 < d := lt_of_lt_of_le (by norm_num) hd
  have hn1 : 0 < nu + 1 := by norm_num at hn; linarith
  have hG := Gamma_pos_of_pos hn1
  unfold fluxFraction fzNup1 gammaP1
  rw [if_pos hz2, gammaJ_eq (x := nu + 1) hn1, show ∀ a b : ℝ, 1 - a - alpha - (1 - b - alpha) = -(a - b) from
    fun a b => by ring, abs_neg]
  have hq : 0 ≤ 2e-20 / d := by positivity
  rcases h with ⟨n, hn4, rfl⟩ | h
  · exact (small_flux_int hz hz2 n hn4).trans (by linarith)
  · have hne : ∀ m : ℕ, nu ≠ m := by
      intro m hm
      have := h m
      rw [hm] at this
      simp at this
      linarith
    have e : fsmallzNup1 z nu = fnuSmallP1 z nu := by
      unfold fsmallzNup1
      rw [if_neg (by simpa using hne 0), if_neg (by simpa using hne 1), if_neg (by simpa using hne 2),
        if_neg (by simpa using hne 3), if_neg (by simpa using hne 4)]
    rw [e]
    have big : |fnuSmallP1 z nu / ((2 : ℝ) ^ nu * Gamma (nu + 1)) - kvInt (nu + 1) z / Gamma (nu + 1)| ≤ 2e-20 / d := by
      rcases lt_trichotomy nu 0 with h0 | h0 | h0
      · rcases hz.lt_or_eq with hz0 | rfl
        · exact small_flux_neg hn h0 hd h hz0 hz2
        · rw [kvInt_zero hn1, div_self hG.ne']
          have h2 : (0 : ℝ) < 2 ^ nu := by positivity
          have e0 : fnuSmallP1 0 nu = (2 : ℝ) ^ nu * Gamma (nu + 1) := by
            unfold fnuSmallP1 gammaP1
            simp only [mul_zero, zero_div, sub_zero, add_zero]
            rw [Real.zero_rpow (by linarith), gammaJ_eq (x := nu + 1) hn1]
            simp
          rw [e0, div_self (by positivity), sub_self, abs_zero]
          exact hq
      · exact absurd h0 (by simpa using hne 0)
      · exact small_flux_pos h0 hd h hz hz2
    exact big.trans (by norm_num)

/-- The enclosed flux fraction of the code at any radius. -/
theorem flux_all {nu z d : ℝ} (hn : -0.85 ≤ nu) (hd : 1e-9 ≤ d) (h : IndexOk nu d) (hz : 0 ≤ z) (alpha : ℝ) :
    |fluxFraction z nu alpha - (1 - kvInt (nu + 1) z / Gamma (nu + 1) - alpha)| ≤ 5e-15 + 2e-20 / d := by
  by_cases hz2 : z ≤ 1e-10
  · exact flux_small hn hd h hz hz2 alpha
  · have hd0 : 0 < d := lt_of_lt_of_le (by norm_num) hd
    rw [fluxFraction_eq (by norm_num at hn; linarith) (not_le.mp hz2), sub_self, abs_zero]
    positivity

/-- The flux of the analytic Spergel profile within a radius. -/
theorem spergel_within (s : Spergel) (hn : -1 < s.nu) (hr : 0 < s.r0) {R : ℝ} (hR : 0 ≤ R) :
    fluxWithin s.ideal R = s.flux * (1 - kvInt (s.nu + 1) (R / s.r0) / Gamma (s.nu + 1)) := by
  have hG := Gamma_pos_of_pos (show 0 < s.nu + 1 by linarith)
  have h2 : (0 : ℝ) < 2 ^ s.nu := by positivity
  have hpi := Real.pi_pos
  obtain ⟨c, hc⟩ : ∃ c, c = s.flux / (2 * π * s.r0 ^ 2 * (2 : ℝ) ^ s.nu * Gamma (s.nu + 1)) * (2 : ℝ) ^ (s.nu - 1) :=
    ⟨_, rfl⟩
  have e1 : fluxWithin s.ideal R = ∫ p in disc R, (fun r : ℝ => c * kvInt s.nu (r / s.r0)) (sqrt (p.1 ^ 2 + p.2 ^ 2)) := by
    unfold fluxWithin
    congr 1
    funext p
    simp only [Spergel.ideal, hc]
    ring
  rw [e1, disc_integral (fun r : ℝ => c * kvInt s.nu (r / s.r0)) hR]
  have der : ∀ x ∈ Ioo 0 R, HasDerivAt (fun r : ℝ => -(2 * s.r0 ^ 2) * kvInt (s.nu + 1) (r / s.r0))
      (x * kvInt s.nu (x / s.r0)) x := by
    intro x hx
    have a1 := kvInt_hasDerivAt (s.nu + 1) (div_pos hx.1 hr)
    have a2 := (hasDerivAt_id x).div_const s.r0
    refine ((HasDerivAt.comp x a1 a2).const_mul (-(2 * s.r0 ^ 2))).congr_deriv ?_
    rw [add_sub_cancel_right]
    have := hr.ne'
    field_simp
  have cont : ContinuousOn (fun r : ℝ => -(2 * s.r0 ^ 2) * kvInt (s.nu + 1) (r / s.r0)) (Icc 0 R) :=
    (continuous_const.mul ((kvInt_continuous (by linarith)).comp (continuous_id.div_const _))).continuousOn
  have hint : IntervalIntegrable (fun x => x * kvInt s.nu (x / s.r0)) volume 0 R := by
    refine intervalIntegral.intervalIntegrable_deriv_of_nonneg (by rwa [uIcc_of_le hR])
      (by rw [min_eq_left hR, max_eq_right hR]; exact der) ?_
    rw [min_eq_left hR, max_eq_right hR]
    exact fun x hx => mul_nonneg hx.1.le (kvInt_nonneg _ _)
  have e2 : ∀ r : ℝ, r * (c * kvInt s.nu (r / s.r0)) = c * (r * kvInt s.nu (r / s.r0)) := fun r => by ring
  simp only [e2]
  rw [intervalIntegral.integral_const_mul, intervalIntegral.integral_eq_sub_of_hasDerivAt_of_le hR cont der hint,
    zero_div, kvInt_zero (by linarith), hc, Real.rpow_sub_one (by norm_num : (2 : ℝ) ≠ 0)]
  have := hr.ne'
  field_simp
  ring

/-- C96: the enclosed flux of a Spergel profile that the code computes is, at every radius, the flux of the analytic
profile inside that radius: exactly beyond `1e-10` scale radii, and up to `5e-15 + 2e-20/d` of the total flux inside,
where `d` is the distance of the index from the integers (0 to 4 have series of their own). -/
theorem C96_enclosed (s : Spergel) (d : ℝ) (hn : -0.85 ≤ s.nu) (hr : 0 < s.r0) (hd : 1e-9 ≤ d) (h : IndexOk s.nu d)
    (R : ℝ) (hR : 0 ≤ R) :
    (1e-10 * s.r0 < R → s.flux * s.integratedFlux R = ∫ p in disc R, s.ideal p) ∧
    |s.flux * s.integratedFlux R - ∫ p in disc R, s.ideal p| ≤ (5e-15 + 2e-20 / d) * |s.flux| := by
  have hn' : -1 < s.nu := by norm_num at hn; linarith
  have e := spergel_within s hn' hr hR
  unfold fluxWithin at e
  rw [e]
  unfold Spergel.integratedFlux
  constructor
  · intro hb
    rw [fluxFraction_eq hn' (by rw [lt_div_iff₀ hr]; exact hb), sub_zero]
  · have := flux_all hn hd h (div_nonneg hR hr.le) 0
    rw [sub_zero] at this
    rw [← mul_sub, abs_mul, mul_comm]
    exact mul_le_mul_of_nonneg_right this (abs_nonneg _)

example (gs : GSP) (R : ℝ) (hR : 0 ≤ R) :
    |7 * Spergel.integratedFlux ⟨-(1 / 2), 3, 7, gs⟩ R - ∫ p in disc R, Spergel.ideal ⟨-(1 / 2), 3, 7, gs⟩ p| ≤
      (5e-15 + 2e-20 / (1 / 2)) * |7| :=
  (C96_enclosed ⟨-(1 / 2), 3, 7, gs⟩ (1 / 2) (by norm_num) (by norm_num) (by norm_num) (Or.inr fun n => by
    rw [le_abs]
    rcases le_or_gt 0 n with h | h
    · right; have : (0 : ℝ) ≤ n := by exact_mod_cast h
      simp only; linarith
    · left; have : (n : ℝ) ≤ -1 := by exact_mod_cast Int.le_sub_one_of_lt h
      simp only; linarith) R hR).2

end JG.Elt
