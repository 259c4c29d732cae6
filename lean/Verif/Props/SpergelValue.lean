import Verif.Props.SpergelSmall

/-!
# Spergel profile near its centre: surface brightness (C96)
-/

namespace JG.Elt

open Real Set MeasureTheory JG.BesK

theorem gammaJ_abs {x : ℝ} (h : Gamma x ≠ 0) : gammaJ x = |Gamma x| := by
  rcases lt_trichotomy x 0 with h0 | h0 | h0
  · exact gammaJ_neg h0 h
  · rw [h0, Gamma_zero] at h
    exact absurd rfl h
  · rw [gammaJ_eq h0, abs_of_pos (Gamma_pos_of_pos h0)]

theorem gamma_ne {nu d : ℝ} (hd : 0 < d) (h : ∀ n : ℤ, d ≤ |nu - n|) : Gamma nu ≠ 0 := by
  have := gamma_neg_ne (nu := -nu) hd fun n => by
    have := h (-n)
    rw [← abs_neg]
    push_cast at this
    rwa [show -(-nu - (n : ℝ)) = nu - -n by ring]
  rwa [neg_neg] at this

/-- The series of `fsmallz_nu` at a non-integer index, term by term. -/
theorem fnuSmall_eq {nu z d : ℝ} (hn : -1 < nu + 1e-10) (hd : 0 < d) (h : ∀ n : ℤ, d ≤ |nu + 1e-10 - n|) :
    fnuSmall z nu = 2 ^ (-1 - (nu + 1e-10)) * z ^ (2 * (nu + 1e-10)) * |Gamma (-(nu + 1e-10))| *
        (1 + z ^ 6 / (4 * (1 + (nu + 1e-10)))) +
      2 ^ (nu + 1e-10 - 1) * |Gamma (nu + 1e-10)| *
        (1 + z ^ 2 * (16 + z ^ 2 - 8 * (nu + 1e-10)) / (32 * |(nu + 1e-10 - 1) * (nu + 1e-10 - 2)|)) := by
  obtain ⟨m, hm⟩ : ∃ m, m = nu + 1e-10 := ⟨_, rfl⟩
  rw [← hm] at hn h ⊢
  have h1 : m - 1 ≠ 0 := by have := h 1; intro h0; simp at this; rw [h0, abs_zero] at this; linarith
  have h2 : m - 2 ≠ 0 := by have := h 2; intro h0; simp at this; rw [h0, abs_zero] at this; linarith
  have g0 := gamma_ne hd h
  have e := gamma_p2 (nu := m) (by intro h; apply h1; linarith) (by intro h; apply h2; linarith)
  have g2 : Gamma (-2 + m) ≠ 0 := by intro h0; rw [h0, mul_zero] at e; exact g0 e.symm
  have hp : 0 < |(m - 1) * (m - 2)| := abs_pos.mpr (mul_ne_zero h1 h2)
  have e3 : |Gamma (-2 + m)| = |Gamma m| / |(m - 1) * (m - 2)| := by
    rw [← e, abs_mul, mul_div_cancel_left₀ _ hp.ne']
  unfold fnuSmall
  rw [← hm]
  simp only
  rw [gammaJ_m2 hn (gamma_neg_ne hd h), gammaJ_abs g2, gammaJ_abs g0, e3]
  have e4 : (4 : ℝ) ^ m = 2 ^ m * 2 ^ m := by
    rw [← Real.mul_rpow (by norm_num) (by norm_num)]; norm_num
  have e5 : (2 : ℝ) ^ (-6 - m) = (2 ^ m)⁻¹ / 64 := by
    rw [Real.rpow_sub (by norm_num)]
    norm_num
    ring
  have e6 : (2 : ℝ) ^ (-1 - m) = (2 ^ m)⁻¹ / 2 := by
    rw [Real.rpow_sub (by norm_num)]
    norm_num
    ring
  have e7 : (2 : ℝ) ^ (m - 1) = 2 ^ m / 2 := by
    rw [Real.rpow_sub (by norm_num)]
    norm_num
  have h2m : (0 : ℝ) < 2 ^ m := by positivity
  have k1 : 1 + m ≠ 0 := by linarith
  have k2 : 2 + m ≠ 0 := by linarith
  rw [e4, e5, e6, e7]
  field_simp
  ring

/-- The true value of the profile at these radii. -/
theorem true_value {nu : ℝ} (hn : 0 < nu) (h : nu < 1) {z : ℝ} (hz : 0 < z) :
    2 ^ (nu - 1) * kvInt nu z = 2 ^ (nu - 1) * Gamma nu * gFun nu (z ^ 2 / 4) +
      2 ^ (-nu - 1) * Gamma (-nu) * z ^ (2 * nu) * gFun (-nu) (z ^ 2 / 4) :=
  small_exact hn.ne' h (by linarith) hz

theorem frac_dist {m : ℝ} (h0 : 0 < m) (h1 : m < 1) (n : ℤ) : min m (1 - m) ≤ |m - n| := by
  rcases le_or_gt n 0 with h | h
  · have : (n : ℝ) ≤ 0 := by exact_mod_cast h
    rw [abs_of_pos (by linarith)]
    exact (min_le_left _ _).trans (by linarith)
  · have : (1 : ℝ) ≤ n := by exact_mod_cast h
    rw [abs_of_neg (by linarith)]
    exact (min_le_right _ _).trans (by linarith)

theorem fnuSmall_increasing {nu a b : ℝ} (hn : 0 < nu) (h1 : nu + 1e-10 < 1) (ha : 0 ≤ a) (hab : a < b)
    (hb : b ≤ 1e-10) : fnuSmall a nu < fnuSmall b nu := by
  obtain ⟨m, hm⟩ : ∃ m, m = nu + 1e-10 := ⟨_, rfl⟩
  have hm0 : 0 < m := by rw [hm]; norm_num; linarith
  have hm1 : m < 1 := by rw [hm]; exact h1
  have hd : 0 < min m (1 - m) := lt_min hm0 (by linarith)
  have hk : ∀ n : ℤ, min m (1 - m) ≤ |nu + 1e-10 - n| := fun n => by rw [← hm]; exact frac_dist hm0 hm1 n
  rw [fnuSmall_eq (by rw [← hm]; linarith) hd hk, fnuSmall_eq (by rw [← hm]; linarith) hd hk, ← hm]
  rw [← hm] at hk
  have hg : 0 < |Gamma m| := abs_pos.mpr (gamma_ne hd hk)
  have hg2 : 0 < |Gamma (-m)| := abs_pos.mpr (gamma_neg_ne hd hk)
  have hp : 0 < |(m - 1) * (m - 2)| := abs_pos.mpr (mul_ne_zero (by linarith) (by linarith))
  have h2 : (0 : ℝ) < 2 ^ (-1 - m) := by positivity
  have h3 : (0 : ℝ) < 2 ^ (m - 1) := by positivity
  have hz : a ^ (2 * m) < b ^ (2 * m) := Real.rpow_lt_rpow ha hab (by linarith)
  have hz0 : 0 ≤ a ^ (2 * m) := Real.rpow_nonneg ha _
  have h6 : a ^ 6 ≤ b ^ 6 := pow_le_pow_left₀ ha hab.le 6
  have h22 : a ^ 2 ≤ b ^ 2 := pow_le_pow_left₀ ha hab.le 2
  apply add_lt_add_of_lt_of_le
  · apply mul_lt_mul
    · exact mul_lt_mul_of_pos_right (mul_lt_mul_of_pos_left hz h2) hg2
    · gcongr
    · positivity
    · have : 0 < b ^ (2 * m) := lt_of_le_of_lt hz0 hz
      positivity
  · apply mul_le_mul_of_nonneg_left _ (by positivity)
    gcongr
    · nlinarith [sq_nonneg a]

/-- C96: Disagreement: the series used within `1e-10` scale radii takes `Γ` without its sign, so for every index between
0 and 1 the surface brightness the code computes there increases outwards; the true profile decreases. -/
theorem C96_increasing_counterexample (s : Spergel) (hn : 0 < s.nu) (h1 : s.nu + 1e-10 < 1) (hr : 0 < s.r0)
    (hf : 0 < s.flux) (p q : ℝ × ℝ) (hp : 0 < sqrt (p.1 ^ 2 + p.2 ^ 2))
    (hpq : sqrt (p.1 ^ 2 + p.2 ^ 2) < sqrt (q.1 ^ 2 + q.2 ^ 2)) (hq : sqrt (q.1 ^ 2 + q.2 ^ 2) ≤ 1e-10 * s.r0) :
    (∃ u v, s.xValue p = some u ∧ s.xValue q = some v ∧ u < v) ∧ s.ideal q < s.ideal p := by
  obtain ⟨a, ha⟩ : ∃ a, a = sqrt (p.1 ^ 2 + p.2 ^ 2) := ⟨_, rfl⟩
  obtain ⟨b, hb⟩ : ∃ b, b = sqrt (q.1 ^ 2 + q.2 ^ 2) := ⟨_, rfl⟩
  rw [← ha] at hp hpq
  rw [← hb] at hpq hq
  have hG := Gamma_pos_of_pos (show 0 < s.nu + 1 by linarith)
  have h2 : (0 : ℝ) < 2 ^ s.nu := by positivity
  have h3 : (0 : ℝ) < 2 ^ (s.nu - 1) := by positivity
  have hpi := Real.pi_pos
  have hab : a / s.r0 < b / s.r0 := div_lt_div_of_pos_right hpq hr
  have ha0 : 0 < a / s.r0 := div_pos hp hr
  have hb1 : b / s.r0 ≤ 1e-10 := by rw [div_le_iff₀ hr]; exact hq
  have hx : 0 < s.xnorm := by
    unfold Spergel.xnorm Spergel.shootxnorm Spergel.invR0 gammaP1
    rw [gammaJ_eq (x := s.nu + 1) (by linarith)]
    positivity
  have val : ∀ t : ℝ, 0 < t → t ≤ 1e-10 → fzNu t s.nu = fnuSmall t s.nu := by
    intro t _ ht
    have k : s.nu < 1 := lt_trans (by norm_num) h1
    unfold fzNu fsmallzNu
    rw [if_pos ht, if_neg hn.ne', if_neg k.ne, if_neg (by linarith), if_neg (by linarith), if_neg (by linarith)]
  refine ⟨⟨_, _, ?_, ?_, mul_lt_mul_of_pos_left (fnuSmall_increasing hn h1 ha0.le hab hb1) hx⟩, ?_⟩
  · simp only [Spergel.xValue]
    rw [← ha, Spergel.invR0, mul_one_div, if_neg ha0.ne', val _ ha0 (hab.le.trans hb1)]
  · simp only [Spergel.xValue]
    rw [← hb, Spergel.invR0, mul_one_div, if_neg (ha0.trans hab).ne', val _ (ha0.trans hab) hb1]
  · simp only [Spergel.ideal]
    rw [← ha, ← hb]
    have := kvInt_strictAnti hn ha0.le hab
    have hc : 0 < s.flux / (2 * π * s.r0 ^ 2 * 2 ^ s.nu * Gamma (s.nu + 1)) := by positivity
    exact mul_lt_mul_of_pos_left (mul_lt_mul_of_pos_left this h3) hc

example (gs : GSP) : ∃ u v, Spergel.xValue ⟨1 / 2, 1, 1, gs⟩ (1e-12, 0) = some u ∧
    Spergel.xValue ⟨1 / 2, 1, 1, gs⟩ (1e-11, 0) = some v ∧ u < v := by
  have e : ∀ a : ℝ, 0 ≤ a → sqrt (a ^ 2 + 0 ^ 2) = a := fun a ha => by simp [Real.sqrt_sq ha]
  refine (C96_increasing_counterexample ⟨1 / 2, 1, 1, gs⟩ (by norm_num) (by norm_num) one_pos one_pos (1e-12, 0) (1e-11, 0)
    ?_ ?_ ?_).1
  · simp only; rw [e _ (by norm_num)]; norm_num
  · simp only; rw [e _ (by norm_num), e _ (by norm_num)]; norm_num
  · simp only; rw [e _ (by norm_num)]; norm_num

/-- Values of the factors near index zero. -/
theorem near_zero {x : ℝ} (h0 : 0 < x) (h1 : x ≤ 0.021) :
    (x * Gamma x ≤ 1 ∧ 0.979 ≤ x * Gamma x) ∧ x * |Gamma (-x)| = -(x * Gamma (-x)) ∧ 1 ≤ x * |Gamma (-x)| ∧
      0.4925 ≤ (2 : ℝ) ^ (-1 - x) ∧ (0.5 ≤ (2 : ℝ) ^ (x - 1) ∧ (2 : ℝ) ^ (x - 1) ≤ 0.5 * (1 + x)) ∧
      0.375 ≤ (1e-10 : ℝ) ^ (2 * x) := by
  norm_num at h1
  have a1 : x * Gamma x = Gamma (1 + x) := by rw [add_comm, Gamma_add_one h0.ne']
  have a2 : -(x * Gamma (-x)) = Gamma (1 - x) := by
    rw [show 1 - x = -x + 1 by ring, Gamma_add_one (by linarith)]; ring
  have a3 : 1 ≤ Gamma (1 - x) := by
    have := (gamma_step (x := 1 - x) (h := x) (by linarith) h0.le (by linarith)).1
    rw [sub_add_cancel, Gamma_one] at this
    have k := Real.rpow_le_one (show 0 ≤ 1 - x by linarith) (by linarith) h0.le
    have := Gamma_pos_of_pos (show 0 < 1 - x by linarith)
    nlinarith
  have a4 : Gamma (-x) < 0 := by nlinarith
  have a5 : x * |Gamma (-x)| = -(x * Gamma (-x)) := by rw [abs_of_neg a4]; ring
  refine ⟨⟨?_, ?_⟩, a5, by rw [a5, a2]; exact a3, ?_, ⟨?_, ?_⟩, ?_⟩
  · rw [a1]; exact gamma_le_one (by linarith) (by linarith)
  · rw [a1]
    have := (gamma_step (x := 1) (h := x) one_pos h0.le (by linarith)).2
    rw [Gamma_one, one_mul] at this
    have k := Real.one_le_rpow (show 1 ≤ 1 + x by linarith) h0.le
    have k2 : (0.979 : ℝ) ≤ 1 / (1 + x) := by rw [le_div_iff₀ (by linarith)]; norm_num; linarith
    have k3 : 1 / (1 + x) * 1 ≤ 1 / (1 + x) * (1 + x) ^ x := mul_le_mul_of_nonneg_left k (by positivity)
    linarith
  · rw [Real.rpow_sub (by norm_num), Real.rpow_neg_one, div_eq_mul_inv, ← Real.rpow_neg (by norm_num),
      Real.rpow_def_of_pos (by norm_num : (0 : ℝ) < 2)]
    have := Real.add_one_le_exp (Real.log 2 * -x)
    have := Real.log_two_lt_d9
    norm_num at *
    nlinarith
  · rw [Real.rpow_sub (by norm_num), Real.rpow_one]
    have := Real.one_le_rpow (show (1 : ℝ) ≤ 2 by norm_num) h0.le
    norm_num
    linarith
  · rw [Real.rpow_sub (by norm_num), Real.rpow_one]
    have := rpow_one_add_le_one_add_mul_self (s := 1) (by norm_num) h0.le (by linarith)
    norm_num at *
    linarith
  · have k1 : (1e-10 : ℝ) ^ (0.042 : ℝ) ≤ (1e-10 : ℝ) ^ (2 * x) :=
      Real.rpow_le_rpow_of_exponent_ge (by norm_num) (by norm_num) (by norm_num; linarith)
    refine le_trans ?_ k1
    have k2 : ((1e-10 : ℝ) ^ (0.042 : ℝ)) ^ 500 = 1e-210 := by
      rw [← Real.rpow_natCast, ← Real.rpow_mul (by norm_num)]
      norm_num
    refine (pow_le_pow_iff_left₀ (by norm_num) (Real.rpow_nonneg (by norm_num) _) (show 500 ≠ 0 by norm_num)).mp ?_
    rw [k2, show (500 : ℕ) = 100 * 5 by norm_num, pow_mul]
    have k3 : (0.375 : ℝ) ^ 100 ≤ 1e-42 := by norm_num
    refine (pow_le_pow_left₀ (by positivity) k3 5).trans ?_
    norm_num

theorem double_aux {nu : ℝ} (h1 : 1 / 100 ≤ nu) (h2 : nu ≤ 1 / 50) :
    2 * (2 ^ (nu - 1) * kvInt nu 1e-10) < fnuSmall 1e-10 nu := by
  obtain ⟨m, hm⟩ : ∃ m, m = nu + 1e-10 := ⟨_, rfl⟩
  have hm0 : 0.01 < m := by rw [hm]; norm_num at *; linarith
  have hm1 : m < 0.021 := by rw [hm]; norm_num at *; linarith
  have hd : 0 < min m (1 - m) := lt_min (by norm_num at *; linarith) (by norm_num at *; linarith)
  have hk : ∀ n : ℤ, min m (1 - m) ≤ |nu + 1e-10 - n| := fun n => by
    rw [← hm]; exact frac_dist (by norm_num at *; linarith) (by norm_num at *; linarith) n
  rw [fnuSmall_eq (by rw [← hm]; norm_num at *; linarith) hd hk, ← hm, true_value (by linarith) (by linarith) (by norm_num)]
  obtain ⟨⟨a1, a2⟩, -, a4, a5, ⟨a6, a7⟩, a8⟩ := near_zero (x := m) (by norm_num at *; linarith) hm1.le
  obtain ⟨⟨b1, b2⟩, b3, b4, b5, ⟨b6, b7⟩, b8⟩ := near_zero (x := nu) (by linarith) (by norm_num at *; linarith)
  have hq : (1e-10 : ℝ) ^ 2 / 4 / (1 - nu) ≤ 1e-20 := by
    rw [div_le_iff₀ (by linarith)]; norm_num; linarith
  have hq0 : 0 ≤ (1e-10 : ℝ) ^ 2 / 4 / (1 - nu) := div_nonneg (by norm_num) (by linarith)
  have g1 := gFun_two (mu := nu) (y := (1e-10 : ℝ) ^ 2 / 4) (by linarith) (by norm_num) (by norm_num; linarith)
  have g1' := gFun_ge_one (mu := nu) (y := (1e-10 : ℝ) ^ 2 / 4) (by linarith) (by norm_num)
  have g2 := gFun_ge_one (mu := -nu) (y := (1e-10 : ℝ) ^ 2 / 4) (by linarith) (by norm_num)
  obtain ⟨G, hG⟩ : ∃ G, G = gFun nu ((1e-10 : ℝ) ^ 2 / 4) := ⟨_, rfl⟩
  obtain ⟨H, hH⟩ : ∃ H, H = gFun (-nu) ((1e-10 : ℝ) ^ 2 / 4) := ⟨_, rfl⟩
  rw [← hG] at g1 g1' ⊢
  rw [← hH] at g2 ⊢
  have g3 : G ≤ 1.0001 := by
    have : ((1e-10 : ℝ) ^ 2 / 4 / (1 - nu)) ^ 2 ≤ (1e-20) ^ 2 := pow_le_pow_left₀ hq0 hq 2
    norm_num at *
    linarith
  have hmn : m = nu + 1e-10 := hm
  have hnu0 : 0 < nu := by linarith
  have hm00 : 0 < m := by norm_num at hm0; linarith
  have b1' : 0 < nu * Gamma nu := lt_of_lt_of_le (by norm_num) b2
  -- the true value
  have t1 : nu * (2 ^ (nu - 1) * Gamma nu * G) ≤ 0.51 * 1.0001 := by
    rw [show nu * (2 ^ (nu - 1) * Gamma nu * G) = 2 ^ (nu - 1) * (nu * Gamma nu) * G by ring]
    have k1 : (2 : ℝ) ^ (nu - 1) * (nu * Gamma nu) ≤ 0.51 * 1 :=
      mul_le_mul (b7.trans (by norm_num; linarith)) b1 b1'.le (by norm_num)
    have k2 : 0 ≤ (2 : ℝ) ^ (nu - 1) * (nu * Gamma nu) := mul_nonneg (by positivity) b1'.le
    calc _ ≤ 0.51 * 1 * 1.0001 := mul_le_mul k1 g3 (by linarith) (by norm_num)
      _ = _ := by norm_num
  have t2 : 0.184 ≤ -(nu * (2 ^ (-nu - 1) * Gamma (-nu) * 1e-10 ^ (2 * nu) * H)) := by
    rw [show -(nu * (2 ^ (-nu - 1) * Gamma (-nu) * 1e-10 ^ (2 * nu) * H)) =
      2 ^ (-1 - nu) * (nu * |Gamma (-nu)|) * 1e-10 ^ (2 * nu) * H by rw [b3, show -nu - 1 = -1 - nu by ring]; ring]
    have k1 : 0.4925 * 1 ≤ (2 : ℝ) ^ (-1 - nu) * (nu * |Gamma (-nu)|) := mul_le_mul b5 b4 (by norm_num) (by positivity)
    have k2 : 0.4925 * 1 * 0.375 ≤ (2 : ℝ) ^ (-1 - nu) * (nu * |Gamma (-nu)|) * 1e-10 ^ (2 * nu) :=
      mul_le_mul k1 b8 (by norm_num) (by positivity)
    have k3 : 0.4925 * 1 * 0.375 * 1 ≤ (2 : ℝ) ^ (-1 - nu) * (nu * |Gamma (-nu)|) * 1e-10 ^ (2 * nu) * H :=
      mul_le_mul k2 g2 (by norm_num) (by positivity)
    exact le_trans (by norm_num) k3
  -- the value of the code
  have c1 : 0.184 ≤ m * (2 ^ (-1 - m) * 1e-10 ^ (2 * m) * |Gamma (-m)| * (1 + 1e-10 ^ 6 / (4 * (1 + m)))) := by
    rw [show m * (2 ^ (-1 - m) * 1e-10 ^ (2 * m) * |Gamma (-m)| * (1 + 1e-10 ^ 6 / (4 * (1 + m)))) =
      2 ^ (-1 - m) * (m * |Gamma (-m)|) * 1e-10 ^ (2 * m) * (1 + 1e-10 ^ 6 / (4 * (1 + m))) by ring]
    have k1 : 0.4925 * 1 ≤ (2 : ℝ) ^ (-1 - m) * (m * |Gamma (-m)|) := mul_le_mul a5 a4 (by norm_num) (by positivity)
    have k2 : 0.4925 * 1 * 0.375 ≤ (2 : ℝ) ^ (-1 - m) * (m * |Gamma (-m)|) * 1e-10 ^ (2 * m) :=
      mul_le_mul k1 a8 (by norm_num) (by positivity)
    have k4 : (1 : ℝ) ≤ 1 + 1e-10 ^ 6 / (4 * (1 + m)) := by
      have : (0 : ℝ) ≤ 1e-10 ^ 6 / (4 * (1 + m)) := by positivity
      linarith
    have k3 := mul_le_mul k2 k4 (by norm_num) (le_trans (by norm_num) k2)
    exact le_trans (by norm_num) k3
  have c2 : 0.489 ≤ m * (2 ^ (m - 1) * |Gamma m| *
      (1 + 1e-10 ^ 2 * (16 + 1e-10 ^ 2 - 8 * m) / (32 * |(m - 1) * (m - 2)|))) := by
    rw [abs_of_pos (Gamma_pos_of_pos hm00), show m * (2 ^ (m - 1) * Gamma m *
      (1 + 1e-10 ^ 2 * (16 + 1e-10 ^ 2 - 8 * m) / (32 * |(m - 1) * (m - 2)|))) = 2 ^ (m - 1) * (m * Gamma m) *
      (1 + 1e-10 ^ 2 * (16 + 1e-10 ^ 2 - 8 * m) / (32 * |(m - 1) * (m - 2)|)) by ring]
    have k1 : 0.5 * 0.979 ≤ (2 : ℝ) ^ (m - 1) * (m * Gamma m) := mul_le_mul a6 a2 (by norm_num) (by positivity)
    have k4 : (1 : ℝ) ≤ 1 + 1e-10 ^ 2 * (16 + 1e-10 ^ 2 - 8 * m) / (32 * |(m - 1) * (m - 2)|) := by
      have : (0 : ℝ) ≤ 1e-10 ^ 2 * (16 + 1e-10 ^ 2 - 8 * m) / (32 * |(m - 1) * (m - 2)|) := by
        refine div_nonneg (mul_nonneg (by norm_num) ?_) (by positivity)
        norm_num at *
        linarith
      linarith
    have k3 := mul_le_mul k1 k4 (by norm_num) (le_trans (by norm_num) k1)
    exact le_trans (by norm_num) k3
  have hc := add_le_add c1 c2
  rw [← mul_add] at hc
  have ht : nu * (2 ^ (nu - 1) * Gamma nu * G + 2 ^ (-nu - 1) * Gamma (-nu) * 1e-10 ^ (2 * nu) * H) ≤ 0.327 := by
    rw [mul_add]
    norm_num at t1 t2 ⊢
    linarith
  obtain ⟨C, hC⟩ : ∃ C, C = 2 ^ (-1 - m) * 1e-10 ^ (2 * m) * |Gamma (-m)| * (1 + 1e-10 ^ 6 / (4 * (1 + m))) +
      2 ^ (m - 1) * |Gamma m| * (1 + 1e-10 ^ 2 * (16 + 1e-10 ^ 2 - 8 * m) / (32 * |(m - 1) * (m - 2)|)) := ⟨_, rfl⟩
  obtain ⟨T, hT⟩ : ∃ T, T = 2 ^ (nu - 1) * Gamma nu * G + 2 ^ (-nu - 1) * Gamma (-nu) * 1e-10 ^ (2 * nu) * H := ⟨_, rfl⟩
  rw [← hC] at hc ⊢
  rw [← hT] at ht ⊢
  clear t1 t2 c1 c2 hC hT
  have e1 : 0.673 / m ≤ C := by rw [div_le_iff₀ hm00]; norm_num at hc ⊢; linarith
  have e2 : T ≤ 0.327 / nu := by rw [le_div_iff₀ hnu0]; linarith
  have e3 : 2 * (0.327 / nu) < 0.673 / m := by
    rw [← mul_div_assoc, div_lt_div_iff₀ hnu0 hm00, hm]
    norm_num
    linarith
  linarith

/-- C96: Disagreement: for indices from 1/100 to 1/50, at `1e-10` scale radii from the centre, the surface brightness of
the code is more than twice the true one (the term in `r^(2ν)` has the wrong sign). -/
theorem C96_double_counterexample (s : Spergel) (h1 : 1 / 100 ≤ s.nu) (h2 : s.nu ≤ 1 / 50) (hr : 0 < s.r0)
    (hf : 0 < s.flux) (p : ℝ × ℝ) (hp : sqrt (p.1 ^ 2 + p.2 ^ 2) = 1e-10 * s.r0) :
    ∃ u, s.xValue p = some u ∧ 0 < s.ideal p ∧ 2 * s.ideal p < u := by
  have hn : 0 < s.nu := by linarith
  have hG := Gamma_pos_of_pos (show 0 < s.nu + 1 by linarith)
  have hpi := Real.pi_pos
  have e : sqrt (p.1 ^ 2 + p.2 ^ 2) / s.r0 = 1e-10 := by rw [hp]; field_simp
  have hc : 0 < s.flux / (2 * π * s.r0 ^ 2 * 2 ^ s.nu * Gamma (s.nu + 1)) := by positivity
  have ex : s.xnorm = s.flux / (2 * π * s.r0 ^ 2 * 2 ^ s.nu * Gamma (s.nu + 1)) := by
    unfold Spergel.xnorm Spergel.shootxnorm Spergel.invR0 gammaP1
    rw [gammaJ_eq (x := s.nu + 1) (by linarith)]
    field_simp
  refine ⟨s.xnorm * fnuSmall 1e-10 s.nu, ?_, ?_, ?_⟩
  · simp only [Spergel.xValue]
    rw [Spergel.invR0, mul_one_div, e, if_neg (by norm_num)]
    unfold fzNu fsmallzNu
    rw [if_pos le_rfl, if_neg hn.ne', if_neg (by linarith), if_neg (by linarith), if_neg (by linarith), if_neg (by linarith)]
  · simp only [Spergel.ideal]
    rw [e]
    have := kvInt_pos s.nu (show (0 : ℝ) < 1e-10 by norm_num)
    positivity
  · simp only [Spergel.ideal]
    rw [e, ex]
    have := mul_lt_mul_of_pos_left (double_aux h1 h2) hc
    linarith

example (gs : GSP) : ∃ u, Spergel.xValue ⟨1 / 64, 1, 1, gs⟩ (1e-10, 0) = some u ∧
    0 < Spergel.ideal ⟨1 / 64, 1, 1, gs⟩ (1e-10, 0) ∧ 2 * Spergel.ideal ⟨1 / 64, 1, 1, gs⟩ (1e-10, 0) < u :=
  C96_double_counterexample ⟨1 / 64, 1, 1, gs⟩ (by norm_num) (by norm_num) one_pos one_pos (1e-10, 0) (by
    simp only
    rw [show (1e-10 : ℝ) ^ 2 + 0 ^ 2 = 1e-10 ^ 2 by ring, Real.sqrt_sq (by norm_num), mul_one])

end JG.Elt
