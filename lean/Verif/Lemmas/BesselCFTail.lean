import Verif.Lemmas.BesselCF

/-! # Steed's continued fraction: what is left out when its loop stops -/

namespace JG.BesK

open Real Set Filter Topology JG.Elt

/-- `√(n+4)`. -/
noncomputable def rt (n : ℕ) : ℝ := sqrt ((n : ℝ) + 4)

theorem rt_sq (n : ℕ) : rt n ^ 2 = n + 4 := sq_sqrt (by positivity)

theorem rt_ge (n : ℕ) : 2 ≤ rt n := by
  have : (0 : ℝ) ≤ n := Nat.cast_nonneg n
  rw [rt]
  exact le_sqrt_of_sq_le (by linarith)

theorem rt_succ (n : ℕ) : rt n ≤ rt (n + 1) := by
  rw [rt, rt]
  exact sqrt_le_sqrt (by push_cast; linarith)

theorem rt_diff (n : ℕ) : rt (n + 1) * (2 * rt n) ≤ 2 * rt n ^ 2 + 1 := by
  have h1 := rt_sq n
  have h2 := rt_sq (n + 1)
  push_cast at h2
  nlinarith [sq_nonneg (rt (n + 1) - rt n)]

/-- `1 - 1/√(n+4)` satisfies the recurrence of the ratios with an inequality. -/
theorem super_sol {p s x y z : ℝ} (hp0 : 0 < p) (hsp : p ≤ s) (hp3 : p ≤ x ^ 2 - 3) (x2 : 2 ≤ x) (hxy : x ≤ y)
    (hd : y * (2 * x) ≤ 2 * x ^ 2 + 1) (hz : 2 ≤ z) : p ≤ (1 - 1 / x) * (p + 2 * z + s / y) := by
  have hx0 : 0 < x := by linarith
  have hy0 : 0 < y := by linarith
  have e : (1 - 1 / x) * (p + 2 * z + s / y) - p = (2 * z * (x - 1) * y + s * (x - 1) - p * y) / (x * y) := by
    field_simp
    ring
  have : 0 ≤ (2 * z * (x - 1) * y + s * (x - 1) - p * y) / (x * y) := by
    refine div_nonneg ?_ (by positivity)
    have k1 : p * (x - 1) ≤ s * (x - 1) := mul_le_mul_of_nonneg_right hsp (by linarith)
    have k2 : 4 * ((x - 1) * y) ≤ 2 * z * ((x - 1) * y) :=
      mul_le_mul_of_nonneg_right (by linarith) (mul_nonneg (by linarith) hy0.le)
    have k3 : y - x ≤ 1 / 4 := by nlinarith
    have k4 : p * (y - x + 1) ≤ (x ^ 2 - 3) * (5 / 4) := mul_le_mul hp3 (by linarith) (by linarith) (by linarith)
    have k5 : (x - 1) * x ≤ (x - 1) * y := mul_le_mul_of_nonneg_left hxy (by linarith)
    nlinarith [sq_nonneg (x - 1)]
  linarith

section
variable {v z : ℝ} (h1 : -(1 / 2) < v) (h2 : v < 1 / 2) (hz : 2 ≤ z)
include h1 h2 hz

theorem wI_anti (n : ℕ) : wI v z (n + 1) ≤ wI v z n := by
  have hn : (0 : ℝ) ≤ n := Nat.cast_nonneg n
  have hz' : 0 < z := by linarith
  rw [wI, wI, gI, gI]
  push_cast
  refine MeasureTheory.setIntegral_mono_on (gF_integrable (by linarith) (by linarith) hz')
    (gF_integrable (by linarith) (by linarith) hz') measurableSet_Ioi fun t ht => ?_
  have ht0 : (0 : ℝ) < t := ht
  have ht1 : (0 : ℝ) < 1 + t := by linarith
  have e : gF (v - 1 / 2 + (n + 1)) (v - 1 / 2 - (n + 1)) z t = gF (v - 1 / 2 + n) (v - 1 / 2 - n) z t * (t / (1 + t)) := by
    simp only [gF]
    rw [show v - 1 / 2 + ((n : ℝ) + 1) = v - 1 / 2 + n + 1 by ring, show v - 1 / 2 - ((n : ℝ) + 1) = v - 1 / 2 - n - 1 by ring,
      rpow_add_one ht0.ne', rpow_sub_one ht1.ne']
    field_simp
  rw [e]
  refine mul_le_of_le_one_right (gF_pos _ _ _ ht0).le ?_
  rw [div_le_one ht1]
  linarith

/-- One step of the bound of the ratios, backwards. -/
theorem ratio_step (n : ℕ) {G : ℝ} (hG : 0 ≤ G)
    (h : wI v z (n + 2) - (1 - 1 / rt (n + 1)) * wI v z (n + 1) ≤ G * wI v z (n + 1)) :
    wI v z (n + 1) - (1 - 1 / rt n) * wI v z n ≤ ((n : ℝ) + 2) / (n + 4) * G * wI v z n := by
  have hn : (0 : ℝ) ≤ n := Nat.cast_nonneg n
  have hz' : 0 < z := by linarith
  have w0 := wI_pos h1 h2 hz' n
  have w1 := wI_pos h1 h2 hz' (n + 1)
  have w2 := wI_pos h1 h2 hz' (n + 2)
  have a1 := wI_anti h1 h2 hz (n + 1)
  have hr := wI_rec h1 h2 hz' n
  have x2 := rt_ge n
  have y2 := rt_ge (n + 1)
  have hx := rt_sq n
  have hxy := rt_succ n
  have hd := rt_diff n
  obtain ⟨x, hxd⟩ : ∃ x, x = rt n := ⟨_, rfl⟩
  obtain ⟨y, hyd⟩ : ∃ y, y = rt (n + 1) := ⟨_, rfl⟩
  rw [← hxd] at x2 hx hxy hd ⊢
  rw [← hyd] at y2 hxy hd h
  obtain ⟨a, ha⟩ : ∃ a, a = wI v z n := ⟨_, rfl⟩
  obtain ⟨b, hb⟩ : ∃ b, b = wI v z (n + 1) := ⟨_, rfl⟩
  obtain ⟨c, hc⟩ : ∃ c, c = wI v z (n + 2) := ⟨_, rfl⟩
  rw [← ha, ← hb, ← hc] at hr
  rw [← hb, ← hc] at h a1
  rw [← ha, ← hb]
  rw [← ha] at w0
  rw [← hb] at w1
  rw [← hc] at w2
  -- supersolution
  obtain ⟨p, hp⟩ : ∃ p, p = (n : ℝ) + 1 / 2 + v := ⟨_, rfl⟩
  obtain ⟨s, hs⟩ : ∃ s, s = (n : ℝ) + 3 / 2 - v := ⟨_, rfl⟩
  have hp0 : 0 < p := by rw [hp]; linarith
  have hs0 : 0 < s := by rw [hs]; linarith
  have hsp : p ≤ s := by rw [hp, hs]; linarith
  have hp3 : p ≤ x ^ 2 - 3 := by rw [hx, hp]; linarith
  have hr' : p * a = (p + 2 * z + s) * b - s * c := by
    rw [hp, hs]
    linear_combination hr
  have hx0 : 0 < x := by linarith
  have hy0 : 0 < y := by linarith
  have super := super_sol hp0 hsp hp3 x2 hxy hd hz
  -- `b - U a`, multiplied by the denominator
  have hden : 0 < (p + 2 * z + s) * b - s * c := by rw [← hr']; positivity
  have hU0 : 0 ≤ 1 - 1 / x := by
    rw [sub_nonneg, div_le_one hx0]; linarith
  have hU1 : 1 - 1 / x ≤ 1 := by
    have : 0 < 1 / x := by positivity
    linarith
  -- `den = p + 2z + s - s c/b ≥ n + 4`
  have key : (b - (1 - 1 / x) * a) * p ≤ s * G * b * (1 - 1 / x) := by
    have e : (b - (1 - 1 / x) * a) * p = p * b - (1 - 1 / x) * ((p + 2 * z + s) * b - s * c) := by
      rw [← hr']; ring
    rw [e]
    have hc' : s * c ≤ s * ((1 - 1 / y) * b + G * b) := mul_le_mul_of_nonneg_left (by linarith) hs0.le
    have m1 := mul_le_mul_of_nonneg_right super w1.le
    have m2 := mul_le_mul_of_nonneg_left hc' hU0
    have e2 : (1 - 1 / x) * (s * ((1 - 1 / y) * b + G * b)) = (1 - 1 / x) * (s * b) - (1 - 1 / x) * (s / y * b) + s * G * b * (1 - 1 / x) := by
      ring
    have e3 : (1 - 1 / x) * (p + 2 * z + s / y) * b = (1 - 1 / x) * ((p + 2 * z) * b) + (1 - 1 / x) * (s / y * b) := by ring
    rw [e2] at m2
    rw [e3] at m1
    have e4 : (1 - 1 / x) * ((p + 2 * z + s) * b - s * c)
      = (1 - 1 / x) * ((p + 2 * z) * b) + (1 - 1 / x) * (s * b) - (1 - 1 / x) * (s * c) := by ring
    linarith
  -- `b (p + 2 z) ≤ p a`
  have hba : (p + 2 * z) * b ≤ p * a := by
    have := mul_le_mul_of_nonneg_left a1 hs0.le
    rw [hr']
    linarith
  have hsG : 0 ≤ s * G := mul_nonneg hs0.le hG
  have hq : s * G * b * (1 - 1 / x) ≤ s * G * b := mul_le_of_le_one_right (mul_nonneg hsG w1.le) hU1
  have hb2 : b ≤ p * a / (p + 2 * z) := by rw [le_div_iff₀ (by linarith)]; linarith
  have hfin : (b - (1 - 1 / x) * a) * p ≤ (((n : ℝ) + 2) / (n + 4) * G * a) * p := by
    refine (key.trans hq).trans ?_
    have k1 : s * G * b ≤ s * G * (p * a / (p + 2 * z)) := mul_le_mul_of_nonneg_left hb2 hsG
    refine k1.trans ?_
    have k2 : s / (p + 2 * z) ≤ ((n : ℝ) + 2) / (n + 4) := by
      rw [div_le_div_iff₀ (by linarith) (by linarith), hs, hp]
      have g1 : 0 ≤ (1 + 2 * v) * ((n : ℝ) + 3) := mul_nonneg (by linarith) (by linarith)
      have g2 : 0 ≤ ((n : ℝ) + 2) * (2 * z - 4) := mul_nonneg (by linarith) (by linarith)
      linarith
    have k3 := mul_le_mul_of_nonneg_right k2 (mul_nonneg hG (mul_nonneg hp0.le w0.le))
    calc _ = s / (p + 2 * z) * (G * (p * a)) := by ring
      _ ≤ _ := k3
      _ = _ := by ring
  exact le_of_mul_le_mul_right hfin hp0

theorem ratio_iter (k : ℕ) : ∀ n : ℕ, wI v z (n + 1) - (1 - 1 / rt n) * wI v z n
    ≤ ((n : ℝ) + 2) * (n + 3) / ((n + k + 2) * (n + k + 3)) * wI v z n := by
  have hz' : 0 < z := by linarith
  induction k with
  | zero =>
    intro n
    have hn : (0 : ℝ) ≤ n := Nat.cast_nonneg n
    have e : ((n : ℝ) + 2) * (n + 3) / ((n + (0 : ℕ) + 2) * (n + (0 : ℕ) + 3)) = 1 := by
      push_cast
      rw [add_zero]
      exact div_self (by positivity)
    rw [e]
    have := wI_anti h1 h2 hz n
    have w0 := wI_pos h1 h2 hz' n
    have hx := rt_ge n
    have : 0 ≤ (1 - 1 / rt n) * wI v z n := by
      refine mul_nonneg ?_ w0.le
      rw [sub_nonneg, div_le_one (by linarith)]; linarith
    linarith
  | succ k ih =>
    intro n
    have hn : (0 : ℝ) ≤ n := Nat.cast_nonneg n
    have hk : (0 : ℝ) ≤ k := Nat.cast_nonneg k
    have := ratio_step h1 h2 hz n (by positivity) (ih (n + 1))
    refine this.trans_eq ?_
    push_cast
    have e1 : (n : ℝ) + 4 ≠ 0 := by positivity
    have e2 : (n : ℝ) + 1 + k + 2 ≠ 0 := by positivity
    have e3 : (n : ℝ) + 1 + k + 3 ≠ 0 := by positivity
    rw [show (n : ℝ) + (k + 1) + 2 = n + 1 + k + 2 by ring, show (n : ℝ) + (k + 1) + 3 = n + 1 + k + 3 by ring]
    field_simp
    ring

/-- The ratio of successive integrals. -/
theorem ratio_le (n : ℕ) : wI v z (n + 1) ≤ (1 - 1 / rt n) * wI v z n := by
  have hz' : 0 < z := by linarith
  have hn : (0 : ℝ) ≤ n := Nat.cast_nonneg n
  have w0 := wI_pos h1 h2 hz' n
  have hl : Tendsto (fun k : ℕ => ((n : ℝ) + 2) * (n + 3) / ((n + k + 2) * (n + k + 3)) * wI v z n) atTop (𝓝 0) := by
    have hb : Tendsto (fun k : ℕ => ((n : ℝ) + 2) * (n + 3) * wI v z n * (1 / ((k : ℝ) + 1))) atTop (𝓝 0) := by
      simpa using tendsto_one_div_add_atTop_nhds_zero_nat.const_mul (((n : ℝ) + 2) * (n + 3) * wI v z n)
    refine squeeze_zero (fun k => by positivity) (fun k => ?_) hb
    have hk : (0 : ℝ) ≤ k := Nat.cast_nonneg k
    have : 1 / ((n + k + 2) * ((n : ℝ) + k + 3)) ≤ 1 / ((k : ℝ) + 1) := by
      apply one_div_le_one_div_of_le (by positivity)
      nlinarith
    calc _ = ((n : ℝ) + 2) * (n + 3) * wI v z n * (1 / ((n + k + 2) * ((n : ℝ) + k + 3))) := by ring
      _ ≤ _ := mul_le_mul_of_nonneg_left this (by positivity)
  have := ge_of_tendsto' hl (fun k => ratio_iter h1 h2 hz k n)
  linarith

theorem ratio_le' (n : ℕ) : ((n : ℝ) + 1 / 2 + v + 2 * z) * wI v z (n + 1) ≤ ((n : ℝ) + 1 / 2 + v) * wI v z n := by
  have hn : (0 : ℝ) ≤ n := Nat.cast_nonneg n
  have hz' : 0 < z := by linarith
  have hr := wI_rec h1 h2 hz' n
  have := mul_le_mul_of_nonneg_left (wI_anti h1 h2 hz (n + 1)) (by linarith : 0 ≤ (n : ℝ) + 3 / 2 - v)
  linarith

/-- `R_n = q_n / y_n`. -/
noncomputable def bigR (v z : ℝ) (n : ℕ) : ℝ := qN v z n / yN v z n

omit hz in
theorem incr_eq (hz' : 0 < z) (n : ℕ) : (bigR v z (n + 1) - bigR v z n) * (yN v z n * yN v z (n + 1))
    = yN v z n * qN v z (n + 1) - yN v z (n + 1) * qN v z n := by
  have y0 := (yN_pos h1 h2 hz' n).ne'
  have y1 := (yN_pos h1 h2 hz' (n + 1)).ne'
  rw [bigR, bigR]
  field_simp

omit hz in
theorem incr_pos (hz' : 0 < z) (n : ℕ) : 0 < bigR v z (n + 1) - bigR v z n := by
  have y0 := yN_pos h1 h2 hz' n
  have y1 := yN_pos h1 h2 hz' (n + 1)
  have := cas_pos h1 h2 hz' n
  rw [← incr_eq h1 h2 hz' n] at this
  exact (mul_pos_iff_of_pos_right (mul_pos y0 y1)).mp this

/-- The increments grow. -/
theorem incr_grow (n : ℕ) : bigR v z (n + 1) - bigR v z n
    ≤ (1 - 1 / rt (n + 1)) * (bigR v z (n + 2) - bigR v z (n + 1)) := by
  have hz' : 0 < z := by linarith
  have hn : (0 : ℝ) ≤ n := Nat.cast_nonneg n
  have i0 := incr_eq h1 h2 hz' n
  have i1 := incr_eq h1 h2 hz' (n + 1)
  have d1 := incr_pos h1 h2 hz' (n + 1)
  have c := cas_succ h1 h2 hz' n
  have a := aN_pos h1 h2 (n + 1)
  rw [eq_div_iff a.ne', ← i0, ← i1] at c
  -- `D_{n+1} y_{n+2} A_{n+2} = D_n y_n`
  have y0 := yN_pos h1 h2 hz' n
  have y1 := yN_pos h1 h2 hz' (n + 1)
  have y2 := yN_pos h1 h2 hz' (n + 2)
  obtain ⟨D0, hD0⟩ : ∃ D, D = bigR v z (n + 1) - bigR v z n := ⟨_, rfl⟩
  obtain ⟨D1, hD1⟩ : ∃ D, D = bigR v z (n + 2) - bigR v z (n + 1) := ⟨_, rfl⟩
  rw [← hD0, ← hD1]
  rw [← hD0, ← hD1] at c
  rw [← hD1] at d1
  have c2 : D1 * (yN v z (n + 2) * aN v (n + 2)) = D0 * yN v z n := by
    apply mul_right_cancel₀ y1.ne'
    linear_combination c
  have w0 := wI_pos h1 h2 hz' n
  have w1 := wI_pos h1 h2 hz' (n + 1)
  have p0 := pN_pos h1 n
  have ep : yN v z (n + 2) * aN v (n + 2) = wI v z (n + 2) * ((n : ℝ) + 3 / 2 - v) / (pN v n * ((n : ℝ) + 1 / 2 + v)) := by
    have e1 : v + 1 / 2 + (n : ℝ) ≠ 0 := by linarith
    have e2 : v + 1 / 2 + ((n : ℝ) + 1) ≠ 0 := by linarith
    have ea : aN v (n + 2) = ((n : ℝ) + 3 / 2 - v) * (v + 1 / 2 + (n + 1)) := by rw [aN]; push_cast; ring
    rw [yN, ea, pN_succ v (n + 1), pN_succ v n, show (n : ℝ) + 1 / 2 + v = v + 1 / 2 + n by ring]
    push_cast
    obtain ⟨t, ht⟩ : ∃ t, t = v + 1 / 2 + ((n : ℝ) + 1) := ⟨_, rfl⟩
    obtain ⟨u, hu⟩ : ∃ t, t = v + 1 / 2 + (n : ℝ) := ⟨_, rfl⟩
    rw [← ht, ← hu]
    rw [← ht] at e2
    rw [← hu] at e1
    field_simp
  have c3 : D1 * (wI v z (n + 2) * ((n : ℝ) + 3 / 2 - v)) = D0 * (wI v z n * ((n : ℝ) + 1 / 2 + v)) := by
    have hq : 0 < (n : ℝ) + 1 / 2 + v := by linarith
    rw [ep, yN] at c2
    obtain ⟨u, hu⟩ : ∃ t, t = (n : ℝ) + 1 / 2 + v := ⟨_, rfl⟩
    rw [← hu] at c2 hq ⊢
    field_simp at c2
    linear_combination c2 / 2
  have r1 := ratio_le' h1 h2 hz n
  have r2 := ratio_le h1 h2 hz (n + 1)
  have hU : 0 ≤ 1 - 1 / rt (n + 1) := by
    have := rt_ge (n + 1)
    rw [sub_nonneg, div_le_one (by linarith)]; linarith
  -- `w_{n+2} s ≤ U w_{n+1} (p + 2z) ≤ U p w_n`
  have hs0 : 0 ≤ (n : ℝ) + 3 / 2 - v := by linarith
  have k1 : wI v z (n + 2) * ((n : ℝ) + 3 / 2 - v) ≤ (1 - 1 / rt (n + 1)) * (wI v z n * ((n : ℝ) + 1 / 2 + v)) := by
    calc _ ≤ (1 - 1 / rt (n + 1)) * wI v z (n + 1) * ((n : ℝ) + 3 / 2 - v) := mul_le_mul_of_nonneg_right r2 hs0
      _ ≤ (1 - 1 / rt (n + 1)) * wI v z (n + 1) * ((n : ℝ) + 1 / 2 + v + 2 * z) :=
          mul_le_mul_of_nonneg_left (by linarith) (mul_nonneg hU w1.le)
      _ = (1 - 1 / rt (n + 1)) * (((n : ℝ) + 1 / 2 + v + 2 * z) * wI v z (n + 1)) := by ring
      _ ≤ (1 - 1 / rt (n + 1)) * (((n : ℝ) + 1 / 2 + v) * wI v z n) := mul_le_mul_of_nonneg_left r1 hU
      _ = _ := by ring
  have hw : 0 < wI v z n * ((n : ℝ) + 1 / 2 + v) := mul_pos w0 (by linarith)
  have k2 : D0 * (wI v z n * ((n : ℝ) + 1 / 2 + v)) ≤ (1 - 1 / rt (n + 1)) * D1 * (wI v z n * ((n : ℝ) + 1 / 2 + v)) := by
    rw [← c3]
    calc _ ≤ D1 * ((1 - 1 / rt (n + 1)) * (wI v z n * ((n : ℝ) + 1 / 2 + v))) := mul_le_mul_of_nonneg_left k1 d1.le
      _ = _ := by ring
  exact le_of_mul_le_mul_right k2 hw

theorem bigR_le (n : ℕ) : bigR v z n ≤ rt n * (bigR v z (n + 1) - bigR v z n) := by
  have hz' : 0 < z := by linarith
  induction n with
  | zero =>
    have h0 := incr_pos h1 h2 hz' 0
    have e : bigR v z 0 = 0 := by
      have : qN v z 0 = 0 := rfl
      rw [bigR, this, zero_div]
    have := rt_ge 0
    rw [e] at h0 ⊢
    exact mul_nonneg (by linarith) h0.le
  | succ n ih =>
    have g := incr_grow h1 h2 hz n
    have d1 := incr_pos h1 h2 hz' (n + 1)
    have x2 := rt_ge n
    have y2 := rt_ge (n + 1)
    have xy := rt_succ n
    obtain ⟨x, hx⟩ : ∃ x, x = rt n := ⟨_, rfl⟩
    obtain ⟨y, hy⟩ : ∃ x, x = rt (n + 1) := ⟨_, rfl⟩
    rw [← hx] at ih x2 xy
    rw [← hy] at g y2 xy ⊢
    have : n + 1 + 1 = n + 2 := rfl
    rw [this] at d1 ⊢
    obtain ⟨D0, hD0⟩ : ∃ D, D = bigR v z (n + 1) - bigR v z n := ⟨_, rfl⟩
    obtain ⟨D1, hD1⟩ : ∃ D, D = bigR v z (n + 2) - bigR v z (n + 1) := ⟨_, rfl⟩
    rw [← hD0] at ih g
    rw [← hD1] at g d1 ⊢
    have e : bigR v z (n + 1) = bigR v z n + D0 := by rw [hD0]; ring
    rw [e]
    have k1 : bigR v z n + D0 ≤ (x + 1) * D0 := by linarith
    have k2 : (x + 1) * D0 ≤ (x + 1) * ((1 - 1 / y) * D1) := mul_le_mul_of_nonneg_left g (by linarith)
    have k3 : (x + 1) * (1 - 1 / y) ≤ y := by
      have hy0 : 0 < y := by linarith
      have e2 : (1 - 1 / y) = (y - 1) / y := by field_simp
      rw [e2, mul_div_assoc', div_le_iff₀ hy0]
      nlinarith
    have k4 := mul_le_mul_of_nonneg_right k3 d1.le
    linarith

theorem rho_tail (n : ℕ) : rho v z (n + 2) ≤ rt (n + 1) * (rho v z (n + 1) - rho v z (n + 2)) := by
  have hz' : 0 < z := by linarith
  have h := bigR_le h1 h2 hz (n + 1)
  have e : ∀ m, rho v z m = 1 / bigR v z m := by
    intro m
    rw [rho, bigR, one_div_div]
  have r1 : 0 < bigR v z (n + 1) := div_pos (qN_pos h1 h2 hz' n) (yN_pos h1 h2 hz' _)
  have r2 : 0 < bigR v z (n + 2) := div_pos (qN_pos h1 h2 hz' (n + 1)) (yN_pos h1 h2 hz' _)
  rw [e, e]
  have e2 : rt (n + 1) * (1 / bigR v z (n + 1) - 1 / bigR v z (n + 2))
      = rt (n + 1) * (bigR v z (n + 2) - bigR v z (n + 1)) / (bigR v z (n + 1) * bigR v z (n + 2)) := by
    field_simp
  rw [e2, le_div_iff₀ (by positivity)]
  calc _ = bigR v z (n + 1) := by field_simp
    _ ≤ _ := h

/-- The terms of the sum rule. -/
noncomputable def tN (v z : ℝ) (n : ℕ) : ℝ := cN v n * yN v z n

omit hz in
theorem tN_pos (hz' : 0 < z) (n : ℕ) : 0 < tN v z n := mul_pos (cN_pos h1 h2 n) (yN_pos h1 h2 hz' n)

theorem tN_le (n : ℕ) : tN v z (n + 1) ≤ (1 - 1 / rt n) * tN v z n := by
  have hz' : 0 < z := by linarith
  have hn : (0 : ℝ) ≤ n := Nat.cast_nonneg n
  rw [tN, tN, cy_eq h1, cy_eq h1]
  have eb : bc (1 / 2 - v) (n + 1) = bc (1 / 2 - v) n * ((1 / 2 - v + n) / (n + 1)) := by
    rw [bc, bc, Finset.prod_range_succ, Nat.factorial_succ]
    push_cast
    field_simp
  have hb := bc_nonneg (by linarith : 0 ≤ 1 / 2 - v) n
  have hb1 : bc (1 / 2 - v) (n + 1) ≤ bc (1 / 2 - v) n := by
    rw [eb]
    refine mul_le_of_le_one_right hb ?_
    rw [div_le_one (by linarith)]
    linarith
  have w1 := wI_pos h1 h2 hz' (n + 1)
  calc _ ≤ bc (1 / 2 - v) n * wI v z (n + 1) := mul_le_mul_of_nonneg_right hb1 w1.le
    _ ≤ bc (1 / 2 - v) n * ((1 - 1 / rt n) * wI v z n) := mul_le_mul_of_nonneg_left (ratio_le h1 h2 hz n) hb
    _ = _ := by ring

theorem tN_tail (n : ℕ) : ∑' m, tN v z (m + (n + 1)) ≤ rt n * tN v z n := by
  have hz' : 0 < z := by linarith
  have hs : Summable (tN v z) := (cy_hasSum h1 h2 hz').summable
  have part : ∀ k, ∑ m ∈ Finset.range k, tN v z (m + (n + 1)) + rt (n + k) * tN v z (n + k) ≤ rt n * tN v z n := by
    intro k
    induction k with
    | zero => simp
    | succ k ih =>
      rw [Finset.sum_range_succ]
      have g := tN_le h1 h2 hz (n + k)
      have x2 := rt_ge (n + k)
      have hd := rt_diff (n + k)
      have t0 := tN_pos h1 h2 hz' (n + k)
      have t1 := tN_pos h1 h2 hz' (n + k + 1)
      have y2 := rt_ge (n + k + 1)
      rw [show k + (n + 1) = n + k + 1 by omega, show n + (k + 1) = n + k + 1 by omega]
      obtain ⟨x, hx⟩ : ∃ x, x = rt (n + k) := ⟨_, rfl⟩
      obtain ⟨y, hy⟩ : ∃ x, x = rt (n + k + 1) := ⟨_, rfl⟩
      rw [← hx] at g x2 hd ih
      rw [← hy] at hd y2 ⊢
      have hx0 : 0 < x := by linarith
      have k1 : (1 + y) * tN v z (n + k + 1) ≤ (1 + y) * ((1 - 1 / x) * tN v z (n + k)) :=
        mul_le_mul_of_nonneg_left g (by linarith)
      have k2 : (1 + y) * (1 - 1 / x) ≤ x := by
        have e2 : (1 - 1 / x) = (x - 1) / x := by field_simp
        rw [e2, mul_div_assoc', div_le_iff₀ hx0]
        have : y ≤ x + 1 / 4 := by nlinarith
        nlinarith
      have k3 := mul_le_mul_of_nonneg_right k2 t0.le
      linarith
  have hs' : Summable fun m => tN v z (m + (n + 1)) := (summable_nat_add_iff (n + 1)).mpr hs
  refine Summable.tsum_le_of_sum_range_le hs' fun k => ?_
  have := part k
  have t0 := tN_pos h1 h2 hz' (n + k)
  have x2 := rt_ge (n + k)
  have := mul_pos (by linarith : 0 < rt (n + k)) t0
  linarith

end

end JG.BesK
