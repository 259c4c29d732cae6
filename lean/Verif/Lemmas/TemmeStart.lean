import Verif.Lemmas.TemmePerturb

/-! # The values from which Temme's series starts, with the tables of the code -/

namespace JG.BesK

open Real JG.Elt Set

theorem kvInt_anti (w : ℝ) {z y : ℝ} (hz : 0 < z) (h : z ≤ y) : kvInt w y ≤ kvInt w z := by
  refine MeasureTheory.setIntegral_mono_on (kvInt_integrable w (hz.trans_le h)) (kvInt_integrable w hz) measurableSet_Ioi fun t ht => ?_
  have ht0 : (0 : ℝ) < t := ht
  refine mul_le_mul_of_nonneg_left (exp_le_exp.mpr ?_) (rpow_nonneg ht0.le _)
  have : z ^ 2 / (4 * t) ≤ y ^ 2 / (4 * t) := div_le_div_of_nonneg_right (by nlinarith) (by positivity)
  linarith

theorem kv_zero_two : 1 / 17 ≤ kv 0 2 := by
  have h := (kv_near_half (nu := 0) (by norm_num) (by norm_num) (z := 2) (by norm_num)).1
  rw [kv_half (by norm_num)] at h
  have e4 : ((2 : ℝ) * 2) ^ (-(1 / 2) : ℝ) = 1 / 2 := by
    rw [show (2 : ℝ) * 2 = 2 ^ (2 : ℝ) by norm_num, ← rpow_mul (by norm_num)]
    norm_num [rpow_neg_one]
  rw [e4] at h
  have hpi : (1.77 : ℝ) ≤ sqrt π := by
    apply Real.le_sqrt_of_sq_le
    have := Real.pi_gt_d2
    norm_num at this ⊢
    linarith
  have he : (1 : ℝ) / 7.3891 ≤ exp (-2) := by
    rw [exp_neg, one_div]
    refine inv_anti₀ (exp_pos 2) ?_
    have h := Real.exp_one_lt_d9
    have e : Real.exp 2 = Real.exp 1 ^ 2 := by rw [← Real.exp_nat_mul]; norm_num
    rw [e]
    have h0 := Real.exp_pos 1
    calc Real.exp 1 ^ 2 ≤ 2.7182818286 ^ 2 := by gcongr
      _ ≤ 7.3891 := by norm_num
  have := mul_le_mul hpi he (by norm_num) (sqrt_nonneg π)
  norm_num at this h ⊢
  linarith

theorem kv_ge' (v : ℝ) {z : ℝ} (hz : 0 < z) (hz2 : z ≤ 2) : (z / 2) ^ (-|v|) ≤ 17 * kv v z := by
  rw [← kv_abs v hz, kv_eq]
  have h1 := kvInt_anti |v| hz hz2
  have h2 : kv 0 2 ≤ kv |v| 2 := kv_mono (by simp) (by norm_num)
  have h3 := kv_zero_two
  have e : kv |v| 2 = 1 / 2 * kvInt |v| 2 := by rw [kv_eq]; norm_num
  rw [e] at h2
  have P := rpow_pos_of_pos (by positivity : 0 < z / 2) (-|v|)
  have := mul_le_mul_of_nonneg_left (show 1 ≤ 17 * (1 / 2 * kvInt |v| z) by linarith) P.le
  linarith

theorem coeff1_range {v : ℝ} (hv : |v| ≤ 1 / 2) : |(evaluateTemmeCoeffs v).coeff1 + 571 / 1000| ≤ 8 / 1000 := by
  obtain ⟨h0, h1⟩ := sq_range hv
  have hb : boundQ 8 (addQ (clQ coeff1Q) [571 / 1000]) (8 / 1000) = true := by decide +kernel
  have := boundQ_le (by norm_num) hb h0 h1
  rw [evQ_add, ← clQ_eq, ← coeff1_cast] at this
  simp only [evQ] at this
  simp only [evaluateTemmeCoeffs, ofCoeffs]
  rw [show 8 * v * v - 1 = 2 * (4 * v ^ 2) - 1 by ring]
  push_cast at this
  rw [mul_zero, add_zero] at this
  exact this

theorem coeff2_range {v : ℝ} (hv : |v| ≤ 1 / 2) : |(evaluateTemmeCoeffs v).coeff2 - 92 / 100| ≤ 81 / 1000 := by
  obtain ⟨h0, h1⟩ := sq_range hv
  have hb : boundQ 8 (addQ (clQ coeff2Q) [-92 / 100]) (81 / 1000) = true := by decide +kernel
  have := boundQ_le (by norm_num) hb h0 h1
  rw [evQ_add, ← clQ_eq, ← coeff2_cast] at this
  simp only [evQ] at this
  simp only [evaluateTemmeCoeffs, ofCoeffs]
  rw [show 8 * v * v - 1 = 2 * (4 * v ^ 2) - 1 by ring]
  push_cast at this
  rw [mul_zero, add_zero] at this
  rw [show (clenshaw (2 * (4 * v ^ 2) - 1) coeff2Coeffs - 92 / 100 : ℝ) = clenshaw (2 * (4 * v ^ 2) - 1) coeff2Coeffs + -92 / 100 by ring]
  exact this

theorem sinc_range {v : ℝ} (hv : |v| ≤ 1 / 2) : 2 / π ≤ npSinc v ∧ npSinc v ≤ 1 := by
  refine ⟨?_, sinc_le_one _⟩
  have key : ∀ w : ℝ, 0 ≤ w → w ≤ 1 / 2 → 2 / π ≤ npSinc w := by
    intro w h0 h1
    rcases h0.eq_or_lt with rfl | h0
    · rw [npSinc, mul_zero, sinc_zero, div_le_one pi_pos]
      exact two_le_pi
    · have hx : 0 < π * w := by positivity
      rw [npSinc, sinc_of_ne_zero hx.ne', le_div_iff₀ hx]
      refine mul_le_sin hx.le ?_
      nlinarith [pi_pos]
  obtain ⟨h1, h2⟩ := abs_le.mp hv
  rcases le_total 0 v with h | h
  · exact key v h h2
  · have := key (-v) (by linarith) (by linarith)
    rwa [npSinc, mul_neg, sinc_neg] at this

section
variable {v z : ℝ} (hv : |v| ≤ 1 / 2) (hz : 0 < z) (hz2 : z ≤ 2)
include hz hz2

omit hz hz2 in
theorem exp_mu_le (v : ℝ) {z : ℝ} (hz : 0 < z) (hz2 : z ≤ 2) : exp (-v * log (z / 2)) ≤ 17 * kv v z ∧
    exp (-(-v * log (z / 2))) ≤ 17 * kv v z ∧ cosh (-v * log (z / 2)) ≤ 17 * kv v z := by
  have hk := kv_ge' v hz hz2
  rw [rpow_def_of_pos (by positivity)] at hk
  have hL : log (z / 2) ≤ 0 := log_nonpos (by positivity) (by linarith)
  have a1 : exp (-v * log (z / 2)) ≤ exp (log (z / 2) * -|v|) := exp_le_exp.mpr (by nlinarith [neg_abs_le v, le_abs_self v])
  have a2 : exp (-(-v * log (z / 2))) ≤ exp (log (z / 2) * -|v|) := exp_le_exp.mpr (by nlinarith [neg_abs_le v, le_abs_self v])
  refine ⟨a1.trans hk, a2.trans hk, ?_⟩
  rw [cosh_eq]
  linarith

include hv

/-- The start values are within `3·10⁻¹⁴` of `K_v(z)` of the exact ones. -/
theorem start_close :
    |(temmeInit (evaluateTemmeCoeffs v) v z).f - (exactInit v z).f| ≤ 3 / 10 ^ 14 * kv v z ∧
    |(temmeInit (evaluateTemmeCoeffs v) v z).p - (exactInit v z).p| ≤ 3 / 10 ^ 14 * kv v z ∧
    |(temmeInit (evaluateTemmeCoeffs v) v z).q - (exactInit v z).q| ≤ 3 / 10 ^ 14 * kv v z ∧
    |(temmeInit (evaluateTemmeCoeffs v) v z).p - (exactInit v z).p| ≤ 16 / 10 ^ 16 * exp (-v * log (z / 2)) := by
  obtain ⟨hv1, hv2⟩ := abs_le.mp hv
  have c1 := coeff1_close hv
  have c2 := coeff2_close hv
  have r1 := coeff1_range hv
  have r2 := coeff2_range hv
  obtain ⟨s1, s2⟩ := sinc_range hv
  obtain ⟨m1, m2, m3⟩ := exp_mu_le v hz hz2
  have hK := kv_pos v hz
  have hL : log (z / 2) ≤ 0 := log_nonpos (by positivity) (by linarith)
  -- `f ≤ K`
  have hfK : (exactInit v z).f ≤ kv v z := by
    obtain ⟨t1, _, _⟩ := exact_tail hv hz hz2 (le_refl 1)
    obtain ⟨n0, _, _⟩ := exact_ratio hv hz hz2 (le_refl 1)
    rw [exactIter, iter_kvSum v z (exactStart v z), Finset.sum_range_succ, Finset.sum_range_one] at t1
    have e0 : kvTerm v z (exactInit v z) 0 = (exactInit v z).f := by simp [kvTerm, temmeIter, (exactStart v z).2.1]
    rw [e0] at t1
    linarith
  have hs : 0 ≤ (if -v * log (z / 2) = 0 then 1 else sinh (-v * log (z / 2)) / (-v * log (z / 2))) := by
    split_ifs with h0
    · norm_num
    · rcases lt_or_gt_of_ne h0 with h | h
      · exact div_nonneg_of_nonpos (sinh_nonpos_iff.mpr h.le) h.le
      · exact div_nonneg (sinh_nonneg_iff.mpr h.le) h.le
  simp only [exactInit, temmeInit, evaluateTemmeCoeffs, ofCoeffs] at *
  obtain ⟨E, hE⟩ : ∃ E, E = exp (-v * log (z / 2)) := ⟨_, rfl⟩
  obtain ⟨E', hE'⟩ : ∃ E, E = exp (-(-v * log (z / 2))) := ⟨_, rfl⟩
  have hE0 : 0 < E := by rw [hE]; exact exp_pos _
  have hE0' : 0 < E' := by rw [hE']; exact exp_pos _
  obtain ⟨A, hA⟩ : ∃ E, E = cosh (-v * log (z / 2)) := ⟨_, rfl⟩
  have hA0 : 0 < A := by rw [hA]; exact cosh_pos _
  obtain ⟨h, hh⟩ : ∃ E, E = (if -v * log (z / 2) = 0 then 1 else sinh (-v * log (z / 2)) / (-v * log (z / 2))) := ⟨_, rfl⟩
  rw [← hE] at m1 ⊢
  rw [← hE'] at m2 ⊢
  rw [← hA] at m3 hfK ⊢
  rw [← hh] at hs hfK ⊢
  clear hE hE' hA hh
  obtain ⟨L, hLd⟩ : ∃ L, L = -log (z / 2) := ⟨_, rfl⟩
  rw [← hLd] at hfK ⊢
  have hL0 : 0 ≤ L := by linarith
  obtain ⟨a, ha⟩ : ∃ a, a = clenshaw (8 * v * v - 1) coeff1Coeffs := ⟨_, rfl⟩
  obtain ⟨b, hb⟩ : ∃ a, a = clenshaw (8 * v * v - 1) coeff2Coeffs := ⟨_, rfl⟩
  rw [← ha] at c1 r1 ⊢
  rw [← hb] at c2 r2 ⊢
  obtain ⟨g1, hg1⟩ : ∃ a, a = gamma1 v := ⟨_, rfl⟩
  obtain ⟨g2, hg2⟩ : ∃ a, a = gamma2 v := ⟨_, rfl⟩
  rw [← hg1] at c1 hfK ⊢
  rw [← hg2] at c2 hfK ⊢
  obtain ⟨S, hS⟩ : ∃ S, S = npSinc v := ⟨_, rfl⟩
  rw [← hS] at s1 s2 hfK ⊢
  obtain ⟨K, hKd⟩ : ∃ K, K = kv v z := ⟨_, rfl⟩
  rw [← hKd] at hfK m1 m2 m3 hK ⊢
  clear ha hb hg1 hg2 hS hKd hLd hL
  have hS0 : 0 < S := lt_of_lt_of_le (by positivity) s1
  rw [abs_le] at r1 r2
  -- the two differences of `p` and `q`
  have quot : ∀ (w X : ℝ), |w| ≤ 1 / 2 → 0 < X →
      |0.5 * X / (b - w * a) - 0.5 * X / (g2 - w * g1)| ≤ 16 / 10 ^ 16 * X := by
    intro w X hw hX
    obtain ⟨w1, w2⟩ := abs_le.mp hw
    have wa : |w * a| ≤ 1 / 2 * (579 / 1000) := by
      rw [abs_mul]
      exact mul_le_mul hw (by rw [abs_le]; constructor <;> linarith) (abs_nonneg _) (by norm_num)
    have b1 : 549 / 1000 ≤ b - w * a := by
      have := (abs_le.mp wa).2
      linarith
    have dd : |(b - w * a) - (g2 - w * g1)| ≤ 9 / 10 ^ 16 := by
      have e : (b - w * a) - (g2 - w * g1) = (b - g2) - w * (a - g1) := by ring
      rw [e]
      refine (abs_sub _ _).trans ?_
      rw [abs_mul]
      have := mul_le_mul hw c1 (abs_nonneg _) (by norm_num)
      norm_num at this c2 ⊢
      linarith
    have b2 : 548 / 1000 ≤ g2 - w * g1 := by
      have := (abs_le.mp dd).2
      norm_num at this
      linarith
    have e : 0.5 * X / (b - w * a) - 0.5 * X / (g2 - w * g1) =
        -(0.5 * X * ((b - w * a) - (g2 - w * g1)) / ((b - w * a) * (g2 - w * g1))) := by
      have n1 : b - w * a ≠ 0 := by linarith
      have n2 : g2 - w * g1 ≠ 0 := by linarith
      field_simp
      ring
    rw [e, abs_neg, abs_div, abs_mul, abs_of_pos (by positivity : 0 < 0.5 * X)]
    have hden : 549 / 1000 * (548 / 1000) ≤ (b - w * a) * (g2 - w * g1) := mul_le_mul b1 b2 (by norm_num) (by linarith)
    rw [abs_of_pos (by linarith : 0 < (b - w * a) * (g2 - w * g1)), div_le_iff₀ (by linarith)]
    calc 0.5 * X * |(b - w * a) - (g2 - w * g1)| ≤ 0.5 * X * (9 / 10 ^ 16) := mul_le_mul_of_nonneg_left dd (by positivity)
      _ ≤ 16 / 10 ^ 16 * X * (549 / 1000 * (548 / 1000)) := by norm_num; nlinarith
      _ ≤ _ := mul_le_mul_of_nonneg_left hden (by positivity)
  have qp := quot v E hv hE0
  have qq := quot (-v) E' (by rwa [abs_neg]) hE0'
  rw [neg_mul, neg_mul, sub_neg_eq_add, sub_neg_eq_add] at qq
  refine ⟨?_, ?_, ?_, qp⟩
  · have hB : L * h ≤ 14 * K := by
      rw [div_le_iff₀ hS0] at hfK
      have i1 : K * S ≤ K := mul_le_of_le_one_right hK.le s2
      have g1b : -(58 / 100) ≤ g1 := by
        have := (abs_le.mp c1).2
        norm_num at this
        linarith
      have g2b : 838 / 1000 ≤ g2 := by
        have := (abs_le.mp c2).2
        norm_num at this
        linarith
      have i2 : -(58 / 100) * A ≤ g1 * A := mul_le_mul_of_nonneg_right g1b hA0.le
      have i3 : 838 / 1000 * (L * h) ≤ g2 * (L * h) := mul_le_mul_of_nonneg_right g2b (by positivity)
      linarith
    have e : (a * A + b * L * h) / S - (g1 * A + g2 * L * h) / S = ((a - g1) * A + (b - g2) * (L * h)) / S := by
      rw [← sub_div]; ring
    rw [e, abs_div, abs_of_pos hS0, div_le_iff₀ hS0]
    have n1 : |(a - g1) * A + (b - g2) * (L * h)| ≤ 6 / 10 ^ 16 * (31 * K) := by
      refine (abs_add_le _ _).trans ?_
      rw [abs_mul, abs_mul, abs_of_pos hA0, abs_of_nonneg (by positivity : 0 ≤ L * h)]
      have := mul_le_mul c1 m3 hA0.le (by norm_num)
      have := mul_le_mul c2 hB (by positivity) (by norm_num)
      linarith
    have n2 : 63 / 100 ≤ S := by
      refine le_trans ?_ s1
      rw [le_div_iff₀ pi_pos]
      have := pi_lt_d2
      norm_num at this ⊢
      linarith
    have n3 := mul_le_mul_of_nonneg_left n2 (show 0 ≤ 3 / 10 ^ 14 * K by positivity)
    refine n1.trans (le_trans ?_ n3)
    nlinarith
  · refine qp.trans ?_
    have := mul_le_mul_of_nonneg_left m1 (show (0 : ℝ) ≤ 16 / 10 ^ 16 by norm_num)
    refine this.trans ?_
    rw [← mul_assoc]
    exact mul_le_mul_of_nonneg_right (by norm_num) hK.le
  · refine qq.trans ?_
    have := mul_le_mul_of_nonneg_left m2 (show (0 : ℝ) ≤ 16 / 10 ^ 16 by norm_num)
    refine this.trans ?_
    rw [← mul_assoc]
    exact mul_le_mul_of_nonneg_right (by norm_num) hK.le

/-- The error of the first term of the second sum. -/
theorem start_p_close :
    |(temmeInit (evaluateTemmeCoeffs v) v z).p - (exactInit v z).p| ≤ 3 / 10 ^ 13 * (z / 2 * kv (v + 1) z) := by
  obtain ⟨hv1, hv2⟩ := abs_le.mp hv
  refine (start_close hv hz hz2).2.2.2.trans ?_
  have h2 : 0 < z / 2 := by positivity
  have hk := kvInt_ge (w := v + 1) (by linarith) hz hz2
  have e3 : 1 / 21 ≤ Real.exp (-3) := by
    rw [Real.exp_neg, one_div]
    exact inv_anti₀ (Real.exp_pos 3) exp_three.le
  have e : z / 2 * kv (v + 1) z = exp (-v * log (z / 2)) * (1 / 2 * kvInt (v + 1) z) := by
    rw [kv_eq, show -v * log (z / 2) = log (z / 2) * -v by ring, ← rpow_def_of_pos h2,
      show -v = 1 + -(v + 1) by ring, rpow_add h2, rpow_one]
    ring
  rw [e]
  have hE := exp_pos (-v * log (z / 2))
  have : 16 / 10 ^ 16 ≤ 3 / 10 ^ 13 * (1 / 2 * kvInt (v + 1) z) := by
    have : 1 / 84 ≤ 1 / 2 * kvInt (v + 1) z := by linarith
    have := mul_le_mul_of_nonneg_left this (show (0 : ℝ) ≤ 3 / 10 ^ 13 by norm_num)
    refine le_trans ?_ this
    norm_num
  have := mul_le_mul_of_nonneg_right this hE.le
  linarith

end

/-- The loop with the coefficients of the code. -/
theorem code_loop {tol : ℝ} (ht : (1 / 2) ^ 200 ≤ tol) (ht2 : tol ≤ 1 / 1000) {v : ℝ} (hv : |v| ≤ 1 / 2) {z : ℝ}
    (hz : 0 < z) (hz2 : z ≤ 2) :
    |(temmeLoop tol v z 1000 (temmeInit (evaluateTemmeCoeffs v) v z)).kvSum - kv v z| ≤ (5 * tol + 1 / 10 ^ 12) * kv v z ∧
    |(temmeLoop tol v z 1000 (temmeInit (evaluateTemmeCoeffs v) v z)).kvp1Sum - z / 2 * kv (v + 1) z| ≤
      (36 * tol + 52 / 10 ^ 13) * (z / 2 * kv (v + 1) z) := by
  obtain ⟨a1, a2, a3, _⟩ := start_close hv hz hz2
  obtain ⟨b1, b2⟩ := perturb_loop ht ht2 hv hz hz2 (start_init _ v z) (by norm_num) a1 a2 a3
  have c := start_p_close hv hz hz2
  have hK := kv_pos v hz
  have hK1 := kv_pos (v + 1) hz
  constructor
  · refine b1.trans (mul_le_mul_of_nonneg_right ?_ hK.le)
    norm_num
  · have hP : 0 < z / 2 * kv (v + 1) z := by positivity
    refine b2.trans ?_
    refine (add_le_add_left c _).trans ?_
    rw [← add_mul]
    refine mul_le_mul_of_nonneg_right ?_ hP.le
    norm_num
    linarith

end JG.BesK
