import Verif.Model.BesselSi
import Verif.Lemmas.SiClose
import Mathlib.Analysis.SpecialFunctions.Trigonometric.Sinc

/-! # C94: the sine integral

`si` is compared with the integral of `sin t / t` from 0 to `x`, written with Mathlib's `sinc` and interval integral. -/

namespace JG.Si

open Real Set Filter intervalIntegral Topology

/-- The sine integral. -/
noncomputable def sineIntegral (x : ℝ) : ℝ := ∫ t in (0 : ℝ)..x, if t = 0 then 1 else sin t / t

theorem sineIntegral_eq (x : ℝ) : sineIntegral x = sinInt x := by
  rw [sineIntegral, sinInt]
  rfl

theorem fPade_neg (x y : ℝ) : fPade (-x) y = -fPade x y := by
  simp only [fPade]
  rw [neg_mul, div_neg]

theorem siSmallPade_neg (x y : ℝ) : siSmallPade (-x) y = -siSmallPade x y := by
  simp only [siSmallPade]
  rw [neg_mul, neg_div]

/-- `si` is odd. -/
theorem C94_odd (x : ℝ) : si (-x) = -si x := by
  simp only [si, neg_mul_neg]
  by_cases h : x * x > 16
  · rw [if_pos h, if_pos h, fPade_neg, cos_neg, sin_neg, Left.sign_neg]
    push_cast
    ring
  · rw [if_neg h, if_neg h, siSmallPade_neg]

example : si 0 = 0 := by
  have := C94_odd 0
  rw [neg_zero] at this
  linarith

theorem si_small {x : ℝ} (h : |x| ≤ 4) : si x = siSmallPade x (x * x) := by
  simp only [si]
  rw [if_neg]
  have := abs_mul_abs_self x
  have := abs_nonneg x
  nlinarith

theorem si_big {x : ℝ} (h : 4 < x) : si x = big x := by
  simp only [si, big]
  rw [if_pos (by nlinarith), sign_pos (by linarith)]
  simp

/-- For `|x| ≤ 4` the error is at most `4e-17` times `|x|`. -/
theorem C94_small {x : ℝ} (h : |x| ≤ 4) : |si x - sineIntegral x| ≤ 4 / 10 ^ 17 * |x| := by
  rw [sineIntegral_eq]
  rcases le_total 0 x with h0 | h0
  · rw [si_small h, abs_of_nonneg h0]
    exact small_close h0 (by rwa [abs_of_nonneg h0] at h)
  · have h' : 0 ≤ -x := by linarith
    have k := small_close h' (by rwa [abs_of_nonpos h0] at h)
    rw [← si_small (by rwa [abs_neg]), C94_odd, sinInt_neg] at k
    rw [abs_of_nonpos h0, ← abs_neg]
    refine le_trans (le_of_eq ?_) k
    congr 1
    ring

example : |si (-3) - sineIntegral (-3)| ≤ 12 / 10 ^ 17 := by
  have := C94_small (x := -3) (by norm_num [abs_of_nonneg])
  refine this.trans ?_
  norm_num [abs_of_nonneg]

/-- For every `x` the error is at most `7e-15`. -/
theorem C94_accuracy (x : ℝ) : |si x - sineIntegral x| ≤ 7 / 10 ^ 15 := by
  rcases le_or_gt |x| 4 with h | h
  · refine (C94_small h).trans ?_
    norm_num at h ⊢
    linarith
  · rw [sineIntegral_eq]
    rcases le_total 0 x with h0 | h0
    · rw [abs_of_nonneg h0] at h
      rw [si_big h]
      exact big_close h.le
    · rw [abs_of_nonpos h0] at h
      have k := big_close h.le
      rw [← si_big h, C94_odd, sinInt_neg, ← abs_neg] at k
      refine le_trans (le_of_eq ?_) k
      congr 1
      ring

example : |si 1000 - sineIntegral 1000| ≤ 7 / 10 ^ 15 := C94_accuracy 1000

/-- The limits at plus and minus infinity are exactly `π/2` and `-π/2`. -/
theorem C94_limit : Tendsto si atTop (𝓝 (π / 2)) ∧ Tendsto si atBot (𝓝 (-(π / 2))) := by
  have hy : Tendsto (fun x : ℝ => 1 / (x * x)) atTop (𝓝 0) := by
    simp only [one_div]
    exact (tendsto_id.atTop_mul_atTop₀ tendsto_id).inv_tendsto_atTop
  have hc : ∀ l, Continuous fun y : ℝ => BesK.evQ y l := fun l =>
    continuous_iff_continuousAt.mpr fun y => (BesK.evQ_hasDerivAt l y).continuousAt
  have h1 : ∀ l, Tendsto (fun x : ℝ => BesK.evQ (1 / (x * x)) l) atTop (𝓝 (BesK.evQ 0 l)) := fun l =>
    ((hc l).tendsto 0).comp hy
  have fz : BesK.evQ (0 : ℝ) fDen = 1 := by simp [fDen, BesK.evQ]
  have gz : BesK.evQ (0 : ℝ) gDen = 1 := by simp [gDen, BesK.evQ]
  have hF : Tendsto (fun x => fPade x (x * x)) atTop (𝓝 0) := by
    have a := (((h1 fNum).div (h1 fDen) (by rw [fz]; norm_num))).mul tendsto_inv_atTop_zero
    rw [mul_zero] at a
    refine a.congr fun x => ?_
    simp only [fPade, nest_eq, Pi.div_apply]
    generalize 1 / (x * x) = y
    rw [div_mul_eq_div_div_swap, div_eq_mul_inv _ x]
  have hG : Tendsto (fun x : ℝ => gPade (x * x)) atTop (𝓝 0) := by
    have a := (hy.mul (h1 gNum)).div (h1 gDen) (by rw [gz]; norm_num)
    rw [zero_mul, zero_div] at a
    refine a.congr fun x => ?_
    simp only [gPade, nest_eq, Pi.div_apply]
  have bd : ∀ {F c : ℝ → ℝ}, Tendsto F atTop (𝓝 0) → (∀ x, |c x| ≤ 1) → Tendsto (fun x => F x * c x) atTop (𝓝 0) := by
    intro F c hF hc
    have hF' := hF.abs
    rw [abs_zero] at hF'
    refine squeeze_zero_norm (fun x => ?_) hF'
    rw [norm_mul, norm_eq_abs, norm_eq_abs]
    exact mul_le_of_le_one_right (abs_nonneg _) (hc x)
  have top : Tendsto si atTop (𝓝 (π / 2)) := by
    have a := (tendsto_const_nhds (x := π / 2)).sub (bd hF abs_cos_le_one) |>.sub (bd hG abs_sin_le_one)
    rw [sub_zero, sub_zero] at a
    refine a.congr' ?_
    filter_upwards [eventually_gt_atTop 4] with x hx
    rw [si_big hx, big]
  refine ⟨top, ?_⟩
  have b := (top.comp tendsto_neg_atBot_atTop).neg
  refine b.congr fun x => ?_
  simp only [Function.comp]
  rw [C94_odd, neg_neg]

example : ∀ᶠ x in atTop, 1 < si x :=
  C94_limit.1.eventually (lt_mem_nhds (by linarith [pi_gt_three]))

end JG.Si
