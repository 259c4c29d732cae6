import Verif.Model.Profile
import Mathlib.Analysis.SpecialFunctions.Complex.Circle
import Mathlib.Tactic.LinearCombination
import Mathlib.Tactic.Linarith
import Mathlib.Tactic.Positivity

/-! The extreme stretch factors of a 2x2 matrix. -/

namespace JG

/-- Length of a vector. -/
noncomputable def vlen (v : ℝ × ℝ) : ℝ := Real.sqrt (v.1 ^ 2 + v.2 ^ 2)

theorem vlen_nonneg (v : ℝ × ℝ) : 0 ≤ vlen v := Real.sqrt_nonneg _

theorem vlen_eq_norm (v : ℝ × ℝ) : vlen v = ‖(⟨v.1, v.2⟩ : ℂ)‖ := by
  rw [Complex.norm_eq_sqrt_sq_add_sq]; rfl

/-- Conformal part. -/
noncomputable def cAlpha (J : Mat2) : ℂ := ⟨(J.a + J.d) / 2, (J.c - J.b) / 2⟩
/-- Anti-conformal part. -/
noncomputable def cBeta (J : Mat2) : ℂ := ⟨(J.a - J.d) / 2, (J.b + J.c) / 2⟩

theorem app_complex (J : Mat2) (v : ℝ × ℝ) :
    (⟨(J.app v).1, (J.app v).2⟩ : ℂ) = cAlpha J * ⟨v.1, v.2⟩ + cBeta J * (starRingEnd ℂ) ⟨v.1, v.2⟩ := by
  apply Complex.ext <;> simp [cAlpha, cBeta, Mat2.app] <;> ring

theorem norm_alpha (J : Mat2) : ‖cAlpha J‖ = Real.sqrt ((J.a + J.d) ^ 2 + (J.b - J.c) ^ 2) / 2 := by
  rw [Complex.norm_eq_sqrt_sq_add_sq]
  have : (cAlpha J).re ^ 2 + (cAlpha J).im ^ 2 = ((J.a + J.d) ^ 2 + (J.b - J.c) ^ 2) / 2 ^ 2 := by
    simp only [cAlpha]; ring
  rw [this, Real.sqrt_div' _ (by norm_num), Real.sqrt_sq (by norm_num)]

theorem norm_beta (J : Mat2) : ‖cBeta J‖ = Real.sqrt ((J.a - J.d) ^ 2 + (J.b + J.c) ^ 2) / 2 := by
  rw [Complex.norm_eq_sqrt_sq_add_sq]
  have : (cBeta J).re ^ 2 + (cBeta J).im ^ 2 = ((J.a - J.d) ^ 2 + (J.b + J.c) ^ 2) / 2 ^ 2 := by
    simp only [cBeta]; ring
  rw [this, Real.sqrt_div' _ (by norm_num), Real.sqrt_sq (by norm_num)]

theorem major_eq (J : Mat2) : (majorMinor J).1 = ‖cAlpha J‖ + ‖cBeta J‖ := by
  rw [norm_alpha, norm_beta]
  simp only [majorMinor]
  rw [abs_of_nonneg (by positivity)]; ring

theorem minor_eq (J : Mat2) : (majorMinor J).2 = |‖cAlpha J‖ - ‖cBeta J‖| := by
  rw [norm_alpha, norm_beta]
  simp only [majorMinor]
  rw [← sub_div, abs_div]
  rw [abs_of_pos (by norm_num : (0 : ℝ) < 2)]; ring

theorem major_nonneg (J : Mat2) : 0 ≤ (majorMinor J).1 := by rw [major_eq]; positivity
theorem minor_nonneg (J : Mat2) : 0 ≤ (majorMinor J).2 := by rw [minor_eq]; positivity

theorem norm_sq_sub (J : Mat2) : ‖cAlpha J‖ ^ 2 - ‖cBeta J‖ ^ 2 = J.a * J.d - J.b * J.c := by
  rw [← Complex.normSq_eq_norm_sq, ← Complex.normSq_eq_norm_sq]
  simp only [Complex.normSq_apply, cAlpha, cBeta]; ring

theorem major_mul_minor (J : Mat2) : (majorMinor J).1 * (majorMinor J).2 = |J.a * J.d - J.b * J.c| := by
  rw [major_eq, minor_eq, ← norm_sq_sub]
  have : ‖cAlpha J‖ ^ 2 - ‖cBeta J‖ ^ 2 = (‖cAlpha J‖ + ‖cBeta J‖) * (‖cAlpha J‖ - ‖cBeta J‖) := by ring
  rw [this, abs_mul, abs_of_nonneg (a := ‖cAlpha J‖ + ‖cBeta J‖) (by positivity)]

theorem app_le_major (J : Mat2) (v : ℝ × ℝ) : vlen (J.app v) ≤ (majorMinor J).1 * vlen v := by
  rw [vlen_eq_norm, vlen_eq_norm, app_complex, major_eq]
  refine (norm_add_le _ _).trans (le_of_eq ?_)
  rw [norm_mul, norm_mul, RCLike.norm_conj]; ring

theorem minor_le_app (J : Mat2) (v : ℝ × ℝ) : (majorMinor J).2 * vlen v ≤ vlen (J.app v) := by
  rw [vlen_eq_norm, vlen_eq_norm, app_complex, minor_eq]
  set z : ℂ := ⟨v.1, v.2⟩
  have h := abs_norm_sub_norm_le (cAlpha J * z) (-(cBeta J * (starRingEnd ℂ) z))
  rw [norm_neg, norm_mul, norm_mul, RCLike.norm_conj, ← sub_mul, abs_mul, abs_of_nonneg (norm_nonneg z),
    sub_neg_eq_add] at h
  exact h

theorem attained (J : Mat2) : ∃ t : ℝ,
    vlen (J.app (Real.cos t, Real.sin t)) = (majorMinor J).1 ∧
    vlen (J.app (Real.cos (t + Real.pi / 2), Real.sin (t + Real.pi / 2))) = (majorMinor J).2 := by
  have hA := Complex.norm_mul_exp_arg_mul_I (cAlpha J)
  have hB := Complex.norm_mul_exp_arg_mul_I (cBeta J)
  have hz : ∀ t : ℝ, (⟨Real.cos t, Real.sin t⟩ : ℂ) = Complex.exp (t * Complex.I) := by
    intro t
    apply Complex.ext <;> simp [Complex.exp_ofReal_mul_I_re, Complex.exp_ofReal_mul_I_im]
  have hc : ∀ t : ℝ, (starRingEnd ℂ) (Complex.exp (t * Complex.I)) = Complex.exp (-(t * Complex.I)) := by
    intro t
    rw [← Complex.exp_conj]; congr 1; simp
  set A := (cAlpha J).arg
  set B := (cBeta J).arg
  refine ⟨(B - A) / 2, ?_, ?_⟩
  · rw [vlen_eq_norm, app_complex, hz, hc, major_eq, ← hA, ← hB]
    set a := ‖cAlpha J‖
    set b := ‖cBeta J‖
    have : (a : ℂ) * Complex.exp (A * Complex.I) * Complex.exp ((((B - A) / 2 : ℝ) : ℂ) * Complex.I) +
        b * Complex.exp (B * Complex.I) * Complex.exp (-((((B - A) / 2 : ℝ) : ℂ) * Complex.I)) =
        ((a + b : ℝ) : ℂ) * Complex.exp ((((A + B) / 2 : ℝ) : ℂ) * Complex.I) := by
      rw [mul_assoc, mul_assoc, ← Complex.exp_add, ← Complex.exp_add]
      rw [show (A : ℂ) * Complex.I + (((B - A) / 2 : ℝ) : ℂ) * Complex.I = (((A + B) / 2 : ℝ) : ℂ) * Complex.I by
        push_cast; ring]
      rw [show (B : ℂ) * Complex.I + -((((B - A) / 2 : ℝ) : ℂ) * Complex.I) = (((A + B) / 2 : ℝ) : ℂ) * Complex.I by
        push_cast; ring]
      push_cast; ring
    rw [this, norm_mul, Complex.norm_exp_ofReal_mul_I, mul_one, Complex.norm_real, Real.norm_eq_abs,
      abs_of_nonneg (by positivity)]
    rw [norm_mul, norm_mul, Complex.norm_exp_ofReal_mul_I, Complex.norm_exp_ofReal_mul_I, mul_one, mul_one,
      Complex.norm_real, Complex.norm_real, norm_norm, norm_norm]
  · rw [vlen_eq_norm, app_complex, hz, hc, minor_eq]
    rw [← hA, ← hB]
    set a := ‖cAlpha J‖
    set b := ‖cBeta J‖
    have : (a : ℂ) * Complex.exp (A * Complex.I) * Complex.exp ((((B - A) / 2 + Real.pi / 2 : ℝ) : ℂ) * Complex.I) +
        b * Complex.exp (B * Complex.I) * Complex.exp (-((((B - A) / 2 + Real.pi / 2 : ℝ) : ℂ) * Complex.I)) =
        ((a - b : ℝ) : ℂ) * Complex.exp ((((A + B) / 2 + Real.pi / 2 : ℝ) : ℂ) * Complex.I) := by
      rw [mul_assoc, mul_assoc, ← Complex.exp_add, ← Complex.exp_add]
      rw [show (A : ℂ) * Complex.I + (((B - A) / 2 + Real.pi / 2 : ℝ) : ℂ) * Complex.I =
        (((A + B) / 2 + Real.pi / 2 : ℝ) : ℂ) * Complex.I by push_cast; ring]
      rw [show (B : ℂ) * Complex.I + -((((B - A) / 2 + Real.pi / 2 : ℝ) : ℂ) * Complex.I) =
        (((A + B) / 2 + Real.pi / 2 : ℝ) : ℂ) * Complex.I - Real.pi * Complex.I by push_cast; ring]
      rw [Complex.exp_sub, Complex.exp_pi_mul_I]
      push_cast; ring
    rw [this, norm_mul, Complex.norm_exp_ofReal_mul_I, mul_one, Complex.norm_real, Real.norm_eq_abs]
    rw [norm_mul, norm_mul, Complex.norm_exp_ofReal_mul_I, Complex.norm_exp_ofReal_mul_I, mul_one, mul_one,
      Complex.norm_real, Complex.norm_real, norm_norm, norm_norm]

theorem vlen_add_le (v w : ℝ × ℝ) : vlen (v + w) ≤ vlen v + vlen w := by
  rw [vlen_eq_norm, vlen_eq_norm, vlen_eq_norm]
  refine le_trans (le_of_eq ?_) (norm_add_le _ _)
  congr 1

end JG
