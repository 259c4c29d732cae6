import Verif.Lemmas.SiTaylor
import Mathlib.Analysis.Calculus.ParametricIntervalIntegral
import Mathlib.Analysis.SpecialFunctions.Integrals.Basic

/-! # The Bessel function of order zero as an integral

Its derivatives, Bessel's equation and its Taylor polynomials. -/

namespace JG.J0

open Real Set MeasureTheory intervalIntegral

/-- `J_0(x) = (1/π) ∫ cos (x sin t) dt` over `[0, π]`. -/
noncomputable def besJ (x : ℝ) : ℝ := (∫ t in (0 : ℝ)..π, cos (x * sin t)) / π

/-- The derivative. -/
noncomputable def besJd (x : ℝ) : ℝ := -(∫ t in (0 : ℝ)..π, sin (x * sin t) * sin t) / π

theorem int_deriv (f f' g : ℝ → ℝ) (hf : ∀ y, HasDerivAt f (f' y) y) (hc : Continuous f') (h1 : ∀ y, |f' y| ≤ 1)
    (hg : Continuous g) (g1 : ∀ t, |g t| ≤ 1) (x : ℝ) :
    HasDerivAt (fun x => ∫ t in (0 : ℝ)..π, f (x * sin t) * g t) (∫ t in (0 : ℝ)..π, f' (x * sin t) * sin t * g t) x := by
  have hfc : Continuous f := continuous_iff_continuousAt.mpr fun y => (hf y).continuousAt
  refine (intervalIntegral.hasDerivAt_integral_of_dominated_loc_of_deriv_le (μ := volume) (bound := fun _ => 1)
    (F := fun x t => f (x * sin t) * g t) (F' := fun x t => f' (x * sin t) * sin t * g t)
    (s := Set.univ) Filter.univ_mem ?_ ?_ ?_ ?_ ?_ ?_).2
  · refine Filter.Eventually.of_forall fun y => ?_
    exact (by fun_prop : Continuous fun t => f (y * sin t) * g t).aestronglyMeasurable
  · exact (by fun_prop : Continuous fun t => f (x * sin t) * g t).intervalIntegrable _ _
  · exact (by fun_prop : Continuous fun t => f' (x * sin t) * sin t * g t).aestronglyMeasurable
  · refine Filter.Eventually.of_forall fun t _ y _ => ?_
    rw [norm_eq_abs, abs_mul, abs_mul]
    have := mul_le_one₀ (h1 (y * sin t)) (abs_nonneg _) (abs_sin_le_one t)
    exact mul_le_one₀ this (abs_nonneg _) (g1 t)
  · exact intervalIntegrable_const
  · refine Filter.Eventually.of_forall fun t _ y _ => ?_
    have h := (hf (y * sin t)).comp y ((hasDerivAt_id y).mul_const (sin t))
    simp only [one_mul] at h
    exact h.mul_const (g t)

theorem besJ_deriv (x : ℝ) : HasDerivAt besJ (besJd x) x := by
  have h := int_deriv cos (fun y => -sin y) (fun _ => 1) hasDerivAt_cos (by fun_prop) (fun y => by rw [abs_neg]; exact abs_sin_le_one y)
    (by fun_prop) (by simp) x
  simp only [mul_one] at h
  refine (h.div_const π).congr_deriv ?_
  rw [besJd]
  simp only [neg_mul, intervalIntegral.integral_neg]

/-- Bessel's equation. -/
theorem besJd_deriv {x : ℝ} (hx : x ≠ 0) : HasDerivAt besJd (-besJ x - besJd x / x) x := by
  have h := int_deriv sin cos sin hasDerivAt_sin (by fun_prop) abs_cos_le_one (by fun_prop) abs_sin_le_one x
  refine (h.fun_neg.div_const π).congr_deriv ?_
  have p : ∀ t ∈ uIcc 0 π, HasDerivAt (fun t => cos t * sin (x * sin t)) (-sin t * sin (x * sin t) + cos t * (cos (x * sin t) * (x * cos t))) t := by
    intro t _
    exact (hasDerivAt_cos t).fun_mul (((hasDerivAt_sin t).const_mul x).sin)
  have q := integral_eq_sub_of_hasDerivAt p ((by fun_prop : Continuous fun t => -sin t * sin (x * sin t) + cos t * (cos (x * sin t) * (x * cos t))).intervalIntegrable _ _)
  simp only [sin_pi, sin_zero, mul_zero, sub_zero] at q
  have e : ∀ t, -sin t * sin (x * sin t) + cos t * (cos (x * sin t) * (x * cos t)) =
      x * cos (x * sin t) - x * (cos (x * sin t) * sin t * sin t) - sin (x * sin t) * sin t := by
    intro t
    have := sin_sq_add_cos_sq t
    have hc : cos t * cos t = 1 - sin t * sin t := by nlinarith
    calc _ = -(sin (x * sin t) * sin t) + x * cos (x * sin t) * (cos t * cos t) := by ring
      _ = _ := by rw [hc]; ring
  simp only [e] at q
  rw [intervalIntegral.integral_sub ((by fun_prop : Continuous _).intervalIntegrable _ _) ((by fun_prop : Continuous _).intervalIntegrable _ _),
    intervalIntegral.integral_sub ((by fun_prop : Continuous _).intervalIntegrable _ _) ((by fun_prop : Continuous _).intervalIntegrable _ _),
    intervalIntegral.integral_const_mul, intervalIntegral.integral_const_mul] at q
  rw [besJ, besJd]
  have hp := pi_ne_zero
  clear h p e
  generalize (∫ t in (0 : ℝ)..π, cos (x * sin t)) = a at q ⊢
  generalize (∫ t in (0 : ℝ)..π, cos (x * sin t) * sin t * sin t) = b at q ⊢
  generalize (∫ t in (0 : ℝ)..π, sin (x * sin t) * sin t) = c at q ⊢
  field_simp
  linarith

/-! ### Taylor polynomials -/

/-- The Taylor polynomial of `J_0`. -/
noncomputable def jT (n : ℕ) (x : ℝ) : ℝ := ∑ k ∈ Finset.range n, (-1) ^ k / (4 ^ k * (k.factorial : ℝ) ^ 2) * x ^ (2 * k)

/-- The Taylor polynomial of its derivative. -/
noncomputable def jdT (n : ℕ) (x : ℝ) : ℝ :=
  ∑ k ∈ Finset.range n, (-1) ^ (k + 1) / (4 ^ (k + 1) * ((k + 1).factorial : ℝ) ^ 2) * (2 * (k + 1)) * x ^ (2 * k + 1)

theorem wallis (n : ℕ) : (∫ t in (0 : ℝ)..π, sin t ^ (2 * n)) = π * ((2 * n).factorial / (4 ^ n * (n.factorial : ℝ) ^ 2)) := by
  rw [integral_sin_pow_even]
  congr 1
  induction n with
  | zero => simp
  | succ n ih =>
    rw [Finset.prod_range_succ, ih, show 2 * (n + 1) = 2 * n + 1 + 1 by ring, Nat.factorial_succ, Nat.factorial_succ, Nat.factorial_succ]
    have h1 : ((n.factorial : ℕ) : ℝ) ≠ 0 := by positivity
    have h2 : (n : ℝ) + 1 ≠ 0 := by positivity
    have h3 : (2 * (n : ℝ) + 2) ≠ 0 := by positivity
    push_cast
    field_simp
    ring

theorem jT_eq (n : ℕ) (x : ℝ) : jT n x = (∫ t in (0 : ℝ)..π, Si.cosT n (x * sin t)) / π := by
  unfold Si.cosT
  rw [integral_finsetSum fun k _ => (by fun_prop : Continuous _).intervalIntegrable _ _, Finset.sum_div, jT]
  refine Finset.sum_congr rfl fun k _ => ?_
  have e : ∀ t, (-1 : ℝ) ^ k * (x * sin t) ^ (2 * k) / ((2 * k).factorial : ℝ) =
      (-1) ^ k * x ^ (2 * k) / ((2 * k).factorial : ℝ) * sin t ^ (2 * k) := by intro t; rw [mul_pow]; ring
  simp only [e]
  rw [intervalIntegral.integral_const_mul, wallis]
  have h1 : ((k.factorial : ℕ) : ℝ) ≠ 0 := by positivity
  have h2 : (((2 * k).factorial : ℕ) : ℝ) ≠ 0 := by positivity
  have hp := pi_ne_zero
  field_simp

theorem jdT_eq (n : ℕ) (x : ℝ) : jdT n x = -(∫ t in (0 : ℝ)..π, Si.sinT n (x * sin t) * sin t) / π := by
  unfold Si.sinT
  simp only [Finset.sum_mul]
  rw [integral_finsetSum fun k _ => (by fun_prop : Continuous _).intervalIntegrable _ _, ← Finset.sum_neg_distrib, Finset.sum_div, jdT]
  refine Finset.sum_congr rfl fun k _ => ?_
  have e : ∀ t, (-1 : ℝ) ^ k * (x * sin t) ^ (2 * k + 1) / ((2 * k + 1).factorial : ℝ) * sin t =
      (-1) ^ k * x ^ (2 * k + 1) / ((2 * k + 1).factorial : ℝ) * sin t ^ (2 * (k + 1)) := by
    intro t; rw [mul_pow, show 2 * (k + 1) = 2 * k + 1 + 1 by ring, pow_succ (sin t) (2 * k + 1)]; ring
  simp only [e]
  rw [intervalIntegral.integral_const_mul, wallis, show 2 * (k + 1) = 2 * k + 1 + 1 by ring, Nat.factorial_succ (2 * k + 1)]
  have h1 : (((k + 1).factorial : ℕ) : ℝ) ≠ 0 := by positivity
  have h2 : (((2 * k + 1).factorial : ℕ) : ℝ) ≠ 0 := by positivity
  have hp := pi_ne_zero
  push_cast
  field_simp
  ring

theorem abs_int_le {f : ℝ → ℝ} {M : ℝ} (h : ∀ t ∈ Icc 0 π, |f t| ≤ M) : |∫ t in (0 : ℝ)..π, f t| ≤ M * π := by
  have := norm_integral_le_of_norm_le_const (a := 0) (b := π) (C := M) (f := f) (fun t ht => by
    rw [uIoc_of_le pi_pos.le] at ht
    exact h t ⟨ht.1.le, ht.2⟩)
  rwa [sub_zero, abs_of_pos pi_pos] at this

theorem besJ_taylor (n : ℕ) {x : ℝ} (hx : 0 ≤ x) : |besJ x - jT (n + 1) x| ≤ x ^ (2 * n + 2) / ((2 * n + 2).factorial : ℝ) := by
  rw [besJ, jT_eq, ← sub_div, ← intervalIntegral.integral_sub ((by fun_prop : Continuous _).intervalIntegrable _ _)
    ((by unfold Si.cosT; fun_prop : Continuous _).intervalIntegrable _ _), abs_div, abs_of_pos pi_pos, div_le_iff₀ pi_pos]
  refine abs_int_le fun t ht => ?_
  have hs := sin_nonneg_of_mem_Icc ht
  refine ((Si.trig_taylor n).2 (x * sin t) (mul_nonneg hx hs)).trans ?_
  gcongr
  exact mul_le_of_le_one_right hx (sin_le_one t)

theorem besJd_taylor (n : ℕ) {x : ℝ} (hx : 0 ≤ x) : |besJd x - jdT n x| ≤ x ^ (2 * n + 1) / ((2 * n + 1).factorial : ℝ) := by
  rw [besJd, jdT_eq, ← sub_div, neg_sub_neg, ← intervalIntegral.integral_sub
    ((by unfold Si.sinT; fun_prop : Continuous _).intervalIntegrable _ _) ((by fun_prop : Continuous _).intervalIntegrable _ _),
    abs_div, abs_of_pos pi_pos, div_le_iff₀ pi_pos]
  refine abs_int_le fun t ht => ?_
  have hs := sin_nonneg_of_mem_Icc ht
  rw [← sub_mul, abs_mul]
  have h1 := (Si.trig_taylor n).1 (x * sin t) (mul_nonneg hx hs)
  rw [abs_sub_comm] at h1
  have h2 : (x * sin t) ^ (2 * n + 1) / ((2 * n + 1).factorial : ℝ) ≤ x ^ (2 * n + 1) / ((2 * n + 1).factorial : ℝ) := by
    gcongr
    exact mul_le_of_le_one_right hx (sin_le_one t)
  calc _ ≤ x ^ (2 * n + 1) / ((2 * n + 1).factorial : ℝ) * 1 :=
        mul_le_mul (h1.trans h2) (abs_sin_le_one t) (abs_nonneg _) (by positivity)
    _ = _ := mul_one _

theorem besJ_neg (x : ℝ) : besJ (-x) = besJ x := by
  rw [besJ, besJ]
  simp only [neg_mul, cos_neg]

theorem besJ_zero : besJ 0 = 1 := by
  rw [besJ]
  simp [pi_ne_zero]

end JG.J0
