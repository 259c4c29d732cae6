import Mathlib.Probability.Distributions.Poisson.Basic

/-! The first two moments of the Poisson distribution. -/

namespace JG

open ProbabilityTheory MeasureTheory
open scoped NNReal Nat

theorem po_shift (r : ℝ) (n : ℕ) :
    Real.exp (-r) * r ^ (n + 1) / ((n + 1)! : ℝ) * ((n : ℝ) + 1) = r * (Real.exp (-r) * r ^ n / (n ! : ℝ)) := by
  have h1 : ((n + 1)! : ℝ) = ((n : ℝ) + 1) * (n ! : ℝ) := by rw [Nat.factorial_succ]; push_cast; ring
  have h2 : (n ! : ℝ) ≠ 0 := by exact_mod_cast Nat.factorial_ne_zero n
  have h3 : (n : ℝ) + 1 ≠ 0 := by positivity
  rw [h1, pow_succ]; field_simp

theorem po_sum_one (r : ℝ≥0) :
    HasSum (fun n : ℕ => Real.exp (-(r : ℝ)) * (r : ℝ) ^ n / (n ! : ℝ) * (n : ℝ)) (r : ℝ) := by
  have h := (hasSum_one_poissonMeasure r).mul_left (r : ℝ)
  rw [mul_one] at h
  have h2 := (hasSum_nat_add_iff (f := fun n : ℕ => Real.exp (-(r : ℝ)) * (r : ℝ) ^ n / (n ! : ℝ) * (n : ℝ)) (g := (r : ℝ)) 1).1
    (by
      have e : (fun n : ℕ => Real.exp (-(r : ℝ)) * (r : ℝ) ^ (n + 1) / ((n + 1)! : ℝ) * ((n + 1 : ℕ) : ℝ)) =
          fun n : ℕ => (r : ℝ) * (Real.exp (-(r : ℝ)) * (r : ℝ) ^ n / (n ! : ℝ)) := by
        funext n; rw [← po_shift]; push_cast; ring
      rw [e]; exact h)
  simpa using h2

theorem po_sum_sq (r : ℝ≥0) :
    HasSum (fun n : ℕ => Real.exp (-(r : ℝ)) * (r : ℝ) ^ n / (n ! : ℝ) * (n : ℝ) ^ 2) ((r : ℝ) ^ 2 + r) := by
  have h := ((po_sum_one r).add (hasSum_one_poissonMeasure r)).mul_left (r : ℝ)
  have h2 := (hasSum_nat_add_iff (f := fun n : ℕ => Real.exp (-(r : ℝ)) * (r : ℝ) ^ n / (n ! : ℝ) * (n : ℝ) ^ 2)
    (g := (r : ℝ) * (r + 1)) 1).1
    (by
      have e : (fun n : ℕ => Real.exp (-(r : ℝ)) * (r : ℝ) ^ (n + 1) / ((n + 1)! : ℝ) * ((n + 1 : ℕ) : ℝ) ^ 2) =
          fun n : ℕ => (r : ℝ) * (Real.exp (-(r : ℝ)) * (r : ℝ) ^ n / (n ! : ℝ) * (n : ℝ) +
            Real.exp (-(r : ℝ)) * (r : ℝ) ^ n / (n ! : ℝ)) := by
        funext n
        have := po_shift (r : ℝ) n
        push_cast
        linear_combination ((n : ℝ) + 1) * this
      rw [e]; exact h)
  have e2 : (r : ℝ) * (r + 1) + ∑ i ∈ Finset.range 1, Real.exp (-(r : ℝ)) * (r : ℝ) ^ i / (i ! : ℝ) * (i : ℝ) ^ 2 = (r : ℝ) ^ 2 + r := by
    simp; ring
  rw [e2] at h2
  exact h2

theorem po_integrable (r : ℝ≥0) : Integrable (fun n : ℕ => (n : ℝ)) (poissonMeasure r) := by
  rw [integrable_poissonMeasure_iff]
  simpa using (po_sum_one r).summable

theorem po_integrable_sq (r : ℝ≥0) : Integrable (fun n : ℕ => (n : ℝ) ^ 2) (poissonMeasure r) := by
  rw [integrable_poissonMeasure_iff]
  simpa using (po_sum_sq r).summable

/-- The mean of the Poisson distribution. -/
theorem po_mean (r : ℝ≥0) : ∫ n, (n : ℝ) ∂(poissonMeasure r) = r := by
  rw [integral_poissonMeasure]
  exact (po_sum_one r).tsum_eq

theorem po_sq (r : ℝ≥0) : ∫ n, (n : ℝ) ^ 2 ∂(poissonMeasure r) = (r : ℝ) ^ 2 + r := by
  rw [integral_poissonMeasure]
  exact (po_sum_sq r).tsum_eq

/-- An affine function of a Poisson deviate. -/
theorem po_affine (r : ℝ≥0) (a b : ℝ) :
    Integrable (fun n : ℕ => a * (n : ℝ) + b) (poissonMeasure r) ∧ ∫ n, (a * (n : ℝ) + b) ∂(poissonMeasure r) = a * r + b := by
  have h1 := (po_integrable r).const_mul a
  refine ⟨h1.add (integrable_const b), ?_⟩
  rw [integral_add h1 (integrable_const b), integral_const_mul, po_mean]
  simp

/-- The variance of the Poisson distribution. -/
theorem po_variance (r : ℝ≥0) : ∫ n, ((n : ℝ) - r) ^ 2 ∂(poissonMeasure r) = r := by
  have e : (fun n : ℕ => ((n : ℝ) - r) ^ 2) = fun n : ℕ => (n : ℝ) ^ 2 + (-(2 * (r : ℝ)) * (n : ℝ) + (r : ℝ) ^ 2) := by
    funext n; ring
  obtain ⟨h1, h2⟩ := po_affine r (-(2 * (r : ℝ))) ((r : ℝ) ^ 2)
  rw [e, integral_add (po_integrable_sq r) h1, po_sq, h2]
  ring

end JG
