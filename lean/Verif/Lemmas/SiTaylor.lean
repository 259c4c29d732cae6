import Mathlib.Analysis.Calculus.MeanValue
import Mathlib.Analysis.SpecialFunctions.Trigonometric.Deriv
import Mathlib.Analysis.SpecialFunctions.Trigonometric.Sinc
import Mathlib.Analysis.SpecialFunctions.Integrals.Basic
import Mathlib.MeasureTheory.Integral.IntervalIntegral.FundThmCalculus

/-! # Taylor polynomials of sine, cosine and the sine integral -/

namespace JG.Si

open Real Set

/-- A function vanishing at 0 whose derivative is bounded by that of another one. -/
theorem abs_le_of_deriv {f f' B B' : ℝ → ℝ} (hf : ∀ x, HasDerivAt f (f' x) x) (hB : ∀ x, HasDerivAt B (B' x) x) (f0 : f 0 = 0)
    (B0 : B 0 = 0) (h : ∀ x, 0 ≤ x → |f' x| ≤ B' x) {x : ℝ} (hx : 0 ≤ x) : |f x| ≤ B x := by
  have := image_norm_le_of_norm_deriv_right_le_deriv_boundary (f := f) (f' := f') (a := 0) (b := x)
    (fun y _ => (hf y).continuousAt.continuousWithinAt) (fun y _ => (hf y).hasDerivWithinAt) (B := B) (B' := B')
    (by simp [f0, B0]) hB (fun y hy => h y hy.1) (right_mem_Icc.mpr hx)
  simpa using this

noncomputable def sinT (n : ℕ) (x : ℝ) : ℝ := ∑ k ∈ Finset.range n, (-1) ^ k * x ^ (2 * k + 1) / ((2 * k + 1).factorial : ℝ)

noncomputable def cosT (n : ℕ) (x : ℝ) : ℝ := ∑ k ∈ Finset.range n, (-1) ^ k * x ^ (2 * k) / ((2 * k).factorial : ℝ)

noncomputable def sincT (n : ℕ) (x : ℝ) : ℝ := ∑ k ∈ Finset.range n, (-1) ^ k * x ^ (2 * k) / ((2 * k + 1).factorial : ℝ)

noncomputable def siT (n : ℕ) (x : ℝ) : ℝ :=
  ∑ k ∈ Finset.range n, (-1) ^ k * x ^ (2 * k + 1) / ((2 * k + 1) * ((2 * k + 1).factorial : ℝ))

theorem pow_deriv (c : ℝ) (m : ℕ) (x : ℝ) : HasDerivAt (fun x => c * x ^ (m + 1)) (c * ((m + 1) * x ^ m)) x := by
  have := (hasDerivAt_pow (m + 1) x).const_mul c
  simpa using this

theorem sinT_deriv (n : ℕ) (x : ℝ) : HasDerivAt (sinT n) (cosT n x) x := by
  unfold sinT cosT
  refine HasDerivAt.fun_sum fun k _ => ?_
  have := pow_deriv ((-1) ^ k / ((2 * k + 1).factorial : ℝ)) (2 * k) x
  have e : (-1 : ℝ) ^ k / ((2 * k + 1).factorial : ℝ) * ((((2 * k : ℕ) : ℝ) + 1) * x ^ (2 * k)) =
      (-1) ^ k * x ^ (2 * k) / ((2 * k).factorial : ℝ) := by
    rw [Nat.factorial_succ]
    have : ((2 * k).factorial : ℝ) ≠ 0 := by positivity
    have h2 : (((2 * k : ℕ) : ℝ) + 1) ≠ 0 := by positivity
    push_cast
    push_cast at h2
    field_simp
  rw [← e]
  refine this.congr_of_eventuallyEq (Filter.Eventually.of_forall fun y => ?_)
  simp only
  ring

theorem cosT_deriv (n : ℕ) (x : ℝ) : HasDerivAt (cosT (n + 1)) (-sinT n x) x := by
  have e0 : cosT (n + 1) = fun x => (∑ k ∈ Finset.range n, (-1) ^ (k + 1) * x ^ (2 * (k + 1)) / ((2 * (k + 1)).factorial : ℝ)) + 1 := by
    funext x
    rw [cosT, Finset.sum_range_succ']
    simp
  rw [e0, sinT, ← Finset.sum_neg_distrib]
  refine HasDerivAt.add_const 1 (HasDerivAt.fun_sum fun k _ => ?_)
  have := pow_deriv ((-1) ^ (k + 1) / ((2 * (k + 1)).factorial : ℝ)) (2 * k + 1) x
  have e : (-1 : ℝ) ^ (k + 1) / ((2 * (k + 1)).factorial : ℝ) * ((((2 * k + 1 : ℕ) : ℝ) + 1) * x ^ (2 * k + 1)) =
      -((-1) ^ k * x ^ (2 * k + 1) / ((2 * k + 1).factorial : ℝ)) := by
    rw [show 2 * (k + 1) = (2 * k + 1) + 1 by ring, Nat.factorial_succ (2 * k + 1), pow_succ]
    have : ((2 * k + 1).factorial : ℝ) ≠ 0 := by positivity
    have h2 : (((2 * k + 1 : ℕ) : ℝ) + 1) ≠ 0 := by positivity
    push_cast
    push_cast at h2
    field_simp
  rw [← e]
  refine this.congr_of_eventuallyEq (Filter.Eventually.of_forall fun y => ?_)
  simp only
  ring

theorem siT_deriv (n : ℕ) (x : ℝ) : HasDerivAt (siT n) (sincT n x) x := by
  unfold siT sincT
  refine HasDerivAt.fun_sum fun k _ => ?_
  have := pow_deriv ((-1) ^ k / ((2 * k + 1) * ((2 * k + 1).factorial : ℝ))) (2 * k) x
  have e : (-1 : ℝ) ^ k / ((2 * k + 1) * ((2 * k + 1).factorial : ℝ)) * ((((2 * k : ℕ) : ℝ) + 1) * x ^ (2 * k)) =
      (-1) ^ k * x ^ (2 * k) / ((2 * k + 1).factorial : ℝ) := by
    have : ((2 * k + 1).factorial : ℝ) ≠ 0 := by positivity
    have h2 : (2 * (k : ℝ) + 1) ≠ 0 := by positivity
    push_cast
    field_simp
  rw [← e]
  refine this.congr_of_eventuallyEq (Filter.Eventually.of_forall fun y => ?_)
  simp only
  ring

theorem pow_fact_deriv (m : ℕ) (x : ℝ) :
    HasDerivAt (fun x : ℝ => x ^ (m + 1) / ((m + 1).factorial : ℝ)) (x ^ m / (m.factorial : ℝ)) x := by
  have := pow_deriv (1 / ((m + 1).factorial : ℝ)) m x
  have e : 1 / ((m + 1).factorial : ℝ) * (((m : ℝ) + 1) * x ^ m) = x ^ m / (m.factorial : ℝ) := by
    rw [Nat.factorial_succ]
    have : (m.factorial : ℝ) ≠ 0 := by positivity
    have h2 : ((m : ℝ) + 1) ≠ 0 := by positivity
    push_cast
    field_simp
  rw [← e]
  refine this.congr_of_eventuallyEq (Filter.Eventually.of_forall fun y => ?_)
  simp only
  ring

theorem trig_taylor (n : ℕ) : (∀ x : ℝ, 0 ≤ x → |sin x - sinT n x| ≤ x ^ (2 * n + 1) / ((2 * n + 1).factorial : ℝ)) ∧
    (∀ x : ℝ, 0 ≤ x → |cos x - cosT (n + 1) x| ≤ x ^ (2 * n + 2) / ((2 * n + 2).factorial : ℝ)) := by
  have step : ∀ n, (∀ x : ℝ, 0 ≤ x → |sin x - sinT n x| ≤ x ^ (2 * n + 1) / ((2 * n + 1).factorial : ℝ)) →
      (∀ x : ℝ, 0 ≤ x → |cos x - cosT (n + 1) x| ≤ x ^ (2 * n + 2) / ((2 * n + 2).factorial : ℝ)) := by
    intro n h x hx
    refine abs_le_of_deriv (f := fun x => cos x - cosT (n + 1) x) (f' := fun x => -sin x - -sinT n x)
      (B := fun x => x ^ (2 * n + 2) / ((2 * n + 2).factorial : ℝ)) (fun y => (hasDerivAt_cos y).sub (cosT_deriv n y))
      (fun y => pow_fact_deriv (2 * n + 1) y) ?_ (by simp) (fun y hy => ?_) hx
    · simp [cosT, Finset.sum_range_succ']
    · rw [show -sin y - -sinT n y = -(sin y - sinT n y) by ring, abs_neg]
      exact h y hy
  induction n with
  | zero =>
    have h0 : ∀ x : ℝ, 0 ≤ x → |sin x - sinT 0 x| ≤ x ^ (2 * 0 + 1) / ((2 * 0 + 1).factorial : ℝ) := by
      intro x hx
      simp only [sinT, Finset.range_zero, Finset.sum_empty, sub_zero, mul_zero, zero_add, pow_one, Nat.factorial_one, Nat.cast_one, div_one]
      have := abs_sin_le_abs (x := x)
      rwa [abs_of_nonneg hx] at this
    exact ⟨h0, step 0 h0⟩
  | succ n ih =>
    have h1 : ∀ x : ℝ, 0 ≤ x → |sin x - sinT (n + 1) x| ≤ x ^ (2 * (n + 1) + 1) / ((2 * (n + 1) + 1).factorial : ℝ) := by
      intro x hx
      refine abs_le_of_deriv (f := fun x => sin x - sinT (n + 1) x) (f' := fun x => cos x - cosT (n + 1) x)
        (B := fun x => x ^ (2 * (n + 1) + 1) / ((2 * (n + 1) + 1).factorial : ℝ)) (fun y => (hasDerivAt_sin y).sub (sinT_deriv (n + 1) y))
        (fun y => pow_fact_deriv (2 * (n + 1)) y) ?_ (by simp) (fun y hy => ih.2 y hy) hx
      simp [sinT]
    exact ⟨h1, step (n + 1) h1⟩

theorem sinT_eq (n : ℕ) (x : ℝ) : sinT n x = x * sincT n x := by
  rw [sinT, sincT, Finset.mul_sum]
  refine Finset.sum_congr rfl fun k _ => ?_
  rw [pow_succ]; ring

/-- The sine integral. -/
noncomputable def sinInt (x : ℝ) : ℝ := ∫ t in (0 : ℝ)..x, sinc t

theorem sinInt_deriv (x : ℝ) : HasDerivAt sinInt (sinc x) x :=
  intervalIntegral.integral_hasDerivAt_right (continuous_sinc.intervalIntegrable _ _) continuous_sinc.stronglyMeasurable.stronglyMeasurableAtFilter
    continuous_sinc.continuousAt

theorem sinInt_zero : sinInt 0 = 0 := by simp [sinInt]

theorem sinInt_neg (x : ℝ) : sinInt (-x) = -sinInt x := by
  have h : ∀ y, HasDerivAt (fun x => sinInt (-x) + sinInt x) 0 y := by
    intro y
    have a := (sinInt_deriv (-y)).scomp y (hasDerivAt_neg y)
    have b := a.add (sinInt_deriv y)
    simp only [sinc_neg, smul_eq_mul, neg_mul, one_mul, neg_add_cancel] at b
    exact b
  have := is_const_of_deriv_eq_zero (fun y => (h y).differentiableAt) (fun y => (h y).deriv) x 0
  simp only [neg_zero, sinInt_zero, add_zero] at this
  linarith

theorem sinInt_taylor (n : ℕ) {x : ℝ} (hx : 0 ≤ x) :
    |sinInt x - siT (n + 1) x| ≤ x ^ (2 * n + 3) / ((2 * n + 3).factorial : ℝ) := by
  refine abs_le_of_deriv (f := fun x => sinInt x - siT (n + 1) x) (f' := fun x => sinc x - sincT (n + 1) x)
    (B := fun x => x ^ (2 * n + 3) / ((2 * n + 3).factorial : ℝ)) (fun y => (sinInt_deriv y).sub (siT_deriv (n + 1) y))
    (fun y => pow_fact_deriv (2 * n + 2) y) ?_ (by simp) (fun y hy => ?_) hx
  · simp [sinInt_zero, siT]
  · rcases hy.eq_or_lt with rfl | hy
    · have : sincT (n + 1) 0 = 1 := by simp [sincT, Finset.sum_range_succ']
      rw [sinc_zero, this]
      simp
    · have h := (trig_taylor (n + 1)).1 y hy.le
      rw [sinT_eq] at h
      have e : sinc y - sincT (n + 1) y = (sin y - y * sincT (n + 1) y) / y := by
        rw [sinc_of_ne_zero hy.ne']; field_simp
      rw [e, abs_div, abs_of_pos hy, div_le_iff₀ hy]
      refine h.trans ?_
      rw [show 2 * (n + 1) + 1 = (2 * n + 2) + 1 by ring, pow_succ, div_mul_eq_mul_div]
      refine div_le_div_of_nonneg_left (by positivity) (by positivity) ?_
      exact_mod_cast Nat.factorial_le (Nat.le_succ _)

end JG.Si
