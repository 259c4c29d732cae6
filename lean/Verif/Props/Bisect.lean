import Verif.Model.Bisect
import Mathlib.Topology.Order.IntermediateValue
import Mathlib.Topology.MetricSpace.Pseudo.Lemmas
import Mathlib.Topology.Instances.Real.Lemmas
import Mathlib.Tactic.Linarith
import Mathlib.Tactic.Positivity
import Mathlib.Tactic.Ring
import Mathlib.Tactic.FieldSimp
import Mathlib.Tactic.IntervalCases

/-! Property C15: bisection. -/

namespace JG

/-- The midpoint probed in iteration `n`. -/
noncomputable def bisMid (f : ℝ → ℝ) (low high : ℝ) (n : ℕ) : ℝ :=
  ((bisRun f low high n).low + (bisRun f low high n).high) / 2

/-- The interval always halves and stays inside the original one (whatever the function). -/
theorem C15_interval (f : ℝ → ℝ) (low high : ℝ) (h : low ≤ high) (n : ℕ) :
    (bisRun f low high n).high - (bisRun f low high n).low = (high - low) / 2 ^ n ∧
    low ≤ (bisRun f low high n).low ∧ (bisRun f low high n).high ≤ high := by
  induction n with
  | zero => simp [bisRun]
  | succ n ih =>
    obtain ⟨h1, h2, h3⟩ := ih
    have hw : 0 ≤ (high - low) / 2 ^ n := div_nonneg (by linarith) (by positivity)
    have e : (high - low) / 2 ^ (n + 1) = ((high - low) / 2 ^ n) / 2 := by
      rw [pow_succ]; field_simp
    rw [e]
    simp only [bisRun, bisStep]
    split
    · refine ⟨by simp only; linarith, by simp only; linarith, h3⟩
    · refine ⟨by simp only; linarith, h2, by simp only; linarith⟩

/-- As long as no probed midpoint is an exact root, the state stays a strict bracket. -/
theorem C15_bracket (f : ℝ → ℝ) (low high : ℝ) (hs : f low * f high < 0) (n : ℕ)
    (hm : ∀ k < n, f (bisMid f low high k) ≠ 0) :
    (bisRun f low high n).flow = f (bisRun f low high n).low ∧
    (bisRun f low high n).fhigh = f (bisRun f low high n).high ∧
    f (bisRun f low high n).low * f (bisRun f low high n).high < 0 := by
  induction n with
  | zero => exact ⟨rfl, rfl, hs⟩
  | succ n ih =>
    obtain ⟨h1, h2, h3⟩ := ih (fun k hk => hm k (by omega))
    have hmid := hm n (by omega)
    simp only [bisMid] at hmid
    simp only [bisRun, bisStep]
    split
    · rename_i hc
      refine ⟨rfl, h2, ?_⟩
      rw [h2] at hc
      exact hc
    · rename_i hc
      refine ⟨h1, rfl, ?_⟩
      rw [h2] at hc
      push Not at hc
      simp only
      have hh : f (bisRun f low high n).high ≠ 0 := by
        intro h0; rw [h0, mul_zero] at h3; exact lt_irrefl _ h3
      have hpos : 0 < f (((bisRun f low high n).low + (bisRun f low high n).high) / 2) *
          f (bisRun f low high n).high := lt_of_le_of_ne hc (Ne.symm (mul_ne_zero hmid hh))
      rcases lt_or_gt_of_ne hh with hneg | hp
      · have a : 0 < f (bisRun f low high n).low := by nlinarith
        have b : f (((bisRun f low high n).low + (bisRun f low high n).high) / 2) < 0 := by nlinarith
        exact mul_neg_of_pos_of_neg a b
      · have a : f (bisRun f low high n).low < 0 := by nlinarith
        have b : 0 < f (((bisRun f low high n).low + (bisRun f low high n).high) / 2) := by nlinarith
        exact mul_neg_of_neg_of_pos a b

/-- C15: for a continuous function with a strict sign change, the result after `n` steps is within
`(high-low)/2^n` of a root.  The full statement has no hypothesis `hm`; it fails when a probed
midpoint is an exact root (`C15_exact_root_counterexample`). -/
theorem C15_converges_partial (f : ℝ → ℝ) (low high : ℝ) (hlh : low ≤ high)
    (hf : ContinuousOn f (Set.Icc low high)) (hs : f low * f high < 0) (n : ℕ)
    (hm : ∀ k < n, f (bisMid f low high k) ≠ 0) :
    ∃ r ∈ Set.Icc low high, f r = 0 ∧ |bisectForRoot f low high n - r| ≤ (high - low) / 2 ^ n := by
  obtain ⟨hw, hl, hh⟩ := C15_interval f low high hlh n
  obtain ⟨_, _, h3⟩ := C15_bracket f low high hs n hm
  have hw0 : 0 ≤ (high - low) / 2 ^ n := div_nonneg (by linarith) (by positivity)
  have hle : (bisRun f low high n).low ≤ (bisRun f low high n).high := by linarith
  have hsub : Set.Icc (bisRun f low high n).low (bisRun f low high n).high ⊆ Set.Icc low high :=
    Set.Icc_subset_Icc hl hh
  have hc := hf.mono hsub
  have key : (0:ℝ) ∈ f '' Set.Icc (bisRun f low high n).low (bisRun f low high n).high := by
    rcases mul_neg_iff.mp h3 with ⟨a, b⟩ | ⟨a, b⟩
    · exact intermediate_value_Icc' hle hc ⟨b.le, a.le⟩
    · exact intermediate_value_Icc hle hc ⟨a.le, b.le⟩
  obtain ⟨r, hr, hr0⟩ := key
  refine ⟨r, hsub hr, hr0, ?_⟩
  unfold bisectForRoot
  rw [abs_of_nonneg (by linarith [hr.2])]
  linarith [hr.1]

/-- Disagreement: when a probed midpoint is an exact root the search leaves it and converges to
`low`: for `f(x) = x` on `[-1, 1]` the result after `n + 2` steps is at most `-1/2`, at distance
more than `(high-low)/2^(n+2)` from the only root once `n ≥ 1`; with the default 75 steps it is
`-1 + 2^-74`. -/
theorem C15_exact_root_counterexample :
    (∀ n, bisectForRoot (fun x => x) (-1) 1 (n + 1) = -1 + 2 / 2 ^ (n + 1)) ∧
    ∀ n ≥ 3, ∀ r : ℝ, r = 0 → (1 - (-1)) / 2 ^ n < |bisectForRoot (fun x => x) (-1) 1 n - r| := by
  have st : ∀ n, bisRun (fun x => x) (-1) 1 (n + 1)
      = ⟨-1, -1, -1 + 2 / 2 ^ (n + 1), -1 + 2 / 2 ^ (n + 1)⟩ := by
    intro n
    induction n with
    | zero => simp [bisRun, bisStep]
    | succ n ih =>
      rw [bisRun, ih]
      have e : ((-1:ℝ) + (-1 + 2 / 2 ^ (n + 1))) / 2 = -1 + 2 / 2 ^ (n + 1 + 1) := by
        rw [pow_succ (2:ℝ) (n+1)]; field_simp; ring
      have b : (2:ℝ) / 2 ^ (n + 1) ≤ 1 := by
        rw [div_le_one (by positivity), pow_succ]
        have : (1:ℝ) ≤ 2 ^ n := one_le_pow₀ (by norm_num)
        linarith
      have b2 : (2:ℝ) / 2 ^ (n + 1 + 1) ≤ 1 := by
        rw [div_le_one (by positivity), pow_succ, pow_succ]
        have : (1:ℝ) ≤ 2 ^ n := one_le_pow₀ (by norm_num)
        linarith
      unfold bisStep
      simp only [e]
      rw [if_neg]
      push Not
      exact mul_nonneg_of_nonpos_of_nonpos (by linarith) (by linarith)
  refine ⟨fun n => by unfold bisectForRoot; rw [st], ?_⟩
  intro n hn r hr
  obtain ⟨m, rfl⟩ : ∃ m, n = m + 1 := ⟨n - 1, by omega⟩
  unfold bisectForRoot
  rw [st, hr]
  have b : (2:ℝ) / 2 ^ (m + 1) ≤ 1/4 := by
    rw [div_le_iff₀ (by positivity)]
    have : (2:ℝ) ^ 3 ≤ 2 ^ (m + 1) := pow_le_pow_right₀ (by norm_num) hn
    linarith
  have e : (1 - (-1:ℝ)) / 2 ^ (m + 1) = 2 / 2 ^ (m + 1) := by norm_num
  rw [e, sub_zero]
  simp only
  rw [abs_of_neg (by linarith)]
  linarith

/-- C15: in general the only way to miss is a probed midpoint that is an exact root. -/
theorem C15_dichotomy (f : ℝ → ℝ) (low high : ℝ) (hlh : low ≤ high)
    (hf : ContinuousOn f (Set.Icc low high)) (hs : f low * f high < 0) (n : ℕ) :
    (∃ r ∈ Set.Icc low high, f r = 0 ∧ |bisectForRoot f low high n - r| ≤ (high - low) / 2 ^ n) ∨
    ∃ k < n, f (bisMid f low high k) = 0 := by
  by_cases hm : ∀ k < n, f (bisMid f low high k) ≠ 0
  · exact Or.inl (C15_converges_partial f low high hlh hf hs n hm)
  · push Not at hm; exact Or.inr hm

/-- The hypotheses are met: `x - 1/3` on `[0, 1]`, first two steps. -/
example : (fun x : ℝ => x - 1/3) 0 * (fun x : ℝ => x - 1/3) 1 < 0 ∧
    ∀ k < 2, (fun x : ℝ => x - 1/3) (bisMid (fun x => x - 1/3) 0 1 k) ≠ 0 := by
  refine ⟨by norm_num, ?_⟩
  intro k hk
  interval_cases k
  · norm_num [bisMid, bisRun]
  · norm_num [bisMid, bisRun, bisStep]

end JG
