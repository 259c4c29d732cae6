import Verif.Model.Interpolant
import Mathlib.Tactic.Linarith
import Mathlib.Tactic.Ring
import Mathlib.Tactic.FieldSimp
import Mathlib.Tactic.LinearCombination
import Mathlib.Tactic.NormNum
import Mathlib.Tactic.Positivity
import Mathlib.Tactic.IntervalCases
import Mathlib.Algebra.BigOperators.Intervals
import Mathlib.Algebra.BigOperators.Field
import Mathlib.Analysis.Real.Pi.Bounds

/-! C53: interpolation kernels. -/

namespace JG.Interp

/-! ### Specification -/

/-- A kernel interpolates: 1 at 0, 0 at the other integers. -/
def Interpolating (f : ℝ → ℝ) : Prop := f 0 = 1 ∧ ∀ m : ℤ, m ≠ 0 → f m = 0

/-- Interpolation of samples with `f` reproduces the monomial of degree `d`, whatever finite set of
samples is summed as long as none within distance `r` is missed. -/
def Reproduces (f : ℝ → ℝ) (r : ℝ) (d : ℕ) : Prop :=
  ∀ (x : ℝ) (S : Finset ℤ), (∀ j : ℤ, |x - j| < r → j ∈ S) → ∑ j ∈ S, (j:ℝ) ^ d * f (x - j) = x ^ d

/-! ### sinc -/

theorem sinc_zero : sinc 0 = 1 := if_pos rfl

theorem sinc_int {m : ℤ} (hm : m ≠ 0) : sinc m = 0 := by
  have h : (m:ℝ) ≠ 0 := by exact_mod_cast hm
  rw [sinc, if_neg h, mul_comm Real.pi, Real.sin_int_mul_pi, zero_div]

theorem sinc_mul (x : ℝ) : sinc x * (Real.pi * x) = Real.sin (Real.pi * x) := by
  unfold sinc
  split_ifs with h
  · simp [h]
  · have := Real.pi_ne_zero
    field_simp

theorem sinc_neg (x : ℝ) : sinc (-x) = sinc x := by
  unfold sinc
  by_cases h : x = 0
  · simp [h]
  · rw [if_neg h, if_neg (neg_ne_zero.mpr h), mul_neg, Real.sin_neg, neg_div_neg_eq]

theorem sinc_abs (x : ℝ) : sinc |x| = sinc x := by
  rcases abs_choice x with h | h <;> rw [h]
  exact sinc_neg x

theorem sin_four (t : ℝ) : Real.sin (4 * t) = 4 * Real.sin t * Real.cos t * (1 - 2 * Real.sin t ^ 2) := by
  rw [show 4 * t = 2 * (2 * t) by ring, Real.sin_two_mul, Real.sin_two_mul, Real.cos_two_mul]
  have := Real.sin_sq_add_cos_sq t
  linear_combination (8 * Real.sin t * Real.cos t) * this

theorem sin_five (t : ℝ) : Real.sin (5 * t) = Real.sin t * (5 - 20 * Real.sin t ^ 2 + 16 * Real.sin t ^ 4) := by
  rw [show 5 * t = 2 * t + 3 * t by ring, Real.sin_add, Real.sin_two_mul, Real.cos_two_mul,
    Real.sin_three_mul, Real.cos_three_mul]
  have hc : Real.cos t ^ 2 = 1 - Real.sin t ^ 2 := by linarith [Real.sin_sq_add_cos_sq t]
  linear_combination (8 * Real.sin t * Real.cos t ^ 2 + 8 * Real.sin t * (1 - Real.sin t ^ 2) - 6 * Real.sin t
    + 6 * Real.sin t - 8 * Real.sin t ^ 3) * hc

theorem sin_six (t : ℝ) : Real.sin (6 * t) =
    6 * Real.sin t * Real.cos t * (1 - 16 / 3 * Real.sin t ^ 2 * (1 - Real.sin t ^ 2)) := by
  rw [show 6 * t = 2 * (3 * t) by ring, Real.sin_two_mul, Real.sin_three_mul, Real.cos_three_mul]
  have hc : Real.cos t ^ 2 = 1 - Real.sin t ^ 2 := by linarith [Real.sin_sq_add_cos_sq t]
  linear_combination (8 * Real.sin t * Real.cos t * (3 - 4 * Real.sin t ^ 2)) * hc

theorem sin_seven (t : ℝ) : Real.sin (7 * t) =
    Real.sin t * (7 - 56 * Real.sin t ^ 2 + 112 * Real.sin t ^ 4 - 64 * Real.sin t ^ 6) := by
  rw [show 7 * t = 4 * t + 3 * t by ring, Real.sin_add, sin_four, Real.cos_three_mul, Real.sin_three_mul,
    show 4 * t = 2 * (2 * t) by ring, Real.cos_two_mul, Real.cos_two_mul]
  have hc : Real.cos t ^ 2 = 1 - Real.sin t ^ 2 := by linarith [Real.sin_sq_add_cos_sq t]
  generalize Real.sin t = s at *
  generalize Real.cos t = c at *
  have h4 : c ^ 4 = (1 - s ^ 2) ^ 2 := by rw [show c ^ 4 = (c ^ 2) ^ 2 by ring, hc]
  linear_combination (16 * s * (1 - 2 * s ^ 2) + 0) * h4 - (12 * s * (1 - 2 * s ^ 2)) * hc
    + (3 * s - 4 * s ^ 3) * 8 * h4 - (3 * s - 4 * s ^ 3) * 8 * hc

/-- The unrolled formulae of the Lanczos kernel are all `sinc x`. -/
theorem lanczosSinc_eq (n : ℕ) (hn : 1 ≤ n) (x : ℝ) : lanczosSinc n x = sinc x := by
  by_cases hx : x = 0
  · subst hx
    unfold lanczosSinc
    split <;> simp [sinc_zero]
  have hp := Real.pi_ne_zero
  have hn0 : (n:ℝ) ≠ 0 := by positivity
  have hxn : x / n ≠ 0 := div_ne_zero hx hn0
  obtain ⟨t, ht⟩ : ∃ t, t = Real.pi * (x / n) := ⟨_, rfl⟩
  have ht0 : t ≠ 0 := by rw [ht]; exact mul_ne_zero hp hxn
  have hs : sinc (x / n) = Real.sin t / t := by rw [sinc, if_neg hxn, ht]
  have hpx : Real.pi * x = n * t := by rw [ht]; field_simp
  have hsx : sinc x = Real.sin (n * t) / (n * t) := by rw [sinc, if_neg hx, hpx]
  rw [hsx]
  unfold lanczosSinc
  simp only [hs, hpx]
  split
  · norm_num
  · rw [show ((2:ℕ):ℝ) * t / 2 = t by push_cast; ring, show ((2:ℕ):ℝ) = 2 by norm_num, Real.sin_two_mul]
    field_simp
  · rw [show ((3:ℕ):ℝ) * t / 3 = t by push_cast; ring, show ((3:ℕ):ℝ) = 3 by norm_num, Real.sin_three_mul]
    field_simp
  · rw [show ((4:ℕ):ℝ) * t / 4 = t by push_cast; ring, show ((4:ℕ):ℝ) = 4 by norm_num, sin_four]
    field_simp
  · rw [show ((5:ℕ):ℝ) * t / 5 = t by push_cast; ring, show ((5:ℕ):ℝ) = 5 by norm_num, sin_five]
    field_simp
    ring
  · rw [show ((6:ℕ):ℝ) * t / 6 = t by push_cast; ring, show ((6:ℕ):ℝ) = 6 by norm_num, sin_six]
    field_simp
  · rw [show ((7:ℕ):ℝ) * t / 7 = t by push_cast; ring, show ((7:ℕ):ℝ) = 7 by norm_num, sin_seven]
    field_simp
    ring
  · exact hsx

/-- The Fourier series meant by the `conserve_dc` divisor. -/
noncomputable def dcSeries (K : ℕ → ℝ) (x : ℝ) : ℝ :=
  1 + 2 * ∑ k ∈ Finset.range 5, K (k + 1) * (Real.cos (2 * Real.pi * (k + 1) * x) - 1)

theorem cos_sub_one (t : ℝ) : Real.cos (2 * t) - 1 = -2 * Real.sin t ^ 2 := by
  rw [Real.cos_two_mul]
  have := Real.sin_sq_add_cos_sq t
  linear_combination 2 * this

theorem lanczosFactor_eq (K : ℕ → ℝ) (x : ℝ) :
    lanczosFactor K (Real.sin (Real.pi * x)) = dcSeries K x := by
  unfold lanczosFactor dcSeries
  simp only [Finset.sum_range_succ, Finset.sum_range_zero]
  push_cast
  obtain ⟨t, ht⟩ : ∃ t, t = Real.pi * x := ⟨_, rfl⟩
  rw [show 2 * Real.pi * (0 + 1) * x = 2 * t by rw [ht]; ring,
    show 2 * Real.pi * (1 + 1) * x = 2 * (2 * t) by rw [ht]; ring,
    show 2 * Real.pi * (2 + 1) * x = 2 * (3 * t) by rw [ht]; ring,
    show 2 * Real.pi * (3 + 1) * x = 2 * (4 * t) by rw [ht]; ring,
    show 2 * Real.pi * (4 + 1) * x = 2 * (5 * t) by rw [ht]; ring, ← ht]
  rw [cos_sub_one, cos_sub_one, cos_sub_one, cos_sub_one, cos_sub_one, Real.sin_two_mul, Real.sin_three_mul,
    sin_four, sin_five]
  have hc : Real.cos t ^ 2 = 1 - Real.sin t ^ 2 := by linarith [Real.sin_sq_add_cos_sq t]
  generalize Real.sin t = s at *
  generalize Real.cos t = c at *
  norm_num
  linear_combination (16 * K 2 * s ^ 2 + 64 * K 4 * s ^ 2 * (1 - 2 * s ^ 2) ^ 2) * hc

/-! ### Theorems -/

/-- C53: every kernel but `Delta` is 1 at 0 and 0 at the other integers. -/
theorem C53_interpolating (K : ℕ → ℕ → ℝ) (k : Kernel) (hk : ∀ v, k ≠ .delta v)
    (hn : ∀ n d, k = .lanczos n d → 1 ≤ n) : Interpolating (k.xval K) := by
  have abs_ge : ∀ m : ℤ, m ≠ 0 → (1:ℝ) ≤ |(m:ℝ)| := by
    intro m hm
    exact_mod_cast Int.one_le_abs hm
  have cases3 : ∀ m : ℤ, m ≠ 0 → |(m:ℝ)| = 1 ∨ |(m:ℝ)| = 2 ∨ |(m:ℝ)| = 3 ∨ 4 ≤ |(m:ℝ)| := by
    intro m hm
    have h1 := Int.one_le_abs hm
    have : |m| = 1 ∨ |m| = 2 ∨ |m| = 3 ∨ 4 ≤ |m| := by omega
    rcases this with h | h | h | h
    · left; exact_mod_cast h
    · right; left; exact_mod_cast h
    · right; right; left; exact_mod_cast h
    · right; right; right; exact_mod_cast h
  cases k with
  | delta v => exact absurd rfl (hk v)
  | nearest =>
    refine ⟨by norm_num [Kernel.xval], fun m hm => ?_⟩
    have := abs_ge m hm
    rw [Kernel.xval, if_pos (by norm_num; linarith)]
  | sinc v => exact ⟨sinc_zero, fun m hm => sinc_int hm⟩
  | linear =>
    refine ⟨by norm_num [Kernel.xval], fun m hm => ?_⟩
    have := abs_ge m hm
    rw [Kernel.xval]
    split_ifs with h
    · rfl
    · linarith
  | cubic =>
    refine ⟨by norm_num [Kernel.xval, cubicOne], fun m hm => ?_⟩
    rw [Kernel.xval]
    rcases cases3 m hm with h | h | h | h
    · rw [h]; norm_num [cubicTwo]
    · rw [h]; norm_num
    · rw [h]; norm_num
    · rw [if_neg (by linarith), if_neg (by linarith)]
  | quintic =>
    refine ⟨by norm_num [Kernel.xval, quinticOne], fun m hm => ?_⟩
    rw [Kernel.xval]
    rcases cases3 m hm with h | h | h | h
    · rw [h]; norm_num [quinticOne]
    · rw [h]; norm_num [quinticTwo]
    · rw [h]; norm_num [quinticThree]
    · rw [if_neg (by linarith), if_neg (by linarith), if_neg (by linarith)]
  | lanczos n d =>
    have hn' := hn n d rfl
    have hn0 : (0:ℝ) < n := by exact_mod_cast hn'
    refine ⟨?_, fun m hm => ?_⟩
    · rw [Kernel.xval, lanczosXval]
      simp only [abs_zero, zero_div, lanczosSinc_eq n hn', sinc_zero, mul_zero]
      rw [if_pos hn0]
      cases d <;> simp [lanczosFactor]
    · rw [Kernel.xval, lanczosXval]
      simp only [lanczosSinc_eq n hn', sinc_abs, sinc_int hm, zero_mul, zero_div, ite_self]

/-- Disagreement: `Delta` is not 1 at 0 (its value there is `1/kvalue_accuracy`). -/
theorem C53_counterexample_delta (K : ℕ → ℕ → ℝ) (v : ℝ) (h0 : 0 < v) (h1 : v < 1) :
    ¬ Interpolating ((Kernel.delta v).xval K) := by
  rintro ⟨h, -⟩
  rw [Kernel.xval, if_neg (by simp; linarith)] at h
  field_simp at h
  linarith

/-- C53: every kernel is even. -/
theorem C53_even (K : ℕ → ℕ → ℝ) (k : Kernel) (x : ℝ) : k.xval K (-x) = k.xval K x := by
  cases k <;> simp only [Kernel.xval, lanczosXval, abs_neg, sinc_neg]

/-- C53: every kernel but `Sinc` and `Delta` vanishes outside its range. -/
theorem C53_support (K : ℕ → ℕ → ℝ) (k : Kernel) (hs : ∀ v, k ≠ .sinc v) (hd : ∀ v, k ≠ .delta v) (x : ℝ)
    (hx : k.xrange < |x|) : k.xval K x = 0 := by
  cases k with
  | delta v => exact absurd rfl (hd v)
  | nearest => exact if_pos hx
  | sinc v => exact absurd rfl (hs v)
  | linear => exact if_pos hx
  | cubic =>
    simp only [Kernel.xrange] at hx
    rw [Kernel.xval, if_neg (by linarith), if_neg (by linarith)]
  | quintic =>
    simp only [Kernel.xrange] at hx
    rw [Kernel.xval, if_neg (by linarith), if_neg (by linarith), if_neg (by linarith)]
  | lanczos n d =>
    simp only [Kernel.xrange] at hx
    rw [Kernel.xval, lanczosXval]
    simp only [if_neg (not_lt.mpr hx.le)]

/-- The kernel covers its integer range: `ixrange` is at least twice `xrange`. -/
theorem C53_ixrange (k : Kernel) : 2 * k.xrange ≤ k.ixrange := by
  cases k <;> simp only [Kernel.xrange, Kernel.ixrange] <;> push_cast <;> norm_num
  exact Int.le_ceil _

/-- C53: the Lanczos kernel is `sinc x · sinc (x/n)` divided, with `conserve_dc`, by the 1-periodic
Fourier series of the constants `K`. -/
theorem C53_lanczos (K : ℕ → ℕ → ℝ) (n : ℕ) (hn : 1 ≤ n) (dc : Bool) (x : ℝ) (hx : |x| < n) :
    (Kernel.lanczos n dc).xval K x = sinc x * sinc (x / n) / (if dc then dcSeries (K n) x else 1) := by
  have hs : sinc (|x| / n) = sinc (x / n) := by
    rw [← sinc_abs (x / n), abs_div, Nat.abs_cast]
  rw [Kernel.xval, lanczosXval]
  simp only [lanczosSinc_eq n hn, if_pos hx, hs, sinc_abs]
  cases dc
  · simp
  · simp only [if_true]
    rw [← lanczosFactor_eq]
    congr 1
    rcases abs_choice x with h | h <;> rw [h]
    · rw [sinc_mul]
    · rw [mul_neg, mul_neg, sinc_mul]
      simp only [lanczosFactor, neg_mul_neg]

/-- The divisor is the same for all samples used at one position: `conserve_dc` rescales all weights
of a position by one common number. -/
theorem C53_lanczos_common (K : ℕ → ℕ → ℝ) (n : ℕ) (hn : 1 ≤ n) (x : ℝ) (S : Finset ℤ) (f : ℤ → ℝ) :
    ∑ j ∈ S, f j * (Kernel.lanczos n true).xval K (x - j) =
      (∑ j ∈ S, f j * (Kernel.lanczos n false).xval K (x - j)) / dcSeries (K n) x := by
  have per : ∀ j : ℤ, dcSeries (K n) (x - j) = dcSeries (K n) x := by
    intro j
    unfold dcSeries
    congr 2
    refine Finset.sum_congr rfl fun k _ => ?_
    congr 2
    rw [show 2 * Real.pi * ((k:ℝ) + 1) * (x - j) = 2 * Real.pi * (k + 1) * x - (((k + 1) * j : ℤ) : ℝ) * (2 * Real.pi) by
      push_cast; ring, Real.cos_sub_int_mul_two_pi]
  rw [Finset.sum_div]
  refine Finset.sum_congr rfl fun j _ => ?_
  by_cases h : |x - j| < n
  · rw [C53_lanczos K n hn true _ h, C53_lanczos K n hn false _ h, if_pos rfl, per]
    simp
    ring
  · have z : ∀ d, (Kernel.lanczos n d).xval K (x - j) = 0 := by
      intro d
      rw [Kernel.xval, lanczosXval]
      simp only [if_neg h]
    rw [z, z]; simp

/-! ### Reproduction of polynomials -/

/-- Only the samples within `r` of `x` count, so any admissible set gives the same sum as the `2r`
samples around `⌊x⌋`. -/
theorem sum_window (f : ℝ → ℝ) (r : ℕ) (hz : ∀ t, (r:ℝ) ≤ |t| → f t = 0) (g : ℤ → ℝ) (x : ℝ) (S : Finset ℤ)
    (hS : ∀ j : ℤ, |x - j| < r → j ∈ S) :
    ∑ j ∈ S, g j * f (x - j) =
      ∑ i ∈ Finset.Icc (1 - (r:ℤ)) r, g (⌊x⌋ + i) * f (x - (⌊x⌋ + i : ℤ)) := by
  have h1 : ∑ j ∈ S, g j * f (x - j) = ∑ j ∈ S ∪ Finset.Icc (⌊x⌋ + (1 - (r:ℤ))) (⌊x⌋ + r), g j * f (x - j) := by
    refine Finset.sum_subset Finset.subset_union_left fun j _ hj => ?_
    have : ¬ |x - j| < r := fun h => hj (hS j h)
    rw [hz _ (not_lt.mp this), mul_zero]
  have h2 : ∑ j ∈ Finset.Icc (⌊x⌋ + (1 - (r:ℤ))) (⌊x⌋ + r), g j * f (x - j) =
      ∑ j ∈ S ∪ Finset.Icc (⌊x⌋ + (1 - (r:ℤ))) (⌊x⌋ + r), g j * f (x - j) := by
    refine Finset.sum_subset Finset.subset_union_right fun j _ hj => ?_
    have : ¬ |x - j| < r := by
      intro h
      apply hj
      rw [abs_lt] at h
      have hf := Int.floor_le x
      have hf' := Int.lt_floor_add_one x
      rw [Finset.mem_Icc]
      constructor
      · have : (⌊x⌋:ℝ) - r < j := by linarith
        have : ⌊x⌋ - (r:ℤ) < j := by exact_mod_cast this
        omega
      · have : (j:ℝ) < ⌊x⌋ + r + 1 := by linarith
        have : j < ⌊x⌋ + (r:ℤ) + 1 := by exact_mod_cast this
        omega
    rw [hz _ (not_lt.mp this), mul_zero]
  rw [h1, ← h2]
  symm
  refine Finset.sum_bij (fun i _ => ⌊x⌋ + i) ?_ ?_ ?_ ?_
  · intro i hi
    rw [Finset.mem_Icc] at hi ⊢
    omega
  · intro a _ b _ h; omega
  · intro j hj
    rw [Finset.mem_Icc] at hj
    exact ⟨j - ⌊x⌋, by rw [Finset.mem_Icc]; omega, by omega⟩
  · intro i _; rfl

theorem linear_zero (K : ℕ → ℕ → ℝ) (t : ℝ) (h : ((1:ℕ):ℝ) ≤ |t|) : Kernel.linear.xval K t = 0 := by
  push_cast at h
  rw [Kernel.xval]; split_ifs with h'
  · rfl
  · linarith

theorem cubic_zero (K : ℕ → ℕ → ℝ) (t : ℝ) (h : ((2:ℕ):ℝ) ≤ |t|) : Kernel.cubic.xval K t = 0 := by
  push_cast at h
  rw [Kernel.xval, if_neg (by linarith), if_neg (by linarith)]

theorem quintic_zero (K : ℕ → ℕ → ℝ) (t : ℝ) (h : ((3:ℕ):ℝ) ≤ |t|) : Kernel.quintic.xval K t = 0 := by
  push_cast at h
  rw [Kernel.xval, if_neg (by linarith), if_neg (by linarith)]
  split_ifs with h'
  · rw [le_antisymm h' h]; norm_num [quinticThree]
  · rfl

/-- `Cubic` on the closed pieces. -/
theorem cubic_piece1 (K : ℕ → ℕ → ℝ) (t : ℝ) (h : |t| ≤ 1) : Kernel.cubic.xval K t = cubicOne |t| := by
  rw [Kernel.xval]
  split_ifs with h1 h2
  · rfl
  · rw [le_antisymm h (not_lt.mp h1)]; norm_num [cubicOne, cubicTwo]
  · linarith

theorem cubic_piece2 (K : ℕ → ℕ → ℝ) (t : ℝ) (h : 1 ≤ |t|) (h' : |t| ≤ 2) :
    Kernel.cubic.xval K t = cubicTwo |t| := by
  rw [Kernel.xval, if_neg (not_lt.mpr h)]
  split_ifs with h2
  · rfl
  · rw [le_antisymm h' (not_lt.mp h2)]; norm_num [cubicTwo]

theorem quintic_piece1 (K : ℕ → ℕ → ℝ) (t : ℝ) (h : |t| ≤ 1) : Kernel.quintic.xval K t = quinticOne |t| := by
  rw [Kernel.xval, if_pos h]

theorem quintic_piece2 (K : ℕ → ℕ → ℝ) (t : ℝ) (h : 1 ≤ |t|) (h' : |t| ≤ 2) :
    Kernel.quintic.xval K t = quinticTwo |t| := by
  rw [Kernel.xval]
  split_ifs with h1
  · rw [le_antisymm h1 h]; norm_num [quinticOne, quinticTwo]
  · rfl

theorem quintic_piece3 (K : ℕ → ℕ → ℝ) (t : ℝ) (h : 2 ≤ |t|) (h' : |t| ≤ 3) :
    Kernel.quintic.xval K t = quinticThree |t| := by
  rw [Kernel.xval, if_neg (by linarith)]
  split_ifs with h1
  · rw [le_antisymm h1 h]; norm_num [quinticTwo, quinticThree]
  · rfl

/-- C53: `Linear` reproduces polynomials up to degree 1. -/
theorem C53_linear_reproduces (K : ℕ → ℕ → ℝ) (d : ℕ) (hd : d ≤ 1) :
    Reproduces (Kernel.linear.xval K) Kernel.linear.xrange d := by
  intro x S hS
  rw [sum_window _ 1 (linear_zero K) (fun j => (j:ℝ) ^ d) x S (by simpa [Kernel.xrange] using hS)]
  obtain ⟨f, hf⟩ : ∃ f, f = x - ⌊x⌋ := ⟨_, rfl⟩
  have h0 : 0 ≤ f := by rw [hf]; linarith [Int.floor_le x]
  have h1 : f < 1 := by rw [hf]; linarith [Int.lt_floor_add_one x]
  have hx : x = ⌊x⌋ + f := by rw [hf]; ring
  rw [show Finset.Icc (1 - ((1:ℕ):ℤ)) ((1:ℕ):ℤ) = {0, 1} by decide]
  rw [Finset.sum_insert (by decide), Finset.sum_singleton]
  have e0 : Kernel.linear.xval K (x - ((⌊x⌋ + 0 : ℤ) : ℝ)) = 1 - f := by
    rw [show x - ((⌊x⌋ + 0 : ℤ) : ℝ) = f by push_cast; rw [hf]; ring, Kernel.xval, abs_of_nonneg h0,
      if_neg (by linarith)]
  have e1 : Kernel.linear.xval K (x - ((⌊x⌋ + 1 : ℤ) : ℝ)) = f := by
    rw [show x - ((⌊x⌋ + 1 : ℤ) : ℝ) = -(1 - f) by push_cast; rw [hf]; ring, Kernel.xval, abs_neg,
      abs_of_nonneg (by linarith), if_neg (by linarith)]
    ring
  rw [e0, e1]
  generalize ⌊x⌋ = m at *
  rw [hx]
  push_cast
  interval_cases d <;> ring

/-- C53: `Cubic` reproduces polynomials up to degree 2. -/
theorem C53_cubic_reproduces (K : ℕ → ℕ → ℝ) (d : ℕ) (hd : d ≤ 2) :
    Reproduces (Kernel.cubic.xval K) Kernel.cubic.xrange d := by
  intro x S hS
  rw [sum_window _ 2 (cubic_zero K) (fun j => (j:ℝ) ^ d) x S (by simpa [Kernel.xrange] using hS)]
  obtain ⟨f, hf⟩ : ∃ f, f = x - ⌊x⌋ := ⟨_, rfl⟩
  have h0 : 0 ≤ f := by rw [hf]; linarith [Int.floor_le x]
  have h1 : f < 1 := by rw [hf]; linarith [Int.lt_floor_add_one x]
  have hx : x = ⌊x⌋ + f := by rw [hf]; ring
  rw [show Finset.Icc (1 - ((2:ℕ):ℤ)) ((2:ℕ):ℤ) = {-1, 0, 1, 2} by decide]
  rw [Finset.sum_insert (by decide), Finset.sum_insert (by decide), Finset.sum_insert (by decide),
    Finset.sum_singleton]
  have a0 : |x - ((⌊x⌋ + -1 : ℤ) : ℝ)| = 1 + f := by
    rw [show x - ((⌊x⌋ + -1 : ℤ) : ℝ) = 1 + f by push_cast; rw [hf]; ring, abs_of_nonneg (by linarith)]
  have a1 : |x - ((⌊x⌋ + 0 : ℤ) : ℝ)| = f := by
    rw [show x - ((⌊x⌋ + 0 : ℤ) : ℝ) = f by push_cast; rw [hf]; ring, abs_of_nonneg (by linarith)]
  have a2 : |x - ((⌊x⌋ + 1 : ℤ) : ℝ)| = 1 - f := by
    rw [show x - ((⌊x⌋ + 1 : ℤ) : ℝ) = -(1 - f) by push_cast; rw [hf]; ring, abs_neg, abs_of_nonneg (by linarith)]
  have a3 : |x - ((⌊x⌋ + 2 : ℤ) : ℝ)| = 2 - f := by
    rw [show x - ((⌊x⌋ + 2 : ℤ) : ℝ) = -(2 - f) by push_cast; rw [hf]; ring, abs_neg, abs_of_nonneg (by linarith)]
  rw [cubic_piece2 K _ (by rw [a0]; linarith) (by rw [a0]; linarith), cubic_piece1 K _ (by rw [a1]; linarith),
    cubic_piece1 K _ (by rw [a2]; linarith), cubic_piece2 K _ (by rw [a3]; linarith) (by rw [a3]; linarith),
    a0, a1, a2, a3]
  generalize ⌊x⌋ = m at *
  rw [hx]
  unfold cubicOne cubicTwo
  push_cast
  interval_cases d <;> ring

/-- C53: `Quintic` reproduces polynomials up to degree 4. -/
theorem C53_quintic_reproduces (K : ℕ → ℕ → ℝ) (d : ℕ) (hd : d ≤ 4) :
    Reproduces (Kernel.quintic.xval K) Kernel.quintic.xrange d := by
  intro x S hS
  rw [sum_window _ 3 (quintic_zero K) (fun j => (j:ℝ) ^ d) x S (by simpa [Kernel.xrange] using hS)]
  obtain ⟨f, hf⟩ : ∃ f, f = x - ⌊x⌋ := ⟨_, rfl⟩
  have h0 : 0 ≤ f := by rw [hf]; linarith [Int.floor_le x]
  have h1 : f < 1 := by rw [hf]; linarith [Int.lt_floor_add_one x]
  have hx : x = ⌊x⌋ + f := by rw [hf]; ring
  rw [show Finset.Icc (1 - ((3:ℕ):ℤ)) ((3:ℕ):ℤ) = {-2, -1, 0, 1, 2, 3} by decide]
  rw [Finset.sum_insert (by decide), Finset.sum_insert (by decide), Finset.sum_insert (by decide),
    Finset.sum_insert (by decide), Finset.sum_insert (by decide), Finset.sum_singleton]
  have b0 : |x - ((⌊x⌋ + -2 : ℤ) : ℝ)| = 2 + f := by
    rw [show x - ((⌊x⌋ + -2 : ℤ) : ℝ) = 2 + f by push_cast; rw [hf]; ring, abs_of_nonneg (by linarith)]
  have a0 : |x - ((⌊x⌋ + -1 : ℤ) : ℝ)| = 1 + f := by
    rw [show x - ((⌊x⌋ + -1 : ℤ) : ℝ) = 1 + f by push_cast; rw [hf]; ring, abs_of_nonneg (by linarith)]
  have a1 : |x - ((⌊x⌋ + 0 : ℤ) : ℝ)| = f := by
    rw [show x - ((⌊x⌋ + 0 : ℤ) : ℝ) = f by push_cast; rw [hf]; ring, abs_of_nonneg (by linarith)]
  have a2 : |x - ((⌊x⌋ + 1 : ℤ) : ℝ)| = 1 - f := by
    rw [show x - ((⌊x⌋ + 1 : ℤ) : ℝ) = -(1 - f) by push_cast; rw [hf]; ring, abs_neg, abs_of_nonneg (by linarith)]
  have a3 : |x - ((⌊x⌋ + 2 : ℤ) : ℝ)| = 2 - f := by
    rw [show x - ((⌊x⌋ + 2 : ℤ) : ℝ) = -(2 - f) by push_cast; rw [hf]; ring, abs_neg, abs_of_nonneg (by linarith)]
  have a4 : |x - ((⌊x⌋ + 3 : ℤ) : ℝ)| = 3 - f := by
    rw [show x - ((⌊x⌋ + 3 : ℤ) : ℝ) = -(3 - f) by push_cast; rw [hf]; ring, abs_neg, abs_of_nonneg (by linarith)]
  rw [quintic_piece3 K _ (by rw [b0]; linarith) (by rw [b0]; linarith),
    quintic_piece2 K _ (by rw [a0]; linarith) (by rw [a0]; linarith), quintic_piece1 K _ (by rw [a1]; linarith),
    quintic_piece1 K _ (by rw [a2]; linarith), quintic_piece2 K _ (by rw [a3]; linarith) (by rw [a3]; linarith),
    quintic_piece3 K _ (by rw [a4]; linarith) (by rw [a4]; linarith), b0, a0, a1, a2, a3, a4]
  generalize ⌊x⌋ = m at *
  rw [hx]
  unfold quinticOne quinticTwo quinticThree
  push_cast
  interval_cases d <;> ring

/-- C53: `Nearest` reproduces constants except half way between two samples. -/
theorem C53_nearest_reproduces_partial (K : ℕ → ℕ → ℝ) (x : ℝ) (hx : ∀ m : ℤ, x ≠ m + 1 / 2) (S : Finset ℤ)
    (hS : ∀ j : ℤ, |x - j| ≤ Kernel.nearest.xrange → j ∈ S) :
    ∑ j ∈ S, Kernel.nearest.xval K (x - j) = 1 := by
  have hr : |x - (round x : ℤ)| ≤ 1 / 2 := abs_sub_round x
  have key : ∀ j : ℤ, Kernel.nearest.xval K (x - j) = if j = round x then 1 else 0 := by
    intro j
    rw [Kernel.xval]
    by_cases hj : j = round x
    · rw [if_pos hj, hj, if_neg (by norm_num; linarith)]
    · rw [if_neg hj, if_pos]
      by_contra h
      norm_num at h
      apply hj
      rw [abs_le] at h hr
      have h1 : (j:ℝ) - (round x : ℤ) ≤ 1 := by linarith
      have h2 : (-1:ℝ) ≤ (j:ℝ) - (round x : ℤ) := by linarith
      have h1' : j - round x ≤ 1 := by exact_mod_cast h1
      have h2' : -1 ≤ j - round x := by exact_mod_cast h2
      have h3 : j - round x = 0 ∨ j - round x = 1 ∨ j - round x = -1 := by omega
      rcases h3 with h3 | h3 | h3
      · omega
      · exfalso
        have : (j:ℝ) = (round x : ℤ) + 1 := by
          have : j = round x + 1 := by omega
          exact_mod_cast this
        exact hx (round x) (by linarith)
      · exfalso
        have : (j:ℝ) = (round x : ℤ) - 1 := by
          have : j = round x - 1 := by omega
          rw [this]; push_cast; ring
        exact hx j (by linarith)
  rw [Finset.sum_congr rfl fun j _ => key j, Finset.sum_ite_eq' S, if_pos]
  refine hS _ ?_
  simp only [Kernel.xrange]
  norm_num
  linarith

/-- Disagreement: half way between two samples `Nearest` counts both with weight 1, so a constant
image is doubled there. -/
theorem C53_counterexample_nearest (K : ℕ → ℕ → ℝ) (m : ℤ) :
    ∑ j ∈ ({m, m + 1} : Finset ℤ), Kernel.nearest.xval K ((m + 1 / 2 : ℝ) - j) = 2 := by
  rw [Finset.sum_pair (by omega)]
  have e1 : (m + 1 / 2 : ℝ) - m = 1 / 2 := by ring
  have e2 : (m + 1 / 2 : ℝ) - ((m + 1 : ℤ) : ℝ) = -(1 / 2) := by push_cast; ring
  rw [e1, e2, Kernel.xval, Kernel.xval, abs_neg, abs_of_pos (by norm_num : (0:ℝ) < 1/2)]
  norm_num

/-- Disagreement: `Lanczos` without `conserve_dc` does not reproduce constants: half way between two
samples the weights of `Lanczos(1)` add up to `8/π²`. -/
theorem C53_counterexample_lanczos (K : ℕ → ℕ → ℝ) :
    ∑ j ∈ ({0, 1} : Finset ℤ), (Kernel.lanczos 1 false).xval K ((1 / 2 : ℝ) - j) = 8 / Real.pi ^ 2 ∧
    8 / Real.pi ^ 2 ≠ 1 := by
  constructor
  · rw [Finset.sum_pair (by omega)]
    have e2 : (1 / 2 : ℝ) - ((1 : ℤ) : ℝ) = -(1 / 2) := by push_cast; ring
    rw [e2, C53_even, Int.cast_zero, sub_zero, C53_lanczos K 1 le_rfl false (1 / 2)
      (by rw [abs_of_pos (by norm_num)]; norm_num)]
    have hs : sinc (1 / 2) = 2 / Real.pi := by
      rw [sinc, if_neg (by norm_num), show Real.pi * (1 / 2) = Real.pi / 2 by ring, Real.sin_pi_div_two]
      have := Real.pi_ne_zero
      field_simp
    simp only [Nat.cast_one, div_one, hs, Bool.false_eq_true, if_false]
    ring
  · have h3 := Real.pi_gt_three
    have : (9:ℝ) < Real.pi ^ 2 := by nlinarith
    intro h
    rw [div_eq_one_iff_eq (by positivity)] at h
    linarith

/-- C53: positive minus negative flux is 1 for every kernel with fluxes given as constants, and for
`Sinc` whatever the sine integrals. -/
theorem C53_fluxes (k : Kernel) (p n : ℝ) (h : k.fluxes = some (p, n)) : p - n = 1 ∧ 0 ≤ n := by
  cases k <;> simp only [Kernel.fluxes, Option.some.injEq, Prod.mk.injEq, reduceCtorEq] at h <;>
    obtain ⟨rfl, rfl⟩ := h <;> norm_num

theorem C53_sinc_fluxes (si : ℕ → ℝ) (r : ℕ) : (sincFluxes si r).1 - (sincFluxes si r).2 = 1 := by
  simp [sincFluxes]

example (K : ℕ → ℕ → ℝ) : Interpolating ((Kernel.lanczos 5 true).xval K) :=
  C53_interpolating K _ (fun _ => Kernel.noConfusion) (fun n d h => by cases h; norm_num)

example (K : ℕ → ℕ → ℝ) : (Kernel.lanczos 3 true).xval K 3.5 = 0 :=
  C53_support K _ (fun _ => Kernel.noConfusion) (fun _ => Kernel.noConfusion) _
    (by norm_num [Kernel.xrange])

/-- Five samples are enough for `Cubic` at 0.25. -/
example (K : ℕ → ℕ → ℝ) :
    ∑ j ∈ Finset.Icc (-2 : ℤ) 3, (j:ℝ) ^ 2 * Kernel.cubic.xval K (0.25 - j) = 0.25 ^ 2 := by
  refine C53_cubic_reproduces K 2 le_rfl 0.25 _ fun j hj => ?_
  rw [abs_lt] at hj
  simp only [Kernel.xrange] at hj
  rw [Finset.mem_Icc]
  constructor
  · have : ((-2:ℤ):ℝ) < j := by push_cast; norm_num at hj; linarith
    have : (-2:ℤ) < j := by exact_mod_cast this
    omega
  · have : (j:ℝ) < ((3:ℤ):ℝ) := by push_cast; norm_num at hj; linarith
    have : j < (3:ℤ) := by exact_mod_cast this
    omega

end JG.Interp
