import Verif.Model.BesselJ0
import Verif.Lemmas.J0Close

/-! # C95: the Bessel function of order zero

`j0` is compared with Bessel's integral `J_0(x) = (1/π) ∫ cos (x sin t) dt` over `[0, π]`. -/

namespace JG.J0

open Real Filter Topology

/-- Bessel's integral for `J_0`. -/
noncomputable def besselJ0 (x : ℝ) : ℝ := 1 / π * ∫ t in (0 : ℝ)..π, cos (x * sin t)

theorem besselJ0_eq (x : ℝ) : besselJ0 x = besJ x := by
  rw [besselJ0, besJ, one_div, div_eq_inv_mul]

/-- `besselJ0` is the function with the usual power series `∑ (-1)^k (x/2)^(2k) / (k!)²`. -/
theorem C95_series (x : ℝ) : HasSum (fun k : ℕ => (-1) ^ k * (x / 2) ^ (2 * k) / (k.factorial : ℝ) ^ 2) (besselJ0 x) := by
  have hterm : ∀ k : ℕ, (-1 : ℝ) ^ k * (x / 2) ^ (2 * k) / (k.factorial : ℝ) ^ 2 = (-1) ^ k / (4 ^ k * (k.factorial : ℝ) ^ 2) * |x| ^ (2 * k) := by
    intro k
    rw [div_pow, pow_mul, pow_mul, pow_mul, sq_abs]
    norm_num
    ring
  have hx : besselJ0 x = besJ |x| := by
    rw [besselJ0_eq]
    rcases abs_choice x with h | h <;> rw [h]
    rw [besJ_neg]
  simp only [hterm]
  have hsum : Summable fun k : ℕ => (-1 : ℝ) ^ k / (4 ^ k * (k.factorial : ℝ) ^ 2) * |x| ^ (2 * k) := by
    refine Summable.of_norm_bounded (g := fun k => (|x| ^ 2) ^ k / (k.factorial : ℝ)) (Real.summable_pow_div_factorial _) fun k => ?_
    rw [norm_mul, norm_div, norm_pow, norm_neg, norm_one, one_pow, norm_of_nonneg (by positivity), norm_of_nonneg (by positivity), pow_mul,
      one_div, mul_comm, ← div_eq_mul_inv]
    refine div_le_div_of_nonneg_left (by positivity) (by positivity) ?_
    have h1 : (1 : ℝ) ≤ k.factorial := by exact_mod_cast Nat.one_le_iff_ne_zero.mpr (Nat.factorial_ne_zero k)
    have h4 : (1 : ℝ) ≤ 4 ^ k := one_le_pow₀ (by norm_num)
    nlinarith
  refine (hsum.hasSum_iff_tendsto_nat).mpr ?_
  rw [hx]
  have hb : Tendsto (fun n : ℕ => |x| ^ n / (n.factorial : ℝ)) atTop (𝓝 0) := (Real.summable_pow_div_factorial |x|).tendsto_atTop_zero
  have hb2 : Tendsto (fun n : ℕ => |x| ^ (2 * n) / ((2 * n).factorial : ℝ)) atTop (𝓝 0) :=
    hb.comp (tendsto_id.const_mul_atTop' (by norm_num : 0 < 2))
  rw [tendsto_iff_norm_sub_tendsto_zero]
  refine squeeze_zero' (Eventually.of_forall fun _ => norm_nonneg _) ?_ hb2
  filter_upwards [eventually_ge_atTop 1] with n hn
  obtain ⟨m, rfl⟩ : ∃ m, n = m + 1 := ⟨n - 1, by omega⟩
  have := besJ_taylor m (abs_nonneg x)
  rw [norm_eq_abs, abs_sub_comm]
  exact this

example : besselJ0 0 = 1 := by
  rw [besselJ0_eq, besJ_zero]

/-- `j0` is even. -/
theorem C95_even (x : ℝ) : j0 (-x) = j0 x := by
  simp only [j0, abs_neg]

example : j0 (-9) = t3 9 := by
  rw [C95_even]
  simp only [j0]
  rw [if_neg (by norm_num), if_neg (by norm_num [abs_of_pos]), if_neg (by norm_num [abs_of_pos]), if_pos (by norm_num [abs_of_pos]),
    if_pos (by norm_num)]
  norm_num [abs_of_pos]

/-- At 0 the value is exact. -/
theorem C95_zero : j0 0 = besselJ0 0 := by
  rw [besselJ0_eq, besJ_zero]
  simp [j0]

example : j0 0 = 1 := by simp [j0]

theorem besJ_abs (x : ℝ) : besJ |x| = besJ x := by
  rcases abs_choice x with h | h <;> rw [h]
  rw [besJ_neg]

/-- Up to 8 the error is at most `3e-18`. -/
theorem C95_inner {x : ℝ} (h : |x| ≤ 8) : |j0 x - besselJ0 x| ≤ 3 / 10 ^ 18 := by
  rw [besselJ0_eq, ← besJ_abs]
  simp only [j0]
  have h0 := abs_nonneg x
  generalize |x| = y at *
  by_cases hy : y = 0
  · rw [if_pos hy, hy, besJ_zero]; norm_num
  · rw [if_neg hy, if_pos hy]
    by_cases h4 : y ≤ 4
    · rw [if_pos h4]; exact t1_close h0 h4
    · rw [if_neg h4, if_pos h]; exact t2_close (by linarith) h

example : |j0 (-5) - besselJ0 (-5)| ≤ 3 / 10 ^ 18 := C95_inner (by norm_num [abs_of_pos])

/-- Beyond 8 the error is at most `6.3e-15 / √|x|`. -/
theorem C95_outer {x : ℝ} (h : 8 < |x|) : |j0 x - besselJ0 x| ≤ 63 / 10 ^ 16 / √|x| := by
  rw [besselJ0_eq, ← besJ_abs]
  simp only [j0]
  generalize |x| = y at *
  rw [if_neg (by linarith), if_neg (by linarith), if_neg (by linarith), if_pos h, if_pos (by linarith)]
  exact t3_close h.le

example : |j0 10000 - besselJ0 10000| ≤ 63 / 10 ^ 18 := by
  have := C95_outer (x := 10000) (by norm_num [abs_of_pos])
  rw [abs_of_pos (by norm_num : (0 : ℝ) < 10000), show (10000 : ℝ) = 100 ^ 2 by norm_num, Real.sqrt_sq (by norm_num)] at this
  refine le_trans ?_ (this.trans ?_)
  · norm_num
  · norm_num

/-- For every argument the error is at most `2.3e-15`. -/
theorem C95_accuracy (x : ℝ) : |j0 x - besselJ0 x| ≤ 23 / 10 ^ 16 := by
  rcases le_or_gt |x| 8 with h | h
  · refine (C95_inner h).trans (by norm_num)
  · refine (C95_outer h).trans ?_
    have hs : (28 / 10 : ℝ) ≤ √|x| := Real.le_sqrt_of_sq_le (by norm_num; linarith)
    rw [div_le_iff₀ (by linarith)]
    norm_num at hs ⊢
    linarith

example : |j0 123456 - besselJ0 123456| ≤ 23 / 10 ^ 16 := C95_accuracy _

end JG.J0
