import Verif.Model.Place
import Verif.Props.ImagePix
import Mathlib.Tactic.Linarith
import Mathlib.Tactic.Ring
import Mathlib.Tactic.NormNum
import Mathlib.Tactic.Positivity
import Mathlib.Tactic.FieldSimp
import Mathlib.Analysis.SpecialFunctions.Pow.Real

/-!
Property C32: the FFT grid used for drawing covers the image.
-/

namespace JG

/-- Specification: sizes for which FFTs are fast: `2^k` and `3·2^k`, even. -/
def FastSize (m : ℤ) : Prop := ∃ k : ℕ, m = 2 ^ (k + 1) ∨ m = 3 * 2 ^ (k + 1)

theorem FastSize.even {m : ℤ} (h : FastSize m) : m % 2 = 0 := by
  obtain ⟨k, h | h⟩ := h
  · rw [h, pow_succ]; omega
  · rw [h, pow_succ]; omega

theorem exp_log2_mul (j : ℤ) : Real.exp (Real.log 2 * j) = (2 : ℝ) ^ j := by
  rw [← Real.rpow_intCast, Real.rpow_def_of_pos (by norm_num)]

/-- The logarithmic ceiling used in `good_fft_size`. -/
theorem le_exp_ceil (s c : ℝ) (hs : 0 < s) (hc : 0 < c) :
    let j := ⌈(Real.log s - Real.log c) / Real.log 2⌉
    s ≤ c * (2 : ℝ) ^ j ∧ ∀ i : ℤ, s ≤ c * (2 : ℝ) ^ i → j ≤ i := by
  intro j
  have hl2 : 0 < Real.log 2 := Real.log_pos (by norm_num)
  have key : ∀ i : ℤ, s ≤ c * (2 : ℝ) ^ i ↔ j ≤ i := by
    intro i
    rw [show j ≤ i ↔ (Real.log s - Real.log c) / Real.log 2 ≤ i from Int.ceil_le, div_le_iff₀ hl2]
    have hp : (0 : ℝ) < 2 ^ i := by positivity
    rw [← Real.log_le_log_iff hs (by positivity), Real.log_mul hc.ne' hp.ne', Real.log_zpow]
    constructor <;> intro h <;> linarith
  exact ⟨(key j).mpr le_rfl, fun i hi => (key i).mp hi⟩

/-- C32 (`good_fft_size`): for every positive size the result is the smallest fast even size that is not below
`0.99999` times the size. -/
theorem C32_good_fft_size (n : ℤ) (hn : 0 < n) :
    ∃ m, goodFftSize n = some m ∧ FastSize m ∧ (1 - 1 / 10 ^ 5 : ℝ) * n ≤ m ∧
      ∀ m', FastSize m' → (1 - 1 / 10 ^ 5 : ℝ) * n ≤ m' → m ≤ m' := by
  have hnr : (1 : ℝ) ≤ n := by exact_mod_cast hn
  set s : ℝ := (1 - 1 / 10 ^ 5) * n with hs
  have hs0 : 0 < s := by rw [hs]; apply mul_pos _ (by linarith); norm_num
  set j2 := ⌈Real.log s / Real.log 2⌉ with hj2
  set j3 := ⌈(Real.log s - Real.log 3) / Real.log 2⌉ with hj3
  have h2 := le_exp_ceil s 1 hs0 one_pos
  have h3 := le_exp_ceil s 3 hs0 (by norm_num)
  simp only [Real.log_one, sub_zero, one_mul, ← hj2] at h2
  simp only [← hj3] at h3
  have hl2 : 0 < Real.log 2 := Real.log_pos (by norm_num)
  have hl6 : Real.log 6 = Real.log 3 + Real.log 2 * (1 : ℤ) := by
    rw [show (6 : ℝ) = 3 * 2 by norm_num, Real.log_mul (by norm_num) (by norm_num)]; simp
  have hmax : max (Real.log 3 + Real.log 2 * (j3 : ℝ)) (Real.log 6) = Real.log 3 + Real.log 2 * ((max j3 1 : ℤ) : ℝ) := by
    rw [hl6, Int.cast_max, mul_max_of_nonneg _ _ hl2.le, max_add_add_left]
  have hj2n : 0 ≤ j2 := by
    by_contra hneg
    push Not at hneg
    have h' : (2 : ℝ) ^ j2 ≤ 2 ^ (-1 : ℤ) := zpow_le_zpow_right₀ (by norm_num) (by omega)
    have : s ≤ 1 / 2 := le_trans h2.1 (le_trans h' (by norm_num))
    have : (1 - 1 / 10 ^ 5 : ℝ) * 1 ≤ s := by rw [hs]; apply mul_le_mul_of_nonneg_left hnr; norm_num
    norm_num at this
    linarith
  obtain ⟨a2, ha2⟩ : ∃ k : ℕ, j2 = k := ⟨j2.toNat, by omega⟩
  obtain ⟨a3, ha3⟩ : ∃ k : ℕ, max j3 1 = (k + 1 : ℕ) := ⟨(max j3 1).toNat - 1, by omega⟩
  have hexp : Real.exp (min (Real.log 2 * (j2 : ℝ)) (max (Real.log 3 + Real.log 2 * (j3 : ℝ)) (Real.log 6)))
      = ((min (2 ^ a2) (3 * 2 ^ (a3 + 1)) : ℤ) : ℝ) := by
    rw [hmax, Real.exp_monotone.map_min, Real.exp_add, exp_log2_mul, exp_log2_mul, Real.exp_log (by norm_num), ha2, ha3]
    push_cast
    rw [zpow_natCast]
    congr 2
  have hceil : ∀ z : ℤ, ⌈(z : ℝ) - 1 / 10 ^ 5⌉ = z := by
    intro z; rw [Int.ceil_eq_iff]; constructor <;> norm_num
  have hval : goodFftSize n = some (max (min (2 ^ a2) (3 * 2 ^ (a3 + 1))) 2) := by
    unfold goodFftSize
    simp only
    rw [← hs, if_neg (not_le.mpr hs0), hexp, hceil]
  have p2 : (2 : ℤ) ^ a2 ≥ 1 := one_le_pow₀ (by norm_num)
  have p3 : (2 : ℤ) ^ (a3 + 1) ≥ 2 := by rw [pow_succ]; have : (2 : ℤ) ^ a3 ≥ 1 := one_le_pow₀ (by norm_num)
                                         omega
  have hs2 : s ≤ ((2 ^ a2 : ℤ) : ℝ) := by
    have := h2.1; rw [ha2, zpow_natCast] at this; push_cast; exact this
  have hs3 : s ≤ ((3 * 2 ^ (a3 + 1) : ℤ) : ℝ) := by
    have h1 := h3.1
    have h' : (2 : ℝ) ^ j3 ≤ 2 ^ (max j3 1) := zpow_le_zpow_right₀ (by norm_num) (le_max_left _ _)
    rw [ha3, zpow_natCast] at h'
    push_cast
    linarith
  refine ⟨_, hval, ?_, ?_, ?_⟩
  · rcases min_cases ((2 : ℤ) ^ a2) (3 * 2 ^ (a3 + 1)) with ⟨e, _⟩ | ⟨e, _⟩
    · rw [e]
      cases a2 with
      | zero => exact ⟨0, Or.inl (by norm_num)⟩
      | succ k =>
        refine ⟨k, Or.inl (max_eq_left ?_)⟩
        have : (2 : ℤ) ^ k ≥ 1 := one_le_pow₀ (by norm_num)
        rw [pow_succ]; omega
    · rw [e]
      exact ⟨a3, Or.inr (max_eq_left (by omega))⟩
  · refine le_trans ?_ (Int.cast_le.mpr (le_max_left _ _))
    rw [Int.cast_min]
    exact le_min hs2 hs3
  · intro m' ⟨k, hk⟩ hm'
    rcases hk with hk | hk
    · apply max_le
      · refine le_trans (min_le_left _ _) ?_
        have := h2.2 (k + 1 : ℕ) (by rw [zpow_natCast]; rw [hk] at hm'; push_cast at hm'; exact hm')
        rw [hk]
        apply pow_le_pow_right₀ (by norm_num)
        omega
      · have : (2 : ℤ) ^ k ≥ 1 := one_le_pow₀ (by norm_num)
        rw [hk, pow_succ]; omega
    · have h2k : (2 : ℤ) ^ k ≥ 1 := one_le_pow₀ (by norm_num)
      apply max_le
      · refine le_trans (min_le_right _ _) ?_
        have := h3.2 (k + 1 : ℕ) (by rw [zpow_natCast]; rw [hk] at hm'; push_cast at hm'; exact hm')
        rw [hk]
        have : (2 : ℤ) ^ (a3 + 1) ≤ 2 ^ (k + 1) := by
          apply pow_le_pow_right₀ (by norm_num)
          omega
        linarith
      · rw [hk, pow_succ]; omega

example : (0 : ℤ) < 100 := by norm_num

/-- C32: below 100000 the good FFT size is at least the requested size. -/
theorem C32_good_fft_size_ge_partial (n m : ℤ) (h1 : n < 100000) (h : goodFftSize n = some m) : n ≤ m := by
  have hn : 0 < n := by
    by_contra hc
    unfold goodFftSize at h
    simp only at h
    rw [if_pos] at h
    · cases h
    · have : (n : ℝ) ≤ 0 := by exact_mod_cast (not_lt.mp hc)
      have : (1 - 1 / 10 ^ 5 : ℝ) ≥ 0 := by norm_num
      exact mul_nonpos_of_nonneg_of_nonpos this (by assumption)
  obtain ⟨m', e, -, h2, -⟩ := C32_good_fft_size n hn
  rw [e] at h; injection h with h; subst h
  have : ((n - 1 : ℤ) : ℝ) < m' := by
    push_cast
    have : (n : ℝ) < 100000 := by exact_mod_cast h1
    norm_num at h2
    linarith
  have := Int.cast_lt.mp this
  omega

/-- Disagreement: the reduction of the size by `1e-5` (meant for rounding errors) exceeds one pixel for sizes above
100000, so the "good" size can be smaller than the size asked for: `good_fft_size(131073) = 131072`. -/
theorem C32_good_fft_size_counterexample : goodFftSize 131073 = some 131072 := by
  obtain ⟨m, e, h1, h2, h3⟩ := C32_good_fft_size 131073 (by norm_num)
  have hle : m ≤ 131072 := h3 131072 ⟨16, Or.inl (by norm_num)⟩ (by norm_num)
  have hge : (131071 : ℝ) < m := by norm_num at h2; linarith
  have hge : (131071 : ℤ) < m := by exact_mod_cast hge
  rw [e]; congr 1; omega

/-- C32: the automatic image size is even and at least `2π/(scale·stepk)` up to the rounding slop. -/
theorem C32_good_image_size (stepk scale : ℝ) :
    goodImageSize stepk scale % 2 = 0 ∧
      2 * Real.pi / (scale * stepk) * (1 - 1 / 10 ^ 12) ≤ goodImageSize stepk scale := by
  unfold goodImageSize
  simp only
  set N := ⌈2 * Real.pi / (scale * stepk) * (1 - 1 / 10 ^ 12)⌉ with hN
  refine ⟨by omega, le_trans (Int.le_ceil _) ?_⟩
  rw [← hN]; exact_mod_cast (by omega)

/-- Specification: bounds with the centre pixel at (0,0), as set by `drawImage` before drawing. -/
def CenteredAtOrigin (b : Bounds ℤ) : Prop := b.centerI = some ⟨0, 0⟩ ∧ 0 < b.deltax ∧ 0 < b.deltay

/-- C32, automatic sizes: when a grid is chosen, its size `N` is even and at least the image size, the k-grid is even,
at least as large, within the configured maximum and reaches `maxk`, and every pixel of the image lies in the real-space
grid.  Missing: images not centred at the origin, odd minimum FFT sizes, images of 100000 pixels or more, and
`maximum_fft_size = minimum_fft_size`. -/
theorem C32_grid_partial (minSize maxSize : ℤ) (stepk maxk scale : ℝ) (b : Bounds ℤ) (N Nk : ℤ) (dk : ℝ)
    (hmm : maxSize ≠ minSize) (hmin : minSize % 2 = 0) (hsc : 0 < scale) (hb : CenteredAtOrigin b)
    (hsmall : imageN b < 100000)
    (h : makeKSizes minSize maxSize stepk maxk scale b = some (N, Nk, dk)) :
    N % 2 = 0 ∧ Nk % 2 = 0 ∧ b.deltax ≤ N ∧ b.deltay ≤ N ∧ minSize ≤ N ∧ N ≤ Nk ∧ Nk ≤ maxSize ∧ maxk ≤ Nk * dk / 2 ∧
      ∀ x y, b.xmin ≤ x → x ≤ b.xmin + b.deltax - 1 → b.ymin ≤ y → y ≤ b.ymin + b.deltay - 1 →
        (realBounds N).includesP clsI ⟨x, y⟩ = true := by
  unfold makeKSizes at h
  rw [if_neg hmm] at h
  simp only [Option.bind_eq_bind, Option.bind_eq_some_iff] at h
  obtain ⟨N0, hN0, h⟩ := h
  obtain ⟨hc, hdx, hdy⟩ := hb
  have hdef : b.defined = true := by
    unfold Bounds.centerI at hc; cases hd : b.defined <;> simp [hd] at hc ⊢
  have hc' : b.xmin + b.deltax / 2 = 0 ∧ b.ymin + b.deltay / 2 = 0 := by
    unfold Bounds.centerI at hc; rw [hdef] at hc
    simp only [Bool.not_true, Bool.false_eq_true, if_false, Option.some.injEq, Pos.mk.injEq] at hc; exact hc
  have hshape : b.numpyShape = (b.deltay, b.deltax) := by simp [Bounds.numpyShape, hdef]
  have hi1 : b.deltax ≤ imageN b := by unfold imageN; rw [hshape]; simp
  have hi2 : b.deltay ≤ imageN b := by unfold imageN; rw [hshape]; simp
  set M := max (goodImageSize stepk scale) (imageN b) with hM
  have hMpos : 0 < M := by omega
  obtain ⟨m, e, hfast, hge, -⟩ := C32_good_fft_size M hMpos
  rw [hN0] at e; injection e with e; subst e
  have hN0ge : imageN b ≤ N0 := by
    by_cases hlt : M < 100000
    · exact le_trans (le_max_right _ _) (C32_good_fft_size_ge_partial M N0 hlt hN0)
    · have : (100000 : ℝ) ≤ M := by exact_mod_cast (not_lt.mp hlt)
      have h1 : (99998 : ℝ) < N0 := by norm_num at hge; linarith
      have h1 : (99998 : ℤ) < N0 := by exact_mod_cast h1
      omega
  have hN0e := hfast.even
  set N1 := max N0 minSize with hN1
  have hN1e : N1 % 2 = 0 := by rw [hN1]; rcases max_cases N0 minSize with ⟨e, _⟩ | ⟨e, _⟩ <;> omega
  have hN1pos : 0 < N1 := by omega
  have hN1r : (0 : ℝ) < N1 := by exact_mod_cast hN1pos
  by_cases hle : (if N1 * (2 * Real.pi / (N1 * scale)) / 2 > maxk then N1
      else ⌈maxk / (2 * Real.pi / (N1 * scale))⌉ * 2) > maxSize
  · rw [if_pos hle] at h; cases h
  · rw [if_neg hle] at h
    simp only [Option.some.injEq, Prod.mk.injEq] at h
    obtain ⟨rfl, rfl, rfl⟩ := h
    have hdk : 0 < 2 * Real.pi / (N1 * scale) := div_pos (by positivity) (by positivity)
    set dk := 2 * Real.pi / (N1 * scale) with hdkd
    have hreal : ∀ x y, b.xmin ≤ x → x ≤ b.xmin + b.deltax - 1 → b.ymin ≤ y → y ≤ b.ymin + b.deltay - 1 →
        (realBounds N1).includesP clsI ⟨x, y⟩ = true := by
      intro x y h1 h2 h3 h4
      have q : ¬ (2 * (N1 / 2) < 1) := by omega
      simp [realBounds, Bounds.includesP, Bounds.mkDelta, Bounds.finish, Bounds.xmax, Bounds.ymax, clsI, q]
      omega
    have hNk : N1 ≤ (if N1 * dk / 2 > maxk then N1 else ⌈maxk / dk⌉ * 2) ∧
        (if N1 * dk / 2 > maxk then N1 else ⌈maxk / dk⌉ * 2) % 2 = 0 ∧
        maxk ≤ ((if N1 * dk / 2 > maxk then N1 else ⌈maxk / dk⌉ * 2 : ℤ) : ℝ) * dk / 2 := by
      split
      · rename_i hg; exact ⟨le_rfl, hN1e, hg.le⟩
      · rename_i hg
        have hg : N1 * dk / 2 ≤ maxk := not_lt.mp hg
        have hceil : maxk / dk ≤ ⌈maxk / dk⌉ := Int.le_ceil _
        have h1 : (N1 : ℝ) / 2 ≤ maxk / dk := by rw [le_div_iff₀ hdk]; linarith
        refine ⟨?_, by omega, ?_⟩
        · have : (N1 : ℝ) ≤ ((⌈maxk / dk⌉ * 2 : ℤ) : ℝ) := by push_cast; linarith
          exact_mod_cast this
        · push_cast
          rw [div_le_iff₀ hdk] at hceil
          linarith
    exact ⟨hN1e, hNk.2.1, by omega, by omega, le_max_right _ _, hNk.1, not_lt.mp hle, hNk.2.2, hreal⟩

/-- The hypotheses are met by an ordinary 4 × 5 image. -/
example : CenteredAtOrigin ⟨-2, -2, 4, 5, true, true, true⟩ ∧ imageN ⟨-2, -2, 4, 5, true, true, true⟩ = 5 := by
  refine ⟨⟨rfl, by norm_num, by norm_num⟩, rfl⟩

/-- Disagreement: for an image not centred at the origin (`drawFFT` called directly) the size check allows a pixel at
`+N/2`, outside of the real-space grid: the single pixel (4, 4) asks for 8 pixels, but the grid `-4..3` does not
contain it. -/
theorem C32_offcentre_counterexample :
    imageN ⟨4, 4, 1, 1, true, true, true⟩ = 8 ∧ goodFftSize 8 = some 8 ∧
      (realBounds 8).includesP clsI ⟨4, 4⟩ = false := by
  refine ⟨rfl, ?_, rfl⟩
  obtain ⟨m, e, h1, h2, h3⟩ := C32_good_fft_size 8 (by norm_num)
  have hle : m ≤ 8 := h3 8 ⟨2, Or.inl (by norm_num)⟩ (by norm_num)
  have hge : (7 : ℝ) < m := by norm_num at h2; linarith
  have hge : (7 : ℤ) < m := by exact_mod_cast hge
  rw [e]; congr 1; omega

/-- Disagreement: with `maximum_fft_size = minimum_fft_size` the size of the image is never checked: an image of 6 × 6
pixels is drawn on a grid of size 4. -/
theorem C32_fixed_size_counterexample (stepk maxk scale : ℝ) :
    ∃ dk, makeKSizes 4 4 stepk maxk scale ⟨-3, -3, 6, 6, true, true, true⟩ = some (4, 4, dk) ∧
      (realBounds 4).includesP clsI ⟨-3, -3⟩ = false := ⟨_, by simp [makeKSizes]; rfl, rfl⟩

/-- Disagreement: an odd `minimum_fft_size` is used unchanged, so the grid size is odd. -/
theorem C32_odd_minimum_counterexample :
    ∃ dk, makeKSizes 129 8192 (2 * Real.pi / 4) 0 1 ⟨-2, -2, 4, 4, true, true, true⟩ = some (129, 129, dk) := by
  have hg : goodImageSize (2 * Real.pi / 4) 1 = 4 := by
    unfold goodImageSize
    have hpi := Real.pi_pos
    have : 2 * Real.pi / (1 * (2 * Real.pi / 4)) = 4 := by field_simp
    simp only
    rw [this]
    have h : ⌈(4 : ℝ) * (1 - 1 / 10 ^ 12)⌉ = 4 := by rw [Int.ceil_eq_iff]; norm_num
    rw [h]; norm_num
  have hi : imageN ⟨-2, -2, 4, 4, true, true, true⟩ = 4 := rfl
  obtain ⟨m, e, h1, h2, h3⟩ := C32_good_fft_size 4 (by norm_num)
  have hle : m ≤ 4 := h3 4 ⟨1, Or.inl (by norm_num)⟩ (by norm_num)
  have hpi := Real.pi_pos
  have hmx : max m 129 = 129 := by omega
  have hp : (0 : ℝ) < ((129 : ℤ) : ℝ) * (2 * Real.pi / (((129 : ℤ) : ℝ) * 1)) / 2 := by positivity
  refine ⟨2 * Real.pi / (((129 : ℤ) : ℝ) * 1), ?_⟩
  unfold makeKSizes
  rw [if_neg (by norm_num), hg, hi]
  simp only [max_self, e, Option.bind_eq_bind, Option.bind_some, hmx]
  rw [if_pos hp]
  norm_num

/-- C32: for an even grid size `2 m` the k image holds the frequencies `0 ≤ kx ≤ m`, `-m ≤ ky ≤ m`, and the real
image the pixels `-m ≤ x, y < m`. -/
theorem C32_grid_shape (m : ℤ) (hm : 0 < m) (x y : ℤ) :
    ((kBounds (2 * m)).defined = true ∧ (realBounds (2 * m)).defined = true) ∧
    (inRect (kBounds (2 * m)) x y ↔ 0 ≤ x ∧ x ≤ m ∧ -m ≤ y ∧ y ≤ m) ∧
    (inRect (realBounds (2 * m)) x y ↔ -m ≤ x ∧ x < m ∧ -m ≤ y ∧ y < m) := by
  have e1 : 2 * m / 2 = m := by omega
  have e2 : -(2 * m) / 2 = -m := by omega
  simp only [kBounds, realBounds, Bounds.mkDelta, Bounds.finish, inRect, e1, e2, clsI]
  refine ⟨?_, ?_, ?_⟩
  · simp; omega
  · constructor <;> intro h <;> omega
  · constructor <;> intro h <;> omega

example : (0 : ℤ) < 64 := by norm_num

end JG
