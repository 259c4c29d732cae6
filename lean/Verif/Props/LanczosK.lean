import Verif.Model.LanczosK
import Verif.Lemmas.LanczosSum
import Verif.Props.Interpolant
import Verif.Props.AkimaError
import Verif.Props.BesselSi
import Mathlib.Analysis.Calculus.ParametricIntervalIntegral

/-! # C98: the Lanczos kernel in Fourier space

The Fourier transform is an integral over the support of the kernel, written with Mathlib's interval integral. -/

namespace JG.Interp
open Real (cos sin)
open scoped Real
open Set Filter Topology intervalIntegral
open JG.Si (sineIntegral sinInt sineIntegral_eq)
open JG.Lz (ySi shape)

/-- Specification: the Fourier transform at `u` cycles per pixel of an even function `g` that vanishes outside `[-n, n]`. -/
noncomputable def transform (g : ℝ → ℝ) (n : ℕ) (u : ℝ) : ℝ := ∫ x in (-(n : ℝ))..n, g x * cos (2 * π * u * x)

/-- Specification: the cosine series with coefficients `C`. -/
noncomputable def cosSeries (C : ℕ → ℝ) (x : ℝ) : ℝ := C 0 + 2 * ∑ k ∈ Finset.range 5, C (k + 1) * cos (2 * π * (k + 1) * x)

theorem sinc_real (x : ℝ) : sinc x = Real.sinc (π * x) := by
  rcases eq_or_ne x 0 with h | h
  · rw [h, sinc_zero, mul_zero, Real.sinc_zero]
  · rw [sinc, if_neg h, Real.sinc_of_ne_zero (mul_ne_zero Real.pi_ne_zero h)]

theorem sinc_continuous : Continuous sinc := by
  have : sinc = fun x => Real.sinc (π * x) := funext sinc_real
  rw [this]
  have := Real.continuous_sinc
  fun_prop

theorem sinc_le (x : ℝ) : |sinc x| ≤ 1 := by rw [sinc_real]; exact Real.abs_sinc_le_one _

/-- The plain Lanczos kernel on its closed support. -/
theorem plain_eq (K : ℕ → ℕ → ℝ) {n : ℕ} (hn : 1 ≤ n) {x : ℝ} (hx : |x| ≤ n) :
    (Kernel.lanczos n false).xval K x = sinc x * sinc (x / n) := by
  rcases hx.lt_or_eq with h | h
  · rw [C53_lanczos K n hn false x h]; simp
  · rw [Kernel.xval, lanczosXval, if_neg (by rw [h]; exact lt_irrefl _)]
    have h0 : ((n : ℤ)) ≠ 0 := by omega
    have h1 : sinc x = 0 := by
      have := sinc_int h0
      push_cast at this
      rw [← sinc_abs, h, this]
    rw [h1, zero_mul]

theorem dc_eq (K : ℕ → ℕ → ℝ) {n : ℕ} (hn : 1 ≤ n) {x : ℝ} (hx : |x| ≤ n) :
    (Kernel.lanczos n true).xval K x = sinc x * sinc (x / n) / dcSeries (K n) x := by
  rcases hx.lt_or_eq with h | h
  · rw [C53_lanczos K n hn true x h]; simp
  · rw [← plain_eq K hn hx, Kernel.xval, Kernel.xval, lanczosXval, lanczosXval, if_neg (by rw [h]; exact lt_irrefl _),
      if_neg (by rw [h]; exact lt_irrefl _), zero_div]

theorem abs_le_of_uIcc {n : ℕ} {x : ℝ} (hx : x ∈ uIcc (-(n : ℝ)) n) : |x| ≤ n := by
  rw [uIcc_of_le (by have : (0 : ℝ) ≤ n := Nat.cast_nonneg n; linarith)] at hx
  exact abs_le.mpr hx

theorem transform_congr {g h : ℝ → ℝ} {n : ℕ} (e : ∀ x : ℝ, |x| ≤ n → g x = h x) (u : ℝ) : transform g n u = transform h n u := by
  refine integral_congr fun x hx => ?_
  simp only [e x (abs_le_of_uIcc hx)]

theorem raw_ySi (u : ℝ) (n : ℕ) : gsRawUval sineIntegral u n =
    (ySi (π * (n * (2 * u - 1) - 1)) - ySi (π * (n * (2 * u - 1) + 1)) - ySi (π * (n * (2 * u + 1) - 1))
      + ySi (π * (n * (2 * u + 1) + 1))) / (2 * π ^ 2) := by
  have := Real.pi_ne_zero
  simp only [gsRawUval, ySi, sineIntegral_eq]
  field_simp

theorem raw_trans {n : ℕ} (hn : 1 ≤ n) (u : ℝ) : gsRawUval sineIntegral u n = Lz.trans n u := by
  rw [Lz.trans, Lz.kernel_integral n hn, raw_ySi]

/-- C98: the formula with sine integrals is the Fourier transform of the Lanczos kernel without `conserve_dc`. -/
theorem C98_raw (K : ℕ → ℕ → ℝ) (n : ℕ) (hn : 1 ≤ n) (u : ℝ) :
    gsRawUval sineIntegral u n = transform ((Kernel.lanczos n false).xval K) n u := by
  rw [raw_trans hn, transform_congr (fun x hx => plain_eq K hn hx), Lz.trans, transform]
  simp only [sinc_real]

example (K : ℕ → ℕ → ℝ) : gsRawUval sineIntegral (1 / 2) 5 = transform ((Kernel.lanczos 5 false).xval K) 5 (1 / 2) :=
  C98_raw K 5 (by norm_num) _

/-- C98: an error in the sine integral has a bounded effect on the formula. -/
theorem C98_raw_error (K : ℕ → ℕ → ℝ) (si : ℝ → ℝ) (e : ℝ) (hsi : ∀ y, |si y - sineIntegral y| ≤ e) (n : ℕ) (hn : 1 ≤ n) (u : ℝ) :
    |gsRawUval si u n - transform ((Kernel.lanczos n false).xval K) n u| ≤ e * (4 * n * |u| + 2 * n + 2) / π := by
  rw [← C98_raw K n hn]
  have hp := Real.pi_pos
  have hn' : (0 : ℝ) ≤ n := Nat.cast_nonneg n
  have he : 0 ≤ e := (abs_nonneg _).trans (hsi 0)
  have b : ∀ s1 s2 : ℝ, |s1| ≤ 1 → |s2| ≤ 1 → |n * (2 * u + s1) + s2| ≤ 2 * n * |u| + n + 1 := by
    intro s1 s2 h1 h2
    rw [show (n : ℝ) * (2 * u + s1) + s2 = 2 * n * u + n * s1 + s2 by ring]
    refine (abs_add_three _ _ _).trans ?_
    rw [abs_mul, abs_mul (n : ℝ) s1, abs_of_nonneg hn', abs_of_nonneg (by positivity : (0 : ℝ) ≤ 2 * n)]
    have : n * |s1| ≤ n * 1 := by gcongr
    linarith
  have t : ∀ v, |v| ≤ 2 * n * |u| + n + 1 → |v * (si (π * v) - sineIntegral (π * v))| ≤ e * (2 * n * |u| + n + 1) := by
    intro v hv
    rw [abs_mul, mul_comm e]
    gcongr
    exact hsi _
  have t1 := t (n * (2 * u - 1) - 1) (by simpa [sub_eq_add_neg] using b (-1) (-1) (by norm_num) (by norm_num))
  have t2 := t (n * (2 * u - 1) + 1) (by simpa [sub_eq_add_neg] using b (-1) 1 (by norm_num) (by norm_num))
  have t3 := t (n * (2 * u + 1) - 1) (by simpa [sub_eq_add_neg] using b 1 (-1) (by norm_num) (by norm_num))
  have t4 := t (n * (2 * u + 1) + 1) (by simpa using b 1 1 (by norm_num) (by norm_num))
  simp only [gsRawUval]
  rw [← sub_div, abs_div, abs_of_pos (show 0 < 2 * π by positivity), div_le_div_iff₀ (by positivity) hp]
  rw [abs_le] at t1 t2 t3 t4
  have key : |((n : ℝ) * (2 * u - 1) - 1) * si (π * (n * (2 * u - 1) - 1)) - (n * (2 * u - 1) + 1) * si (π * (n * (2 * u - 1) + 1))
      - (n * (2 * u + 1) - 1) * si (π * (n * (2 * u + 1) - 1)) + (n * (2 * u + 1) + 1) * si (π * (n * (2 * u + 1) + 1))
      - ((n * (2 * u - 1) - 1) * sineIntegral (π * (n * (2 * u - 1) - 1)) - (n * (2 * u - 1) + 1) * sineIntegral (π * (n * (2 * u - 1) + 1))
      - (n * (2 * u + 1) - 1) * sineIntegral (π * (n * (2 * u + 1) - 1)) + (n * (2 * u + 1) + 1) * sineIntegral (π * (n * (2 * u + 1) + 1)))|
      ≤ 4 * (e * (2 * n * |u| + n + 1)) := by
    rw [abs_le]
    constructor <;> linarith [t1.1, t1.2, t2.1, t2.2, t3.1, t3.2, t4.1, t4.2]
  calc _ ≤ 4 * (e * (2 * n * |u| + n + 1)) * π := by gcongr
    _ = _ := by ring

/-- With the sine integral of `bessel.py` the formula for `Lanczos(5)` is right to `1e-12` at frequencies below 5. -/
example (K : ℕ → ℕ → ℝ) (u : ℝ) (hu : |u| ≤ 5) :
    |gsRawUval JG.Si.si u 5 - transform ((Kernel.lanczos 5 false).xval K) 5 u| ≤ 1e-12 := by
  refine (C98_raw_error K JG.Si.si _ JG.Si.C94_accuracy 5 (by norm_num) u).trans ?_
  rw [div_le_iff₀ Real.pi_pos]
  have := Real.pi_gt_three
  norm_num
  nlinarith

theorem plain_continuous (n : ℕ) : Continuous fun x : ℝ => sinc x * sinc (x / n) := by
  have := sinc_continuous
  fun_prop

theorem raw_shift {n : ℕ} (hn : 1 ≤ n) (u j : ℝ) : gsRawUval sineIntegral (u + j) n + gsRawUval sineIntegral (u - j) n =
    transform (fun x => sinc x * sinc (x / n) * (2 * cos (2 * π * j * x))) n u := by
  have hc := plain_continuous n
  rw [raw_trans hn, raw_trans hn, Lz.trans, Lz.trans, ← integral_add, transform]
  · refine integral_congr fun x _ => ?_
    simp only [sinc_real]
    rw [show 2 * π * (u + j) * x = 2 * π * u * x + 2 * π * j * x by ring,
      show 2 * π * (u - j) * x = 2 * π * u * x - 2 * π * j * x by ring, Real.cos_add, Real.cos_sub]
    ring
  · have := Real.continuous_sinc
    exact (by fun_prop : Continuous fun x : ℝ => Real.sinc (π * x) * Real.sinc (π * (x / n)) * cos (2 * π * (u + j) * x)).intervalIntegrable _ _
  · have := Real.continuous_sinc
    exact (by fun_prop : Continuous fun x : ℝ => Real.sinc (π * x) * Real.sinc (π * (x / n)) * cos (2 * π * (u - j) * x)).intervalIntegrable _ _

theorem transform_add {g h : ℝ → ℝ} (hg : Continuous g) (hh : Continuous h) (n : ℕ) (u : ℝ) :
    transform (fun x => g x + h x) n u = transform g n u + transform h n u := by
  rw [transform, transform, transform, ← integral_add]
  · refine integral_congr fun x _ => ?_
    ring
  · exact (by fun_prop : Continuous fun x => g x * cos (2 * π * u * x)).intervalIntegrable _ _
  · exact (by fun_prop : Continuous fun x => h x * cos (2 * π * u * x)).intervalIntegrable _ _

theorem transform_mul (c : ℝ) (g : ℝ → ℝ) (n : ℕ) (u : ℝ) : transform (fun x => c * g x) n u = c * transform g n u := by
  rw [transform, transform, ← integral_const_mul]
  refine integral_congr fun x _ => ?_
  ring

/-- C98: with `conserve_dc` the value is the Fourier transform of the plain kernel times the cosine series with the
coefficients `C`. -/
theorem C98_weighted (K : ℕ → ℕ → ℝ) (C : ℕ → ℝ) (n : ℕ) (hn : 1 ≤ n) (u : ℝ) :
    gsUval sineIntegral C u n true = transform (fun x => (Kernel.lanczos n false).xval K x * cosSeries C x) n u := by
  have hc := plain_continuous n
  obtain ⟨L, hL⟩ : ∃ L : ℝ → ℝ, L = fun x => sinc x * sinc (x / n) := ⟨_, rfl⟩
  have hLc : Continuous L := by rw [hL]; exact hc
  have s : ∀ j, gsRawUval sineIntegral (u + j) n + gsRawUval sineIntegral (u - j) n = transform (fun x => L x * (2 * cos (2 * π * j * x))) n u := by
    intro j; rw [raw_shift hn, hL]
  have s0 : gsRawUval sineIntegral u n = transform L n u := by
    rw [C98_raw K n hn, transform_congr (fun x hx => plain_eq K hn hx), hL]
  rw [transform_congr (h := fun x => (((((C 0 * L x + C 1 * (L x * (2 * cos (2 * π * 1 * x)))) + C 2 * (L x * (2 * cos (2 * π * 2 * x))))
    + C 3 * (L x * (2 * cos (2 * π * 3 * x)))) + C 4 * (L x * (2 * cos (2 * π * 4 * x)))) + C 5 * (L x * (2 * cos (2 * π * 5 * x)))))]
  · rw [transform_add (by fun_prop) (by fun_prop), transform_add (by fun_prop) (by fun_prop), transform_add (by fun_prop) (by fun_prop),
      transform_add (by fun_prop) (by fun_prop), transform_add (by fun_prop) (by fun_prop)]
    simp only [transform_mul, ← s, ← s0]
    simp only [gsUval, if_true]
    ring
  · intro x hx
    rw [plain_eq K hn hx, hL, cosSeries]
    simp only [Finset.sum_range_succ, Finset.sum_range_zero]
    push_cast
    rw [show (0 : ℝ) + 1 = 1 by norm_num, show (1 : ℝ) + 1 = 2 by norm_num, show (2 : ℝ) + 1 = 3 by norm_num,
      show (3 : ℝ) + 1 = 4 by norm_num, show (4 : ℝ) + 1 = 5 by norm_num]
    ring

example (K : ℕ → ℕ → ℝ) (C : ℕ → ℝ) : gsUval sineIntegral C 0.3 5 true =
    transform (fun x => (Kernel.lanczos 5 false).xval K x * cosSeries C x) 5 0.3 := C98_weighted K C 5 (by norm_num) _

/-! ### The coefficients for `conserve_dc` -/

/-- The absolute size of the five numbers `K`. -/
noncomputable def sizeK (K : ℕ → ℝ) : ℝ := |K 1| + |K 2| + |K 3| + |K 4| + |K 5|

theorem dcSeries_eq (K : ℕ → ℝ) (x : ℝ) : dcSeries K x = 1 - 2 * (K 1 * (1 - cos (2 * π * 1 * x)) + K 2 * (1 - cos (2 * π * 2 * x))
    + K 3 * (1 - cos (2 * π * 3 * x)) + K 4 * (1 - cos (2 * π * 4 * x)) + K 5 * (1 - cos (2 * π * 5 * x))) := by
  rw [dcSeries]
  simp only [Finset.sum_range_succ, Finset.sum_range_zero]
  push_cast
  rw [show (0 : ℝ) + 1 = 1 by norm_num, show (1 : ℝ) + 1 = 2 by norm_num, show (2 : ℝ) + 1 = 3 by norm_num,
    show (3 : ℝ) + 1 = 4 by norm_num, show (4 : ℝ) + 1 = 5 by norm_num]
  ring

theorem cosSeries_eq (C : ℕ → ℝ) (x : ℝ) : cosSeries C x = C 0 + 2 * (C 1 * cos (2 * π * 1 * x) + C 2 * cos (2 * π * 2 * x)
    + C 3 * cos (2 * π * 3 * x) + C 4 * cos (2 * π * 4 * x) + C 5 * cos (2 * π * 5 * x)) := by
  rw [cosSeries]
  simp only [Finset.sum_range_succ, Finset.sum_range_zero]
  push_cast
  rw [show (0 : ℝ) + 1 = 1 by norm_num, show (1 : ℝ) + 1 = 2 by norm_num, show (2 : ℝ) + 1 = 3 by norm_num,
    show (3 : ℝ) + 1 = 4 by norm_num, show (4 : ℝ) + 1 = 5 by norm_num]
  ring

theorem one_sub_cos_mul (K t : ℝ) : |K * (1 - cos t)| ≤ 2 * |K| := by
  rw [abs_mul, mul_comm]
  gcongr
  rw [abs_le]
  constructor <;> linarith [Real.neg_one_le_cos t, Real.cos_le_one t]

theorem dcSeries_ge (K : ℕ → ℝ) (x : ℝ) : |dcSeries K x - 1| ≤ 4 * sizeK K := by
  rw [dcSeries_eq, sizeK]
  have h1 := abs_le.mp (one_sub_cos_mul (K 1) (2 * π * 1 * x))
  have h2 := abs_le.mp (one_sub_cos_mul (K 2) (2 * π * 2 * x))
  have h3 := abs_le.mp (one_sub_cos_mul (K 3) (2 * π * 3 * x))
  have h4 := abs_le.mp (one_sub_cos_mul (K 4) (2 * π * 4 * x))
  have h5 := abs_le.mp (one_sub_cos_mul (K 5) (2 * π * 5 * x))
  rw [abs_le]
  constructor <;> linarith [h1.1, h1.2, h2.1, h2.2, h3.1, h3.2, h4.1, h4.2, h5.1, h5.2]

/-- C98: the cosine series with the coefficients `C` is the reciprocal of the divisor with the coefficients `K`, up to
terms of second order in `K`. -/
theorem C98_reciprocal (K : ℕ → ℝ) (x : ℝ) :
    |cosSeries (lanczosC K) x * dcSeries K x - 1| ≤ 34 * sizeK K ^ 2 + 72 * sizeK K ^ 3 := by
  obtain ⟨D, hD⟩ : ∃ D, D = 1 - dcSeries K x := ⟨_, rfl⟩
  obtain ⟨κ, hκ⟩ : ∃ κ, κ = sizeK K := ⟨_, rfl⟩
  have hD4 : |D| ≤ 4 * κ := by rw [hD, abs_sub_comm, hκ]; exact dcSeries_ge K x
  have hκ0 : 0 ≤ κ := by rw [hκ, sizeK]; positivity
  obtain ⟨t1, e1⟩ : ∃ t, t = cos (2 * π * 1 * x) := ⟨_, rfl⟩
  obtain ⟨t2, e2⟩ : ∃ t, t = cos (2 * π * 2 * x) := ⟨_, rfl⟩
  obtain ⟨t3, e3⟩ : ∃ t, t = cos (2 * π * 3 * x) := ⟨_, rfl⟩
  obtain ⟨t4, e4⟩ : ∃ t, t = cos (2 * π * 4 * x) := ⟨_, rfl⟩
  obtain ⟨t5, e5⟩ : ∃ t, t = cos (2 * π * 5 * x) := ⟨_, rfl⟩
  have b1 : |t1| ≤ 1 := by rw [e1]; exact Real.abs_cos_le_one _
  have b2 : |t2| ≤ 1 := by rw [e2]; exact Real.abs_cos_le_one _
  have b3 : |t3| ≤ 1 := by rw [e3]; exact Real.abs_cos_le_one _
  have b4 : |t4| ≤ 1 := by rw [e4]; exact Real.abs_cos_le_one _
  have hDe := dcSeries_eq K x
  have hC := cosSeries_eq (lanczosC K) x
  rw [← e1, ← e2, ← e3, ← e4, ← e5] at hDe hC
  obtain ⟨Q, hQ⟩ : ∃ Q, Q = K 1 * K 1 * (6 - 8 * t1 + 2 * t2 + 2 * t3) + K 1 * K 2 * (2 - 2 * t1 - 4 * t2)
    + K 1 * K 3 * (2 - 4 * t1 + 2 * t2 - 4 * t3 + 2 * t4) := ⟨_, rfl⟩
  have hw : cosSeries (lanczosC K) x = 1 + D + Q := by
    rw [hC, hD, hDe, hQ]
    simp only [lanczosC]
    ring
  have k1 : |K 1| ≤ κ := by rw [hκ, sizeK]; linarith [abs_nonneg (K 2), abs_nonneg (K 3), abs_nonneg (K 4), abs_nonneg (K 5)]
  have a0 := abs_le.mp b1
  have a1 := abs_le.mp b2
  have a2 := abs_le.mp b3
  have a3 := abs_le.mp b4
  have q1 : |6 - 8 * t1 + 2 * t2 + 2 * t3| ≤ 18 := by rw [abs_le]; constructor <;> linarith [a0.1, a0.2, a1.1, a1.2, a2.1, a2.2]
  have q2 : |2 - 2 * t1 - 4 * t2| ≤ 18 := by rw [abs_le]; constructor <;> linarith [a0.1, a0.2, a1.1, a1.2, a2.1, a2.2]
  have q3 : |2 - 4 * t1 + 2 * t2 - 4 * t3 + 2 * t4| ≤ 18 := by
    rw [abs_le]; constructor <;> linarith [a0.1, a0.2, a1.1, a1.2, a2.1, a2.2, a3.1, a3.2]
  have hQ18 : |Q| ≤ 18 * κ ^ 2 := by
    rw [hQ]
    refine (abs_add_three _ _ _).trans ?_
    rw [abs_mul, abs_mul, abs_mul, abs_mul, abs_mul, abs_mul]
    have s : |K 1| * |K 1| * |6 - 8 * t1 + 2 * t2 + 2 * t3| + |K 1| * |K 2| * |2 - 2 * t1 - 4 * t2|
        + |K 1| * |K 3| * |2 - 4 * t1 + 2 * t2 - 4 * t3 + 2 * t4| ≤ |K 1| * |K 1| * 18 + |K 1| * |K 2| * 18 + |K 1| * |K 3| * 18 := by
      gcongr
    refine s.trans ?_
    have s2 : |K 1| + |K 2| + |K 3| ≤ κ := by rw [hκ, sizeK]; linarith [abs_nonneg (K 4), abs_nonneg (K 5)]
    calc |K 1| * |K 1| * 18 + |K 1| * |K 2| * 18 + |K 1| * |K 3| * 18 = 18 * (|K 1| * (|K 1| + |K 2| + |K 3|)) := by ring
      _ ≤ 18 * (κ * κ) := by gcongr
      _ = _ := by ring
  have hs : dcSeries K x = 1 - D := by rw [hD]; ring
  rw [hw, hs, ← hκ, show (1 + D + Q) * (1 - D) - 1 = Q * (1 - D) - D * D by ring]
  refine (abs_sub _ _).trans ?_
  rw [abs_mul, abs_mul]
  have h1D : |1 - D| ≤ 1 + 4 * κ := (abs_sub _ _).trans (by rw [abs_one]; linarith)
  calc |Q| * |1 - D| + |D| * |D| ≤ 18 * κ ^ 2 * (1 + 4 * κ) + 4 * κ * (4 * κ) := by gcongr
    _ = _ := by ring

/-- C98: at the centre the series is `1 + 2 K₁ (K₁ - 2 K₂ - K₃)`, where the divisor is 1. -/
theorem C98_centre (K : ℕ → ℝ) :
    dcSeries K 0 = 1 ∧ cosSeries (lanczosC K) 0 = 1 + 2 * K 1 * (K 1 - 2 * K 2 - K 3) := by
  rw [dcSeries_eq, cosSeries_eq]
  simp only [mul_zero, Real.cos_zero, lanczosC]
  constructor <;> ring

example : |cosSeries (lanczosC fun j => if j = 1 then 0.001 else 0) 0.3 * dcSeries (fun j => if j = 1 then 0.001 else 0) 0.3 - 1| ≤ 4e-5 := by
  refine (C98_reciprocal _ _).trans ?_
  norm_num [sizeK]

theorem lanczosK_trans {n : ℕ} (hn : 1 ≤ n) (j : ℕ) (hj : 1 ≤ j) : lanczosK sineIntegral n j = Lz.trans n j := by
  obtain ⟨i, rfl⟩ : ∃ i, j = i + 1 := ⟨j - 1, by omega⟩
  rw [lanczosK, raw_trans hn]
  push_cast
  rfl

/-- C98: the numbers `K` are small. -/
theorem C98_small (n : ℕ) (hn : 2 ≤ n) : sizeK (lanczosK sineIntegral n) ≤ 1 / 22 / (n - 1) ^ 3 := by
  have hn' : (2 : ℝ) ≤ n := by exact_mod_cast hn
  have hp : 0 < (n : ℝ) - 1 := by linarith
  have hpi : (97 : ℝ) ≤ π ^ 4 := by
    have : (3.1415 : ℝ) ^ 4 ≤ π ^ 4 := pow_le_pow_left₀ (by norm_num) Real.pi_gt_d4.le 4
    refine le_trans (by norm_num) this
  have hA : 4 / π ^ 4 / ((n : ℝ) - 1) ^ 3 ≤ 4 / 97 / ((n : ℝ) - 1) ^ 3 := by gcongr
  have b : ∀ m : ℕ, 1 ≤ m → |lanczosK sineIntegral n m| ≤ 4 / 97 / ((n : ℝ) - 1) ^ 3 * (1 / (2 * m + 1) ^ 3 + 1 / (2 * m - 1) ^ 3) := by
    intro m hm
    rw [lanczosK_trans (by omega) m hm]
    refine (Lz.trans_int hn hm).trans ?_
    have hm' : (1 : ℝ) ≤ m := by exact_mod_cast hm
    have : 0 < 2 * (m : ℝ) - 1 := by linarith
    gcongr
  have b1 := b 1 (by norm_num)
  have b2 := b 2 (by norm_num)
  have b3 := b 3 (by norm_num)
  have b4 := b 4 (by norm_num)
  have b5 := b 5 (by norm_num)
  rw [sizeK]
  obtain ⟨A, hAe⟩ : ∃ A, A = 1 / ((n : ℝ) - 1) ^ 3 := ⟨_, rfl⟩
  have hA0 : 0 < A := by rw [hAe]; positivity
  rw [show 4 / 97 / ((n : ℝ) - 1) ^ 3 = 4 / 97 * A by rw [hAe]; ring] at b1 b2 b3 b4 b5
  rw [show 1 / 22 / ((n : ℝ) - 1) ^ 3 = 1 / 22 * A by rw [hAe]; ring]
  norm_num at b1 b2 b3 b4 b5
  linarith

example : sizeK (lanczosK sineIntegral 5) ≤ 1e-3 := (C98_small 5 (by norm_num)).trans (by norm_num)

theorem dcSeries_continuous (K : ℕ → ℝ) : Continuous (dcSeries K) := by
  unfold dcSeries
  fun_prop

theorem cosSeries_continuous (C : ℕ → ℝ) : Continuous (cosSeries C) := by
  unfold cosSeries
  fun_prop

theorem transform_close {g h : ℝ → ℝ} (hg : Continuous g) (hh : Continuous h) {n : ℕ} {B : ℝ} (e : ∀ x : ℝ, |g x - h x| ≤ B) (u : ℝ) :
    |transform g n u - transform h n u| ≤ 2 * n * B := by
  rw [transform, transform, ← integral_sub ((by fun_prop : Continuous fun x => g x * cos (2 * π * u * x)).intervalIntegrable _ _)
    ((by fun_prop : Continuous fun x => h x * cos (2 * π * u * x)).intervalIntegrable _ _), ← Real.norm_eq_abs]
  have hn : (0 : ℝ) ≤ n := Nat.cast_nonneg n
  refine (norm_integral_le_of_norm_le_const (C := B) fun x _ => ?_).trans (le_of_eq ?_)
  · rw [← sub_mul, norm_mul, Real.norm_eq_abs, Real.norm_eq_abs]
    exact (mul_le_of_le_one_right (abs_nonneg _) (Real.abs_cos_le_one _)).trans (e x)
  · rw [show (n : ℝ) - -n = 2 * n by ring, abs_of_nonneg (by positivity)]
    ring

/-- C98: with `conserve_dc`, the value in Fourier space is the transform of the kernel used in real space up to terms of
second order in `K`. -/
theorem C98_dc (K : ℕ → ℕ → ℝ) (n : ℕ) (hn : 1 ≤ n) (κ : ℝ) (hκ : sizeK (K n) ≤ κ) (h4 : 4 * κ < 1) (u : ℝ) :
    |gsUval sineIntegral (lanczosC (K n)) u n true - transform ((Kernel.lanczos n true).xval K) n u| ≤
      2 * n * ((34 * κ ^ 2 + 72 * κ ^ 3) / (1 - 4 * κ)) := by
  have hs0 : 0 ≤ sizeK (K n) := by rw [sizeK]; positivity
  have pos : ∀ x, 1 - 4 * κ ≤ dcSeries (K n) x := by
    intro x
    have := (abs_le.mp (dcSeries_ge (K n) x)).1
    linarith
  have pos' : ∀ x, 0 < dcSeries (K n) x := fun x => lt_of_lt_of_le (by linarith) (pos x)
  have hc := plain_continuous n
  have hd := dcSeries_continuous (K n)
  have hcs := cosSeries_continuous (lanczosC (K n))
  rw [C98_weighted K _ n hn, transform_congr (h := fun x => sinc x * sinc (x / n) * cosSeries (lanczosC (K n)) x)
    (fun x hx => by rw [plain_eq K hn hx]), transform_congr (g := (Kernel.lanczos n true).xval K) (fun x hx => dc_eq K hn hx)]
  refine transform_close (hc.mul hcs) (hc.div hd fun x => (pos' x).ne') (fun x => ?_) u
  have e : sinc x * sinc (x / n) * cosSeries (lanczosC (K n)) x - sinc x * sinc (x / n) / dcSeries (K n) x =
      sinc x * sinc (x / n) * ((cosSeries (lanczosC (K n)) x * dcSeries (K n) x - 1) / dcSeries (K n) x) := by
    have := (pos' x).ne'
    field_simp
  show |sinc x * sinc (x / n) * cosSeries (lanczosC (K n)) x - sinc x * sinc (x / n) / dcSeries (K n) x| ≤ _
  rw [e, abs_mul, abs_mul, abs_div, abs_of_pos (pos' x)]
  have r := C98_reciprocal (K n) x
  have h1 := sinc_le x
  have h2 := sinc_le (x / n)
  have h3 : |sinc x| * |sinc (x / n)| ≤ 1 := mul_le_one₀ h1 (abs_nonneg _) h2
  have hp : 0 < 1 - 4 * κ := by linarith
  have r' : |cosSeries (lanczosC (K n)) x * dcSeries (K n) x - 1| ≤ 34 * κ ^ 2 + 72 * κ ^ 3 := by
    refine r.trans ?_
    gcongr
  calc _ ≤ 1 * ((34 * κ ^ 2 + 72 * κ ^ 3) / (1 - 4 * κ)) := by
        refine mul_le_mul h3 ?_ (div_nonneg (abs_nonneg _) (pos' x).le) zero_le_one
        have := pos x
        have := (abs_nonneg _).trans r'
        gcongr
    _ = _ := one_mul _

/-- For `Lanczos(5)` the two differ by less than `3e-4`. -/
example (K : ℕ → ℕ → ℝ) (hK : K 5 = lanczosK sineIntegral 5) (u : ℝ) :
    |gsUval sineIntegral (lanczosC (K 5)) u 5 true - transform ((Kernel.lanczos 5 true).xval K) 5 u| ≤ 3e-4 := by
  have h := C98_small 5 (by norm_num)
  rw [← hK] at h
  refine (C98_dc K 5 (by norm_num) _ h (by norm_num) u).trans ?_
  norm_num

/-! ### Constants are reproduced -/

theorem shape_eq (K : ℕ → ℕ → ℝ) {n : ℕ} (hn : 1 ≤ n) (x : ℝ) : shape n x = (Kernel.lanczos n false).xval K x := by
  rw [shape]
  split_ifs with h
  · rw [plain_eq K hn h, sinc_real, sinc_real]
  · rw [Kernel.xval, lanczosXval, if_neg (fun hc => h hc.le)]

theorem dcSeries_periodic (K : ℕ → ℝ) (x : ℝ) (j : ℤ) : dcSeries K (x + j) = dcSeries K x := by
  unfold dcSeries
  congr 2
  refine Finset.sum_congr rfl fun k _ => ?_
  rw [show 2 * π * (k + 1) * (x + j) = 2 * π * (k + 1) * x + ((k + 1 : ℤ) * j : ℤ) * (2 * π) by push_cast; ring,
    Real.cos_add_int_mul_two_pi]

theorem dcSeries_diff (K L : ℕ → ℝ) {δ : ℝ} (h : ∀ j, 1 ≤ j → j ≤ 5 → |K j - L j| ≤ δ) (x : ℝ) :
    |dcSeries K x - dcSeries L x| ≤ 20 * δ := by
  have e : dcSeries K x - dcSeries L x = dcSeries (fun j => K j - L j) x - 1 := by
    simp only [dcSeries_eq]; ring
  rw [e]
  refine (dcSeries_ge _ x).trans ?_
  rw [sizeK]
  have h1 := h 1 (by norm_num) (by norm_num)
  have h2 := h 2 (by norm_num) (by norm_num)
  have h3 := h 3 (by norm_num) (by norm_num)
  have h4 := h 4 (by norm_num) (by norm_num)
  have h5 := h 5 (by norm_num) (by norm_num)
  linarith

/-- The total weight given to the pixels of a constant image by a kernel, at the position `x`. -/
noncomputable def weightSum (f : ℝ → ℝ) (x : ℝ) : ℝ := ∑' j : ℤ, f (x + j)

/-- C98: without `conserve_dc` the weights add up to the divisor used with `conserve_dc`, to within a small error. -/
theorem C98_divisor (K : ℕ → ℕ → ℝ) (n : ℕ) (hn : 2 ≤ n) (x : ℝ) :
    |weightSum ((Kernel.lanczos n false).xval K) x - dcSeries (lanczosK sineIntegral n) x| ≤ 1 / 1400 / (n - 1) ^ 3 := by
  have h := Lz.shape_sum_close hn x
  rw [weightSum]
  simp only [← shape_eq K (show 1 ≤ n by omega)]
  refine le_trans (le_of_eq ?_) h
  rw [dcSeries]
  congr 4
  refine Finset.sum_congr rfl fun k _ => ?_
  rw [lanczosK_trans (by omega) (k + 1) (by omega)]
  push_cast
  rfl

example (K : ℕ → ℕ → ℝ) (x : ℝ) :
    |weightSum ((Kernel.lanczos 5 false).xval K) x - dcSeries (lanczosK sineIntegral 5) x| ≤ 2e-5 :=
  (C98_divisor K 5 (by norm_num) x).trans (by norm_num)

/-- The kernel with `conserve_dc` is the plain kernel over its periodic divisor. -/
theorem weightSum_dc (K : ℕ → ℕ → ℝ) (n : ℕ) (hn : 1 ≤ n) (x : ℝ) :
    weightSum ((Kernel.lanczos n true).xval K) x = weightSum ((Kernel.lanczos n false).xval K) x / dcSeries (K n) x := by
  rw [weightSum, weightSum, ← tsum_div_const]
  congr 1
  ext j
  rcases le_or_gt (|x + j|) n with h | h
  · rw [plain_eq K hn h, dc_eq K hn h, dcSeries_periodic]
  · rw [Kernel.xval, Kernel.xval, lanczosXval, lanczosXval, if_neg (not_lt.mpr h.le), if_neg (not_lt.mpr h.le), zero_div]

/-- C98: with `conserve_dc` a constant image is reproduced at every position, to within a small error; `e` is the error
of the sine integral with which the numbers `K` were computed. -/
theorem C98_constant (si : ℝ → ℝ) (e : ℝ) (hsi : ∀ y, |si y - sineIntegral y| ≤ e) (n : ℕ) (hn : 2 ≤ n)
    (he : 20 * (e * (22 * n + 2) / π) ≤ 1 / 100) (x : ℝ) :
    |weightSum ((Kernel.lanczos n true).xval (lanczosK si)) x - 1| ≤ 1 / 1100 / (n - 1) ^ 3 + 30 * (e * (22 * n + 2) / π) := by
  have hn1 : 1 ≤ n := by omega
  have hn' : (2 : ℝ) ≤ n := by exact_mod_cast hn
  have e0 : 0 ≤ e := (abs_nonneg _).trans (hsi 0)
  have hp := Real.pi_pos
  obtain ⟨δ, hδ⟩ : ∃ δ, δ = e * (22 * n + 2) / π := ⟨_, rfl⟩
  have hδ0 : 0 ≤ δ := by rw [hδ]; positivity
  rw [← hδ] at he ⊢
  have hK : ∀ j, 1 ≤ j → j ≤ 5 → |lanczosK si n j - lanczosK sineIntegral n j| ≤ δ := by
    intro j h1 h5
    obtain ⟨i, rfl⟩ : ∃ i, j = i + 1 := ⟨j - 1, by omega⟩
    rw [lanczosK, lanczosK, C98_raw (fun _ _ => 0) n hn1, hδ]
    refine (C98_raw_error (fun _ _ => 0) si e hsi n hn1 _).trans ?_
    have : |(i : ℝ) + 1| ≤ 5 := by
      rw [abs_of_nonneg (by positivity)]
      exact_mod_cast h5
    gcongr
    have : (n : ℝ) * |(i : ℝ) + 1| ≤ n * 5 := by gcongr
    linarith
  have d1 := dcSeries_diff _ _ hK x
  have d2 := C98_divisor (lanczosK si) n hn x
  have s := C98_small n hn
  have g := dcSeries_ge (lanczosK sineIntegral n) x
  obtain ⟨A, hA⟩ : ∃ A, A = 1 / ((n : ℝ) - 1) ^ 3 := ⟨_, rfl⟩
  have hA1 : A ≤ 1 := by
    rw [hA, div_le_one (by have : 0 < (n : ℝ) - 1 := by linarith
                           positivity)]
    exact one_le_pow₀ (by linarith)
  have hA0 : 0 ≤ A := by
    have : 0 < (n : ℝ) - 1 := by linarith
    rw [hA]; positivity
  rw [show 1 / 1400 / ((n : ℝ) - 1) ^ 3 = 1 / 1400 * A by rw [hA]; ring] at d2
  rw [show 1 / 22 / ((n : ℝ) - 1) ^ 3 = 1 / 22 * A by rw [hA]; ring] at s
  rw [show 1 / 1100 / ((n : ℝ) - 1) ^ 3 = 1 / 1100 * A by rw [hA]; ring]
  obtain ⟨S, hS⟩ : ∃ S, S = weightSum ((Kernel.lanczos n false).xval (lanczosK si)) x := ⟨_, rfl⟩
  obtain ⟨D, hD⟩ : ∃ D, D = dcSeries (lanczosK si n) x := ⟨_, rfl⟩
  obtain ⟨D', hD'⟩ : ∃ D', D' = dcSeries (lanczosK sineIntegral n) x := ⟨_, rfl⟩
  rw [weightSum_dc (lanczosK si) n hn1, ← hS, ← hD]
  rw [← hS, ← hD'] at d2
  rw [← hD, ← hD'] at d1
  rw [← hD'] at g
  have g1 := (abs_le.mp g).1
  have d1' := (abs_le.mp d1)
  have hDp : 4 / 5 ≤ D := by linarith [d1'.1]
  rw [show S / D - 1 = (S - D) / D by field_simp, abs_div, abs_of_pos (show 0 < D by linarith), div_le_iff₀ (by linarith)]
  have h1 : |S - D| ≤ 1 / 1400 * A + 20 * δ := by
    have := abs_sub_le S D' D
    rw [abs_sub_comm D' D] at this
    linarith
  refine h1.trans ?_
  nlinarith

/-- With the sine integral of `bessel.py`, `Lanczos(5)` reproduces constants to `2e-5` and `Lanczos(30)` to `1e-7`. -/
example (x : ℝ) : |weightSum ((Kernel.lanczos 5 true).xval (lanczosK JG.Si.si)) x - 1| ≤ 2e-5 ∧
    |weightSum ((Kernel.lanczos 30 true).xval (lanczosK JG.Si.si)) x - 1| ≤ 1e-7 := by
  have hp := Real.pi_gt_three
  have q : ∀ c : ℝ, 0 ≤ c → c / π ≤ c / 3 := fun c hc => by gcongr
  constructor
  · refine (C98_constant JG.Si.si _ JG.Si.C94_accuracy 5 (by norm_num) ?_ x).trans ?_
    · have := q (7 / 10 ^ 15 * (22 * (5 : ℕ) + 2)) (by norm_num)
      norm_num at this ⊢
      linarith
    · have := q (7 / 10 ^ 15 * (22 * (5 : ℕ) + 2)) (by norm_num)
      norm_num at this ⊢
      linarith
  · refine (C98_constant JG.Si.si _ JG.Si.C94_accuracy 30 (by norm_num) ?_ x).trans ?_
    · have := q (7 / 10 ^ 15 * (22 * (30 : ℕ) + 2)) (by norm_num)
      norm_num at this ⊢
      linarith
    · have := q (7 / 10 ^ 15 * (22 * (30 : ℕ) + 2)) (by norm_num)
      norm_num at this ⊢
      linarith

/-! ### The largest frequency -/

theorem umaxState_fst (f : ℝ → ℝ) (du kva : ℝ) (i : ℕ) : (umaxState f du kva i).1 = i * du := by
  induction i with
  | zero => simp [umaxState]
  | succ i ih => simp only [umaxState, ih]; push_cast; ring

theorem umaxState_snd (f : ℝ → ℝ) (du kva : ℝ) (i : ℕ) :
    match (umaxState f du kva i).2 with
    | none => ∀ j, j < i → |f (j * du)| ≤ kva
    | some m => ∃ k, k < i ∧ m = k * du ∧ kva < |f (k * du)| ∧ ∀ j, k < j → j < i → |f (j * du)| ≤ kva := by
  induction i with
  | zero => simp [umaxState]
  | succ i ih =>
    simp only [umaxState, umaxState_fst]
    by_cases h : |f (i * du)| > kva
    · rw [if_pos h]
      exact ⟨i, by omega, rfl, h, fun j h1 h2 => by omega⟩
    · rw [if_neg h]
      rw [gt_iff_lt, not_lt] at h
      revert ih
      rcases (umaxState f du kva i).2 with _ | m
      · intro ih j hj
        rcases Nat.lt_succ_iff_lt_or_eq.mp hj with hj | rfl
        · exact ih j hj
        · exact h
      · rintro ⟨k, h1, h2, h3, h4⟩
        refine ⟨k, by omega, h2, h3, fun j hk hj => ?_⟩
        rcases Nat.lt_succ_iff_lt_or_eq.mp hj with hj | rfl
        · exact h4 j hk hj
        · exact h

/-- Specification: what the search returns.  `none`: no frequency below 1.1 on the grid exceeds the accuracy.
`some m`: `m` is a frequency of the grid whose value exceeds the accuracy, and none of the following frequencies of the
grid does, up to 1.1 and up to `m + 1/n`. -/
def UmaxSpec (f : ℝ → ℝ) (du kva : ℝ) (n : ℕ) : Option ℝ → Prop
  | none => ∀ j : ℕ, j * du < 1.1 → |f (j * du)| ≤ kva
  | some m => ∃ k : ℕ, m = k * du ∧ kva < |f m| ∧
      ∀ j : ℕ, k < j → j * du < 1.1 ∨ j * du < m + 1 / n → |f (j * du)| ≤ kva

/-- C98: the search for the largest frequency ends whenever the transform tends to zero, and returns a value that meets
the specification. -/
theorem C98_umax (f : ℝ → ℝ) (hf : Tendsto f atTop (𝓝 0)) (du kva : ℝ) (hdu : 0 < du) (hk : 0 < kva) (n : ℕ) (hn : 1 ≤ n) :
    ∃ r, findUmax f du n kva = some r ∧ UmaxSpec f du kva n r := by
  classical
  have hn' : (0 : ℝ) < n := by exact_mod_cast hn
  have ex : ∃ i, ¬ umaxGoes n (umaxState f du kva i) := by
    have hev : ∀ᶠ t in atTop, |f t| ≤ kva := by
      have := hf.abs
      rw [abs_zero] at this
      exact (this.eventually_lt_const hk).mono fun t ht => ht.le
    obtain ⟨T, hT⟩ := eventually_atTop.mp hev
    obtain ⟨i, hi⟩ := exists_nat_gt ((max T 0 + 1.1 + 1 / n) / du)
    rw [div_lt_iff₀ hdu] at hi
    have hq : 0 < 1 / (n : ℝ) := by positivity
    have hm := le_max_right T 0
    refine ⟨i, ?_⟩
    rintro (⟨m, h1, h2⟩ | h)
    · have s := umaxState_snd f du kva i
      rw [h1] at s
      obtain ⟨k, _, hmk, hgt, _⟩ := s
      rw [umaxState_fst] at h2
      have hmT : m < max T 0 + 1 := by
        by_contra hc
        push Not at hc
        have := hT m (by linarith [le_max_left T 0])
        rw [← hmk] at hgt
        linarith
      rw [show (1.1 : ℝ) = 11 / 10 by norm_num] at hi
      linarith
    · rw [umaxState_fst] at h
      linarith
  refine ⟨(umaxState f du kva (Nat.find ex)).2, by rw [findUmax, dif_pos ex], ?_⟩
  obtain ⟨i, hi⟩ : ∃ i, i = Nat.find ex := ⟨_, rfl⟩
  have stop : ¬ umaxGoes n (umaxState f du kva i) := by rw [hi]; exact Nat.find_spec ex
  rw [← hi]
  have s := umaxState_snd f du kva i
  revert s stop
  have h1 := umaxState_fst f du kva i
  rcases hs : umaxState f du kva i with ⟨a, _ | m⟩
  · rw [hs] at h1
    simp only at h1
    intro stop s j hj
    have : 1.1 ≤ a := by
      by_contra hc
      exact stop (Or.inr (not_le.mp hc))
    refine s j ?_
    have : (j : ℝ) * du < i * du := by linarith
    exact_mod_cast lt_of_mul_lt_mul_right this hdu.le
  · rw [hs] at h1
    simp only at h1
    rintro stop ⟨k, hk1, rfl, hk2, hk3⟩
    have c1 : 1.1 ≤ a := by
      by_contra hc
      exact stop (Or.inr (not_le.mp hc))
    have c2 : 1 / (n : ℝ) ≤ a - k * du := by
      by_contra hc
      exact stop (Or.inl ⟨_, rfl, not_le.mp hc⟩)
    refine ⟨k, rfl, hk2, fun j hkj hj => hk3 j hkj ?_⟩
    have : (j : ℝ) * du < i * du := by
      rcases hj with hj | hj <;> linarith
    exact_mod_cast lt_of_mul_lt_mul_right this hdu.le

/-- The transform tends to zero at high frequency. -/
theorem gsUval_tendsto (C : ℕ → ℝ) (n : ℕ) (hn : 1 ≤ n) (dc : Bool) : Tendsto (fun u => gsUval sineIntegral C u n dc) atTop (𝓝 0) := by
  have base : Tendsto (fun u => gsRawUval sineIntegral u n) atTop (𝓝 0) := by
    simp only [raw_trans hn]
    have z : Tendsto (fun u : ℝ => 4 / u ^ 2) atTop (𝓝 0) := tendsto_const_nhds.div_atTop (tendsto_pow_atTop two_ne_zero)
    refine squeeze_zero_norm' ?_ z
    filter_upwards [eventually_ge_atTop 2] with u hu
    rw [Real.norm_eq_abs]
    exact Lz.trans_decay hn (by rw [abs_of_nonneg (by linarith)]; exact hu)
  have sh : ∀ j : ℝ, Tendsto (fun u => gsRawUval sineIntegral (u + j) n + gsRawUval sineIntegral (u - j) n) atTop (𝓝 0) := by
    intro j
    have a1 := base.comp (tendsto_atTop_add_const_right atTop j tendsto_id)
    have a2 := base.comp (tendsto_atTop_add_const_right atTop (-j) tendsto_id)
    have := a1.add a2
    rw [add_zero] at this
    simpa [Function.comp_def, sub_eq_add_neg] using this
  cases dc
  · simpa [gsUval] using base
  · simp only [gsUval, if_true]
    have := (((((base.mul_const (C 0)).add ((sh 1).const_mul (C 1))).add ((sh 2).const_mul (C 2))).add ((sh 3).const_mul (C 3))).add
      ((sh 4).const_mul (C 4))).add ((sh 5).const_mul (C 5))
    simpa using this

/-- C98: for every Lanczos kernel the search ends. -/
theorem C98_urange (C : ℕ → ℝ) (n : ℕ) (hn : 1 ≤ n) (dc : Bool) (ts kva : ℝ) (hts : 0 < ts) (hk : 0 < kva) :
    ∃ r, findUmax (fun u => gsUval sineIntegral C u n dc) (lanczosDu ts kva n) n kva = some r ∧
      UmaxSpec (fun u => gsUval sineIntegral C u n dc) (lanczosDu ts kva n) kva n r := by
  refine C98_umax _ (gsUval_tendsto C n hn dc) _ _ ?_ hk n hn
  have hn' : (0 : ℝ) < n := by exact_mod_cast hn
  rw [lanczosDu]
  positivity

example : ∃ r, findUmax (fun u => gsUval sineIntegral (lanczosC (lanczosK sineIntegral 5)) u 5 true) (lanczosDu 1 1e-5 5) 5 1e-5 = some r ∧
    UmaxSpec (fun u => gsUval sineIntegral (lanczosC (lanczosK sineIntegral 5)) u 5 true) (lanczosDu 1 1e-5 5) 1e-5 5 r :=
  C98_urange _ 5 (by norm_num) true 1 1e-5 one_pos (by norm_num)

/-! ### The interpolation table -/

/-- A cosine transform over a bounded interval is smooth. -/
theorem cosTransform_smooth {g : ℝ → ℝ} (hg : Continuous g) {n : ℕ} {W : ℝ} (hW : ∀ x, |g x| ≤ W) (a b : ℝ) :
    Smooth (fun k => ∫ x in (-(n : ℝ))..n, g x * cos (k * x)) (fun k => ∫ x in (-(n : ℝ))..n, g x * (-sin (k * x) * x))
      (2 / 3 * n ^ 3 * W) a b := by
  have hn : (0 : ℝ) ≤ n := Nat.cast_nonneg n
  have hW0 : 0 ≤ W := (abs_nonneg _).trans (hW 0)
  have d : ∀ k : ℝ, HasDerivAt (fun k => ∫ x in (-(n : ℝ))..n, g x * cos (k * x)) (∫ x in (-(n : ℝ))..n, g x * (-sin (k * x) * x)) k := by
    intro k
    refine (intervalIntegral.hasDerivAt_integral_of_dominated_loc_of_deriv_le (F := fun k x => g x * cos (k * x))
      (F' := fun k x => g x * (-sin (k * x) * x)) (bound := fun x => W * |x|) (s := univ) univ_mem ?_ ?_ ?_ ?_ ?_ ?_).2
    · exact Eventually.of_forall fun z => (by fun_prop : Continuous fun x => g x * cos (z * x)).aestronglyMeasurable
    · exact (by fun_prop : Continuous fun x => g x * cos (k * x)).intervalIntegrable _ _
    · exact (by fun_prop : Continuous fun x => g x * (-sin (k * x) * x)).aestronglyMeasurable
    · refine MeasureTheory.ae_of_all _ fun x _ z _ => ?_
      rw [norm_mul, norm_mul, norm_neg, Real.norm_eq_abs, Real.norm_eq_abs, Real.norm_eq_abs]
      have := mul_le_of_le_one_left (abs_nonneg x) (Real.abs_sin_le_one (z * x))
      exact mul_le_mul (hW x) this (by positivity) hW0
    · exact (by fun_prop : Continuous fun x : ℝ => W * |x|).intervalIntegrable _ _
    · refine MeasureTheory.ae_of_all _ fun x _ z _ => ?_
      have h := ((hasDerivAt_id z).mul_const x).cos.const_mul (g x)
      simpa using h
  refine ⟨fun k _ => (d k).continuousAt.continuousWithinAt, fun k _ => d k, fun s _ t _ => ?_⟩
  rw [← integral_sub ((by fun_prop : Continuous fun x => g x * (-sin (s * x) * x)).intervalIntegrable _ _)
    ((by fun_prop : Continuous fun x => g x * (-sin (t * x) * x)).intervalIntegrable _ _), ← Real.norm_eq_abs]
  have hb : ∀ x : ℝ, ‖g x * (-sin (s * x) * x) - g x * (-sin (t * x) * x)‖ ≤ W * |s - t| * x ^ 2 := by
    intro x
    rw [show g x * (-sin (s * x) * x) - g x * (-sin (t * x) * x) = g x * ((sin (t * x) - sin (s * x)) * x) by ring, norm_mul, norm_mul,
      Real.norm_eq_abs, Real.norm_eq_abs, Real.norm_eq_abs]
    have h1 : |sin (t * x) - sin (s * x)| ≤ |s - t| * |x| := by
      have h := Real.abs_sin_sub_sin_le (t * x) (s * x)
      rwa [← sub_mul, abs_mul, abs_sub_comm t s] at h
    calc |g x| * (|sin (t * x) - sin (s * x)| * |x|) ≤ W * (|s - t| * |x| * |x|) := by
          gcongr
          exact hW x
      _ = _ := by rw [← sq_abs x]; ring
  refine (norm_integral_le_of_norm_le (g := fun x => W * |s - t| * x ^ 2) (by linarith)
    (MeasureTheory.ae_of_all _ fun x _ => hb x) ((by fun_prop : Continuous fun x : ℝ => W * |s - t| * x ^ 2).intervalIntegrable _ _)).trans
    (le_of_eq ?_)
  rw [integral_const_mul, integral_pow]
  push_cast
  ring

/-- The weight by which `_gs_uval` multiplies the plain kernel. -/
noncomputable def uWeight (C : ℕ → ℝ) (dc : Bool) (x : ℝ) : ℝ := if dc then cosSeries C x else 1

/-- The largest size of this weight. -/
noncomputable def sizeC (C : ℕ → ℝ) (dc : Bool) : ℝ := if dc then |C 0| + 2 * (|C 1| + |C 2| + |C 3| + |C 4| + |C 5|) else 1

theorem uWeight_le (C : ℕ → ℝ) (dc : Bool) (x : ℝ) : |uWeight C dc x| ≤ sizeC C dc := by
  cases dc
  · simp [uWeight, sizeC]
  · simp only [uWeight, sizeC, if_true]
    rw [cosSeries_eq]
    have b : ∀ c t : ℝ, |c * cos t| ≤ |c| := fun c t => by
      rw [abs_mul]; exact mul_le_of_le_one_right (abs_nonneg _) (Real.abs_cos_le_one _)
    have h0 := abs_le.mp (le_refl |C 0|)
    have h1 := abs_le.mp (b (C 1) (2 * π * 1 * x))
    have h2 := abs_le.mp (b (C 2) (2 * π * 2 * x))
    have h3 := abs_le.mp (b (C 3) (2 * π * 3 * x))
    have h4 := abs_le.mp (b (C 4) (2 * π * 4 * x))
    have h5 := abs_le.mp (b (C 5) (2 * π * 5 * x))
    rw [abs_le]
    constructor <;> linarith [h0.1, h0.2, h1.1, h1.2, h2.1, h2.2, h3.1, h3.2, h4.1, h4.2, h5.1, h5.2]

theorem gsUval_eq (K : ℕ → ℕ → ℝ) (C : ℕ → ℝ) (n : ℕ) (hn : 1 ≤ n) (dc : Bool) (u : ℝ) :
    gsUval sineIntegral C u n dc = transform (fun x => (Kernel.lanczos n false).xval K x * uWeight C dc x) n u := by
  cases dc
  · simp only [uWeight, gsUval, Bool.false_eq_true, if_false, mul_one]
    exact C98_raw K n hn u
  · simp only [uWeight, if_true]
    exact C98_weighted K C n hn u

theorem gsUval_error (si : ℝ → ℝ) (e : ℝ) (hsi : ∀ y, |si y - sineIntegral y| ≤ e) (C : ℕ → ℝ) (n : ℕ) (hn : 1 ≤ n) (dc : Bool) (u : ℝ) :
    |gsUval si C u n dc - gsUval sineIntegral C u n dc| ≤ sizeC C dc * (e * (4 * n * (|u| + 5) + 2 * n + 2) / π) := by
  have e0 : 0 ≤ e := (abs_nonneg _).trans (hsi 0)
  have hp := Real.pi_pos
  have raw : ∀ v : ℝ, |v| ≤ |u| + 5 → |gsRawUval si v n - gsRawUval sineIntegral v n| ≤ e * (4 * n * (|u| + 5) + 2 * n + 2) / π := by
    intro v hv
    have := C98_raw_error (fun _ _ => 0) si e hsi n hn v
    rw [← C98_raw (fun _ _ => 0) n hn] at this
    refine this.trans ?_
    gcongr
  obtain ⟨δ, hδ⟩ : ∃ δ, δ = e * (4 * n * (|u| + 5) + 2 * n + 2) / π := ⟨_, rfl⟩
  rw [← hδ] at raw ⊢
  have sh : ∀ j : ℝ, |j| ≤ 5 → |u + j| ≤ |u| + 5 := fun j hj => (abs_add_le _ _).trans (by linarith)
  have r0 := raw u (by linarith)
  cases dc
  · simpa [gsUval, sizeC] using r0
  · have pair : ∀ c j : ℝ, |j| ≤ 5 → |c * (gsRawUval si (u + j) n + gsRawUval si (u - j) n)
        - c * (gsRawUval sineIntegral (u + j) n + gsRawUval sineIntegral (u - j) n)| ≤ |c| * (2 * δ) := by
      intro c j hj
      have a1 := abs_le.mp (raw (u + j) (sh j hj))
      have a2 := abs_le.mp (raw (u - j) (by rw [sub_eq_add_neg]; exact sh (-j) (by rwa [abs_neg])))
      rw [← mul_sub, abs_mul]
      gcongr
      rw [abs_le]
      constructor <;> linarith [a1.1, a1.2, a2.1, a2.2]
    have p0 : |gsRawUval si u n * C 0 - gsRawUval sineIntegral u n * C 0| ≤ |C 0| * δ := by
      rw [← sub_mul, abs_mul, mul_comm]
      gcongr
    have p1 := abs_le.mp (pair (C 1) 1 (by norm_num))
    have p2 := abs_le.mp (pair (C 2) 2 (by norm_num))
    have p3 := abs_le.mp (pair (C 3) 3 (by norm_num))
    have p4 := abs_le.mp (pair (C 4) 4 (by norm_num))
    have p5 := abs_le.mp (pair (C 5) 5 (by norm_num))
    have q0 := abs_le.mp p0
    simp only [gsUval, sizeC, if_true]
    rw [abs_le]
    constructor <;> linarith [q0.1, q0.2, p1.1, p1.2, p2.1, p2.2, p3.1, p3.2, p4.1, p4.2, p5.1, p5.2]

theorem knots_spec {du krange : ℝ} (hdu : 0 < du) (hk : 4 * (du * 2 * π) ≤ krange) :
    5 ≤ lanczosKnots du krange ∧ Knots (lanczosKnots du krange) (lanczosKnot du krange) ∧
    JG.Even (lanczosKnots du krange) (lanczosKnot du krange) ∧ lanczosKnot du krange 0 = 0 ∧
    lanczosKnot du krange (lanczosKnots du krange - 1) = krange ∧
    lanczosKnot du krange 1 - lanczosKnot du krange 0 ≤ 5 / 4 * (du * 2 * π) := by
  have hp := Real.pi_pos
  have hdk : 0 < du * 2 * π := by positivity
  have hkp : 0 < krange := by linarith
  obtain ⟨q, hq⟩ : ∃ q, q = ⌊krange / (du * 2 * π)⌋₊ := ⟨_, rfl⟩
  have hN : lanczosKnots du krange = q + 1 := by rw [lanczosKnots, hq]
  have hq4 : 4 ≤ q := by
    rw [hq]
    refine Nat.le_floor ?_
    rw [le_div_iff₀ hdk]
    exact_mod_cast hk
  have hqr : (4 : ℝ) ≤ q := by exact_mod_cast hq4
  have hkn : ∀ i : ℕ, lanczosKnot du krange i = i * krange / q := by
    intro i
    rw [lanczosKnot, hN]
    push_cast
    rw [add_sub_cancel_right]
  have hqpos : (0 : ℝ) < q := by linarith
  rw [hN]
  refine ⟨by omega, ?_, ?_, ?_, ?_, ?_⟩
  · intro i j hij _
    have : (i : ℝ) < j := by exact_mod_cast hij
    rw [hkn, hkn]
    gcongr
  · intro k _
    rw [hkn, hkn, hkn]
    push_cast
    ring
  · rw [hkn]; simp
  · rw [hkn, Nat.add_sub_cancel]
    field_simp
  · rw [hkn, hkn]
    have h1 := Nat.lt_floor_add_one (krange / (du * 2 * π))
    rw [← hq, div_lt_iff₀ hdk] at h1
    push_cast
    rw [one_mul, zero_mul, zero_div, sub_zero, div_le_iff₀ hqpos]
    nlinarith

/-- C98: inside the range the interpolated value of `_kval` is the Fourier transform, at `k` radians per pixel, of the
plain kernel times its weight, to within an error given by the spacing of the table and the error `e` of the sine
integral. -/
theorem C98_table (K : ℕ → ℕ → ℝ) (si : ℝ → ℝ) (e : ℝ) (hsi : ∀ y, |si y - sineIntegral y| ≤ e) (C : ℕ → ℝ) (n : ℕ) (hn : 1 ≤ n)
    (dc : Bool) (du krange k : ℝ) (hdu : 0 < du) (hkr : 4 * (du / 2.3 * 2 * π) ≤ krange) (hk : |k| ≤ krange) :
    |lanczosKval si C n dc du krange k - transform (fun x => (Kernel.lanczos n false).xval K x * uWeight C dc x) n (k / (2 * π))| ≤
      sizeC C dc * (2 / 3 * n ^ 3 * (5 / 4 * (du / 2.3 * 2 * π)) ^ 2 + 2 * (e * (4 * n * (krange / (2 * π) + 5) + 2 * n + 2) / π)) := by
  have hp := Real.pi_pos
  obtain ⟨du', hdu'⟩ : ∃ d, d = du / 2.3 := ⟨_, rfl⟩
  have hd0 : 0 < du' := by rw [hdu']; positivity
  rw [← hdu'] at hkr ⊢
  obtain ⟨h5, hkn, hev, hz, hl, hh⟩ := knots_spec hd0 hkr
  have hc := plain_continuous n
  have hw : Continuous (uWeight C dc) := by
    cases dc
    · exact (continuous_const (y := (1 : ℝ))).congr fun x => by simp [uWeight]
    · exact (cosSeries_continuous C).congr fun x => by simp [uWeight]
  obtain ⟨g, hg⟩ : ∃ g : ℝ → ℝ, g = fun x => sinc x * sinc (x / n) * uWeight C dc x := ⟨_, rfl⟩
  have hgc : Continuous g := by rw [hg]; exact hc.mul hw
  have hgW : ∀ x, |g x| ≤ sizeC C dc := by
    intro x
    rw [hg]
    simp only [abs_mul]
    have h3 : |sinc x| * |sinc (x / n)| ≤ 1 := mul_le_one₀ (sinc_le x) (abs_nonneg _) (sinc_le _)
    calc |sinc x| * |sinc (x / n)| * |uWeight C dc x| ≤ 1 * sizeC C dc := by
          gcongr
          exact uWeight_le C dc x
      _ = _ := one_mul _
  have hW0 : 0 ≤ sizeC C dc := (abs_nonneg _).trans (hgW 0)
  have hT : ∀ t : ℝ, transform (fun x => (Kernel.lanczos n false).xval K x * uWeight C dc x) n (t / (2 * π)) =
      ∫ x in (-(n : ℝ))..n, g x * cos (t * x) := by
    intro t
    rw [transform_congr (h := g) (fun x hx => by rw [plain_eq K hn hx, hg]), transform]
    refine integral_congr fun x _ => ?_
    rw [show 2 * π * (t / (2 * π)) * x = t * x by field_simp]
  have habs : transform (fun x => (Kernel.lanczos n false).xval K x * uWeight C dc x) n (k / (2 * π)) =
      ∫ x in (-(n : ℝ))..n, g x * cos (|k| * x) := by
    rw [hT]
    refine integral_congr fun x _ => ?_
    rcases abs_choice k with h | h
    · rw [h]
    · rw [h, neg_mul, Real.cos_neg]
  rw [habs, lanczosKval, ← hdu']
  have e0 : 0 ≤ e := (abs_nonneg _).trans (hsi 0)
  have kr0 : 0 ≤ krange := (abs_nonneg _).trans hk
  have tab : ∀ i, i < lanczosKnots du' krange → |gsUval si C (lanczosKnot du' krange i / 2 / π) n dc
      - (fun t : ℝ => ∫ x in (-(n : ℝ))..n, g x * cos (t * x)) (lanczosKnot du' krange i)|
      ≤ sizeC C dc * (e * (4 * n * (krange / (2 * π) + 5) + 2 * n + 2) / π) := by
    intro i hi
    have hle : lanczosKnot du' krange i ≤ krange := by
      have := knots_le hkn (show i ≤ lanczosKnots du' krange - 1 by omega) (by omega)
      rwa [hl] at this
    have hge : 0 ≤ lanczosKnot du' krange i := by
      rw [← hz]; exact knots_le hkn (Nat.zero_le i) hi
    have := gsUval_error si e hsi C n hn dc (lanczosKnot du' krange i / 2 / π)
    rw [gsUval_eq K C n hn, div_div, hT] at this
    rw [div_div]
    refine this.trans ?_
    have : |lanczosKnot du' krange i / (2 * π)| ≤ krange / (2 * π) := by
      rw [abs_of_nonneg (by positivity)]
      gcongr
    gcongr
  have A := C97_rounded true (lanczosKnots du' krange) (lanczosKnot du' krange) _ h5 hkn hev _ _ _ _
    (cosTransform_smooth (n := n) hgc hgW _ _) tab |k| (by rw [hz]; exact abs_nonneg k) (by rw [hl]; exact hk)
  refine A.trans ?_
  have hst : 0 ≤ lanczosKnot du' krange 1 - lanczosKnot du' krange 0 := by
    have := hkn 0 1 (by omega) (by omega)
    linarith
  have : 2 / 3 * (n : ℝ) ^ 3 * sizeC C dc * (lanczosKnot du' krange 1 - lanczosKnot du' krange 0) ^ 2 ≤
      2 / 3 * (n : ℝ) ^ 3 * sizeC C dc * (5 / 4 * (du' * 2 * π)) ^ 2 := by gcongr
  refine (add_le_add_left this _).trans (le_of_eq ?_)
  ring

/-- C98: outside the range the value is zero. -/
theorem C98_outside (si : ℝ → ℝ) (C : ℕ → ℝ) (n : ℕ) (dc : Bool) (du krange k : ℝ) (hdu : 0 < du)
    (hkr : 4 * (du / 2.3 * 2 * π) ≤ krange) (hk : krange < |k|) : lanczosKval si C n dc du krange k = 0 := by
  obtain ⟨_, _, _, _, hl, _⟩ := knots_spec (show 0 < du / 2.3 by positivity) hkr
  rw [lanczosKval, akimaInterp]
  simp only [hl]
  rw [if_pos hk]

/-- C98: for the two kinds of Lanczos kernel, the value in Fourier space is the transform of the kernel used in real
space, to within an explicit error. -/
theorem C98_kval (K : ℕ → ℕ → ℝ) (si : ℝ → ℝ) (e : ℝ) (hsi : ∀ y, |si y - sineIntegral y| ≤ e) (n : ℕ) (hn : 1 ≤ n)
    (dc : Bool) (κ : ℝ) (hκ : sizeK (K n) ≤ κ) (h4 : 4 * κ < 1)
    (du krange k : ℝ) (hdu : 0 < du) (hkr : 4 * (du / 2.3 * 2 * π) ≤ krange) (hk : |k| ≤ krange) :
    |lanczosKval si (lanczosC (K n)) n dc du krange k - transform ((Kernel.lanczos n dc).xval K) n (k / (2 * π))| ≤
      sizeC (lanczosC (K n)) dc * (2 / 3 * n ^ 3 * (5 / 4 * (du / 2.3 * 2 * π)) ^ 2
        + 2 * (e * (4 * n * (krange / (2 * π) + 5) + 2 * n + 2) / π))
      + if dc then 2 * n * ((34 * κ ^ 2 + 72 * κ ^ 3) / (1 - 4 * κ)) else 0 := by
  have t := C98_table K si e hsi (lanczosC (K n)) n hn dc du krange k hdu hkr hk
  cases dc
  · simpa [uWeight] using t
  · have d := C98_dc K n hn κ hκ h4 (k / (2 * π))
    rw [gsUval_eq K _ n hn] at d
    rw [if_pos rfl]
    exact (abs_sub_le _ _ _).trans (add_le_add t d)

/-- A table of spacing 0.001 for `Lanczos(3)` without `conserve_dc`. -/
example (K : ℕ → ℕ → ℝ) (k : ℝ) (hk : |k| ≤ 10) (h : sizeK (K 3) ≤ 0.1) :
    |lanczosKval JG.Si.si (lanczosC (K 3)) 3 false 0.0001 10 k - transform ((Kernel.lanczos 3 false).xval K) 3 (k / (2 * π))| ≤ 1e-5 := by
  have hp := Real.pi_gt_three
  have hp2 := Real.pi_lt_d2
  refine (C98_kval K JG.Si.si _ JG.Si.C94_accuracy 3 (by norm_num) false 0.1 h (by norm_num) _ _ k (by norm_num) ?_ hk).trans ?_
  · norm_num; linarith
  · simp only [sizeC, Bool.false_eq_true, if_false]
    have h1 : (5 / 4 * (0.0001 / 2.3 * 2 * π)) ^ 2 ≤ (4e-4) ^ 2 := by
      apply pow_le_pow_left₀ (by positivity)
      norm_num
      linarith
    have h2 : 10 / (2 * π) ≤ 10 / (2 * 3) := by gcongr
    have h3 : 7 / 10 ^ 15 * (4 * ((3 : ℕ) : ℝ) * (10 / (2 * π) + 5) + 2 * ((3 : ℕ) : ℝ) + 2) / π ≤
        7 / 10 ^ 15 * (4 * ((3 : ℕ) : ℝ) * (10 / (2 * 3) + 5) + 2 * ((3 : ℕ) : ℝ) + 2) / 3 := by gcongr
    norm_num at h1 h3 ⊢
    linarith

end JG.Interp
