import Verif.Props.Interpolant
import Mathlib.Analysis.SpecialFunctions.Trigonometric.Deriv
import Mathlib.MeasureTheory.Integral.IntervalIntegral.FundThmCalculus

/-! C71: kernels and their Fourier transforms, integrals over pixels. -/

namespace JG.Interp

open intervalIntegral

/-- Fourier transform, at frequency `u` (cycles per pixel), of an even kernel supported on
`[-r, r]`. -/
noncomputable def fourierAt (f : ℝ → ℝ) (r u : ℝ) : ℝ := ∫ x in (-r)..r, f x * Real.cos (2 * Real.pi * u * x)

/-- Integral over the pixel centred on `j`. -/
noncomputable def pixelIntegral (f : ℝ → ℝ) (j : ℤ) : ℝ := ∫ x in ((j:ℝ) - 1 / 2)..(j + 1 / 2), f x

/-- Polynomials of degree 5. -/
def poly5 (a0 a1 a2 a3 a4 a5 x : ℝ) : ℝ := a0 + a1 * x + a2 * x ^ 2 + a3 * x ^ 3 + a4 * x ^ 4 + a5 * x ^ 5

theorem hasDerivAt_of_eq {f : ℝ → ℝ} {a b x : ℝ} (h : HasDerivAt f a x) (e : a = b) : HasDerivAt f b x := e ▸ h

theorem integral_poly (a0 a1 a2 a3 a4 a5 a b : ℝ) :
    ∫ x in a..b, poly5 a0 a1 a2 a3 a4 a5 x =
      (a0 * b + a1 * b ^ 2 / 2 + a2 * b ^ 3 / 3 + a3 * b ^ 4 / 4 + a4 * b ^ 5 / 5 + a5 * b ^ 6 / 6) -
      (a0 * a + a1 * a ^ 2 / 2 + a2 * a ^ 3 / 3 + a3 * a ^ 4 / 4 + a4 * a ^ 5 / 5 + a5 * a ^ 6 / 6) := by
  refine integral_eq_sub_of_hasDerivAt (f := fun b => a0 * b + a1 * b ^ 2 / 2 + a2 * b ^ 3 / 3 + a3 * b ^ 4 / 4
    + a4 * b ^ 5 / 5 + a5 * b ^ 6 / 6) (fun x _ => ?_) ?_
  · have h1 := (hasDerivAt_id x).const_mul a0
    have h2 := ((hasDerivAt_pow 2 x).const_mul a1).div_const 2
    have h3 := ((hasDerivAt_pow 3 x).const_mul a2).div_const 3
    have h4 := ((hasDerivAt_pow 4 x).const_mul a3).div_const 4
    have h5 := ((hasDerivAt_pow 5 x).const_mul a4).div_const 5
    have h6 := ((hasDerivAt_pow 6 x).const_mul a5).div_const 6
    refine hasDerivAt_of_eq (((((h1.add h2).add h3).add h4).add h5).add h6) ?_
    unfold poly5
    push_cast
    ring
  · apply Continuous.intervalIntegrable
    unfold poly5
    fun_prop

theorem integral_poly_cos (a0 a1 a2 a3 a4 a5 a b w : ℝ) (hw : w ≠ 0) (A : ℝ → ℝ)
    (hA : A = fun x => Real.sin (w * x) * ((a0 + a1 * x + a2 * x ^ 2 + a3 * x ^ 3 + a4 * x ^ 4 + a5 * x ^ 5) / w
      - (2 * a2 + 6 * a3 * x + 12 * a4 * x ^ 2 + 20 * a5 * x ^ 3) / w ^ 3
      + (24 * a4 + 120 * a5 * x) / w ^ 5)
      + Real.cos (w * x) * ((a1 + 2 * a2 * x + 3 * a3 * x ^ 2 + 4 * a4 * x ^ 3 + 5 * a5 * x ^ 4) / w ^ 2
      - (6 * a3 + 24 * a4 * x + 60 * a5 * x ^ 2) / w ^ 4 + 120 * a5 / w ^ 6)) :
    ∫ x in a..b, poly5 a0 a1 a2 a3 a4 a5 x * Real.cos (w * x) = A b - A a := by
  refine integral_eq_sub_of_hasDerivAt (fun x _ => ?_) ?_
  · have hwx : HasDerivAt (fun x => w * x) w x := hasDerivAt_of_eq ((hasDerivAt_id x).const_mul w) (mul_one w)
    have hs := hwx.sin
    have hc := hwx.cos
    have p1 := hasDerivAt_id x
    have p2 := hasDerivAt_pow 2 x
    have p3 := hasDerivAt_pow 3 x
    have p4 := hasDerivAt_pow 4 x
    have p5 := hasDerivAt_pow 5 x
    have q0 := ((((((p1.const_mul a1).const_add a0).add (p2.const_mul a2)).add (p3.const_mul a3)).add
      (p4.const_mul a4)).add (p5.const_mul a5)).div_const w
    have q2 := ((((p1.const_mul (6 * a3)).const_add (2 * a2)).add (p2.const_mul (12 * a4))).add
      (p3.const_mul (20 * a5))).div_const (w ^ 3)
    have q4 := ((p1.const_mul (120 * a5)).const_add (24 * a4)).div_const (w ^ 5)
    have q1 := (((((p1.const_mul (2 * a2)).const_add a1).add (p2.const_mul (3 * a3))).add
      (p3.const_mul (4 * a4))).add (p4.const_mul (5 * a5))).div_const (w ^ 2)
    have q3 := (((p1.const_mul (24 * a4)).const_add (6 * a3)).add (p2.const_mul (60 * a5))).div_const (w ^ 4)
    have key := (hs.mul ((q0.sub q2).add q4)).add (hc.mul ((q1.sub q3).add_const (120 * a5 / w ^ 6)))
    rw [hA]
    refine hasDerivAt_of_eq key ?_
    simp only [id, Pi.add_apply, Pi.sub_apply, Pi.mul_apply]
    unfold poly5
    push_cast
    field_simp
    ring
  · apply Continuous.intervalIntegrable
    unfold poly5
    fun_prop

/-- An even function integrated over a symmetric interval. -/
theorem integral_even (f : ℝ → ℝ) (hf : ∀ x, f (-x) = f x) (r : ℝ)
    (hi : IntervalIntegrable f MeasureTheory.volume 0 r) : ∫ x in (-r)..r, f x = 2 * ∫ x in (0:ℝ)..r, f x := by
  have h1 : ∫ x in (-r)..0, f x = ∫ x in (0:ℝ)..r, f x := by
    have := integral_comp_neg (a := -r) (b := 0) (f := f)
    simp only [hf, neg_neg, neg_zero] at this
    exact this
  have hi' : IntervalIntegrable f MeasureTheory.volume (-r) 0 := by
    have h0 := IntervalIntegrable.iff_comp_neg (f := f) (a := 0) (b := r)
    simp only [hf, neg_zero] at h0
    exact (h0.mp hi).symm
  rw [← integral_add_adjacent_intervals hi' hi, h1]
  ring

/-- A function that agrees with a continuous one on `[a, b]`. -/
theorem piece (f p : ℝ → ℝ) (hp : Continuous p) (a b : ℝ) (hab : a ≤ b) (h : ∀ x, a ≤ x → x ≤ b → f x = p x) :
    IntervalIntegrable f MeasureTheory.volume a b ∧ ∫ x in a..b, f x = ∫ x in a..b, p x := by
  have hc : ∀ x ∈ Set.uIcc a b, f x = p x := by
    intro x hx
    rw [Set.uIcc_of_le hab] at hx
    exact h x hx.1 hx.2
  refine ⟨?_, integral_congr hc⟩
  refine (hp.intervalIntegrable a b).congr fun x hx => ?_
  exact (hc x (Set.uIoc_subset_uIcc hx)).symm

theorem poly5_continuous (a0 a1 a2 a3 a4 a5 : ℝ) : Continuous (poly5 a0 a1 a2 a3 a4 a5) := by
  unfold poly5; fun_prop

/-! ### The pieces as polynomials -/

theorem nearest_piece (K : ℕ → ℕ → ℝ) (x : ℝ) (h0 : 0 ≤ x) (h1 : x ≤ 1 / 2) :
    Kernel.nearest.xval K x = poly5 1 0 0 0 0 0 x := by
  rw [Kernel.xval, abs_of_nonneg h0, if_neg (by norm_num; linarith)]
  simp [poly5]

theorem linear_piece (K : ℕ → ℕ → ℝ) (x : ℝ) (h0 : 0 ≤ x) (h1 : x ≤ 1) :
    Kernel.linear.xval K x = poly5 1 (-1) 0 0 0 0 x := by
  rw [Kernel.xval, abs_of_nonneg h0, if_neg (by linarith)]
  simp [poly5]; ring

theorem cubic_p1 (K : ℕ → ℕ → ℝ) (x : ℝ) (h0 : 0 ≤ x) (h1 : x ≤ 1) :
    Kernel.cubic.xval K x = poly5 1 0 (-5/2) (3/2) 0 0 x := by
  rw [cubic_piece1 K x (by rw [abs_of_nonneg h0]; exact h1), abs_of_nonneg h0]
  simp only [poly5, cubicOne]; ring

theorem cubic_p2 (K : ℕ → ℕ → ℝ) (x : ℝ) (h0 : 1 ≤ x) (h1 : x ≤ 2) :
    Kernel.cubic.xval K x = poly5 2 (-4) (5/2) (-1/2) 0 0 x := by
  have hx : |x| = x := abs_of_nonneg (by linarith)
  rw [cubic_piece2 K x (by rw [hx]; exact h0) (by rw [hx]; exact h1), hx]
  simp only [poly5, cubicTwo]; ring

theorem cubic_p3 (K : ℕ → ℕ → ℝ) (x : ℝ) (h0 : 2 ≤ x) : Kernel.cubic.xval K x = poly5 0 0 0 0 0 0 x := by
  rw [cubic_zero K x (by rw [abs_of_nonneg (by linarith)]; exact_mod_cast h0)]
  simp [poly5]

theorem quintic_p1 (K : ℕ → ℕ → ℝ) (x : ℝ) (h0 : 0 ≤ x) (h1 : x ≤ 1) :
    Kernel.quintic.xval K x = poly5 1 0 0 (-95/12) (23/2) (-55/12) x := by
  rw [quintic_piece1 K x (by rw [abs_of_nonneg h0]; exact h1), abs_of_nonneg h0]
  simp only [poly5, quinticOne]; ring

theorem quintic_p2 (K : ℕ → ℕ → ℝ) (x : ℝ) (h0 : 1 ≤ x) (h1 : x ≤ 2) :
    Kernel.quintic.xval K x = poly5 (-23/2) (185/4) (-70) (1205/24) (-69/4) (55/24) x := by
  have hx : |x| = x := abs_of_nonneg (by linarith)
  rw [quintic_piece2 K x (by rw [hx]; exact h0) (by rw [hx]; exact h1), hx]
  simp only [poly5, quinticTwo]; ring

theorem quintic_p3 (K : ℕ → ℕ → ℝ) (x : ℝ) (h0 : 2 ≤ x) (h1 : x ≤ 3) :
    Kernel.quintic.xval K x = poly5 (81/2) (-339/4) (70) (-685/24) (23/4) (-11/24) x := by
  have hx : |x| = x := abs_of_nonneg (by linarith)
  rw [quintic_piece3 K x (by rw [hx]; exact h0) (by rw [hx]; exact h1), hx]
  simp only [poly5, quinticThree]; ring

theorem quintic_p4 (K : ℕ → ℕ → ℝ) (x : ℝ) (h0 : 3 ≤ x) : Kernel.quintic.xval K x = poly5 0 0 0 0 0 0 x := by
  rw [quintic_zero K x (by rw [abs_of_nonneg (by linarith)]; exact_mod_cast h0)]
  simp [poly5]

theorem pixel0 (f : ℝ → ℝ) (hf : ∀ x, f (-x) = f x) (hi : IntervalIntegrable f MeasureTheory.volume 0 (1 / 2)) :
    pixelIntegral f 0 = 2 * ∫ x in (0:ℝ)..(1 / 2), f x := by
  unfold pixelIntegral
  rw [Int.cast_zero, zero_sub, zero_add, integral_even f hf _ hi]

theorem pixel_split (f : ℝ → ℝ) (j : ℤ) (h1 : IntervalIntegrable f MeasureTheory.volume ((j:ℝ) - 1 / 2) j)
    (h2 : IntervalIntegrable f MeasureTheory.volume (j:ℝ) (j + 1 / 2)) :
    pixelIntegral f j = (∫ x in ((j:ℝ) - 1 / 2)..j, f x) + ∫ x in (j:ℝ)..(j + 1 / 2), f x := by
  unfold pixelIntegral
  rw [integral_add_adjacent_intervals h1 h2]

/-- C71: the tabulated unit integrals of `Nearest`, `Linear` and `Cubic` are the exact integrals over
pixels. -/
theorem C71_unit_integrals (K : ℕ → ℕ → ℝ) (j : ℕ) :
    (∀ h : j < Kernel.nearest.unitIntegrals.length,
      pixelIntegral (Kernel.nearest.xval K) j = Kernel.nearest.unitIntegrals[j]) ∧
    (∀ h : j < Kernel.linear.unitIntegrals.length,
      pixelIntegral (Kernel.linear.xval K) j = Kernel.linear.unitIntegrals[j]) ∧
    (∀ h : j < Kernel.cubic.unitIntegrals.length,
      pixelIntegral (Kernel.cubic.xval K) j = Kernel.cubic.unitIntegrals[j]) := by
  refine ⟨fun h => ?_, fun h => ?_, fun h => ?_⟩
  · simp only [Kernel.unitIntegrals, List.length_cons, List.length_nil] at h
    interval_cases j
    obtain ⟨i1, e1⟩ := piece _ _ (poly5_continuous 1 0 0 0 0 0) 0 (1 / 2) (by norm_num)
      (nearest_piece K)
    rw [Nat.cast_zero, pixel0 _ (C53_even K _) i1, e1, integral_poly]
    norm_num [Kernel.unitIntegrals]
  · simp only [Kernel.unitIntegrals, List.length_cons, List.length_nil] at h
    interval_cases j
    · obtain ⟨i1, e1⟩ := piece _ _ (poly5_continuous 1 (-1) 0 0 0 0) 0 (1 / 2) (by norm_num)
        (fun x h0 h1 => linear_piece K x h0 (by linarith))
      rw [Nat.cast_zero, pixel0 _ (C53_even K _) i1, e1, integral_poly]
      norm_num [Kernel.unitIntegrals]
    · obtain ⟨i1, e1⟩ := piece _ _ (poly5_continuous 1 (-1) 0 0 0 0) (((1:ℕ):ℤ) - 1 / 2) (((1:ℕ):ℤ):ℝ) (by norm_num)
        (fun x h0 h1 => linear_piece K x (by norm_num at h0; linarith) (by norm_num at h1; linarith))
      obtain ⟨i2, e2⟩ := piece (Kernel.linear.xval K) _ (poly5_continuous 0 0 0 0 0 0) (((1:ℕ):ℤ):ℝ)
        (((1:ℕ):ℤ) + 1 / 2) (by norm_num)
        (fun x h0 h1 => by
          rw [linear_zero K x (by rw [abs_of_nonneg] <;> norm_num at h0 ⊢ <;> linarith)]; simp [poly5])
      rw [pixel_split _ _ i1 i2, e1, e2, integral_poly, integral_poly]
      norm_num [Kernel.unitIntegrals]
  · simp only [Kernel.unitIntegrals, List.length_cons, List.length_nil] at h
    interval_cases j
    · obtain ⟨i1, e1⟩ := piece _ _ (poly5_continuous 1 0 (-5/2) (3/2) 0 0) 0 (1 / 2) (by norm_num)
        (fun x h0 h1 => cubic_p1 K x h0 (by linarith))
      rw [Nat.cast_zero, pixel0 _ (C53_even K _) i1, e1, integral_poly]
      norm_num [Kernel.unitIntegrals]
    · obtain ⟨i1, e1⟩ := piece _ _ (poly5_continuous 1 0 (-5/2) (3/2) 0 0) (((1:ℕ):ℤ) - 1 / 2) (((1:ℕ):ℤ):ℝ)
        (by norm_num) (fun x h0 h1 => cubic_p1 K x (by norm_num at h0; linarith) (by norm_num at h1; linarith))
      obtain ⟨i2, e2⟩ := piece _ _ (poly5_continuous 2 (-4) (5/2) (-1/2) 0 0) (((1:ℕ):ℤ):ℝ) (((1:ℕ):ℤ) + 1 / 2)
        (by norm_num) (fun x h0 h1 => cubic_p2 K x (by norm_num at h0; linarith) (by norm_num at h1; linarith))
      rw [pixel_split _ _ i1 i2, e1, e2, integral_poly, integral_poly]
      norm_num [Kernel.unitIntegrals]
    · obtain ⟨i1, e1⟩ := piece _ _ (poly5_continuous 2 (-4) (5/2) (-1/2) 0 0) (((2:ℕ):ℤ) - 1 / 2) (((2:ℕ):ℤ):ℝ)
        (by norm_num) (fun x h0 h1 => cubic_p2 K x (by norm_num at h0; linarith) (by norm_num at h1; linarith))
      obtain ⟨i2, e2⟩ := piece _ _ (poly5_continuous 0 0 0 0 0 0) (((2:ℕ):ℤ):ℝ) (((2:ℕ):ℤ) + 1 / 2)
        (by norm_num) (fun x h0 h1 => cubic_p3 K x (by norm_num at h0; linarith))
      rw [pixel_split _ _ i1 i2, e1, e2, integral_poly, integral_poly]
      norm_num [Kernel.unitIntegrals]

/-- C71: the tabulated unit integrals of `Quintic` are the exact integrals to within `1.7e-8`.  Missing:
equality up to rounding, which is false. -/
theorem C71_unit_integrals_quintic_partial (K : ℕ → ℕ → ℝ) (j : ℕ) (h : j < Kernel.quintic.unitIntegrals.length) :
    |pixelIntegral (Kernel.quintic.xval K) j - Kernel.quintic.unitIntegrals[j]| ≤ 1.7e-8 := by
  simp only [Kernel.unitIntegrals, List.length_cons, List.length_nil] at h
  interval_cases j
  · obtain ⟨i1, e1⟩ := piece _ _ (poly5_continuous 1 0 0 (-95/12) (23/2) (-55/12)) 0 (1 / 2) (by norm_num)
      (fun x h0 h1 => quintic_p1 K x h0 (by linarith))
    rw [Nat.cast_zero, pixel0 _ (C53_even K _) i1, e1, integral_poly]
    norm_num [Kernel.unitIntegrals, abs_le]
  · obtain ⟨i1, e1⟩ := piece _ _ (poly5_continuous 1 0 0 (-95/12) (23/2) (-55/12)) (((1:ℕ):ℤ) - 1 / 2) (((1:ℕ):ℤ):ℝ)
      (by norm_num) (fun x h0 h1 => quintic_p1 K x (by norm_num at h0; linarith) (by norm_num at h1; linarith))
    obtain ⟨i2, e2⟩ := piece _ _ (poly5_continuous (-23/2) (185/4) (-70) (1205/24) (-69/4) (55/24)) (((1:ℕ):ℤ):ℝ) (((1:ℕ):ℤ) + 1 / 2)
      (by norm_num) (fun x h0 h1 => quintic_p2 K x (by norm_num at h0; linarith) (by norm_num at h1; linarith))
    rw [pixel_split _ _ i1 i2, e1, e2, integral_poly, integral_poly]
    norm_num [Kernel.unitIntegrals, abs_le]
  · obtain ⟨i1, e1⟩ := piece _ _ (poly5_continuous (-23/2) (185/4) (-70) (1205/24) (-69/4) (55/24)) (((2:ℕ):ℤ) - 1 / 2) (((2:ℕ):ℤ):ℝ)
      (by norm_num) (fun x h0 h1 => quintic_p2 K x (by norm_num at h0; linarith) (by norm_num at h1; linarith))
    obtain ⟨i2, e2⟩ := piece _ _ (poly5_continuous (81/2) (-339/4) (70) (-685/24) (23/4) (-11/24)) (((2:ℕ):ℤ):ℝ) (((2:ℕ):ℤ) + 1 / 2)
      (by norm_num) (fun x h0 h1 => quintic_p3 K x (by norm_num at h0; linarith) (by norm_num at h1; linarith))
    rw [pixel_split _ _ i1 i2, e1, e2, integral_poly, integral_poly]
    norm_num [Kernel.unitIntegrals, abs_le]
  · obtain ⟨i1, e1⟩ := piece _ _ (poly5_continuous (81/2) (-339/4) (70) (-685/24) (23/4) (-11/24)) (((3:ℕ):ℤ) - 1 / 2) (((3:ℕ):ℤ):ℝ)
      (by norm_num) (fun x h0 h1 => quintic_p3 K x (by norm_num at h0; linarith) (by norm_num at h1; linarith))
    obtain ⟨i2, e2⟩ := piece _ _ (poly5_continuous 0 0 0 0 0 0) (((3:ℕ):ℤ):ℝ) (((3:ℕ):ℤ) + 1 / 2)
      (by norm_num) (fun x h0 h1 => quintic_p4 K x (by norm_num at h0; linarith))
    rw [pixel_split _ _ i1 i2, e1, e2, integral_poly, integral_poly]
    norm_num [Kernel.unitIntegrals, abs_le]

/-- Disagreement: the tabulated unit integrals of `Quintic` (made by numerical integration) are off by
`1.6e-8`, far more than rounding; the exact value for the central pixel is `10051/11520`. -/
theorem C71_counterexample_quintic (K : ℕ → ℕ → ℝ) :
    pixelIntegral (Kernel.quintic.xval K) 0 = 10051 / 11520 ∧
    (1.6e-8 : ℝ) < pixelIntegral (Kernel.quintic.xval K) 0 - Kernel.quintic.unitIntegrals[0]! := by
  obtain ⟨i1, e1⟩ := piece _ _ (poly5_continuous 1 0 0 (-95/12) (23/2) (-55/12)) 0 (1 / 2) (by norm_num)
    (fun x h0 h1 => quintic_p1 K x h0 (by linarith))
  rw [pixel0 _ (C53_even K _) i1, e1, integral_poly]
  norm_num [Kernel.unitIntegrals]

/-! ### Fourier transforms -/

/-- A polynomial piece of a kernel, times the cosine. -/
theorem piece_cos (f : ℝ → ℝ) (a0 a1 a2 a3 a4 a5 a b w : ℝ) (hab : a ≤ b)
    (h : ∀ x, a ≤ x → x ≤ b → f x = poly5 a0 a1 a2 a3 a4 a5 x) :
    IntervalIntegrable (fun x => f x * Real.cos (w * x)) MeasureTheory.volume a b ∧
    ∫ x in a..b, f x * Real.cos (w * x) = ∫ x in a..b, poly5 a0 a1 a2 a3 a4 a5 x * Real.cos (w * x) := by
  refine piece _ (fun x => poly5 a0 a1 a2 a3 a4 a5 x * Real.cos (w * x)) ?_ a b hab (fun x h0 h1 => by rw [h x h0 h1])
  unfold poly5
  fun_prop

theorem fourier_even (f : ℝ → ℝ) (hf : ∀ x, f (-x) = f x) (r u : ℝ)
    (hi : IntervalIntegrable (fun x => f x * Real.cos (2 * Real.pi * u * x)) MeasureTheory.volume 0 r) :
    fourierAt f r u = 2 * ∫ x in (0:ℝ)..r, f x * Real.cos (2 * Real.pi * u * x) := by
  unfold fourierAt
  exact integral_even _ (fun x => by rw [hf, mul_neg, Real.cos_neg]) r hi

theorem cos_two' (t : ℝ) : Real.cos (2 * t) = 1 - 2 * Real.sin t ^ 2 := by
  linarith [cos_sub_one t]

theorem cos_four (t : ℝ) : Real.cos (4 * t) = 1 - 8 * Real.sin t ^ 2 + 8 * Real.sin t ^ 4 := by
  rw [show 4 * t = 2 * (2 * t) by ring, Real.cos_two_mul, cos_two']
  ring

theorem cos_six (t : ℝ) : Real.cos (6 * t) =
    1 - 18 * Real.sin t ^ 2 + 48 * Real.sin t ^ 4 - 32 * Real.sin t ^ 6 := by
  rw [show 6 * t = 2 * (3 * t) by ring, cos_two', Real.sin_three_mul]
  ring

theorem sinc_of_ne {u : ℝ} (hu : u ≠ 0) (t : ℝ) (ht : t = Real.pi * u) : sinc u = Real.sin t / t := by
  rw [sinc, if_neg hu, ht]

theorem uval_abs : (∀ u, cubicUval |u| = cubicUval u) ∧ (∀ u, quinticUval |u| = quinticUval u) := by
  constructor <;> intro u <;> simp only [cubicUval, quinticUval, abs_abs]

theorem cubicUval_eq (u : ℝ) : cubicUval u = sinc u ^ 3 * (3 * sinc u - 2 * Real.cos (Real.pi * u)) := by
  have hc : Real.cos (Real.pi * |u|) = Real.cos (Real.pi * u) := by
    rcases abs_choice u with h | h <;> rw [h]
    rw [mul_neg, Real.cos_neg]
  simp only [cubicUval, sinc_abs, hc]
  ring

theorem quinticUval_eq (u : ℝ) : quinticUval u = sinc u ^ 5 *
    (sinc u * (55 - 19 * (Real.pi * u) ^ 2) + 2 * Real.cos (Real.pi * u) * ((Real.pi * u) ^ 2 - 27)) := by
  have hc : Real.cos (Real.pi * |u|) = Real.cos (Real.pi * u) := by
    rcases abs_choice u with h | h <;> rw [h]
    rw [mul_neg, Real.cos_neg]
  have h2 : Real.pi * |u| * (Real.pi * |u|) = (Real.pi * u) ^ 2 := by
    have := sq_abs u
    linear_combination Real.pi ^ 2 * this
  simp only [quinticUval, sinc_abs, hc, h2]
  ring

/-- C71: `Nearest.kval` is the Fourier transform of `Nearest.xval`. -/
theorem C71_nearest (K : ℕ → ℕ → ℝ) (u : ℝ) :
    fourierAt (Kernel.nearest.xval K) Kernel.nearest.xrange u = nearestUval u := by
  obtain ⟨i1, e1⟩ := piece_cos (Kernel.nearest.xval K) 1 0 0 0 0 0 0 (1 / 2) (2 * Real.pi * u) (by norm_num)
    (nearest_piece K)
  rw [show Kernel.nearest.xrange = 1 / 2 by norm_num [Kernel.xrange], fourier_even _ (C53_even K _) _ _ i1, e1]
  by_cases hu : u = 0
  · subst hu
    simp only [mul_zero, zero_mul, Real.cos_zero, mul_one]
    rw [integral_poly, nearestUval, sinc_zero]; norm_num
  · have hp := Real.pi_ne_zero
    rw [integral_poly_cos _ _ _ _ _ _ _ _ _ (by positivity) _ rfl, nearestUval, sinc, if_neg hu]
    simp only [mul_zero, Real.sin_zero, show 2 * Real.pi * u * (1 / 2) = Real.pi * u by ring]
    field_simp
    ring

/-- C71: `Linear.kval` is the Fourier transform of `Linear.xval`. -/
theorem C71_linear (K : ℕ → ℕ → ℝ) (u : ℝ) :
    fourierAt (Kernel.linear.xval K) Kernel.linear.xrange u = linearUval u := by
  obtain ⟨i1, e1⟩ := piece_cos (Kernel.linear.xval K) 1 (-1) 0 0 0 0 0 1 (2 * Real.pi * u) (by norm_num)
    (linear_piece K)
  rw [show Kernel.linear.xrange = 1 by norm_num [Kernel.xrange], fourier_even _ (C53_even K _) _ _ i1, e1]
  by_cases hu : u = 0
  · subst hu
    simp only [mul_zero, zero_mul, Real.cos_zero, mul_one]
    rw [integral_poly, linearUval, sinc_zero]; norm_num
  · have hp := Real.pi_ne_zero
    obtain ⟨t, ht⟩ : ∃ t, t = Real.pi * u := ⟨_, rfl⟩
    have ht0 : t ≠ 0 := by rw [ht]; exact mul_ne_zero hp hu
    have hw : 2 * Real.pi * u = 2 * t := by rw [ht]; ring
    rw [hw, integral_poly_cos _ _ _ _ _ _ _ _ _ (by positivity) _ rfl, linearUval, sinc_of_ne hu t ht]
    simp only [mul_zero, mul_one, Real.sin_zero, Real.cos_zero, cos_two', Real.sin_two_mul]
    field_simp
    ring

/-- C71: `Cubic.kval` is the Fourier transform of `Cubic.xval`. -/
theorem C71_cubic (K : ℕ → ℕ → ℝ) (u : ℝ) :
    fourierAt (Kernel.cubic.xval K) Kernel.cubic.xrange u = cubicUval u := by
  obtain ⟨i1, e1⟩ := piece_cos (Kernel.cubic.xval K) 1 0 (-5/2) (3/2) 0 0 0 1 (2 * Real.pi * u) (by norm_num)
    (cubic_p1 K)
  obtain ⟨i2, e2⟩ := piece_cos (Kernel.cubic.xval K) 2 (-4) (5/2) (-1/2) 0 0 1 2 (2 * Real.pi * u) (by norm_num)
    (cubic_p2 K)
  rw [show Kernel.cubic.xrange = 2 by norm_num [Kernel.xrange],
    fourier_even _ (C53_even K _) _ _ (i1.trans i2), ← integral_add_adjacent_intervals i1 i2, e1, e2, cubicUval_eq]
  by_cases hu : u = 0
  · subst hu
    simp only [mul_zero, zero_mul, Real.cos_zero, mul_one]
    rw [integral_poly, integral_poly, sinc_zero]; norm_num
  · have hp := Real.pi_ne_zero
    obtain ⟨t, ht⟩ : ∃ t, t = Real.pi * u := ⟨_, rfl⟩
    have ht0 : t ≠ 0 := by rw [ht]; exact mul_ne_zero hp hu
    have hw : 2 * Real.pi * u = 2 * t := by rw [ht]; ring
    rw [hw, integral_poly_cos _ _ _ _ _ _ _ _ _ (by positivity) _ rfl,
      integral_poly_cos _ _ _ _ _ _ _ _ _ (by positivity) _ rfl, sinc_of_ne hu t ht, ← ht]
    simp only [mul_zero, mul_one, Real.sin_zero, Real.cos_zero, show 2 * t * 2 = 4 * t by ring, cos_two',
      Real.sin_two_mul, cos_four, sin_four]
    field_simp
    ring

/-- C71: `Quintic.kval` is the Fourier transform of `Quintic.xval`. -/
theorem C71_quintic (K : ℕ → ℕ → ℝ) (u : ℝ) :
    fourierAt (Kernel.quintic.xval K) Kernel.quintic.xrange u = quinticUval u := by
  obtain ⟨i1, e1⟩ := piece_cos (Kernel.quintic.xval K) 1 0 0 (-95/12) (23/2) (-55/12) 0 1 (2 * Real.pi * u)
    (by norm_num) (quintic_p1 K)
  obtain ⟨i2, e2⟩ := piece_cos (Kernel.quintic.xval K) (-23/2) (185/4) (-70) (1205/24) (-69/4) (55/24) 1 2
    (2 * Real.pi * u) (by norm_num) (quintic_p2 K)
  obtain ⟨i3, e3⟩ := piece_cos (Kernel.quintic.xval K) (81/2) (-339/4) (70) (-685/24) (23/4) (-11/24) 2 3
    (2 * Real.pi * u) (by norm_num) (quintic_p3 K)
  rw [show Kernel.quintic.xrange = 3 by norm_num [Kernel.xrange],
    fourier_even _ (C53_even K _) _ _ ((i1.trans i2).trans i3), ← integral_add_adjacent_intervals (i1.trans i2) i3,
    ← integral_add_adjacent_intervals i1 i2, e1, e2, e3, quinticUval_eq]
  by_cases hu : u = 0
  · subst hu
    simp only [mul_zero, zero_mul, Real.cos_zero, mul_one]
    rw [integral_poly, integral_poly, integral_poly, sinc_zero]; norm_num
  · have hp := Real.pi_ne_zero
    obtain ⟨t, ht⟩ : ∃ t, t = Real.pi * u := ⟨_, rfl⟩
    have ht0 : t ≠ 0 := by rw [ht]; exact mul_ne_zero hp hu
    have hw : 2 * Real.pi * u = 2 * t := by rw [ht]; ring
    rw [hw, integral_poly_cos _ _ _ _ _ _ _ _ _ (by positivity) _ rfl,
      integral_poly_cos _ _ _ _ _ _ _ _ _ (by positivity) _ rfl,
      integral_poly_cos _ _ _ _ _ _ _ _ _ (by positivity) _ rfl, sinc_of_ne hu t ht, ← ht]
    simp only [mul_zero, mul_one, Real.sin_zero, Real.cos_zero, show 2 * t * 2 = 4 * t by ring,
      show 2 * t * 3 = 6 * t by ring, cos_two', Real.sin_two_mul, cos_four, sin_four, cos_six, sin_six]
    field_simp
    ring

/-- C71: the kernels have unit integral. -/
theorem C71_unit_flux (K : ℕ → ℕ → ℝ) (k : Kernel) (hk : k = .nearest ∨ k = .linear ∨ k = .cubic ∨ k = .quintic) :
    ∫ x in (-k.xrange)..k.xrange, k.xval K x = 1 := by
  have h : fourierAt (k.xval K) k.xrange 0 = 1 := by
    rcases hk with rfl | rfl | rfl | rfl
    · rw [C71_nearest, nearestUval, sinc_zero]
    · rw [C71_linear, linearUval, sinc_zero, mul_one]
    · rw [C71_cubic, cubicUval_eq, sinc_zero]; norm_num
    · rw [C71_quintic, quinticUval_eq, sinc_zero]; norm_num
  simpa [fourierAt] using h

/-- C71: the positive and negative fluxes of `Cubic` are the integrals of its positive part and of
minus its negative part. -/
theorem C71_cubic_fluxes (K : ℕ → ℕ → ℝ) (p n : ℝ) (h : Kernel.cubic.fluxes = some (p, n)) :
    2 * (∫ x in (0:ℝ)..1, Kernel.cubic.xval K x) = p ∧ (∀ x, 0 ≤ x → x ≤ 1 → 0 ≤ Kernel.cubic.xval K x) ∧
    2 * (∫ x in (1:ℝ)..2, -Kernel.cubic.xval K x) = n ∧ (∀ x, 1 ≤ x → x ≤ 2 → Kernel.cubic.xval K x ≤ 0) := by
  simp only [Kernel.fluxes, Option.some.injEq, Prod.mk.injEq] at h
  obtain ⟨rfl, rfl⟩ := h
  refine ⟨?_, fun x h0 h1 => ?_, ?_, fun x h0 h1 => ?_⟩
  · rw [(piece _ _ (poly5_continuous 1 0 (-5/2) (3/2) 0 0) 0 1 (by norm_num) (cubic_p1 K)).2, integral_poly]
    norm_num
  · rw [cubic_p1 K x h0 h1, poly5]
    have : 1 + 0 * x + -5 / 2 * x ^ 2 + 3 / 2 * x ^ 3 + 0 * x ^ 4 + 0 * x ^ 5 =
      (1 - x) * (1 + x + -3 / 2 * x ^ 2) := by ring
    rw [this]
    apply mul_nonneg (by linarith)
    nlinarith
  · rw [integral_neg, (piece _ _ (poly5_continuous 2 (-4) (5/2) (-1/2) 0 0) 1 2 (by norm_num) (cubic_p2 K)).2,
      integral_poly]
    norm_num
  · rw [cubic_p2 K x h0 h1, poly5]
    have : 2 + -4 * x + 5 / 2 * x ^ 2 + -1 / 2 * x ^ 3 + 0 * x ^ 4 + 0 * x ^ 5 =
      -(1 / 2 * (x - 1) * (2 - x) ^ 2) := by ring
    rw [this, neg_nonpos]
    have : 0 ≤ x - 1 := by linarith
    positivity

/-- The value at wave number 0 through `kval`. -/
example : kvalOf quinticUval 0 = 1 := by
  rw [kvalOf, show (0:ℝ) / 2 / Real.pi = 0 by simp, quinticUval_eq, sinc_zero]; norm_num

example (K : ℕ → ℕ → ℝ) : fourierAt (Kernel.linear.xval K) 1 (1 / 2) = (2 / Real.pi) ^ 2 := by
  have := C71_linear K (1 / 2)
  rw [show Kernel.linear.xrange = 1 by norm_num [Kernel.xrange]] at this
  rw [this, linearUval, sinc, if_neg (by norm_num), show Real.pi * (1 / 2) = Real.pi / 2 by ring, Real.sin_pi_div_two]
  have := Real.pi_ne_zero
  field_simp

end JG.Interp
