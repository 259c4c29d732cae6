import Verif.Props.InterpolantFourier
import Verif.Props.InterpImage
import Verif.Props.ProfileTree

/-!
The interpolation kernels on the whole line and the product kernel in the plane: integrability, moments and transform.
-/

open MeasureTheory

namespace JG.Interp

/-- The kernels given by polynomials. -/
def Kernel.Poly (k : Kernel) : Prop := k = .linear ∨ k = .cubic ∨ k = .quintic

theorem Kernel.Poly.local {k : Kernel} (h : k.Poly) : k.Local := by rcases h with rfl | rfl | rfl <;> trivial

/-- A function that vanishes outside `[-r, r]`, times a continuous one. -/
theorem compact_mul {f : ℝ → ℝ} {r : ℝ} (hr : 0 ≤ r) (hf : ∀ x, r < |x| → f x = 0)
    (hi : IntervalIntegrable f volume (-r) r) {g : ℝ → ℝ} (hg : Continuous g) :
    Integrable (fun x => f x * g x) ∧ ∫ x, f x * g x = ∫ x in (-r)..r, f x * g x := by
  have h0 : ∀ x, x ∉ Set.Icc (-r) r → f x * g x = 0 := by
    intro x hx
    rw [hf x, zero_mul]
    by_contra hc
    exact hx (abs_le.mp (not_lt.mp hc))
  have h1 : IntervalIntegrable (fun x => f x * g x) volume (-r) r := hi.mul_continuousOn hg.continuousOn
  have h2 : IntegrableOn (fun x => f x * g x) (Set.Icc (-r) r) := by
    rw [integrableOn_Icc_iff_integrableOn_Ioc]
    exact (intervalIntegrable_iff_integrableOn_Ioc_of_le (by linarith)).mp h1
  refine ⟨(integrableOn_iff_integrable_of_support_subset fun x hx => ?_).mp h2, ?_⟩
  · by_contra hc
    exact hx (h0 x hc)
  · rw [intervalIntegral.integral_of_le (by linarith), ← integral_Icc_eq_integral_Ioc,
      setIntegral_eq_integral_of_forall_compl_eq_zero h0]

theorem kernel_interval (K : ℕ → ℕ → ℝ) {k : Kernel} (hk : k.Poly) :
    IntervalIntegrable (k.xval K) volume (-k.xrange) k.xrange := by
  have ext : ∀ (f : ℝ → ℝ) (r : ℝ), (∀ x, f (-x) = f x) → IntervalIntegrable f volume 0 r →
      IntervalIntegrable f volume (-r) r := by
    intro f r hf hi
    have h0 := IntervalIntegrable.iff_comp_neg (f := f) (a := 0) (b := r)
    simp only [hf, neg_zero] at h0
    exact (h0.mp hi).symm.trans hi
  refine ext _ _ (C53_even K k) ?_
  rcases hk with rfl | rfl | rfl
  · exact (piece _ _ (poly5_continuous ..) 0 1 (by norm_num) (linear_piece K)).1
  · exact (piece _ _ (poly5_continuous ..) 0 1 (by norm_num) (cubic_p1 K)).1.trans
      (piece _ _ (poly5_continuous ..) 1 2 (by norm_num) (cubic_p2 K)).1
  · exact ((piece _ _ (poly5_continuous ..) 0 1 (by norm_num) (quintic_p1 K)).1.trans
      (piece _ _ (poly5_continuous ..) 1 2 (by norm_num) (quintic_p2 K)).1).trans
      (piece _ _ (poly5_continuous ..) 2 3 (by norm_num) (quintic_p3 K)).1

theorem kernel_mul (K : ℕ → ℕ → ℝ) {k : Kernel} (hk : k.Poly) {g : ℝ → ℝ} (hg : Continuous g) :
    Integrable (fun x => k.xval K x * g x) ∧ ∫ x, k.xval K x * g x = ∫ x in (-k.xrange)..k.xrange, k.xval K x * g x := by
  refine compact_mul ?_ ?_ (kernel_interval K hk) hg
  · rcases hk with rfl | rfl | rfl <;> simp [Kernel.xrange]
  · intro x hx
    refine C53_support K k ?_ ?_ x hx <;> rcases hk with rfl | rfl | rfl <;> simp

theorem odd_integral (f : ℝ → ℝ) (hf : ∀ x, f (-x) = -f x) : ∫ x, f x = 0 := by
  have h := integral_neg_eq_self f volume
  simp only [hf, integral_neg] at h
  linarith

/-- What is used of a kernel: it is integrable with its first moment, has unit integral and first moment 0. -/
structure Unit1 (f : ℝ → ℝ) : Prop where
  int : Integrable f
  int1 : Integrable fun x => f x * x
  one : ∫ x, f x = 1
  zero : ∫ x, f x * x = 0

theorem kernel_unit (K : ℕ → ℕ → ℝ) {k : Kernel} (hk : k.Poly) : Unit1 (k.xval K) := by
  have h1 := kernel_mul K hk (g := fun _ => 1) continuous_const
  simp only [mul_one] at h1
  refine ⟨h1.1, (kernel_mul K hk (g := fun x => x) continuous_id).1, ?_, ?_⟩
  · rw [h1.2, C71_unit_flux K k (Or.inr hk)]
  · exact odd_integral _ fun x => by rw [C53_even]; ring

/-- The integral of a linear function times the product kernel centred at `(-a, -b)`. -/
theorem plane_moment {f : ℝ → ℝ} (h : Unit1 f) (α β γ a b : ℝ) :
    Integrable (fun q : ℝ × ℝ => (α + β * q.1 + γ * q.2) * (f (a + q.1) * f (b + q.2))) ∧
    ∫ q : ℝ × ℝ, (α + β * q.1 + γ * q.2) * (f (a + q.1) * f (b + q.2)) = α - β * a - γ * b := by
  have e : (fun q : ℝ × ℝ => (α + β * q.1 + γ * q.2) * (f (a + q.1) * f (b + q.2))) =
      fun q => (fun p : ℝ × ℝ => (α - β * a - γ * b) * (f p.1 * f p.2) +
        (β * ((f p.1 * p.1) * f p.2) + γ * (f p.1 * (f p.2 * p.2)))) ((a, b) + q) := by
    funext q
    simp only [Prod.fst_add, Prod.snd_add]
    ring
  have i0 := (h.int.mul_prod h.int).const_mul (α - β * a - γ * b)
  have i1 := (h.int1.mul_prod h.int).const_mul β
  have i2 := (h.int.mul_prod h.int1).const_mul γ
  rw [← Measure.volume_eq_prod] at i0 i1 i2
  have i3 : Integrable (fun p : ℝ × ℝ => β * ((f p.1 * p.1) * f p.2) + γ * (f p.1 * (f p.2 * p.2))) := i1.add i2
  rw [e]
  refine ⟨(i0.add i3).comp_add_left (a, b), ?_⟩
  rw [integral_add_left_eq_self (fun p : ℝ × ℝ => (α - β * a - γ * b) * (f p.1 * f p.2) +
        (β * ((f p.1 * p.1) * f p.2) + γ * (f p.1 * (f p.2 * p.2)))) (a, b),
    integral_add i0 i3, integral_add i1 i2, integral_const_mul, integral_const_mul, integral_const_mul,
    Measure.volume_eq_prod, integral_prod_mul (fun x => f x) (fun x => f x),
    integral_prod_mul (fun x => f x * x) (fun x => f x), integral_prod_mul (fun x => f x) (fun x => f x * x), h.one, h.zero]
  ring

/-- The Fourier transform in one dimension: the formula of the code. -/
noncomputable def Kernel.polyUval : Kernel → ℝ → ℝ
  | .linear => linearUval
  | .cubic => cubicUval
  | .quintic => quinticUval
  | _ => fun _ => 0

theorem kernel_fourier (K : ℕ → ℕ → ℝ) {k : Kernel} (hk : k.Poly) (w : ℝ) :
    Integrable (fun x : ℝ => ((k.xval K x : ℝ) : ℂ) * Complex.exp (-Complex.I * ((w * x : ℝ) : ℂ))) ∧
    ∫ x : ℝ, ((k.xval K x : ℝ) : ℂ) * Complex.exp (-Complex.I * ((w * x : ℝ) : ℂ)) = ((kvalOf k.polyUval w : ℝ) : ℂ) := by
  have hc := kernel_mul K hk (g := fun x => Real.cos (w * x)) (by fun_prop)
  have hs := kernel_mul K hk (g := fun x => Real.sin (w * x)) (by fun_prop)
  have e : (fun x : ℝ => ((k.xval K x : ℝ) : ℂ) * Complex.exp (-Complex.I * ((w * x : ℝ) : ℂ))) =
      fun x => ((k.xval K x * Real.cos (w * x) : ℝ) : ℂ) - ((k.xval K x * Real.sin (w * x) : ℝ) : ℂ) * Complex.I := by
    funext x
    rw [show -Complex.I * ((w * x : ℝ) : ℂ) = ((-(w * x) : ℝ) : ℂ) * Complex.I by push_cast; ring, Complex.exp_mul_I,
      ← Complex.ofReal_cos, ← Complex.ofReal_sin, Real.cos_neg, Real.sin_neg]
    push_cast
    ring
  have i1 : Integrable (fun x : ℝ => ((k.xval K x * Real.cos (w * x) : ℝ) : ℂ)) := hc.1.ofReal
  have i2' : Integrable (fun x : ℝ => ((k.xval K x * Real.sin (w * x) : ℝ) : ℂ)) := hs.1.ofReal
  have i2 := i2'.mul_const Complex.I
  rw [e]
  refine ⟨i1.sub i2, ?_⟩
  rw [integral_sub i1 i2, integral_mul_const]
  have z : ∫ x, ((k.xval K x * Real.sin (w * x) : ℝ) : ℂ) = 0 := by
    rw [integral_complex_ofReal, odd_integral _ fun x => by rw [C53_even, mul_neg, Real.sin_neg]; ring, Complex.ofReal_zero]
  have c' : ∫ x, ((k.xval K x * Real.cos (w * x) : ℝ) : ℂ) = ((kvalOf k.polyUval w : ℝ) : ℂ) := by
    rw [integral_complex_ofReal]
    congr 1
    rw [hc.2, kvalOf]
    have hw : ∀ x : ℝ, w * x = 2 * Real.pi * (w / 2 / Real.pi) * x := by
      intro x; have := Real.pi_ne_zero; field_simp
    simp only [hw]
    rcases hk with rfl | rfl | rfl
    · exact C71_linear K _
    · exact C71_cubic K _
    · exact C71_quintic K _
  rw [z, c', zero_mul, sub_zero]

end JG.Interp
