import Verif.Lemmas.Bessel
import Mathlib.Analysis.SpecialFunctions.Gaussian.FourierTransform
import Mathlib.MeasureTheory.Integral.Prod
import Mathlib.MeasureTheory.Measure.Lebesgue.Integral

/-!
Fourier transforms in the plane: Gaussians and mixtures of Gaussians.
-/

open MeasureTheory Set

namespace JG.Elt

/-- `e^{-i k·p}`. -/
noncomputable def wave (k p : ℝ × ℝ) : ℂ := Complex.exp (-Complex.I * (k.1 * p.1 + k.2 * p.2 : ℝ))

theorem wave_split (k p : ℝ × ℝ) : wave k p =
    Complex.exp (Complex.I * ((-k.1 : ℝ) : ℂ) * p.1) * Complex.exp (Complex.I * ((-k.2 : ℝ) : ℂ) * p.2) := by
  unfold wave
  rw [← Complex.exp_add]
  congr 1
  push_cast
  ring

theorem norm_wave (k p : ℝ × ℝ) : ‖wave k p‖ = 1 := by
  unfold wave
  rw [show -Complex.I * ((k.1 * p.1 + k.2 * p.2 : ℝ) : ℂ) = ((-(k.1 * p.1 + k.2 * p.2) : ℝ) : ℂ) * Complex.I by
    push_cast; ring]
  exact Complex.norm_exp_ofReal_mul_I _

theorem continuous_wave (k : ℝ × ℝ) : Continuous (wave k) := by
  unfold wave
  fun_prop

theorem gauss_integrable {a : ℝ} (ha : 0 < a) :
    Integrable (fun p : ℝ × ℝ => Real.exp (-a * (p.1 ^ 2 + p.2 ^ 2))) := by
  have := (integrable_exp_neg_mul_sq ha).mul_prod (integrable_exp_neg_mul_sq ha)
  refine this.congr (Filter.Eventually.of_forall fun p => ?_)
  simp only
  rw [← Real.exp_add]
  ring_nf

theorem gauss_integral {a : ℝ} (ha : 0 < a) :
    ∫ p : ℝ × ℝ, Real.exp (-a * (p.1 ^ 2 + p.2 ^ 2)) = Real.pi / a := by
  have h := integral_prod_mul (μ := volume) (ν := volume) (fun x : ℝ => Real.exp (-a * x ^ 2))
    (fun x : ℝ => Real.exp (-a * x ^ 2))
  rw [integral_gaussian, Real.mul_self_sqrt (by have := Real.pi_pos; positivity)] at h
  rw [← h]
  refine integral_congr_ae (Filter.Eventually.of_forall fun p => ?_)
  simp only
  rw [← Real.exp_add]
  ring_nf

theorem gauss_fourier_line {a : ℝ} (ha : 0 < a) (t : ℝ) :
    ∫ x : ℝ, Complex.exp (Complex.I * ((-t : ℝ) : ℂ) * x) * Complex.exp (-(a : ℂ) * (x : ℂ) ^ 2) =
      ((Real.sqrt (Real.pi / a) * Real.exp (-t ^ 2 / (4 * a)) : ℝ) : ℂ) := by
  rw [fourierIntegral_gaussian (b := (a : ℂ)) (by simpa using ha)]
  have hp : 0 ≤ Real.pi / a := by have := Real.pi_pos; positivity
  rw [show ((Real.pi : ℂ) / (a : ℂ)) = ((Real.pi / a : ℝ) : ℂ) by push_cast; rfl,
    show (1 / 2 : ℂ) = ((1 / 2 : ℝ) : ℂ) by push_cast; rfl, ← Complex.ofReal_cpow hp, ← Real.sqrt_eq_rpow]
  push_cast
  congr 2
  ring

/-- The transform of a Gaussian. -/
theorem gauss_fourier {a : ℝ} (ha : 0 < a) (k : ℝ × ℝ) :
    ∫ p : ℝ × ℝ, (Real.exp (-a * (p.1 ^ 2 + p.2 ^ 2)) : ℂ) * wave k p =
      ((Real.pi / a * Real.exp (-(k.1 ^ 2 + k.2 ^ 2) / (4 * a)) : ℝ) : ℂ) := by
  have h := integral_prod_mul (μ := volume) (ν := volume)
    (fun x : ℝ => Complex.exp (Complex.I * ((-k.1 : ℝ) : ℂ) * x) * Complex.exp (-(a : ℂ) * (x : ℂ) ^ 2))
    (fun x : ℝ => Complex.exp (Complex.I * ((-k.2 : ℝ) : ℂ) * x) * Complex.exp (-(a : ℂ) * (x : ℂ) ^ 2))
  rw [gauss_fourier_line ha, gauss_fourier_line ha] at h
  have e : ((Real.sqrt (Real.pi / a) * Real.exp (-k.1 ^ 2 / (4 * a)) : ℝ) : ℂ) *
      ((Real.sqrt (Real.pi / a) * Real.exp (-k.2 ^ 2 / (4 * a)) : ℝ) : ℂ) =
      ((Real.pi / a * Real.exp (-(k.1 ^ 2 + k.2 ^ 2) / (4 * a)) : ℝ) : ℂ) := by
    rw [← Complex.ofReal_mul]
    congr 1
    have hp : 0 ≤ Real.pi / a := by have := Real.pi_pos; positivity
    rw [show -(k.1 ^ 2 + k.2 ^ 2) / (4 * a) = -k.1 ^ 2 / (4 * a) + -k.2 ^ 2 / (4 * a) by ring, Real.exp_add]
    have := Real.mul_self_sqrt hp
    calc _ = (Real.sqrt (Real.pi / a) * Real.sqrt (Real.pi / a)) *
          (Real.exp (-k.1 ^ 2 / (4 * a)) * Real.exp (-k.2 ^ 2 / (4 * a))) := by ring
      _ = _ := by rw [this]
  rw [← e, ← h]
  refine integral_congr_ae (Filter.Eventually.of_forall fun p => ?_)
  simp only
  rw [wave_split, Complex.ofReal_exp]
  rw [show ((-a * (p.1 ^ 2 + p.2 ^ 2) : ℝ) : ℂ) = -(a : ℂ) * (p.1 : ℂ) ^ 2 + -(a : ℂ) * (p.2 : ℂ) ^ 2 by
    push_cast; ring, Complex.exp_add]
  ring

/-- Data of a mixture of Gaussians: weights `w` and inverse widths `a` on the positive axis. -/
structure Mixture (w a : ℝ → ℝ) : Prop where
  pos : ∀ t, 0 < t → 0 < a t
  meas : Measurable w
  measA : Measurable a
  int : IntegrableOn (fun t => |w t| * (Real.pi / a t)) (Ioi 0)

theorem Mixture.joint {w a : ℝ → ℝ} (h : Mixture w a) :
    Integrable (fun z : ℝ × ℝ × ℝ => w z.1 * Real.exp (-a z.1 * (z.2.1 ^ 2 + z.2.2 ^ 2)))
      ((volume.restrict (Ioi 0)).prod volume) := by
  have hm := h.meas
  have hma := h.measA
  have hmeas : AEStronglyMeasurable (fun z : ℝ × ℝ × ℝ => w z.1 * Real.exp (-a z.1 * (z.2.1 ^ 2 + z.2.2 ^ 2)))
      ((volume.restrict (Ioi 0)).prod volume) := by
    apply Measurable.aestronglyMeasurable
    fun_prop
  rw [integrable_prod_iff hmeas]
  constructor
  · filter_upwards [ae_restrict_mem measurableSet_Ioi] with t ht
    exact (gauss_integrable (h.pos t ht)).const_mul _
  · refine h.int.congr_fun (fun t ht => ?_) measurableSet_Ioi
    simp only [norm_mul, Real.norm_eq_abs, Real.abs_exp]
    rw [integral_const_mul, gauss_integral (h.pos t ht)]

/-- The function described by a mixture. -/
noncomputable def mix (w a : ℝ → ℝ) (p : ℝ × ℝ) : ℝ := ∫ t in Ioi (0 : ℝ), w t * Real.exp (-a t * (p.1 ^ 2 + p.2 ^ 2))

theorem Mixture.integrable {w a : ℝ → ℝ} (h : Mixture w a) : Integrable (mix w a) :=
  h.joint.integral_prod_right

/-- The transform of a mixture. -/
theorem Mixture.fourier {w a : ℝ → ℝ} (h : Mixture w a) (k : ℝ × ℝ) :
    ∫ p : ℝ × ℝ, (mix w a p : ℂ) * wave k p =
      ((∫ t in Ioi (0 : ℝ), w t * (Real.pi / a t * Real.exp (-(k.1 ^ 2 + k.2 ^ 2) / (4 * a t))) : ℝ) : ℂ) := by
  have hj : Integrable (fun z : ℝ × ℝ × ℝ =>
      ((w z.1 * Real.exp (-a z.1 * (z.2.1 ^ 2 + z.2.2 ^ 2)) : ℝ) : ℂ) * wave k z.2)
      ((volume.restrict (Ioi 0)).prod volume) := by
    refine (h.joint.ofReal (𝕜 := ℂ)).mul_bdd (c := 1) ?_ ?_
    · exact ((continuous_wave k).comp continuous_snd).aestronglyMeasurable
    · exact Filter.Eventually.of_forall fun z => (norm_wave k z.2).le
  have hs := integral_integral_swap (μ := volume.restrict (Ioi (0 : ℝ))) (ν := (volume : Measure (ℝ × ℝ)))
    (f := fun t p => ((w t * Real.exp (-a t * (p.1 ^ 2 + p.2 ^ 2)) : ℝ) : ℂ) * wave k p) hj
  have e1 : ∫ p : ℝ × ℝ, (mix w a p : ℂ) * wave k p =
      ∫ p : ℝ × ℝ, ∫ t in Ioi (0 : ℝ), ((w t * Real.exp (-a t * (p.1 ^ 2 + p.2 ^ 2)) : ℝ) : ℂ) * wave k p := by
    refine integral_congr_ae (Filter.Eventually.of_forall fun p => ?_)
    simp only
    rw [mix, ← integral_complex_ofReal, integral_mul_const]
  rw [e1, ← hs, ← integral_complex_ofReal]
  refine setIntegral_congr_fun measurableSet_Ioi fun t ht => ?_
  have := gauss_fourier (h.pos t ht) k
  calc _ = ∫ p : ℝ × ℝ, (w t : ℂ) * ((Real.exp (-a t * (p.1 ^ 2 + p.2 ^ 2)) : ℂ) * wave k p) := by
        refine integral_congr_ae (Filter.Eventually.of_forall fun p => ?_)
        simp only
        push_cast
        ring
    _ = (w t : ℂ) * ∫ p : ℝ × ℝ, ((Real.exp (-a t * (p.1 ^ 2 + p.2 ^ 2)) : ℂ) * wave k p) := integral_const_mul _ _
    _ = _ := by
        rw [this]
        push_cast
        ring

end JG.Elt
