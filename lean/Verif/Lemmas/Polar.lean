import Mathlib.Analysis.SpecialFunctions.PolarCoord
import Mathlib.MeasureTheory.Integral.IntervalIntegral.Basic
import Mathlib.MeasureTheory.Integral.Prod

/-! Integrals of axisymmetric functions over a disc and over the plane. -/

namespace JG

open MeasureTheory Set

/-- The disc of radius `R`. -/
def disc (R : ℝ) : Set (ℝ × ℝ) := {p | p.1 ^ 2 + p.2 ^ 2 < R ^ 2}

theorem measurable_disc (R : ℝ) : MeasurableSet (disc R) := by
  apply measurableSet_lt <;> fun_prop

theorem polar_radius (p : ℝ × ℝ) : (polarCoord.symm p).1 ^ 2 + (polarCoord.symm p).2 ^ 2 = p.1 ^ 2 := by
  simp only [polarCoord_symm_apply]
  nlinarith [Real.sin_sq_add_cos_sq p.2]

theorem polar_split (g : ℝ → ℝ) :
    ∫ p in polarCoord.target, p.1 • g p.1 = 2 * Real.pi * ∫ r in Ioi (0 : ℝ), r * g r := by
  have h := setIntegral_prod_mul (μ := volume) (ν := volume) (fun r : ℝ => r * g r) (fun _ : ℝ => (1 : ℝ)) (Ioi 0)
    (Ioo (-Real.pi) Real.pi)
  have e : polarCoord.target = Ioi (0 : ℝ) ×ˢ Ioo (-Real.pi) Real.pi := rfl
  rw [e]
  simp only [mul_one] at h
  have hv : (volume : Measure (ℝ × ℝ)) = (volume : Measure ℝ).prod volume := rfl
  rw [hv]
  simp only [smul_eq_mul]
  rw [h]
  have : ∫ _ in Ioo (-Real.pi) Real.pi, (1 : ℝ) = 2 * Real.pi := by
    rw [setIntegral_const, Real.volume_real_Ioo_of_le (by linarith [Real.pi_pos])]
    simp
    ring
  rw [this]
  ring

theorem plane_integral (h : ℝ → ℝ) :
    ∫ p : ℝ × ℝ, h (Real.sqrt (p.1 ^ 2 + p.2 ^ 2)) = 2 * Real.pi * ∫ r in Ioi (0 : ℝ), r * h r := by
  rw [← integral_comp_polarCoord_symm, ← polar_split]
  refine setIntegral_congr_fun polarCoord.open_target.measurableSet fun p hp => ?_
  have hp0 : 0 < p.1 := hp.1
  rw [polar_radius, Real.sqrt_sq hp0.le]

theorem disc_integral (h : ℝ → ℝ) {R : ℝ} (hR : 0 ≤ R) :
    ∫ p in disc R, h (Real.sqrt (p.1 ^ 2 + p.2 ^ 2)) = 2 * Real.pi * ∫ r in (0 : ℝ)..R, r * h r := by
  have h1 : ∫ p in disc R, h (Real.sqrt (p.1 ^ 2 + p.2 ^ 2)) =
      ∫ p : ℝ × ℝ, (Iio R).indicator h (Real.sqrt (p.1 ^ 2 + p.2 ^ 2)) := by
    rw [← integral_indicator (measurable_disc R)]
    refine integral_congr_ae (Filter.Eventually.of_forall fun p => ?_)
    have hiff : Real.sqrt (p.1 ^ 2 + p.2 ^ 2) < R ↔ p.1 ^ 2 + p.2 ^ 2 < R ^ 2 := by
      rcases eq_or_lt_of_le hR with h0 | h0
      · rw [← h0]
        have a := Real.sqrt_nonneg (p.1 ^ 2 + p.2 ^ 2)
        constructor
        · intro h; linarith
        · intro h; nlinarith [sq_nonneg p.1, sq_nonneg p.2]
      · exact Real.sqrt_lt' h0
    by_cases hc : p.1 ^ 2 + p.2 ^ 2 < R ^ 2
    · rw [indicator_of_mem (show p ∈ disc R from hc)]; exact (indicator_of_mem (show _ ∈ Iio R from hiff.mpr hc) h).symm
    · rw [indicator_of_notMem (show p ∉ disc R from hc)]; exact (indicator_of_notMem (show _ ∉ Iio R from fun h => hc (hiff.mp h)) h).symm
  rw [h1, plane_integral]
  congr 1
  rw [intervalIntegral.integral_of_le hR, integral_Ioc_eq_integral_Ioo, ← Ioi_inter_Iio]
  have h2 : ∀ r : ℝ, r * (Iio R).indicator h r = (Iio R).indicator (fun r => r * h r) r := by
    intro r
    simp only [indicator]
    split <;> simp
  simp only [h2]
  rw [setIntegral_indicator measurableSet_Iio]

end JG
