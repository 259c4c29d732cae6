import Verif.Lemmas.SiTaylor
import Mathlib.MeasureTheory.Integral.IntervalIntegral.FundThmCalculus
import Mathlib.Analysis.SpecialFunctions.Integrals.Basic
import Mathlib.Tactic.LinearCombination

/-! The Fourier transform of a product of two sinc functions on an interval, by the sine integral. -/

namespace JG.Lz
open Real intervalIntegral JG.Si

/-- `(1 - cos (a x)) / x²`, continued to `x = 0`. -/
noncomputable def vers (a x : ℝ) : ℝ := a ^ 2 / 2 * sinc (a * x / 2) ^ 2

theorem vers_mul (a x : ℝ) : vers a x * x ^ 2 = 1 - cos (a * x) := by
  have h : 1 - cos (a * x) = 2 * sin (a * x / 2) ^ 2 := by
    have h1 := cos_two_mul (a * x / 2)
    have h2 := sin_sq_add_cos_sq (a * x / 2)
    rw [show 2 * (a * x / 2) = a * x by ring] at h1
    linear_combination -h1 - 2 * h2
  rw [h, vers]
  rcases eq_or_ne (a * x / 2) 0 with h0 | h0
  · have : a * x = 0 := by linarith
    rw [h0, sinc_zero, sin_zero]
    linear_combination a * x / 2 * this
  · have e : sinc (a * x / 2) * (a * x / 2) = sin (a * x / 2) := by
      rw [sinc_of_ne_zero h0, div_mul_cancel₀ _ h0]
    rw [← e]; ring

theorem vers_continuous (a : ℝ) : Continuous (vers a) := by
  unfold vers
  have := continuous_sinc
  fun_prop

/-- A primitive of `vers a`. -/
noncomputable def versPrim (a x : ℝ) : ℝ := a * sinInt (a * x) - x * vers a x

theorem versPrim_deriv (a x : ℝ) : HasDerivAt (versPrim a) (vers a x) x := by
  have h1 : HasDerivAt (fun x => a * sinInt (a * x)) (a * (sinc (a * x) * a)) x := by
    have h := (sinInt_deriv (a * x)).comp x ((hasDerivAt_id x).const_mul a)
    simpa using h.const_mul a
  rcases eq_or_ne x 0 with h0 | h0
  · subst h0
    have h2 : HasDerivAt (fun x => x * vers a x) (vers a 0) 0 := by
      rw [hasDerivAt_iff_tendsto_slope]
      have hc : Filter.Tendsto (vers a) (nhdsWithin 0 {0}ᶜ) (nhds (vers a 0)) :=
        ((vers_continuous a).tendsto 0).mono_left nhdsWithin_le_nhds
      refine hc.congr' ?_
      filter_upwards [self_mem_nhdsWithin] with y hy
      have hy' : y ≠ 0 := hy
      rw [slope_def_field]
      field_simp
      simp
    have h := h1.fun_sub h2
    refine h.congr_deriv ?_
    rw [mul_zero, sinc_zero, vers]
    simp
    ring
  · have e : (fun x => x * vers a x) =ᶠ[nhds x] fun x => (1 - cos (a * x)) / x := by
      filter_upwards [isOpen_ne.mem_nhds h0] with y hy
      have hy' : y ≠ 0 := hy
      rw [← vers_mul a y]
      field_simp
    have h2 : HasDerivAt (fun x => (1 - cos (a * x)) / x) ((sin (a * x) * a * x - (1 - cos (a * x)) * 1) / x ^ 2) x := by
      have hc := ((hasDerivAt_cos (a * x)).comp x ((hasDerivAt_id x).const_mul a)).const_sub 1
      have hc' : HasDerivAt (fun x => 1 - cos (a * x)) (sin (a * x) * a) x := by
        refine hc.congr_deriv ?_
        simp
      exact hc'.fun_div (hasDerivAt_id x) h0
    have h := h1.fun_sub (h2.congr_of_eventuallyEq e)
    refine h.congr_deriv ?_
    have hs : sinc (a * x) * (a * x) = sin (a * x) := by
      rcases eq_or_ne (a * x) 0 with h | h
      · rw [h]; simp
      · rw [sinc_of_ne_zero h, div_mul_cancel₀ _ h]
    rw [← vers_mul a x, ← hs]
    field_simp
    ring

theorem vers_integral (a : ℝ) {N : ℝ} (hN : 0 < N) :
    ∫ x in (-N)..N, vers a x = 2 * a * sinInt (a * N) - 2 * (1 - cos (a * N)) / N := by
  rw [integral_eq_sub_of_hasDerivAt (fun x _ => versPrim_deriv a x) ((vers_continuous a).intervalIntegrable _ _)]
  have h1 : N * vers a N = (1 - cos (a * N)) / N := by rw [← vers_mul a N]; field_simp
  have h2 : -N * vers a (-N) = -((1 - cos (a * N)) / N) := by
    have := vers_mul a (-N)
    rw [mul_neg, cos_neg] at this
    rw [← this]; field_simp
  rw [versPrim, versPrim, h1, h2, mul_neg, sinInt_neg]
  ring

/-- The product of two sinc functions and a cosine as a sum of four functions `vers`. -/
theorem kernel_eq (N u x : ℝ) (hN : N ≠ 0) :
    sinc (π * x) * sinc (π * (x / N)) * cos (2 * π * u * x) =
      N / (4 * π ^ 2) * (vers (π * (1 + 1 / N + 2 * u)) x + vers (π * (1 + 1 / N - 2 * u)) x
        - vers (π * (1 - 1 / N + 2 * u)) x - vers (π * (1 - 1 / N - 2 * u)) x) := by
  rcases eq_or_ne x 0 with h0 | h0
  · subst h0
    simp only [vers, mul_zero, zero_div, sinc_zero, cos_zero]
    field_simp
    ring
  · have hp := pi_ne_zero
    have e1 : sinc (π * x) * (π * x) = sin (π * x) := by
      rw [sinc_of_ne_zero (by positivity), div_mul_cancel₀ _ (by positivity)]
    have e2 : sinc (π * (x / N)) * (π * (x / N)) = sin (π * (x / N)) := by
      rw [sinc_of_ne_zero (by positivity), div_mul_cancel₀ _ (by positivity)]
    have hx2 : x ^ 2 ≠ 0 := by positivity
    apply mul_right_cancel₀ hx2
    have r : N / (4 * π ^ 2) * (vers (π * (1 + 1 / N + 2 * u)) x + vers (π * (1 + 1 / N - 2 * u)) x
        - vers (π * (1 - 1 / N + 2 * u)) x - vers (π * (1 - 1 / N - 2 * u)) x) * x ^ 2 =
        N / (4 * π ^ 2) * (cos (π * (1 - 1 / N + 2 * u) * x) + cos (π * (1 - 1 / N - 2 * u) * x)
          - cos (π * (1 + 1 / N + 2 * u) * x) - cos (π * (1 + 1 / N - 2 * u) * x)) := by
      linear_combination N / (4 * π ^ 2) * (vers_mul (π * (1 + 1 / N + 2 * u)) x + vers_mul (π * (1 + 1 / N - 2 * u)) x
        - vers_mul (π * (1 - 1 / N + 2 * u)) x - vers_mul (π * (1 - 1 / N - 2 * u)) x)
    rw [r]
    have l : sinc (π * x) * sinc (π * (x / N)) * cos (2 * π * u * x) * x ^ 2 =
        N / π ^ 2 * (sin (π * x) * sin (π * (x / N)) * cos (2 * π * u * x)) := by
      rw [← e1, ← e2]; field_simp
    rw [l, show π * (1 - 1 / N + 2 * u) * x = π * x - π * (x / N) + 2 * π * u * x by field_simp,
      show π * (1 - 1 / N - 2 * u) * x = π * x - π * (x / N) - 2 * π * u * x by field_simp,
      show π * (1 + 1 / N + 2 * u) * x = π * x + π * (x / N) + 2 * π * u * x by field_simp,
      show π * (1 + 1 / N - 2 * u) * x = π * x + π * (x / N) - 2 * π * u * x by field_simp]
    simp only [cos_add, cos_sub, sin_add, sin_sub]
    field_simp
    ring

/-- `y Si(y)`. -/
noncomputable def ySi (y : ℝ) : ℝ := y * sinInt y

theorem ySi_neg (y : ℝ) : ySi (-y) = ySi y := by rw [ySi, ySi, sinInt_neg]; ring

/-- The Fourier transform of `sinc x · sinc (x/n)` on `[-n, n]`. -/
theorem kernel_integral (n : ℕ) (hn : 1 ≤ n) (u : ℝ) :
    ∫ x in (-(n : ℝ))..n, sinc (π * x) * sinc (π * (x / n)) * cos (2 * π * u * x) =
      (ySi (π * (n * (2 * u - 1) - 1)) - ySi (π * (n * (2 * u - 1) + 1)) - ySi (π * (n * (2 * u + 1) - 1))
        + ySi (π * (n * (2 * u + 1) + 1))) / (2 * π ^ 2) := by
  have hN : (0 : ℝ) < n := by exact_mod_cast hn
  have hN' := hN.ne'
  have ii : ∀ a, IntervalIntegrable (vers a) MeasureTheory.volume (-(n : ℝ)) n := fun a => (vers_continuous a).intervalIntegrable _ _
  have e : ∀ x : ℝ, sinc (π * x) * sinc (π * (x / n)) * cos (2 * π * u * x) = _ := fun x => kernel_eq n u x hN'
  simp_rw [e]
  rw [integral_const_mul, integral_sub (((ii _).add (ii _)).sub (ii _)) (ii _), integral_sub ((ii _).add (ii _)) (ii _),
    integral_add (ii _) (ii _), vers_integral _ hN, vers_integral _ hN, vers_integral _ hN, vers_integral _ hN]
  have s1 : ∀ b : ℝ, 2 * (π * (1 + 1 / n + b)) * sinInt (π * (1 + 1 / n + b) * n) = 2 / n * ySi (π * (n * (b + 1) + 1)) := by
    intro b
    rw [ySi, show π * (1 + 1 / (n : ℝ) + b) * n = π * (n * (b + 1) + 1) by field_simp; ring]
    field_simp
    ring
  have s2 : ∀ b : ℝ, 2 * (π * (1 - 1 / n + b)) * sinInt (π * (1 - 1 / n + b) * n) = 2 / n * ySi (π * (n * (b + 1) - 1)) := by
    intro b
    rw [ySi, show π * (1 - 1 / (n : ℝ) + b) * n = π * (n * (b + 1) - 1) by field_simp; ring]
    field_simp
    ring
  have c1 : cos (π * (1 + 1 / n + 2 * u) * n) = cos (π * (1 - 1 / n + 2 * u) * n) := by
    rw [show π * (1 + 1 / (n : ℝ) + 2 * u) * n = π * (1 - 1 / n + 2 * u) * n + 2 * π by field_simp; ring, cos_add_two_pi]
  have c2 : cos (π * (1 + 1 / n - 2 * u) * n) = cos (π * (1 - 1 / n - 2 * u) * n) := by
    rw [show π * (1 + 1 / (n : ℝ) - 2 * u) * n = π * (1 - 1 / n - 2 * u) * n + 2 * π by field_simp; ring, cos_add_two_pi]
  have t1 := s1 (2 * u)
  have t2 := s1 (-(2 * u))
  have t3 := s2 (2 * u)
  have t4 := s2 (-(2 * u))
  rw [← sub_eq_add_neg] at t2 t4
  rw [t1, t2, t3, t4, c1, c2]
  rw [show π * (n * (-(2 * u) + 1) + 1) = -(π * (n * (2 * u - 1) - 1)) by ring,
    show π * (n * (-(2 * u) + 1) - 1) = -(π * (n * (2 * u - 1) + 1)) by ring, ySi_neg, ySi_neg]
  field_simp
  ring

end JG.Lz
