import Verif.Model.Elementary
import Verif.Lemmas.Polar
import Mathlib.Analysis.Complex.ExponentialBounds
import Mathlib.Analysis.SpecialFunctions.Integrals.Basic
import Mathlib.Analysis.SpecialFunctions.Pow.Deriv
import Mathlib.MeasureTheory.Integral.IntegralEqImproper
import Mathlib.Analysis.Real.Pi.Bounds
import Mathlib.Analysis.SpecialFunctions.Exponential

/-! Size parametrisations of the elementary profiles (C61). -/

namespace JG.Elt

open MeasureTheory Set

/-- Specification: how many of the sizes are given. -/
def given (l : List (Option ℝ)) : ℕ := (l.filter Option.isSome).length

/-- Specification: the flux of a surface brightness inside radius `R`, a plane integral. -/
noncomputable def fluxWithin (f : ℝ × ℝ → ℝ) (R : ℝ) : ℝ := ∫ p in disc R, f p

/-! ### Gaussian -/

/-- C61: a Gaussian is built exactly when one size is given, and reports back that size. -/
theorem C61_gaussian (hlr sigma fwhm : Option ℝ) (flux : ℝ) (gs : GSP) :
    ((Gaussian.init hlr sigma fwhm flux gs).isSome ↔ given [hlr, sigma, fwhm] = 1) ∧
    ∀ g, Gaussian.init hlr sigma fwhm flux gs = some g →
      g.flux = flux ∧ g.gs = gs ∧ (∀ v, hlr = some v → g.hlr = v) ∧ (∀ v, sigma = some v → g.sigma = v) ∧
      (∀ v, fwhm = some v → g.fwhm = v) := by
  have h1 : gaussHlrFactor ≠ 0 := by unfold gaussHlrFactor; norm_num
  have h2 : gaussFwhmFactor ≠ 0 := by unfold gaussFwhmFactor; norm_num
  cases hlr <;> cases sigma <;> cases fwhm <;>
    simp [Gaussian.init, given, Gaussian.hlr, Gaussian.fwhm, h1, h2]

example (gs : GSP) : ∃ g, Gaussian.init (some 3) none none 2 gs = some g ∧ g.hlr = 3 ∧ g.flux = 2 :=
  ⟨_, rfl, ((C61_gaussian (some 3) none none 2 gs).2 _ rfl).2.2.1 3 rfl, rfl⟩

/-! ### Exponential -/

/-- C61: an exponential profile is built exactly when one size is given, and reports back that size. -/
theorem C61_exponential (hlr scale : Option ℝ) (flux : ℝ) (gs : GSP) :
    ((Exponential.init hlr scale flux gs).isSome ↔ given [hlr, scale] = 1) ∧
    ∀ e, Exponential.init hlr scale flux gs = some e →
      e.flux = flux ∧ e.gs = gs ∧ (∀ v, hlr = some v → e.hlr = v) ∧ (∀ v, scale = some v → e.r0 = v) := by
  have h1 : expHlrFactor ≠ 0 := by unfold expHlrFactor; norm_num
  cases hlr <;> cases scale <;>
    simp [Exponential.init, given, Exponential.hlr, h1]

example (gs : GSP) : ∃ e, Exponential.init (some 3) none 2 gs = some e ∧ e.hlr = 3 ∧ e.flux = 2 :=
  ⟨_, rfl, ((C61_exponential (some 3) none 2 gs).2 _ rfl).2.2.1 3 rfl, rfl⟩

/-! ### Flux inside a radius -/

theorem two_pi_inv : |2 * Real.pi * invTwoPi - 1| ≤ 1e-15 := by
  unfold invTwoPi
  have h1 := Real.pi_gt_d20
  have h2 := Real.pi_lt_d20
  rw [abs_le]
  constructor <;> norm_num at h1 h2 ⊢ <;> linarith

theorem gauss_antideriv (s r : ℝ) (hs : s ≠ 0) :
    HasDerivAt (fun r : ℝ => -(s ^ 2) * Real.exp (-0.5 * r ^ 2 * (1 / s ^ 2)))
      (r * Real.exp (-0.5 * r ^ 2 * (1 / s ^ 2))) r := by
  have h1 : HasDerivAt (fun r : ℝ => -0.5 * r ^ 2 * (1 / s ^ 2)) (-0.5 * (2 * r) * (1 / s ^ 2)) r := by
    have := ((hasDerivAt_pow 2 r).const_mul (-0.5)).mul_const (1 / s ^ 2)
    simpa using this
  have h2 := h1.exp.const_mul (-(s ^ 2))
  refine h2.congr_deriv ?_
  field_simp
  ring

/-- C61: the flux of a Gaussian inside radius `R`. -/
theorem C61_gaussian_within (g : Gaussian) (hs : g.sigma ≠ 0) (R : ℝ) (hR : 0 ≤ R) :
    fluxWithin g.xValue R = g.flux * (2 * Real.pi * invTwoPi) * (1 - Real.exp (-(R ^ 2 / (2 * g.sigma ^ 2)))) := by
  have e1 : fluxWithin g.xValue R = ∫ p in disc R, (fun r : ℝ => g.norm * Real.exp (-0.5 * r ^ 2 * (1 / g.sigma ^ 2)))
      (Real.sqrt (p.1 ^ 2 + p.2 ^ 2)) := by
    refine setIntegral_congr_fun (measurable_disc R) fun p _ => ?_
    simp only
    rw [Real.sq_sqrt (by positivity)]
    rfl
  rw [e1, disc_integral (fun r : ℝ => g.norm * Real.exp (-0.5 * r ^ 2 * (1 / g.sigma ^ 2))) hR]
  have e2 : ∀ r : ℝ, r * (g.norm * Real.exp (-0.5 * r ^ 2 * (1 / g.sigma ^ 2))) =
      g.norm * (r * Real.exp (-0.5 * r ^ 2 * (1 / g.sigma ^ 2))) := fun r => by ring
  simp only [e2]
  rw [intervalIntegral.integral_const_mul, intervalIntegral.integral_eq_sub_of_hasDerivAt
    (fun r _ => gauss_antideriv g.sigma r hs) (by apply Continuous.intervalIntegrable; fun_prop)]
  have e3 : -0.5 * R ^ 2 * (1 / g.sigma ^ 2) = -(R ^ 2 / (2 * g.sigma ^ 2)) := by
    field_simp
    ring
  rw [e3]
  unfold Gaussian.norm Gaussian.invSigsq Gaussian.sigsq
  simp
  field_simp
  ring

/-- C61: half of the flux of a Gaussian is inside its half-light radius, and the surface brightness at `fwhm / 2` is half
the central one, up to the precision `10⁻⁹` to which `log 2` is known here. -/
theorem C61_gaussian_half (g : Gaussian) (hs : 0 < g.sigma) :
    |fluxWithin g.xValue g.hlr - g.flux / 2| ≤ 1e-9 * |g.flux| ∧
    ∀ p : ℝ × ℝ, Real.sqrt (p.1 ^ 2 + p.2 ^ 2) = g.fwhm / 2 →
      |g.xValue p - g.xValue (0, 0) / 2| ≤ 1e-9 * |g.xValue (0, 0)| := by
  have key : ∀ a : ℝ, 0.69314718055 ≤ a → a ≤ 0.69314718057 → |Real.exp (-a) - 1 / 2| ≤ 4e-10 := by
    intro a h1 h2
    have l1 := Real.log_two_gt_d9
    have l2 := Real.log_two_lt_d9
    have e : Real.exp (-a) = 1 / 2 * Real.exp (Real.log 2 - a) := by
      rw [Real.exp_sub, Real.exp_log (by norm_num), Real.exp_neg]
      field_simp
    rw [e]
    have hd : |Real.log 2 - a| ≤ 4e-10 := by
      rw [abs_le]
      constructor <;> norm_num at l1 l2 h1 h2 ⊢ <;> linarith
    have hb := Real.abs_exp_sub_one_le (x := Real.log 2 - a) (by linarith [hd, show (4e-10 : ℝ) ≤ 1 by norm_num])
    calc |1 / 2 * Real.exp (Real.log 2 - a) - 1 / 2| = 1 / 2 * |Real.exp (Real.log 2 - a) - 1| := by
          rw [show 1 / 2 * Real.exp (Real.log 2 - a) - 1 / 2 = 1 / 2 * (Real.exp (Real.log 2 - a) - 1) by ring, abs_mul]
          norm_num
      _ ≤ 1 / 2 * (2 * |Real.log 2 - a|) := by gcongr
      _ ≤ 4e-10 := by linarith
  constructor
  · have hh : 0 ≤ g.hlr := by unfold Gaussian.hlr gaussHlrFactor; positivity
    rw [C61_gaussian_within g hs.ne' _ hh]
    have ea : g.hlr ^ 2 / (2 * g.sigma ^ 2) = gaussHlrFactor ^ 2 / 2 := by
      unfold Gaussian.hlr
      field_simp
    rw [ea]
    have k := key (gaussHlrFactor ^ 2 / 2) (by unfold gaussHlrFactor; norm_num) (by unfold gaussHlrFactor; norm_num)
    have hp := two_pi_inv
    generalize Real.exp (-(gaussHlrFactor ^ 2 / 2)) = E at k ⊢
    generalize 2 * Real.pi * invTwoPi = P at hp ⊢
    have : g.flux * P * (1 - E) - g.flux / 2 = g.flux * (P * (1 - E) - 1 / 2) := by ring
    rw [this, abs_mul, mul_comm]
    refine mul_le_mul_of_nonneg_right ?_ (abs_nonneg _)
    rw [abs_le] at k hp ⊢
    norm_num at k hp ⊢
    constructor <;> nlinarith
  · intro p hp
    have h2 : p.1 ^ 2 + p.2 ^ 2 = (g.fwhm / 2) ^ 2 := by rw [← hp, Real.sq_sqrt (by positivity)]
    have e0 : g.xValue (0, 0) = g.norm := by simp [Gaussian.xValue]
    have e1 : g.xValue p = g.norm * Real.exp (-(gaussFwhmFactor ^ 2 / 8)) := by
      unfold Gaussian.xValue
      simp only
      rw [h2]
      congr 2
      unfold Gaussian.fwhm Gaussian.invSigsq Gaussian.sigsq
      field_simp
      ring
    have k := key (gaussFwhmFactor ^ 2 / 8) (by unfold gaussFwhmFactor; norm_num) (by unfold gaussFwhmFactor; norm_num)
    rw [e0, e1, show g.norm * Real.exp (-(gaussFwhmFactor ^ 2 / 8)) - g.norm / 2 =
      g.norm * (Real.exp (-(gaussFwhmFactor ^ 2 / 8)) - 1 / 2) by ring, abs_mul, mul_comm]
    exact mul_le_mul_of_nonneg_right (le_trans k (by norm_num)) (abs_nonneg _)

example (gs : GSP) : |fluxWithin (Gaussian.mk 2 5 gs).xValue (2 * gaussHlrFactor) - 5 / 2| ≤ 1e-9 * |5| :=
  (C61_gaussian_half ⟨2, 5, gs⟩ (by norm_num)).1

theorem exp_antideriv (a r : ℝ) (ha : a ≠ 0) :
    HasDerivAt (fun r : ℝ => -(a ^ 2) * ((1 + r * (1 / a)) * Real.exp (-r * (1 / a)))) (r * Real.exp (-r * (1 / a))) r := by
  have h1 : HasDerivAt (fun r : ℝ => -r * (1 / a)) (-1 * (1 / a)) r := ((hasDerivAt_id r).neg).mul_const (1 / a)
  have h0 : HasDerivAt (fun r : ℝ => 1 + r * (1 / a)) (1 * (1 / a)) r := ((hasDerivAt_id r).mul_const (1 / a)).const_add 1
  have h2 := (h0.mul h1.exp).const_mul (-(a ^ 2))
  refine h2.congr_deriv ?_
  field_simp
  ring

/-- C61: the flux of an exponential profile inside radius `R`. -/
theorem C61_exponential_within (e : Exponential) (hr : 0 < e.r0) (R : ℝ) (hR : 0 ≤ R) :
    fluxWithin e.xValue R =
      e.flux * (2 * Real.pi * invTwoPi) * (1 - (1 + R / e.r0) * Real.exp (-(R / e.r0))) := by
  have e1 : fluxWithin e.xValue R = ∫ p in disc R, (fun r : ℝ => e.norm * Real.exp (-r * (1 / e.r0)))
      (Real.sqrt (p.1 ^ 2 + p.2 ^ 2)) := rfl
  rw [e1, disc_integral (fun r : ℝ => e.norm * Real.exp (-r * (1 / e.r0))) hR]
  have e2 : ∀ r : ℝ, r * (e.norm * Real.exp (-r * (1 / e.r0))) =
      e.norm * (r * Real.exp (-r * (1 / e.r0))) := fun r => by ring
  simp only [e2]
  rw [intervalIntegral.integral_const_mul, intervalIntegral.integral_eq_sub_of_hasDerivAt
    (fun r _ => exp_antideriv e.r0 r hr.ne') (by apply Continuous.intervalIntegrable; fun_prop)]
  have e3 : -R * (1 / e.r0) = -(R / e.r0) := by ring
  rw [e3]
  unfold Exponential.norm Exponential.invR0
  simp
  field_simp
  ring

theorem exp_half_light : |(1 + expHlrFactor) * Real.exp (-expHlrFactor) - 1 / 2| ≤ 5e-10 := by
  have hE : Real.exp expHlrFactor = Real.exp 1 * Real.exp (expHlrFactor - 1) := by rw [← Real.exp_add]; congr 1; ring
  have hx := Real.exp_bound' (x := expHlrFactor - 1) (by unfold expHlrFactor; norm_num) (by unfold expHlrFactor; norm_num)
    (n := 14) (by norm_num)
  have hl := Real.sum_le_exp_of_nonneg (x := expHlrFactor - 1) (by unfold expHlrFactor; norm_num) 14
  have h1 := Real.exp_one_gt_d9
  have h2 := Real.exp_one_lt_d9
  have hu' : Real.exp (expHlrFactor - 1) ≤ 1.97061758791 := by
    refine le_trans hx ?_
    unfold expHlrFactor
    norm_num [Finset.sum_range_succ, Nat.factorial]
  have hl' : 1.97061758789 ≤ Real.exp (expHlrFactor - 1) := by
    refine le_trans ?_ hl
    unfold expHlrFactor
    norm_num [Finset.sum_range_succ, Nat.factorial]
  have hp : 0 < Real.exp (expHlrFactor - 1) := Real.exp_pos _
  have b1 : Real.exp expHlrFactor ≤ 2.7182818286 * 1.97061758791 := by
    rw [hE]; exact mul_le_mul h2.le hu' hp.le (by norm_num)
  have b2 : 2.7182818283 * 1.97061758789 ≤ Real.exp expHlrFactor := by
    rw [hE]; exact mul_le_mul h1.le hl' (by norm_num) (Real.exp_pos _).le
  rw [Real.exp_neg, ← div_eq_mul_inv]
  have hpos := Real.exp_pos expHlrFactor
  rw [abs_le]
  constructor
  · rw [← sub_nonneg, show (1 + expHlrFactor) / Real.exp expHlrFactor - 1 / 2 - -5e-10 =
      (1 + expHlrFactor - (1 / 2 - 5e-10) * Real.exp expHlrFactor) / Real.exp expHlrFactor by field_simp; ring]
    apply div_nonneg _ hpos.le
    unfold expHlrFactor at b1 ⊢
    norm_num at b1 ⊢
    linarith
  · rw [sub_le_iff_le_add, div_le_iff₀ hpos]
    unfold expHlrFactor at b2 ⊢
    norm_num at b2 ⊢
    linarith

/-- C61: half of the flux of an exponential profile is inside its half-light radius, up to the precision `10⁻⁹` to which
`e` is known here. -/
theorem C61_exponential_half (e : Exponential) (hr : 0 < e.r0) :
    |fluxWithin e.xValue e.hlr - e.flux / 2| ≤ 1e-9 * |e.flux| := by
  have hh : 0 ≤ e.hlr := by unfold Exponential.hlr expHlrFactor; positivity
  rw [C61_exponential_within e hr _ hh]
  have ea : e.hlr / e.r0 = expHlrFactor := by unfold Exponential.hlr; field_simp
  rw [ea]
  have k := exp_half_light
  have hp := two_pi_inv
  generalize (1 + expHlrFactor) * Real.exp (-expHlrFactor) = E at k ⊢
  generalize 2 * Real.pi * invTwoPi = P at hp ⊢
  have : e.flux * P * (1 - E) - e.flux / 2 = e.flux * (P * (1 - E) - 1 / 2) := by ring
  rw [this, abs_mul, mul_comm]
  refine mul_le_mul_of_nonneg_right ?_ (abs_nonneg _)
  rw [abs_le] at k hp ⊢
  norm_num at k hp ⊢
  constructor <;> nlinarith

example (gs : GSP) : |fluxWithin (Exponential.mk 2 5 gs).xValue (2 * expHlrFactor) - 5 / 2| ≤ 1e-9 * |5| :=
  C61_exponential_half ⟨2, 5, gs⟩ (by norm_num)

/-! ### Moffat -/

theorem moffat_hlr_base {beta : ℝ} (h : 1 < beta) : 0 < (0.5 : ℝ) ^ (1 / (1 - beta)) - 1 := by
  have : (1 : ℝ) < (0.5 : ℝ) ^ (1 / (1 - beta)) := by
    apply Real.one_lt_rpow_of_pos_of_lt_one_of_neg (by norm_num) (by norm_num)
    exact one_div_neg.mpr (by linarith)
  linarith

theorem moffat_fwhm_base {beta : ℝ} (h : 1 < beta) : 0 < (2 : ℝ) ^ (1 / beta) - 1 := by
  have : (1 : ℝ) < (2 : ℝ) ^ (1 / beta) := Real.one_lt_rpow (by norm_num) (by positivity)
  linarith

/-- C61: a Moffat profile is built exactly when one size is given, without truncation, for `beta > 1.1` and
`maxk_threshold ≤ 0.1`; it reports back the size. -/
theorem C61_moffat (beta : ℝ) (scale hlr fwhm : Option ℝ) (trunc flux : ℝ) (gs : GSP) :
    ((Moffat.init beta scale hlr fwhm trunc flux gs).isSome ↔
      given [scale, hlr, fwhm] = 1 ∧ trunc = 0 ∧ 1.1 < beta ∧ gs .maxk_threshold ≤ 0.1) ∧
    ∀ m, Moffat.init beta scale hlr fwhm trunc flux gs = some m →
      m.beta = beta ∧ m.flux = flux ∧ m.gs = gs ∧ (∀ v, scale = some v → m.r0 = v) ∧
      (∀ v, hlr = some v → m.hlr = v) ∧ (∀ v, fwhm = some v → m.fwhm = v) := by
  by_cases ht : trunc = 0
  · by_cases hb : beta ≤ 1.1
    · have hb' : ¬ (1.1 < beta) := not_lt.mpr hb
      simp [Moffat.init, hb, ht, hb']
    · have hb' : 1.1 < beta := not_le.mp hb
      have hb1 : 1 < beta := by norm_num at hb'; linarith
      have h1 := (Real.sqrt_pos.mpr (moffat_hlr_base hb1)).ne'
      have h2 := (Real.sqrt_pos.mpr (moffat_fwhm_base hb1)).ne'
      have e : (1 - 0.5 * 1 : ℝ) = 0.5 := by norm_num
      by_cases hk : gs .maxk_threshold > 0.1
      · have hk' : ¬ (gs .maxk_threshold ≤ 0.1) := not_le.mpr hk
        cases hlr <;> cases scale <;> cases fwhm <;> simp [Moffat.init, ht, hb, hk, hk']
      · have hk' : gs .maxk_threshold ≤ 0.1 := not_lt.mp hk
        cases hlr <;> cases scale <;> cases fwhm <;>
          simp only [Moffat.init, ht, hb, hk, hk', hb', given, Moffat.hlr, Moffat.fwhm, Moffat.fluxFactor, e, ne_eq,
            not_true_eq_false, if_false, Option.isSome_none, Option.isSome_some, Bool.or_self, Bool.or_true,
            Bool.or_false, Option.bind_none, Option.bind_some, if_true, List.filter, List.length, true_and, and_true,
            Option.some.injEq, forall_eq', Bool.false_eq_true, reduceCtorEq, false_implies, implies_true,
            and_self, Nat.reduceAdd, OfNat.ofNat_ne_one, zero_ne_one] <;>
          first
          | done
          | exact div_mul_cancel₀ _ h1
          | exact div_mul_cancel₀ _ (mul_ne_zero two_ne_zero h2)
  · simp [Moffat.init, ht]

/-- A valid Moffat profile, as the constructor guarantees (`C61_moffat`), with a positive size. -/
structure Moffat.Ok (m : Moffat) : Prop where
  beta : 1 < m.beta
  r0 : 0 < m.r0

theorem Moffat.maxRrD_sq (m : Moffat) (h : m.Ok) (ha : 0 < m.gs .xvalue_accuracy) (ha1 : m.gs .xvalue_accuracy ≤ 1) :
    m.maxRrD * m.maxRrD = m.gs .xvalue_accuracy ^ (1 / (1 - m.beta)) - 1 := by
  unfold Moffat.maxRrD
  apply Real.mul_self_sqrt
  have : 1 ≤ m.gs .xvalue_accuracy ^ (1 / (1 - m.beta)) :=
    Real.one_le_rpow_of_pos_of_le_one_of_nonpos ha ha1 (one_div_nonpos.mpr (by linarith [h.beta]))
  linarith

/-- The profile without truncation, as a function of the radius in units of `r0`. -/
theorem Moffat.xValue_inside (m : Moffat) (h : m.Ok) (ha : 0 < m.gs .xvalue_accuracy)
    (ha1 : m.gs .xvalue_accuracy ≤ 1) (p : ℝ × ℝ)
    (hp : (1 + (p.1 ^ 2 + p.2 ^ 2) / m.r0 ^ 2) ^ (1 - m.beta) ≥ m.gs .xvalue_accuracy) :
    m.xValue p = m.norm * (1 + (p.1 ^ 2 + p.2 ^ 2) / m.r0 ^ 2) ^ (-m.beta) := by
  have hr := h.r0
  have e : (p.1 ^ 2 + p.2 ^ 2) * m.invR0sq = (p.1 ^ 2 + p.2 ^ 2) / m.r0 ^ 2 := by
    unfold Moffat.invR0sq Moffat.invR0
    field_simp
  unfold Moffat.xValue
  simp only [e]
  rw [m.maxRrD_sq h ha ha1, if_neg]
  have hpos : 0 < 1 + (p.1 ^ 2 + p.2 ^ 2) / m.r0 ^ 2 := by positivity
  have hb : 1 - m.beta < 0 := by linarith [h.beta]
  have := Real.rpow_le_rpow_of_nonpos ha hp (one_div_nonpos.mpr hb.le)
  rw [← Real.rpow_mul hpos.le, mul_one_div_cancel hb.ne, Real.rpow_one] at this
  linarith

/-- C61: the surface brightness of a Moffat profile at distance `fwhm / 2` in any direction is half the central one. -/
theorem C61_moffat_fwhm (m : Moffat) (h : m.Ok) (ha : 0 < m.gs .xvalue_accuracy) (ha1 : m.gs .xvalue_accuracy ≤ 1 / 2)
    (p : ℝ × ℝ) (hp : Real.sqrt (p.1 ^ 2 + p.2 ^ 2) = m.fwhm / 2) :
    m.xValue p = m.xValue (0, 0) / 2 ∧ m.xValue (0, 0) = m.norm := by
  have hr := h.r0
  have hb := h.beta
  have hb0 : 0 < m.beta := by linarith
  have h1 := moffat_fwhm_base h.beta
  have hsq : (p.1 ^ 2 + p.2 ^ 2) / m.r0 ^ 2 = (2 : ℝ) ^ (1 / m.beta) - 1 := by
    have h2 : p.1 ^ 2 + p.2 ^ 2 = (m.fwhm / 2) ^ 2 := by
      rw [← hp, Real.sq_sqrt (by positivity)]
    rw [h2, Moffat.fwhm, div_eq_iff (by positivity)]
    have h3 := Real.sq_sqrt h1.le
    linear_combination m.r0 ^ 2 * h3
  have e0 : m.xValue (0, 0) = m.norm := by
    rw [m.xValue_inside h ha (by linarith)]
    · simp
    · simp
      linarith
  refine ⟨?_, e0⟩
  rw [m.xValue_inside h ha (by linarith), hsq, e0]
  · rw [show (1 + ((2 : ℝ) ^ (1 / m.beta) - 1)) = (2 : ℝ) ^ (1 / m.beta) by ring, ← Real.rpow_mul (by norm_num)]
    rw [show 1 / m.beta * -m.beta = -1 by field_simp, Real.rpow_neg_one]
    ring
  · rw [hsq, show (1 + ((2 : ℝ) ^ (1 / m.beta) - 1)) = (2 : ℝ) ^ (1 / m.beta) by ring, ← Real.rpow_mul (by norm_num)]
    have : (2 : ℝ) ^ (-1 : ℝ) ≤ (2 : ℝ) ^ (1 / m.beta * (1 - m.beta)) := by
      apply Real.rpow_le_rpow_of_exponent_le (by norm_num)
      have : 1 / m.beta * (1 - m.beta) = 1 / m.beta - 1 := by field_simp
      rw [this]
      have : 0 < 1 / m.beta := by positivity
      linarith
    rw [Real.rpow_neg_one] at this
    have h4 : (2 : ℝ)⁻¹ = 1 / 2 := by norm_num
    linarith

theorem moffat_antideriv (beta r0 : ℝ) (hb : 1 < beta) (hr : 0 < r0) (r : ℝ) :
    HasDerivAt (fun r : ℝ => -(r0 ^ 2 / (2 * (beta - 1))) * (1 + r ^ 2 / r0 ^ 2) ^ (1 - beta))
      (r * (1 + r ^ 2 / r0 ^ 2) ^ (-beta)) r := by
  have h1 : HasDerivAt (fun r : ℝ => 1 + r ^ 2 / r0 ^ 2) (2 * r / r0 ^ 2) r := by
    have := ((hasDerivAt_pow 2 r).div_const (r0 ^ 2)).const_add 1
    simpa using this
  have hpos : (1 + r ^ 2 / r0 ^ 2) ≠ 0 := by positivity
  have h2 := (h1.rpow_const (p := 1 - beta) (Or.inl hpos)).const_mul (-(r0 ^ 2 / (2 * (beta - 1))))
  refine h2.congr_deriv ?_
  rw [show 1 - beta - 1 = -beta by ring]
  have : beta - 1 ≠ 0 := by linarith
  field_simp
  ring

/-- C61: the flux of a Moffat profile inside `R` is `flux (1 - (1 + (R/r0)²)^(1-beta))`, as long as `R` is inside the
truncation set by `xvalue_accuracy`. -/
theorem C61_moffat_within (m : Moffat) (h : m.Ok) (ha : 0 < m.gs .xvalue_accuracy) (ha1 : m.gs .xvalue_accuracy ≤ 1)
    (R : ℝ) (hR : 0 ≤ R) (hacc : m.gs .xvalue_accuracy ≤ (1 + R ^ 2 / m.r0 ^ 2) ^ (1 - m.beta)) :
    fluxWithin m.xValue R = m.flux * (1 - (1 + R ^ 2 / m.r0 ^ 2) ^ (1 - m.beta)) := by
  have hr := h.r0
  have hb := h.beta
  have e1 : fluxWithin m.xValue R = ∫ p in disc R, (fun r : ℝ => m.norm * (1 + r ^ 2 / m.r0 ^ 2) ^ (-m.beta))
      (Real.sqrt (p.1 ^ 2 + p.2 ^ 2)) := by
    refine setIntegral_congr_fun (measurable_disc R) fun p hp => ?_
    have hp' : p.1 ^ 2 + p.2 ^ 2 < R ^ 2 := hp
    simp only
    rw [Real.sq_sqrt (by positivity), m.xValue_inside h ha ha1]
    refine le_trans hacc ?_
    apply Real.rpow_le_rpow_of_nonpos (by positivity) _ (by linarith)
    gcongr
  rw [e1, disc_integral (fun r : ℝ => m.norm * (1 + r ^ 2 / m.r0 ^ 2) ^ (-m.beta)) hR]
  have e2 : ∀ r : ℝ, r * (m.norm * (1 + r ^ 2 / m.r0 ^ 2) ^ (-m.beta)) =
      m.norm * (r * (1 + r ^ 2 / m.r0 ^ 2) ^ (-m.beta)) := fun r => by ring
  simp only [e2]
  rw [intervalIntegral.integral_const_mul, intervalIntegral.integral_eq_sub_of_hasDerivAt
    (fun r _ => moffat_antideriv m.beta m.r0 hb hr r)]
  · unfold Moffat.norm Moffat.fluxFactor
    have hb' : m.beta - 1 ≠ 0 := by linarith
    have := Real.pi_pos
    simp
    field_simp
    ring
  · apply Continuous.intervalIntegrable
    apply continuous_id.mul
    apply Continuous.rpow_const
    · fun_prop
    · intro r
      left
      positivity

/-- C61: half of the flux of a Moffat profile is inside its half-light radius. -/
theorem C61_moffat_half_light (m : Moffat) (h : m.Ok) (ha : 0 < m.gs .xvalue_accuracy)
    (ha1 : m.gs .xvalue_accuracy ≤ 1 / 2) : fluxWithin m.xValue m.hlr = m.flux / 2 := by
  have hr := h.r0
  have hb := h.beta
  have hbase := moffat_hlr_base h.beta
  have e : (1 - 0.5 * m.fluxFactor : ℝ) = 0.5 := by unfold Moffat.fluxFactor; norm_num
  have hh : 0 ≤ m.hlr := mul_nonneg hr.le (Real.sqrt_nonneg _)
  have hq : (1 + m.hlr ^ 2 / m.r0 ^ 2) ^ (1 - m.beta) = 1 / 2 := by
    unfold Moffat.hlr
    rw [e, mul_pow, Real.sq_sqrt hbase.le, mul_div_cancel_left₀ _ (by positivity)]
    rw [show 1 + ((0.5 : ℝ) ^ (1 / (1 - m.beta)) - 1) = (0.5 : ℝ) ^ (1 / (1 - m.beta)) by ring,
      ← Real.rpow_mul (by norm_num), one_div_mul_cancel (by linarith), Real.rpow_one]
    norm_num
  rw [C61_moffat_within m h ha (by linarith) _ hh (by rw [hq]; exact ha1), hq]
  ring

example (gs : GSP) (hk : gs .maxk_threshold = 1e-3) (hx : gs .xvalue_accuracy = 1e-5) :
    ∃ m, Moffat.init 3 none (some 2) none 0 7 gs = some m ∧ m.hlr = 2 ∧ fluxWithin m.xValue 2 = 7 / 2 := by
  have h := C61_moffat 3 none (some 2) none 0 7 gs
  have hs := h.1.mpr ⟨rfl, rfl, by norm_num, by rw [hk]; norm_num⟩
  obtain ⟨m, hm⟩ := Option.isSome_iff_exists.mp hs
  obtain ⟨hb, hf, hg, _, hh, _⟩ := h.2 m hm
  have hh2 := hh 2 rfl
  have hok : m.Ok := by
    refine ⟨by rw [hb]; norm_num, ?_⟩
    by_contra hneg
    have : m.hlr ≤ 0 := mul_nonpos_of_nonpos_of_nonneg (not_lt.mp hneg) (Real.sqrt_nonneg _)
    linarith
  refine ⟨m, hm, hh2, ?_⟩
  have := C61_moffat_half_light m hok (by rw [hg, hx]; norm_num) (by rw [hg, hx]; norm_num)
  rw [hh2, hf] at this
  exact this

/-! ### Spergel -/

theorem padeNum_shift (t : ℝ) : padeNum (t - 0.85) =
      (680311447531567531887673597 / 512000000000000000000000000000) * t ^ 0 +
      (962386390596419695788769731 / 25600000000000000000000000000) * t ^ 1 +
      (118658484032108036979262757 / 320000000000000000000000000) * t ^ 2 +
      (22077164857886459487984551 / 16000000000000000000000000) * t ^ 3 +
      (1640132884061105651701891 / 1600000000000000000000000) * t ^ 4 +
      (-(60989198594783927751723 / 80000000000000000000000)) * t ^ 5 +
      (-(968792456068786369727 / 2000000000000000000000)) * t ^ 6 +
      (21605696786146443299 / 100000000000000000000) * t ^ 7 +
      (1775793474238391653 / 20000000000000000000) * t ^ 8 +
      (4206502758293099 / 1000000000000000000) * t ^ 9 := by
  unfold padeNum
  ring

theorem padeDen_shift (t : ℝ) : padeDen (t - 0.85) =
      (151695833597699848565646241787 / 12800000000000000000000000000000) * t ^ 0 +
      (95531792359566785154840366701 / 640000000000000000000000000000) * t ^ 1 +
      (5538191436608958127395432547 / 8000000000000000000000000000) * t ^ 2 +
      (397317857178179102161096121 / 400000000000000000000000000) * t ^ 3 +
      (-(4101691643497185880778139 / 40000000000000000000000000)) * t ^ 4 +
      (-(1118733080898969844408933 / 2000000000000000000000000)) * t ^ 5 +
      (1502558820622290259783 / 50000000000000000000000) * t ^ 6 +
      (290390509807849308829 / 2500000000000000000000) * t ^ 7 +
      (7714674510522345363 / 500000000000000000000) * t ^ 8 +
      (4542126738983429 / 25000000000000000000) * t ^ 9 := by
  unfold padeDen
  ring

theorem padeNum_pos {x : ℝ} (h0 : -0.85 ≤ x) : 0 < padeNum x := by
  by_cases h1 : x ≤ 0.1
  · obtain ⟨t, rfl⟩ : ∃ t, x = t - 0.85 := ⟨x + 0.85, by ring⟩
    have t0 : 0 ≤ t := by linarith
    have t1 : t ≤ 1 := by norm_num at h1 ⊢; linarith
    rw [padeNum_shift]
    have a5 : t ^ 5 ≤ t ^ 4 := pow_le_pow_of_le_one t0 t1 (by norm_num)
    have a6 : t ^ 6 ≤ t ^ 3 := pow_le_pow_of_le_one t0 t1 (by norm_num)
    have b3 : 0 ≤ t ^ 3 := by positivity
    have b2 : 0 ≤ t ^ 2 := by positivity
    have b4 : 0 ≤ t ^ 4 := by positivity
    have b7 : 0 ≤ t ^ 7 := by positivity
    have b8 : 0 ≤ t ^ 8 := by positivity
    have b9 : 0 ≤ t ^ 9 := by positivity
    simp only [pow_zero, pow_one]
    linarith
  · have hx : 0 < x := by norm_num at h1; linarith
    unfold padeNum
    have : 0 < 2.8577090425861944 + x * (-0.30570486567039273 + x * 0.6589831675940833) := by nlinarith [sq_nonneg (x - 0.23)]
    have e : 1.2571513771129166 + x * (3.7059053890269102 + x * (2.8577090425861944 + x * (-0.30570486567039273 + x * (
        0.6589831675940833 + x * (3.375577680133867 + x * (2.8143565844741403 + x * (0.9292378858457211 + x * (
        0.12096941981286179 + x * 0.004206502758293099)))))))) =
        1.2571513771129166 + x * 3.7059053890269102 +
          x ^ 2 * (2.8577090425861944 + x * (-0.30570486567039273 + x * 0.6589831675940833)) +
          x ^ 5 * (3.375577680133867 + x * (2.8143565844741403 + x * (0.9292378858457211 + x * (
        0.12096941981286179 + x * 0.004206502758293099)))) := by ring
    rw [e]
    positivity

theorem padeDen_pos {x : ℝ} (h0 : -0.85 ≤ x) : 0 < padeDen x := by
  by_cases h1 : x ≤ 0.1
  · obtain ⟨t, rfl⟩ : ∃ t, x = t - 0.85 := ⟨x + 0.85, by ring⟩
    have t0 : 0 ≤ t := by linarith
    have t1 : t ≤ 1 := by norm_num at h1 ⊢; linarith
    rw [padeDen_shift]
    have a4 : t ^ 4 ≤ t ^ 3 := pow_le_pow_of_le_one t0 t1 (by norm_num)
    have a5 : t ^ 5 ≤ t ^ 3 := pow_le_pow_of_le_one t0 t1 (by norm_num)
    have b3 : 0 ≤ t ^ 3 := by positivity
    have b2 : 0 ≤ t ^ 2 := by positivity
    have b6 : 0 ≤ t ^ 6 := by positivity
    have b7 : 0 ≤ t ^ 7 := by positivity
    have b8 : 0 ≤ t ^ 8 := by positivity
    have b9 : 0 ≤ t ^ 9 := by positivity
    simp only [pow_zero, pow_one]
    linarith
  · have hx : 0 < x := by norm_num at h1; linarith
    unfold padeDen
    have : 0 < 0.8281034080784796 + x * (-0.5163329765186994 + x * 0.9164871490929886) := by nlinarith [sq_nonneg (x - 0.28)]
    have e : 1 + x * (2.1939178810491837 + x * (0.8281034080784796 + x * (-0.5163329765186994 + x * (
        0.9164871490929886 + x * (1.8988551389326231 + x * (1.042688817291684 + x * (0.22580140592548198 + x * (
        0.01681923980317362 + x * 0.00018168506955933716)))))))) =
        1 + x * 2.1939178810491837 + x ^ 2 * (0.8281034080784796 + x * (-0.5163329765186994 + x * 0.9164871490929886)) +
          x ^ 5 * (1.8988551389326231 + x * (1.042688817291684 + x * (0.22580140592548198 + x * (
        0.01681923980317362 + x * 0.00018168506955933716)))) := by ring
    rw [e]
    positivity

/-- C61: a Spergel profile is built exactly when one size is given, and for `nu ≥ -0.85` reports back that size. -/
theorem C61_spergel (nu : ℝ) (scale hlr : Option ℝ) (flux : ℝ) (gs : GSP) :
    ((Spergel.init nu scale hlr flux gs).isSome ↔ given [scale, hlr] = 1) ∧
    ∀ s, Spergel.init nu scale hlr flux gs = some s →
      s.nu = nu ∧ s.flux = flux ∧ s.gs = gs ∧ (∀ v, scale = some v → s.r0 = v) ∧
      (-0.85 ≤ nu → ∀ v, hlr = some v → s.hlr = v) := by
  have hp : -0.85 ≤ nu → hlrPade nu ≠ 0 := fun h => (div_pos (padeNum_pos h) (padeDen_pos h)).ne'
  refine ⟨by cases hlr <;> cases scale <;> simp [Spergel.init, given], ?_⟩
  intro s hs
  cases hlr <;> cases scale <;> simp [Spergel.init] at hs <;> subst hs <;> simp [Spergel.hlr]
  intro h
  exact div_mul_cancel₀ _ (hp h)

/-- C61: the radius of a Spergel profile built from a positive half-light radius is positive. -/
theorem C61_spergel_positive (nu h flux : ℝ) (gs : GSP) (hnu : -0.85 ≤ nu) (hh : 0 < h) (s : Spergel)
    (hs : Spergel.init nu none (some h) flux gs = some s) : 0 < s.r0 ∧ s.hlr = h := by
  simp [Spergel.init] at hs
  subst hs
  have := div_pos (padeNum_pos hnu) (padeDen_pos hnu)
  exact ⟨div_pos hh this, div_mul_cancel₀ _ this.ne'⟩

example (gs : GSP) : ∃ s, Spergel.init (-0.85) none (some 3) 2 gs = some s ∧ s.hlr = 3 ∧ 0 < s.r0 :=
  ⟨_, rfl, (C61_spergel_positive (-0.85) 3 2 gs le_rfl (by norm_num) _ rfl).2,
    (C61_spergel_positive (-0.85) 3 2 gs le_rfl (by norm_num) _ rfl).1⟩

end JG.Elt
