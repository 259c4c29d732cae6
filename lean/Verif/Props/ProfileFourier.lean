import Verif.Lemmas.Fourier
import Verif.Props.ProfileSizes
import Verif.Props.ProfileK
import Verif.Props.ProfileShoot

/-!
C76: the Fourier values of the elementary profiles are the Fourier transforms of their surface brightness.
-/

open MeasureTheory Set

namespace JG.Elt

/-- Specification: the Fourier transform `∫ f(p) e^{-i k·p} dp` of a function on the plane. -/
noncomputable def transform (f : ℝ × ℝ → ℝ) (k : ℝ × ℝ) : ℂ :=
  ∫ p : ℝ × ℝ, (f p : ℂ) * Complex.exp (-Complex.I * (k.1 * p.1 + k.2 * p.2 : ℝ))

theorem transform_eq (f : ℝ × ℝ → ℝ) (k : ℝ × ℝ) : transform f k = ∫ p : ℝ × ℝ, (f p : ℂ) * wave k p := rfl

theorem transform_const_mul (c : ℝ) (f : ℝ × ℝ → ℝ) (k : ℝ × ℝ) :
    transform (fun p => c * f p) k = (c : ℂ) * transform f k := by
  rw [transform_eq, transform_eq, ← integral_const_mul]
  refine integral_congr_ae (Filter.Eventually.of_forall fun p => ?_)
  simp only
  push_cast
  ring

theorem transform_integrable {f : ℝ × ℝ → ℝ} (hf : Integrable f) (k : ℝ × ℝ) :
    Integrable (fun p => (f p : ℂ) * wave k p) :=
  (hf.ofReal (𝕜 := ℂ)).mul_bdd (c := 1) (continuous_wave k).aestronglyMeasurable
    (Filter.Eventually.of_forall fun p => (norm_wave k p).le)

/-- Functions close in the mean have close transforms. -/
theorem transform_sub_le {f g : ℝ × ℝ → ℝ} (hf : Integrable f) (hg : Integrable g) (k : ℝ × ℝ) :
    ‖transform f k - transform g k‖ ≤ ∫ p, |f p - g p| := by
  rw [transform_eq, transform_eq, ← integral_sub (transform_integrable hf k) (transform_integrable hg k)]
  refine (norm_integral_le_integral_norm _).trans (le_of_eq ?_)
  refine integral_congr_ae (Filter.Eventually.of_forall fun p => ?_)
  simp only
  rw [← sub_mul, norm_mul, norm_wave, mul_one, ← Complex.ofReal_sub, Complex.norm_real, Real.norm_eq_abs]

theorem near_of_factor {x y : ℂ} {F : ℝ} (h : x = ((2 * Real.pi * invTwoPi : ℝ) : ℂ) * y) (hy : ‖y‖ ≤ F) :
    ‖x - y‖ ≤ 1e-15 * F := by
  rw [h, show ((2 * Real.pi * invTwoPi : ℝ) : ℂ) * y - y = ((2 * Real.pi * invTwoPi - 1 : ℝ) : ℂ) * y by
    push_cast; ring, norm_mul, Complex.norm_real, Real.norm_eq_abs]
  exact mul_le_mul two_pi_inv hy (norm_nonneg _) (by norm_num)

/-! ### Gaussian -/

/-- C76: the Fourier value of a Gaussian is the transform of its surface brightness, up to the rounding of the constant
`1/(2π)` in the code. -/
theorem C76_gaussian (g : Gaussian) (hs : 0 < g.sigma) :
    Integrable g.xValue ∧
    (∀ k, transform g.xValue k = ((2 * Real.pi * invTwoPi : ℝ) : ℂ) * (g.kValue k : ℂ)) ∧
    ∀ k, ‖transform g.xValue k - (g.kValue k : ℂ)‖ ≤ 1e-15 * |g.flux| := by
  have ha : 0 < 0.5 * g.invSigsq := by
    unfold Gaussian.invSigsq Gaussian.sigsq
    positivity
  have e : g.xValue = fun p => g.norm * Real.exp (-(0.5 * g.invSigsq) * (p.1 ^ 2 + p.2 ^ 2)) := by
    funext p
    simp only [Gaussian.xValue]
    ring_nf
  have h2 : ∀ k, transform g.xValue k = ((2 * Real.pi * invTwoPi : ℝ) : ℂ) * (g.kValue k : ℂ) := by
    intro k
    rw [e, transform_const_mul, transform_eq, gauss_fourier ha, ← Complex.ofReal_mul, ← Complex.ofReal_mul]
    congr 1
    simp only [Gaussian.kValue, Gaussian.norm, Gaussian.invSigsq, Gaussian.sigsq]
    rw [show -(k.1 ^ 2 + k.2 ^ 2) / (4 * (0.5 * (1 / g.sigma ^ 2))) = -0.5 * ((k.1 ^ 2 + k.2 ^ 2) * g.sigma ^ 2) by
      field_simp; norm_num; ring]
    field_simp
    norm_num
    ring
  refine ⟨by rw [e]; exact (gauss_integrable ha).const_mul _, h2, fun k => near_of_factor (h2 k) ?_⟩
  rw [Complex.norm_real, Real.norm_eq_abs, Gaussian.kValue, abs_mul, Real.abs_exp]
  refine mul_le_of_le_one_right (abs_nonneg _) (Real.exp_le_one_iff.2 ?_)
  have : 0 ≤ (k.1 ^ 2 + k.2 ^ 2) * g.sigsq := by unfold Gaussian.sigsq; positivity
  linarith

/-! ### Spergel and exponential -/

/-- The mixture of Gaussians behind `z^ν K_ν(z)`, `z = r / r0`. -/
theorem spergel_mixture {nu r0 c : ℝ} (hn : -1 < nu) (hr : 0 < r0) :
    Mixture (fun t => c * (t ^ (nu - 1) * Real.exp (-t))) (fun t => 1 / (4 * t * r0 ^ 2)) where
  pos t ht := by positivity
  meas := by fun_prop
  measA := by fun_prop
  int := by
    have : IntegrableOn (fun t : ℝ => |c| * (4 * Real.pi * r0 ^ 2) * (t ^ (nu + 1 - 1) * Real.exp (-t))) (Ioi 0) :=
      (gammaInt_integrable (show 0 < nu + 1 by linarith)).const_mul (|c| * (4 * Real.pi * r0 ^ 2))
    refine this.congr_fun (fun t ht => ?_) measurableSet_Ioi
    have ht0 : (0 : ℝ) < t := ht
    simp only
    rw [abs_mul, abs_mul, Real.abs_exp, abs_of_nonneg (Real.rpow_nonneg ht0.le _), add_sub_cancel_right,
      Real.rpow_sub_one ht0.ne']
    field_simp

theorem gamma_scaled {s b : ℝ} (hs : 0 < s) (hb : 0 < b) :
    ∫ t in Ioi (0 : ℝ), t ^ (s - 1) * Real.exp (-(b * t)) = Real.Gamma s * b ^ (-s) := by
  rw [Real.integral_rpow_mul_exp_neg_mul_Ioi hs hb, one_div, Real.inv_rpow hb.le, Real.rpow_neg hb.le]
  ring

/-- The transform of `c · 2·kvInt`. -/
theorem spergel_transform {nu r0 : ℝ} (c : ℝ) (hn : -1 < nu) (hr : 0 < r0) :
    Integrable (fun p : ℝ × ℝ => c * kvInt nu (Real.sqrt (p.1 ^ 2 + p.2 ^ 2) / r0)) ∧
    ∀ k : ℝ × ℝ, transform (fun p : ℝ × ℝ => c * kvInt nu (Real.sqrt (p.1 ^ 2 + p.2 ^ 2) / r0)) k =
      ((c * (4 * Real.pi * r0 ^ 2) * Real.Gamma (nu + 1) * (1 + (k.1 ^ 2 + k.2 ^ 2) * r0 ^ 2) ^ (-(nu + 1)) : ℝ) : ℂ) := by
  have hM := spergel_mixture (c := c) hn hr
  have e : (fun p : ℝ × ℝ => c * kvInt nu (Real.sqrt (p.1 ^ 2 + p.2 ^ 2) / r0)) =
      mix (fun t => c * (t ^ (nu - 1) * Real.exp (-t))) (fun t => 1 / (4 * t * r0 ^ 2)) := by
    funext p
    simp only [mix, kvInt]
    rw [← integral_const_mul]
    refine setIntegral_congr_fun measurableSet_Ioi fun t ht => ?_
    rw [sub_eq_add_neg (-t), Real.exp_add, div_pow, Real.sq_sqrt (by positivity)]
    rw [show -((p.1 ^ 2 + p.2 ^ 2) / r0 ^ 2 / (4 * t)) = -(1 / (4 * t * r0 ^ 2)) * (p.1 ^ 2 + p.2 ^ 2) by
      have : (t : ℝ) ≠ 0 := ne_of_gt ht
      field_simp]
    ring
  refine ⟨by rw [e]; exact hM.integrable, fun k => ?_⟩
  rw [e, transform_eq, hM.fourier]
  congr 1
  have hb : 0 < 1 + (k.1 ^ 2 + k.2 ^ 2) * r0 ^ 2 := by positivity
  have hg := gamma_scaled (show 0 < nu + 1 by linarith) hb
  rw [mul_assoc (c * (4 * Real.pi * r0 ^ 2)), ← hg, ← integral_const_mul]
  refine setIntegral_congr_fun measurableSet_Ioi fun t ht => ?_
  have ht0 : (0 : ℝ) < t := ht
  rw [show -((1 + (k.1 ^ 2 + k.2 ^ 2) * r0 ^ 2) * t) =
      -t + -(k.1 ^ 2 + k.2 ^ 2) / (4 * (1 / (4 * t * r0 ^ 2))) by field_simp; ring, Real.exp_add,
    add_sub_cancel_right, Real.rpow_sub_one ht0.ne']
  field_simp

/-- C76: the Fourier value of an exponential profile is the transform of its surface brightness, up to the rounding of
the constant `1/(2π)` in the code. -/
theorem C76_exponential (e : Exponential) (hr : 0 < e.r0) :
    Integrable e.xValue ∧
    (∀ k, transform e.xValue k = ((2 * Real.pi * invTwoPi : ℝ) : ℂ) * (e.kValue k : ℂ)) ∧
    ∀ k, ‖transform e.xValue k - (e.kValue k : ℂ)‖ ≤ 1e-15 * |e.flux| := by
  have hpi := Real.sqrt_pos.2 Real.pi_pos
  have hx : e.xValue = fun p : ℝ × ℝ => (e.norm / Real.sqrt Real.pi) *
      kvInt (1 / 2) (Real.sqrt (p.1 ^ 2 + p.2 ^ 2) / e.r0) := by
    funext p
    rw [kvInt_half (by positivity)]
    simp only [Exponential.xValue, Exponential.invR0]
    rw [show -(Real.sqrt (p.1 ^ 2 + p.2 ^ 2) / e.r0) = -Real.sqrt (p.1 ^ 2 + p.2 ^ 2) * (1 / e.r0) by ring]
    field_simp
  have hT := spergel_transform (nu := 1 / 2) (e.norm / Real.sqrt Real.pi) (by norm_num) hr
  have h2 : ∀ k, transform e.xValue k = ((2 * Real.pi * invTwoPi : ℝ) : ℂ) * (e.kValue k : ℂ) := by
    intro k
    rw [hx, hT.2 k, ← Complex.ofReal_mul]
    congr 1
    have hq : 0 < 1 + (k.1 ^ 2 + k.2 ^ 2) * e.r0 ^ 2 := by positivity
    have hG : Real.Gamma (1 / 2 + 1) = Real.sqrt Real.pi / 2 := by
      rw [Real.Gamma_add_one (by norm_num), Real.Gamma_one_half_eq]
      ring
    have hp : (1 + (k.1 ^ 2 + k.2 ^ 2) * e.r0 ^ 2) ^ (-(1 / 2 + 1) : ℝ) =
        1 / (((k.1 ^ 2 + k.2 ^ 2) * e.r0 ^ 2 + 1) * Real.sqrt ((k.1 ^ 2 + k.2 ^ 2) * e.r0 ^ 2 + 1)) := by
      rw [Real.rpow_neg hq.le, Real.rpow_add hq, Real.rpow_one, ← Real.sqrt_eq_rpow, add_comm (1 : ℝ), one_div,
        mul_comm]
    rw [hG, hp]
    simp only [Exponential.kValue, Exponential.norm, Exponential.invR0]
    have hs : 0 < Real.sqrt ((k.1 ^ 2 + k.2 ^ 2) * e.r0 ^ 2 + 1) := Real.sqrt_pos.2 (by positivity)
    field_simp
    norm_num
  refine ⟨by rw [hx]; exact hT.1, h2, fun k => near_of_factor (h2 k) ?_⟩
  rw [Complex.norm_real, Real.norm_eq_abs, Exponential.kValue, abs_div]
  have h1 : 1 ≤ (k.1 ^ 2 + k.2 ^ 2) * e.r0 ^ 2 + 1 := by
    have : 0 ≤ (k.1 ^ 2 + k.2 ^ 2) * e.r0 ^ 2 := by positivity
    linarith
  refine div_le_self (abs_nonneg _) ?_
  rw [abs_of_nonneg (by positivity)]
  exact one_le_mul_of_one_le_of_one_le h1 (Real.one_le_sqrt.2 h1)

example (gs : GSP) (k : ℝ × ℝ) : ‖transform (Exponential.xValue ⟨2, 3, gs⟩) k - (Exponential.kValue ⟨2, 3, gs⟩ k : ℂ)‖ ≤
    1e-15 * |3| := (C76_exponential ⟨2, 3, gs⟩ (by norm_num)).2.2 k

/-- The surface brightness of a Spergel profile as a formula: `flux r^ν K_ν(r) / (2π r0² 2^ν Γ(ν+1))`. -/
noncomputable def Spergel.ideal (s : Spergel) (p : ℝ × ℝ) : ℝ :=
  let r := Real.sqrt (p.1 ^ 2 + p.2 ^ 2) / s.r0
  s.flux / (2 * Real.pi * s.r0 ^ 2 * (2 : ℝ) ^ s.nu * Real.Gamma (s.nu + 1)) * ((2 : ℝ) ^ (s.nu - 1) * kvInt s.nu r)

/-- C76: the Fourier value of a Spergel profile (any index above -1) is exactly the transform of the analytic profile,
which the surface brightness of the code equals at every position except within `1e-10` scale radii of the centre, where
the code sums a series instead.  Missing: the error of that series. -/
theorem C76_spergel_partial (s : Spergel) (hn : -1 < s.nu) (hr : 0 < s.r0) :
    (∀ p : ℝ × ℝ, 1e-10 * s.r0 < Real.sqrt (p.1 ^ 2 + p.2 ^ 2) → s.xValue p = some (s.ideal p)) ∧
    (∀ p : ℝ × ℝ, 0 < Real.sqrt (p.1 ^ 2 + p.2 ^ 2) → s.ideal p =
      s.flux / (2 * Real.pi * s.r0 ^ 2 * (2 : ℝ) ^ s.nu * Real.Gamma (s.nu + 1)) *
        ((Real.sqrt (p.1 ^ 2 + p.2 ^ 2) / s.r0) ^ s.nu * kv s.nu (Real.sqrt (p.1 ^ 2 + p.2 ^ 2) / s.r0))) ∧
    Integrable s.ideal ∧ ∀ k, transform s.ideal k = (s.kValue k : ℂ) := by
  have hG := Real.Gamma_pos_of_pos (show 0 < s.nu + 1 by linarith)
  have h2 : (0 : ℝ) < 2 ^ s.nu := by positivity
  have hpi := Real.pi_pos
  refine ⟨?_, ?_, ?_, ?_⟩
  · intro p hp
    have hz : 1e-10 < Real.sqrt (p.1 ^ 2 + p.2 ^ 2) * s.invR0 := by
      unfold Spergel.invR0
      rw [mul_one_div, lt_div_iff₀ hr]
      exact hp
    have hz0 : 0 < Real.sqrt (p.1 ^ 2 + p.2 ^ 2) * s.invR0 := lt_trans (by norm_num) hz
    simp only [Spergel.xValue]
    rw [if_neg hz0.ne']
    congr 1
    rw [fzNu, if_neg (not_le.2 hz), rpow_mul_kv _ hz0]
    simp only [Spergel.ideal, Spergel.xnorm, Spergel.shootxnorm, Spergel.invR0, gammaP1]
    rw [gammaJ_eq (by linarith), mul_one_div]
    field_simp
  · intro p hp
    simp only [Spergel.ideal]
    rw [rpow_mul_kv _ (by positivity)]
  · have := (spergel_transform (nu := s.nu) (s.flux / (2 * Real.pi * s.r0 ^ 2 * (2 : ℝ) ^ s.nu *
      Real.Gamma (s.nu + 1)) * (2 : ℝ) ^ (s.nu - 1)) hn hr).1
    refine this.congr (Filter.Eventually.of_forall fun p => ?_)
    simp only [Spergel.ideal]
    ring
  · intro k
    have := (spergel_transform (nu := s.nu) (s.flux / (2 * Real.pi * s.r0 ^ 2 * (2 : ℝ) ^ s.nu *
      Real.Gamma (s.nu + 1)) * (2 : ℝ) ^ (s.nu - 1)) hn hr).2 k
    have e : s.ideal = fun p : ℝ × ℝ => s.flux / (2 * Real.pi * s.r0 ^ 2 * (2 : ℝ) ^ s.nu *
      Real.Gamma (s.nu + 1)) * (2 : ℝ) ^ (s.nu - 1) * kvInt s.nu (Real.sqrt (p.1 ^ 2 + p.2 ^ 2) / s.r0) := by
      funext p
      simp only [Spergel.ideal]
      ring
    rw [e, this]
    congr 1
    simp only [Spergel.kValue]
    rw [Real.rpow_sub_one (by norm_num : (2 : ℝ) ≠ 0), show -(s.nu + 1) = -1 - s.nu by ring, ← pow_two]
    field_simp
    ring

example (gs : GSP) (k : ℝ × ℝ) : transform (Spergel.ideal ⟨-(1 / 2), 2, 3, gs⟩) k =
    (Spergel.kValue ⟨-(1 / 2), 2, 3, gs⟩ k : ℂ) :=
  (C76_spergel_partial ⟨-(1 / 2), 2, 3, gs⟩ (by norm_num) (by norm_num)).2.2.2 k

/-! ### Moffat -/

/-- The Moffat surface brightness without the cutoff. -/
noncomputable def Moffat.ideal (m : Moffat) (p : ℝ × ℝ) : ℝ :=
  m.flux * (m.beta - 1) / (Real.pi * m.r0 ^ 2) * (1 + (p.1 ^ 2 + p.2 ^ 2) / m.r0 ^ 2) ^ (-m.beta)

theorem moffat_mixture {beta r0 c : ℝ} (hb : 1 < beta) (hr : 0 < r0) :
    Mixture (fun t => c * (t ^ (beta - 1) * Real.exp (-t))) (fun t => t / r0 ^ 2) where
  pos t ht := by positivity
  meas := by fun_prop
  measA := by fun_prop
  int := by
    have : IntegrableOn (fun t : ℝ => |c| * (Real.pi * r0 ^ 2) * (t ^ (beta - 1 - 1) * Real.exp (-t))) (Ioi 0) :=
      (gammaInt_integrable (show 0 < beta - 1 by linarith)).const_mul (|c| * (Real.pi * r0 ^ 2))
    refine this.congr_fun (fun t ht => ?_) measurableSet_Ioi
    have ht0 : (0 : ℝ) < t := ht
    simp only
    rw [abs_mul, abs_mul, Real.abs_exp, abs_of_nonneg (Real.rpow_nonneg ht0.le _), Real.rpow_sub_one ht0.ne' (beta - 1)]
    field_simp

theorem moffat_ideal_eq (m : Moffat) (hb : 1 < m.beta) (hr : 0 < m.r0) :
    m.ideal = mix (fun t => m.flux * (m.beta - 1) / (Real.pi * m.r0 ^ 2) / Real.Gamma m.beta *
      (t ^ (m.beta - 1) * Real.exp (-t))) (fun t => t / m.r0 ^ 2) := by
  funext p
  have hG := Real.Gamma_pos_of_pos (show 0 < m.beta by linarith)
  have hq : 0 < 1 + (p.1 ^ 2 + p.2 ^ 2) / m.r0 ^ 2 := by positivity
  have hg := gamma_scaled (show 0 < m.beta by linarith) hq
  have e : (1 + (p.1 ^ 2 + p.2 ^ 2) / m.r0 ^ 2) ^ (-m.beta) =
      (∫ t in Ioi (0 : ℝ), t ^ (m.beta - 1) * Real.exp (-((1 + (p.1 ^ 2 + p.2 ^ 2) / m.r0 ^ 2) * t))) /
        Real.Gamma m.beta := by
    rw [hg]
    field_simp
  simp only [Moffat.ideal, mix]
  rw [e, mul_div_assoc', mul_div_right_comm, ← integral_const_mul]
  refine setIntegral_congr_fun measurableSet_Ioi fun t _ => ?_
  rw [mul_assoc _ (t ^ (m.beta - 1) * Real.exp (-t)), mul_assoc (t ^ (m.beta - 1)), ← Real.exp_add]
  congr 3
  ring

/-- C76: the exact Moffat transform used for the Fourier table is the transform of the profile without cutoff. -/
theorem C76_moffat_untruncated (m : Moffat) (hb : 1 < m.beta) (hr : 0 < m.r0) :
    Integrable m.ideal ∧
    ∀ k : ℝ × ℝ, transform m.ideal k = (m.kUntrunc (Real.sqrt (k.1 ^ 2 + k.2 ^ 2)) : ℂ) := by
  have hM := moffat_mixture (c := m.flux * (m.beta - 1) / (Real.pi * m.r0 ^ 2) / Real.Gamma m.beta) hb hr
  rw [moffat_ideal_eq m hb hr]
  refine ⟨hM.integrable, fun k => ?_⟩
  rw [transform_eq, hM.fourier, kUntrunc_eq m hb hr _ (Real.sqrt_nonneg _)]
  congr 1
  have hG := Real.Gamma_pos_of_pos (show 0 < m.beta - 1 by linarith)
  have hG1 : Real.Gamma m.beta = (m.beta - 1) * Real.Gamma (m.beta - 1) := by
    rw [← Real.Gamma_add_one (by linarith), sub_add_cancel]
  have hb1 : 0 < m.beta - 1 := by linarith
  have hpi := Real.pi_pos
  rw [kvInt, mul_div_assoc', ← integral_const_mul, ← integral_div]
  refine setIntegral_congr_fun measurableSet_Ioi fun t ht => ?_
  have ht0 : (0 : ℝ) < t := ht
  rw [sub_eq_add_neg (-t), Real.exp_add, mul_pow, Real.sq_sqrt (by positivity), hG1, Real.rpow_sub_one ht0.ne' (m.beta - 1),
    show -((k.1 ^ 2 + k.2 ^ 2) * m.r0 ^ 2 / (4 * t)) = -(k.1 ^ 2 + k.2 ^ 2) / (4 * (t / m.r0 ^ 2)) by field_simp]
  field_simp

theorem moffat_ideal_split (m : Moffat) (p : ℝ × ℝ) : m.ideal p = m.flux * Moffat.ideal { m with flux := 1 } p := by
  simp only [Moffat.ideal]
  ring

theorem moffat_ideal_nonneg (m : Moffat) (hb : 1 < m.beta) (p : ℝ × ℝ) :
    0 ≤ Moffat.ideal { m with flux := 1 } p := by
  have := Real.pi_pos
  have : 0 < m.beta - 1 := by linarith
  simp only [Moffat.ideal]
  positivity

theorem moffat_cases (m : Moffat) (p : ℝ × ℝ) : m.xValue p = 0 ∨ m.xValue p = m.ideal p := by
  simp only [Moffat.xValue]
  split_ifs
  · exact Or.inl rfl
  · right
    simp only [Moffat.ideal, Moffat.norm, Moffat.fluxFactor, Moffat.invR0sq, Moffat.invR0]
    rw [mul_one, one_div_mul_one_div, ← pow_two, mul_one_div]

theorem moffat_x_integrable (m : Moffat) (hb : 1 < m.beta) (hr : 0 < m.r0) : Integrable m.xValue := by
  refine (C76_moffat_untruncated m hb hr).1.mono ?_ (Filter.Eventually.of_forall fun p => ?_)
  · apply Measurable.aestronglyMeasurable
    unfold Moffat.xValue
    apply Measurable.ite
    · exact measurableSet_lt (by fun_prop) (by fun_prop)
    · fun_prop
    · fun_prop
  · rcases moffat_cases m p with h | h <;> rw [h]
    simp

theorem moffat_total (m : Moffat) (hb : 1 < m.beta) (hr : 0 < m.r0) : ∫ p, m.ideal p = m.flux := by
  have h := (C76_moffat_untruncated m hb hr).2 (0, 0)
  rw [transform] at h
  simp only [zero_mul, add_zero, Complex.ofReal_zero, mul_zero, Complex.exp_zero, mul_one] at h
  rw [integral_complex_ofReal] at h
  have h' : ∫ p, m.ideal p = m.kUntrunc (Real.sqrt ((0 : ℝ) ^ 2 + 0 ^ 2)) := by exact_mod_cast h
  rw [h']
  simp [Moffat.kUntrunc, Moffat.knorm]

/-- The flux beyond the cutoff. -/
theorem moffat_outside (m : Moffat) (h : m.Ok) (ha : 0 < m.gs .xvalue_accuracy) (ha1 : m.gs .xvalue_accuracy ≤ 1) :
    ∫ p, |m.xValue p - m.ideal p| ≤ m.gs .xvalue_accuracy * |m.flux| := by
  have hb := h.beta
  have hr := h.r0
  obtain ⟨m1, hm1⟩ : ∃ m1 : Moffat, m1 = { m with flux := 1 } := ⟨_, rfl⟩
  have hok : m1.Ok := by subst hm1; exact ⟨hb, hr⟩
  have hI1 := (C76_moffat_untruncated m1 hok.beta hok.r0).1
  have hacc : m1.gs .xvalue_accuracy = m.gs .xvalue_accuracy := by subst hm1; rfl
  have hsq := m1.maxRrD_sq hok (hacc ▸ ha) (hacc ▸ ha1)
  have hR : 1 + m1.maxR ^ 2 / m1.r0 ^ 2 = m1.gs .xvalue_accuracy ^ (1 / (1 - m1.beta)) := by
    have := hok.r0
    rw [Moffat.maxR, mul_pow, mul_div_assoc, div_self (by positivity), mul_one, pow_two, hsq]
    ring
  have hpow : (1 + m1.maxR ^ 2 / m1.r0 ^ 2) ^ (1 - m1.beta) = m1.gs .xvalue_accuracy := by
    rw [hR, ← Real.rpow_mul (hacc ▸ ha.le), one_div_mul_cancel (by linarith [hok.beta]), Real.rpow_one]
  have hRn : 0 ≤ m1.maxR := mul_nonneg (Real.sqrt_nonneg _) hok.r0.le
  have hin := C61_moffat_within m1 hok (hacc ▸ ha) (hacc ▸ ha1) m1.maxR hRn hpow.ge
  rw [hpow] at hin
  have hsame : ∀ p ∈ disc m1.maxR, m1.xValue p = m1.ideal p := by
    intro p hp
    have hp' : p.1 ^ 2 + p.2 ^ 2 < m1.maxR ^ 2 := hp
    have := hok.r0
    rw [m1.xValue_inside hok (hacc ▸ ha) (hacc ▸ ha1)]
    · simp only [Moffat.ideal, Moffat.norm, Moffat.fluxFactor, mul_one]
    · refine hpow.ge.trans ?_
      apply Real.rpow_le_rpow_of_nonpos (by positivity) _ (by linarith [hok.beta])
      gcongr
  have hx : ∀ p, m.xValue p = m.flux * m1.xValue p := by
    intro p
    have hn : m.norm = m.flux * m1.norm := by
      subst hm1
      simp only [Moffat.norm, Moffat.fluxFactor]
      ring
    have hi : m1.invR0sq = m.invR0sq := by subst hm1; rfl
    have hm : m1.maxRrD = m.maxRrD := by subst hm1; rfl
    have hbe : m1.beta = m.beta := by subst hm1; rfl
    simp only [Moffat.xValue]
    rw [hi, hm, hbe, hn]
    by_cases hc : (p.1 ^ 2 + p.2 ^ 2) * m.invR0sq > m.maxRrD * m.maxRrD
    · rw [if_pos hc, if_pos hc, mul_zero]
    · rw [if_neg hc, if_neg hc, mul_assoc]
  have hflux : m1.flux = 1 := by subst hm1; rfl
  have hnn : ∀ p, 0 ≤ m1.ideal p := by subst hm1; exact moffat_ideal_nonneg m hb
  have hid : ∀ p, m.ideal p = m.flux * m1.ideal p := by subst hm1; exact moffat_ideal_split m
  have e1 : ∀ p, |m.xValue p - m.ideal p| ≤ |m.flux| * (disc m1.maxR)ᶜ.indicator m1.ideal p := by
    intro p
    rw [hx, hid, ← mul_sub, abs_mul]
    refine mul_le_mul_of_nonneg_left ?_ (abs_nonneg _)
    by_cases hp : p ∈ disc m1.maxR
    · rw [hsame p hp, sub_self, abs_zero, indicator_of_notMem (show p ∉ (disc m1.maxR)ᶜ from fun hc => hc hp)]
    · rw [indicator_of_mem (show p ∈ (disc m1.maxR)ᶜ from hp)]
      rcases moffat_cases m1 p with h0 | h0 <;> rw [h0]
      · rw [zero_sub, abs_neg, abs_of_nonneg (hnn p)]
      · rw [sub_self, abs_zero]
        exact hnn p
  refine (integral_mono_of_nonneg (Filter.Eventually.of_forall fun p => abs_nonneg _)
    ((hI1.indicator (measurable_disc _).compl).const_mul _) (Filter.Eventually.of_forall e1)).trans (le_of_eq ?_)
  rw [integral_const_mul, integral_indicator (measurable_disc _).compl, mul_comm]
  congr 1
  have h1 := integral_add_compl (measurable_disc m1.maxR) hI1
  have h2 : ∫ p in disc m1.maxR, m1.ideal p = 1 - m1.gs .xvalue_accuracy := by
    rw [← setIntegral_congr_fun (measurable_disc _) hsame]
    rw [hflux, one_mul] at hin
    exact hin
  rw [moffat_total m1 hok.beta hok.r0, h2, hflux, hacc] at h1
  linarith

/-- C76: at each of the 700 frequencies of its table, the Fourier value of a Moffat profile is the transform of its
surface brightness, up to the flux beyond the cutoff (`xvalue_accuracy`).  `C76_moffat` bounds the error between these
frequencies and beyond them. -/
theorem C76_moffat_table (fit : ℝ → ℝ → ℝ) (m : Moffat) (h : m.Ok) (ha : 0 < m.gs .xvalue_accuracy)
    (ha1 : m.gs .xvalue_accuracy ≤ 1) :
    Integrable m.xValue ∧
    (∀ k : ℝ × ℝ, ‖transform m.xValue k - (m.kUntrunc (Real.sqrt (k.1 ^ 2 + k.2 ^ 2)) : ℂ)‖ ≤
      m.gs .xvalue_accuracy * |m.flux|) ∧
    ∀ (k : ℝ × ℝ) (i : ℕ), i < 700 → Real.sqrt (k.1 ^ 2 + k.2 ^ 2) = i * m.maxk fit / 699 →
      ‖transform m.xValue k - (m.kValue fit k : ℂ)‖ ≤ m.gs .xvalue_accuracy * |m.flux| := by
  have hX := moffat_x_integrable m h.beta h.r0
  have hU := C76_moffat_untruncated m h.beta h.r0
  have main : ∀ k : ℝ × ℝ, ‖transform m.xValue k - (m.kUntrunc (Real.sqrt (k.1 ^ 2 + k.2 ^ 2)) : ℂ)‖ ≤
      m.gs .xvalue_accuracy * |m.flux| := by
    intro k
    rw [← hU.2]
    exact (transform_sub_le hX hU.1 k).trans (moffat_outside m h ha ha1)
  refine ⟨hX, main, fun k i hi hk => ?_⟩
  have hm : 0 < m.maxk fit := div_pos (Real.exp_pos _) h.r0
  have hkn := linspace_knots (m.maxk fit) hm 700 (by norm_num)
  have he := linspace_even (m.maxk fit) 700
  have hnode : m.kNode fit i = Real.sqrt (k.1 ^ 2 + k.2 ^ 2) := by
    rw [hk]
    simp only [Moffat.kNode, linspace]
    norm_num
  have hak := C16_knots true 700 (m.kNode fit) (fun i => m.kUntrunc (m.kNode fit i)) (by norm_num) hkn (fun _ => he) i hi
  rw [hnode] at hak
  have hle : ¬ Real.sqrt (k.1 ^ 2 + k.2 ^ 2) > m.kNode fit 699 := by
    rw [← hnode, gt_iff_lt, not_lt]
    rcases Nat.lt_or_ge i 699 with h1 | h1
    · exact (hkn i 699 h1 (by norm_num)).le
    · rw [show i = 699 by omega]
  have hs : safeSqrt (k.1 ^ 2 + k.2 ^ 2) = Real.sqrt (k.1 ^ 2 + k.2 ^ 2) := by
    rw [safeSqrt]
    split_ifs with hpos
    · rfl
    · rw [Real.sqrt_eq_zero_of_nonpos (not_lt.1 hpos)]
  have : m.kValue fit k = m.kUntrunc (Real.sqrt (k.1 ^ 2 + k.2 ^ 2)) := by
    unfold Moffat.kValue Moffat.kRadial
    rw [hs]
    simp only
    rw [if_neg hle, hak]
  rw [this]
  exact main k

/-! ### Box -/

theorem box_line {w : ℝ} (hw : 0 < w) (t : ℝ) :
    ∫ x : ℝ, (if 2 * |x| < w then (1 : ℂ) else 0) * Complex.exp (-Complex.I * (t * x)) =
      ((w * Real.sinc (t * w / 2) : ℝ) : ℂ) := by
  have e : (fun x : ℝ => (if 2 * |x| < w then (1 : ℂ) else 0) * Complex.exp (-Complex.I * (t * x))) =
      (Ioo (-(w / 2)) (w / 2)).indicator (fun x : ℝ => Complex.exp (-Complex.I * t * x)) := by
    funext x
    have hiff : 2 * |x| < w ↔ x ∈ Ioo (-(w / 2)) (w / 2) := by
      rw [mem_Ioo, ← abs_lt]
      constructor <;> intro h <;> linarith
    by_cases hx : 2 * |x| < w
    · rw [if_pos hx, indicator_of_mem (hiff.1 hx), one_mul, mul_assoc]
    · rw [if_neg hx, indicator_of_notMem (fun hc => hx (hiff.2 hc)), zero_mul]
  rw [e, integral_indicator measurableSet_Ioo, ← integral_Ioc_eq_integral_Ioo,
    ← intervalIntegral.integral_of_le (by linarith)]
  rcases eq_or_ne t 0 with rfl | ht
  · simp
  have hc : -Complex.I * (t : ℂ) ≠ 0 := by simp [ht]
  rw [integral_exp_mul_complex hc, div_eq_iff hc]
  have ha : -Complex.I * (t : ℂ) * ((w / 2 : ℝ) : ℂ) = ((-(t * w / 2) : ℝ) : ℂ) * Complex.I := by push_cast; ring
  have hb : -Complex.I * (t : ℂ) * ((-(w / 2) : ℝ) : ℂ) = ((t * w / 2 : ℝ) : ℂ) * Complex.I := by push_cast; ring
  rw [ha, hb, Complex.exp_mul_I, Complex.exp_mul_I, Complex.ofReal_neg, Complex.cos_neg, Complex.sin_neg,
    Real.sinc_of_ne_zero (by positivity)]
  push_cast
  have : (t : ℂ) ≠ 0 := by exact_mod_cast ht
  have : (w : ℂ) ≠ 0 := by exact_mod_cast hw.ne'
  field_simp
  ring

/-- C76: the Fourier value of a box is the transform of its surface brightness. -/
theorem C76_box (b : Box) (hw : 0 < b.width) (hh : 0 < b.height) :
    Integrable b.xValue ∧ ∀ k, transform b.xValue k = (b.kValue k : ℂ) := by
  have e : b.xValue = fun p : ℝ × ℝ => b.flux / (b.width * b.height) *
      ((if 2 * |p.1| < b.width then (1 : ℝ) else 0) * (if 2 * |p.2| < b.height then (1 : ℝ) else 0)) := by
    funext p
    simp only [Box.xValue]
    split_ifs <;> ring
  have hint : ∀ w : ℝ, Integrable (fun x : ℝ => if 2 * |x| < w then (1 : ℝ) else 0) := by
    intro w
    have : (fun x : ℝ => if 2 * |x| < w then (1 : ℝ) else 0) = (Ioo (-(w / 2)) (w / 2)).indicator (fun _ => 1) := by
      funext x
      have hiff : 2 * |x| < w ↔ x ∈ Ioo (-(w / 2)) (w / 2) := by
        rw [mem_Ioo, ← abs_lt]
        constructor <;> intro h <;> linarith
      by_cases hx : 2 * |x| < w
      · rw [if_pos hx, indicator_of_mem (hiff.1 hx)]
      · rw [if_neg hx, indicator_of_notMem (fun hc => hx (hiff.2 hc))]
    rw [this]
    rw [integrable_indicator_iff measurableSet_Ioo]
    exact integrableOn_const (by simp)
  refine ⟨by rw [e]; exact ((hint _).mul_prod (hint _)).const_mul _, fun k => ?_⟩
  rw [e, transform_const_mul, transform_eq]
  have h := integral_prod_mul (μ := volume) (ν := volume)
    (fun x : ℝ => (if 2 * |x| < b.width then (1 : ℂ) else 0) * Complex.exp (-Complex.I * (k.1 * x)))
    (fun x : ℝ => (if 2 * |x| < b.height then (1 : ℂ) else 0) * Complex.exp (-Complex.I * (k.2 * x)))
  rw [box_line hw, box_line hh] at h
  have e2 : ∫ p : ℝ × ℝ, (((if 2 * |p.1| < b.width then (1 : ℝ) else 0) *
      (if 2 * |p.2| < b.height then (1 : ℝ) else 0) : ℝ) : ℂ) * wave k p =
      ((b.width * Real.sinc (k.1 * b.width / 2) : ℝ) : ℂ) * ((b.height * Real.sinc (k.2 * b.height / 2) : ℝ) : ℂ) := by
    rw [← h]
    refine integral_congr_ae (Filter.Eventually.of_forall fun p => ?_)
    simp only
    rw [wave, Complex.ofReal_add, mul_add, Complex.exp_add]
    push_cast
    split_ifs <;> simp
  rw [e2, ← Complex.ofReal_mul, ← Complex.ofReal_mul]
  congr 1
  simp only [Box.kValue, npSinc]
  have hpi := Real.pi_pos
  rw [show Real.pi * (k.1 * (b.width / (2 * Real.pi))) = k.1 * b.width / 2 by field_simp,
    show Real.pi * (k.2 * (b.height / (2 * Real.pi))) = k.2 * b.height / 2 by field_simp]
  field_simp

example (gs : GSP) (k : ℝ × ℝ) : transform (Box.xValue ⟨2, 3, 5, gs⟩) k = (Box.kValue ⟨2, 3, 5, gs⟩ k : ℂ) :=
  (C76_box ⟨2, 3, 5, gs⟩ (by norm_num) (by norm_num)).2 k

/-- The hypotheses of `C76_moffat_table` hold for the default accuracy. -/
example (fit : ℝ → ℝ → ℝ) (k : ℝ × ℝ) : ‖transform (Moffat.xValue ⟨2.5, 1, 3, fun _ => 1e-5⟩) k -
    (Moffat.kUntrunc ⟨2.5, 1, 3, fun _ => 1e-5⟩ (Real.sqrt (k.1 ^ 2 + k.2 ^ 2)) : ℂ)‖ ≤ 1e-5 * |3| :=
  (C76_moffat_table fit ⟨2.5, 1, 3, fun _ => 1e-5⟩ ⟨by norm_num, by norm_num⟩ (by norm_num) (by norm_num)).2.1 k

end JG.Elt
