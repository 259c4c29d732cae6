import Verif.Props.ProfileBand
import Mathlib.MeasureTheory.Function.Jacobian
import Mathlib.Probability.Distributions.Gaussian.Real
import Mathlib.MeasureTheory.Integral.IntervalIntegral.Periodic

/-!
C78: photons are distributed like the light of the profile they are shot from.
-/

open MeasureTheory Set

namespace JG.Elt

/-- Specification: the mean of `φ` over the circle of radius `R`. -/
noncomputable def circleMean (φ : ℝ × ℝ → ℝ) (R : ℝ) : ℝ :=
  (∫ θ in (-Real.pi)..Real.pi, φ (R * Real.cos θ, R * Real.sin θ)) / (2 * Real.pi)

/-- An angle `2π w` with `w` uniform on `[0, 1]` is uniform on the circle. -/
theorem angle_law (φ : ℝ × ℝ → ℝ) (R : ℝ) :
    ∫ w in (0 : ℝ)..1, φ (R * Real.cos (w * 2 * Real.pi), R * Real.sin (w * 2 * Real.pi)) = circleMean φ R := by
  have hpi := Real.pi_pos
  have hper : Function.Periodic (fun θ : ℝ => φ (R * Real.cos θ, R * Real.sin θ)) (2 * Real.pi) := by
    intro θ
    simp only [Real.cos_add_two_pi, Real.sin_add_two_pi]
  have h1 := intervalIntegral.integral_comp_mul_right (a := 0) (b := 1)
    (fun θ : ℝ => φ (R * Real.cos θ, R * Real.sin θ)) (show 2 * Real.pi ≠ 0 by positivity)
  have h2 := hper.intervalIntegral_add_eq 0 (-Real.pi)
  rw [zero_add, show -Real.pi + 2 * Real.pi = Real.pi by ring] at h2
  simp only [zero_mul, one_mul] at h1
  rw [h2] at h1
  simp only [mul_assoc] at h1 ⊢
  rw [h1, circleMean, smul_eq_mul, inv_mul_eq_div]

/-- C78: photons of exponential, Moffat and Spergel profiles are spread evenly over the circle of their radius. -/
theorem C78_angles (e : Exponential) (m : Moffat) (s : Spergel) (φ : ℝ × ℝ → ℝ) (v : ℝ) :
    (∫ w in (0 : ℝ)..1, φ (e.shoot v w)) = circleMean φ (e.shootR v) ∧
    (∫ w in (0 : ℝ)..1, φ (m.shoot w v)) = circleMean φ (m.shootR v) ∧
    (∫ w in (0 : ℝ)..1, φ (s.shoot v w)) = circleMean φ (s.shootR v) :=
  ⟨angle_law φ _, angle_law φ _, angle_law φ _⟩

theorem rawExp_deriv {x : ℝ} (hx : x < 1) : HasDerivAt rawExp (-Real.log (1 - x)) x := by
  have hx1 : 1 - x ≠ 0 := by linarith
  have h1 : HasDerivAt (fun u : ℝ => 1 - u) (-1) x := by simpa using (hasDerivAt_id x).const_sub 1
  have h2 := h1.log hx1
  have h3 : HasDerivAt (fun u : ℝ => u - 1) 1 x := (hasDerivAt_id x).sub_const 1
  have h4 := (hasDerivAt_id x).sub (h3.mul h2)
  refine h4.congr_deriv ?_
  field_simp
  ring

/-- Specification: the fraction of the light of an exponential profile outside the radius at which its brightness has
fallen by the factor `acc`. -/
noncomputable def expTail (acc : ℝ) : ℝ := acc * (1 - Real.log acc)

/-- C78: the photon radius of an exponential profile encloses the fraction of the light given by the uniform deviate, up
to the width of a cell of the table of 10000 entries and the light outside the table. -/
theorem C78_exponential_radius (e : Exponential) (hr : 0 < e.r0) (h0 : 0 < e.gs .shoot_accuracy)
    (h1 : e.gs .shoot_accuracy < 1) (v : ℝ) (hv0 : 0 ≤ v) (hv1 : v ≤ 1) :
    0 < 1 - expTail (e.gs .shoot_accuracy) ∧
    |fluxWithin e.xValue (e.shootR v) - e.flux * (2 * Real.pi * invTwoPi) * v| ≤
      |e.flux * (2 * Real.pi * invTwoPi)| * (-Real.log (e.gs .shoot_accuracy) /
        (9999 * (1 - expTail (e.gs .shoot_accuracy))) + expTail (e.gs .shoot_accuracy)) := by
  obtain ⟨hR0, hR1, hint⟩ := C63_exponential_radius e hr h0 h1 v hv0 hv1
  generalize e.gs .shoot_accuracy = acc at *
  obtain ⟨⟨a0, a1, ainc⟩, b0, b1, binc⟩ := C63_exponential_cdf acc h0 h1
  have hraw : ∀ i, expRawCdf acc i = rawExp (expU acc i) := fun i => rfl
  have hlog : Real.log acc < 0 := Real.log_neg h0 h1
  have hn : expRawCdf acc 9999 = 1 - expTail acc := by
    rw [hraw, b1, rawExp, expTail, sub_sub_cancel]
    ring
  have hnpos : 0 < 1 - expTail acc := by
    rw [← hn, hraw, b1]
    have := rawExp_strictMono (show (0 : ℝ) ∈ Ico 0 1 by simp) (show 1 - acc ∈ Ico (0 : ℝ) 1 by constructor <;> linarith)
      (by linarith)
    rwa [show rawExp 0 = 0 by simp [rawExp]] at this
  refine ⟨hnpos, ?_⟩
  have htail : 0 < expTail acc := mul_pos h0 (by linarith)
  rw [C61_exponential_within e hr _ hR0, ← mul_sub, abs_mul]
  refine mul_le_mul_of_nonneg_left ?_ (abs_nonneg _)
  set u := 1 - Real.exp (-(e.shootR v / e.r0)) with hu
  have hq0 : 0 ≤ e.shootR v / e.r0 := by positivity
  have hF : 1 - (1 + e.shootR v / e.r0) * Real.exp (-(e.shootR v / e.r0)) = rawExp u := by
    rw [hu, rawExp, sub_sub_cancel, Real.log_exp]
    ring
  have hu0 : 0 ≤ u := by
    have := Real.exp_le_one_iff.2 (show -(e.shootR v / e.r0) ≤ 0 by linarith)
    linarith
  have hu1 : u ≤ 1 - acc := by
    have : Real.log acc ≤ -(e.shootR v / e.r0) := by
      have : e.shootR v / e.r0 ≤ -Real.log acc := by rw [div_le_iff₀ hr]; exact hR1
      linarith
    have := (Real.log_le_iff_le_exp h0).1 this
    linarith
  rw [hF]
  obtain ⟨i, hi, ha, hb⟩ := Inc.locate (x := expU acc) (n := 10000) (t := u) (by norm_num) (by rw [b0]; exact hu0)
    (by show u ≤ expU acc 9999; rw [b1]; exact hu1)
  have hub : u ≤ expU acc (i + 1) := by
    rcases hb with hb | hb
    · exact hb.le
    · exact hb.2.le
  have hUi : Inc 10000 (expU acc) := binc
  have hi0 : 0 ≤ expU acc i := by have := hUi.le (Nat.zero_le i) (by omega); rwa [b0] at this
  have hi1 : expU acc (i + 1) ≤ 1 - acc := by have := hUi.le (show i + 1 ≤ 9999 by omega) (by norm_num); rwa [b1] at this
  have hstep : expU acc (i + 1) - expU acc i ≤ 1 / 9999 := by
    simp only [expU, linspace, expUmax, neg_neg, Real.exp_log h0]
    push_cast
    have : (0 + ((i : ℝ) + 1) * (1 - acc - 0) / (10000 - 1)) - (0 + (i : ℝ) * (1 - acc - 0) / (10000 - 1)) =
        (1 - acc) / 9999 := by ring
    rw [this]
    exact div_le_div_of_nonneg_right (by linarith) (by norm_num)
  rw [jnpInterp_line hUi hi ha hb] at hint
  have hmono : MonotoneOn rawExp (Ico 0 1) := rawExp_strictMono.monotoneOn
  have m1 := hmono (show expU acc i ∈ Ico (0 : ℝ) 1 from ⟨hi0, by linarith⟩) (show u ∈ Ico (0 : ℝ) 1 from ⟨hu0, by linarith⟩) ha
  have m2 := hmono (show u ∈ Ico (0 : ℝ) 1 from ⟨hu0, by linarith⟩)
    (show expU acc (i + 1) ∈ Ico (0 : ℝ) 1 from ⟨by linarith, by linarith⟩) hub
  have m3 := hmono (show u ∈ Ico (0 : ℝ) 1 from ⟨hu0, by linarith⟩)
    (show 1 - acc ∈ Ico (0 : ℝ) 1 from ⟨by linarith, by linarith⟩) hu1
  have m0 := hmono (show (0 : ℝ) ∈ Ico 0 1 by simp) (show u ∈ Ico (0 : ℝ) 1 from ⟨hu0, by linarith⟩) hu0
  rw [show rawExp 0 = 0 by simp [rawExp]] at m0
  rw [← b1, ← hraw, hn] at m3
  have hslope : rawExp (expU acc (i + 1)) - rawExp (expU acc i) ≤ -Real.log acc * (1 / 9999) := by
    have := Convex.image_sub_le_mul_sub_of_deriv_le (convex_Icc 0 (1 - acc)) (f := rawExp) (C := -Real.log acc)
      (fun x hx => (rawExp_deriv (by linarith [hx.2])).continuousAt.continuousWithinAt)
      (fun x hx => by
        rw [interior_Icc] at hx
        exact (rawExp_deriv (by linarith [hx.2])).differentiableAt.differentiableWithinAt)
      (fun x hx => by
        rw [interior_Icc] at hx
        rw [(rawExp_deriv (by linarith [hx.2])).deriv]
        have := Real.log_le_log h0 (show acc ≤ 1 - x by linarith [hx.2])
        linarith)
      (expU acc i) ⟨hi0, by linarith⟩ (expU acc (i + 1)) ⟨by linarith, hi1⟩ (by linarith)
    exact this.trans (mul_le_mul_of_nonneg_left hstep (by linarith))
  have hd : 0 < expU acc (i + 1) - expU acc i := by have := hUi i (i + 1) (by omega) hi; linarith
  have hfrac0 : 0 ≤ (u - expU acc i) / (expU acc (i + 1) - expU acc i) := div_nonneg (by linarith) hd.le
  have hfrac1 : (u - expU acc i) / (expU acc (i + 1) - expU acc i) ≤ 1 := by rw [div_le_one hd]; linarith
  generalize (u - expU acc i) / (expU acc (i + 1) - expU acc i) = t at *
  simp only [expCdf] at hint
  rw [hn, hraw, hraw] at hint
  generalize rawExp (expU acc i) = A at *
  generalize rawExp (expU acc (i + 1)) = B at *
  generalize rawExp u = r at *
  have hδ : 1 - (1 - expTail acc) = expTail acc := by ring
  rw [← hδ]
  generalize 1 - expTail acc = n at *
  have hv : v = (A + t * (B - A)) / n := by rw [← hint]; ring
  have e1 : r - v = (r - (A + t * (B - A))) / n - r * (1 - n) / n := by rw [hv]; field_simp; ring
  have b1 : |(r - (A + t * (B - A))) / n| ≤ -Real.log acc / (9999 * n) := by
    rw [abs_div, abs_of_pos hnpos, div_le_div_iff₀ hnpos (by positivity)]
    have : |r - (A + t * (B - A))| ≤ -Real.log acc * (1 / 9999) := by
      rw [abs_le]
      constructor <;> nlinarith
    nlinarith
  have b2 : |r * (1 - n) / n| ≤ 1 - n := by
    rw [abs_of_nonneg (div_nonneg (mul_nonneg m0 (by linarith)) hnpos.le), div_le_iff₀ hnpos]
    nlinarith
  rw [e1, sub_sub_cancel]
  exact (abs_sub _ _).trans (add_le_add b1 b2)

/-- The hypotheses hold for the default accuracy. -/
example (gs : GSP) (h : gs .shoot_accuracy = 1e-5) :
    |fluxWithin (Exponential.xValue ⟨2, 3, gs⟩) (Exponential.shootR ⟨2, 3, gs⟩ (1 / 2)) -
      3 * (2 * Real.pi * invTwoPi) * (1 / 2)| ≤ |3 * (2 * Real.pi * invTwoPi)| * (-Real.log 1e-5 /
        (9999 * (1 - expTail 1e-5)) + expTail 1e-5) := by
  have := (C78_exponential_radius ⟨2, 3, gs⟩ (by norm_num) (by simp only [h]; norm_num)
    (by simp only [h]; norm_num) (1 / 2) (by norm_num) (by norm_num)).2
  simpa only [h] using this

theorem polar_integrable {f : ℝ × ℝ → ℝ} (hi : Integrable f) :
    IntegrableOn (fun p : ℝ × ℝ => p.1 * f (polarCoord.symm p)) polarCoord.target := by
  have h := (integrableOn_image_iff_integrableOn_abs_det_fderiv_smul volume polarCoord.open_target.measurableSet
    (fun p _ => (hasFDerivAt_polarCoord_symm p).hasFDerivWithinAt) polarCoord.symm.injOn f).1 hi.integrableOn
  refine h.congr_fun (fun p hp => ?_) polarCoord.open_target.measurableSet
  simp only [det_fderivPolarCoordSymm, smul_eq_mul]
  rw [abs_of_pos hp.1]

/-- Integration in polar coordinates. -/
theorem polar_mean {φ : ℝ × ℝ → ℝ} {h : ℝ → ℝ}
    (hi : Integrable (fun p : ℝ × ℝ => φ p * h (Real.sqrt (p.1 ^ 2 + p.2 ^ 2)))) :
    ∫ p : ℝ × ℝ, φ p * h (Real.sqrt (p.1 ^ 2 + p.2 ^ 2)) =
      ∫ r in Ioi (0 : ℝ), 2 * Real.pi * r * h r * circleMean φ r := by
  have hpi := Real.pi_pos
  have hI := polar_integrable hi
  have e : polarCoord.target = Ioi (0 : ℝ) ×ˢ Ioo (-Real.pi) Real.pi := rfl
  rw [← integral_comp_polarCoord_symm]
  simp only [smul_eq_mul]
  rw [e] at hI ⊢
  rw [show (volume : Measure (ℝ × ℝ)) = (volume : Measure ℝ).prod volume from rfl] at hI ⊢
  rw [setIntegral_prod _ hI]
  refine setIntegral_congr_fun measurableSet_Ioi fun r hr => ?_
  have hr : 0 < r := hr
  simp only [polarCoord_symm_apply]
  have hs : ∀ θ : ℝ, Real.sqrt ((r * Real.cos θ) ^ 2 + (r * Real.sin θ) ^ 2) = r := by
    intro θ
    rw [show (r * Real.cos θ) ^ 2 + (r * Real.sin θ) ^ 2 = r ^ 2 * (Real.cos θ ^ 2 + Real.sin θ ^ 2) by ring,
      Real.cos_sq_add_sin_sq, mul_one, Real.sqrt_sq hr.le]
  simp only [hs]
  rw [circleMean, intervalIntegral.integral_of_le (by linarith), integral_Ioc_eq_integral_Ioo]
  have e2 : ∀ θ : ℝ, r * (φ (r * Real.cos θ, r * Real.sin θ) * h r) = (r * h r) * φ (r * Real.cos θ, r * Real.sin θ) := by
    intro θ; ring
  simp only [e2]
  rw [integral_const_mul]
  field_simp

/-- The fraction of the light of a Moffat profile within radius `r`. -/
noncomputable def moffatFrac (m : Moffat) (r : ℝ) : ℝ := 1 - (1 + r ^ 2 / m.r0 ^ 2) ^ (1 - m.beta)

theorem moffatFrac_deriv (m : Moffat) (hr : 0 < m.r0) (r : ℝ) :
    HasDerivAt (moffatFrac m) ((m.beta - 1) * (1 + r ^ 2 / m.r0 ^ 2) ^ (-m.beta) * (2 * r / m.r0 ^ 2)) r := by
  have h1 : HasDerivAt (fun r : ℝ => 1 + r ^ 2 / m.r0 ^ 2) (2 * r / m.r0 ^ 2) r := by
    have := ((hasDerivAt_pow 2 r).div_const (m.r0 ^ 2)).const_add 1
    refine this.congr_deriv ?_
    norm_num
  have h2 := (h1.rpow_const (p := 1 - m.beta) (Or.inl (by positivity))).const_sub 1
  refine h2.congr_deriv ?_
  rw [show 1 - m.beta - 1 = -m.beta by ring]
  ring

theorem moffat_shoot_frac (m : Moffat) (h : m.Ok) {r : ℝ} (hr : 0 ≤ r) : m.shootR (moffatFrac m r) = r := by
  have hr0 := h.r0
  have hb := h.beta
  simp only [Moffat.shootR, moffatFrac, Moffat.fluxFactor, mul_one, sub_sub_cancel]
  rw [← Real.rpow_mul (by positivity), mul_one_div_cancel (by linarith), Real.rpow_one, add_sub_cancel_left,
    Real.sqrt_div (by positivity), Real.sqrt_sq hr, Real.sqrt_sq hr0.le]
  field_simp

theorem moffatFrac_image (m : Moffat) (h : m.Ok) : moffatFrac m '' Ioi 0 = Ioo 0 1 := by
  have hr0 := h.r0
  have hb := h.beta
  ext v
  constructor
  · rintro ⟨r, hr, rfl⟩
    have hr : 0 < r := hr
    have hx : 1 < 1 + r ^ 2 / m.r0 ^ 2 := by have : 0 < r ^ 2 / m.r0 ^ 2 := by positivity
                                             linarith
    have h1 := Real.rpow_lt_one_of_one_lt_of_neg hx (show 1 - m.beta < 0 by linarith)
    have h2 : 0 < (1 + r ^ 2 / m.r0 ^ 2) ^ (1 - m.beta) := by positivity
    exact ⟨by unfold moffatFrac; linarith, by unfold moffatFrac; linarith⟩
  · rintro ⟨h0, h1⟩
    have hc := C63_moffat m h v h0.le h1
    refine ⟨m.shootR v, ?_, hc.2.1⟩
    rcases hc.1.lt_or_eq with hlt | heq
    · exact hlt
    · exfalso
      have := hc.2.1
      rw [← heq] at this
      norm_num at this
      linarith

/-- C78: the photons of a Moffat profile are distributed over the plane like its (untruncated) light: the mean of every
bounded measurable quantity over the photons is its mean over the light. -/
theorem C78_moffat (m : Moffat) (h : m.Ok) (φ : ℝ × ℝ → ℝ) (hφ : Measurable φ) {B : ℝ} (hB : ∀ p, |φ p| ≤ B) :
    ∫ v in (0 : ℝ)..1, ∫ w in (0 : ℝ)..1, φ (m.shoot w v) = ∫ p, φ p * Moffat.ideal { m with flux := 1 } p := by
  have hr0 := h.r0
  have hb := h.beta
  have hint : Integrable (Moffat.ideal { m with flux := 1 }) := (C76_moffat_untruncated { m with flux := 1 } hb hr0).1
  set H : ℝ → ℝ := fun r => 1 * (m.beta - 1) / (Real.pi * m.r0 ^ 2) * (1 + r ^ 2 / m.r0 ^ 2) ^ (-m.beta) with hH
  have hid : Moffat.ideal { m with flux := 1 } = fun p : ℝ × ℝ => H (Real.sqrt (p.1 ^ 2 + p.2 ^ 2)) := by
    funext p
    simp only [Moffat.ideal, hH]
    rw [Real.sq_sqrt (by positivity)]
  have hprod : Integrable (fun p => φ p * Moffat.ideal { m with flux := 1 } p) :=
    hint.bdd_mul hφ.aestronglyMeasurable (Filter.Eventually.of_forall fun p => by rw [Real.norm_eq_abs]; exact hB p)
  rw [hid] at hprod ⊢
  rw [polar_mean hprod]
  simp only [fun v => (C78_angles ⟨1, 1, m.gs⟩ m ⟨1, 1, 1, m.gs⟩ φ v).2.1]
  rw [intervalIntegral.integral_of_le zero_le_one, integral_Ioc_eq_integral_Ioo, ← moffatFrac_image m h,
    integral_image_eq_integral_abs_deriv_smul measurableSet_Ioi
      (fun r _ => (moffatFrac_deriv m hr0 r).hasDerivWithinAt)
      (fun a ha b hb' hab => by
        rw [← moffat_shoot_frac m h (le_of_lt ha), hab, moffat_shoot_frac m h (le_of_lt hb')])]
  refine setIntegral_congr_fun measurableSet_Ioi fun r hr => ?_
  have hr : 0 < r := hr
  have hpi := Real.pi_pos
  simp only [smul_eq_mul]
  rw [moffat_shoot_frac m h hr.le, abs_of_pos (by have : 0 < m.beta - 1 := by linarith
                                                  positivity)]
  simp only [hH]
  generalize (1 + r ^ 2 / m.r0 ^ 2) ^ (-m.beta) = q
  field_simp

/-- C78: the photons of a box are distributed over the plane like its light. -/
theorem C78_box (b : Box) (hw : 0 < b.width) (hh : 0 < b.height) (φ : ℝ × ℝ → ℝ) (hφ : Measurable φ) {B : ℝ}
    (hB : ∀ p, |φ p| ≤ B) :
    ∫ v in (0 : ℝ)..1, ∫ w in (0 : ℝ)..1, φ (b.shoot v w) = ∫ p, φ p * Box.xValue { b with flux := 1 } p := by
  have hx : (fun p => φ p * Box.xValue { b with flux := 1 } p) =
      (Ioo (-(b.width / 2)) (b.width / 2) ×ˢ Ioo (-(b.height / 2)) (b.height / 2)).indicator
        (fun p => φ p * (1 / (b.width * b.height))) := by
    funext p
    by_cases hp : p ∈ Ioo (-(b.width / 2)) (b.width / 2) ×ˢ Ioo (-(b.height / 2)) (b.height / 2)
    · rw [indicator_of_mem hp]
      have h1 : |p.1| < b.width / 2 := abs_lt.2 hp.1
      have h2 : |p.2| < b.height / 2 := abs_lt.2 hp.2
      rw [Box.xValue, if_pos (by linarith), if_pos (by linarith)]
    · rw [indicator_of_notMem hp, Box.xValue]
      by_cases h1 : 2 * |p.1| < b.width
      · by_cases h2 : 2 * |p.2| < b.height
        · exact absurd ⟨abs_lt.1 (show |p.1| < b.width / 2 by linarith), abs_lt.1 (show |p.2| < b.height / 2 by linarith)⟩ hp
        · rw [if_pos h1, if_neg h2, mul_zero]
      · rw [if_neg h1, mul_zero]
  have hm : MeasurableSet (Ioo (-(b.width / 2)) (b.width / 2) ×ˢ Ioo (-(b.height / 2)) (b.height / 2)) :=
    measurableSet_Ioo.prod measurableSet_Ioo
  have hfin : volume (Ioo (-(b.width / 2)) (b.width / 2) ×ˢ Ioo (-(b.height / 2)) (b.height / 2)) ≠ ⊤ := by
    rw [show (volume : Measure (ℝ × ℝ)) = (volume : Measure ℝ).prod volume from rfl, Measure.prod_prod]
    simp only [Real.volume_Ioo]
    exact ENNReal.mul_ne_top ENNReal.ofReal_ne_top ENNReal.ofReal_ne_top
  have hI : IntegrableOn (fun p => φ p * (1 / (b.width * b.height)))
      (Ioo (-(b.width / 2)) (b.width / 2) ×ˢ Ioo (-(b.height / 2)) (b.height / 2)) :=
    (Measure.integrableOn_of_bounded hfin hφ.aestronglyMeasurable
      (Filter.Eventually.of_forall fun p => by rw [Real.norm_eq_abs]; exact hB p)).mul_const _
  rw [hx, integral_indicator hm]
  rw [show (volume : Measure (ℝ × ℝ)) = (volume : Measure ℝ).prod volume from rfl] at hI ⊢
  rw [setIntegral_prod _ hI]
  have e1 : ∀ x : ℝ, ∫ w in (0 : ℝ)..1, φ (x, (w - 0.5) * b.height) =
      b.height⁻¹ * ∫ y in Ioo (-(b.height / 2)) (b.height / 2), φ (x, y) := by
    intro x
    have := intervalIntegral.integral_comp_mul_sub (a := 0) (b := 1) (fun y => φ (x, y)) hh.ne' (b.height / 2)
    rw [smul_eq_mul, mul_zero, mul_one, zero_sub, show b.height - b.height / 2 = b.height / 2 by ring,
      intervalIntegral.integral_of_le (by linarith : -(b.height / 2) ≤ b.height / 2), integral_Ioc_eq_integral_Ioo] at this
    rw [← this]
    refine intervalIntegral.integral_congr fun w _ => ?_
    congr 2
    ring
  have e2 : ∀ g : ℝ → ℝ, ∫ v in (0 : ℝ)..1, g ((v - 0.5) * b.width) =
      b.width⁻¹ * ∫ x in Ioo (-(b.width / 2)) (b.width / 2), g x := by
    intro g
    have := intervalIntegral.integral_comp_mul_sub (a := 0) (b := 1) g hw.ne' (b.width / 2)
    rw [smul_eq_mul, mul_zero, mul_one, zero_sub, show b.width - b.width / 2 = b.width / 2 by ring,
      intervalIntegral.integral_of_le (by linarith : -(b.width / 2) ≤ b.width / 2), integral_Ioc_eq_integral_Ioo] at this
    rw [← this]
    refine intervalIntegral.integral_congr fun w _ => ?_
    congr 1
    ring
  simp only [Box.shoot, e1]
  rw [e2 (fun x => b.height⁻¹ * ∫ y in Ioo (-(b.height / 2)) (b.height / 2), φ (x, y))]
  simp only [integral_mul_const, integral_const_mul]
  field_simp

/-- Two independent standard normal draws give photons of a Gaussian profile distributed like its light. -/
theorem gaussian_law (g : Gaussian) (hs : 0 < g.sigma) (φ : ℝ × ℝ → ℝ) (hφ : Measurable φ) {B : ℝ}
    (hB : ∀ p, |φ p| ≤ B) :
    (2 * Real.pi * invTwoPi) *
      ∫ z, (∫ w, φ (g.shoot z w) ∂ProbabilityTheory.gaussianReal 0 1) ∂ProbabilityTheory.gaussianReal 0 1 =
      ∫ p, φ p * Gaussian.xValue { g with flux := 1 } p := by
  have hpi := Real.pi_pos
  have hint : Integrable (Gaussian.xValue { g with flux := 1 }) := (C76_gaussian { g with flux := 1 } hs).1
  have hprod : Integrable (fun p => φ p * Gaussian.xValue { g with flux := 1 } p) :=
    hint.bdd_mul hφ.aestronglyMeasurable (Filter.Eventually.of_forall fun p => by rw [Real.norm_eq_abs]; exact hB p)
  have hpdf : ∀ f : ℝ → ℝ, ∫ z, f (z * g.sigma + 0) ∂ProbabilityTheory.gaussianReal 0 1 =
      ∫ x, (Real.sqrt (2 * Real.pi) * g.sigma)⁻¹ * Real.exp (-(x ^ 2) / (2 * g.sigma ^ 2)) * f x := by
    intro f
    rw [ProbabilityTheory.integral_gaussianReal_eq_integral_smul one_ne_zero]
    have h1 := Measure.integral_comp_mul_right
      (fun x => Real.exp (-(x ^ 2) / (2 * g.sigma ^ 2)) * f x) g.sigma
    rw [abs_of_pos (inv_pos.2 hs), smul_eq_mul] at h1
    simp only [mul_assoc]
    rw [integral_const_mul, mul_inv, mul_assoc, ← h1, ← integral_const_mul]
    refine integral_congr_ae (Filter.Eventually.of_forall fun z => ?_)
    simp only [ProbabilityTheory.gaussianPDFReal, smul_eq_mul, add_zero, sub_zero, NNReal.coe_one, mul_one]
    rw [mul_assoc]
    congr 3
    field_simp
  simp only [Gaussian.shoot]
  rw [hpdf fun x => ∫ w, φ (x, w * g.sigma + 0) ∂ProbabilityTheory.gaussianReal 0 1]
  rw [show (volume : Measure (ℝ × ℝ)) = (volume : Measure ℝ).prod volume from rfl] at hprod ⊢
  rw [integral_prod _ hprod, ← integral_const_mul]
  refine integral_congr_ae (Filter.Eventually.of_forall fun x => ?_)
  simp only
  rw [hpdf fun y => φ (x, y), ← integral_const_mul, ← integral_const_mul]
  refine integral_congr_ae (Filter.Eventually.of_forall fun y => ?_)
  simp only [Gaussian.xValue, Gaussian.norm, Gaussian.invSigsq, Gaussian.sigsq]
  have hsq : Real.sqrt (2 * Real.pi) * Real.sqrt (2 * Real.pi) = 2 * Real.pi := Real.mul_self_sqrt (by positivity)
  rw [show -0.5 * (x ^ 2 + y ^ 2) * (1 / g.sigma ^ 2) = -(x ^ 2) / (2 * g.sigma ^ 2) + -(y ^ 2) / (2 * g.sigma ^ 2) by
    field_simp; ring, Real.exp_add]
  generalize Real.exp (-(x ^ 2) / (2 * g.sigma ^ 2)) = E1
  generalize Real.exp (-(y ^ 2) / (2 * g.sigma ^ 2)) = E2
  have hq : 0 < Real.sqrt (2 * Real.pi) := by positivity
  have : (Real.sqrt (2 * Real.pi) * g.sigma)⁻¹ * (Real.sqrt (2 * Real.pi) * g.sigma)⁻¹ = 1 / (2 * Real.pi * g.sigma ^ 2) := by
    rw [← mul_inv, show Real.sqrt (2 * Real.pi) * g.sigma * (Real.sqrt (2 * Real.pi) * g.sigma) =
      Real.sqrt (2 * Real.pi) * Real.sqrt (2 * Real.pi) * g.sigma ^ 2 by ring, hsq, one_div]
  calc _ = 2 * Real.pi * invTwoPi * ((Real.sqrt (2 * Real.pi) * g.sigma)⁻¹ * (Real.sqrt (2 * Real.pi) * g.sigma)⁻¹) *
        E1 * E2 * φ (x, y) := by ring
    _ = _ := by
      rw [this]
      field_simp

/-- C78: two independent standard normal draws give photons of a Gaussian profile distributed like its light, up to the
rounding of the constant `1/(2π)` in the surface brightness. -/
theorem C78_gaussian (g : Gaussian) (hs : 0 < g.sigma) (φ : ℝ × ℝ → ℝ) (hφ : Measurable φ) {B : ℝ}
    (hB : ∀ p, |φ p| ≤ B) :
    |(∫ z, (∫ w, φ (g.shoot z w) ∂ProbabilityTheory.gaussianReal 0 1) ∂ProbabilityTheory.gaussianReal 0 1) -
      ∫ p, φ p * Gaussian.xValue { g with flux := 1 } p| ≤ 1e-15 * B := by
  rw [← gaussian_law g hs φ hφ hB]
  have hin : ∀ z, |∫ w, φ (g.shoot z w) ∂ProbabilityTheory.gaussianReal 0 1| ≤ B := by
    intro z
    have := norm_integral_le_of_norm_le_const (μ := ProbabilityTheory.gaussianReal 0 1) (f := fun w => φ (g.shoot z w))
      (C := B) (Filter.Eventually.of_forall fun w => by rw [Real.norm_eq_abs]; exact hB _)
    simpa using this
  have hout : |∫ z, (∫ w, φ (g.shoot z w) ∂ProbabilityTheory.gaussianReal 0 1) ∂ProbabilityTheory.gaussianReal 0 1| ≤ B := by
    have := norm_integral_le_of_norm_le_const (μ := ProbabilityTheory.gaussianReal 0 1)
      (f := fun z => ∫ w, φ (g.shoot z w) ∂ProbabilityTheory.gaussianReal 0 1)
      (C := B) (Filter.Eventually.of_forall fun w => by rw [Real.norm_eq_abs]; exact hin _)
    simpa using this
  generalize (∫ z, (∫ w, φ (g.shoot z w) ∂ProbabilityTheory.gaussianReal 0 1) ∂ProbabilityTheory.gaussianReal 0 1) = I at *
  have hc : |1 - 2 * Real.pi * invTwoPi| ≤ 1e-15 := by
    rw [abs_sub_comm]; exact two_pi_inv
  rw [show I - 2 * Real.pi * invTwoPi * I = (1 - 2 * Real.pi * invTwoPi) * I by ring, abs_mul]
  exact mul_le_mul hc hout (abs_nonneg _) (by norm_num)

/-- C78: the photons of a point source have its Fourier values: averaged over them, `flux * exp(-i k·x)` is the Fourier
value at `k` - in particular the average of the flux (`k = 0`) is the flux of the profile. -/
theorem C78_delta (d : Delta) (k : ℝ × ℝ) :
    (Elem.leaf (.delta d)).photons (fun p g => g * Real.cos (k.1 * p.1 + k.2 * p.2)) = ((Elem.leaf (.delta d)).kv k).re ∧
    (Elem.leaf (.delta d)).photons (fun p g => -(g * Real.sin (k.1 * p.1 + k.2 * p.2))) = ((Elem.leaf (.delta d)).kv k).im ∧
    (Elem.leaf (.delta d)).photons (fun _ g => g) = (Elem.leaf (.delta d)).flux := by
  simp [Elem.leaf, Elem.photons, Delta.kValue, Elem.flux]

/-- The mean of the cosine of the horizontal position over the photons of a Moffat profile is its mean over the light. -/
example (gs : GSP) :
    ∫ v in (0 : ℝ)..1, ∫ w in (0 : ℝ)..1, Real.cos (Moffat.shoot ⟨2, 1, 7, gs⟩ w v).1 =
      ∫ p : ℝ × ℝ, Real.cos p.1 * Moffat.ideal ⟨2, 1, 1, gs⟩ p :=
  C78_moffat ⟨2, 1, 7, gs⟩ ⟨by norm_num, by norm_num⟩ (fun p => Real.cos p.1) (by fun_prop)
    (fun p => Real.abs_cos_le_one _)

example (gs : GSP) :
    ∫ v in (0 : ℝ)..1, ∫ w in (0 : ℝ)..1, Real.cos (Box.shoot ⟨2, 3, 7, gs⟩ v w).1 =
      ∫ p : ℝ × ℝ, Real.cos p.1 * Box.xValue ⟨2, 3, 1, gs⟩ p :=
  C78_box ⟨2, 3, 7, gs⟩ (by norm_num) (by norm_num) (fun p => Real.cos p.1) (by fun_prop)
    (fun p => Real.abs_cos_le_one _)

example (gs : GSP) :
    |(∫ z, (∫ w, Real.cos (Gaussian.shoot ⟨2, 7, gs⟩ z w).2 ∂ProbabilityTheory.gaussianReal 0 1)
      ∂ProbabilityTheory.gaussianReal 0 1) - ∫ p : ℝ × ℝ, Real.cos p.2 * Gaussian.xValue ⟨2, 1, gs⟩ p| ≤ 1e-15 * 1 :=
  C78_gaussian ⟨2, 7, gs⟩ (by norm_num) (fun p => Real.cos p.2) (by fun_prop) (fun p => Real.abs_cos_le_one _)

/-- On average photons of an exponential profile with a given radius deviate lie at the centre. -/
example (e : Exponential) (v : ℝ) : ∫ w in (0 : ℝ)..1, (e.shoot v w).1 = 0 := by
  rw [(C78_angles e ⟨2, 1, 1, e.gs⟩ ⟨1, 1, 1, e.gs⟩ (fun p => p.1) v).1]
  simp [circleMean]

end JG.Elt
