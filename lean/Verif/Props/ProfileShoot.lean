import Verif.Lemmas.Bessel
import Verif.Lemmas.Sampling
import Verif.Props.ProfileSizes
import Mathlib.Analysis.SpecialFunctions.Pow.Deriv
import Mathlib.Analysis.Complex.ExponentialBounds

/-!
C63: the tables used for photon shooting.

Independent specification: a sampling table is valid when it starts at 0, ends at 1 and increases strictly (`ValidCdf`);
the enclosed flux is `fluxWithin` (ProfileSizes).
-/

namespace JG.Elt
open MeasureTheory Set

/-- Specification: `n` values of a cumulative distribution. -/
def ValidCdf (n : ℕ) (c : ℕ → ℝ) : Prop := c 0 = 0 ∧ c (n - 1) = 1 ∧ ∀ i j, i < j → j < n → c i < c j

/-! ### Exponential -/

theorem linspace_inc (b : ℝ) (hb : 0 < b) (n : ℕ) (hn : 2 ≤ n) : Inc n (linspace 0 b n) := by
  have hn' : (0 : ℝ) < n - 1 := by
    have : (2 : ℝ) ≤ n := by exact_mod_cast hn
    linarith
  intro i j hij _
  unfold linspace
  have : (i : ℝ) < j := by exact_mod_cast hij
  have h2 : (i : ℝ) * (b - 0) < j * (b - 0) := by nlinarith
  have := div_lt_div_of_pos_right h2 hn'
  linarith

theorem expUmax_eq {acc : ℝ} (h : 0 < acc) : expUmax acc = 1 - acc := by
  unfold expUmax
  rw [neg_neg, Real.exp_log h]

theorem expU_first (acc : ℝ) : expU acc 0 = 0 := by simp [expU, linspace]
theorem expU_last {acc : ℝ} (h : 0 < acc) : expU acc 9999 = 1 - acc := by
  unfold expU linspace
  rw [expUmax_eq h]
  push_cast
  ring

/-- The table before normalisation, as a function of `u`. -/
noncomputable def rawExp (u : ℝ) : ℝ := u - (u - 1) * Real.log (1 - u)

theorem rawExp_strictMono : StrictMonoOn rawExp (Ico 0 1) := by
  apply strictMonoOn_of_deriv_pos (convex_Ico 0 1)
  · unfold rawExp
    refine ContinuousOn.sub continuousOn_id (ContinuousOn.mul (by fun_prop) (ContinuousOn.log (by fun_prop) ?_))
    intro x hx
    have := hx.2
    linarith
  · intro x hx
    rw [interior_Ico] at hx
    have hx1 : 1 - x ≠ 0 := by have := hx.2; linarith
    have h1 : HasDerivAt (fun u : ℝ => 1 - u) (-1) x := by simpa using (hasDerivAt_id x).const_sub 1
    have h2 := h1.log hx1
    have h3 : HasDerivAt (fun u : ℝ => u - 1) 1 x := (hasDerivAt_id x).sub_const 1
    have h4 := (hasDerivAt_id x).sub (h3.mul h2)
    have h5 : HasDerivAt rawExp (-Real.log (1 - x)) x := by
      refine h4.congr_deriv ?_
      field_simp
      ring
    rw [h5.deriv]
    have := Real.log_neg (x := 1 - x) (by linarith [hx.2]) (by linarith [hx.1])
    linarith

/-- C63: the exponential table is a valid cumulative distribution. -/
theorem C63_exponential_cdf (acc : ℝ) (h0 : 0 < acc) (h1 : acc < 1) :
    ValidCdf 10000 (expCdf acc) ∧ expU acc 0 = 0 ∧ expU acc 9999 = 1 - acc ∧
    ∀ i j, i < j → j < 10000 → expU acc i < expU acc j := by
  have hu : Inc 10000 (expU acc) := linspace_inc (expUmax acc) (by rw [expUmax_eq h0]; linarith) 10000 (by norm_num)
  have hin : ∀ i, i < 10000 → expU acc i ∈ Ico (0 : ℝ) 1 := by
    intro i hi
    have a := hu.le (Nat.zero_le i) hi
    have b := hu.le (show i ≤ 9999 by omega) (by norm_num)
    rw [expU_first] at a
    rw [expU_last h0] at b
    exact ⟨a, by linarith⟩
  have hraw : ∀ i, expRawCdf acc i = rawExp (expU acc i) := fun i => rfl
  have hinc : ∀ i j, i < j → j < 10000 → expRawCdf acc i < expRawCdf acc j := by
    intro i j hij hj
    rw [hraw, hraw]
    exact rawExp_strictMono (hin i (by omega)) (hin j hj) (hu i j hij hj)
  have hz : expRawCdf acc 0 = 0 := by rw [hraw, expU_first]; simp [rawExp]
  have hpos : 0 < expRawCdf acc 9999 := by
    have := hinc 0 9999 (by norm_num) (by norm_num)
    rwa [hz] at this
  refine ⟨⟨?_, ?_, ?_⟩, expU_first acc, expU_last h0, hu⟩
  · simp [expCdf, hz]
  · exact div_self hpos.ne'
  · intro i j hij hj
    exact div_lt_div_of_pos_right (hinc i j hij hj) hpos

/-- C63: photon radii of an exponential profile are in range, and the interpolated table at the radius returned is the
deviate. -/
theorem C63_exponential_radius (e : Exponential) (hr : 0 < e.r0) (h0 : 0 < e.gs .shoot_accuracy)
    (h1 : e.gs .shoot_accuracy < 1) (v : ℝ) (hv0 : 0 ≤ v) (hv1 : v ≤ 1) :
    0 ≤ e.shootR v ∧ e.shootR v ≤ -Real.log (e.gs .shoot_accuracy) * e.r0 ∧
    jnpInterp 10000 (expU (e.gs .shoot_accuracy)) (expCdf (e.gs .shoot_accuracy)) (1 - Real.exp (-(e.shootR v / e.r0))) = v := by
  obtain ⟨⟨a0, a1, ainc⟩, b0, b1, binc⟩ := C63_exponential_cdf _ h0 h1
  obtain ⟨c0, c1, c2⟩ := jnpInterp_inverse (t := v) (by norm_num) ainc binc (by rw [a0]; exact hv0)
    (by rw [a1]; exact hv1)
  rw [b0] at c0
  have c1' : jnpInterp 10000 (expCdf (e.gs .shoot_accuracy)) (expU (e.gs .shoot_accuracy)) v ≤ 1 - e.gs .shoot_accuracy := by
    rw [← b1]; exact c1
  have hsr : e.shootR v =
    -Real.log (1 - jnpInterp 10000 (expCdf (e.gs .shoot_accuracy)) (expU (e.gs .shoot_accuracy)) v) * e.r0 := rfl
  rw [hsr]
  generalize jnpInterp 10000 (expCdf (e.gs .shoot_accuracy)) (expU (e.gs .shoot_accuracy)) v = u at c0 c1 c1' c2 ⊢
  refine ⟨?_, ?_, ?_⟩
  · have := Real.log_nonpos (x := 1 - u) (by linarith) (by linarith)
    nlinarith
  · have := Real.log_le_log h0 (show e.gs .shoot_accuracy ≤ 1 - u by linarith)
    nlinarith
  · rw [mul_div_assoc, div_self hr.ne', mul_one, neg_neg, Real.exp_log (by linarith), sub_sub_cancel]
    exact c2

/-- C63: the exponential table holds the enclosed flux: entry `i` times the normalisation is the flux inside the radius
of node `i` (`κ = 2π · 0.15915494309189535`, see `two_pi_inv`). -/
theorem C63_exponential_flux (e : Exponential) (hr : 0 < e.r0) (h0 : 0 < e.gs .shoot_accuracy)
    (h1 : e.gs .shoot_accuracy < 1) (i : ℕ) (hi : i < 10000) :
    fluxWithin e.xValue (-Real.log (1 - expU (e.gs .shoot_accuracy) i) * e.r0) =
      e.flux * (2 * Real.pi * invTwoPi) * expRawCdf (e.gs .shoot_accuracy) i := by
  obtain ⟨_, b0, b1, binc⟩ := C63_exponential_cdf _ h0 h1
  have hb : Inc 10000 (expU (e.gs .shoot_accuracy)) := binc
  have a := hb.le (Nat.zero_le i) hi
  have b := hb.le (show i ≤ 9999 by omega) (by norm_num)
  rw [b0] at a
  rw [b1] at b
  unfold expRawCdf
  generalize expU (e.gs .shoot_accuracy) i = u at a b ⊢
  have hl := Real.log_nonpos (x := 1 - u) (by linarith) (by linarith)
  rw [C61_exponential_within e hr _ (by nlinarith), mul_div_assoc, div_self hr.ne', mul_one, neg_neg,
    Real.exp_log (by linarith)]
  ring

example (gs : GSP) (h : gs .shoot_accuracy = 1e-5) :
    0 ≤ (Exponential.mk 2 1 gs).shootR 0.3 :=
  (C63_exponential_radius ⟨2, 1, gs⟩ (by norm_num) (by simp only [h]; norm_num) (by simp only [h]; norm_num) 0.3
    (by norm_num) (by norm_num)).1

/-! ### Moffat -/

/-- C63: the Moffat radius for the deviate `v` encloses the fraction `v` of the analytic flux; as long as the radius is
inside the region where the surface brightness is not cut off, it encloses `v` times the flux of the profile. -/
theorem C63_moffat (m : Moffat) (h : m.Ok) (v : ℝ) (hv0 : 0 ≤ v) (hv1 : v < 1) :
    0 ≤ m.shootR v ∧ 1 - (1 + m.shootR v ^ 2 / m.r0 ^ 2) ^ (1 - m.beta) = v ∧
    (0 < m.gs .xvalue_accuracy → v ≤ 1 - m.gs .xvalue_accuracy → fluxWithin m.xValue (m.shootR v) = v * m.flux) := by
  have hr := h.r0
  have hb := h.beta
  have hbase : 1 ≤ (1 - v * m.fluxFactor) ^ (1 / (1 - m.beta)) := by
    apply Real.one_le_rpow_of_pos_of_le_one_of_nonpos
    · simp only [Moffat.fluxFactor]; linarith
    · simp only [Moffat.fluxFactor]; linarith
    · exact div_nonpos_of_nonneg_of_nonpos (by norm_num) (by linarith)
  have hsq : 1 + m.shootR v ^ 2 / m.r0 ^ 2 = (1 - v) ^ (1 / (1 - m.beta)) := by
    simp only [Moffat.shootR]
    rw [mul_pow, Real.sq_sqrt (by linarith)]
    simp only [Moffat.fluxFactor, mul_one]
    field_simp
    ring
  have hfrac : (1 + m.shootR v ^ 2 / m.r0 ^ 2) ^ (1 - m.beta) = 1 - v := by
    rw [hsq, ← Real.rpow_mul (by linarith), one_div_mul_cancel (by linarith), Real.rpow_one]
  have hnn : 0 ≤ m.shootR v := by
    simp only [Moffat.shootR]
    positivity
  refine ⟨hnn, by rw [hfrac]; ring, fun ha hva => ?_⟩
  rw [C61_moffat_within m h ha (by linarith) _ hnn (by rw [hfrac]; linarith), hfrac]
  ring

/-- Three quarters of the flux of a Moffat profile with `beta = 2` lie within `sqrt 3` scale radii. -/
example (gs : GSP) (h : 0 < gs .xvalue_accuracy) (h2 : gs .xvalue_accuracy ≤ 1 / 4) :
    fluxWithin (Moffat.xValue ⟨2, 1, 1, gs⟩) (Moffat.shootR ⟨2, 1, 1, gs⟩ (3 / 4)) = 3 / 4 * 1 :=
  (C63_moffat ⟨2, 1, 1, gs⟩ ⟨by norm_num, by norm_num⟩ (3 / 4) (by norm_num) (by norm_num)).2.2 h (by linarith)

/-! ### Box -/

/-- C63: photons of a box fall on the box, and every point of the open box is hit by some pair of deviates. -/
theorem C63_box (b : Box) (hw : 0 < b.width) (hh : 0 < b.height) :
    (∀ v w : ℝ, 0 < v → v < 1 → 0 < w → w < 1 → b.xValue (b.shoot v w) = b.flux / (b.width * b.height)) ∧
    ∀ p : ℝ × ℝ, 2 * |p.1| < b.width → 2 * |p.2| < b.height →
      ∃ v w : ℝ, 0 < v ∧ v < 1 ∧ 0 < w ∧ w < 1 ∧ b.shoot v w = p := by
  constructor
  · intro v w h1 h2 h3 h4
    have e1 : 2 * |(v - 0.5) * b.width| < b.width := by
      rw [abs_mul, abs_of_pos hw]
      have : |v - 0.5| < 0.5 := by rw [abs_lt]; constructor <;> norm_num <;> linarith
      norm_num at this ⊢
      nlinarith
    have e2 : 2 * |(w - 0.5) * b.height| < b.height := by
      rw [abs_mul, abs_of_pos hh]
      have : |w - 0.5| < 0.5 := by rw [abs_lt]; constructor <;> norm_num <;> linarith
      norm_num at this ⊢
      nlinarith
    simp only [Box.xValue, Box.shoot, e1, e2, if_true]
  · intro p h1 h2
    have a1 := abs_lt.1 (show |p.1| < b.width / 2 by linarith)
    have a2 := abs_lt.1 (show |p.2| < b.height / 2 by linarith)
    refine ⟨p.1 / b.width + 0.5, p.2 / b.height + 0.5, ?_, ?_, ?_, ?_, ?_⟩
    · have : -(1 / 2) < p.1 / b.width := by rw [lt_div_iff₀ hw]; linarith
      norm_num; linarith
    · have : p.1 / b.width < 1 / 2 := by rw [div_lt_iff₀ hw]; linarith
      norm_num; linarith
    · have : -(1 / 2) < p.2 / b.height := by rw [lt_div_iff₀ hh]; linarith
      norm_num; linarith
    · have : p.2 / b.height < 1 / 2 := by rw [div_lt_iff₀ hh]; linarith
      norm_num; linarith
    · simp only [Box.shoot, add_sub_cancel_right]
      rw [div_mul_cancel₀ _ hw.ne', div_mul_cancel₀ _ hh.ne']

/-- A box of 2 by 4: photons from the deviates (1/4, 3/4) have the central surface brightness. -/
example (gs : GSP) : Box.xValue ⟨2, 4, 8, gs⟩ (Box.shoot ⟨2, 4, 8, gs⟩ (1 / 4) (3 / 4)) = 8 / (2 * 4) :=
  (C63_box ⟨2, 4, 8, gs⟩ (by norm_num) (by norm_num)).1 _ _ (by norm_num) (by norm_num) (by norm_num) (by norm_num)

/-! ### Spergel, positive index -/

theorem gammaJ_eq {x : ℝ} (h : 0 < x) : gammaJ x = Real.Gamma x := by
  unfold gammaJ
  split_ifs with h0 h1 h2 h3 h4 h5
  · linarith
  · rw [h1, Real.Gamma_one]
  · rw [h2, show (2 : ℝ) = 1 + 1 by norm_num, Real.Gamma_add_one (by norm_num), Real.Gamma_one]; norm_num
  · rw [h3]; norm_num [Nat.factorial]
  · rw [h4]; norm_num [Nat.factorial]
  · rw [h5]; norm_num [Nat.factorial]
  · have := Real.Gamma_pos_of_pos h
    rw [gammaF, abs_of_pos this, Real.exp_log this]

/-- The enclosed flux fraction away from the centre. -/
theorem fluxFraction_eq {nu z : ℝ} (hn : -1 < nu) (hz : 1e-10 < z) (alpha : ℝ) :
    fluxFraction z nu alpha = 1 - kvInt (nu + 1) z / Real.Gamma (nu + 1) - alpha := by
  have hz0 : 0 < z := lt_trans (by norm_num) hz
  have hG := Real.Gamma_pos_of_pos (show 0 < nu + 1 by linarith)
  have h2 : (0 : ℝ) < 2 ^ nu := by positivity
  unfold fluxFraction fzNup1 gammaP1
  rw [if_neg (not_le.2 hz), rpow_mul_kv _ hz0, gammaJ_eq (by linarith), add_sub_cancel_right]
  field_simp

/-- The enclosed flux fraction at the centre. -/
theorem fluxFraction_zero {nu : ℝ} (hn : 0 < nu) (alpha : ℝ) : fluxFraction 0 nu alpha = -alpha := by
  have hG := Real.Gamma_pos_of_pos (show 0 < nu + 1 by linarith)
  have h2 : (0 : ℝ) < 2 ^ nu := by positivity
  have key : fsmallzNup1 0 nu = (2 : ℝ) ^ nu * gammaP1 nu := by
    unfold fsmallzNup1 gammaP1
    split_ifs with h0 h1 h2 h3 h4
    · linarith
    · subst h1; norm_num [f2, gammaJ, z2lz]
    · subst h2; norm_num [f3, gammaJ]
    · subst h3; norm_num [f4, gammaJ]
    · subst h4; norm_num [f5, gammaJ]
    · unfold fnuSmallP1 gammaP1
      simp only [mul_zero, zero_div, sub_zero, add_zero]
      rw [Real.zero_rpow (by linarith)]
      simp
  unfold fluxFraction fzNup1
  rw [if_pos (by norm_num), key, div_self]
  · ring
  · unfold gammaP1
    rw [gammaJ_eq (by linarith)]
    positivity

/-- C63: the enclosed flux used for the tables is the integral of the surface brightness: between two radii (in units
of the scale radius) it grows by the flux of the ring. -/
theorem C63_spergel_flux (s : Spergel) (hn : -1 < s.nu) (z w : ℝ) (hz : 1e-10 < z) (hzw : z ≤ w) :
    fluxFraction w s.nu 0 - fluxFraction z s.nu 0 = ∫ t in z..w, 2 * Real.pi * t * (s.shootxnorm * fzNu t s.nu) := by
  have hG := Real.Gamma_pos_of_pos (show 0 < s.nu + 1 by linarith)
  have hz0 : 0 < z := lt_trans (by norm_num) hz
  have h2 : (0 : ℝ) < 2 ^ s.nu := by positivity
  have hpi := Real.pi_pos
  have hmem : ∀ t ∈ uIcc z w, 1e-10 < t ∧ 0 < t := by
    intro t ht
    rw [uIcc_of_le hzw] at ht
    exact ⟨lt_of_lt_of_le hz ht.1, lt_of_lt_of_le hz0 ht.1⟩
  have hcongr : ∀ t ∈ uIcc z w, 2 * Real.pi * t * (s.shootxnorm * fzNu t s.nu) =
      t / 2 * kvInt s.nu t / Real.Gamma (s.nu + 1) := by
    intro t ht
    obtain ⟨ht, ht0⟩ := hmem t ht
    unfold Spergel.shootxnorm fzNu gammaP1
    rw [if_neg (not_le.2 ht), rpow_mul_kv _ ht0, gammaJ_eq (by linarith), Real.rpow_sub_one (by norm_num)]
    field_simp
  have hder : ∀ t ∈ uIcc z w, HasDerivAt (fun t => -(kvInt (s.nu + 1) t / Real.Gamma (s.nu + 1)))
      (t / 2 * kvInt s.nu t / Real.Gamma (s.nu + 1)) t := by
    intro t ht
    have h := ((kvInt_hasDerivAt (s.nu + 1) (hmem t ht).2).div_const (Real.Gamma (s.nu + 1))).neg
    rw [add_sub_cancel_right] at h
    refine h.congr_deriv ?_
    ring
  rw [intervalIntegral.integral_congr hcongr, intervalIntegral.integral_eq_sub_of_hasDerivAt hder,
    fluxFraction_eq hn hz, fluxFraction_eq hn (lt_of_lt_of_le hz hzw)]
  · ring
  · apply ContinuousOn.intervalIntegrable
    intro t ht
    have hc : ContinuousAt (kvInt s.nu) t := (kvInt_hasDerivAt s.nu (hmem t ht).2).continuousAt
    exact (((continuousAt_id.div_const 2).mul hc).div_const _).continuousWithinAt

/-- C63: for positive index the Spergel table is a valid cumulative distribution. -/
theorem C63_spergel_cdf (s : Spergel) (hn : 0 < s.nu) (hz : 1e-6 < s.shootZmax) : ValidCdf 10000 s.posCdf := by
  have hG := Real.Gamma_pos_of_pos (show 0 < s.nu + 1 by linarith)
  have hzi : Inc 10000 s.zCdf := linspace_inc s.shootZmax (lt_trans (by norm_num) hz) 10000 (by norm_num)
  have hz0 : s.zCdf 0 = 0 := by simp [Spergel.zCdf, linspace]
  have hzl : s.zCdf 9999 = s.shootZmax := by
    unfold Spergel.zCdf linspace
    push_cast
    ring
  have hbig : ∀ i, 0 < i → i < 10000 → 1e-10 < s.zCdf i := by
    intro i h0 hi
    have h1 : s.zCdf 1 = s.shootZmax / 9999 := by
      unfold Spergel.zCdf linspace
      push_cast
      ring
    have h2 := hzi.le (show 1 ≤ i by omega) hi
    rw [h1] at h2
    refine lt_of_lt_of_le ?_ h2
    rw [lt_div_iff₀ (by norm_num)]
    refine lt_trans ?_ hz
    norm_num
  have hinc : ∀ i j, i < j → j < 10000 → fluxFraction (s.zCdf i) s.nu 0 < fluxFraction (s.zCdf j) s.nu 0 := by
    intro i j hij hj
    have hlt := hzi i j hij hj
    rcases Nat.eq_zero_or_pos i with rfl | hi
    · rw [hz0] at hlt ⊢
      rw [fluxFraction_zero hn, fluxFraction_eq (by linarith) (hbig j hij hj)]
      have := kvInt_strictAnti (mu := s.nu + 1) (by linarith) le_rfl hlt
      rw [kvInt_zero (by linarith)] at this
      have := (div_lt_one hG).2 this
      linarith
    · rw [fluxFraction_eq (by linarith) (hbig i hi (by omega)), fluxFraction_eq (by linarith) (hbig j (by omega) hj)]
      have := kvInt_strictAnti (mu := s.nu + 1) (by linarith) (lt_trans (by norm_num) (hbig i hi (by omega))).le hlt
      have := div_lt_div_of_pos_right this hG
      linarith
  have hpos : 0 < fluxFraction s.shootZmax s.nu 0 := by
    have := hinc 0 9999 (by norm_num) (by norm_num)
    rwa [hz0, fluxFraction_zero hn, neg_zero, hzl] at this
  refine ⟨?_, ?_, ?_⟩
  · simp only [Spergel.posCdf, reducedFluxFraction]
    rw [hz0, fluxFraction_zero hn]
    simp
  · simp only [Spergel.posCdf, reducedFluxFraction]
    rw [show 10000 - 1 = 9999 by norm_num, hzl]
    exact div_self hpos.ne'
  · intro i j hij hj
    exact div_lt_div_of_pos_right (hinc i j hij hj) hpos

/-- C63: for positive index the photon radii are in range and the interpolated table at the radius returned is the
deviate. -/
theorem C63_spergel_radius (s : Spergel) (hn : 0 < s.nu) (hr : 0 < s.r0) (hz : 1e-6 < s.shootZmax) (u : ℝ)
    (h0 : 0 ≤ u) (h1 : u ≤ 1) :
    0 ≤ s.shootR u ∧ s.shootR u ≤ s.shootZmax * s.r0 ∧ jnpInterp 10000 s.zCdf s.posCdf (s.shootR u / s.r0) = u := by
  obtain ⟨a0, a1, ainc⟩ := C63_spergel_cdf s hn hz
  have hzi : Inc 10000 s.zCdf := linspace_inc s.shootZmax (lt_trans (by norm_num) hz) 10000 (by norm_num)
  have hz0 : s.zCdf 0 = 0 := by simp [Spergel.zCdf, linspace]
  have hzl : s.zCdf 9999 = s.shootZmax := by
    unfold Spergel.zCdf linspace
    push_cast
    ring
  obtain ⟨c0, c1, c2⟩ := jnpInterp_inverse (t := u) (by norm_num) ainc hzi (by rw [a0]; exact h0) (by rw [a1]; exact h1)
  rw [hz0] at c0
  have c1' : jnpInterp 10000 s.posCdf s.zCdf u ≤ s.shootZmax := by rw [← hzl]; exact c1
  have e : s.shootR u = jnpInterp 10000 s.posCdf s.zCdf u * s.r0 := by simp only [Spergel.shootR, gt_iff_lt, hn, if_true]; rfl
  rw [e]
  refine ⟨mul_nonneg c0 hr.le, mul_le_mul_of_nonneg_right c1' hr.le, ?_⟩
  rw [mul_div_assoc, div_self hr.ne', mul_one]
  exact c2

/-- C63: the outer radius of the table.  If the radius enclosing all but `shoot_accuracy` of the flux lies strictly
between `30 / 2^(j+1)` and `30 / 2^j` scale radii, so does the value found by the code. -/
theorem C63_spergel_zmax (s : Spergel) (hn : -1 < s.nu) (j : ℕ) (hj : j ≤ 20)
    (h1 : kvInt (s.nu + 1) (30 / 2 ^ j) < s.gs .shoot_accuracy * Real.Gamma (s.nu + 1))
    (h2 : s.gs .shoot_accuracy * Real.Gamma (s.nu + 1) < kvInt (s.nu + 1) (30 / 2 ^ (j + 1))) :
    30 / 2 ^ (j + 1) ≤ s.shootZmax ∧ s.shootZmax ≤ 30 / 2 ^ j := by
  have hG := Real.Gamma_pos_of_pos (show 0 < s.nu + 1 by linarith)
  have hbig : ∀ i ≤ 21, (1e-10 : ℝ) < 30 / 2 ^ i := by
    intro i hi
    rw [lt_div_iff₀ (by positivity)]
    have : (2 : ℝ) ^ i ≤ 2 ^ 21 := pow_le_pow_right₀ (by norm_num) hi
    have h3 : (2 : ℝ) ^ 21 = 2097152 := by norm_num
    rw [h3] at this
    norm_num
    linarith
  have := bisect_lower (fun z => fluxFraction z s.nu (1 - s.gs .shoot_accuracy)) 30 (by norm_num) j (74 - j) (by
    intro i hi
    rw [fluxFraction_eq hn (hbig i (by omega))]
    have hle : (30 : ℝ) / 2 ^ j ≤ 30 / 2 ^ i := by
      apply div_le_div_of_nonneg_left (by norm_num) (by positivity)
      exact pow_le_pow_right₀ (by norm_num) hi
    have h3 := kvInt_antitone (mu := s.nu + 1) (by linarith) (z := 30 / 2 ^ j) (by positivity) hle
    have : kvInt (s.nu + 1) (30 / 2 ^ i) / Real.Gamma (s.nu + 1) < s.gs .shoot_accuracy := by
      rw [div_lt_iff₀ hG]; linarith
    linarith) (by
    rw [fluxFraction_eq hn (hbig (j + 1) (by omega))]
    have : s.gs .shoot_accuracy < kvInt (s.nu + 1) (30 / 2 ^ (j + 1)) / Real.Gamma (s.nu + 1) := by
      rw [lt_div_iff₀ hG]; exact h2
    linarith)
  rw [show j + 1 + (74 - j) = 75 by omega] at this
  exact this

/-- The hypotheses hold for `nu = 1/2` and `shoot_accuracy = 1e-5`. -/
theorem spergel_half_zmax (gs : GSP) (h : gs .shoot_accuracy = 1e-5) : 7.5 ≤ (Spergel.mk (1 / 2) 1 1 gs).shootZmax := by
  have e := Real.exp_one_gt_d9
  have e' := Real.exp_one_lt_d9
  have hG : Real.Gamma (1 / 2 + 1) = Real.sqrt Real.pi / 2 := by
    rw [Real.Gamma_add_one (by norm_num), Real.Gamma_one_half_eq]; ring
  have hpi : 0 < Real.sqrt Real.pi := Real.sqrt_pos.2 Real.pi_pos
  have h15 : Real.exp (-15) < 1e-5 / 16 := by
    rw [Real.exp_neg, ← one_div, div_lt_iff₀ (Real.exp_pos _)]
    have : Real.exp 15 = Real.exp 1 ^ 15 := by rw [← Real.exp_nat_mul]; norm_num
    rw [this]
    have : (2.7 : ℝ) ^ 15 ≤ Real.exp 1 ^ 15 := pow_le_pow_left₀ (by norm_num) (by norm_num at e ⊢; linarith) 15
    norm_num at this ⊢
    linarith
  have h7 : (1e-5 : ℝ) / 8.5 < Real.exp (-7.5) := by
    have : Real.exp (-8) ≤ Real.exp (-7.5) := Real.exp_le_exp.2 (by norm_num)
    refine lt_of_lt_of_le ?_ this
    rw [Real.exp_neg, ← one_div, lt_div_iff₀ (Real.exp_pos _)]
    have : Real.exp 8 = Real.exp 1 ^ 8 := by rw [← Real.exp_nat_mul]; norm_num
    rw [this]
    have : Real.exp 1 ^ 8 ≤ (2.8 : ℝ) ^ 8 := pow_le_pow_left₀ (Real.exp_pos _).le (by norm_num at e' ⊢; linarith) 8
    norm_num at this ⊢
    linarith
  have := (C63_spergel_zmax ⟨1 / 2, 1, 1, gs⟩ (by norm_num) 1 (by norm_num) (by
    simp only [h]
    rw [show (1 / 2 + 1 : ℝ) = 3 / 2 by norm_num, kvInt_three_half (by norm_num), ← show (1 / 2 + 1 : ℝ) = 3 / 2 by norm_num, hG]
    norm_num at h15 ⊢
    nlinarith) (by
    simp only [h]
    rw [show (1 / 2 + 1 : ℝ) = 3 / 2 by norm_num, kvInt_three_half (by norm_num), ← show (1 / 2 + 1 : ℝ) = 3 / 2 by norm_num, hG]
    norm_num at h7 ⊢
    nlinarith)).1
  norm_num at this ⊢
  exact this

example (gs : GSP) (h : gs .shoot_accuracy = 1e-5) : ValidCdf 10000 (Spergel.mk (1 / 2) 1 1 gs).posCdf :=
  C63_spergel_cdf _ (by norm_num) (lt_of_lt_of_le (by norm_num) (spergel_half_zmax gs h))

/-! ### Spergel, index not positive -/

/-- C63: inside the innermost radius `ρ` the code replaces the surface brightness by the line `a + b z` which is
continuous at `ρ` and holds the right flux: the flux of the line, `∫ z (a + b z)`, is `shoot_accuracy` of the total. -/
theorem C63_spergel_line (s : Spergel) (hn : -1 < s.nu) (hr : s.shootRmin ≠ 0) :
    s.negA + s.negB * s.shootRmin = fzNu s.shootRmin s.nu ∧
    (∫ z in (0 : ℝ)..s.shootRmin, 2 * Real.pi * z * (s.shootxnorm * (s.negA + s.negB * z))) = s.gs .shoot_accuracy := by
  have hG := Real.Gamma_pos_of_pos (show 0 < s.nu + 1 by linarith)
  have h2 : (0 : ℝ) < 2 ^ s.nu := by positivity
  have hx : s.shootxnorm ≠ 0 := by
    unfold Spergel.shootxnorm gammaP1
    rw [gammaJ_eq (by linarith)]
    have := Real.pi_pos
    positivity
  constructor
  · unfold Spergel.negA
    ring
  · have e : ∀ z : ℝ, 2 * Real.pi * z * (s.shootxnorm * (s.negA + s.negB * z)) =
        2 * Real.pi * s.shootxnorm * (s.negA * z + s.negB * z ^ 2) := fun z => by ring
    simp only [e]
    rw [intervalIntegral.integral_const_mul, intervalIntegral.integral_add
      (by apply Continuous.intervalIntegrable; fun_prop) (by apply Continuous.intervalIntegrable; fun_prop),
      intervalIntegral.integral_const_mul, intervalIntegral.integral_const_mul, integral_id, integral_pow]
    unfold Spergel.negA Spergel.negB
    have := Real.pi_pos
    simp only
    field_simp
    push_cast
    ring

/-- `√(π/2)`. -/
noncomputable def cHalf : ℝ := (2 : ℝ) ^ (-(1 / 2) : ℝ) * Real.sqrt Real.pi

theorem cHalf_pos : 0 < cHalf := by
  have := Real.sqrt_pos.2 Real.pi_pos
  unfold cHalf
  positivity

theorem half_nup1 {z : ℝ} (hz : 1e-10 < z) : fzNup1 z (-(1 / 2)) = cHalf * Real.exp (-z) := by
  have hz0 : 0 < z := lt_trans (by norm_num) hz
  unfold fzNup1 cHalf
  rw [if_neg (not_le.2 hz), rpow_mul_kv _ hz0, show (-(1 / 2) + 1 : ℝ) = 1 / 2 by norm_num, kvInt_half hz0.le]
  norm_num
  ring

theorem half_nu {z : ℝ} (hz : 1e-10 < z) : fzNu z (-(1 / 2)) = cHalf * Real.exp (-z) / z := by
  have hz0 : 0 < z := lt_trans (by norm_num) hz
  unfold fzNu cHalf
  have e2 : (z ^ 2 / 4) ^ (-(1 / 2) : ℝ) = 2 / z := by
    rw [Real.rpow_neg (by positivity), ← Real.sqrt_eq_rpow, show z ^ 2 / 4 = (z / 2) ^ 2 by ring,
      Real.sqrt_sq (by positivity)]
    field_simp
  rw [if_neg (not_le.2 hz), rpow_mul_kv _ hz0, kvInt_neg _ hz0, e2, kvInt_half hz0.le,
    Real.rpow_sub_one (by norm_num)]
  field_simp

theorem half_fraction {z : ℝ} (hz : 1e-10 < z) (alpha : ℝ) :
    fluxFraction z (-(1 / 2)) alpha = 1 - Real.exp (-z) - alpha := by
  have hz0 : 0 < z := lt_trans (by norm_num) hz
  rw [fluxFraction_eq (by norm_num) hz, show (-(1 / 2) + 1 : ℝ) = 1 / 2 by norm_num, kvInt_half hz0.le,
    Real.Gamma_one_half_eq]
  have := Real.sqrt_pos.2 Real.pi_pos
  field_simp

theorem half_shootxnorm (s : Spergel) (hn : s.nu = -(1 / 2)) : s.shootxnorm = 1 / (2 * Real.pi * cHalf) := by
  unfold Spergel.shootxnorm gammaP1 cHalf
  rw [hn, gammaJ_eq (by norm_num), show (-(1 / 2) + 1 : ℝ) = 1 / 2 by norm_num, Real.Gamma_one_half_eq]
  ring_nf

/-- The accuracy used in the counterexample, about `1e-8`. -/
noncomputable def accBad : ℝ := 1 - Real.exp (-(1 / 100663296))

theorem accBad_bounds : 9.9e-9 ≤ accBad ∧ accBad ≤ 1 / 100663296 := by
  unfold accBad
  constructor
  · have h := Real.exp_bound_div_one_sub_of_interval (x := 1 / 100663296) (by norm_num) (by norm_num)
    have h1 := Real.exp_pos (1 / 100663296)
    have h2 : 1 + 1 / 100663296 ≤ Real.exp (1 / 100663296) := by
      have := Real.add_one_le_exp (1 / 100663296 : ℝ)
      linarith
    rw [Real.exp_neg]
    have : (Real.exp (1 / 100663296))⁻¹ ≤ (1 + 1 / 100663296)⁻¹ := inv_anti₀ (by norm_num) h2
    norm_num at this ⊢
    linarith
  · have := Real.add_one_le_exp (-(1 / 100663296) : ℝ)
    linarith

theorem bad_rmin (s : Spergel) (hn : s.nu = -(1 / 2)) (ha : s.gs .shoot_accuracy = accBad) :
    1 / 100663296 < s.shootRmin ∧ s.shootRmin < 1 / 100663296 + 1e-20 := by
  have hb := bisect_root (fun z => fluxFraction z s.nu (s.gs .shoot_accuracy)) 40 (1 / 100663296) (by norm_num)
    (by norm_num) (by
      intro z h1 h2
      simp only [hn, ha]
      rw [half_fraction (lt_trans (by norm_num) h1)]
      have : Real.exp (-(1 / 100663296)) < Real.exp (-z) := Real.exp_lt_exp.2 (by linarith)
      unfold accBad
      linarith) (by
      intro z h1 _
      simp only [hn, ha]
      rw [half_fraction (lt_trans (by norm_num) h1)]
      have : Real.exp (-z) < Real.exp (-(1 / 100663296)) := Real.exp_lt_exp.2 (by linarith)
      unfold accBad
      linarith) (by
      intro n k h
      rw [div_eq_iff (by positivity)] at h
      have h' : ((3 * (k * 40 * 33554432) : ℕ) : ℝ) = ((2 ^ n : ℕ) : ℝ) := by
        push_cast
        linarith
      have h'' : 3 * (k * 40 * 33554432) = 2 ^ n := by exact_mod_cast h'
      have : 3 ∣ 2 ^ n := ⟨_, h''.symm⟩
      have := Nat.Prime.dvd_of_dvd_pow Nat.prime_three this
      omega) 75
  refine ⟨hb.2.1, ?_⟩
  have h3 : s.shootRmin - (bisRun (fun z => fluxFraction z s.nu (s.gs .shoot_accuracy)) 0 40 75).low = 40 / 2 ^ 75 := hb.2.2
  have h4 := hb.1
  have : (40 : ℝ) / 2 ^ 75 < 1e-20 := by norm_num
  linarith

/-- `C63_spergel_line` for the index `-1/2`. -/
example (s : Spergel) (hn : s.nu = -(1 / 2)) (ha : s.gs .shoot_accuracy = accBad) :
    s.negA + s.negB * s.shootRmin = fzNu s.shootRmin s.nu :=
  (C63_spergel_line s (by rw [hn]; norm_num) (lt_trans (by norm_num) (bad_rmin s hn ha).1).ne').1

theorem bad_zmax (s : Spergel) (hn : s.nu = -(1 / 2)) (ha : s.gs .shoot_accuracy = accBad) :
    15 ≤ s.shootZmax ∧ s.shootZmax ≤ 30 := by
  have e := Real.exp_one_gt_d9
  have e' := Real.exp_one_lt_d9
  have hpi : 0 < Real.sqrt Real.pi := Real.sqrt_pos.2 Real.pi_pos
  obtain ⟨hb1, hb2⟩ := accBad_bounds
  have h30 : Real.exp (-30) < 1e-9 := by
    rw [Real.exp_neg, ← one_div, div_lt_iff₀ (Real.exp_pos _)]
    have : Real.exp 30 = Real.exp 1 ^ 30 := by rw [← Real.exp_nat_mul]; norm_num
    rw [this]
    have : (2.7 : ℝ) ^ 30 ≤ Real.exp 1 ^ 30 := pow_le_pow_left₀ (by norm_num) (by norm_num at e ⊢; linarith) 30
    norm_num at this ⊢
    linarith
  have h15 : (1e-7 : ℝ) < Real.exp (-15) := by
    rw [Real.exp_neg, ← one_div, lt_div_iff₀ (Real.exp_pos _)]
    have : Real.exp 15 = Real.exp 1 ^ 15 := by rw [← Real.exp_nat_mul]; norm_num
    rw [this]
    have : Real.exp 1 ^ 15 ≤ (2.72 : ℝ) ^ 15 := pow_le_pow_left₀ (Real.exp_pos _).le (by norm_num at e' ⊢; linarith) 15
    norm_num at this ⊢
    linarith
  have := C63_spergel_zmax s (by rw [hn]; norm_num) 0 (by norm_num) (by
    rw [ha, hn, show (-(1 / 2) + 1 : ℝ) = 1 / 2 by norm_num, kvInt_half (by norm_num), Real.Gamma_one_half_eq, mul_comm]
    apply mul_lt_mul_of_pos_right _ hpi
    norm_num at h30 hb1 ⊢
    linarith) (by
    rw [ha, hn, show (-(1 / 2) + 1 : ℝ) = 1 / 2 by norm_num, kvInt_half (by norm_num), Real.Gamma_one_half_eq, mul_comm (Real.sqrt Real.pi)]
    apply mul_lt_mul_of_pos_right _ hpi
    norm_num at h15 hb2 ⊢
    linarith)
  norm_num at this
  exact this

/-- The table of the counterexample away from the centre. -/
theorem bad_table (s : Spergel) (hn : s.nu = -(1 / 2)) (ha : s.gs .shoot_accuracy = accBad) :
    ∃ A : ℝ, -0.52 ≤ A ∧ A ≤ -0.45 ∧ s.negCdf 0 = 0 ∧
      ∀ i, 0 < i → i < 10000 →
        s.negCdf i = (A - Real.exp (-(s.zCdf i))) / (A - Real.exp (-s.shootZmax)) := by
  obtain ⟨hr1, hr2⟩ := bad_rmin s hn ha
  obtain ⟨hz1, hz2⟩ := bad_zmax s hn ha
  obtain ⟨hb1, hb2⟩ := accBad_bounds
  have hc := cHalf_pos
  have hpi := Real.pi_pos
  have hrb : 1e-10 < s.shootRmin := lt_trans (by norm_num) hr1
  have hr0 : 0 < s.shootRmin := lt_trans (by norm_num) hr1
  obtain ⟨ρ, hρ⟩ : ∃ ρ, ρ = s.shootRmin := ⟨_, rfl⟩
  have hB : s.negB = 3 * (cHalf * Real.exp (-ρ) / ρ - 2 * cHalf * accBad / (ρ * ρ)) / ρ := by
    unfold Spergel.negB
    rw [half_shootxnorm s hn, hn, half_nu hrb, ha, ← hρ]
    simp only
    rw [← hρ] at hr0
    field_simp
  have hA : s.negA = cHalf * Real.exp (-ρ) / ρ - ρ * s.negB := by
    unfold Spergel.negA
    rw [hn, half_nu hrb, ← hρ]
  rw [← hρ] at hr1 hr2 hr0 hrb
  have hmin : s.negA / 3 * ρ * ρ * ρ + s.negB / 2 * ρ * ρ =
      cHalf * (Real.exp (-ρ) * ρ ^ 2 / 3 - 3 * (2 * (accBad / ρ) - Real.exp (-ρ)) * (1 / 2 - ρ ^ 2 / 3)) := by
    rw [hA, hB]
    field_simp
    ring
  have hE1 : Real.exp (-ρ) ≤ 1 := Real.exp_le_one_iff.2 (by linarith)
  have hE2 : 0.999 ≤ Real.exp (-ρ) := by
    have := Real.add_one_le_exp (-ρ)
    norm_num at hr2 ⊢
    linarith
  have hq1 : accBad / ρ ≤ 1 := (div_le_one hr0).2 (by linarith)
  have hq2 : 0.99 ≤ accBad / ρ := by
    rw [le_div_iff₀ hr0]
    norm_num at hr2 hb1 ⊢
    linarith
  have hρ2 : ρ ^ 2 ≤ 1e-6 := by
    have : ρ ≤ 1e-3 := by norm_num at hr2 ⊢; linarith
    calc ρ ^ 2 ≤ (1e-3) ^ 2 := by gcongr
      _ = 1e-6 := by norm_num
  have hρ20 : 0 ≤ ρ ^ 2 := by positivity
  obtain ⟨M, hM⟩ : ∃ M, M = Real.exp (-ρ) * ρ ^ 2 / 3 - 3 * (2 * (accBad / ρ) - Real.exp (-ρ)) * (1 / 2 - ρ ^ 2 / 3) := ⟨_, rfl⟩
  have hM1 : -1.51 ≤ M := by
    rw [hM]
    generalize Real.exp (-ρ) = E at hE1 hE2 ⊢
    generalize accBad / ρ = q at hq1 hq2 ⊢
    generalize ρ ^ 2 = w at hρ2 hρ20 ⊢
    norm_num at *
    nlinarith [mul_nonneg hρ20 (by linarith : (0 : ℝ) ≤ E), mul_nonneg hρ20 (by linarith : (0 : ℝ) ≤ 2 * q - E)]
  have hM2 : M ≤ -1.46 := by
    rw [hM]
    generalize Real.exp (-ρ) = E at hE1 hE2 ⊢
    generalize accBad / ρ = q at hq1 hq2 ⊢
    generalize ρ ^ 2 = w at hρ2 hρ20 ⊢
    norm_num at *
    have h1 : E * w ≤ w := by nlinarith
    have h2 : w * (2 * q - E) ≤ 2 * w := by nlinarith
    nlinarith
  rw [← hM] at hmin
  refine ⟨M + Real.exp (-ρ), by norm_num at hM1 hE2 ⊢; linarith, by norm_num at hM2 ⊢; linarith, ?_, ?_⟩
  · have : s.zCdf 0 = 0 := by simp [Spergel.zCdf, linspace]
    unfold Spergel.negCdf cumulFlux
    simp only [this]
    rw [if_pos (by rw [← hρ]; exact hr0.le)]
    simp
  · intro i h0 hi
    have hzi : Inc 10000 s.zCdf := linspace_inc s.shootZmax (by linarith) 10000 (by norm_num)
    have h1 : s.zCdf 1 = s.shootZmax / 9999 := by
      unfold Spergel.zCdf linspace
      push_cast
      ring
    have h2 := hzi.le (show 1 ≤ i by omega) hi
    rw [h1] at h2
    have hz3 : (0.001 : ℝ) ≤ s.zCdf i := by
      refine le_trans ?_ h2
      rw [le_div_iff₀ (by norm_num)]
      norm_num
      linarith
    have hz4 : ¬ s.zCdf i ≤ ρ := by norm_num at hz3 hr2 ⊢; linarith
    have hz5 : ¬ s.shootZmax ≤ ρ := by norm_num at hr2 ⊢; linarith
    have hz6 : 1e-10 < s.zCdf i := lt_of_lt_of_le (by norm_num) hz3
    have hz7 : 1e-10 < s.shootZmax := lt_of_lt_of_le (by norm_num) hz1
    unfold Spergel.negCdf cumulFlux
    simp only [← hρ, if_neg hz4, if_neg hz5, hn, half_nup1 hz6, half_nup1 hz7, half_nup1 hrb, hmin]
    rw [div_one, show cHalf * M + cHalf * Real.exp (-ρ) - cHalf * Real.exp (-(s.zCdf i)) =
      cHalf * (M + Real.exp (-ρ) - Real.exp (-(s.zCdf i))) by ring,
      show cHalf * M + cHalf * Real.exp (-ρ) - cHalf * Real.exp (-s.shootZmax) =
      cHalf * (M + Real.exp (-ρ) - Real.exp (-s.shootZmax)) by ring, mul_div_mul_left _ _ hc.ne']

/-- Disagreement: for a Spergel profile with `nu ≤ 0` the sampling table is not a cumulative distribution.  `cumulflux`
(spergel.py:488-496) integrates `z (a + b z)` as `a z³/3 + b z²/2`, with the two powers exchanged.  For `nu = -1/2` and a
`shoot_accuracy` of about `1e-8` the table jumps to more than 2 at its second entry and comes down to 1 at the end; every
deviate below 1 then falls in the first interval, and all photons land within `0.0016` scale radii of the centre, although
the half-light radius of the profile is about `0.69` scale radii. -/
theorem C63_spergel_negative_counterexample (s : Spergel) (hn : s.nu = -(1 / 2)) (hr : 0 < s.r0)
    (ha : s.gs .shoot_accuracy = accBad) :
    s.negCdf 0 = 0 ∧ 2 < s.negCdf 1 ∧ s.negCdf 9999 = 1 ∧ ¬ ValidCdf 10000 s.negCdf ∧
    (∀ u : ℝ, 0 ≤ u → u < 1 → 0 ≤ s.shootR u ∧ s.shootR u ≤ 0.0016 * s.r0) ∧
    fluxFraction 0.0016 s.nu 0 < 0.002 := by
  obtain ⟨A, hA1, hA2, h0, htab⟩ := bad_table s hn ha
  obtain ⟨hz1, hz2⟩ := bad_zmax s hn ha
  have hzi : Inc 10000 s.zCdf := linspace_inc s.shootZmax (by linarith) 10000 (by norm_num)
  have hz0 : s.zCdf 0 = 0 := by simp [Spergel.zCdf, linspace]
  have hzl : s.zCdf 9999 = s.shootZmax := by
    unfold Spergel.zCdf linspace
    push_cast
    ring
  have hzo : s.zCdf 1 = s.shootZmax / 9999 := by
    unfold Spergel.zCdf linspace
    push_cast
    ring
  have hEz : Real.exp (-s.shootZmax) ≤ 0.01 := by
    have h1 : Real.exp (-s.shootZmax) ≤ Real.exp (-15) := Real.exp_le_exp.2 (by linarith)
    have h2 : Real.exp (-15) ≤ 1 / 16 := by
      rw [Real.exp_neg, ← one_div]
      have := Real.add_one_le_exp (15 : ℝ)
      exact one_div_le_one_div_of_le (by norm_num) (by linarith)
    have h3 : Real.exp (-15) ≤ 0.01 := by
      have e := Real.exp_one_gt_d9
      rw [Real.exp_neg, ← one_div, div_le_iff₀ (Real.exp_pos _)]
      have : Real.exp 15 = Real.exp 1 ^ 15 := by rw [← Real.exp_nat_mul]; norm_num
      rw [this]
      have : (2.7 : ℝ) ^ 15 ≤ Real.exp 1 ^ 15 := pow_le_pow_left₀ (by norm_num) (by norm_num at e ⊢; linarith) 15
      norm_num at this ⊢
      linarith
    exact h1.trans h3
  have hEz0 := Real.exp_pos (-s.shootZmax)
  have hden : A - Real.exp (-s.shootZmax) < 0 := by norm_num at hA2; linarith
  have hge : ∀ i, 0 < i → i < 10000 → 1 ≤ s.negCdf i := by
    intro i hi hi'
    rw [htab i hi hi', one_le_div_of_neg hden]
    have := hzi.le (show i ≤ 9999 by omega) (by norm_num)
    rw [hzl] at this
    have : Real.exp (-s.shootZmax) ≤ Real.exp (-(s.zCdf i)) := Real.exp_le_exp.2 (by linarith)
    linarith
  have hone : 2 < s.negCdf 1 := by
    rw [htab 1 (by norm_num) (by norm_num), lt_div_iff_of_neg hden, hzo]
    have := Real.add_one_le_exp (-(s.shootZmax / 9999))
    have h3 : s.shootZmax / 9999 ≤ 0.0031 := by rw [div_le_iff₀ (by norm_num)]; norm_num; linarith
    norm_num at h3 hA1 hA2 hEz ⊢
    linarith
  have hlast : s.negCdf 9999 = 1 := by
    rw [htab 9999 (by norm_num) (by norm_num), hzl]
    exact div_self hden.ne
  refine ⟨h0, hone, hlast, ?_, ?_, ?_⟩
  · rintro ⟨_, _, h⟩
    have := h 1 9999 (by norm_num) (by norm_num)
    rw [hlast] at this
    linarith
  · intro u hu0 hu1
    have hcount : searchsortedRight 10000 s.negCdf u = 1 := by
      unfold searchsortedRight
      have : (Finset.range 10000).filter (fun k => s.negCdf k ≤ u) = {0} := by
        ext k
        simp only [Finset.mem_filter, Finset.mem_range, Finset.mem_singleton]
        constructor
        · rintro ⟨hk, hku⟩
          by_contra hc
          have := hge k (by omega) hk
          linarith
        · rintro rfl
          exact ⟨by norm_num, by rw [h0]; exact hu0⟩
      rw [this, Finset.card_singleton]
    have hidx : (clipI (searchsortedRight 10000 s.negCdf u) 1 ((10000 : ℕ) - 1)).toNat = 1 := by
      rw [hcount]
      simp [clipI]
    have e : s.shootR u = u / s.negCdf 1 * s.zCdf 1 * s.r0 := by
      have hn' : ¬ s.nu > 0 := by rw [hn]; norm_num
      simp only [Spergel.shootR, if_neg hn', Spergel.shootNeg, jnpInterp, hidx]
      rw [show 10000 - 1 = 9999 by norm_num, show 1 - 1 = 0 by norm_num, h0, hlast, hz0,
        if_neg (not_lt.2 hu1.le), if_neg (not_lt.2 hu0), if_neg (by linarith)]
      ring
    rw [e]
    have hz1' : 0 ≤ s.zCdf 1 := by rw [hzo]; positivity
    have hz1'' : s.zCdf 1 ≤ 0.0031 := by rw [hzo, div_le_iff₀ (by norm_num)]; norm_num; linarith
    have hq : u / s.negCdf 1 ≤ 1 / 2 := by rw [div_le_iff₀ (by linarith)]; linarith
    have hq0 : 0 ≤ u / s.negCdf 1 := div_nonneg hu0 (by linarith)
    refine ⟨by positivity, mul_le_mul_of_nonneg_right ?_ hr.le⟩
    calc u / s.negCdf 1 * s.zCdf 1 ≤ 1 / 2 * 0.0031 := mul_le_mul hq hz1'' hz1' (by norm_num)
      _ ≤ 0.0016 := by norm_num
  · rw [hn, half_fraction (by norm_num)]
    have := Real.add_one_le_exp (-0.0016 : ℝ)
    norm_num at this ⊢
    linarith

example : ∃ s : Spergel, s.nu = -(1 / 2) ∧ 0 < s.r0 ∧ s.gs .shoot_accuracy = accBad :=
  ⟨⟨-(1 / 2), 1, 1, fun _ => accBad⟩, rfl, one_pos, rfl⟩

end JG.Elt
