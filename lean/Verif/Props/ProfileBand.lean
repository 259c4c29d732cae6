import Verif.Props.ProfileFourier
import Verif.Props.Stretch
import Mathlib.Analysis.SpecialFunctions.Trigonometric.Bounds

/-!
C77: `maxk` and `stepk` of the elementary profiles keep their promises: beyond `maxk` the Fourier values are below
`maxk_threshold`, and the flux outside the radius `π / stepk` is below `folding_threshold`.
-/

open MeasureTheory Set

namespace JG.Elt

/-! ### Band limits -/

theorem gauss_exp_le {x t : ℝ} (ht : 0 < t) (hx : -2 * Real.log t ≤ x) : Real.exp (-0.5 * x) ≤ t := by
  rw [← Real.le_log_iff_exp_le ht]
  norm_num
  linarith

/-- C77: a Gaussian is at most `maxk_threshold` of its flux at every frequency from `maxk` on, and exactly that at
`maxk`. -/
theorem C77_gaussian_maxk (g : Gaussian) (hs : 0 < g.sigma) (ht : 0 < g.gs .maxk_threshold) (ht1 : g.gs .maxk_threshold ≤ 1)
    (k : ℝ × ℝ) :
    (g.maxk ≤ Real.sqrt (k.1 ^ 2 + k.2 ^ 2) → |g.kValue k| ≤ g.gs .maxk_threshold * |g.flux|) ∧
    (g.maxk = Real.sqrt (k.1 ^ 2 + k.2 ^ 2) → g.kValue k = g.gs .maxk_threshold * g.flux) := by
  have hl : 0 ≤ -2 * Real.log (g.gs .maxk_threshold) := by
    have := Real.log_nonpos ht.le ht1
    linarith
  have hsq : g.maxk ^ 2 * g.sigma ^ 2 = -2 * Real.log (g.gs .maxk_threshold) := by
    unfold Gaussian.maxk
    rw [div_pow, Real.sq_sqrt hl]
    field_simp
  have hm : 0 ≤ g.maxk := div_nonneg (Real.sqrt_nonneg _) hs.le
  have hn : 0 ≤ k.1 ^ 2 + k.2 ^ 2 := by positivity
  simp only [Gaussian.kValue, Gaussian.sigsq]
  refine ⟨fun h => ?_, fun h => ?_⟩
  · rw [abs_mul, Real.abs_exp, mul_comm]
    refine mul_le_mul_of_nonneg_right (gauss_exp_le ht ?_) (abs_nonneg _)
    have h2 : g.maxk ^ 2 ≤ k.1 ^ 2 + k.2 ^ 2 := by
      rw [← Real.sq_sqrt hn]
      gcongr
    rw [← hsq]
    gcongr
  · have h2 : k.1 ^ 2 + k.2 ^ 2 = g.maxk ^ 2 := by rw [h, Real.sq_sqrt hn]
    rw [h2, hsq, show -0.5 * (-2 * Real.log (g.gs .maxk_threshold)) = Real.log (g.gs .maxk_threshold) by ring,
      Real.exp_log ht, mul_comm]

/-- C77: a Spergel profile is at most `maxk_threshold` of its flux at every frequency from `maxk` on, and exactly that at
`maxk`. -/
theorem C77_spergel_maxk (s : Spergel) (hn : -1 < s.nu) (hr : 0 < s.r0) (ht : 0 < s.gs .maxk_threshold)
    (ht1 : s.gs .maxk_threshold ≤ 1) (k : ℝ × ℝ) :
    (s.maxk ≤ Real.sqrt (k.1 ^ 2 + k.2 ^ 2) → |s.kValue k| ≤ s.gs .maxk_threshold * |s.flux|) ∧
    (s.maxk = Real.sqrt (k.1 ^ 2 + k.2 ^ 2) → s.kValue k = s.gs .maxk_threshold * s.flux) := by
  have hn1 : 0 < 1 + s.nu := by linarith
  have hb : 1 ≤ s.gs .maxk_threshold ^ (-1 / (1 + s.nu)) :=
    Real.one_le_rpow_of_pos_of_le_one_of_nonpos ht ht1 (div_nonpos_of_nonpos_of_nonneg (by norm_num) hn1.le)
  have hsq : 1 + s.maxk ^ 2 * (s.r0 * s.r0) = s.gs .maxk_threshold ^ (-1 / (1 + s.nu)) := by
    simp only [Spergel.maxk]
    rw [div_pow, Real.sq_sqrt (by linarith)]
    field_simp
    ring
  have hpow : (1 + s.maxk ^ 2 * (s.r0 * s.r0)) ^ (-1 - s.nu) = s.gs .maxk_threshold := by
    rw [hsq, ← Real.rpow_mul ht.le, show -1 / (1 + s.nu) * (-1 - s.nu) = 1 by field_simp; ring, Real.rpow_one]
  have hm : 0 ≤ s.maxk := div_nonneg (Real.sqrt_nonneg _) hr.le
  have hk : 0 ≤ k.1 ^ 2 + k.2 ^ 2 := by positivity
  simp only [Spergel.kValue]
  refine ⟨fun h => ?_, fun h => ?_⟩
  · rw [abs_mul, mul_comm, abs_of_nonneg (by positivity : 0 ≤ (1 + (k.1 ^ 2 + k.2 ^ 2) * (s.r0 * s.r0)) ^ (-1 - s.nu))]
    refine mul_le_mul_of_nonneg_right ?_ (abs_nonneg _)
    rw [← hpow]
    refine Real.rpow_le_rpow_of_nonpos (by positivity) ?_ (by linarith)
    have h2 : s.maxk ^ 2 ≤ k.1 ^ 2 + k.2 ^ 2 := by
      rw [← Real.sq_sqrt hk]
      gcongr
    gcongr
  · have h2 : k.1 ^ 2 + k.2 ^ 2 = s.maxk ^ 2 := by rw [h, Real.sq_sqrt hk]
    rw [h2, hpow, mul_comm]

/-- C77: an exponential profile is below `maxk_threshold` of its flux at every frequency from `maxk` on. -/
theorem C77_exponential_maxk (e : Exponential) (hr : 0 < e.r0) (ht : 0 < e.gs .maxk_threshold) (k : ℝ × ℝ)
    (h : e.maxk ≤ Real.sqrt (k.1 ^ 2 + k.2 ^ 2)) : |e.kValue k| ≤ e.gs .maxk_threshold * |e.flux| := by
  have hk : 0 ≤ k.1 ^ 2 + k.2 ^ 2 := by positivity
  obtain ⟨t, htd⟩ : ∃ t, t = e.gs .maxk_threshold := ⟨_, rfl⟩
  obtain ⟨c, hc⟩ : ∃ c, c = t ^ (-(1 / 3) : ℝ) := ⟨_, rfl⟩
  rw [← htd] at ht ⊢
  have hc0 : 0 < c := by rw [hc]; positivity
  have hc3 : c ^ 3 = t⁻¹ := by
    rw [hc, ← Real.rpow_natCast, ← Real.rpow_mul ht.le]
    norm_num
    exact Real.rpow_neg_one t
  have hm : c / e.r0 ≤ Real.sqrt (k.1 ^ 2 + k.2 ^ 2) := by
    rw [hc, htd]
    exact h
  have hq : c ^ 2 ≤ (k.1 ^ 2 + k.2 ^ 2) * e.r0 ^ 2 + 1 := by
    have h1 : (c / e.r0) ^ 2 ≤ k.1 ^ 2 + k.2 ^ 2 := by
      rw [← Real.sq_sqrt hk]
      gcongr
    rw [div_pow, div_le_iff₀ (by positivity)] at h1
    linarith
  obtain ⟨q, hqd⟩ : ∃ q, q = (k.1 ^ 2 + k.2 ^ 2) * e.r0 ^ 2 + 1 := ⟨_, rfl⟩
  simp only [Exponential.kValue]
  rw [← hqd] at hq ⊢
  have hs : c ≤ Real.sqrt q := Real.le_sqrt_of_sq_le hq
  have hq0 : 0 < q := lt_of_lt_of_le (by positivity) hq
  rw [abs_div, abs_of_pos (by positivity : 0 < q * Real.sqrt q), div_le_iff₀ (by positivity)]
  have : t⁻¹ ≤ q * Real.sqrt q := by
    rw [← hc3, pow_succ]
    gcongr
  calc |e.flux| = t * |e.flux| * t⁻¹ := by field_simp
    _ ≤ _ := by gcongr

/-! ### The box -/

theorem sinc_le_inv {x : ℝ} (hx : x ≠ 0) : |Real.sinc x| ≤ 1 / |x| := by
  rw [Real.sinc_of_ne_zero hx, abs_div]
  gcongr
  exact Real.abs_sin_le_one x

theorem sinc_sq_le (x : ℝ) : Real.sinc x ^ 2 * (1 + x ^ 2 / 4) ≤ 1 := by
  rcases eq_or_ne x 0 with rfl | hx
  · simp
  have hx2 : 0 < x ^ 2 := by positivity
  rw [Real.sinc_of_ne_zero hx, div_pow, div_mul_eq_mul_div, div_le_one hx2]
  have h1 := Real.sin_sq_add_cos_sq x
  rcases le_or_gt (x ^ 2) 2 with h | h
  · have h2 := Real.one_sub_sq_div_two_le_cos (x := x)
    have h3 : (1 - x ^ 2 / 2) ^ 2 ≤ Real.cos x ^ 2 := pow_le_pow_left₀ (by linarith) h2 2
    nlinarith [sq_nonneg (x ^ 2)]
  · have h2 := Real.sin_sq_le_one x
    nlinarith

/-- Far from the origin the product of two sinc functions is small. -/
theorem sinc_mul_le {a b T : ℝ} (hT : 3 ≤ T) (h : T ^ 2 ≤ a ^ 2 + b ^ 2) : |Real.sinc a * Real.sinc b| ≤ 1 / T := by
  wlog hab : b ^ 2 ≤ a ^ 2 generalizing a b
  · rw [mul_comm]
    exact this (by linarith) (le_of_lt (not_le.1 hab))
  have hT0 : 0 < T := by linarith
  have ha2 : 0 < a ^ 2 := by nlinarith
  have ha : a ≠ 0 := by
    rintro rfl
    simp at ha2
  rw [← abs_of_pos (show 0 < 1 / T by positivity), ← sq_le_sq, mul_pow, one_div, inv_pow]
  have h1 : Real.sinc a ^ 2 ≤ 1 / a ^ 2 := by
    have := pow_le_pow_left₀ (abs_nonneg _) (sinc_le_inv ha) 2
    rwa [sq_abs, div_pow, sq_abs, one_pow] at this
  have h2 : Real.sinc b ^ 2 ≤ 1 / (1 + b ^ 2 / 4) := by
    rw [le_div_iff₀ (by positivity)]
    exact sinc_sq_le b
  refine (mul_le_mul h1 h2 (sq_nonneg _) (by positivity)).trans ?_
  rw [div_mul_div_comm, one_mul, one_div]
  refine inv_anti₀ (by positivity) ?_
  rcases le_or_gt (T ^ 2) (a ^ 2) with hc | hc
  · nlinarith [mul_nonneg ha2.le (sq_nonneg b)]
  · have ha4 : 4 ≤ a ^ 2 := by nlinarith
    nlinarith [mul_nonneg (sub_nonneg.2 hc.le) (sub_nonneg.2 ha4), mul_nonneg ha2.le (sub_nonneg.2 h)]

/-- C77: a box is at most `maxk_threshold` of its flux at every frequency from `maxk` on, in every direction. -/
theorem C77_box_maxk (b : Box) (hw : 0 < b.width) (hh : 0 < b.height) (ht : 0 < b.gs .maxk_threshold)
    (ht1 : b.gs .maxk_threshold ≤ 1 / 3) (k : ℝ × ℝ) (h : b.maxk ≤ Real.sqrt (k.1 ^ 2 + k.2 ^ 2)) :
    |b.kValue k| ≤ b.gs .maxk_threshold * |b.flux| := by
  have hk : 0 ≤ k.1 ^ 2 + k.2 ^ 2 := by positivity
  have hpi := Real.pi_pos
  obtain ⟨t, htd⟩ : ∃ t, t = b.gs .maxk_threshold := ⟨_, rfl⟩
  obtain ⟨m, hm⟩ : ∃ m, m = min b.width b.height := ⟨_, rfl⟩
  have hm0 : 0 < m := by rw [hm]; exact lt_min hw hh
  rw [Box.maxk, ← htd, ← hm] at h
  rw [← htd] at ht ht1 ⊢
  simp only [Box.kValue, npSinc]
  rw [show Real.pi * (k.1 * (b.width / (2 * Real.pi))) = k.1 * b.width / 2 by field_simp,
    show Real.pi * (k.2 * (b.height / (2 * Real.pi))) = k.2 * b.height / 2 by field_simp, mul_assoc, abs_mul, mul_comm]
  refine mul_le_mul_of_nonneg_right ?_ (abs_nonneg _)
  have h1 : (2 / (t * m)) ^ 2 ≤ k.1 ^ 2 + k.2 ^ 2 := by
    rw [← Real.sq_sqrt hk]
    gcongr
  have := sinc_mul_le (a := k.1 * b.width / 2) (b := k.2 * b.height / 2) (T := 1 / t)
    (by rw [le_div_iff₀ ht]; linarith) (by
      have e1 : m ^ 2 ≤ b.width ^ 2 := by rw [hm]; gcongr; exact min_le_left _ _
      have e2 : m ^ 2 ≤ b.height ^ 2 := by rw [hm]; gcongr; exact min_le_right _ _
      have e3 : (1 / t) ^ 2 = (2 / (t * m)) ^ 2 * m ^ 2 / 4 := by field_simp; norm_num
      have e7 : (k.1 * b.width / 2) ^ 2 + (k.2 * b.height / 2) ^ 2 =
          (k.1 ^ 2 * b.width ^ 2 + k.2 ^ 2 * b.height ^ 2) / 4 := by ring
      rw [e3, e7]
      have e4 : (2 / (t * m)) ^ 2 * m ^ 2 ≤ (k.1 ^ 2 + k.2 ^ 2) * m ^ 2 := by gcongr
      have e5 : k.1 ^ 2 * m ^ 2 ≤ k.1 ^ 2 * b.width ^ 2 := by gcongr
      have e6 : k.2 ^ 2 * m ^ 2 ≤ k.2 ^ 2 * b.height ^ 2 := by gcongr
      linarith)
  rwa [one_div_one_div] at this

/-! ### Trees -/

/-- A Gaussian, exponential, Spergel or box profile of positive size and flux, with the given `maxk_threshold`. -/
inductive BandLeaf (t : ℝ) : Leaf → Prop
  | gaussian {g : Gaussian} : 0 < g.sigma → 0 ≤ g.flux → g.gs .maxk_threshold = t → BandLeaf t (Elem.leaf (.gaussian g))
  | exponential {e : Exponential} : 0 < e.r0 → 0 ≤ e.flux → e.gs .maxk_threshold = t →
      BandLeaf t (Elem.leaf (.exponential e))
  | spergel {s : Spergel} : -1 < s.nu → 0 < s.r0 → 0 ≤ s.flux → s.gs .maxk_threshold = t →
      BandLeaf t (Elem.leaf (.spergel s))
  | box {b : Box} : 0 < b.width → 0 < b.height → 0 ≤ b.flux → b.gs .maxk_threshold = t → BandLeaf t (Elem.leaf (.box b))

theorem bandLeaf_ok {t : ℝ} (ht : 0 < t) (ht1 : t ≤ 1 / 3) (L : Leaf) (h : BandLeaf t L) : L.BandOK t := by
  have key : ∀ v f : ℝ, 0 ≤ f → |v| ≤ |f| → ‖(v : ℂ)‖ ≤ f + 0 + 0 := by
    intro v f hf hv
    rw [Complex.norm_real, Real.norm_eq_abs]
    rw [abs_of_nonneg hf] at hv
    linarith
  have key2 : ∀ v f : ℝ, 0 ≤ f → |v| ≤ t * |f| → ‖(v : ℂ)‖ ≤ t * (f + 0 + 0) := by
    intro v f hf hv
    rw [Complex.norm_real, Real.norm_eq_abs, add_zero, add_zero]
    rwa [abs_of_nonneg hf] at hv
  have dg : Gaussian := ⟨1, 1, fun _ => 1⟩
  have de : Exponential := ⟨1, 1, fun _ => 1⟩
  have db : Box := ⟨1, 1, 1, fun _ => 1⟩
  obtain ⟨ds, hds⟩ : ∃ s : Spergel, -1 < s.nu := ⟨⟨0, 1, 1, fun _ => 1⟩, by norm_num⟩
  cases h with
  | @gaussian g hs hf hg =>
    refine ⟨fun k => key _ _ hf (C62_bound g de db ds hds k).1, fun k hk => key2 _ _ hf ?_⟩
    have := (C77_gaussian_maxk g hs (by rw [hg]; exact ht) (by rw [hg]; linarith) k).1 (le_of_lt hk)
    rwa [hg] at this
  | @exponential e hr hf hg =>
    refine ⟨fun k => key _ _ hf (C62_bound dg e db ds hds k).2.1, fun k hk => key2 _ _ hf ?_⟩
    have := C77_exponential_maxk e hr (by rw [hg]; exact ht) k (le_of_lt hk)
    rwa [hg] at this
  | @spergel s hn hr hf hg =>
    refine ⟨fun k => key _ _ hf (C62_bound dg de db s hn k).2.2.2, fun k hk => key2 _ _ hf ?_⟩
    have := (C77_spergel_maxk s hn hr (by rw [hg]; exact ht) (by rw [hg]; linarith) k).1 (le_of_lt hk)
    rwa [hg] at this
  | @box b hw hh hf hg =>
    refine ⟨fun k => key _ _ hf (C62_bound dg de b ds hds k).2.2.1, fun k hk => key2 _ _ hf ?_⟩
    have := C77_box_maxk b hw hh (by rw [hg]; exact ht) (by rw [hg]; exact ht1) k (le_of_lt hk)
    rwa [hg] at this

/-- C77: for every tree of transformations, sums and convolutions of Gaussian, exponential, Spergel and box profiles with
the same `maxk_threshold`, the Fourier values beyond the `maxk` of the tree are below that fraction of the total absolute
flux. -/
theorem C77_tree_maxk (o : Prof) (t : ℝ) (ht : 0 < t) (ht1 : t ≤ 1 / 3) (h : o.AllLeaves (BandLeaf t)) (hr : o.Regular)
    (k : ℝ × ℝ) (hk : o.maxk < Real.sqrt (k.1 ^ 2 + k.2 ^ 2)) : ‖o.kValue k‖ ≤ t * o.absFlux :=
  C67_maxk o t (allLeaves_mono (fun L hL => bandLeaf_ok ht ht1 L hL) o h) hr k hk

example : (mkConv [mkTransform (.leaf (Elem.leaf (.gaussian ⟨1, 3, fun _ => 1e-3⟩))) ⟨2, 0, 1, 1⟩ (5, 7) 2,
    .leaf (Elem.leaf (.box ⟨1, 1, 1, fun _ => 1e-3⟩))]).AllLeaves (BandLeaf 1e-3) := by
  simp only [mkConv, mkTransform, Prof.AllLeaves, Prof.AllLeavesL, and_true]
  exact ⟨.gaussian (by norm_num) (by norm_num) rfl, .box (by norm_num) (by norm_num) (by norm_num) rfl⟩

/-! ### Folding -/

/-- Specification: the flux outside the radius `R`. -/
noncomputable def fluxOutside (f : ℝ × ℝ → ℝ) (R : ℝ) : ℝ := ∫ p in (disc R)ᶜ, f p

theorem outside_eq {f : ℝ × ℝ → ℝ} (hf : Integrable f) (R : ℝ) : fluxOutside f R = (∫ p, f p) - fluxWithin f R := by
  have := integral_add_compl (measurable_disc R) hf
  unfold fluxOutside fluxWithin
  linarith

theorem transform_zero (f : ℝ × ℝ → ℝ) : transform f (0, 0) = ((∫ p, f p : ℝ) : ℂ) := by
  rw [transform, ← integral_complex_ofReal]
  simp

theorem two_pi_inv_pos : 0 < 2 * Real.pi * invTwoPi := by
  have := Real.pi_pos
  unfold invTwoPi
  positivity

theorem two_pi_inv_le : 2 * Real.pi * invTwoPi ≤ 1 + 1e-15 := by
  have := (abs_le.1 two_pi_inv).2
  linarith

/-- C77: the flux of a Gaussian outside the radius `π / stepk` is at most `folding_threshold` of the total (up to the
rounding of `1/(2π)`). -/
theorem C77_gaussian_stepk (g : Gaussian) (hs : 0 < g.sigma) (ht : 0 < g.gs .folding_threshold)
    (ht1 : g.gs .folding_threshold < 1) :
    |fluxOutside g.xValue (Real.pi / g.stepk)| ≤ (1 + 1e-15) * g.gs .folding_threshold * |g.flux| := by
  have hpi := Real.pi_pos
  obtain ⟨R, hR⟩ : ∃ R, R = max (Real.sqrt (-2 * Real.log (g.gs .folding_threshold)))
    (g.gs .stepk_minimum_hlr * gaussHlrFactor) := ⟨_, rfl⟩
  have hl : 0 < -2 * Real.log (g.gs .folding_threshold) := by
    have := Real.log_neg ht ht1
    linarith
  have hR1 : Real.sqrt (-2 * Real.log (g.gs .folding_threshold)) ≤ R := by rw [hR]; exact le_max_left _ _
  have hR0 : 0 < R := lt_of_lt_of_le (Real.sqrt_pos.2 hl) hR1
  have e : Real.pi / g.stepk = R * g.sigma := by
    simp only [Gaussian.stepk]
    rw [← hR]
    field_simp
  have hG := C76_gaussian g hs
  have htot : ∫ p, g.xValue p = 2 * Real.pi * invTwoPi * g.flux := by
    have h := hG.2.1 (0, 0)
    rw [transform_zero, ← Complex.ofReal_mul] at h
    have h' := Complex.ofReal_injective h
    rw [h']
    simp [Gaussian.kValue]
  rw [e, outside_eq hG.1, htot, C61_gaussian_within g hs.ne' _ (by positivity)]
  have h3 : (R * g.sigma) ^ 2 / (2 * g.sigma ^ 2) = R ^ 2 / 2 := by field_simp
  rw [h3, show 2 * Real.pi * invTwoPi * g.flux - g.flux * (2 * Real.pi * invTwoPi) * (1 - Real.exp (-(R ^ 2 / 2))) =
    2 * Real.pi * invTwoPi * Real.exp (-(R ^ 2 / 2)) * g.flux by ring, abs_mul]
  refine mul_le_mul_of_nonneg_right ?_ (abs_nonneg _)
  rw [abs_of_pos (mul_pos two_pi_inv_pos (Real.exp_pos _))]
  refine mul_le_mul two_pi_inv_le ?_ (Real.exp_pos _).le (by norm_num)
  rw [← Real.le_log_iff_exp_le ht]
  have := pow_le_pow_left₀ (Real.sqrt_nonneg _) hR1 2
  rw [Real.sq_sqrt hl.le] at this
  linarith

theorem exp_total (e : Exponential) (hr : 0 < e.r0) : ∫ p, e.xValue p = 2 * Real.pi * invTwoPi * e.flux := by
  have h := (C76_exponential e hr).2.1 (0, 0)
  rw [transform_zero, ← Complex.ofReal_mul] at h
  have h' := Complex.ofReal_injective h
  rw [h']
  simp [Exponential.kValue]

theorem exp_outside (e : Exponential) (hr : 0 < e.r0) {R : ℝ} (hR : 0 ≤ R) :
    fluxOutside e.xValue (R * e.r0) = 2 * Real.pi * invTwoPi * ((1 + R) * Real.exp (-R)) * e.flux := by
  rw [outside_eq (C76_exponential e hr).1, exp_total e hr, C61_exponential_within e hr _ (by positivity),
    mul_div_cancel_right₀ _ hr.ne']
  ring

/-- The radius `π / stepk` of an exponential profile in units of `r0`: three steps of an iteration, or the minimum
number of half-light radii. -/
theorem exp_stepk_radius (e : Exponential) (hr : 0 < e.r0) : Real.pi / e.stepk =
    max ((expStepIter (Real.log (e.gs .folding_threshold)))^[3] (-Real.log (e.gs .folding_threshold)))
      (e.gs .stepk_minimum_hlr * expHlrFactor) * e.r0 := by
  simp only [Exponential.stepk, Exponential.invR0]
  have := Real.pi_pos
  field_simp

/-- The iteration for the folding radius, with `L = -log(folding_threshold)`. -/
theorem exp_iter {L : ℝ} (hL : 0 < L) : ∃ R2 R3 : ℝ, (expStepIter (-L))^[3] L = R3 ∧ 0 < R2 ∧ R2 < R3 ∧
    Real.exp (-R3) = Real.exp (-L) / (1 + R2) ∧ (R3 - R2) / (1 + R2) ≤ 4 / 27 := by
  obtain ⟨R1, h1⟩ : ∃ R1, R1 = Real.log (1 + L) + L := ⟨_, rfl⟩
  obtain ⟨R2, h2⟩ : ∃ R2, R2 = Real.log (1 + R1) + L := ⟨_, rfl⟩
  obtain ⟨R3, h3⟩ : ∃ R3, R3 = Real.log (1 + R2) + L := ⟨_, rfl⟩
  have l1 : L < R1 := by
    have := Real.log_pos (show 1 < 1 + L by linarith)
    linarith
  have l2 : R1 < R2 := by
    have := Real.log_lt_log (show 0 < 1 + L by linarith) (show 1 + L < 1 + R1 by linarith)
    linarith
  have l3 : R2 < R3 := by
    have := Real.log_lt_log (show 0 < 1 + R1 by linarith) (show 1 + R1 < 1 + R2 by linarith)
    linarith
  have dlog : ∀ x y : ℝ, 0 < x → x < y → Real.log y - Real.log x ≤ (y - x) / x := by
    intro x y hx hxy
    rw [← Real.log_div (by linarith) hx.ne']
    refine (Real.log_le_sub_one_of_pos (div_pos (by linarith) hx)).trans (le_of_eq ?_)
    field_simp
  refine ⟨R2, R3, ?_, by linarith, l3, ?_, ?_⟩
  · simp only [Function.iterate_succ, Function.iterate_zero, Function.comp, id, expStepIter, sub_neg_eq_add, ← h1,
      ← h2, ← h3]
  · rw [h3, neg_add, Real.exp_add, Real.exp_neg (Real.log _), Real.exp_log (by linarith)]
    ring
  · have d1 := dlog (1 + R1) (1 + R2) (by linarith) (by linarith)
    have d2 := dlog (1 + L) (1 + R1) (by linarith) (by linarith)
    have d3 : Real.log (1 + L) ≤ L := by
      have := Real.log_le_sub_one_of_pos (show 0 < 1 + L by linarith)
      linarith
    have hL1 : 0 < 1 + L := by linarith
    have hL2 : 0 < 1 + R1 := by linarith
    have e1 : R3 - R2 ≤ (R2 - R1) / (1 + L) := by
      have a : (1 + R2 - (1 + R1)) / (1 + R1) ≤ (R2 - R1) / (1 + L) := by
        rw [add_sub_add_left_eq_sub]
        gcongr
      linarith
    have e2 : R2 - R1 ≤ L / (1 + L) := by
      have a : (1 + R1 - (1 + L)) / (1 + L) ≤ L / (1 + L) := by
        gcongr
        linarith
      linarith
    have e3 : R3 - R2 ≤ L / (1 + L) / (1 + L) := e1.trans (by gcongr)
    have e4 : (R3 - R2) / (1 + R2) ≤ L / (1 + L) / (1 + L) / (1 + L) := by
      refine div_le_div₀ (by positivity) e3 hL1 (by linarith)
    refine e4.trans ?_
    rw [div_div, div_div, div_le_div_iff₀ (by positivity) (by norm_num)]
    nlinarith [mul_nonneg (sq_nonneg (2 * L - 1)) (show 0 ≤ L + 4 by linarith)]

/-- C77: the flux of an exponential profile outside the radius `π / stepk` is at most 15% more than `folding_threshold`
of the total.  Missing: the bound without the 15%, which the three iterations of the code do not reach
(`C77_exponential_stepk_counterexample`). -/
theorem C77_exponential_stepk_partial (e : Exponential) (hr : 0 < e.r0) (ht : 0 < e.gs .folding_threshold)
    (ht1 : e.gs .folding_threshold < 1) :
    |fluxOutside e.xValue (Real.pi / e.stepk)| ≤ 1.15 * e.gs .folding_threshold * |e.flux| := by
  have hL : 0 < -Real.log (e.gs .folding_threshold) := by
    have := Real.log_neg ht ht1
    linarith
  obtain ⟨R2, R3, h1, h2, h3, h4, h5⟩ := exp_iter hL
  rw [neg_neg] at h1 h4
  rw [Real.exp_log ht] at h4
  rw [exp_stepk_radius e hr, h1]
  obtain ⟨R, hR⟩ : ∃ R, R = max R3 (e.gs .stepk_minimum_hlr * expHlrFactor) := ⟨_, rfl⟩
  have hR3 : R3 ≤ R := by rw [hR]; exact le_max_left _ _
  have hR0 : 0 < R := by linarith
  rw [← hR, exp_outside e hr hR0.le, abs_mul, abs_of_pos (mul_pos two_pi_inv_pos (by positivity))]
  refine mul_le_mul_of_nonneg_right ?_ (abs_nonneg _)
  have hdec : (1 + R) * Real.exp (-R) ≤ (1 + R3) * Real.exp (-R3) := by
    have hx : 1 + R ≤ (1 + R3) * Real.exp (R - R3) := by
      have := Real.add_one_le_exp (R - R3)
      nlinarith [mul_nonneg (show 0 ≤ R3 by linarith) (sub_nonneg.2 hR3), mul_le_mul_of_nonneg_left this (show 0 ≤ 1 + R3 by linarith)]
    calc (1 + R) * Real.exp (-R) ≤ (1 + R3) * Real.exp (R - R3) * Real.exp (-R) := by gcongr
      _ = _ := by rw [mul_assoc, ← Real.exp_add]; ring_nf
  have h6 : (1 + R3) * Real.exp (-R3) ≤ (1 + 4 / 27) * e.gs .folding_threshold := by
    rw [h4, mul_div_assoc', mul_comm, mul_div_assoc, mul_comm]
    refine mul_le_mul_of_nonneg_right ?_ ht.le
    have : (1 + R3) / (1 + R2) = 1 + (R3 - R2) / (1 + R2) := by field_simp; ring
    rw [this]
    linarith
  calc 2 * Real.pi * invTwoPi * ((1 + R) * Real.exp (-R)) ≤ (1 + 1e-15) * ((1 + 4 / 27) * e.gs .folding_threshold) :=
        mul_le_mul two_pi_inv_le (hdec.trans h6) (by positivity) (by norm_num)
    _ ≤ _ := by
      rw [← mul_assoc]
      refine mul_le_mul_of_nonneg_right ?_ ht.le
      norm_num

/-- Disagreement: without a minimum number of half-light radii, the flux of an exponential profile outside the radius
`π / stepk` exceeds `folding_threshold` of the total for every threshold: the comment of exponential.py:106-117 asks
that it be no more, and the loop of three steps approaches that radius from below. -/
theorem C77_exponential_stepk_counterexample (e : Exponential) (hr : 0 < e.r0) (hf : 0 < e.flux)
    (ht : 0 < e.gs .folding_threshold) (ht1 : e.gs .folding_threshold < 1) (hm : e.gs .stepk_minimum_hlr ≤ 0) :
    e.gs .folding_threshold * ∫ p, e.xValue p < fluxOutside e.xValue (Real.pi / e.stepk) := by
  have hL : 0 < -Real.log (e.gs .folding_threshold) := by
    have := Real.log_neg ht ht1
    linarith
  obtain ⟨R2, R3, h1, h2, h3, h4, h5⟩ := exp_iter hL
  rw [neg_neg] at h1 h4
  rw [Real.exp_log ht] at h4
  have hle : e.gs .stepk_minimum_hlr * expHlrFactor ≤ R3 := by
    have : e.gs .stepk_minimum_hlr * expHlrFactor ≤ 0 :=
      mul_nonpos_of_nonpos_of_nonneg hm (by unfold expHlrFactor; norm_num)
    linarith
  rw [exp_stepk_radius e hr, h1, max_eq_left hle, exp_outside e hr (by linarith), exp_total e hr, h4]
  have hc := two_pi_inv_pos
  have : 1 < (1 + R3) / (1 + R2) := (one_lt_div (by linarith)).2 (by linarith)
  have hx : 0 < 2 * Real.pi * invTwoPi * e.flux * e.gs .folding_threshold := by positivity
  calc e.gs .folding_threshold * (2 * Real.pi * invTwoPi * e.flux)
      = 2 * Real.pi * invTwoPi * e.flux * e.gs .folding_threshold * 1 := by ring
    _ < 2 * Real.pi * invTwoPi * e.flux * e.gs .folding_threshold * ((1 + R3) / (1 + R2)) := by gcongr
    _ = _ := by ring

/-- The hypotheses of the two theorems hold, for instance, for a threshold of `0.005`. -/
example : |fluxOutside (Exponential.xValue ⟨2, 3, fun _ => 0.005⟩) (Real.pi / Exponential.stepk ⟨2, 3, fun _ => 0.005⟩)| ≤
    1.15 * 0.005 * |3| := C77_exponential_stepk_partial ⟨2, 3, fun _ => 0.005⟩ (by norm_num) (by norm_num) (by norm_num)

/-- The Moffat profile as a function of the radius. -/
noncomputable def moffatRadial (m : Moffat) (r : ℝ) : ℝ :=
  if r ^ 2 * m.invR0sq > m.maxRrD * m.maxRrD then 0 else m.norm * (1 + r ^ 2 * m.invR0sq) ^ (-m.beta)

theorem moffat_radial (m : Moffat) (p : ℝ × ℝ) : m.xValue p = moffatRadial m (Real.sqrt (p.1 ^ 2 + p.2 ^ 2)) := by
  rw [moffatRadial, Real.sq_sqrt (by positivity)]
  rfl

theorem moffat_radial_zero (m : Moffat) (hr : 0 < m.r0) {r : ℝ} (h : m.maxR < r) : moffatRadial m r = 0 := by
  rw [moffatRadial, if_pos]
  unfold Moffat.invR0sq Moffat.invR0
  rw [Moffat.maxR, ← lt_div_iff₀ hr] at h
  have := Real.sqrt_nonneg (m.gs .xvalue_accuracy ^ (1 / (1 - m.beta)) - 1)
  have h0 : 0 ≤ m.maxRrD := this
  have h1 : m.maxRrD * m.maxRrD < r / m.r0 * (r / m.r0) := mul_self_lt_mul_self h0 h
  have h2 : r ^ 2 * (1 / m.r0 * (1 / m.r0)) = r / m.r0 * (r / m.r0) := by ring
  rw [h2]
  exact h1

/-- There is no light beyond `maxR`. -/
theorem moffat_within_big (m : Moffat) (h : m.Ok) {R : ℝ} (hR : m.maxR ≤ R) : fluxWithin m.xValue R = ∫ p, m.xValue p := by
  have hM : 0 ≤ m.maxR := mul_nonneg (Real.sqrt_nonneg _) h.r0.le
  have e : m.xValue = fun p => moffatRadial m (Real.sqrt (p.1 ^ 2 + p.2 ^ 2)) := funext (moffat_radial m)
  rw [e, plane_integral, fluxWithin, disc_integral _ (hM.trans hR), intervalIntegral.integral_of_le (hM.trans hR)]
  congr 1
  refine (setIntegral_eq_of_subset_of_forall_sdiff_eq_zero measurableSet_Ioi Ioc_subset_Ioi_self ?_).symm
  intro r hr
  have : R < r := by
    by_contra hc
    exact hr.2 ⟨hr.1, not_lt.1 hc⟩
  rw [moffat_radial_zero m h.r0 (lt_of_le_of_lt hR this), mul_zero]

theorem moffat_accuracy (m : Moffat) (h : m.Ok) (ha : 0 < m.gs .xvalue_accuracy) (ha1 : m.gs .xvalue_accuracy ≤ 1) :
    (1 + m.maxR ^ 2 / m.r0 ^ 2) ^ (1 - m.beta) = m.gs .xvalue_accuracy := by
  have hr := h.r0
  have hR : 1 + m.maxR ^ 2 / m.r0 ^ 2 = m.gs .xvalue_accuracy ^ (1 / (1 - m.beta)) := by
    rw [Moffat.maxR, mul_pow, mul_div_assoc, div_self (by positivity), mul_one, pow_two, m.maxRrD_sq h ha ha1]
    ring
  rw [hR, ← Real.rpow_mul ha.le, one_div_mul_cancel (by linarith [h.beta]), Real.rpow_one]

/-- C77: the surface brightness of a Moffat profile in the code carries the flux less the fraction `xvalue_accuracy`. -/
theorem C77_moffat_total (m : Moffat) (h : m.Ok) (ha : 0 < m.gs .xvalue_accuracy) (ha1 : m.gs .xvalue_accuracy ≤ 1) :
    ∫ p, m.xValue p = m.flux * (1 - m.gs .xvalue_accuracy) := by
  have hM : 0 ≤ m.maxR := mul_nonneg (Real.sqrt_nonneg _) h.r0.le
  rw [← moffat_within_big m h le_rfl, C61_moffat_within m h ha ha1 m.maxR hM (moffat_accuracy m h ha ha1).ge,
    moffat_accuracy m h ha ha1]

/-- C77: the flux of a Moffat profile outside the radius `π / stepk` is at most `folding_threshold` of the total. -/
theorem C77_moffat_stepk (m : Moffat) (h : m.Ok) (hb : 1.1 < m.beta) (ha : 0 < m.gs .xvalue_accuracy)
    (ha1 : m.gs .xvalue_accuracy < 1) (ht : 0 < m.gs .folding_threshold) :
    |fluxOutside m.xValue (Real.pi / m.stepk)| ≤ m.gs .folding_threshold * |m.flux| := by
  have hr := h.r0
  have hb1 := h.beta
  have hpi := Real.pi_pos
  obtain ⟨R1, hR1⟩ : ∃ R1, R1 = m.gs .folding_threshold ^ (0.5 / (1 - m.beta)) * m.r0 := ⟨_, rfl⟩
  obtain ⟨R, hR⟩ : ∃ R, R = max (min R1 m.maxR) (m.gs .stepk_minimum_hlr * m.hlr) := ⟨_, rfl⟩
  have hR10 : 0 < R1 := by rw [hR1]; positivity
  have hrd : 0 < m.maxRrD := by
    unfold Moffat.maxRrD
    apply Real.sqrt_pos.2
    have : 1 < m.gs .xvalue_accuracy ^ (1 / (1 - m.beta)) :=
      Real.one_lt_rpow_of_pos_of_lt_one_of_neg ha ha1 (one_div_neg.2 (by linarith))
    linarith
  have hM : 0 < m.maxR := mul_pos hrd hr
  have hRm : min R1 m.maxR ≤ R := by rw [hR]; exact le_max_left _ _
  have hR0 : 0 < R := lt_of_lt_of_le (lt_min hR10 hM) hRm
  have e : Real.pi / m.stepk = R := by
    unfold Moffat.stepk
    rw [if_neg (not_le.2 hb)]
    simp only [Moffat.stepkHigh]
    rw [← hR1, ← hR]
    field_simp
  rw [e, outside_eq (moffat_x_integrable m hb1 hr)]
  rcases le_or_gt m.maxR R with hc | hc
  · rw [moffat_within_big m h hc, sub_self, abs_zero]
    positivity
  have hacc := moffat_accuracy m h ha ha1.le
  have hmono : m.gs .xvalue_accuracy ≤ (1 + R ^ 2 / m.r0 ^ 2) ^ (1 - m.beta) := by
    rw [← hacc]
    refine Real.rpow_le_rpow_of_nonpos (by positivity) ?_ (by linarith)
    gcongr
  rw [C77_moffat_total m h ha ha1.le, C61_moffat_within m h ha ha1.le R hR0.le hmono, ← mul_sub, abs_mul, mul_comm]
  refine mul_le_mul_of_nonneg_right ?_ (abs_nonneg _)
  rw [abs_of_nonneg (by linarith)]
  have hle : R1 ≤ R := by
    rcases min_le_iff.1 hRm with h1 | h1
    · exact h1
    · linarith
  have : (1 + R ^ 2 / m.r0 ^ 2) ^ (1 - m.beta) ≤ m.gs .folding_threshold := by
    have h2 : R1 ^ 2 / m.r0 ^ 2 ≤ 1 + R ^ 2 / m.r0 ^ 2 := by
      have : R1 ^ 2 / m.r0 ^ 2 ≤ R ^ 2 / m.r0 ^ 2 := by gcongr
      linarith
    refine (Real.rpow_le_rpow_of_nonpos (by positivity) h2 (by linarith)).trans (le_of_eq ?_)
    rw [hR1, mul_pow, mul_div_assoc, div_self (by positivity), mul_one, ← Real.rpow_natCast, ← Real.rpow_mul ht.le,
      ← Real.rpow_mul ht.le]
    have : 0.5 / (1 - m.beta) * ((2 : ℕ) : ℝ) * (1 - m.beta) = 1 := by
      have : 1 - m.beta ≠ 0 := by linarith
      field_simp
      norm_num
    rw [this, Real.rpow_one]
  linarith

example : |fluxOutside (Moffat.xValue ⟨2.5, 2, 3, fun _ => 0.005⟩) (Real.pi / Moffat.stepk ⟨2.5, 2, 3, fun _ => 0.005⟩)| ≤
    0.005 * |3| := C77_moffat_stepk ⟨2.5, 2, 3, fun _ => 0.005⟩ ⟨by norm_num, by norm_num⟩ (by norm_num) (by norm_num)
  (by norm_num) (by norm_num)

/-- C77: a box has no flux outside the radius `π / stepk`. -/
theorem C77_box_stepk (b : Box) (hw : 0 < b.width) : fluxOutside b.xValue (Real.pi / b.stepk) = 0 := by
  have hpi := Real.pi_pos
  have hm : 0 < max b.width b.height := lt_of_lt_of_le hw (le_max_left _ _)
  have e : Real.pi / b.stepk = max b.width b.height := by
    unfold Box.stepk
    field_simp
  rw [e, fluxOutside]
  rw [setIntegral_eq_zero_of_forall_eq_zero]
  intro p hp
  have hp' : max b.width b.height ^ 2 ≤ p.1 ^ 2 + p.2 ^ 2 := not_lt.1 hp
  simp only [Box.xValue]
  by_cases h1 : 2 * |p.1| < b.width
  · rw [if_pos h1, if_neg]
    intro h2
    have a1 : |p.1| ≤ max b.width b.height / 2 := by linarith [le_max_left b.width b.height]
    have a2 : |p.2| ≤ max b.width b.height / 2 := by linarith [le_max_right b.width b.height]
    have b1 := pow_le_pow_left₀ (abs_nonneg _) a1 2
    have b2 := pow_le_pow_left₀ (abs_nonneg _) a2 2
    rw [sq_abs] at b1 b2
    nlinarith
  · rw [if_neg h1]

/-- C77: the radius `π / stepk` of a Gaussian, exponential, Moffat or Spergel profile is at least `stepk_minimum_hlr`
half-light radii. -/
theorem C77_minimum (g : Gaussian) (e : Exponential) (m : Moffat) (s : Spergel) (hg : 0 < g.sigma) (he : 0 < e.r0)
    (hm : 1.1 < m.beta) :
    g.gs .stepk_minimum_hlr * g.hlr ≤ Real.pi / g.stepk ∧ e.gs .stepk_minimum_hlr * e.hlr ≤ Real.pi / e.stepk ∧
    m.gs .stepk_minimum_hlr * m.hlr ≤ Real.pi / m.stepk ∧ s.gs .stepk_minimum_hlr * s.hlr ≤ Real.pi / s.stepk := by
  have hpi := Real.pi_pos
  refine ⟨?_, ?_, ?_, ?_⟩
  · simp only [Gaussian.stepk, Gaussian.hlr]
    obtain ⟨R, hR⟩ : ∃ R, R = max (Real.sqrt (-2 * Real.log (g.gs .folding_threshold)))
      (g.gs .stepk_minimum_hlr * gaussHlrFactor) := ⟨_, rfl⟩
    have h1 : g.gs .stepk_minimum_hlr * gaussHlrFactor ≤ R := by rw [hR]; exact le_max_right _ _
    rw [← hR, div_div_eq_mul_div, mul_div_cancel_left₀ _ hpi.ne']
    nlinarith
  · rw [exp_stepk_radius e he, Exponential.hlr]
    have := le_max_right ((expStepIter (Real.log (e.gs .folding_threshold)))^[3] (-Real.log (e.gs .folding_threshold)))
      (e.gs .stepk_minimum_hlr * expHlrFactor)
    nlinarith
  · unfold Moffat.stepk
    rw [if_neg (not_le.2 hm)]
    simp only [Moffat.stepkHigh]
    rw [div_div_cancel₀ hpi.ne']
    exact le_max_right _ _
  · simp only [Spergel.stepk]
    rw [div_div_cancel₀ hpi.ne']
    exact le_max_right _ _

end JG.Elt
