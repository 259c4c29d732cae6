import Verif.Model.Noise
import Verif.Props.Random
import Mathlib.Tactic.FieldSimp
import Mathlib.Tactic.Linarith
import Mathlib.Tactic.Positivity

/-!
Properties C35 (noise variance) and C36 (fresh randomness).
-/

namespace JG

/-! ### C35 -/

/-- Noise types with a single variance. -/
def Noise.hasVariance : Noise → Bool
  | .gaussian _ | .poisson _ | .ccd _ _ _ => true
  | _ => false

/-- C35: `withVariance(v)` has variance `v`, for every noise type that has a variance and every `v ≥ 0`. -/
theorem C35_with_variance (n : Noise) (hn : n.hasVariance = true) (v : ℝ) (hv : 0 ≤ v) :
    ∃ n', n.withVariance v = some n' ∧ n'.getVariance = some v := by
  cases n with
  | gaussian s => exact ⟨_, rfl, by simp only [Noise.getVariance, Real.sq_sqrt hv]⟩
  | poisson s => exact ⟨_, rfl, rfl⟩
  | ccd sky gain read =>
    unfold Noise.withVariance
    simp only
    by_cases hg : gain > 0
    · simp only [hg, if_true]
      by_cases hc : sky / gain + (read / gain) ^ 2 > 0
      · rw [if_pos hc]
        refine ⟨_, rfl, ?_⟩
        simp only [Noise.getVariance, hg, if_true]
        have hr : 0 ≤ v / (sky / gain + (read / gain) ^ 2) := div_nonneg hv hc.le
        have e := Real.sq_sqrt hr
        congr 1
        have hc' := hc.ne'
        set c := sky / gain + (read / gain) ^ 2 with hcdef
        have : sky * (v / c) / gain + (read * Real.sqrt (v / c) / gain) ^ 2
            = (v / c) * c := by
          rw [div_pow, mul_pow, e]
          nth_rewrite 3 [hcdef]
          ring
        rw [this, div_mul_cancel₀ _ hc']
      · rw [if_neg hc]
        exact ⟨_, rfl, by simp [Noise.getVariance]⟩
    · simp only [hg, if_false]
      by_cases hc : read ^ 2 > 0
      · rw [if_pos hc]
        refine ⟨_, rfl, ?_⟩
        simp only [Noise.getVariance, hg, if_false]
        have hr : 0 ≤ v / read ^ 2 := div_nonneg hv hc.le
        rw [mul_pow, Real.sq_sqrt hr, mul_div_cancel₀ _ hc.ne']
      · rw [if_neg hc]
        exact ⟨_, rfl, by simp [Noise.getVariance]⟩
  | deviate k => cases hn
  | varGauss l => cases hn

/-- C35: `withScaledVariance(r)` multiplies the variance by `r`, for `r ≥ 0`. -/
theorem C35_scaled_variance (n : Noise) (hn : n.hasVariance = true) (r : ℝ) (hr : 0 ≤ r) :
    ∃ n' v, n.withScaledVariance r = some n' ∧ n.getVariance = some v ∧ n'.getVariance = some (r * v) := by
  have e := Real.sq_sqrt hr
  cases n with
  | gaussian s => exact ⟨_, _, rfl, rfl, by simp only [Noise.getVariance, mul_pow, e, mul_comm]⟩
  | poisson s => exact ⟨_, _, rfl, rfl, by simp only [Noise.getVariance, mul_comm]⟩
  | ccd sky gain read =>
    refine ⟨_, _, rfl, rfl, ?_⟩
    simp only [Noise.getVariance]
    congr 1
    split
    · rw [div_pow, mul_pow, e]; ring
    · rw [mul_pow, e]; ring
  | deviate k => cases hn
  | varGauss l => cases hn

example : (Noise.ccd 3 2 1).hasVariance = true ∧ (0 : ℝ) ≤ 5 := ⟨rfl, by norm_num⟩

/-- C35: the gain of CCD noise is not changed by rescaling a positive variance, and sky and squared read noise keep their
proportion. -/
theorem C35_ccd_shape (sky gain read v : ℝ) (hv : 0 ≤ v)
    (hc : 0 < (if gain > 0 then sky / gain + (read / gain) ^ 2 else read ^ 2)) :
    ∃ sky' read', (Noise.ccd sky gain read).withVariance v = some (.ccd sky' gain read') ∧
      sky' * read ^ 2 = sky * read' ^ 2 := by
  unfold Noise.withVariance
  simp only
  rw [if_pos hc]
  refine ⟨_, _, rfl, ?_⟩
  rw [mul_pow, Real.sq_sqrt (div_nonneg hv hc.le)]; ring

example : 0 < (if (2 : ℝ) > 0 then (3 : ℝ) / 2 + (1 / 2) ^ 2 else (1 : ℝ) ^ 2) := by norm_num

/-- C35: deviate noise and variable noise refuse. -/
theorem C35_refuse (n : Noise) (hn : n.hasVariance = false) (v : ℝ) :
    n.getVariance = none ∧ n.withVariance v = none ∧ n.withScaledVariance v = none := by
  cases n <;> first | exact ⟨rfl, rfl, rfl⟩ | cases hn

/-- Specification: squared signal-to-noise of pixels under white noise of variance `v`. -/
noncomputable def snrSq (px : List ℝ) (v : ℝ) : ℝ := (px.map fun x => x ^ 2).sum / v

/-- C35: `addNoiseSNR` reaches the requested signal-to-noise, keeping the pixels (`preserve_flux`) or scaling all of
them by one factor; the returned variance is that of the noise added. -/
theorem C35_snr (px : List ℝ) (n : Noise) (v snr : ℝ) (preserve : Bool) (hv : n.getVariance = some v) (hvp : 0 < v)
    (hs : 0 < snr) (hpx : 0 < (px.map fun x => x ^ 2).sum) :
    ∃ px' n' v', addNoiseSNR px n snr preserve = some (px', n', v') ∧ n'.getVariance = some v' ∧
      snrSq px' v' = snr ^ 2 ∧ (preserve = true → px' = px) ∧
      (preserve = false → n' = n ∧ ∃ f, 0 < f ∧ px' = px.map (· * f)) := by
  have hn : n.hasVariance = true := by cases n <;> first | rfl | cases hv
  unfold addNoiseSNR
  rw [hv]
  simp only
  cases preserve
  · simp only [Bool.false_eq_true, if_false]
    refine ⟨_, _, _, rfl, hv, ?_, by simp, fun _ => ⟨rfl, _, ?_, rfl⟩⟩
    · unfold snrSq
      set S := (px.map fun x => x ^ 2).sum with hS
      have hq : 0 < S / v := div_pos hpx hvp
      have hsum : ∀ f : ℝ, (List.map (fun x => x ^ 2) (List.map (fun x => x * f) px)).sum = f ^ 2 * S := by
        intro f
        rw [hS, ← List.sum_map_mul_left, List.map_map]
        congr 1
        apply List.map_congr_left
        intro x _
        simp only [Function.comp]; ring
      rw [hsum, div_pow, Real.sq_sqrt hq.le]
      field_simp
    · exact div_pos hs (Real.sqrt_pos.mpr (div_pos hpx hvp))
  · simp only [if_true]
    set S := (px.map fun x => x ^ 2).sum with hS
    have hnv : 0 ≤ S / snr / snr := by positivity
    obtain ⟨n', h1, h2⟩ := C35_with_variance n hn (S / snr / snr) hnv
    refine ⟨px, n', S / snr / snr, by rw [h1]; rfl, h2, ?_, fun _ => rfl, by simp⟩
    unfold snrSq
    rw [← hS]
    field_simp

example : (Noise.gaussian 2).getVariance = some 4 ∧ 0 < ([3, 4].map fun x : ℝ => x ^ 2).sum := by
  constructor
  · simp [Noise.getVariance]; norm_num
  · norm_num

/-! ### C36 -/

variable {P : Prng}

/-- Specification: effect of a noise object on the pixels as a function of one fresh stream element per pixel. -/
noncomputable def Noise.specOut (P : Prng) (isInt : Bool) (us : List P.Key) (px : List ℝ) : Noise → List ℝ
  | .gaussian sigma => List.zipWith (fun x u => x + rawCast isInt (sigma * P.normal u)) px us
  | .deviate kind => List.zipWith (fun x u => x + rawCast isInt (kind.value P u)) px us
  | .varGauss var =>
    List.zipWith (fun x (p : P.Key × ℝ) => x + rawCast isInt (P.normal p.1 * Real.sqrt p.2)) px (us.zip var)
  | .poisson sky => List.zipWith (fun x u => removeSky isInt sky
      ((DevKind.poisson (max (addSky sky x) 0)).value P u)) px us
  | .ccd _ _ _ => px

/-- Noise types whose application is covered by `C36_apply_partial`. -/
def Noise.plain : Noise → List ℝ → Bool
  | .ccd _ _ _, _ => false
  | .deviate k, _ => !k.isBase
  | .varGauss var, px => px.length == var.length
  | _, _ => true

/-- C36: applying Gaussian, Poisson, deviate or variable noise uses one stream element per pixel, each once, starting at
the current position, and advances the random state past them.  Missing: CCD noise. -/
theorem C36_apply_partial (isInt : Bool) (n : Noise) (root : P.Key) (pos : ℕ) (px : List ℝ)
    (h : n.plain px = true) :
    n.applyTo P isInt (chainKey P root pos) px =
      some (chainKey P root (pos + px.length), n.specOut P isInt (streamFrom P root pos px.length) px) := by
  cases n with
  | gaussian s =>
    simp only [Noise.applyTo, C33_draw, DrawOp.spec, DevKind.isBase, Bool.false_eq_true, if_false, Noise.specOut,
      List.zipWith_map_right, DevKind.value, zero_add]
  | deviate k =>
    have hk : k.isBase = false := by simpa [Noise.plain] using h
    simp only [Noise.applyTo, C33_draw, DrawOp.spec, hk, Bool.false_eq_true, if_false, Noise.specOut,
      List.zipWith_map_right]
  | varGauss var =>
    have hl : px.length = var.length := by simpa [Noise.plain] using h
    simp only [Noise.applyTo, C33_draw, DrawOp.spec, Noise.specOut, hl, ne_eq, not_true_eq_false, if_false]
    congr 2
    rw [List.zip, List.zipWith_zipWith_right, List.zipWith_zipWith_right]
  | poisson sky =>
    have hneg : (px.map fun x => max (addSky sky x) 0).any (fun m => decide (m < 0)) = false := by
      rw [List.any_eq_false]
      intro x hx
      rw [List.mem_map] at hx
      obtain ⟨y, -, rfl⟩ := hx
      simp
    simp only [Noise.applyTo, C33_draw, DrawOp.spec, hneg, Bool.false_eq_true, if_false, List.length_map, Noise.specOut]
    congr 2
    rw [List.map_zipWith, List.zipWith_map_right, List.zipWith_comm]
  | ccd sky gain read => cases h

/-- Stream positions used by a history of applications: consecutive, disjoint blocks. -/
noncomputable def specAll (P : Prng) (isInt : Bool) (root : P.Key) : ℕ → List (Noise × List ℝ) → List (List ℝ)
  | _, [] => []
  | pos, (n, px) :: l => n.specOut P isInt (streamFrom P root pos px.length) px :: specAll P isInt root (pos + px.length) l

/-- C36: in every history of applications of such noise objects sharing a random state, the `i`-th application uses the
block of stream elements following those of all earlier ones. -/
theorem C36_history_partial (isInt : Bool) (root : P.Key) (l : List (Noise × List ℝ)) (pos : ℕ)
    (h : ∀ x ∈ l, x.1.plain x.2 = true) :
    applyAll P isInt (chainKey P root pos) l =
      some (chainKey P root (pos + (l.map fun x => x.2.length).sum), specAll P isInt root pos l) := by
  induction l generalizing pos with
  | nil => rfl
  | cons x l ih =>
    obtain ⟨n, px⟩ := x
    rw [applyAll, C36_apply_partial isInt n root pos px (h _ List.mem_cons_self)]
    simp only
    rw [ih (pos + px.length) (fun y hy => h y (List.mem_cons_of_mem _ hy))]
    simp only [List.map_cons, List.sum_cons, specAll, Nat.add_assoc]

example : (Noise.poisson 3).plain [1, 2] = true ∧ (Noise.gaussian 3).plain [1, 2] = true := ⟨rfl, rfl⟩

/-- What one CCD pixel becomes: Poisson part and read noise are made from the *same* stream element. -/
noncomputable def ccdPixel (P : Prng) (isInt : Bool) (sky gain read : ℝ) (u : P.Key) (x : ℝ) : ℝ :=
  removeSky isInt sky ((DevKind.poisson (max (addSky sky x * gain) 0)).value P u / gain + read / gain * P.normal u)

/-- Disagreement: CCD noise does not advance the random state, and its Poisson and read-noise components are drawn from
the same stream elements: the result for every image (positive gain and read noise) is computed pixel by pixel from the
elements at the current position, and the state afterwards is the state before. -/
theorem C36_ccd_counterexample (isInt : Bool) (sky gain read : ℝ) (hg : 0 < gain) (hr : 0 < read) (root : P.Key)
    (pos : ℕ) (px : List ℝ) :
    (Noise.ccd sky gain read).applyTo P isInt (chainKey P root pos) px =
      some (chainKey P root pos,
        List.zipWith (ccdPixel P isInt sky gain read) (streamFrom P root pos px.length) px) := by
  have hneg : ((px.map (addSky sky)).map fun x => max (x * gain) 0).any (fun m => decide (m < 0)) = false := by
    rw [List.any_eq_false]
    intro x hx
    rw [List.mem_map] at hx
    obtain ⟨y, -, rfl⟩ := hx
    simp
  have key : ∀ (us : List P.Key) (px : List ℝ), us.length = px.length →
      List.map (removeSky isInt sky) (List.zipWith (fun x1 x2 => x1 + x2)
        (List.map (fun v => v / gain) (List.zipWith (fun u m => DevKind.value P u (DevKind.poisson m)) us
          (List.map (fun x => max (x * gain) 0) (List.map (addSky sky) px))))
        (List.map (fun u => DevKind.value P u (DevKind.gaussian 0 (read / gain))) us)) =
      List.zipWith (ccdPixel P isInt sky gain read) us px := by
    intro us
    induction us with
    | nil => intro px _; rfl
    | cons u us ih =>
      intro px h
      cases px with
      | nil => cases h
      | cons x px =>
        simp only [List.map_cons, List.zipWith_cons_cons]
        rw [ih px (by simpa using h)]
        simp only [ccdPixel, DevKind.value, zero_add]
  simp only [Noise.applyTo, gt_iff_lt, hg, hr, if_true, C33_draw, DrawOp.spec, hneg, Bool.false_eq_true, if_false,
    DevKind.isBase, List.length_map, List.length_zipWith, streamFrom_length, min_self]
  congr 2
  exact key _ _ (streamFrom_length _ _ _)

/-- Disagreement (consequence): applying the same CCD noise object to two copies of an image adds identical noise. -/
theorem C36_ccd_repeat_counterexample (isInt : Bool) (sky gain read : ℝ) (hg : 0 < gain) (hr : 0 < read) (key : P.Key)
    (px : List ℝ) : ∃ o, applyAll P isInt key [(.ccd sky gain read, px), (.ccd sky gain read, px)] = some (key, [o, o]) := by
  have h : key = chainKey P key 0 := rfl
  refine ⟨List.zipWith (ccdPixel P isInt sky gain read) (streamFrom P key 0 px.length) px, ?_⟩
  rw [h]
  simp only [applyAll, C36_ccd_counterexample isInt sky gain read hg hr key 0 px]
  rfl

example : (0 : ℝ) < 2 ∧ (0 : ℝ) < 5 := by norm_num

/-- C36: the sky added before a Poisson draw is taken off again: a float pixel `v` with sky becomes `v - sky`, a pixel
of an integer image becomes `trunc (v - frac) - trunc sky` where `frac` is the fraction of the sky. -/
theorem C36_sky (sky v : ℝ) :
    removeSky false sky v = v - sky ∧
    removeSky true sky v = ((truncZ (v - (sky - truncZ sky)) - truncZ sky : ℤ) : ℝ) ∧
    addSky sky v = v + sky := by
  have htr : ∀ n : ℤ, truncZ (n : ℝ) = n := by
    intro n; unfold truncZ; split_ifs <;> simp
  refine ⟨?_, ?_, ?_⟩
  · unfold removeSky fracSky rawCast
    simp only [sub_self, Bool.false_eq_true, if_false, ne_eq, not_true_eq_false, sub_zero]
    split_ifs with h
    · rw [h]; ring
    · rfl
  · unfold removeSky fracSky rawCast
    simp only [if_true, sub_sub_cancel]
    have e1 : (if sky - (truncZ sky : ℝ) ≠ 0 then v - (sky - truncZ sky) else v) = v - (sky - truncZ sky) := by
      split_ifs with h
      · rfl
      · have : sky - (truncZ sky : ℝ) = 0 := by simpa using h
        rw [this]; ring
    rw [e1]
    have e2 : ∀ a : ℝ, (if (truncZ sky : ℝ) ≠ 0 then a - truncZ sky else a) = a - truncZ sky := by
      intro a
      split_ifs with h
      · rfl
      · have : (truncZ sky : ℝ) = 0 := by simpa using h
        rw [this]; ring
    rw [e2, ← Int.cast_sub, htr]
  · unfold addSky
    split_ifs with h
    · rfl
    · have : sky = 0 := by simpa using h
      rw [this]; ring

/-- C36: on a float image, if the draw returns the expectation (no noise) the pixel is unchanged. -/
theorem C36_sky_cancels (sky v : ℝ) : removeSky false sky (addSky sky v) = v := by
  rw [(C36_sky sky (addSky sky v)).1, (C36_sky sky v).2.2]; ring

end JG
