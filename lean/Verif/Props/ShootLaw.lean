import Verif.Props.ProfileLaw
import Verif.Props.ProfileTree

/-!
C79: photons of trees of profiles are distributed like their light.
-/

open MeasureTheory Set

namespace JG.Elt

/-- Specification: photons with the expectation `S` carry the light with surface brightness `f`: for every bounded
measurable `φ`, the expected flux weighted by `φ` of the photons is the light weighted by `φ`. -/
def LightLaw (S : (ℝ × ℝ → ℝ → ℝ) → ℝ) (f : ℝ × ℝ → ℝ) : Prop :=
  Integrable f ∧ ∀ φ : ℝ × ℝ → ℝ, Measurable φ → (∃ B, ∀ p, |φ p| ≤ B) →
    S (fun p g => g * φ p) = ∫ p, φ p * f p

theorem integrable_bdd_mul {f φ : ℝ × ℝ → ℝ} (hf : Integrable f) (hφ : Measurable φ) {B : ℝ} (hB : ∀ p, |φ p| ≤ B) :
    Integrable (fun p => φ p * f p) :=
  hf.bdd_mul hφ.aestronglyMeasurable (Filter.Eventually.of_forall fun p => by rw [Real.norm_eq_abs]; exact hB p)

/-- The light of a convolution weighted by `φ`. -/
theorem integral_mul_convolve {f g φ : ℝ × ℝ → ℝ} (hf : Integrable f) (hg : Integrable g) (hφ : Measurable φ) {B : ℝ}
    (hB : ∀ p, |φ p| ≤ B) : ∫ s, φ s * convolve f g s = ∫ q, (∫ r, φ (q + r) * g r) * f q := by
  have h1 : Integrable (fun p : (ℝ × ℝ) × (ℝ × ℝ) => f p.2 * g (p.1 - p.2)) (volume.prod volume) :=
    Integrable.convolution_integrand (ContinuousLinearMap.mul ℝ ℝ) hf hg
  have h2 : Integrable (fun p : (ℝ × ℝ) × (ℝ × ℝ) => φ p.1 * (f p.2 * g (p.1 - p.2))) (volume.prod volume) :=
    h1.bdd_mul (hφ.comp measurable_fst).aestronglyMeasurable
      (Filter.Eventually.of_forall fun p => by rw [Real.norm_eq_abs]; exact hB p.1)
  have h3 : ∀ s, φ s * convolve f g s = ∫ q, φ s * (f q * g (s - q)) := by
    intro s
    rw [convolve, integral_const_mul]
  simp only [h3]
  rw [integral_integral_swap h2]
  refine integral_congr_ae (Filter.Eventually.of_forall fun q => ?_)
  simp only
  rw [← integral_add_right_eq_self _ q, ← integral_mul_const]
  refine integral_congr_ae (Filter.Eventually.of_forall fun r => ?_)
  simp only [add_sub_cancel_right]
  rw [add_comm q r]
  ring

/-- Specification: every term of a sum has a positive absolute flux `positive_flux + negative_flux`. -/
inductive Weighted : Prof → Prop
  | leaf {L} : Weighted (.leaf L)
  | trans {o J off r} : Weighted o → Weighted (.trans o J off r)
  | sum {l} : (∀ o ∈ l, Weighted o) → (∀ o ∈ l, 0 < o.posneg.1 + o.posneg.2) → Weighted (.sum l)
  | conv {l} : (∀ o ∈ l, Weighted o) → Weighted (.conv l)

theorem tot_pos : ∀ l : List Prof, l ≠ [] → (∀ o ∈ l, 0 < o.posneg.1 + o.posneg.2) →
    0 < (Prof.pnSum l).1 + (Prof.pnSum l).2
  | [], h, _ => absurd rfl h
  | [o], _, h => by
    have := h o (by simp)
    simp only [Prof.pnSum]
    linarith
  | o :: a :: l, _, h => by
    have h1 := h o (by simp)
    have h2 := tot_pos (a :: l) (by simp) (fun b hb => h b (List.mem_cons_of_mem _ hb))
    rw [Prof.pnSum]
    linarith

/-- What the induction shows of a tree and its brightness. -/
def TreeLaw (p : Prof) (f : ℝ × ℝ → ℝ) : Prop :=
  LightLaw p.photons f ∧
  (∀ l, p = .sum l → ∀ tot : ℝ, 0 < tot → ∀ φ : ℝ × ℝ → ℝ, Measurable φ → (∃ B, ∀ p, |φ p| ≤ B) →
    Prof.photonsSum l tot (fun p g => g * φ p) = ∫ p, φ p * f p) ∧
  (∀ l, p = .conv l → ∀ (p0 : ℝ × ℝ) (f0 : ℝ) (φ : ℝ × ℝ → ℝ), Measurable φ → (∃ B, ∀ p, |φ p| ≤ B) →
    Prof.photonsConv l p0 f0 (fun p g => g * φ p) = f0 * ∫ q, φ (p0 + q) * f q)

theorem tree_law (p : Prof) (f : ℝ × ℝ → ℝ) (h : Bright (fun L f => LightLaw L.photons f) p f) (hw : Weighted p) :
    TreeLaw p f := by
  induction h with
  | leaf h =>
    refine ⟨?_, fun l hl => (by cases hl), fun l hl => (by cases hl)⟩
    refine ⟨h.1, fun φ hφ hB => ?_⟩
    rw [Prof.photons]
    exact h.2 φ hφ hB
  | @trans o f J off r g h hd hg ih =>
    cases hw with
    | trans hw =>
    have ih := (ih hw).1
    refine ⟨?_, fun l hl => (by cases hl), fun l hl => (by cases hl)⟩
    obtain ⟨Ji, hJi⟩ : ∃ Ji, J.inv = some Ji := ⟨_, if_neg hd⟩
    obtain ⟨_, hdet⟩ := inv_det hJi
    have hdi : Ji.det ≠ 0 := by rw [hdet]; exact inv_ne_zero hd
    have hg' : ∀ p, g p = r * f (Ji.app (p - off)) := by
      intro p
      rw [← hg, inv_app hJi, sub_add_cancel]
    have e : g = fun p => r * f (Ji.app (p - off)) := funext hg'
    refine ⟨?_, fun φ hφ hB => ?_⟩
    · rw [e]
      exact (integrable_affine Ji hdi off ih.1).const_mul r
    · obtain ⟨B, hB⟩ := hB
      have h1 := ih.2 (fun p => fluxScaling J r * φ (J.app p + off))
        ((hφ.comp ((continuous_app J).measurable.add_const off)).const_mul _)
        ⟨|fluxScaling J r| * B, fun p => by rw [abs_mul]; exact mul_le_mul_of_nonneg_left (hB _) (abs_nonneg _)⟩
      rw [Prof.photons]
      have e1 : (fun (p : ℝ × ℝ) (f : ℝ) => f * fluxScaling J r * φ (J.app p + off)) =
          fun p f => f * (fluxScaling J r * φ (J.app p + off)) := by
        funext p f; ring
      rw [e1, h1]
      have h2 := integral_affine Ji hdi off (fun q => φ (J.app q + off) * (r * f q))
      have e2 : ∀ p, φ (J.app (Ji.app (p - off)) + off) * (r * f (Ji.app (p - off))) = φ p * g p := by
        intro p
        rw [inv_app hJi, sub_add_cancel, hg']
      simp only [e2] at h2
      rw [h2, hdet, inv_inv, smul_eq_mul, ← integral_const_mul]
      refine integral_congr_ae (Filter.Eventually.of_forall fun q => ?_)
      simp only [fluxScaling]
      ring
  | sumNil =>
    refine ⟨⟨integrable_zero _ _ _, fun φ hφ hB => ?_⟩, ?_, fun l hl => (by cases hl)⟩
    · simp [Prof.photons, Prof.photonsSum]
    · intro l hl tot ht φ hφ hB
      cases hl
      simp [Prof.photonsSum]
  | @sumCons o l f g _ _ ih1 ih2 =>
    cases hw with
    | sum hw hpos =>
    have ih1 := (ih1 (hw o (by simp))).1
    obtain ⟨⟨hgi, _⟩, ih2, _⟩ := ih2 (.sum (fun a ha => hw a (List.mem_cons_of_mem _ ha))
      (fun a ha => hpos a (List.mem_cons_of_mem _ ha)))
    have key : ∀ tot : ℝ, 0 < tot → ∀ φ : ℝ × ℝ → ℝ, Measurable φ → (∃ B, ∀ p, |φ p| ≤ B) →
        Prof.photonsSum (o :: l) tot (fun p g => g * φ p) = ∫ p, φ p * (f p + g p) := by
      intro tot ht φ hφ hB
      rw [Prof.photonsSum, ih2 l rfl tot ht φ hφ hB]
      obtain ⟨B, hB⟩ := hB
      have hF := hpos o (by simp)
      generalize o.posneg.1 + o.posneg.2 = F at hF
      have h1 := ih1.2 (fun p => tot / F * φ p) (hφ.const_mul _)
        ⟨|tot / F| * B, fun p => by rw [abs_mul]; exact mul_le_mul_of_nonneg_left (hB _) (abs_nonneg _)⟩
      have e1 : (fun (p : ℝ × ℝ) (f : ℝ) => f * (tot / F) * φ p) = fun p f => f * (tot / F * φ p) := by
        funext p f; ring
      rw [e1, h1]
      simp only [mul_add, mul_assoc]
      rw [integral_const_mul, integral_add (integrable_bdd_mul ih1.1 hφ hB) (integrable_bdd_mul hgi hφ hB)]
      field_simp
    refine ⟨⟨ih1.1.add hgi, fun φ hφ hB => ?_⟩, ?_, fun l hl => (by cases hl)⟩
    · rw [Prof.photons]
      exact key _ (tot_pos _ (by simp) hpos) φ hφ hB
    · intro l' hl'
      cases hl'
      exact key
  | @convOne o f _ ih =>
    cases hw with
    | conv hw =>
    have ih := (ih (hw o (by simp))).1
    refine ⟨⟨ih.1, fun φ hφ hB => ?_⟩, fun l hl => (by cases hl), ?_⟩
    · rw [Prof.photons]
      simp only [Prof.photonsConv]
      exact ih.2 φ hφ hB
    · intro l hl p0 f0 φ hφ hB
      cases hl
      obtain ⟨B, hB⟩ := hB
      simp only [Prof.photonsConv]
      have e1 : (fun (q : ℝ × ℝ) (g : ℝ) => f0 * g * φ (p0 + q)) = fun q g => g * (f0 * φ (p0 + q)) := by
        funext p f; ring
      rw [e1, ih.2 (fun q => f0 * φ (p0 + q)) ((hφ.comp (measurable_const_add p0)).const_mul _)
        ⟨|f0| * B, fun p => by rw [abs_mul]; exact mul_le_mul_of_nonneg_left (hB _) (abs_nonneg _)⟩, ← integral_const_mul]
      simp only [mul_assoc]
  | @convCons o l f g _ _ ih1 ih2 =>
    cases hw with
    | conv hw =>
    have ih1 := (ih1 (hw o (by simp))).1
    obtain ⟨⟨hgi, _⟩, _, ih2⟩ := ih2 (.conv (fun a ha => hw a (List.mem_cons_of_mem _ ha)))
    have hψm : ∀ φ : ℝ × ℝ → ℝ, Measurable φ → Measurable fun q : ℝ × ℝ => ∫ r, φ (q + r) * g r := by
      intro φ hφ
      obtain ⟨g', hg', hgg⟩ := hgi.1
      have e : (fun q : ℝ × ℝ => ∫ r, φ (q + r) * g r) = fun q => ∫ r, φ (q + r) * g' r := by
        funext q
        refine integral_congr_ae ?_
        filter_upwards [hgg] with r hr
        rw [hr]
      rw [e]
      have hm : Measurable fun p : (ℝ × ℝ) × (ℝ × ℝ) => φ (p.1 + p.2) * g' p.2 :=
        (hφ.comp (measurable_fst.add measurable_snd)).mul (hg'.measurable.comp measurable_snd)
      exact (hm.stronglyMeasurable.integral_prod_right' (ν := volume)).measurable
    have hψb : ∀ φ : ℝ × ℝ → ℝ, ∀ B, (∀ p, |φ p| ≤ B) → ∀ q, |∫ r, φ (q + r) * g r| ≤ B * ∫ r, |g r| := by
      intro φ B hB q
      rw [← integral_const_mul, ← Real.norm_eq_abs]
      refine norm_integral_le_of_norm_le (hgi.abs.const_mul B) (Filter.Eventually.of_forall fun r => ?_)
      rw [norm_mul, Real.norm_eq_abs, Real.norm_eq_abs]
      exact mul_le_mul_of_nonneg_right (hB _) (abs_nonneg _)
    have key : ∀ (p0 : ℝ × ℝ) (f0 : ℝ) (φ : ℝ × ℝ → ℝ), Measurable φ → (∃ B, ∀ p, |φ p| ≤ B) →
        o.photons (fun q g => Prof.photonsConv l (p0 + q) (f0 * g) fun p g => g * φ p) =
          f0 * ∫ q, φ (p0 + q) * convolve f g q := by
      intro p0 f0 φ hφ hB
      have h2 : ∀ (q : ℝ × ℝ) (c : ℝ), Prof.photonsConv l (p0 + q) (f0 * c) (fun p g => g * φ p) =
          c * (f0 * ∫ r, φ (p0 + (q + r)) * g r) := by
        intro q c
        rw [ih2 l rfl _ _ φ hφ hB]
        simp only [add_assoc]
        ring
      simp only [h2]
      obtain ⟨B, hB⟩ := hB
      have hm : Measurable fun x => φ (p0 + x) := hφ.comp (measurable_const_add p0)
      rw [ih1.2 (fun q => f0 * ∫ r, φ (p0 + (q + r)) * g r) ((hψm _ hm).const_mul f0)
        ⟨|f0| * (B * ∫ r, |g r|), fun q => by
          rw [abs_mul]
          exact mul_le_mul_of_nonneg_left (hψb (fun x => φ (p0 + x)) B (fun x => hB _) q) (abs_nonneg _)⟩]
      rw [integral_mul_convolve ih1.1 hgi hm (fun p => hB _), ← integral_const_mul]
      simp only [mul_assoc]
    refine ⟨⟨convolve_integrable ih1.1 hgi, fun φ hφ hB => ?_⟩, fun l hl => (by cases hl), ?_⟩
    · rw [Prof.photons]
      have := key 0 1 φ hφ hB
      simpa only [zero_add, one_mul] using this
    · intro l' hl' p0 f0 φ hφ hB
      cases hl'
      rw [Prof.photonsConv]
      exact key p0 f0 φ hφ hB

/-- C79: if the photons of the concrete profiles are distributed like their light, so are those of every tree of
transformations, sums and convolutions of them. -/
theorem C79_tree (p : Prof) (f : ℝ × ℝ → ℝ) (h : Bright (fun L f => LightLaw L.photons f) p f) (hw : Weighted p) :
    LightLaw p.photons f := (tree_law p f h hw).1

/-- The elementary profiles with their light: that of the code for boxes, up to the rounding of `1/(2π)` for Gaussian
profiles, without the cutoff for Moffat profiles. -/
inductive PhotonLeaf : Leaf → (ℝ × ℝ → ℝ) → Prop
  | gaussian {g : Gaussian} : 0 < g.sigma →
      PhotonLeaf (Elem.leaf (.gaussian g)) fun p => (2 * Real.pi * invTwoPi)⁻¹ * g.xValue p
  | box {b : Box} : 0 < b.width → 0 < b.height → PhotonLeaf (Elem.leaf (.box b)) b.xValue
  | moffat {fit : ℝ → ℝ → ℝ} {m : Moffat} : m.Ok → PhotonLeaf (Elem.leaf (.moffat fit m)) m.ideal

theorem photonLeaf_law (L : Leaf) (f : ℝ × ℝ → ℝ) (h : PhotonLeaf L f) : LightLaw L.photons f := by
  cases h with
  | @gaussian g hs =>
    refine ⟨(C76_gaussian g hs).1.const_mul _, fun φ hφ hB => ?_⟩
    obtain ⟨B, hB⟩ := hB
    have h := gaussian_law g hs φ hφ hB
    simp only [Elem.leaf, Elem.photons, integral_const_mul]
    have e : ∀ p, φ p * ((2 * Real.pi * invTwoPi)⁻¹ * g.xValue p) =
        (2 * Real.pi * invTwoPi)⁻¹ * g.flux * (φ p * Gaussian.xValue { g with flux := 1 } p) := by
      intro p
      simp only [Gaussian.xValue, Gaussian.norm, Gaussian.invSigsq, Gaussian.sigsq]
      ring
    simp only [e, integral_const_mul]
    rw [← h]
    have hn := norm_ne
    generalize 2 * Real.pi * invTwoPi = c at hn ⊢
    field_simp
  | @box b hw hh =>
    refine ⟨(C76_box b hw hh).1, fun φ hφ hB => ?_⟩
    obtain ⟨B, hB⟩ := hB
    have h := C78_box b hw hh φ hφ hB
    simp only [Elem.leaf, Elem.photons, intervalIntegral.integral_const_mul]
    rw [h, ← integral_const_mul]
    refine integral_congr_ae (Filter.Eventually.of_forall fun p => ?_)
    simp only [Box.xValue]
    by_cases h1 : 2 * |p.1| < b.width
    · by_cases h2 : 2 * |p.2| < b.height
      · rw [if_pos h1, if_pos h2, if_pos h1, if_pos h2]; ring
      · rw [if_pos h1, if_neg h2, if_pos h1, if_neg h2]; ring
    · rw [if_neg h1, if_neg h1]; ring
  | @moffat fit m hok =>
    refine ⟨(C76_moffat_untruncated m hok.beta hok.r0).1, fun φ hφ hB => ?_⟩
    obtain ⟨B, hB⟩ := hB
    have h := C78_moffat m hok φ hφ hB
    simp only [Elem.leaf, Elem.photons, intervalIntegral.integral_const_mul]
    rw [h, ← integral_const_mul]
    refine integral_congr_ae (Filter.Eventually.of_forall fun p => ?_)
    simp only [moffat_ideal_split m p]
    ring

/-- C79: the expected flux of the photons of a tree of Gaussian, box and Moffat profiles that fall in a region (say, a
pixel) is the light of the tree in that region; in particular the expected total is the integral of the light. -/
theorem C79_pixel (p : Prof) (f : ℝ × ℝ → ℝ) (h : Bright PhotonLeaf p f) (hw : Weighted p) (pix : Set (ℝ × ℝ))
    (hm : MeasurableSet pix) :
    p.photons (fun q g => pix.indicator (fun _ => g) q) = ∫ q in pix, f q := by
  have h1 := (C79_tree p f (bright_mono photonLeaf_law h) hw).2 (pix.indicator fun _ => 1)
    (measurable_const.indicator hm) ⟨1, fun q => by
      by_cases hq : q ∈ pix
      · rw [indicator_of_mem hq, abs_one]
      · rw [indicator_of_notMem hq, abs_zero]; exact zero_le_one⟩
  have e1 : (fun (q : ℝ × ℝ) (g : ℝ) => g * pix.indicator (fun _ => (1 : ℝ)) q) =
      fun q g => pix.indicator (fun _ => g) q := by
    funext q g
    by_cases hq : q ∈ pix
    · rw [indicator_of_mem hq, indicator_of_mem hq, mul_one]
    · rw [indicator_of_notMem hq, indicator_of_notMem hq, mul_zero]
  rw [e1] at h1
  rw [h1, ← integral_indicator hm]
  refine integral_congr_ae (Filter.Eventually.of_forall fun q => ?_)
  by_cases hq : q ∈ pix
  · simp only [indicator_of_mem hq, one_mul]
  · simp only [indicator_of_notMem hq, zero_mul]

/-- C79: the probabilities `fluxes / tot_flux` with which `Sum._shoot` chooses an object are positive and add up to 1,
if every term has a positive absolute flux. -/
theorem C79_probabilities (l : List Prof) (hl : l ≠ []) (hpos : ∀ o ∈ l, 0 < o.posneg.1 + o.posneg.2) :
    (∀ o ∈ l, 0 < (o.posneg.1 + o.posneg.2) / ((Prof.sum l).positiveFlux + (Prof.sum l).negativeFlux)) ∧
    (l.map fun o => (o.posneg.1 + o.posneg.2) / ((Prof.sum l).positiveFlux + (Prof.sum l).negativeFlux)).sum = 1 := by
  have ht := tot_pos l hl hpos
  have e : (Prof.sum l).positiveFlux + (Prof.sum l).negativeFlux = (Prof.pnSum l).1 + (Prof.pnSum l).2 := by
    simp only [Prof.positiveFlux, Prof.negativeFlux, Prof.posneg]
  rw [e]
  refine ⟨fun o ho => div_pos (hpos o ho) ht, ?_⟩
  have hs : ∀ l : List Prof, (l.map fun o => o.posneg.1 + o.posneg.2).sum = (Prof.pnSum l).1 + (Prof.pnSum l).2 := by
    intro l
    induction l with
    | nil => simp [Prof.pnSum]
    | cons o l ih =>
      rw [List.map_cons, List.sum_cons, ih, Prof.pnSum]
      ring
  simp only [div_eq_mul_inv]
  rw [List.sum_map_mul_right, hs, mul_inv_cancel₀ ht.ne']

/-- Disagreement: for a difference of two profiles the probabilities are not a distribution: `a - b` with fluxes 2 and 1
gives 2 and -1, because the subtracted profile reports negative `positive_flux` and `negative_flux`
(transform.py:332-338). -/
theorem C79_difference_counterexample (gs : GSP) :
    let a : Prof := .leaf (Elem.leaf (.gaussian ⟨1, 2, gs⟩))
    let b : Prof := .leaf (Elem.leaf (.gaussian ⟨3, 1, gs⟩))
    ∃ x y, a.sub b = .sum [x, y] ∧
      (x.posneg.1 + x.posneg.2) / ((a.sub b).positiveFlux + (a.sub b).negativeFlux) = 2 ∧
      (y.posneg.1 + y.posneg.2) / ((a.sub b).positiveFlux + (a.sub b).negativeFlux) = -1 := by
  intro a b
  refine ⟨a, .trans b .one 0 (-1), rfl, ?_, ?_⟩
  all_goals
    simp only [Prof.sub, mkSum, sumTerms, Prof.withScaledFlux, mkTransform, List.flatMap_cons, List.flatMap_nil,
      List.cons_append, List.nil_append, Prof.positiveFlux, Prof.negativeFlux, Prof.posneg, Prof.pnSum, a, b, Elem.leaf,
      Elem.flux, fluxScaling, Mat2.one, Mat2.det]
    norm_num

/-- A Moffat galaxy plus a Gaussian one, seen through a square pixel. -/
example (gs : GSP) (fit : ℝ → ℝ → ℝ) (pix : Set (ℝ × ℝ)) (hm : MeasurableSet pix) :
    (Prof.conv [.sum [.leaf (Elem.leaf (.moffat fit ⟨2, 1, 3, gs⟩)), .leaf (Elem.leaf (.gaussian ⟨1, 4, gs⟩))],
      .leaf (Elem.leaf (.box ⟨1, 1, 1, gs⟩))]).photons (fun q g => pix.indicator (fun _ => g) q) =
    ∫ q in pix, convolve (fun p => Moffat.ideal ⟨2, 1, 3, gs⟩ p +
      ((2 * Real.pi * invTwoPi)⁻¹ * Gaussian.xValue ⟨1, 4, gs⟩ p + 0)) (Box.xValue ⟨1, 1, 1, gs⟩) q := by
  refine C79_pixel _ _ (.convCons (.sumCons (.leaf (.moffat ⟨by norm_num, by norm_num⟩))
    (.sumCons (.leaf (.gaussian (by norm_num))) .sumNil)) (.convOne (.leaf (.box (by norm_num) (by norm_num))))) ?_ pix hm
  refine .conv fun o ho => ?_
  simp only [List.mem_cons, List.not_mem_nil, or_false] at ho
  rcases ho with rfl | rfl
  · refine .sum (fun o ho => ?_) fun o ho => ?_
    · simp only [List.mem_cons, List.not_mem_nil, or_false] at ho
      rcases ho with rfl | rfl <;> exact .leaf
    · simp only [List.mem_cons, List.not_mem_nil, or_false] at ho
      rcases ho with rfl | rfl <;> norm_num [Prof.posneg, Elem.leaf, Elem.flux]
  · exact .leaf

end JG.Elt
