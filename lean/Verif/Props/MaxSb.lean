import Verif.Model.DeconvLeaf
import Verif.Lemmas.Bessel
import Verif.Props.ProfileLaw
import Verif.Props.SpergelValue

/-! C110: no point of a profile is brighter than its `max_sb`. -/

namespace JG

open MeasureTheory

/-- The value is a fraction between 0 and 1 of the maximum. -/
def Below (v m : ℝ) : Prop := ∃ t : ℝ, 0 ≤ t ∧ t ≤ 1 ∧ v = m * t

theorem Below.abs {v m : ℝ} (h : Below v m) : |v| ≤ |m| := by
  obtain ⟨t, h0, h1, rfl⟩ := h
  rw [abs_mul, abs_of_nonneg h0]
  exact mul_le_of_le_one_right (abs_nonneg m) h1

theorem Below.bounds {v m : ℝ} (h : Below v m) (hm : 0 ≤ m) : 0 ≤ v ∧ v ≤ m := by
  obtain ⟨t, h0, h1, rfl⟩ := h
  exact ⟨mul_nonneg hm h0, mul_le_of_le_one_right hm h1⟩

/-- Elementary profiles with sensible sizes, other than Spergel profiles. -/
def Elt.Elem.Sized : Elt.Elem → Prop
  | .gaussian g => 0 < g.sigma
  | .exponential e => 0 < e.r0
  | .box b => 0 < b.width ∧ 0 < b.height
  | .delta _ => True
  | .moffat _ m => 1 ≤ m.beta
  | .spergel _ => False

/-- C110: the brightness of an elementary profile lies between 0 and `max_sb`, which it has at the centre. -/
theorem C110_elementary (e : Elt.Elem) (h : e.Sized) :
    (∀ p v, e.leaf.xv p = some v → Below v e.leaf.maxSb) ∧ e.leaf.xv (0, 0) = some e.leaf.maxSb := by
  have hexp : ∀ x : ℝ, x ≤ 0 → Real.exp x ≤ 1 := fun x hx => Real.exp_le_one_iff.2 hx
  cases e with
  | gaussian g =>
    refine ⟨fun p v hv => ?_, by simp [Elt.Elem.leaf, Elt.Gaussian.xValue]⟩
    simp only [Elt.Elem.leaf, Option.some.injEq] at hv ⊢
    refine ⟨_, (Real.exp_pos _).le, hexp _ ?_, hv.symm⟩
    have : 0 ≤ g.invSigsq := by unfold Elt.Gaussian.invSigsq Elt.Gaussian.sigsq; positivity
    have h2 : 0 ≤ (p.1 ^ 2 + p.2 ^ 2) * g.invSigsq := by positivity
    linarith
  | exponential e =>
    refine ⟨fun p v hv => ?_, by simp [Elt.Elem.leaf, Elt.Exponential.xValue]⟩
    simp only [Elt.Elem.leaf, Option.some.injEq] at hv ⊢
    refine ⟨_, (Real.exp_pos _).le, hexp _ ?_, hv.symm⟩
    have : 0 ≤ e.invR0 := by
      unfold Elt.Exponential.invR0
      exact div_nonneg zero_le_one (le_of_lt h)
    have h2 := mul_nonneg (Real.sqrt_nonneg (p.1 ^ 2 + p.2 ^ 2)) this
    linarith
  | box b =>
    refine ⟨fun p v hv => ?_, ?_⟩
    · simp only [Elt.Elem.leaf, Option.some.injEq, Elt.Box.xValue, Elt.Box.maxSb] at hv ⊢
      split_ifs at hv
      · exact ⟨1, zero_le_one, le_rfl, by rw [mul_one]; exact hv.symm⟩
      · exact ⟨0, le_rfl, zero_le_one, by rw [mul_zero]; exact hv.symm⟩
      · exact ⟨0, le_rfl, zero_le_one, by rw [mul_zero]; exact hv.symm⟩
    · simp [Elt.Elem.leaf, Elt.Box.xValue, Elt.Box.maxSb, h.1, h.2]
  | delta d =>
    refine ⟨fun p v hv => ?_, by simp [Elt.Elem.leaf, Elt.Delta.xValue]⟩
    simp only [Elt.Elem.leaf, Option.some.injEq, Elt.Delta.xValue] at hv ⊢
    split_ifs at hv
    · exact ⟨1, zero_le_one, le_rfl, by rw [mul_one]; exact hv.symm⟩
    · exact ⟨0, le_rfl, zero_le_one, by rw [mul_zero]; exact hv.symm⟩
  | moffat fit m =>
    refine ⟨fun p v hv => ?_, ?_⟩
    · simp only [Elt.Elem.leaf, Option.some.injEq, Elt.Moffat.xValue] at hv ⊢
      split_ifs at hv
      · exact ⟨0, le_rfl, zero_le_one, by rw [mul_zero]; exact hv.symm⟩
      · have hq : 1 ≤ 1 + (p.1 ^ 2 + p.2 ^ 2) * m.invR0sq := by
          have : 0 ≤ m.invR0sq := by unfold Elt.Moffat.invR0sq; exact mul_self_nonneg _
          have : 0 ≤ (p.1 ^ 2 + p.2 ^ 2) * m.invR0sq := by positivity
          linarith
        have hb : (1 : ℝ) ≤ m.beta := h
        exact ⟨_, Real.rpow_nonneg (by linarith) _, Real.rpow_le_one_of_one_le_of_nonpos hq (by linarith), hv.symm⟩
    · have : ¬ (0 : ℝ) > m.maxRrD * m.maxRrD := not_lt.2 (mul_self_nonneg _)
      simp only [Elt.Elem.leaf, Elt.Moffat.xValue]
      norm_num [this]
  | spergel s => exact absurd h id

/-- C110: a Spergel profile of positive index is nowhere brighter than its centre, outside of `1e-10` scale radii.  Missing:
closer to the centre (`C110_counterexample_spergel`). -/
theorem C110_spergel_partial (s : Elt.Spergel) (hn : 0 < s.nu) (hr : 0 < s.r0) (p : ℝ × ℝ)
    (hp : 1e-10 * s.r0 < Real.sqrt (p.1 ^ 2 + p.2 ^ 2)) (v : ℝ) (hv : (Elt.Elem.spergel s).leaf.xv p = some v) :
    |v| ≤ (Elt.Elem.spergel s).leaf.maxSb := by
  simp only [Elt.Elem.leaf, Elt.Spergel.xValue] at hv ⊢
  obtain ⟨z, hz⟩ : ∃ z, z = Real.sqrt (p.1 ^ 2 + p.2 ^ 2) * s.invR0 := ⟨_, rfl⟩
  have hz1 : 1e-10 < z := by
    rw [hz, Elt.Spergel.invR0, mul_one_div, lt_div_iff₀ hr]; exact hp
  have hz0 : 0 < z := lt_trans (by norm_num) hz1
  rw [← hz, if_neg hz0.ne', Option.some.injEq] at hv
  rw [← hv, abs_mul]
  refine mul_le_mul_of_nonneg_left ?_ (abs_nonneg _)
  have e1 : Elt.fzNu z s.nu = 2 ^ (s.nu - 1) * Elt.kvInt s.nu z := by
    unfold Elt.fzNu
    rw [if_neg (not_le.2 hz1), Elt.kv_eq, Real.rpow_neg (by positivity), Real.div_rpow hz0.le (by norm_num),
      Real.rpow_sub_one (by norm_num)]
    have : (0 : ℝ) < z ^ s.nu := Real.rpow_pos_of_pos hz0 _
    have h2 : (0 : ℝ) < 2 ^ s.nu := by positivity
    field_simp
  have e2 := Elt.kvInt_antitone hn le_rfl hz0.le
  rw [Elt.kvInt_zero hn] at e2
  have e3 := Elt.kvInt_nonneg s.nu z
  have h3 : (0 : ℝ) < 2 ^ (s.nu - 1) := by positivity
  rw [e1, abs_of_nonneg (mul_nonneg h3.le e3), Elt.Spergel.xnorm0, Elt.gammaJ_eq hn, mul_comm (Real.Gamma s.nu)]
  exact mul_le_mul_of_nonneg_left e2 h3.le

mutual
/-- Transformations with non-negative flux ratio and sums of elementary profiles of non-negative flux. -/
def Prof.Lit : Prof → Prop
  | .leaf L => ∃ e : Elt.Elem, e.Sized ∧ 0 ≤ e.flux ∧ e.leaf = L
  | .trans o _ _ r => o.Lit ∧ 0 ≤ r
  | .sum l => Prof.LitL l
  | .conv _ => False
/-- All of the list. -/
def Prof.LitL : List Prof → Prop
  | [] => True
  | o :: l => o.Lit ∧ Prof.LitL l
end

theorem invTwoPi_nonneg : 0 ≤ Elt.invTwoPi := by norm_num [Elt.invTwoPi]

theorem maxSb_nonneg (e : Elt.Elem) (h : e.Sized) (hf : 0 ≤ e.flux) : 0 ≤ e.leaf.maxSb := by
  have hi := invTwoPi_nonneg
  cases e with
  | gaussian g =>
    simp only [Elt.Elem.leaf, Elt.Gaussian.norm, Elt.Gaussian.invSigsq, Elt.Gaussian.sigsq, Elt.Elem.flux] at *
    positivity
  | exponential e =>
    simp only [Elt.Elem.leaf, Elt.Exponential.norm, Elt.Elem.flux] at *
    positivity
  | box b =>
    simp only [Elt.Elem.leaf, Elt.Box.maxSb, Elt.Elem.flux] at *
    exact div_nonneg hf (mul_pos h.1 h.2).le
  | delta d => simp only [Elt.Elem.leaf]; norm_num [Elt.mockInf]
  | moffat fit m =>
    simp only [Elt.Elem.leaf, Elt.Moffat.norm, Elt.Moffat.fluxFactor, Elt.Elem.flux, Elt.Elem.Sized] at *
    have : 0 ≤ m.beta - 1 := by linarith
    have := Real.pi_pos
    positivity
  | spergel s => exact absurd h id

mutual
/-- C110: no point of a profile made of elementary profiles of non-negative flux by transformations and sums is brighter than
`max_sb`, nor negative.  Missing: parts of negative flux (`C110_counterexample_sum`) and convolutions
(`C110_counterexample_boxes`). -/
theorem C110_tree_partial : ∀ o : Prof, o.Lit → 0 ≤ o.maxSb ∧ ∀ p v, o.xValue p = some v → 0 ≤ v ∧ v ≤ o.maxSb
  | .leaf L, h => by
    simp only [Prof.Lit] at h
    obtain ⟨e, hs, hf, rfl⟩ := h
    have hm := maxSb_nonneg e hs hf
    refine ⟨by simpa only [Prof.maxSb] using hm, fun p v hv => ?_⟩
    simp only [Prof.xValue, Prof.maxSb] at hv ⊢
    exact ((C110_elementary e hs).1 p v hv).bounds hm
  | .trans o J off r, h => by
    simp only [Prof.Lit] at h
    obtain ⟨i1, i2⟩ := C110_tree_partial o h.1
    refine ⟨by simp only [Prof.maxSb]; exact mul_nonneg h.2 i1, fun p v hv => ?_⟩
    simp only [Prof.xValue, Option.bind_eq_some_iff, Option.map_eq_some_iff] at hv
    obtain ⟨Ji, -, w, hw, rfl⟩ := hv
    obtain ⟨j1, j2⟩ := i2 _ w hw
    simp only [Prof.maxSb]
    rw [mul_comm w]
    exact ⟨mul_nonneg h.2 j1, mul_le_mul_of_nonneg_left j2 h.2⟩
  | .sum l, h => by
    simp only [Prof.Lit] at h
    have := lit_list l h
    simp only [Prof.maxSb, Prof.xValue]
    exact this
  | .conv _, h => by simp [Prof.Lit] at h
/-- The same for the sum over a list. -/
theorem lit_list : ∀ l : List Prof, Prof.LitL l →
    0 ≤ Prof.maxSbSum l ∧ ∀ p v, Prof.xValueL l p = some v → 0 ≤ v ∧ v ≤ Prof.maxSbSum l
  | [], _ => by simp [Prof.maxSbSum, Prof.xValueL]
  | o :: l, h => by
    simp only [Prof.LitL] at h
    obtain ⟨i1, i2⟩ := C110_tree_partial o h.1
    obtain ⟨j1, j2⟩ := lit_list l h.2
    refine ⟨by simp only [Prof.maxSbSum]; linarith, fun p v hv => ?_⟩
    simp only [Prof.xValueL, Option.bind_eq_some_iff, Option.map_eq_some_iff] at hv
    obtain ⟨a, ha, b, hb, rfl⟩ := hv
    have := i2 p a ha
    have := j2 p b hb
    simp only [Prof.maxSbSum]
    constructor <;> linarith
end

/-- C110: a transformation keeps the bound for all signs. -/
theorem C110_transform (o : Prof) (h : ∀ p v, o.xValue p = some v → |v| ≤ |o.maxSb|) (J : Mat2) (off : ℝ × ℝ) (r : ℝ)
    (p : ℝ × ℝ) (v : ℝ) (hv : (mkTransform o J off r).xValue p = some v) : |v| ≤ |(mkTransform o J off r).maxSb| := by
  rw [xValue_mk] at hv
  rw [maxSb_mk, abs_mul]
  simp only [Option.bind_eq_some_iff, Option.map_eq_some_iff] at hv
  obtain ⟨Ji, -, w, hw, rfl⟩ := hv
  rw [abs_mul, mul_comm]
  exact mul_le_mul_of_nonneg_left (h _ w hw) (abs_nonneg r)

/-! ### Convolutions -/

/-- The sum of the squares of the sizes. -/
noncomputable def sizesSq (l : List Elt.Gaussian) : ℝ := (l.map fun g => g.sigma ^ 2).sum

/-- C110: a convolution of Gaussians is the Gaussian with the sum of their `sigma²` and the product of their fluxes, and its
`max_sb` is the greatest brightness of this Gaussian. -/
theorem C110_gaussians (l : List Elt.Gaussian) (h : ∀ g ∈ l, 0 < g.sigma ∧ g.flux ≠ 0) (gs : GSP) :
    (∀ k, (Prof.conv (l.map fun g => .leaf (Elt.Elem.gaussian g).leaf)).kValue k =
      (Elt.Gaussian.kValue ⟨Real.sqrt (sizesSq l), (l.map fun g => g.flux).prod, gs⟩ k : ℂ)) ∧
    (Prof.conv (l.map fun g => .leaf (Elt.Elem.gaussian g).leaf)).maxSb =
      Elt.Gaussian.xValue ⟨Real.sqrt (sizesSq l), (l.map fun g => g.flux).prod, gs⟩ (0, 0) := by
  have hi : Elt.invTwoPi ≠ 0 := by norm_num [Elt.invTwoPi]
  obtain ⟨G, hG⟩ : ∃ G : Elt.Gaussian → Prof, G = fun g => .leaf (Elt.Elem.gaussian g).leaf := ⟨_, rfl⟩
  have g1 : ∀ g, (G g).flux = g.flux := fun g => by rw [hG]; simp only [Prof.flux]; rfl
  have g2 : ∀ g, (G g).maxSb = g.norm := fun g => by rw [hG]; simp only [Prof.maxSb]; rfl
  have g3 : ∀ g k, (G g).kValue k = (g.kValue k : ℂ) := fun g k => by rw [hG]; simp only [Prof.kValue]; rfl
  rw [← hG]
  have hnn : 0 ≤ sizesSq l := by
    refine List.sum_nonneg fun x hx => ?_
    obtain ⟨g, -, rfl⟩ := List.mem_map.1 hx
    positivity
  have hF : ∀ l : List Elt.Gaussian, Prof.fluxProd (l.map G) = (l.map fun g => g.flux).prod := by
    intro l
    induction l with
    | nil => simp [Prof.fluxProd]
    | cons g l ih => simp [Prof.fluxProd, g1, ih]
  have hA : ∀ l : List Elt.Gaussian, (∀ g ∈ l, 0 < g.sigma ∧ g.flux ≠ 0) →
      Prof.areaSum (l.map G) = sizesSq l / Elt.invTwoPi := by
    intro l
    induction l with
    | nil => intro _; simp [Prof.areaSum, sizesSq]
    | cons g l ih =>
      intro h
      have hg := h g List.mem_cons_self
      have hs : g.sigma ≠ 0 := hg.1.ne'
      have hf := hg.2
      have i := ih fun g' h' => h g' (List.mem_cons_of_mem _ h')
      simp only [List.map_cons, Prof.areaSum, i, g1, g2, Elt.Gaussian.norm,
        Elt.Gaussian.invSigsq, Elt.Gaussian.sigsq, sizesSq, List.sum_cons]
      field_simp
  constructor
  · intro k
    have hk : ∀ l : List Elt.Gaussian, Prof.kProd (l.map G) k =
        (((l.map fun g => g.flux).prod * Real.exp (-0.5 * ((k.1 ^ 2 + k.2 ^ 2) * sizesSq l)) : ℝ) : ℂ) := by
      intro l
      induction l with
      | nil => simp [Prof.kProd, sizesSq]
      | cons g l ih =>
        simp only [List.map_cons, Prof.kProd, ih, g3, Elt.Gaussian.kValue, Elt.Gaussian.sigsq,
          sizesSq, List.sum_cons, List.prod_cons, mul_add, Real.exp_add]
        push_cast
        ring
    simp only [Prof.kValue, hk, Elt.Gaussian.kValue, Elt.Gaussian.sigsq, Real.sq_sqrt hnn]
  · simp only [Prof.maxSb, hF, hA l h, Elt.Gaussian.xValue, Elt.Gaussian.norm, Elt.Gaussian.invSigsq, Elt.Gaussian.sigsq,
      Real.sq_sqrt hnn]
    simp [div_eq_mul_inv, mul_comm, mul_left_comm]
    ring

/-- C110: deconvolving by one part of a convolution gives back the flux, the centroid and `max_sb` of the other. -/
theorem C110_deconvolution (A B : Prof) (acc : ℝ) (hf : B.flux ≠ 0) (hm : B.maxSb ≠ 0) (hA : A.flux ≠ 0) (hc : B.centroid ≠ none) :
    (Prof.conv [A, B, .leaf (deconvLeaf B acc)]).flux = A.flux ∧
    (Prof.conv [A, B, .leaf (deconvLeaf B acc)]).maxSb = A.maxSb ∧
    (Prof.conv [A, B, .leaf (deconvLeaf B acc)]).centroid = A.centroid := by
  refine ⟨?_, ?_, ?_⟩
  · simp only [Prof.flux, Prof.fluxProd, deconvLeaf]
    field_simp
  · simp only [Prof.maxSb, Prof.flux, Prof.fluxProd, Prof.areaSum, deconvLeaf]
    have e : B.flux / B.maxSb + (1 / B.flux / (-B.maxSb / B.flux ^ 2) + 0) = 0 := by
      field_simp; ring
    rw [e, add_zero, mul_one]
    have e2 : B.flux * (1 / B.flux) = 1 := mul_one_div_cancel hf
    rw [e2, mul_one]
    by_cases h : A.maxSb = 0
    · simp [h]
    · field_simp
  · cases hB : B.centroid with
    | none => exact absurd hB hc
    | some c =>
      cases hA : A.centroid with
      | none => simp [Prof.centroid, Prof.cenSum, hA]
      | some a => simp [Prof.centroid, Prof.cenSum, hA, hB, deconvLeaf]

/-- Disagreement: the `max_sb` of a sum with a negative part is too small: here it is zero, though the brightness is not. -/
theorem C110_counterexample_sum (gs : GSP) :
    ∃ o : Prof, o = .sum [.leaf (Elt.Elem.gaussian ⟨1, 1, gs⟩).leaf, .leaf (Elt.Elem.gaussian ⟨2, -4, gs⟩).leaf] ∧
      o.maxSb = 0 ∧ ∃ v, o.xValue (1, 0) = some v ∧ v ≠ 0 := by
  refine ⟨_, rfl, ?_, ?_⟩
  · norm_num [Prof.maxSb, Prof.maxSbSum, Elt.Elem.leaf, Elt.Gaussian.norm, Elt.Gaussian.invSigsq, Elt.Gaussian.sigsq]
  · refine ⟨Elt.invTwoPi * Real.exp (-(1 / 2)) - Elt.invTwoPi * Real.exp (-(1 / 8)), ?_, ?_⟩
    · norm_num [Prof.xValue, Prof.xValueL, Elt.Elem.leaf, Elt.Gaussian.xValue, Elt.Gaussian.norm, Elt.Gaussian.invSigsq,
        Elt.Gaussian.sigsq]
      ring
    · have h : Real.exp (-(1 / 2)) < Real.exp (-(1 / 8)) := Real.exp_lt_exp.2 (by norm_num)
      have hi : 0 < Elt.invTwoPi := by norm_num [Elt.invTwoPi]
      have := mul_lt_mul_of_pos_left h hi
      exact (sub_neg.2 this).ne

/-- Disagreement: the `max_sb` of a convolution is said to be "likely to be too high, which is acceptable", but the convolution
of two pixels has the brightness 1 at its centre and its `max_sb` is 1/2. -/
theorem C110_counterexample_boxes (gs : GSP) :
    (Prof.conv [.leaf (Elt.Elem.box (.pixel 1 1 gs)).leaf, .leaf (Elt.Elem.box (.pixel 1 1 gs)).leaf]).maxSb = 1 / 2 ∧
    ∫ p : ℝ × ℝ, Elt.Box.xValue (.pixel 1 1 gs) p * Elt.Box.xValue (.pixel 1 1 gs) (0 - p) = 1 := by
  constructor
  · norm_num [Prof.maxSb, Prof.fluxProd, Prof.areaSum, Prof.flux, Elt.Elem.leaf, Elt.Elem.flux, Elt.Box.maxSb, Elt.Box.pixel]
  · have h := Elt.C78_box (.pixel 1 1 gs) (by norm_num [Elt.Box.pixel]) (by norm_num [Elt.Box.pixel]) (fun _ => 1) measurable_const
      (B := 1) (by simp)
    simp only [intervalIntegral.integral_const, sub_zero, smul_eq_mul, mul_one, one_mul] at h
    refine Eq.trans (integral_congr_ae (ae_of_all _ fun p => ?_)) h.symm
    simp only [Elt.Box.xValue, Elt.Box.pixel, zero_sub, Prod.fst_neg, Prod.snd_neg, abs_neg]
    by_cases h1 : 2 * |p.1| < 1 <;> by_cases h2 : 2 * |p.2| < 1 <;> simp only [h1, h2] <;> norm_num

/-- Disagreement: at `1e-10` scale radii from the centre, a Spergel profile of index 1/100 to 1/50 is brighter than its
`max_sb`. -/
theorem C110_counterexample_spergel (s : Elt.Spergel) (h1 : 1 / 100 ≤ s.nu) (h2 : s.nu ≤ 1 / 50) (hr : 0 < s.r0)
    (hf : 0 < s.flux) (p : ℝ × ℝ) (hp : Real.sqrt (p.1 ^ 2 + p.2 ^ 2) = 1e-10 * s.r0) :
    ∃ v, (Elt.Elem.spergel s).leaf.xv p = some v ∧ (Elt.Elem.spergel s).leaf.maxSb < v := by
  have hn : 0 < s.nu := by linarith
  have hx : 0 < s.xnorm := by
    unfold Elt.Spergel.xnorm Elt.Spergel.shootxnorm Elt.Spergel.invR0 Elt.gammaP1
    rw [Elt.gammaJ_eq (x := s.nu + 1) (by linarith)]
    have := Real.Gamma_pos_of_pos (show 0 < s.nu + 1 by linarith)
    have := Real.pi_pos
    positivity
  have hz : Real.sqrt (p.1 ^ 2 + p.2 ^ 2) * s.invR0 = 1e-10 := by
    rw [hp, Elt.Spergel.invR0]; field_simp
  refine ⟨s.xnorm * Elt.fnuSmall 1e-10 s.nu, ?_, ?_⟩
  · simp only [Elt.Elem.leaf, Elt.Spergel.xValue, hz]
    rw [if_neg (by norm_num)]
    unfold Elt.fzNu Elt.fsmallzNu
    rw [if_pos le_rfl, if_neg hn.ne', if_neg (by linarith), if_neg (by linarith), if_neg (by linarith), if_neg (by linarith)]
  · simp only [Elt.Elem.leaf]
    rw [abs_of_pos hx]
    refine mul_lt_mul_of_pos_left ?_ hx
    obtain ⟨m, hm⟩ : ∃ m, m = s.nu + 1e-10 := ⟨_, rfl⟩
    have hm0 : 0 < m := by rw [hm]; norm_num; linarith
    have hm1 : m ≤ 0.021 := by rw [hm]; norm_num; linarith
    have hd : 0 < min m (1 - m) := lt_min hm0 (by norm_num at hm1; linarith)
    have hk : ∀ n : ℤ, min m (1 - m) ≤ |s.nu + 1e-10 - n| := fun n => by
      rw [← hm]; exact Elt.frac_dist hm0 (by norm_num at hm1; linarith) n
    rw [Elt.fnuSmall_eq (by rw [← hm]; linarith) hd hk, ← hm]
    obtain ⟨⟨-, a2⟩, -, a4, a5, ⟨a6, -⟩, a8⟩ := Elt.near_zero hm0 hm1
    obtain ⟨⟨b1, -⟩, -, -, -, ⟨-, b7⟩, -⟩ := Elt.near_zero hn (by norm_num; linarith)
    have hg := Real.Gamma_pos_of_pos hm0
    rw [abs_of_pos hg]
    have c1 : s.xnorm0 ≤ 0.51 / s.nu := by
      unfold Elt.Spergel.xnorm0
      rw [Elt.gammaJ_eq hn, le_div_iff₀ hn]
      have k1 : Real.Gamma s.nu * 2 ^ (s.nu - 1) * s.nu ≤ 1 * (2 : ℝ) ^ (s.nu - 1) := by
        have := mul_le_mul_of_nonneg_right b1 (show (0 : ℝ) ≤ 2 ^ (s.nu - 1) by positivity)
        linarith
      have k2 : 0.5 * (1 + s.nu) ≤ 0.51 := by norm_num; linarith
      linarith
    have c2 : 0.4925 * 0.375 / m ≤ 2 ^ (-1 - m) * (1e-10 : ℝ) ^ (2 * m) * |Real.Gamma (-m)| := by
      rw [div_le_iff₀ hm0]
      have k1 : (0.4925 : ℝ) * 0.375 ≤ 2 ^ (-1 - m) * (1e-10 : ℝ) ^ (2 * m) :=
        mul_le_mul a5 a8 (by norm_num) (by positivity)
      have k2 := mul_le_mul k1 a4 zero_le_one (by positivity)
      linarith
    have c3 : 0.5 * 0.979 / m ≤ 2 ^ (m - 1) * Real.Gamma m := by
      rw [div_le_iff₀ hm0]
      have := mul_le_mul a6 a2 (by norm_num) (by positivity)
      linarith
    have c4 : 2 ^ (-1 - m) * (1e-10 : ℝ) ^ (2 * m) * |Real.Gamma (-m)| ≤
        2 ^ (-1 - m) * (1e-10 : ℝ) ^ (2 * m) * |Real.Gamma (-m)| * (1 + (1e-10 : ℝ) ^ 6 / (4 * (1 + m))) :=
      le_mul_of_one_le_right (by positivity) (by have : 0 ≤ (1e-10 : ℝ) ^ 6 / (4 * (1 + m)) := by positivity
                                                 linarith)
    have c5 : 2 ^ (m - 1) * Real.Gamma m ≤ 2 ^ (m - 1) * Real.Gamma m *
        (1 + (1e-10 : ℝ) ^ 2 * (16 + (1e-10 : ℝ) ^ 2 - 8 * m) / (32 * |(m - 1) * (m - 2)|)) := by
      refine le_mul_of_one_le_right (by positivity) ?_
      have k : 0 ≤ 16 + (1e-10 : ℝ) ^ 2 - 8 * m := by norm_num at hm1 ⊢; linarith
      have : 0 ≤ (1e-10 : ℝ) ^ 2 * (16 + (1e-10 : ℝ) ^ 2 - 8 * m) / (32 * |(m - 1) * (m - 2)|) := by positivity
      linarith
    have c6 : 0.51 / s.nu < 0.4925 * 0.375 / m + 0.5 * 0.979 / m := by
      rw [← add_div, div_lt_div_iff₀ hn hm0, hm]
      norm_num
      linarith
    linarith

example (gs : GSP) (p : ℝ × ℝ) (v : ℝ)
    (h : (mkTransform (.sum [.leaf (Elt.Elem.gaussian ⟨1, 2, gs⟩).leaf, .leaf (Elt.Elem.box (.pixel 3 1 gs)).leaf]) ⟨1, 2, 0, 1⟩
      (5, 0) 3).xValue p = some v) : 0 ≤ v ∧ v ≤ (mkTransform (.sum [.leaf (Elt.Elem.gaussian ⟨1, 2, gs⟩).leaf,
        .leaf (Elt.Elem.box (.pixel 3 1 gs)).leaf]) ⟨1, 2, 0, 1⟩ (5, 0) 3).maxSb := by
  refine (C110_tree_partial _ ?_).2 p v h
  simp only [mkTransform, Prof.Lit, Prof.LitL]
  exact ⟨⟨⟨_, by norm_num [Elt.Elem.Sized], by norm_num [Elt.Elem.flux], rfl⟩,
    ⟨_, by norm_num [Elt.Elem.Sized, Elt.Box.pixel], by norm_num [Elt.Elem.flux, Elt.Box.pixel], rfl⟩, trivial⟩, by norm_num⟩

end JG
