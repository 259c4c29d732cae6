import Verif.Model.InterpPhot
import Verif.Lemmas.PhotonLine
import Verif.Props.InterpWorldK

/-!
Property C89: the photons of an `InterpolatedImage` are distributed like its brightness.
-/

open MeasureTheory

namespace JG.Interp

/-! ### Specification -/

/-- The density, with sign, of the photons of a kernel along one axis: the kernel itself where the code has an exact method;
with a table, the sign of the kernel times a density that is constant between two nodes of the table, in proportion to the
mean of the absolute values of the kernel at the nodes. -/
noncomputable def Kernel.shot (K : ℕ → ℕ → ℝ) (fl : ℝ × ℝ) (k : Kernel) (x : ℝ) : ℝ :=
  match k with
  | .nearest | .linear => k.xval K x
  | k => (fl.1 + fl.2) * SignType.sign (k.xval K x) * tableDens 10000 (k.cdf K) k.cdfX x

/-- The kernels with photons that have a density. -/
def Kernel.HasPhotons (K : ℕ → ℕ → ℝ) : Kernel → Prop
  | .delta _ | .sinc _ => False
  | .nearest | .linear => True
  | k => 0 < k.cdfRaw K 9999

/-- The light of `m` spread with the kernel `f`, in world coordinates: the wanted flux spread over the pixels. -/
noncomputable def II.shown (o : II) (f : ℝ → ℝ) (p : ℝ × ℝ) : ℝ :=
  o.wanted / light (coordMap o.args.im) / o.wcs.docArea * spread (coordMap o.args.im) f (o.ref + o.jac.inv'.app p)

/-! ### Kernels -/

theorem measurable_sinc : Measurable sinc := by
  unfold sinc
  exact Measurable.ite (measurableSet_singleton 0) measurable_const (by fun_prop)

theorem measurable_lanczosSinc (n : ℕ) : Measurable (lanczosSinc n) := by
  have h := measurable_sinc
  unfold lanczosSinc
  split <;> fun_prop

theorem measurable_xval (K : ℕ → ℕ → ℝ) (k : Kernel) : Measurable (k.xval K) := by
  have ma : Measurable fun x : ℝ => |x| := by fun_prop
  have hs := measurable_sinc
  cases k with
  | delta v => exact Measurable.ite (measurableSet_lt measurable_const ma) measurable_const measurable_const
  | nearest => exact Measurable.ite (measurableSet_lt measurable_const ma) measurable_const measurable_const
  | sinc v => exact hs
  | linear => exact Measurable.ite (measurableSet_lt measurable_const ma) measurable_const (by fun_prop)
  | cubic =>
    refine Measurable.ite (measurableSet_lt ma measurable_const) ?_
      (Measurable.ite (measurableSet_lt ma measurable_const) ?_ measurable_const)
    · unfold cubicOne; fun_prop
    · unfold cubicTwo; fun_prop
  | quintic =>
    refine Measurable.ite (measurableSet_le ma measurable_const) ?_
      (Measurable.ite (measurableSet_le ma measurable_const) ?_
        (Measurable.ite (measurableSet_le ma measurable_const) ?_ measurable_const))
    · unfold quinticOne; fun_prop
    · unfold quinticTwo; fun_prop
    · unfold quinticThree; fun_prop
  | lanczos n dc =>
    have hl := measurable_lanczosSinc n
    have hf : ∀ c : ℕ → ℝ, Measurable (lanczosFactor c) := by intro c; unfold lanczosFactor; fun_prop
    show Measurable (lanczosXval K n dc)
    unfold lanczosXval
    refine Measurable.ite (measurableSet_lt ma measurable_const) ?_ measurable_const
    have h1 : Measurable fun x : ℝ => lanczosSinc n |x| := hl.comp ma
    have h2 : Measurable fun x : ℝ => sinc (|x| / n) := hs.comp (ma.div_const _)
    cases dc
    · simp only [Bool.false_eq_true, if_false]
      exact h1.mul h2
    · simp only [if_true]
      exact (h1.mul h2).div ((hf _).comp (h1.mul (ma.const_mul _)))

theorem measurable_sign : Measurable fun x : ℝ => ((SignType.sign x : SignType) : ℝ) := by
  have : (fun x : ℝ => ((SignType.sign x : SignType) : ℝ)) = fun x => if 0 < x then 1 else if x < 0 then -1 else 0 := by
    funext x
    rcases lt_trichotomy x 0 with h | h | h
    · simp [h, not_lt.mpr h.le]
    · simp [h]
    · simp [h]
  rw [this]
  exact Measurable.ite measurableSet_Ioi measurable_const (Measurable.ite measurableSet_Iio measurable_const measurable_const)

theorem abs_sign_le (x : ℝ) : |((SignType.sign x : SignType) : ℝ)| ≤ 1 := by
  rcases lt_trichotomy x 0 with h | h | h <;> simp [h]

theorem Kernel.cdfX_lt {k : Kernel} (hk : 0 < k.xrange) (i : ℕ) : k.cdfX i < k.cdfX (i + 1) := by
  unfold Kernel.cdfX Elt.linspace
  push_cast
  have : (0:ℝ) < (k.xrange - -k.xrange) / (10000 - 1) := by apply div_pos <;> norm_num; linarith
  have e : ∀ a : ℝ, a * (k.xrange - -k.xrange) / (10000 - 1) = a * ((k.xrange - -k.xrange) / (10000 - 1)) := fun a => by ring
  rw [e, e]
  nlinarith

theorem Kernel.cdf_mono (K : ℕ → ℕ → ℝ) {k : Kernel} (hk : 0 < k.xrange) (hT : 0 < k.cdfRaw K 9999) (i j : ℕ) (hij : i ≤ j) :
    k.cdf K i ≤ k.cdf K j := by
  unfold Kernel.cdf
  refine div_le_div_of_nonneg_right ?_ hT.le
  unfold Kernel.cdfRaw
  refine Finset.sum_le_sum_of_subset_of_nonneg (Finset.range_mono hij) fun l _ _ => ?_
  have := Kernel.cdfX_lt hk 0
  have h1 : 0 ≤ k.cdfX 1 - k.cdfX 0 := by linarith
  exact mul_nonneg (mul_nonneg (add_nonneg (abs_nonneg _) (abs_nonneg _)) (by norm_num)) h1

theorem lineLaw_tableK (K : ℕ → ℕ → ℝ) {k : Kernel} (fl : ℝ × ℝ) (hk : 0 < k.xrange) (hT : 0 < k.cdfRaw K 9999) :
    LineLaw (fun ψ => ∫ u in (0:ℝ)..1, (fl.1 + fl.2) * SignType.sign (k.xval K (k.tablePos K u)) * ψ (k.tablePos K u))
      fun x => (fl.1 + fl.2) * SignType.sign (k.xval K x) * tableDens 10000 (k.cdf K) k.cdfX x := by
  refine lineLaw_table (by norm_num) (fun i j hij _ => Kernel.cdf_mono K hk hT i j hij) (fun i _ => Kernel.cdfX_lt hk i) ?_ ?_
    (w := fun x => (fl.1 + fl.2) * SignType.sign (k.xval K x)) ?_ (B := |fl.1 + fl.2|) ?_
  · simp [Kernel.cdf, Kernel.cdfRaw]
  · exact div_self hT.ne'
  · exact (measurable_sign.comp (measurable_xval K k)).const_mul _
  · intro x
    rw [abs_mul]
    exact mul_le_of_le_one_right (abs_nonneg _) (abs_sign_le _)

/-- C89: the photons of a kernel, weighted with their flux, are distributed in the plane like the product of the densities
along the axes. -/
theorem C89_kernel (K : ℕ → ℕ → ℝ) (fl : ℝ × ℝ) (k : Kernel) (hk : k.HasPhotons K)
    (hn : ∀ n d, k = .lanczos n d → 1 ≤ n) (φ : ℝ × ℝ → ℝ) (hφ : Measurable φ) (C : ℝ) (hC : ∀ p, |φ p| ≤ C) :
    k.photons K fl (fun ξ g => g * φ ξ) = ∫ p : ℝ × ℝ, k.shot K fl p.1 * k.shot K fl p.2 * φ p := by
  have table : ∀ k : Kernel, 0 < k.xrange → 0 < k.cdfRaw K 9999 →
      (∫ v in (0 : ℝ)..1, ∫ w in (0 : ℝ)..1, (fl.1 + fl.2) ^ 2 * SignType.sign (k.xval K (k.tablePos K v)) *
        SignType.sign (k.xval K (k.tablePos K w)) * φ (k.tablePos K v, k.tablePos K w)) =
      ∫ p : ℝ × ℝ, ((fl.1 + fl.2) * SignType.sign (k.xval K p.1) * tableDens 10000 (k.cdf K) k.cdfX p.1) *
        ((fl.1 + fl.2) * SignType.sign (k.xval K p.2) * tableDens 10000 (k.cdf K) k.cdfX p.2) * φ p := by
    intro k h1 h2
    rw [← (lineLaw_tableK K fl h1 h2).plane φ hφ C hC]
    refine intervalIntegral.integral_congr fun v _ => ?_
    show (∫ w in (0:ℝ)..1, _) = _ * ∫ w in (0:ℝ)..1, _
    rw [← intervalIntegral.integral_const_mul]
    refine intervalIntegral.integral_congr fun w _ => ?_
    simp only
    ring
  cases k with
  | delta v => exact hk.elim
  | sinc v => exact hk.elim
  | nearest =>
    simp only [Kernel.photons, one_mul]
    exact lineLaw_nearest.plane φ hφ C hC
  | linear =>
    have := lineLaw_linear.plane φ hφ C hC
    simp only [Kernel.photons, one_mul]
    refine Eq.trans ?_ this
    refine intervalIntegral.integral_congr fun v _ => ?_
    rfl
  | cubic => exact table .cubic (by norm_num [Kernel.xrange]) hk
  | quintic => exact table .quintic (by norm_num [Kernel.xrange]) hk
  | lanczos n d =>
    exact table (.lanczos n d) (by have := hn n d rfl; simp only [Kernel.xrange]; exact_mod_cast this) hk

theorem shot_int (K : ℕ → ℕ → ℝ) (fl : ℝ × ℝ) (k : Kernel) (hk : k.HasPhotons K)
    (hn : ∀ n d, k = .lanczos n d → 1 ≤ n) : Integrable (k.shot K fl) := by
  cases k with
  | delta v => exact hk.elim
  | sinc v => exact hk.elim
  | nearest => exact lineLaw_nearest.int
  | linear => exact lineLaw_linear.int
  | cubic => exact (lineLaw_tableK K fl (by norm_num [Kernel.xrange]) hk).int
  | quintic => exact (lineLaw_tableK K fl (by norm_num [Kernel.xrange]) hk).int
  | lanczos n d =>
    exact (lineLaw_tableK K fl (by have := hn n d rfl; simp only [Kernel.xrange]; exact_mod_cast this) hk).int

/-! ### Images -/

theorem absLight_grid (im : Image) (hd : im.bounds.defined = true) (hs : im.ShapeOK) :
    gridSum im.arr.h im.arr.w (fun i j => |im.arr.at' i j|) = absLight (coordMap im) := by
  obtain ⟨im', h'⟩ : ∃ im' : Image, im' = { im with arr := ⟨im.arr.h, im.arr.w, fun i j => |im.arr.at' i j|⟩ } := ⟨_, rfl⟩
  have h1 : im'.bounds = im.bounds := by rw [h']
  have h2 : im'.ShapeOK := by rw [h']; exact hs
  have e : coordMap im' = fun x y => (coordMap im x y).map fun v => |v| := by
    funext x y
    rw [h']
    simp only [coordMap]
    split_ifs <;> rfl
  rw [absLight, ← e, ← arrSum_light im' (by rw [h1]; exact hd) h2, arrSum, h']

theorem posNeg_sub (fl : ℝ × ℝ) (a : Arr ℝ) :
    (posNeg fl a).1 - (posNeg fl a).2 = (fl.1 - fl.2) ^ 2 * arrSum a ∧
    (posNeg fl a).1 + (posNeg fl a).2 = (fl.1 + fl.2) ^ 2 * gridSum a.h a.w fun i j => |a.at' i j| := by
  have hn : (gridSum a.h a.w fun i j => if a.at' i j < 0 then a.at' i j else 0) ≤ 0 :=
    Finset.sum_nonpos fun i _ => Finset.sum_nonpos fun j _ => by beta_reduce; split_ifs with h <;> linarith
  obtain ⟨P, hP⟩ : ∃ P, P = gridSum a.h a.w fun i j => if a.at' i j > 0 then a.at' i j else 0 := ⟨_, rfl⟩
  obtain ⟨N, hN⟩ : ∃ N, N = gridSum a.h a.w fun i j => if a.at' i j < 0 then a.at' i j else 0 := ⟨_, rfl⟩
  have e1 : P + N = arrSum a := by
    rw [hP, hN, arrSum]
    unfold gridSum
    rw [← Finset.sum_add_distrib]
    refine Finset.sum_congr rfl fun i _ => ?_
    rw [← Finset.sum_add_distrib]
    refine Finset.sum_congr rfl fun j _ => ?_
    beta_reduce
    rcases lt_trichotomy (a.at' i j) 0 with h | h | h
    · rw [if_neg (by linarith), if_pos h]; ring
    · rw [if_neg (by linarith), if_neg (by linarith)]; linarith
    · rw [if_pos h, if_neg (by linarith)]; ring
  have e2 : P - N = gridSum a.h a.w fun i j => |a.at' i j| := by
    rw [hP, hN]
    unfold gridSum
    rw [← Finset.sum_sub_distrib]
    refine Finset.sum_congr rfl fun i _ => ?_
    rw [← Finset.sum_sub_distrib]
    refine Finset.sum_congr rfl fun j _ => ?_
    beta_reduce
    rcases lt_trichotomy (a.at' i j) 0 with h | h | h
    · rw [if_neg (by linarith), if_pos h, abs_of_neg h]; ring
    · rw [if_neg (by linarith), if_neg (by linarith), h]; simp
    · rw [if_pos h, if_neg (by linarith), abs_of_pos h]; ring
  rw [← hN] at hn
  simp only [posNeg, ← hP, ← hN, abs_of_nonpos hn]
  rw [← e1, ← e2]
  constructor <;> ring

theorem fpp_mul {pn : ℝ × ℝ} (h : pn.1 + pn.2 ≠ 0) : fluxPerPhoton pn * (pn.1 + pn.2) = pn.1 - pn.2 := by
  unfold fluxPerPhoton
  field_simp
  ring

section
variable {o : II} (h : o.Good)
include h

/-- The interpolated image has the pixels of the image: sums of the values and of their absolute values. -/
theorem pad_sums (s : Image) (hp : o.padImage = .ok s) : s.bounds.defined = true ∧ s.ShapeOK ∧
    coordMap s = coordMap (workImage true o.args.im) ∧ arrSum s.arr = light (coordMap o.args.im) ∧
    (gridSum s.arr.h s.arr.w fun i j => |s.arr.at' i j|) = absLight (coordMap o.args.im) := by
  obtain ⟨s', s1, s2, s3, s4⟩ := padImage_ok h
  rw [hp] at s1
  obtain rfl := Except.ok.inj s1
  obtain ⟨w1, w2, -⟩ := work h
  refine ⟨s2, s3, s4, ?_, ?_⟩
  · rw [arrSum_light s s2 s3, s4, light, work_sum h]; rfl
  · rw [absLight_grid s s2 s3, s4, ← absLight_grid _ w1.defd w1.shape, w2, absLight_grid _ h.defd h.shape]

theorem absLight_pos : 0 < absLight (coordMap o.args.im) := by
  rw [← absLight_grid _ h.defd h.shape]
  have hl := h.light
  rw [← arrSum_light _ h.defd h.shape] at hl
  refine lt_of_lt_of_le (abs_pos.mpr hl) ?_
  unfold arrSum gridSum
  refine (Finset.abs_sum_le_sum_abs _ _).trans ?_
  exact Finset.sum_le_sum fun i _ => Finset.abs_sum_le_sum_abs _ _

omit h in
/-- The light spread with an integrable kernel, times a bounded function. -/
theorem spread_mean (m : CMap) (hm : FinMap m) {f : ℝ → ℝ} (hf : Integrable f) (c : ℝ × ℝ) {φ : ℝ × ℝ → ℝ} (hφ : Measurable φ)
    {C : ℝ} (hC : ∀ p, |φ p| ≤ C) :
    (pixelSum m fun P => ∫ ξ : ℝ × ℝ, f ξ.1 * f ξ.2 * φ (((P.1:ℝ), (P.2:ℝ)) - c + ξ)) = ∫ q : ℝ × ℝ, spread m f (c + q) * φ q := by
  have hff : Integrable (fun p : ℝ × ℝ => f p.1 * f p.2) := hf.mul_prod hf
  have e1 : ∀ P : ℤ × ℤ, Integrable (fun q : ℝ × ℝ => f (c.1 + q.1 - P.1) * f (c.2 + q.2 - P.2) * φ q) ∧
      (∫ ξ : ℝ × ℝ, f ξ.1 * f ξ.2 * φ (((P.1:ℝ), (P.2:ℝ)) - c + ξ)) =
        ∫ q : ℝ × ℝ, f (c.1 + q.1 - P.1) * f (c.2 + q.2 - P.2) * φ q := by
    intro P
    obtain ⟨t, ht⟩ : ∃ t : ℝ × ℝ, t = c - ((P.1:ℝ), (P.2:ℝ)) := ⟨_, rfl⟩
    have i1 : Integrable (fun p : ℝ × ℝ => f p.1 * f p.2 * φ (p - t)) :=
      bdd_integrable hff (hφ.comp (measurable_id.sub_const t)) fun p => hC _
    have e : (fun q : ℝ × ℝ => f (c.1 + q.1 - P.1) * f (c.2 + q.2 - P.2) * φ q) =
        fun q => (fun p : ℝ × ℝ => f p.1 * f p.2 * φ (p - t)) (t + q) := by
      funext q
      simp only [add_sub_cancel_left]
      rw [ht]
      simp only [Prod.fst_add, Prod.snd_add, Prod.fst_sub, Prod.snd_sub]
      congr 3 <;> ring
    constructor
    · rw [e]; exact i1.comp_add_left t
    · rw [e, integral_add_left_eq_self (fun p : ℝ × ℝ => f p.1 * f p.2 * φ (p - t)) t]
      refine integral_congr_ae (Filter.Eventually.of_forall fun p => ?_)
      simp only
      congr 2
      rw [ht]; abel
  rw [pixelSum_eq hm]
  have e2 : (fun q : ℝ × ℝ => spread m f (c + q) * φ q) = fun q => ∑ p ∈ hm.toFinset,
      (f (c.1 + q.1 - p.1) * f (c.2 + q.2 - p.2) * φ q) * (m p.1 p.2).getD 0 := by
    funext q
    rw [spread, pixelSum_eq hm, Finset.sum_mul]
    refine Finset.sum_congr rfl fun p _ => ?_
    simp only [Prod.fst_add, Prod.snd_add]
    ring
  rw [e2, integral_finsetSum _ fun p _ => (e1 p).1.mul_const _]
  refine Finset.sum_congr rfl fun p _ => ?_
  rw [(e1 p).2, integral_mul_const]

omit h in
theorem photons_const (K : ℕ → ℕ → ℝ) (fl : ℝ × ℝ) (k : Kernel) (c : ℝ) (Φ : ℝ × ℝ → ℝ) :
    k.photons K fl (fun ξ g => g * (c * Φ ξ)) = c * k.photons K fl fun ξ g => g * Φ ξ := by
  cases k with
  | delta v => simp only [Kernel.photons]; ring
  | sinc v => simp only [Kernel.photons]; ring
  | nearest => simp only [Kernel.photons, one_mul, intervalIntegral.integral_const_mul]
  | linear => simp only [Kernel.photons, one_mul, intervalIntegral.integral_const_mul]
  | _ =>
    simp only [Kernel.photons]
    rw [← intervalIntegral.integral_const_mul]
    refine intervalIntegral.integral_congr fun v _ => ?_
    show (∫ w in (0:ℝ)..1, _) = _ * ∫ w in (0:ℝ)..1, _
    rw [← intervalIntegral.integral_const_mul]
    refine intervalIntegral.integral_congr fun w _ => ?_
    ring

/-- The mean over the photons as a sum over the pixels, for every kernel that can be shot. -/
theorem photons_sum (K : ℕ → ℕ → ℝ) (fl : ℝ × ℝ) (hfl : fl.1 - fl.2 = 1) (hfl' : 0 ≤ fl.2) (hcan : o.args.kernel.canShoot = true)
    (φ : ℝ × ℝ → ℝ) :
    o.photons K fl (fun p g => g * φ p) = .ok (o.wanted / absLight (coordMap o.args.im) *
      pixelSum (coordMap o.args.im) fun P => o.args.kernel.photons K fl fun ξ g => g * φ (o.jac.app (((P.1:ℝ), (P.2:ℝ)) - o.ref + ξ))) := by
  obtain ⟨s, s1, -⟩ := padImage_ok h
  obtain ⟨s2, s3, s4, s5, s6⟩ := pad_sums h s s1
  obtain ⟨d, d1, d2, d3⟩ := offset_ok h
  obtain ⟨L, hL⟩ : ∃ L, L = light (coordMap o.args.im) := ⟨_, rfl⟩
  obtain ⟨A, hA⟩ : ∃ A, A = absLight (coordMap o.args.im) := ⟨_, rfl⟩
  obtain ⟨J, hJ⟩ : ∃ J, J = o.jac := ⟨_, rfl⟩
  have hJ0 : J.det ≠ 0 := by rw [hJ]; exact jac_ne h
  have hA0 : 0 < A := by rw [hA]; exact absLight_pos h
  have hL0 : L ≠ 0 := by rw [hL]; exact h.light
  have hD : o.wcs.docArea = |J.det| := by rw [docArea_eq, hJ]; rfl
  have hpn := posNeg_sub fl s.arr
  rw [s5, s6, hfl, one_pow, one_mul] at hpn
  have hsum : (posNeg fl s.arr).1 + (posNeg fl s.arr).2 ≠ 0 := by
    rw [hpn.2, ← hA]
    have : 0 < fl.1 + fl.2 := by linarith
    positivity
  have hfp := fpp_mul hsum
  rw [hpn.1, ← hL] at hfp
  obtain ⟨w, hw⟩ : ∃ w, w = o.wanted := ⟨_, rfl⟩
  -- one pixel
  have pix : ∀ i j : ℕ, |s.arr.at' i j| / A * o.args.kernel.photons K fl (fun ξ g =>
      (SignType.sign (s.arr.at' i j) * fluxPerPhoton (posNeg fl s.arr) * ((posNeg fl s.arr).1 + (posNeg fl s.arr).2) * g *
        (|o.jac.det| * (w / L / o.wcs.docArea))) *
      φ (o.jac.a * ((j:ℝ) + s.bounds.xmin - d.x + ξ.1) + o.jac.b * ((i:ℝ) + s.bounds.ymin - d.y + ξ.2) + 0,
        o.jac.c * ((j:ℝ) + s.bounds.xmin - d.x + ξ.1) + o.jac.d * ((i:ℝ) + s.bounds.ymin - d.y + ξ.2) + 0)) =
      (w / A * o.args.kernel.photons K fl (fun ξ g => g * φ (J.app ((((s.bounds.xmin + j : ℤ) : ℝ), ((s.bounds.ymin + i : ℤ) : ℝ)) - (d.x, d.y) + ξ)))) *
        s.arr.at' i j := by
    intro i j
    obtain ⟨a, ha⟩ : ∃ a, a = s.arr.at' i j := ⟨_, rfl⟩
    obtain ⟨σ, hσ⟩ : ∃ σ : ℝ, σ = (SignType.sign a : ℝ) := ⟨_, rfl⟩
    have e : (fun (ξ : ℝ × ℝ) (g : ℝ) =>
      (SignType.sign (s.arr.at' i j) * fluxPerPhoton (posNeg fl s.arr) * ((posNeg fl s.arr).1 + (posNeg fl s.arr).2) * g *
        (|o.jac.det| * (w / L / o.wcs.docArea))) *
      φ (o.jac.a * ((j:ℝ) + s.bounds.xmin - d.x + ξ.1) + o.jac.b * ((i:ℝ) + s.bounds.ymin - d.y + ξ.2) + 0,
        o.jac.c * ((j:ℝ) + s.bounds.xmin - d.x + ξ.1) + o.jac.d * ((i:ℝ) + s.bounds.ymin - d.y + ξ.2) + 0)) =
      fun ξ g => g * (σ * w * φ (J.app ((((s.bounds.xmin + j : ℤ) : ℝ), ((s.bounds.ymin + i : ℤ) : ℝ)) - (d.x, d.y) + ξ))) := by
      funext ξ g
      have e1 : ((o.jac.a * ((j:ℝ) + s.bounds.xmin - d.x + ξ.1) + o.jac.b * ((i:ℝ) + s.bounds.ymin - d.y + ξ.2) + 0,
        o.jac.c * ((j:ℝ) + s.bounds.xmin - d.x + ξ.1) + o.jac.d * ((i:ℝ) + s.bounds.ymin - d.y + ξ.2) + 0) : ℝ × ℝ) =
          J.app ((((s.bounds.xmin + j : ℤ) : ℝ), ((s.bounds.ymin + i : ℤ) : ℝ)) - (d.x, d.y) + ξ) := by
        rw [hJ]
        ext <;> simp only [Mat2.app, Prod.fst_add, Prod.snd_add, Prod.fst_sub, Prod.snd_sub] <;> push_cast <;> ring
      rw [e1, mul_assoc (SignType.sign (s.arr.at' i j) : ℝ), hfp, hD, ← hJ, ← ha, ← hσ]
      have : |J.det| ≠ 0 := abs_ne_zero.mpr hJ0
      field_simp
    rw [e, photons_const K fl _ (σ * w), ← ha]
    have e3 : |a| * σ = a := by rw [hσ]; exact abs_mul_sign a
    generalize o.args.kernel.photons K fl _ = G
    calc |a| / A * (σ * w * G) = (|a| * σ) * (w / A * G) := by ring
      _ = w / A * G * a := by rw [e3]; ring
  rw [II.photons, s1, d1, fluxRatio_ok h]
  simp only [Except.bind, hcan, Bool.not_true, Bool.false_eq_true, if_false]
  congr 1
  rw [s6, ← hA, ← hL, ← hw]
  have e4 := gridSum_pixelSum s s2 s3 fun P => w / A * o.args.kernel.photons K fl fun ξ g => g * φ (J.app (((P.1 : ℝ), (P.2 : ℝ)) - (d.x, d.y) + ξ))
  simp only [← pix] at e4
  have hfin : FinMap (coordMap o.args.im) := finMap_coordMap _
  rw [e4, s4, work_sum h, pixelSum_eq hfin, pixelSum_eq hfin, Finset.mul_sum, ← hJ]
  refine Finset.sum_congr rfl fun P _ => ?_
  rw [← mul_assoc]
  congr 2
  refine congrArg _ ?_
  funext ξ g
  congr 3
  ext
  · simp only [Prod.fst_sub, Prod.fst_add]; rw [← d2]; push_cast; ring
  · simp only [Prod.snd_sub, Prod.snd_add]; rw [← d3]; push_cast; ring

/-- C89: whatever the signs of the pixels, the mean of a function over the photons, weighted with their fluxes, is its mean
over the light of the pixels spread with the density of the photons of the kernel, times the ratio of the light to the total
of the absolute values of the pixels. -/
theorem C89_mean (K : ℕ → ℕ → ℝ) (fl : ℝ × ℝ) (hfl : fl.1 - fl.2 = 1) (hfl' : 0 ≤ fl.2) (hk : o.args.kernel.HasPhotons K)
    (hn : ∀ n d, o.args.kernel = .lanczos n d → 1 ≤ n) (φ : ℝ × ℝ → ℝ) (hφ : Measurable φ) (C : ℝ) (hC : ∀ p, |φ p| ≤ C) :
    o.photons K fl (fun p g => g * φ p) = .ok (light (coordMap o.args.im) / absLight (coordMap o.args.im) *
      ∫ p : ℝ × ℝ, o.shown (o.args.kernel.shot K fl) p * φ p) := by
  have hcan : o.args.kernel.canShoot = true := by
    revert hk
    cases o.args.kernel <;> simp [Kernel.HasPhotons, Kernel.canShoot]
  obtain ⟨L, hL⟩ : ∃ L, L = light (coordMap o.args.im) := ⟨_, rfl⟩
  obtain ⟨A, hA⟩ : ∃ A, A = absLight (coordMap o.args.im) := ⟨_, rfl⟩
  obtain ⟨J, hJ⟩ : ∃ J, J = o.jac := ⟨_, rfl⟩
  have hJ0 : J.det ≠ 0 := by rw [hJ]; exact jac_ne h
  have hA0 : 0 < A := by rw [hA]; exact absLight_pos h
  have hL0 : L ≠ 0 := by rw [hL]; exact h.light
  have hD : o.wcs.docArea = |J.det| := by rw [docArea_eq, hJ]; rfl
  have hff := shot_int K fl _ hk hn
  have hfin : FinMap (coordMap o.args.im) := finMap_coordMap _
  have hmJ : Measurable fun q : ℝ × ℝ => φ (J.app q) := hφ.comp (by unfold Mat2.app; fun_prop)
  rw [photons_sum h K fl hfl hfl' hcan φ, ← hA, ← hL, ← hJ]
  congr 1
  have e1 : ∀ P : ℤ × ℤ, (o.args.kernel.photons K fl fun ξ g => g * φ (J.app (((P.1:ℝ), (P.2:ℝ)) - o.ref + ξ))) =
      ∫ ξ : ℝ × ℝ, o.args.kernel.shot K fl ξ.1 * o.args.kernel.shot K fl ξ.2 * (fun q => φ (J.app q)) (((P.1:ℝ), (P.2:ℝ)) - o.ref + ξ) :=
    fun P => C89_kernel K fl _ hk hn (fun ξ => φ (J.app (((P.1:ℝ), (P.2:ℝ)) - o.ref + ξ)))
      (hmJ.comp (measurable_const_add (((P.1:ℝ), (P.2:ℝ)) - o.ref))) C fun p => hC _
  simp only [e1]
  obtain ⟨f, hf⟩ : ∃ f, f = o.args.kernel.shot K fl := ⟨_, rfl⟩
  rw [← hf] at hff ⊢
  rw [spread_mean (coordMap o.args.im) hfin hff o.ref hmJ (C := C) fun p => hC _]
  have hdi : J.inv'.det ≠ 0 := by rw [Mat2.det_inv' hJ0]; exact one_div_ne_zero hJ0
  have e8 : (fun p : ℝ × ℝ => o.shown f p * φ p) = fun p => (fun q : ℝ × ℝ => o.wanted / L / |J.det| *
      (spread (coordMap o.args.im) f (o.ref + q) * φ (J.app q))) (J.inv'.app (p - 0)) := by
    funext p
    simp only [sub_zero, Mat2.app_inv' hJ0]
    rw [II.shown, hD, ← hL, ← hJ]
    ring
  rw [e8, Elt.integral_affine J.inv' hdi 0 (fun q : ℝ × ℝ => o.wanted / L / |J.det| *
      (spread (coordMap o.args.im) f (o.ref + q) * φ (J.app q))), integral_const_mul, Mat2.det_inv' hJ0, one_div, inv_inv, smul_eq_mul]
  have : |J.det| ≠ 0 := abs_ne_zero.mpr hJ0
  generalize (∫ q : ℝ × ℝ, spread (coordMap o.args.im) f (o.ref + q) * φ (J.app q)) = G
  generalize |J.det| = D at *
  field_simp

/-- C89: for an image without negative pixels and the linear kernel, the photons are distributed like the brightness: the mean
of a bounded function over the photons, weighted with their fluxes, is its integral against the brightness. -/
theorem C89_law_partial (K : ℕ → ℕ → ℝ) (hk : o.args.kernel = .linear)
    (hpos : ∀ X Y v, coordMap o.args.im X Y = some v → 0 ≤ v) (x : ℝ × ℝ → ℝ) (hx : ∀ p, o.xValue K p = .ok (x p))
    (φ : ℝ × ℝ → ℝ) (hφ : Measurable φ) (C : ℝ) (hC : ∀ p, |φ p| ≤ C) :
    o.photons K (1, 0) (fun p g => g * φ p) = .ok (∫ p : ℝ × ℝ, x p * φ p) := by
  have hx' : ∀ p, o.shown (o.args.kernel.shot K (1, 0)) p = x p := by
    intro p
    have h1 := C87_light_partial K o h (by rw [hk]; trivial) (o.jac.inv'.app p)
    rw [docMap_jac, Mat2.app_inv' (jac_ne h), hx p] at h1
    rw [Except.ok.inj h1, II.shown, hk]
    rfl
  have habs : absLight (coordMap o.args.im) = light (coordMap o.args.im) := by
    unfold absLight
    congr 1
    funext X Y
    cases hv : coordMap o.args.im X Y with
    | none => rfl
    | some v => simp only [Option.map_some]; rw [abs_of_nonneg (hpos X Y v hv)]
  rw [C89_mean h K (1, 0) (by norm_num) (by norm_num) (by rw [hk]; trivial) (by rw [hk]; simp) φ hφ C hC, habs,
    div_self h.light, one_mul]
  simp only [hx']

/-- C89: the expected total flux of the photons. -/
theorem C89_total (K : ℕ → ℕ → ℝ) (fl : ℝ × ℝ) (hfl : fl.1 - fl.2 = 1) (hfl' : 0 ≤ fl.2) (hk : o.args.kernel.HasPhotons K)
    (hn : ∀ n d, o.args.kernel = .lanczos n d → 1 ≤ n) :
    o.photons K fl (fun _ g => g) = .ok (o.wanted * (light (coordMap o.args.im) / absLight (coordMap o.args.im)) *
      (∫ x, o.args.kernel.shot K fl x) ^ 2) := by
  have hcan : o.args.kernel.canShoot = true := by
    revert hk
    cases o.args.kernel <;> simp [Kernel.HasPhotons, Kernel.canShoot]
  have e := photons_sum h K fl hfl hfl' hcan fun _ => 1
  have e1 := C89_kernel K fl _ hk hn (fun _ => 1) measurable_const 1 (fun _ => by norm_num)
  simp only [mul_one] at e e1
  rw [e, e1, Measure.volume_eq_prod, integral_prod_mul (fun x => o.args.kernel.shot K fl x) (fun x => o.args.kernel.shot K fl x)]
  have hfin : FinMap (coordMap o.args.im) := finMap_coordMap _
  rw [light, pixelSum_eq hfin, pixelSum_eq hfin, ← Finset.mul_sum]
  simp only [one_mul]
  congr 1
  ring

/-- C89: with the kernel `Delta` the photons lie on the positions of the pixels. -/
theorem C89_delta (K : ℕ → ℕ → ℝ) (v : ℝ) (hk : o.args.kernel = .delta v) (φ : ℝ × ℝ → ℝ) :
    o.photons K (1, 0) (fun p g => g * φ p) = .ok (o.wanted / absLight (coordMap o.args.im) *
      pixelSum (coordMap o.args.im) fun P => φ ((WCS.loc o.wcs).docMap (((P.1:ℝ), (P.2:ℝ)) - o.ref))) := by
  rw [photons_sum h K (1, 0) (by norm_num) (by norm_num) (by rw [hk]; rfl) φ, hk]
  simp only [Kernel.photons, one_mul, docMap_jac]
  congr 3
  funext P
  congr 2
  ext <;> simp

/-- C89: with the kernel `Sinc` shooting is an error. -/
theorem C89_sinc (K : ℕ → ℕ → ℝ) (fl : ℝ × ℝ) (v : ℝ) (hk : o.args.kernel = .sinc v) (φ : ℝ × ℝ → ℝ → ℝ) :
    ∃ e, o.photons K fl φ = .error e := by
  obtain ⟨s, s1, -⟩ := padImage_ok h
  obtain ⟨d, d1, -⟩ := offset_ok h
  refine ⟨.notImplemented, ?_⟩
  rw [II.photons, s1, d1, fluxRatio_ok h]
  simp [Except.bind, hk, Kernel.canShoot]

/-- C89: the positive flux minus the negative flux is the flux; their sum is the total of the absolute values of the pixels in
the same units, enlarged by the lobes of the kernel. -/
theorem C89_fluxes (fl : ℝ × ℝ) (hfl : fl.1 - fl.2 = 1) : ∃ P N, o.posNeg fl = .ok (P, N) ∧ o.flux = .ok (P - N) ∧
    P + N = o.wanted / light (coordMap o.args.im) * ((fl.1 + fl.2) ^ 2 * absLight (coordMap o.args.im)) := by
  obtain ⟨s, s1, -⟩ := padImage_ok h
  obtain ⟨s2, s3, s4, s5, s6⟩ := pad_sums h s s1
  have hpn := posNeg_sub fl s.arr
  rw [s5, s6, hfl, one_pow, one_mul] at hpn
  have hA : |o.jac.det| ≠ 0 := abs_ne_zero.mpr (jac_ne h)
  have hD : o.wcs.docArea = |o.jac.det| := by rw [docArea_eq]; rfl
  have hl := h.light
  refine ⟨_, _, by rw [II.posNeg, s1, fluxRatio_ok h]; rfl, ?_, ?_⟩
  · rw [C87_flux o h, ← mul_sub, hpn.1, hD]
    congr 1
    field_simp
  · rw [← mul_add, hpn.2, hD]
    field_simp

end

end JG.Interp
