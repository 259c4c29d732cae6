import Verif.Model.InterpWorldK
import Verif.Props.InterpWorld
import Verif.Props.Fft
import Verif.Props.ProfileTree

/-!
Property C88: the Fourier values of an `InterpolatedImage` are the Fourier transform of its brightness.
-/

open MeasureTheory

namespace JG.Interp

open JG.Fft

/-! ### Specification -/

/-- The sum of `e^{-i w·(p - c)}` over the light. -/
noncomputable def pixelWave (m : CMap) (c w : ℝ × ℝ) : ℂ :=
  ⟨pixelSum m fun p => Real.cos (w.1 * (p.1 - c.1) + w.2 * (p.2 - c.2)),
    -pixelSum m fun p => Real.sin (w.1 * (p.1 - c.1) + w.2 * (p.2 - c.2))⟩

/-- The Fourier transform of a brightness at the wave vector `k`. -/
noncomputable def brightFT (x : ℝ × ℝ → ℝ) (k : ℝ × ℝ) : ℂ :=
  ∫ p : ℝ × ℝ, ((x p : ℝ) : ℂ) * Complex.exp (-Complex.I * ((k.1 * p.1 + k.2 * p.2 : ℝ) : ℂ))

/-! ### Helpers -/

theorem wave_split (t : ℝ) : Complex.exp (-Complex.I * (t : ℂ)) = ⟨Real.cos t, -Real.sin t⟩ := by
  rw [show -Complex.I * (t : ℂ) = ((-t : ℝ) : ℂ) * Complex.I by push_cast; ring]
  apply Complex.ext
  · rw [Complex.exp_ofReal_mul_I_re, Real.cos_neg]
  · rw [Complex.exp_ofReal_mul_I_im, Real.sin_neg]

theorem pixelWave_eq {m : CMap} (hm : FinMap m) (c w : ℝ × ℝ) : pixelWave m c w =
    ∑ p ∈ hm.toFinset, (((m p.1 p.2).getD 0 : ℝ) : ℂ) *
      Complex.exp (-Complex.I * ((w.1 * (p.1 - c.1) + w.2 * (p.2 - c.2) : ℝ) : ℂ)) := by
  apply Complex.ext
  · rw [pixelWave, Complex.re_sum]
    simp only [pixelSum_eq hm, Complex.re_ofReal_mul, wave_split]
    exact Finset.sum_congr rfl fun p _ => mul_comm _ _
  · rw [pixelWave, Complex.im_sum]
    simp only [pixelSum_eq hm, Complex.im_ofReal_mul, wave_split, ← Finset.sum_neg_distrib]
    exact Finset.sum_congr rfl fun p _ => by ring

theorem pixelWave_rect (im : Image) (c w : ℝ × ℝ) : pixelWave (coordMap im) c w =
    ∑ y ∈ Finset.Ico im.bounds.ymin (im.bounds.ymin + im.bounds.deltay),
      ∑ x ∈ Finset.Ico im.bounds.xmin (im.bounds.xmin + im.bounds.deltax), (((coordMap im x y).getD 0 : ℝ) : ℂ) *
        Complex.exp (-Complex.I * ((w.1 * (x - c.1) + w.2 * (y - c.2) : ℝ) : ℂ)) := by
  rw [pixelWave_eq (finMap_coordMap im), Finset.sum_comm, ← Finset.sum_product']
  refine Finset.sum_subset ?_ ?_
  · rintro ⟨x, y⟩ h
    rw [Set.Finite.mem_toFinset] at h
    simp only [Set.mem_ofPred_eq, coordMap] at h
    by_cases hr : im.bounds.defined = true ∧ inRect im.bounds x y
    · simpa [inRect] using hr.2
    · exact absurd (if_neg hr) h
  · rintro ⟨x, y⟩ _ h
    rw [Set.Finite.mem_toFinset] at h
    simp only [Set.mem_ofPred_eq, ne_eq, not_not] at h
    simp only [h, Option.getD_none, Complex.ofReal_zero, zero_mul]

theorem line_fourier {f : ℝ → ℝ} {F : ℝ → ℂ}
    (hf : ∀ w : ℝ, ∫ x : ℝ, ((f x : ℝ) : ℂ) * Complex.exp (-Complex.I * ((w * x : ℝ) : ℂ)) = F w) (a w : ℝ) :
    ∫ x : ℝ, ((f (a + x) : ℝ) : ℂ) * Complex.exp (-Complex.I * ((w * x : ℝ) : ℂ)) =
      Complex.exp (-Complex.I * ((w * -a : ℝ) : ℂ)) * F w := by
  rw [← hf w, ← integral_const_mul, ← integral_add_left_eq_self
    (fun x : ℝ => Complex.exp (-Complex.I * ((w * -a : ℝ) : ℂ)) * (((f x : ℝ) : ℂ) * Complex.exp (-Complex.I * ((w * x : ℝ) : ℂ)))) a]
  refine integral_congr_ae (Filter.Eventually.of_forall fun x => ?_)
  simp only
  rw [show -Complex.I * ((w * x : ℝ) : ℂ) = -Complex.I * ((w * -a : ℝ) : ℂ) + -Complex.I * ((w * (a + x) : ℝ) : ℂ) by
    push_cast; ring, Complex.exp_add]
  ring

theorem line_integrable {f : ℝ → ℝ}
    (hf : ∀ w : ℝ, Integrable fun x : ℝ => ((f x : ℝ) : ℂ) * Complex.exp (-Complex.I * ((w * x : ℝ) : ℂ))) (a w : ℝ) :
    Integrable fun x : ℝ => ((f (a + x) : ℝ) : ℂ) * Complex.exp (-Complex.I * ((w * x : ℝ) : ℂ)) := by
  have h := ((hf w).const_mul (Complex.exp (-Complex.I * ((w * -a : ℝ) : ℂ)))).comp_add_left a
  refine h.congr (Filter.Eventually.of_forall fun x => ?_)
  simp only
  rw [show -Complex.I * ((w * x : ℝ) : ℂ) = -Complex.I * ((w * -a : ℝ) : ℂ) + -Complex.I * ((w * (a + x) : ℝ) : ℂ) by
    push_cast; ring, Complex.exp_add]
  ring

theorem spread_fourier (m : CMap) (hm : FinMap m) {f : ℝ → ℝ} {F : ℝ → ℂ}
    (hf : ∀ w : ℝ, Integrable (fun x : ℝ => ((f x : ℝ) : ℂ) * Complex.exp (-Complex.I * ((w * x : ℝ) : ℂ))) ∧
      ∫ x : ℝ, ((f x : ℝ) : ℂ) * Complex.exp (-Complex.I * ((w * x : ℝ) : ℂ)) = F w) (c w : ℝ × ℝ) :
    ∫ q : ℝ × ℝ, ((spread m f (c + q) : ℝ) : ℂ) * Complex.exp (-Complex.I * ((w.1 * q.1 + w.2 * q.2 : ℝ) : ℂ)) =
      F w.1 * F w.2 * pixelWave m c w := by
  have e : (fun q : ℝ × ℝ => ((spread m f (c + q) : ℝ) : ℂ) * Complex.exp (-Complex.I * ((w.1 * q.1 + w.2 * q.2 : ℝ) : ℂ))) =
      fun q => ∑ p ∈ hm.toFinset, (((m p.1 p.2).getD 0 : ℝ) : ℂ) *
        ((((f (c.1 - p.1 + q.1) : ℝ) : ℂ) * Complex.exp (-Complex.I * ((w.1 * q.1 : ℝ) : ℂ))) *
          (((f (c.2 - p.2 + q.2) : ℝ) : ℂ) * Complex.exp (-Complex.I * ((w.2 * q.2 : ℝ) : ℂ)))) := by
    funext q
    rw [spread, pixelSum_eq hm, Complex.ofReal_sum, Finset.sum_mul]
    refine Finset.sum_congr rfl fun p _ => ?_
    simp only [Prod.fst_add, Prod.snd_add]
    rw [show c.1 + q.1 - (p.1:ℝ) = c.1 - p.1 + q.1 by ring, show c.2 + q.2 - (p.2:ℝ) = c.2 - p.2 + q.2 by ring,
      show -Complex.I * ((w.1 * q.1 + w.2 * q.2 : ℝ) : ℂ) = -Complex.I * ((w.1 * q.1 : ℝ) : ℂ) + -Complex.I * ((w.2 * q.2 : ℝ) : ℂ) by
        push_cast; ring, Complex.exp_add]
    push_cast
    ring
  have l := fun a v => line_fourier (fun w => (hf w).2) a v
  have li := fun a v => line_integrable (fun w => (hf w).1) a v
  have hi : ∀ p : ℤ × ℤ, Integrable fun q : ℝ × ℝ =>
      (((f (c.1 - p.1 + q.1) : ℝ) : ℂ) * Complex.exp (-Complex.I * ((w.1 * q.1 : ℝ) : ℂ))) *
          (((f (c.2 - p.2 + q.2) : ℝ) : ℂ) * Complex.exp (-Complex.I * ((w.2 * q.2 : ℝ) : ℂ))) := fun p =>
    (li (c.1 - p.1) w.1).mul_prod (li (c.2 - p.2) w.2)
  have hv : ∀ p : ℤ × ℤ, ∫ q : ℝ × ℝ,
      (((f (c.1 - p.1 + q.1) : ℝ) : ℂ) * Complex.exp (-Complex.I * ((w.1 * q.1 : ℝ) : ℂ))) *
          (((f (c.2 - p.2 + q.2) : ℝ) : ℂ) * Complex.exp (-Complex.I * ((w.2 * q.2 : ℝ) : ℂ))) =
      (Complex.exp (-Complex.I * ((w.1 * -(c.1 - p.1) : ℝ) : ℂ)) * F w.1) *
        (Complex.exp (-Complex.I * ((w.2 * -(c.2 - p.2) : ℝ) : ℂ)) * F w.2) := by
    intro p
    rw [← l (c.1 - p.1) w.1, ← l (c.2 - p.2) w.2]
    exact integral_prod_mul (fun x : ℝ => ((f (c.1 - p.1 + x) : ℝ) : ℂ) * Complex.exp (-Complex.I * ((w.1 * x : ℝ) : ℂ)))
      (fun x : ℝ => ((f (c.2 - p.2 + x) : ℝ) : ℂ) * Complex.exp (-Complex.I * ((w.2 * x : ℝ) : ℂ)))
  rw [e, integral_finsetSum _ fun p _ => (hi p).const_mul _, pixelWave_eq hm, Finset.mul_sum]
  refine Finset.sum_congr rfl fun p _ => ?_
  rw [integral_const_mul, hv p, show -Complex.I * ((w.1 * (p.1 - c.1) + w.2 * (p.2 - c.2) : ℝ) : ℂ) =
    -Complex.I * ((w.1 * -(c.1 - p.1) : ℝ) : ℂ) + -Complex.I * ((w.2 * -(c.2 - p.2) : ℝ) : ℂ) by push_cast; ring, Complex.exp_add]
  ring

/-- The transform of the brightness, for the polynomial kernels. -/
theorem transform_val (K : ℕ → ℕ → ℝ) (o : II) (h : o.Good) (hk : o.args.kernel.Poly) (x : ℝ × ℝ → ℝ)
    (hx : ∀ p, o.xValue K p = .ok (x p)) (k : ℝ × ℝ) :
    brightFT x k = ((o.wanted / light (coordMap o.args.im) * (kvalOf o.args.kernel.polyUval (fwdT o.jac k).1 *
      kvalOf o.args.kernel.polyUval (fwdT o.jac k).2) : ℝ) : ℂ) * pixelWave (coordMap o.args.im) o.ref (fwdT o.jac k) := by
  obtain ⟨m, hm⟩ : ∃ m, m = coordMap o.args.im := ⟨_, rfl⟩
  have hfin : FinMap m := by rw [hm]; exact finMap_coordMap _
  have hJ := jac_ne h
  have hA : |o.jac.det| ≠ 0 := abs_ne_zero.mpr hJ
  have hx' : ∀ p, x p = o.wanted / light m / |o.jac.det| * spread m (o.args.kernel.xval K) (o.ref + o.jac.inv'.app p) := by
    intro p
    have h1 := C87_light_partial K o h hk.local (o.jac.inv'.app p)
    rw [docMap_jac, Mat2.app_inv' hJ, hx p, docArea_eq] at h1
    rw [Except.ok.inj h1, hm]
    rfl
  have hdi : o.jac.inv'.det ≠ 0 := by rw [Mat2.det_inv' hJ]; exact one_div_ne_zero hJ
  have e : (fun p : ℝ × ℝ => ((x p : ℝ) : ℂ) * Complex.exp (-Complex.I * ((k.1 * p.1 + k.2 * p.2 : ℝ) : ℂ))) = fun p =>
      (fun q : ℝ × ℝ => ((o.wanted / light m / |o.jac.det| : ℝ) : ℂ) * (((spread m (o.args.kernel.xval K) (o.ref + q) : ℝ) : ℂ) *
        Complex.exp (-Complex.I * (((fwdT o.jac k).1 * q.1 + (fwdT o.jac k).2 * q.2 : ℝ) : ℂ)))) (o.jac.inv'.app (p - 0)) := by
    funext p
    obtain ⟨q, hq⟩ : ∃ q, q = o.jac.inv'.app p := ⟨_, rfl⟩
    have hp : p = o.jac.app q := by rw [hq, Mat2.app_inv' hJ]
    rw [hx' p]
    simp only [sub_zero, ← hq]
    rw [show k.1 * p.1 + k.2 * p.2 = (fwdT o.jac k).1 * q.1 + (fwdT o.jac k).2 * q.2 by
      rw [hp]; simp only [Mat2.app, fwdT]; ring]
    push_cast
    ring
  rw [brightFT, e, Elt.integral_affine o.jac.inv' hdi 0 (fun q : ℝ × ℝ => ((o.wanted / light m / |o.jac.det| : ℝ) : ℂ) *
    (((spread m (o.args.kernel.xval K) (o.ref + q) : ℝ) : ℂ) *
        Complex.exp (-Complex.I * (((fwdT o.jac k).1 * q.1 + (fwdT o.jac k).2 * q.2 : ℝ) : ℂ)))), integral_const_mul,
    spread_fourier m hfin (fun w => kernel_fourier K hk w), Mat2.det_inv' hJ, one_div, inv_inv, ← hm, Complex.real_smul]
  have hAc : ((|o.jac.det| : ℝ) : ℂ) ≠ 0 := by exact_mod_cast hA
  generalize |o.jac.det| = A at *
  push_cast
  field_simp

theorem setSub_isInt (im : Image) (b : Bounds ℤ) (rhs : Image) : (im.step (.setSubImage b rhs)).1.isInt = im.isInt := by
  simp only [Image.step, Image.guarded, Image.setSub]
  repeat' split
  all_goals rfl

theorem xim_isInt {pf : ℝ} {im r : Image} (h : Interp.xim pf im = .ok r) : r.isInt = false := by
  unfold Interp.xim at h
  cases h1 : padSize pf im.arr.h im.arr.w with
  | none => rw [h1] at h; cases h
  | some P =>
    rw [h1] at h
    simp only at h
    cases h2 : zeroPad im.arr ((P - max (im.arr.h:ℤ) im.arr.w) / 2) with
    | none => rw [h2] at h; cases h
    | some a =>
      rw [h2] at h
      simp only at h
      cases h3 : Image.make (.array a 1 1 true) false false with
      | error e => rw [h3] at h; cases h
      | ok x =>
        rw [h3] at h
        simp only at h
        have hx : x.isInt = false := by
          simp only [Image.make] at h3
          split_ifs at h3 <;> (rw [← Except.ok.inj h3])
        have hc : (x.step (.setCenter ⟨0, 0⟩ true)).1.isInt = false := by
          simp only [Image.step, Image.shiftBy]
          split <;> simpa using hx
        have hs := setSub_isInt (x.step (.setCenter ⟨0, 0⟩ true)).1 im.bounds im
        split at h
        · rename_i heq
          rw [heq] at hs
          rw [← Except.ok.inj h, hs, hc]
        · cases h

theorem kValue_eq (K : ℕ → ℕ → ℝ) (U : ℝ → ℝ) (ur : ℝ) (o : II) (h : o.Good) (k : ℝ × ℝ) (v : ℂ)
    (hv : o.innerKValue K U ur (fwdT o.jac k) = .ok v) :
    o.kValue K U ur k = .ok (((o.wanted / light (coordMap o.args.im) : ℝ) : ℂ) * v) := by
  have hA : |o.jac.det| ≠ 0 := abs_ne_zero.mpr (jac_ne h)
  rw [II.kValue, hv, fluxRatio_ok h, docArea_eq]
  simp only [Except.bind, Except.map]
  congr 1
  rw [show (k.1:ℂ) * (-Complex.I * ((0:ℝ):ℂ)) + k.2 * (-Complex.I * ((0:ℝ):ℂ)) = 0 by push_cast; ring, Complex.exp_zero, mul_one,
    mul_comm]
  congr 2
  show |o.jac.det| * (_ / |o.jac.det|) = _
  field_simp

theorem fftNo2_cover {x : Image} (h : x.Live) : 0 < fftNo2 x.bounds ∧ x.bounds.deltax ≤ 2 * fftNo2 x.bounds ∧
    x.bounds.deltay ≤ 2 * fftNo2 x.bounds := by
  have := h.ok.1.mp h.defd
  unfold fftNo2
  omega

/-- The values inside the range at the modes of the transform. -/
theorem kValue_mode (K : ℕ → ℕ → ℝ) (U : ℝ → ℝ) (ur : ℝ) (o : II) (h : o.Good) (hk : o.args.kKernel.Local)
    (hn : ∀ n d, o.args.kKernel = .lanczos n d → 1 ≤ n) :
    ∃ (m : ℕ) (dk : ℝ), 0 < m ∧ m * dk = Real.pi ∧
      o.args.padFactor * max (o.args.im.bounds.deltax : ℝ) o.args.im.bounds.deltay ≤ 2 * m + 1 ∧
      ∀ (k : ℝ × ℝ) (a b : ℤ), fwdT o.jac k = (b * dk, a * dk) → |b * dk| ≤ 2 * Real.pi * ur → |a * dk| ≤ 2 * Real.pi * ur →
        o.kValue K U ur k = .ok (((o.wanted / light (coordMap o.args.im) * (kvalOf U (b * dk) * kvalOf U (a * dk)) : ℝ) : ℂ) *
          pixelWave (coordMap o.args.im) o.ref (b * dk, a * dk)) := by
  obtain ⟨r, r1, r2, r3, -⟩ := xim_ok h
  have hr := r1
  rw [II.xim, image_eq h] at hr
  simp only [Except.bind] at hr
  have hr' : Interp.xim o.args.padFactor (workImage true o.args.im) = .ok r := by
    cases hq : Interp.xim o.args.padFactor (workImage true o.args.im) with
    | error e => rw [hq] at hr; cases hr
    | ok q => rw [hq] at hr; rw [Except.ok.inj hr]
  obtain ⟨r', q1, -, -, -, -, -, -, q8⟩ := C56_padding_partial o.args.padFactor _ (Good.live h) h.small h.small'
  have e : workImage true { o.args.im with isConst := some false } = workImage true o.args.im := rfl
  rw [e, hr'] at q1
  have := Except.ok.inj q1
  subst this
  obtain ⟨d, d1, d2, d3⟩ := offset_ok h
  obtain ⟨m, z, dk, hm, hno, hz, zh, zw, hdk, -⟩ := C72_forward r r3 (xim_isInt hr') 1 one_pos
  have hm0 : (0:ℝ) < m := by exact_mod_cast hm
  have hdk0 : 0 < dk := by
    by_contra hc
    nlinarith [Real.pi_pos]
  refine ⟨m, dk, hm, by linarith, ?_, ?_⟩
  · have c := fftNo2_cover r3
    have hl := Good.live h
    have e1 := hl.h
    have e2 := hl.w
    simp only at e1 e2
    have q9 : ((max (o.args.im.arr.h : ℤ) o.args.im.arr.w : ℤ) : ℝ) = max (o.args.im.bounds.deltax : ℝ) o.args.im.bounds.deltay := by
      rw [e1, e2, max_comm]; push_cast; rfl
    simp only at q8
    rw [q9] at q8
    have q10 : ((max r.bounds.deltax r.bounds.deltay : ℤ) : ℝ) ≤ 2 * m := by
      rw [← hno] at c
      exact_mod_cast max_le c.2.1 c.2.2
    linarith
  · intro k a b hw hb ha
    obtain ⟨z', dk', hz', hv⟩ := C55_kvalue_on_grid K o.args.kKernel hk hn (kvalOf U) ur r r3 (xim_isInt hr') d.x d.y a b (by
      rw [← hno]
      have hpi : (m:ℝ) * dk = Real.pi := by linarith
      rw [abs_mul, abs_of_pos hdk0, ← hpi] at ha hb
      push_cast
      constructor
      · nlinarith
      · nlinarith)
    rw [hz] at hz'
    obtain ⟨rfl, rfl⟩ := Prod.mk.inj (Except.ok.inj hz')
    have hin : o.innerKValue K U ur (fwdT o.jac k) = .ok ((kvalOf U (b * dk) * kvalOf U (a * dk) : ℝ) *
        pixelWave (coordMap o.args.im) o.ref (b * dk, a * dk)) := by
      rw [II.innerKValue, d1, r1, hw]
      simp only [Except.bind, hz, Except.mapError, Except.map]
      congr 1
      rw [hv]
      congr 1
      have : pixelWave (coordMap o.args.im) o.ref (b * dk, a * dk) = pixelWave (coordMap r) (d.x, d.y) (b * dk, a * dk) := by
        unfold pixelWave
        simp only [padded_sum r2, work_sum h]
        rw [← d2, ← d3]
        congr 2
        · funext p; congr 1; push_cast; ring
        · congr 2
          funext p; congr 1; push_cast; ring
      rw [this, pixelWave_rect]
      refine Finset.sum_congr rfl fun y _ => Finset.sum_congr rfl fun x _ => ?_
      congr 2
      push_cast
      ring
    rw [kValue_eq K U ur o h k _ hin]
    congr 1
    push_cast
    ring

/-! ### C88 -/

/-- C88: for the polynomial kernels the Fourier value at every mode of the transform inside the range of the kernel is the
Fourier transform of the brightness.  Missing for the full claim: the values between the modes are interpolated
(`C88_between` bounds their error) and those
outside the range are zero (`C88_outside`). -/
theorem C88_modes_partial (K : ℕ → ℕ → ℝ) (umax acc : ℝ) (o : II) (h : o.Good) (hx : o.args.kernel.Poly)
    (hk : o.args.kKernel.Local) (hn : ∀ n d, o.args.kKernel = .lanczos n d → 1 ≤ n)
    (x : ℝ × ℝ → ℝ) (hv : ∀ p, o.xValue K p = .ok (x p)) :
    ∃ (m : ℕ) (dk : ℝ), 0 < m ∧ m * dk = Real.pi ∧
      o.args.padFactor * max (o.args.im.bounds.deltax : ℝ) o.args.im.bounds.deltay ≤ 2 * m + 1 ∧
      ∀ (k : ℝ × ℝ) (a b : ℤ), fwdT o.jac k = (b * dk, a * dk) →
        |b * dk| ≤ 2 * Real.pi * o.args.kernel.urange umax acc → |a * dk| ≤ 2 * Real.pi * o.args.kernel.urange umax acc →
        o.kValue K o.args.kernel.polyUval (o.args.kernel.urange umax acc) k = .ok (brightFT x k) := by
  obtain ⟨m, dk, h1, h2, h3, h4⟩ := kValue_mode K o.args.kernel.polyUval (o.args.kernel.urange umax acc) o h hk hn
  refine ⟨m, dk, h1, h2, h3, fun k a b hw hb ha => ?_⟩
  rw [h4 k a b hw hb ha, transform_val K o h hx x hv, hw]

theorem pixelWave_zero (m : CMap) (c : ℝ × ℝ) : pixelWave m c (0, 0) = ((light m : ℝ) : ℂ) := by
  apply Complex.ext
  · simp [pixelWave, light]
  · simp [pixelWave, pixelSum]

/-- C88: the value at the origin is the flux, for every kernel whose transform is 1 there. -/
theorem C88_origin (K : ℕ → ℕ → ℝ) (U : ℝ → ℝ) (hU : U 0 = 1) (ur : ℝ) (hur : 0 ≤ ur) (o : II) (h : o.Good)
    (hk : o.args.kKernel.Local) (hn : ∀ n d, o.args.kKernel = .lanczos n d → 1 ≤ n) :
    o.kValue K U ur (0, 0) = .ok ((o.wanted : ℝ) : ℂ) := by
  obtain ⟨m, dk, h1, h2, -, h4⟩ := kValue_mode K U ur o h hk hn
  have hp : 0 ≤ 2 * Real.pi * ur := by have := Real.pi_pos; positivity
  have hl := h.light
  have := h4 (0, 0) 0 0 (by simp [fwdT]) (by simpa using hp) (by simpa using hp)
  rw [this]
  simp only [Int.cast_zero, zero_mul, pixelWave_zero, kvalOf, zero_div, hU, mul_one]
  congr 1
  rw [← Complex.ofReal_mul]
  congr 1
  field_simp

/-- C88: outside the range the value is zero. -/
theorem C88_outside (K : ℕ → ℕ → ℝ) (U : ℝ → ℝ) (ur : ℝ) (o : II) (h : o.Good) (k : ℝ × ℝ)
    (hk : 2 * Real.pi * ur < |(fwdT o.jac k).1| ∨ 2 * Real.pi * ur < |(fwdT o.jac k).2|) : o.kValue K U ur k = .ok 0 := by
  obtain ⟨r, r1, r2, r3, -⟩ := xim_ok h
  have hr := r1
  rw [II.xim, image_eq h] at hr
  simp only [Except.bind] at hr
  have hr' : Interp.xim o.args.padFactor (workImage true o.args.im) = .ok r := by
    cases hq : Interp.xim o.args.padFactor (workImage true o.args.im) with
    | error e => rw [hq] at hr; cases hr
    | ok q => rw [hq] at hr; rw [Except.ok.inj hr]
  obtain ⟨d, d1, -⟩ := offset_ok h
  obtain ⟨m, z, dk, hm, hno, hz, zh, zw, hdk, -⟩ := C72_forward r r3 (xim_isInt hr') 1 one_pos
  have hm0 : (0:ℝ) < m := by exact_mod_cast hm
  have hdk0 : 0 < dk := by
    by_contra hc
    nlinarith [Real.pi_pos]
  have hin : o.innerKValue K U ur (fwdT o.jac k) = .ok 0 := by
    rw [II.innerKValue, d1, r1]
    simp only [Except.bind, hz, Except.mapError, Except.map]
    congr 1
    unfold kValueArr
    simp only
    rw [if_neg]
    rintro ⟨c1, c2⟩
    have hpi := Real.pi_pos
    have e : ur / (1 / (2 * Real.pi)) / dk = 2 * Real.pi * ur / dk := by field_simp
    rw [e, abs_div, abs_of_pos hdk0, div_le_div_iff_of_pos_right hdk0] at c1 c2
    rcases hk with hk | hk <;> linarith
  rw [kValue_eq K U ur o h k _ hin, mul_zero]

/-! ### What is left out beyond the range -/

theorem sin_pow_cos_cubic (t : ℝ) : |Real.sin t ^ 3 * Real.cos t| ≤ 3 * √3 / 16 := by
  refine abs_le_of_sq_le_sq ?_ (by positivity)
  have h3 : √3 ^ 2 = 3 := Real.sq_sqrt (by norm_num)
  have hc : Real.cos t ^ 2 = 1 - Real.sin t ^ 2 := by linarith [Real.sin_sq_add_cos_sq t]
  have e : (Real.sin t ^ 3 * Real.cos t) ^ 2 = (Real.sin t ^ 2) ^ 3 * (1 - Real.sin t ^ 2) := by rw [← hc]; ring
  have e2 : (3 * √3 / 16) ^ 2 = 27 / 256 := by rw [div_pow, mul_pow, h3]; norm_num
  rw [e, e2]
  have hx : 0 ≤ Real.sin t ^ 2 := sq_nonneg _
  generalize Real.sin t ^ 2 = x at *
  nlinarith [mul_nonneg (sq_nonneg (x - 3 / 4)) (by positivity : 0 ≤ x ^ 2 + x / 2 + 3 / 16)]

theorem sin_pow_cos_quintic (t : ℝ) : |Real.sin t ^ 5 * Real.cos t| ≤ 25 * √5 / 216 := by
  refine abs_le_of_sq_le_sq ?_ (by positivity)
  have h3 : √5 ^ 2 = 5 := Real.sq_sqrt (by norm_num)
  have hc : Real.cos t ^ 2 = 1 - Real.sin t ^ 2 := by linarith [Real.sin_sq_add_cos_sq t]
  have e : (Real.sin t ^ 5 * Real.cos t) ^ 2 = (Real.sin t ^ 2) ^ 5 * (1 - Real.sin t ^ 2) := by rw [← hc]; ring
  have e2 : (25 * √5 / 216) ^ 2 = 3125 / 46656 := by rw [div_pow, mul_pow, h3]; norm_num
  rw [e, e2]
  have hx : 0 ≤ Real.sin t ^ 2 := sq_nonneg _
  generalize Real.sin t ^ 2 = x at *
  have key : 3125 / 46656 - x ^ 5 * (1 - x) = (x - 5 / 6) ^ 2 * (x ^ 4 + 2 / 3 * x ^ 3 + 5 / 12 * x ^ 2 + 25 / 108 * x + 125 / 1296) := by ring
  have : 0 ≤ (x - 5 / 6) ^ 2 * (x ^ 4 + 2 / 3 * x ^ 3 + 5 / 12 * x ^ 2 + 25 / 108 * x + 125 / 1296) := by positivity
  linarith

theorem sinc_half {w : ℝ} (hw : w ≠ 0) : sinc |w / 2 / Real.pi| = Real.sin (|w| / 2) / (|w| / 2) ∧
    Real.pi * |w / 2 / Real.pi| = |w| / 2 := by
  have hpi := Real.pi_pos
  have e : Real.pi * |w / 2 / Real.pi| = |w| / 2 := by
    rw [abs_div, abs_div, abs_of_pos hpi, abs_of_pos (two_pos : (0:ℝ) < 2)]; field_simp
  refine ⟨?_, e⟩
  rw [sinc, if_neg (abs_ne_zero.mpr (by positivity)), e]

theorem cube_root {A t acc : ℝ} (hA : 0 < A) (ha : 0 < acc) (h : (A / acc) ^ ((1:ℝ) / 3) < t) : 0 < t ∧ A / t ^ 3 < acc := by
  have h0 : 0 < (A / acc) ^ ((1:ℝ) / 3) := Real.rpow_pos_of_pos (by positivity) _
  have ht : 0 < t := h0.trans h
  refine ⟨ht, ?_⟩
  have h3 : A / acc < t ^ 3 := by
    have := pow_lt_pow_left₀ h h0.le (three_ne_zero)
    rwa [← Real.rpow_natCast, ← Real.rpow_mul (by positivity), show (1:ℝ) / 3 * ((3:ℕ):ℝ) = 1 by norm_num, Real.rpow_one] at this
  rw [div_lt_iff₀ (by positivity)]
  rw [div_lt_iff₀ ha] at h3
  linarith

/-- C88: beyond the range of the linear kernel its transform is below `kvalue_accuracy`. -/
theorem C88_tail_linear (umax acc : ℝ) (ha : 0 < acc) (w : ℝ) (hw : 2 * Real.pi * Kernel.linear.urange umax acc < |w|) :
    |kvalOf linearUval w| ≤ acc := by
  have hpi := Real.pi_pos
  have hs : 0 < √acc := Real.sqrt_pos.mpr ha
  simp only [Kernel.urange] at hw
  have h1 : 1 / √acc < |w| / 2 := by
    have : 2 * Real.pi * (1 / √acc / Real.pi) = 2 * (1 / √acc) := by field_simp
    linarith
  have h0 : 0 < 1 / √acc := by positivity
  have ht : 0 < |w| / 2 := h0.trans h1
  have hw0 : w ≠ 0 := by rintro rfl; simp at ht
  have e : kvalOf linearUval w = (Real.sin (|w| / 2) / (|w| / 2)) ^ 2 := by
    have : linearUval (w / 2 / Real.pi) = linearUval |w / 2 / Real.pi| := by
      unfold linearUval sinc
      rcases abs_choice (w / 2 / Real.pi) with h | h <;> rw [h]
      simp only [neg_eq_zero, mul_neg, Real.sin_neg, neg_div_neg_eq]
    rw [kvalOf, this, linearUval, (sinc_half hw0).1]; ring
  rw [e, abs_of_nonneg (sq_nonneg _), div_pow, div_le_iff₀ (by positivity)]
  have h2 : 1 ≤ acc * (|w| / 2) ^ 2 := by
    have h3 : 1 < √acc * (|w| / 2) := by
      rw [div_lt_iff₀ hs] at h1; linarith
    have h4 : √acc ^ 2 = acc := Real.sq_sqrt ha.le
    calc (1:ℝ) ≤ (√acc * (|w| / 2)) ^ 2 := one_le_pow₀ h3.le
      _ = acc * (|w| / 2) ^ 2 := by rw [mul_pow, h4]
  exact (Real.sin_sq_le_one _).trans h2

/-- C88: beyond the range of the cubic kernel its transform is below `kvalue_accuracy` up to a factor that tends to 1. -/
theorem C88_tail_cubic_partial (umax acc : ℝ) (ha : 0 < acc) (w : ℝ) (hw : 2 * Real.pi * Kernel.cubic.urange umax acc < |w|) :
    |kvalOf cubicUval w| ≤ acc * (1 + 16 / (√3 * |w|)) := by
  have hpi := Real.pi_pos
  simp only [Kernel.urange] at hw
  obtain ⟨ht, hA⟩ := cube_root (t := |w| / 2) (A := 3 * √3 / 8) (by positivity) ha (by
    have : 2 * Real.pi * ((3 * √3 / 8 / acc) ^ ((1:ℝ) / 3) / Real.pi) = 2 * (3 * √3 / 8 / acc) ^ ((1:ℝ) / 3) := by field_simp
    linarith)
  have hw0 : w ≠ 0 := by rintro rfl; simp at ht
  obtain ⟨s1, s2⟩ := sinc_half hw0
  have e : kvalOf cubicUval w = (3 * Real.sin (|w| / 2) ^ 4 / (|w| / 2) - 2 * (Real.sin (|w| / 2) ^ 3 * Real.cos (|w| / 2))) / (|w| / 2) ^ 3 := by
    rw [kvalOf, cubicUval]
    simp only [s1, s2]
    field_simp
  have hw2 : |w| = 2 * (|w| / 2) := by ring
  rw [e, hw2]
  have hS := sin_pow_cos_cubic (|w| / 2)
  have h1 : |Real.sin (|w| / 2)| ≤ 1 := Real.abs_sin_le_one _
  rw [show 2 * (|w| / 2) / 2 = |w| / 2 by ring]
  generalize |w| / 2 = t at *
  have h4 : 0 ≤ Real.sin t ^ 4 ∧ Real.sin t ^ 4 ≤ 1 := by
    have : Real.sin t ^ 4 = |Real.sin t| ^ 4 := by rw [← abs_pow, abs_of_nonneg (by positivity)]
    exact ⟨by positivity, by rw [this]; exact pow_le_one₀ (abs_nonneg _) h1⟩
  have hb : |3 * Real.sin t ^ 4 / t - 2 * (Real.sin t ^ 3 * Real.cos t)| ≤ 3 * √3 / 8 + 3 / t := by
    refine (abs_sub _ _).trans ?_
    rw [abs_of_nonneg (by positivity), abs_mul, abs_two]
    have : 3 * Real.sin t ^ 4 / t ≤ 3 / t := div_le_div_of_nonneg_right (by linarith) ht.le
    linarith
  have h3 : (0:ℝ) < √3 := by positivity
  rw [abs_div, abs_of_pos (by positivity : 0 < t ^ 3)]
  calc _ ≤ (3 * √3 / 8 + 3 / t) / t ^ 3 := div_le_div_of_nonneg_right hb (by positivity)
    _ = 3 * √3 / 8 / t ^ 3 * (1 + 8 / (√3 * t)) := by field_simp
    _ ≤ acc * (1 + 8 / (√3 * t)) := mul_le_mul_of_nonneg_right hA.le (by positivity)
    _ = acc * (1 + 16 / (√3 * (2 * t))) := by congr 2; field_simp; norm_num

/-- C88: the same for the quintic kernel. -/
theorem C88_tail_quintic_partial (umax acc : ℝ) (ha : 0 < acc) (w : ℝ) (hw : 2 * Real.pi * Kernel.quintic.urange umax acc < |w|) :
    |kvalOf quinticUval w| ≤ acc * (1 + 108 / (25 * √5) * (38 / |w| + 216 / |w| ^ 2 + 440 / |w| ^ 3)) := by
  have hpi := Real.pi_pos
  simp only [Kernel.urange] at hw
  obtain ⟨ht, hA⟩ := cube_root (t := |w| / 2) (A := 25 * √5 / 108) (by positivity) ha (by
    have : 2 * Real.pi * ((25 * √5 / 108 / acc) ^ ((1:ℝ) / 3) / Real.pi) = 2 * (25 * √5 / 108 / acc) ^ ((1:ℝ) / 3) := by field_simp
    linarith)
  have hw0 : w ≠ 0 := by rintro rfl; simp at ht
  obtain ⟨s1, s2⟩ := sinc_half hw0
  have e : kvalOf quinticUval w = (2 * (Real.sin (|w| / 2) ^ 5 * Real.cos (|w| / 2)) - 19 * Real.sin (|w| / 2) ^ 6 / (|w| / 2) -
      54 * (Real.sin (|w| / 2) ^ 5 * Real.cos (|w| / 2)) / (|w| / 2) ^ 2 + 55 * Real.sin (|w| / 2) ^ 6 / (|w| / 2) ^ 3) / (|w| / 2) ^ 3 := by
    rw [kvalOf, quinticUval]
    simp only [s1, s2]
    field_simp
    ring
  have hw2 : |w| = 2 * (|w| / 2) := by ring
  rw [e, hw2]
  have hS := sin_pow_cos_quintic (|w| / 2)
  have h1 : |Real.sin (|w| / 2)| ≤ 1 := Real.abs_sin_le_one _
  have hc1 : |Real.cos (|w| / 2)| ≤ 1 := Real.abs_cos_le_one _
  rw [show 2 * (|w| / 2) / 2 = |w| / 2 by ring]
  generalize |w| / 2 = t at *
  have h6 : 0 ≤ Real.sin t ^ 6 ∧ Real.sin t ^ 6 ≤ 1 := by
    have : Real.sin t ^ 6 = |Real.sin t| ^ 6 := by rw [← abs_pow, abs_of_nonneg (by positivity)]
    exact ⟨by positivity, by rw [this]; exact pow_le_one₀ (abs_nonneg _) h1⟩
  have hS1 : |Real.sin t ^ 5 * Real.cos t| ≤ 1 := by
    rw [abs_mul, abs_pow]
    exact mul_le_one₀ (pow_le_one₀ (abs_nonneg _) h1) (abs_nonneg _) hc1
  generalize Real.sin t ^ 5 * Real.cos t = q at *
  generalize Real.sin t ^ 6 = p at *
  have hb : |2 * q - 19 * p / t - 54 * q / t ^ 2 + 55 * p / t ^ 3| ≤ 25 * √5 / 108 + (19 / t + 54 / t ^ 2 + 55 / t ^ 3) := by
    have b1 : |2 * q| ≤ 25 * √5 / 108 := by rw [abs_mul, abs_two]; linarith
    have b2 : |19 * p / t| ≤ 19 / t := by
      rw [abs_of_nonneg (div_nonneg (by linarith [h6.1]) ht.le)]
      exact div_le_div_of_nonneg_right (by linarith [h6.2]) ht.le
    have b3 : |54 * q / t ^ 2| ≤ 54 / t ^ 2 := by
      rw [abs_div, abs_of_pos (by positivity : 0 < t ^ 2), abs_mul, abs_of_pos (by norm_num : (0:ℝ) < 54)]
      exact div_le_div_of_nonneg_right (by linarith) (by positivity)
    have b4 : |55 * p / t ^ 3| ≤ 55 / t ^ 3 := by
      rw [abs_of_nonneg (div_nonneg (by linarith [h6.1]) (by positivity))]
      exact div_le_div_of_nonneg_right (by linarith [h6.2]) (by positivity)
    have c1 := abs_add_le (2 * q - 19 * p / t - 54 * q / t ^ 2) (55 * p / t ^ 3)
    have c2 := abs_sub (2 * q - 19 * p / t) (54 * q / t ^ 2)
    have c3 := abs_sub (2 * q) (19 * p / t)
    linarith
  have h5 : (0:ℝ) < √5 := by positivity
  rw [abs_div, abs_of_pos (by positivity : 0 < t ^ 3)]
  calc _ ≤ (25 * √5 / 108 + (19 / t + 54 / t ^ 2 + 55 / t ^ 3)) / t ^ 3 := div_le_div_of_nonneg_right hb (by positivity)
    _ = 25 * √5 / 108 / t ^ 3 * (1 + 108 / (25 * √5) * (19 / t + 54 / t ^ 2 + 55 / t ^ 3)) := by field_simp
    _ ≤ acc * (1 + 108 / (25 * √5) * (19 / t + 54 / t ^ 2 + 55 / t ^ 3)) := mul_le_mul_of_nonneg_right hA.le (by positivity)
    _ = _ := by congr 3; field_simp; ring

/-- Disagreement: `Quintic.urange` (interpolant.py:635-644) keeps only the leading term of the transform for large arguments,
so with the default `kvalue_accuracy` of 1e-5 there is a wave number beyond the range, where `kValue` is set to zero, at
which the transform is larger than `kvalue_accuracy`. -/
theorem C88_counterexample_tail (umax : ℝ) : ∃ w : ℝ, 2 * Real.pi * Kernel.quintic.urange umax 0.00001 < |w| ∧
    (0.00001 : ℝ) < |kvalOf quinticUval w| := by
  obtain ⟨t, ht⟩ : ∃ t, t = 38 * Real.pi / 3 := ⟨_, rfl⟩
  have p1 := Real.pi_gt_d2
  have p2 := Real.pi_lt_d4
  have t1 : (39.77 : ℝ) < t := by rw [ht]; linarith
  have t2 : t < 39.794 := by rw [ht]; linarith
  have ht0 : 0 < t := by linarith
  have habs : |2 * t| = 2 * t := abs_of_pos (by linarith)
  have b2 : (1581 : ℝ) < t ^ 2 := by nlinarith
  have b3 : (62901 : ℝ) < t ^ 3 := by
    calc (62901 : ℝ) < 39.77 ^ 3 := by norm_num
      _ < t ^ 3 := pow_lt_pow_left₀ t1 (by norm_num) three_ne_zero
  have b6 : t ^ 6 < 3971500000 := by
    calc t ^ 6 < 39.794 ^ 6 := pow_lt_pow_left₀ t2 ht0.le (by norm_num)
      _ < 3971500000 := by norm_num
  refine ⟨2 * t, ?_, ?_⟩
  · rw [habs]
    simp only [Kernel.urange]
    have h5 : √5 < 2.237 := by rw [Real.sqrt_lt' (by norm_num)]; norm_num
    have h : (25 * √5 / 108 / (0.00001 : ℝ)) ^ ((1:ℝ) / 3) < t := by
      have hx : 25 * √5 / 108 / (0.00001 : ℝ) < t ^ 3 := by
        refine lt_trans ?_ b3
        norm_num
        linarith
      calc _ < (t ^ 3) ^ ((1:ℝ) / 3) := Real.rpow_lt_rpow (by positivity) hx (by norm_num)
        _ = t := by
          rw [← Real.rpow_natCast, ← Real.rpow_mul ht0.le, show (((3:ℕ):ℝ)) * (1 / 3) = 1 by norm_num, Real.rpow_one]
    have : 2 * Real.pi * ((25 * √5 / 108 / (0.00001 : ℝ)) ^ ((1:ℝ) / 3) / Real.pi) = 2 * (25 * √5 / 108 / (0.00001 : ℝ)) ^ ((1:ℝ) / 3) := by
      have := Real.pi_ne_zero
      field_simp
    rw [this]
    linarith
  · obtain ⟨s1, s2⟩ := sinc_half (w := 2 * t) (by positivity)
    rw [habs, show 2 * t / 2 = t by ring] at s1 s2
    have hsin : Real.sin t = √3 / 2 := by
      rw [ht, show 38 * Real.pi / 3 = Real.pi - Real.pi / 3 + (6:ℕ) * (2 * Real.pi) by push_cast; ring, Real.sin_add_nat_mul_two_pi,
        Real.sin_pi_sub, Real.sin_pi_div_three]
    have hcos : Real.cos t = -(1 / 2) := by
      rw [ht, show 38 * Real.pi / 3 = Real.pi - Real.pi / 3 + (6:ℕ) * (2 * Real.pi) by push_cast; ring, Real.cos_add_nat_mul_two_pi,
        Real.cos_pi_sub, Real.cos_pi_div_three]
    have h3 : √3 ^ 2 = 3 := Real.sq_sqrt (by norm_num)
    have e : kvalOf quinticUval (2 * t) = -(9 * √3 / 32 * t ^ 3 + 513 / 64 * t ^ 2 - 243 * √3 / 32 * t - 1485 / 64) / t ^ 6 := by
      rw [kvalOf, quinticUval]
      simp only [show 2 * t / 2 / Real.pi = t / Real.pi by ring] at s1 s2 ⊢
      simp only [s1, s2, hsin, hcos]
      field_simp
      have h4 : √3 ^ 4 = 9 := by rw [show √3 ^ 4 = (√3 ^ 2) ^ 2 by ring, h3]; norm_num
      ring_nf
      have h5 : √3 ^ 5 = 9 * √3 := by rw [show √3 ^ 5 = (√3 ^ 2) ^ 2 * √3 by ring, h3]; ring
      have h6 : √3 ^ 6 = 27 := by rw [show √3 ^ 6 = (√3 ^ 2) ^ 3 by ring, h3]; norm_num
      rw [h5, h6]
      ring
    have h31 : (1.732 : ℝ) < √3 := by rw [Real.lt_sqrt (by norm_num)]; norm_num
    have h32 : √3 < 1.7321 := by rw [Real.sqrt_lt' (by norm_num)]; norm_num
    have hN : (39715 : ℝ) < 9 * √3 / 32 * t ^ 3 + 513 / 64 * t ^ 2 - 243 * √3 / 32 * t - 1485 / 64 := by
      have c1 : 1.732 * 62901 < √3 * t ^ 3 := mul_lt_mul'' h31 b3 (by norm_num) (by norm_num)
      have c2 : √3 * t < 1.7321 * 39.794 := mul_lt_mul'' h32 t2 (by positivity) ht0.le
      linarith
    rw [e, abs_div, abs_neg, abs_of_pos (by linarith), abs_of_pos (by positivity : 0 < t ^ 6), lt_div_iff₀ (by positivity)]
    linarith

/-! ### The plane -/

/-- The total of the absolute values of the pixels. -/
noncomputable def absLight (m : CMap) : ℝ := light fun x y => (m x y).map fun v => |v|

theorem finMap_abs {m : CMap} (hm : FinMap m) : FinMap fun x y => (m x y).map fun v => |v| := by
  refine hm.subset fun p hp => ?_
  simp only [Set.mem_ofPred_eq, ne_eq, Option.map_eq_none_iff] at hp ⊢
  exact hp

theorem pixelWave_le {m : CMap} (hm : FinMap m) (c w : ℝ × ℝ) : ‖pixelWave m c w‖ ≤ absLight m := by
  have e : absLight m = ∑ p ∈ hm.toFinset, |(m p.1 p.2).getD 0| := by
    rw [absLight, light, pixelSum, finsum_eq_sum_of_support_subset (s := hm.toFinset)]
    · refine Finset.sum_congr rfl fun p _ => ?_
      cases m p.1 p.2 <;> simp
    · intro p hp
      rw [Set.Finite.coe_toFinset]
      intro h0
      exact hp (by simp only [h0, Option.map_none, Option.getD_none, mul_zero])
  rw [pixelWave_eq hm, e]
  refine (norm_sum_le _ _).trans (Finset.sum_le_sum fun p _ => ?_)
  rw [norm_mul, Complex.norm_real, Real.norm_eq_abs, show -Complex.I * ((w.1 * (p.1 - c.1) + w.2 * (p.2 - c.2) : ℝ) : ℂ) =
    ((-(w.1 * (p.1 - c.1) + w.2 * (p.2 - c.2)) : ℝ) : ℂ) * Complex.I by push_cast; ring, Complex.norm_exp_ofReal_mul_I, mul_one]

/-- C88: with the linear kernel, what is left out beyond the range is at most `kvalue_accuracy` times the flux, when no
pixel is negative (in general times the flux and the ratio of the absolute to the total light). -/
theorem C88_lost_linear (K : ℕ → ℕ → ℝ) (umax acc : ℝ) (ha : 0 < acc) (o : II) (h : o.Good) (hl : o.args.kernel = .linear)
    (x : ℝ × ℝ → ℝ) (hv : ∀ p, o.xValue K p = .ok (x p)) (k : ℝ × ℝ)
    (hk : 2 * Real.pi * o.args.kernel.urange umax acc < |(fwdT o.jac k).1| ∨
      2 * Real.pi * o.args.kernel.urange umax acc < |(fwdT o.jac k).2|) :
    ∃ v, o.kValue K linearUval (o.args.kernel.urange umax acc) k = .ok v ∧
      ‖brightFT x k - v‖ ≤ acc * |o.wanted| * (absLight (coordMap o.args.im) / |light (coordMap o.args.im)|) := by
  refine ⟨0, C88_outside K _ _ o h k hk, ?_⟩
  have hp : o.args.kernel.Poly := Or.inl hl
  have one : ∀ w, |kvalOf linearUval w| ≤ 1 := by
    intro w
    unfold kvalOf linearUval sinc
    split_ifs with h0
    · simp
    · rw [abs_mul]
      have := Real.abs_sin_le_one
      have hs : |Real.sin (Real.pi * (w / 2 / Real.pi)) / (Real.pi * (w / 2 / Real.pi))| ≤ 1 := by
        rw [abs_div, div_le_one (abs_pos.mpr (mul_ne_zero Real.pi_ne_zero h0))]
        exact Real.abs_sin_le_abs
      exact mul_le_one₀ hs (abs_nonneg _) hs
  have hb : |kvalOf linearUval (fwdT o.jac k).1 * kvalOf linearUval (fwdT o.jac k).2| ≤ acc := by
    rw [abs_mul]
    rw [hl] at hk
    rcases hk with hk | hk
    · have := C88_tail_linear umax acc ha _ hk
      calc _ ≤ acc * 1 := mul_le_mul this (one _) (abs_nonneg _) ha.le
        _ = acc := mul_one _
    · have := C88_tail_linear umax acc ha _ hk
      calc _ ≤ 1 * acc := mul_le_mul (one _) this (abs_nonneg _) zero_le_one
        _ = acc := one_mul _
  rw [sub_zero, transform_val K o h hp x hv, hl, norm_mul, Complex.norm_real, Real.norm_eq_abs, abs_mul, abs_div]
  have hw := pixelWave_le (finMap_coordMap o.args.im) o.ref (fwdT o.jac k)
  simp only [Kernel.polyUval]
  calc _ ≤ |o.wanted| / |light (coordMap o.args.im)| * acc * absLight (coordMap o.args.im) :=
        mul_le_mul (mul_le_mul_of_nonneg_left hb (by positivity)) hw (norm_nonneg _) (by positivity)
    _ = _ := by ring

/-! ### Non-trivial cases -/

/-- The value at the origin of the image of three pixels, 1, 1 and 5, with rotated and stretched pixels. -/
example (K : ℕ → ℕ → ℝ) : (II.mk (defaultArgs exRow (.jac ⟨2, 1, 0, 3⟩) 4) (.jac ⟨2, 1, 0, 3⟩)).kValue K quinticUval
    (Kernel.quintic.urange 0 0.00001) (0, 0) = .ok 7 := by
  have g := exRow_good (.jac ⟨2, 1, 0, 3⟩) (by show (2:ℝ) * 3 - 1 * 0 ≠ 0; norm_num) 4 le_rfl
  have hu : 0 ≤ Kernel.quintic.urange 0 0.00001 := by
    have := Real.pi_pos
    simp only [Kernel.urange]
    positivity
  rw [C88_origin K _ (by simp [quinticUval, sinc]; norm_num) _ hu _ g trivial (by intro n d; simp [defaultArgs])]
  have : (II.mk (defaultArgs exRow (.jac ⟨2, 1, 0, 3⟩) 4) (.jac ⟨2, 1, 0, 3⟩)).wanted = 7 := by
    simp only [II.wanted, defaultArgs, lower_flux, exRow_light]
    rfl
  rw [this]
  norm_num

/-- Its modes: every multiple of `dk` inside the range is reached by a wave vector. -/
example (K : ℕ → ℕ → ℝ) (x : ℝ × ℝ → ℝ)
    (hx : ∀ p, (II.mk (defaultArgs exRow (.pix 2) 4) (.pix 2)).xValue K p = .ok (x p)) :
    ∃ k : ℝ × ℝ, k.1 ≠ 0 ∧ (II.mk (defaultArgs exRow (.pix 2) 4) (.pix 2)).kValue K quinticUval
      (Kernel.quintic.urange 0 0.00001) k = .ok (brightFT x k) := by
  have g := exRow_good (.pix 2) two_ne_zero 4 le_rfl
  obtain ⟨m, dk, h1, h2, h3, h4⟩ := C88_modes_partial K 0 0.00001 _ g (Or.inr (Or.inr rfl)) trivial
    (by intro n d; simp [defaultArgs]) x hx
  have hm : (0:ℝ) < m := by exact_mod_cast h1
  have hdk : dk = Real.pi / m := by field_simp; linarith
  have hdk0 : 0 < dk := by rw [hdk]; have := Real.pi_pos; positivity
  have hm1 : (1:ℝ) ≤ m := by exact_mod_cast h1
  have hle : dk ≤ Real.pi := by rw [hdk]; exact div_le_self Real.pi_pos.le hm1
  have hur : (1:ℝ) ≤ 2 * Kernel.quintic.urange 0 0.00001 := by
    simp only [Kernel.urange]
    have h5 : (1:ℝ) ≤ √5 := Real.one_le_sqrt.mpr (by norm_num)
    have hb : (8:ℝ) ≤ 25 * √5 / 108 / (0.00001:ℝ) := by norm_num; linarith
    have hc : (2:ℝ) ≤ (25 * √5 / 108 / (0.00001:ℝ)) ^ ((1:ℝ) / 3) := by
      calc (2:ℝ) = (8:ℝ) ^ ((1:ℝ) / 3) := by
            rw [show (8:ℝ) = 2 ^ (3:ℝ) by norm_num, ← Real.rpow_mul (by norm_num)]; norm_num
        _ ≤ _ := Real.rpow_le_rpow (by norm_num) hb (by norm_num)
    have hpi := Real.pi_pos
    have hp4 := Real.pi_le_four
    rw [← mul_div_assoc, le_div_iff₀ hpi]
    linarith
  refine ⟨(dk / 2, 0), by positivity, h4 _ 0 1 ?_ ?_ ?_⟩
  · simp only [fwdT, II.jac, LocalWCS.toJac]
    ext <;> push_cast <;> ring
  · simp only [defaultArgs, Int.cast_one, one_mul, abs_of_pos hdk0]
    nlinarith [Real.pi_pos]
  · simp only [defaultArgs, Int.cast_zero, zero_mul, abs_zero]
    nlinarith [Real.pi_pos]

end JG.Interp
