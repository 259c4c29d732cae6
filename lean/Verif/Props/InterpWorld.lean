import Verif.Model.InterpWorld
import Verif.Props.InterpPad
import Verif.Props.InterpImage
import Verif.Props.InterpolantFourier
import Verif.Props.Moments
import Verif.Props.KernelPlane
import Verif.Props.WCS
import Verif.Props.WCSShape

/-!
Property C87: an `InterpolatedImage` shows the pixels of the image in world coordinates.
-/

open MeasureTheory

namespace JG.Interp

/-! ### Specification -/

/-- The pixels of `m`, each spread with the kernel `f`, at the point `(x, y)` of the image. -/
noncomputable def spread (m : CMap) (f : ℝ → ℝ) (q : ℝ × ℝ) : ℝ :=
  pixelSum m fun p => f (q.1 - p.1) * f (q.2 - p.2)

/-- The point of the image that is shown at the world position `(0, 0)`: the middle between the first and the last pixel
(or the pixel called centre), plus the offset. -/
noncomputable def II.ref (o : II) : ℝ × ℝ :=
  let b := o.args.im.bounds
  if o.args.useTrueCenter then
    ((b.xmin + (b.xmin + b.deltax - 1) : ℝ) / 2 + o.args.offset.x, (b.ymin + (b.ymin + b.deltay - 1) : ℝ) / 2 + o.args.offset.y)
  else (((b.xmin + b.deltax / 2 : ℤ) : ℝ) + o.args.offset.x, ((b.ymin + b.deltay / 2 : ℤ) : ℝ) + o.args.offset.y)

/-- The flux the object is asked to have: the given one, or the sum of the pixels, or for pixels that are surface
brightnesses the sum times the area of a pixel in world coordinates. -/
noncomputable def II.wanted (o : II) : ℝ :=
  match o.args.flux with
  | some g => g
  | none => if isSb o.args.normalization then light (coordMap o.args.im) * o.wcs.docArea else light (coordMap o.args.im)

/-- The conditions of the theorems: a float image with consistent static bounds of fewer than 100000 padded pixels a side,
some total light, and a coordinate system that can be inverted. -/
structure II.Good (o : II) : Prop where
  ok : o.args.im.bounds.OK
  shape : o.args.im.ShapeOK
  defd : o.args.im.bounds.defined = true
  static : o.args.im.bounds.posPy = true
  small : o.args.padFactor * max (o.args.im.arr.h:ℤ) o.args.im.arr.w ≤ 99999
  small' : max (o.args.im.arr.h:ℤ) o.args.im.arr.w ≤ 99999
  plain : o.args.depixelize = false
  light : light (coordMap o.args.im) ≠ 0
  wcs : o.wcs.Nondeg

/-! ### The working image -/

section
variable {o : II} (h : o.Good)
include h

theorem Good.live : ({ o.args.im with isConst := some false } : Image).Live := ⟨h.ok, h.shape, h.defd, rfl, h.static⟩

theorem image_eq : o.image = .ok (workImage true o.args.im) := by rw [II.image, if_neg (by simp [h.plain])]

theorem work : (workImage true o.args.im).Live ∧ (workImage true o.args.im).arr = o.args.im.arr ∧
    (workImage true o.args.im).bounds.deltax = o.args.im.bounds.deltax ∧
    (workImage true o.args.im).bounds.deltay = o.args.im.bounds.deltay ∧
    (workImage true o.args.im).bounds.xmin = -(o.args.im.bounds.deltax / 2) ∧
    (workImage true o.args.im).bounds.ymin = -(o.args.im.bounds.deltay / 2) := by
  obtain ⟨h1, h2, -, h4, h5, h6, -⟩ := workImage_live _ (Good.live h) true
  exact ⟨h1, h2, h4, h5, (h6 rfl).1, (h6 rfl).2⟩

/-- Sums over the light of the working image: its pixels are those of the given image, moved. -/
theorem work_sum (f : ℤ × ℤ → ℝ) : pixelSum (coordMap (workImage true o.args.im)) f =
    pixelSum (coordMap o.args.im) fun p => f (p.1 - o.args.im.bounds.xmin - o.args.im.bounds.deltax / 2,
      p.2 - o.args.im.bounds.ymin - o.args.im.bounds.deltay / 2) := by
  obtain ⟨h1, h2, h3, h4, h5, h6⟩ := work h
  rw [← gridSum_pixelSum _ h1.defd h1.shape, ← gridSum_pixelSum _ h.defd h.shape, h2, h5, h6]
  unfold gridSum
  refine Finset.sum_congr rfl fun i _ => Finset.sum_congr rfl fun j _ => ?_
  show f _ * _ = f _ * _
  congr 1
  refine congrArg f ?_
  ext <;> simp only <;> ring

theorem xim_ok : ∃ r, o.xim = .ok r ∧ PaddedOf r (workImage true o.args.im) ∧ r.Live ∧
    r.bounds.includesB clsI (workImage true o.args.im).bounds = true := by
  obtain ⟨r, h1, h2, h3, h4, -, h6, -⟩ := C56_padding_partial o.args.padFactor _ (Good.live h) h.small h.small'
  obtain ⟨w1, -, w3, w4, w5, w6⟩ := work h
  have e : workImage true { o.args.im with isConst := some false } = workImage true o.args.im := rfl
  rw [e] at h1 h2
  refine ⟨r, ?_, h2, h3, ?_⟩
  · rw [II.xim, image_eq h]
    simp only [Except.bind, h1, Except.mapError]
  · unfold Bounds.centerI at h4
    rw [if_neg (by simp [h3.defd])] at h4
    simp only [Option.some.injEq, Pos.mk.injEq] at h4
    obtain ⟨h7, h8⟩ := h6
    simp only at h7 h8
    simp only [Bounds.includesB, Bool.and_eq_true, decide_eq_true_eq, xmaxI, ymaxI, h3.defd, w1.defd, true_and, w3, w4, w5, w6]
    refine ⟨⟨⟨?_, ?_⟩, ?_⟩, ?_⟩ <;> omega

/-- The image that is interpolated shows the pixels of the working image. -/
theorem padImage_ok : ∃ s, o.padImage = .ok s ∧ s.bounds.defined = true ∧ s.ShapeOK ∧
    coordMap s = coordMap (workImage true o.args.im) := by
  obtain ⟨r, h1, h2, h3, h4⟩ := xim_ok h
  obtain ⟨w1, -⟩ := work h
  obtain ⟨s, s1, s2, s3, s4, -, s6⟩ := C21_subImage r h3.shape _ w1.ok h4
  refine ⟨s, ?_, ?_, s4, ?_⟩
  · rw [II.padImage, image_eq h, h1]
    simp only [Except.bind, s1, Except.mapError]
  · by_contra hn
    simp only [Bounds.eq, Bounds.initargs, hn, w1.defd, if_true, decide_eq_true_eq] at s2
    simp [clsI] at s2
  · rw [s6]
    funext x y
    by_cases hr : inRect (workImage true o.args.im).bounds x y
    · rw [if_pos hr]
      have : coordMap (workImage true o.args.im) x y = some _ := if_pos ⟨w1.defd, hr⟩
      rw [this]
      exact h2.keeps x y _ this
    · rw [if_neg hr]
      exact (if_neg fun hc => hr hc.2).symm

omit h in
theorem arrSum_light (im : Image) (hd : im.bounds.defined = true) (hs : im.ShapeOK) : arrSum im.arr = light (coordMap im) := by
  rw [light, ← gridSum_pixelSum im hd hs, arrSum]; simp

theorem imageFlux_ok : o.imageFlux = .ok (light (coordMap o.args.im)) := by
  obtain ⟨h1, h2, -⟩ := work h
  rw [II.imageFlux, image_eq h]
  simp only [Except.map, arrSum_light _ h1.defd h1.shape]
  congr 1
  exact work_sum h _

theorem fluxRatio_ok : o.fluxRatio = .ok (o.wanted / light (coordMap o.args.im) / o.wcs.docArea) := by
  rw [II.fluxRatio, II.innerRatio, imageFlux_ok h, C40_area _ h.wcs]
  simp only [Except.map, II.wanted]
  cases o.args.flux <;> rfl

/-- The offset of the inner object leads from the coordinates of the working image to those of the given image. -/
theorem offset_ok : ∃ d : Pos ℝ, o.offset = .ok d ∧
    d.x + o.args.im.bounds.xmin + (o.args.im.bounds.deltax / 2 : ℤ) = o.ref.1 ∧
    d.y + o.args.im.bounds.ymin + (o.args.im.bounds.deltay / 2 : ℤ) = o.ref.2 := by
  obtain ⟨h1, h2, h3, h4, h5, h6⟩ := work h
  refine ⟨adjustOffset (workImage true o.args.im).bounds
    ⟨none, none, none, none, none, o.args.offset, o.args.useTrueCenter, false, 0⟩, ?_, ?_⟩
  · rw [II.offset, image_eq h]; rfl
  · unfold adjustOffset II.ref
    simp only [Bounds.numpyShape, h1.defd, if_true, h3, h4]
    have key : ∀ n : ℤ, (-(1 / 2) * (((n + 1) % 2 : ℤ) : ℝ)) + (n / 2 : ℤ) = ((n : ℝ) - 1) / 2 := by
      intro n
      rcases Int.even_or_odd' n with ⟨k, rfl | rfl⟩
      · rw [show (2 * k + 1) % 2 = 1 by omega, show 2 * k / 2 = k by omega]; push_cast; ring
      · rw [show (2 * k + 1 + 1) % 2 = 0 by omega, show (2 * k + 1) / 2 = k by omega]; push_cast; ring
    have k1 := key o.args.im.bounds.deltax
    have k2 := key o.args.im.bounds.deltay
    cases o.args.useTrueCenter
    · simp only [Bool.false_eq_true, if_false]
      push_cast
      constructor <;> ring
    · simp only [if_true]
      constructor <;> linarith

theorem innerX_work (K : ℕ → ℕ → ℝ) (hk : o.args.kernel.Local) (p : ℝ × ℝ) (d : Pos ℝ) (hd : o.offset = .ok d) :
    o.innerXValue K p = .ok (spread (coordMap (workImage true o.args.im)) (o.args.kernel.xval K) (p.1 + d.x, p.2 + d.y)) := by
  obtain ⟨s, s1, s2, s3, s4⟩ := padImage_ok h
  rw [II.innerXValue, hd, s1]
  simp only [Except.bind, Except.map]
  congr 1
  rw [C54_kernel_sum_partial K _ hk, ← s4]
  rw [spread, ← gridSum_pixelSum s s2 s3]
  unfold kernelSum gridSum
  refine Finset.sum_congr rfl fun i _ => Finset.sum_congr rfl fun j _ => ?_
  push_cast
  ring

theorem innerX_ok (K : ℕ → ℕ → ℝ) (hk : o.args.kernel.Local) (p : ℝ × ℝ) :
    o.innerXValue K p = .ok (spread (coordMap o.args.im) (o.args.kernel.xval K) (o.ref.1 + p.1, o.ref.2 + p.2)) := by
  obtain ⟨d, d1, d2, d3⟩ := offset_ok h
  rw [innerX_work h K hk p d d1, spread, work_sum h, spread]
  congr 2
  funext q
  simp only
  rw [← d2, ← d3]
  congr 2 <;> push_cast <;> ring

end

theorem solve2_eq (J : Mat2) (p : ℝ × ℝ) : solve2 J p = J.inv'.app p := by
  unfold solve2 Mat2.inv' Mat2.app
  ext <;> simp only <;> ring

theorem jac_ne {o : II} (h : o.Good) : o.jac.det ≠ 0 := det_toJac h.wcs

theorem docMap_jac (o : II) (q : ℝ × ℝ) : (WCS.loc o.wcs).docMap q = o.jac.app q := by
  rw [← (C37_map _ q).1]; simp only [WCS.toWorld, uv_eq]; rfl

/-! ### C87 -/

/-- C87: the brightness at the world position of the image displacement `q` is the value of the interpolated pixels at the
reference point plus `q`, scaled to the wanted flux and divided by the area of a pixel. -/
theorem C87_light_partial (K : ℕ → ℕ → ℝ) (o : II) (h : o.Good) (hk : o.args.kernel.Local) (q : ℝ × ℝ) :
    o.xValue K ((WCS.loc o.wcs).docMap q) =
      .ok (o.wanted / light (coordMap o.args.im) / o.wcs.docArea *
        spread (coordMap o.args.im) (o.args.kernel.xval K) (o.ref + q)) := by
  rw [docMap_jac, II.xValue, sub_zero, sub_zero, Prod.mk.eta, solve2_eq, Mat2.inv'_app (jac_ne h), innerX_ok h K hk,
    fluxRatio_ok h]
  simp only [Except.bind, Except.map]
  rw [mul_comm]
  rfl

/-- The value of a pixel, 0 outside the image. -/
noncomputable def pixelAt (m : CMap) (P : ℤ × ℤ) : ℝ := (m P.1 P.2).getD 0

/-- C87: at the world position of a pixel the brightness times the area of a pixel is the value of the pixel, scaled to the
wanted flux, for every kernel but `Delta`. -/
theorem C87_pixels (K : ℕ → ℕ → ℝ) (o : II) (h : o.Good) (hd : ∀ v, o.args.kernel ≠ .delta v)
    (hs : ∀ v, o.args.kernel = .sinc v → 0 < v) (hn : ∀ n d, o.args.kernel = .lanczos n d → 1 ≤ n) (P : ℤ × ℤ) :
    ∃ v, o.xValue K ((WCS.loc o.wcs).docMap (((P.1:ℝ), (P.2:ℝ)) - o.ref)) = .ok v ∧
      v * o.wcs.docArea = o.wanted / light (coordMap o.args.im) * pixelAt (coordMap o.args.im) P := by
  have hA : o.wcs.docArea ≠ 0 := by rw [docArea_eq]; exact abs_ne_zero.mpr (det_toJac h.wcs)
  rw [docMap_jac, II.xValue, sub_zero, sub_zero, Prod.mk.eta, solve2_eq, Mat2.inv'_app (jac_ne h), fluxRatio_ok h]
  obtain ⟨s, s1, s2, s3, s4⟩ := padImage_ok h
  obtain ⟨d, d1, d2, d3⟩ := offset_ok h
  rw [II.innerXValue, d1, s1]
  simp only [Except.bind, Except.map]
  refine ⟨_, rfl, ?_⟩
  have e1 : (((P.1:ℝ), (P.2:ℝ)) - o.ref).1 + d.x = s.bounds.xmin +
      ((P.1 - o.args.im.bounds.xmin - o.args.im.bounds.deltax / 2 - s.bounds.xmin : ℤ) : ℝ) := by
    simp only [Prod.fst_sub]; rw [← d2]; push_cast; ring
  have e2 : (((P.1:ℝ), (P.2:ℝ)) - o.ref).2 + d.y = s.bounds.ymin +
      ((P.2 - o.args.im.bounds.ymin - o.args.im.bounds.deltay / 2 - s.bounds.ymin : ℤ) : ℝ) := by
    simp only [Prod.snd_sub]; rw [← d3]; push_cast; ring
  rw [e1, e2, C54_at_pixels K _ hd hs hn]
  have hsh := s3 s2
  simp only [Bounds.numpyShape, s2, if_true, Prod.mk.injEq] at hsh
  obtain ⟨sh, sw⟩ := hsh
  obtain ⟨w1, w2, w3, w4, w5, w6⟩ := work h
  have e3 : (coordMap s (P.1 - o.args.im.bounds.xmin - o.args.im.bounds.deltax / 2)
      (P.2 - o.args.im.bounds.ymin - o.args.im.bounds.deltay / 2)).getD 0 = pixelAt (coordMap o.args.im) P := by
    rw [s4, pixelAt]
    simp only [coordMap, w1.defd, h.defd, true_and, inRect, w2, w3, w4, w5, w6]
    by_cases hr : (o.args.im.bounds.xmin ≤ P.1 ∧ P.1 < o.args.im.bounds.xmin + o.args.im.bounds.deltax) ∧
        o.args.im.bounds.ymin ≤ P.2 ∧ P.2 < o.args.im.bounds.ymin + o.args.im.bounds.deltay
    · rw [if_pos (by omega), if_pos hr]
      simp only [Option.getD_some]
      congr 1 <;> omega
    · rw [if_neg (by omega), if_neg hr]
  rw [← e3]
  simp only [coordMap, s2, true_and, inRect]
  by_cases hr : (s.bounds.xmin ≤ P.1 - o.args.im.bounds.xmin - o.args.im.bounds.deltax / 2 ∧
      P.1 - o.args.im.bounds.xmin - o.args.im.bounds.deltax / 2 < s.bounds.xmin + s.bounds.deltax) ∧
      s.bounds.ymin ≤ P.2 - o.args.im.bounds.ymin - o.args.im.bounds.deltay / 2 ∧
      P.2 - o.args.im.bounds.ymin - o.args.im.bounds.deltay / 2 < s.bounds.ymin + s.bounds.deltay
  · rw [if_pos (by omega), if_pos hr]
    simp only [Option.getD_some]
    field_simp
  · rw [if_neg (by omega), if_neg hr]
    simp

/-- C87: the flux is the wanted one. -/
theorem C87_flux (o : II) (h : o.Good) : o.flux = .ok o.wanted := by
  have hA : |o.jac.det| ≠ 0 := abs_ne_zero.mpr (jac_ne h)
  have hl := h.light
  rw [II.flux, fluxRatio_ok h, imageFlux_ok h, docArea_eq]
  simp only [Except.bind, Except.map]
  change Except.ok (|o.jac.det| * (_ / _ / |o.jac.det|) * _) = _
  congr 1
  field_simp

/-- C87: `_drawReal` puts into a pixel the brightness of the object at the position of the pixel, in the frame of the given
matrix and offset, times the area of the pixel. -/
theorem C87_drawReal_partial (K : ℕ → ℕ → ℝ) (o : II) (h : o.Good) (hk : o.args.kernel.Local) (scale : ℝ) (jac : Option Mat2)
    (hj : ∀ M ∈ jac, M.det ≠ 0) (off : ℝ × ℝ) (fs : ℝ) (P : ℤ × ℤ) (q : ℝ × ℝ)
    (hq : (jac.getD ⟨1, 0, 0, 1⟩).app q + off = (P.1 * scale, P.2 * scale)) :
    ∃ v, o.xValue K q = .ok v ∧ o.drawPixel K scale jac off fs P =
      .ok (fs * scale ^ 2 / |(jac.getD ⟨1, 0, 0, 1⟩).det| * v) := by
  obtain ⟨M, hM⟩ : ∃ M, M = jac.getD ⟨1, 0, 0, 1⟩ := ⟨_, rfl⟩
  rw [← hM] at hq ⊢
  have hMd : M.det ≠ 0 := by
    rw [hM]
    cases jac with
    | none => simp [Mat2.det]
    | some J => exact hj J rfl
  have hJd := jac_ne h
  obtain ⟨r, hr⟩ : ∃ r, o.jac.inv'.app q = r := ⟨_, rfl⟩
  have hqr : q = o.jac.app r := by rw [← hr, Mat2.app_inv' hJd]
  refine ⟨_, by rw [hqr, ← docMap_jac]; exact C87_light_partial K o h hk r, ?_⟩
  have e1 : o.drawJac jac = M.mul o.jac := by
    rw [hM]
    cases jac with
    | none => simp [Mat2.mul, II.drawJac]
    | some J => rfl
  have e2 : (M.mul o.jac).det = M.det * o.jac.det := by simp only [Mat2.mul, Mat2.det]; ring
  have e3 : (M.mul o.jac).app r = M.app q := by
    rw [hqr]; ext <;> simp only [Mat2.mul, Mat2.app] <;> ring
  have hd' : (M.mul o.jac).det ≠ 0 := by rw [e2]; exact mul_ne_zero hMd hJd
  have e4 : solve2 (M.mul o.jac) (P.1 * scale - off.1, P.2 * scale - off.2) = r := by
    rw [solve2_eq]
    have : ((P.1 * scale - off.1, P.2 * scale - off.2) : ℝ × ℝ) = (M.mul o.jac).app r := by
      rw [e3]
      have h1 := congrArg Prod.fst hq
      have h2 := congrArg Prod.snd hq
      simp only [Prod.fst_add, Prod.snd_add] at h1 h2
      ext <;> simp only <;> linarith
    rw [this, Mat2.inv'_app hd']
  have e5 : drawOffset jac off = off := by
    cases jac <;> simp [drawOffset]
  rw [II.drawPixel, fluxRatio_ok h]
  simp only [Except.bind, e1, e5, e4, innerX_ok h K hk, Except.map]
  congr 1
  rw [Real.exp_log (abs_pos.mpr (one_div_ne_zero hd')), e2, abs_div, abs_one, abs_mul, docArea_eq]
  have hA : |o.jac.det| ≠ 0 := abs_ne_zero.mpr hJd
  have hB : |M.det| ≠ 0 := abs_ne_zero.mpr hMd
  change spread _ _ _ * (_ * _ * _ * _) = fs * _ / _ * (_ / _ / |o.jac.det| * spread _ _ (o.ref.1 + r.1, o.ref.2 + r.2))
  generalize spread _ _ (o.ref.1 + r.1, o.ref.2 + r.2) = S
  change S * (fs * (|o.jac.det| * (o.wanted / light (coordMap o.args.im) / |o.jac.det|)) * scale ^ 2 * (1 / (|M.det| * |o.jac.det|))) = _
  generalize |o.jac.det| = A at *
  generalize |M.det| = B at *
  field_simp

/-- C87: which arguments the constructor accepts. -/
theorem C87_accepts (a : IIArgs) : (∃ o, II.make a = .ok o) ↔
    a.im.isInt = false ∧ a.im.bounds.defined = true ∧
      lower a.normalization ∈ ["flux".toList, "f".toList, "surface brightness".toList, "sb".toList] ∧
      a.padImage = false ∧ 0 < a.padFactor ∧ a.noisePadSize = false ∧ a.noisePad = false ∧
      ¬ (a.scale.isSome ∧ a.wcs.isSome) ∧ (a.scale.isSome ∨ a.wcs.isSome ∨ a.imWcs.isSome) ∧
      (a.calcStepk = true ∨ a.calcMaxk = true ∨ a.flux.isSome = true →
        ∑ i ∈ Finset.range a.im.arr.h, ∑ j ∈ Finset.range a.im.arr.w, a.im.arr.at' i j ≠ 0) := by
  have hn : lower a.normalization ∈ ["flux".toList, "f".toList, "surface brightness".toList, "sb".toList] ↔ isNormalization a.normalization = true := by
    simp only [isNormalization, isSb, List.mem_cons, List.not_mem_nil, or_false, Bool.or_eq_true, decide_eq_true_eq]; tauto
  have hf : ∀ l, (∃ o, II.make.finish a l = .ok o) ↔ (a.calcStepk = true ∨ a.calcMaxk = true ∨ a.flux.isSome = true →
      ∑ i ∈ Finset.range a.im.arr.h, ∑ j ∈ Finset.range a.im.arr.w, a.im.arr.at' i j ≠ 0) := by
    intro l
    unfold II.make.finish
    by_cases hc : ((a.calcStepk || a.calcMaxk || a.flux.isSome) && decide (arrSum a.im.arr = 0)) = true
    · rw [if_pos hc]
      simp only [Bool.and_eq_true, Bool.or_eq_true, arrSum, gridSum] at hc
      simp only [reduceCtorEq, exists_false, false_iff]
      intro hx
      exact hx (by tauto) (of_decide_eq_true hc.2)
    · rw [if_neg hc]
      simp only [Bool.and_eq_true, Bool.or_eq_true, arrSum, gridSum] at hc
      simp only [Except.ok.injEq, exists_eq', true_iff]
      intro hx h0
      exact hc ⟨by tauto, decide_eq_true h0⟩
  rw [hn]
  unfold II.make
  cases h1 : a.im.isInt
  · cases h2 : a.im.bounds.defined
    · simp
    · cases h3 : isNormalization a.normalization
      · simp
      · cases h4 : a.padImage
        · by_cases h5 : a.padFactor ≤ 0
          · simp [h5]
          · cases h6 : a.noisePadSize
            · cases h7 : a.noisePad
              · simp only [Bool.false_eq_true, if_false, Bool.not_true, h5, true_and, not_le.mp h5]
                cases h8 : a.scale <;> cases h9 : a.wcs <;> cases h10 : a.imWcs <;>
                  simp only [hf, Option.isSome, Bool.false_eq_true, reduceCtorEq] <;> simp
              · simp [h5]
            · simp [h5]
        · simp
  · simp

/-- C87: an accepted object keeps its arguments, and its coordinate system is that of the scale, else of the given system,
else of the image. -/
theorem C87_system (a : IIArgs) (o : II) (h : II.make a = .ok o) : o.args = a ∧
    some o.wcs = ((a.scale.map LocalWCS.pix).orElse fun _ => (a.wcs.map WCS.localWCS).orElse fun _ => a.imWcs.map WCS.localWCS) := by
  have hf : ∀ l, II.make.finish a l = .ok o → o = ⟨a, l⟩ := by
    intro l hl
    unfold II.make.finish at hl
    split_ifs at hl
    exact (Except.ok.inj hl).symm
  unfold II.make at h
  cases h1 : a.im.isInt <;> rw [h1] at h
  · cases h2 : a.im.bounds.defined <;> rw [h2] at h
    · simp at h
    · cases h3 : isNormalization a.normalization <;> rw [h3] at h
      · simp at h
      · cases h4 : a.padImage <;> rw [h4] at h
        · by_cases h5 : a.padFactor ≤ 0
          · simp [h5] at h
          · cases h6 : a.noisePadSize <;> rw [h6] at h
            · cases h7 : a.noisePad <;> rw [h7] at h
              · simp only [Bool.false_eq_true, if_false, Bool.not_true, h5] at h
                cases h8 : a.scale <;> cases h9 : a.wcs <;> cases h10 : a.imWcs <;> rw [h8, h9, h10] at h <;>
                  simp only [reduceCtorEq] at h <;> (rw [hf _ h]; exact ⟨rfl, rfl⟩)
              · simp [h5] at h
            · simp [h5] at h
        · simp at h
  · simp at h

/-! ### The integral and the centre of the light -/

theorem spread_moment (m : CMap) (hm : FinMap m) {f : ℝ → ℝ} (hf : Unit1 f) (c : ℝ × ℝ) (α β γ : ℝ) :
    Integrable (fun q : ℝ × ℝ => (α + β * q.1 + γ * q.2) * spread m f (c + q)) ∧
    ∫ q : ℝ × ℝ, (α + β * q.1 + γ * q.2) * spread m f (c + q) =
      α * light m + β * (pixelSum m pixX - c.1 * light m) + γ * (pixelSum m pixY - c.2 * light m) := by
  have e : (fun q : ℝ × ℝ => (α + β * q.1 + γ * q.2) * spread m f (c + q)) = fun q => ∑ p ∈ hm.toFinset,
      (m p.1 p.2).getD 0 * ((α + β * q.1 + γ * q.2) * (f (c.1 - p.1 + q.1) * f (c.2 - p.2 + q.2))) := by
    funext q
    rw [spread, pixelSum_eq hm, Finset.mul_sum]
    refine Finset.sum_congr rfl fun p _ => ?_
    simp only [Prod.fst_add, Prod.snd_add]
    rw [show c.1 + q.1 - (p.1:ℝ) = c.1 - p.1 + q.1 by ring, show c.2 + q.2 - (p.2:ℝ) = c.2 - p.2 + q.2 by ring]
    ring
  have hi := fun p : ℤ × ℤ => plane_moment hf α β γ (c.1 - p.1) (c.2 - p.2)
  rw [e]
  refine ⟨integrable_finsetSum _ fun p _ => (hi p).1.const_mul _, ?_⟩
  rw [integral_finsetSum _ fun p _ => (hi p).1.const_mul _]
  simp only [integral_const_mul, (hi _).2, light, pixelSum_eq hm, Finset.mul_sum]
  rw [← Finset.sum_sub_distrib, ← Finset.sum_sub_distrib, Finset.mul_sum, Finset.mul_sum, ← Finset.sum_add_distrib,
    ← Finset.sum_add_distrib]
  refine Finset.sum_congr rfl fun p _ => ?_
  simp only [pixX, pixY]
  ring

/-- The position of the mean of the light in world coordinates. -/
noncomputable def II.lightCentre (o : II) : ℝ × ℝ :=
  (WCS.loc o.wcs).docMap ((lightMean (coordMap o.args.im) pixX, lightMean (coordMap o.args.im) pixY) - o.ref)

/-- C87: for the polynomial kernels the brightness is integrable over the plane, its integral is the wanted flux and its
mean position is the world position of the mean of the pixels. -/
theorem C87_integral_partial (K : ℕ → ℕ → ℝ) (o : II) (h : o.Good) (hk : o.args.kernel.Poly) (x : ℝ × ℝ → ℝ)
    (hx : ∀ p, o.xValue K p = .ok (x p)) :
    Integrable x ∧ ∫ p, x p = o.wanted ∧ ∫ p, p.1 * x p = o.wanted * o.lightCentre.1 ∧
      ∫ p, p.2 * x p = o.wanted * o.lightCentre.2 := by
  obtain ⟨m, hm⟩ : ∃ m, m = coordMap o.args.im := ⟨_, rfl⟩
  have hfin : FinMap m := by rw [hm]; exact finMap_coordMap _
  have hJ := jac_ne h
  have hl := h.light
  rw [← hm] at hl
  have hA : |o.jac.det| ≠ 0 := abs_ne_zero.mpr hJ
  obtain ⟨C, hC⟩ : ∃ C, C = o.wanted / light m / |o.jac.det| := ⟨_, rfl⟩
  have hx' : ∀ p, x p = C * spread m (o.args.kernel.xval K) (o.ref + o.jac.inv'.app p) := by
    intro p
    have h1 := C87_light_partial K o h hk.local (o.jac.inv'.app p)
    rw [docMap_jac, Mat2.app_inv' hJ, hx p, docArea_eq] at h1
    rw [Except.ok.inj h1, hC, hm]
    rfl
  have hu := kernel_unit K hk
  have hdi : o.jac.inv'.det ≠ 0 := by rw [Mat2.det_inv' hJ]; exact one_div_ne_zero hJ
  have key : ∀ α β γ : ℝ, Integrable (fun p : ℝ × ℝ => (α + β * p.1 + γ * p.2) * x p) ∧
      ∫ p : ℝ × ℝ, (α + β * p.1 + γ * p.2) * x p = |o.jac.det| * C *
        (α * light m + (β * o.jac.a + γ * o.jac.c) * (pixelSum m pixX - o.ref.1 * light m) +
          (β * o.jac.b + γ * o.jac.d) * (pixelSum m pixY - o.ref.2 * light m)) := by
    intro α β γ
    have h1 := spread_moment m hfin hu o.ref α (β * o.jac.a + γ * o.jac.c) (β * o.jac.b + γ * o.jac.d)
    have e : (fun p : ℝ × ℝ => (α + β * p.1 + γ * p.2) * x p) = fun p => (fun q : ℝ × ℝ => C * ((α +
        (β * o.jac.a + γ * o.jac.c) * q.1 + (β * o.jac.b + γ * o.jac.d) * q.2) *
          spread m (o.args.kernel.xval K) (o.ref + q))) (o.jac.inv'.app (p - 0)) := by
      funext p
      obtain ⟨q, hq⟩ : ∃ q, q = o.jac.inv'.app p := ⟨_, rfl⟩
      have hp : p = o.jac.app q := by rw [hq, Mat2.app_inv' hJ]
      rw [hx' p]
      simp only [sub_zero, ← hq]
      rw [hp]
      simp only [Mat2.app]
      ring
    rw [e]
    refine ⟨Elt.integrable_affine _ hdi 0 (h1.1.const_mul C), ?_⟩
    rw [Elt.integral_affine o.jac.inv' hdi 0 (fun q : ℝ × ℝ => C * ((α +
        (β * o.jac.a + γ * o.jac.c) * q.1 + (β * o.jac.b + γ * o.jac.d) * q.2) *
          spread m (o.args.kernel.xval K) (o.ref + q))), integral_const_mul, h1.2, Mat2.det_inv' hJ, one_div, inv_inv, smul_eq_mul]
    ring
  have hAC : |o.jac.det| * C * light m = o.wanted := by rw [hC]; field_simp
  have k0 := key 1 0 0
  have k1 := key 0 1 0
  have k2 := key 0 0 1
  simp only [zero_mul, add_zero, one_mul, zero_add] at k0 k1 k2
  have c1 : o.lightCentre.1 * light m = o.jac.a * (pixelSum m pixX - o.ref.1 * light m) +
      o.jac.b * (pixelSum m pixY - o.ref.2 * light m) := by
    rw [II.lightCentre, docMap_jac, ← hm]
    simp only [Mat2.app, Prod.fst_sub, Prod.snd_sub, lightMean]
    field_simp
  have c2 : o.lightCentre.2 * light m = o.jac.c * (pixelSum m pixX - o.ref.1 * light m) +
      o.jac.d * (pixelSum m pixY - o.ref.2 * light m) := by
    rw [II.lightCentre, docMap_jac, ← hm]
    simp only [Mat2.app, Prod.fst_sub, Prod.snd_sub, lightMean]
    field_simp
  refine ⟨k0.1, k0.2.trans hAC, ?_, ?_⟩
  · rw [k1.2, ← c1, ← hAC]; ring
  · rw [k2.2, ← c2, ← hAC]; ring

/-! ### The centroid -/

theorem centroid_val (o : II) (h : o.Good) : o.centroid = .ok (o.jac.app
    ((lightMean (coordMap o.args.im) pixX, lightMean (coordMap o.args.im) pixY) -
      (((o.args.im.bounds.xmin + o.args.im.bounds.deltax / 2 : ℤ) : ℝ), ((o.args.im.bounds.ymin + o.args.im.bounds.deltay / 2 : ℤ) : ℝ)))) := by
  obtain ⟨s, s1, s2, s3, s4⟩ := padImage_ok h
  have hl := h.light
  have hfin := finMap_coordMap o.args.im
  have i1 : arrSum s.arr = light (coordMap o.args.im) := by
    rw [arrSum_light s s2 s3, s4, light, work_sum h, light]
  have i2 : gridSum s.arr.h s.arr.w (fun i j => ((s.bounds.xmin + j : ℤ) : ℝ) * s.arr.at' i j) =
      pixelSum (coordMap o.args.im) pixX - ((o.args.im.bounds.xmin + o.args.im.bounds.deltax / 2 : ℤ) : ℝ) * light (coordMap o.args.im) := by
    have := gridSum_pixelSum s s2 s3 pixX
    simp only [pixX] at this
    rw [this, s4, work_sum h]
    simp only [light, pixelSum_eq hfin, Finset.mul_sum, ← Finset.sum_sub_distrib, pixX]
    refine Finset.sum_congr rfl fun p _ => ?_
    push_cast
    ring
  have i3 : gridSum s.arr.h s.arr.w (fun i j => ((s.bounds.ymin + i : ℤ) : ℝ) * s.arr.at' i j) =
      pixelSum (coordMap o.args.im) pixY - ((o.args.im.bounds.ymin + o.args.im.bounds.deltay / 2 : ℤ) : ℝ) * light (coordMap o.args.im) := by
    have := gridSum_pixelSum s s2 s3 pixY
    simp only [pixY] at this
    rw [this, s4, work_sum h]
    simp only [light, pixelSum_eq hfin, Finset.mul_sum, ← Finset.sum_sub_distrib, pixY]
    refine Finset.sum_congr rfl fun p _ => ?_
    push_cast
    ring
  rw [II.centroid, II.innerCentroid, s1]
  simp only [Except.map, i1, i2, i3]
  congr 1
  ext <;> simp only [Mat2.app, Prod.fst_sub, Prod.snd_sub, lightMean, add_zero] <;> field_simp

/-- C87: `centroid` is the mean position of the light when the offset used inside is zero: no offset is given, and the
sizes are odd or the true centre is not asked for.  Missing for the full claim: all other cases (counterexample). -/
theorem C87_centroid_partial (o : II) (h : o.Good) (h0 : o.args.offset = ⟨0, 0⟩)
    (hodd : o.args.useTrueCenter = true → o.args.im.bounds.deltax % 2 = 1 ∧ o.args.im.bounds.deltay % 2 = 1) :
    o.centroid = .ok o.lightCentre := by
  have hr : o.ref = (((o.args.im.bounds.xmin + o.args.im.bounds.deltax / 2 : ℤ) : ℝ),
      ((o.args.im.bounds.ymin + o.args.im.bounds.deltay / 2 : ℤ) : ℝ)) := by
    have key : ∀ n : ℤ, n % 2 = 1 → ((n / 2 : ℤ) : ℝ) = ((n : ℝ) - 1) / 2 := by
      intro n hn
      obtain ⟨k, rfl⟩ : ∃ k, n = 2 * k + 1 := ⟨n / 2, by omega⟩
      rw [show (2 * k + 1) / 2 = k by omega]; push_cast; ring
    unfold II.ref
    rw [h0]
    cases hu : o.args.useTrueCenter
    · simp
    · obtain ⟨o1, o2⟩ := hodd hu
      simp only [if_true, add_zero]
      push_cast
      rw [key _ o1, key _ o2]
      ext <;> simp only <;> ring
  rw [centroid_val o h, II.lightCentre, docMap_jac, hr]

/-- A 2 × 2 image of ones with unit pixels and the default arguments. -/
noncomputable def exOnes : Image :=
  ⟨⟨2, 2, fun _ _ => 1⟩, Bounds.mkDelta clsI ⟨1, true⟩ ⟨2, true⟩ ⟨1, true⟩ ⟨2, true⟩, some false, false⟩

/-- The default arguments for an image, a coordinate system and a pad factor. -/
noncomputable def defaultArgs (im : Image) (w : LocalWCS) (pf : ℝ) : IIArgs :=
  ⟨im, none, .quintic, .quintic, "flux", none, some (.loc w), none, pf, false, false, false, true, true, true, false, ⟨0, 0⟩, 0, 0⟩

theorem exOnes_light : light (coordMap exOnes) = 4 := by
  rw [← arrSum_light exOnes (by simp [exOnes, Bounds.mkDelta, Bounds.finish, clsI])
    (by intro _; simp [exOnes, Bounds.mkDelta, Bounds.finish, Bounds.numpyShape, clsI])]
  norm_num [arrSum, gridSum, exOnes, Finset.sum_range_succ]

theorem exOnes_good (w : LocalWCS) (hw : w.Nondeg) (pf : ℝ) (h4 : pf ≤ 4) : (II.mk (defaultArgs exOnes w pf) w).Good where
  ok := by
    show exOnes.bounds.OK
    unfold exOnes Bounds.OK Bounds.mkDelta Bounds.finish
    simp [clsI]
  shape := by
    intro _
    show _ = exOnes.bounds.numpyShape
    simp [defaultArgs, exOnes, Bounds.mkDelta, Bounds.finish, Bounds.numpyShape, clsI]
  defd := by
    show exOnes.bounds.defined = true
    simp [exOnes, Bounds.mkDelta, Bounds.finish, clsI]
  static := rfl
  small := by
    show pf * ((max ((2:ℕ):ℤ) ((2:ℕ):ℤ) : ℤ) : ℝ) ≤ 99999
    norm_num
    linarith
  small' := by
    show max ((2:ℕ):ℤ) ((2:ℕ):ℤ) ≤ 99999
    norm_num
  plain := rfl
  light := by
    show light (coordMap exOnes) ≠ 0
    rw [exOnes_light]; norm_num
  wcs := hw

/-- Disagreement: `_centroid` of the inner object (interpolatedimage.py:578-584) leaves out the offset that `_xValue` adds, so
an image of even size with the default `use_true_center=True` reports a centroid half a pixel away from the mean of its
light: four equal pixels are symmetric about `(0, 0)` and `centroid` is `(-1/2, -1/2)`. -/
theorem C87_counterexample_centroid : ∃ o : II, II.make o.args = .ok o ∧ o.Good ∧ o.lightCentre = (0, 0) ∧
    o.centroid = .ok (-1 / 2, -1 / 2) := by
  have hw : (LocalWCS.pix 1).Nondeg := one_ne_zero
  have hg := exOnes_good (.pix 1) hw 4 le_rfl
  have hdef : exOnes.bounds.defined = true := hg.defd
  have hmean : lightMean (coordMap exOnes) pixX = 3 / 2 ∧ lightMean (coordMap exOnes) pixY = 3 / 2 := by
    constructor <;>
    · rw [lightMean, exOnes_light, ← gridSum_pixelSum exOnes hdef hg.shape]
      norm_num [gridSum, exOnes, Finset.sum_range_succ, Bounds.mkDelta, Bounds.finish, pixX, pixY, clsI]
  have hdx : exOnes.bounds.deltax = 2 ∧ exOnes.bounds.deltay = 2 ∧ exOnes.bounds.xmin = 1 ∧ exOnes.bounds.ymin = 1 := by
    simp [exOnes, Bounds.mkDelta, Bounds.finish, clsI]
  refine ⟨_, ?_, hg, ?_, ?_⟩
  · have hs : arrSum exOnes.arr = 4 := by rw [arrSum_light exOnes hdef hg.shape, exOnes_light]
    show II.make (defaultArgs exOnes (.pix 1) 4) = _
    have hn : isNormalization "flux" = true := by
      have : lower "flux" = "flux".toList := by decide
      simp only [isNormalization, this, decide_true, Bool.true_or]
    have hi : exOnes.isInt = false := rfl
    simp [II.make, II.make.finish, defaultArgs, hdef, hs, hn, WCS.localWCS, hi]
  · rw [II.lightCentre, docMap_jac, II.ref]
    simp only [defaultArgs, if_true, hdx, hmean.1, hmean.2, II.jac, LocalWCS.toJac, Mat2.app]
    ext <;> norm_num
  · rw [centroid_val _ hg]
    simp only [defaultArgs, hdx, hmean.1, hmean.2, II.jac, LocalWCS.toJac, Mat2.app]
    congr 1
    ext <;> norm_num

/-! ### The ranges in Fourier space -/

/-- C87: for a coordinate system that stretches all directions alike, wave vectors beyond `maxk` lie beyond the `maxk` of
the image in the coordinates of the image, and image displacements within `π/stepk` of the image lie within `π/stepk` in the
world.  Missing for the full claim: other coordinate systems (counterexample). -/
theorem C87_ranges_partial (o : II) (h : o.Good) (hp : o.wcs.PosScale) (hs : o.wcs.minScale = o.wcs.maxScale)
    (hf : o.args.forceMaxk ≤ 0 ∧ o.args.forceStepk ≤ 0) (mk sk : ℝ) (hsk : 0 < sk) :
    (∀ k : ℝ × ℝ, o.maxk mk < Real.sqrt (k.1 ^ 2 + k.2 ^ 2) →
      mk < Real.sqrt ((o.jac.a * k.1 + o.jac.c * k.2) ^ 2 + (o.jac.b * k.1 + o.jac.d * k.2) ^ 2)) ∧
    ∀ q : ℝ × ℝ, Real.sqrt (q.1 ^ 2 + q.2 ^ 2) ≤ Real.pi / sk →
      Real.sqrt (((WCS.loc o.wcs).docMap q).1 ^ 2 + ((WCS.loc o.wcs).docMap q).2 ^ 2) ≤ Real.pi / o.stepk sk := by
  obtain ⟨e1, e2⟩ := scales_eq _ hp
  have hpos := minor_pos (jac_ne h)
  rw [II.maxk, II.stepk, if_neg (not_lt.mpr hf.1), if_neg (not_lt.mpr hf.2), ← hs, e2]
  constructor
  · intro k hk
    have h1 := minor_le_app o.jac.tr k
    rw [majorMinor_tr] at h1
    refine lt_of_lt_of_le ?_ h1
    have h2 := (div_lt_iff₀ hpos).mp hk
    rw [mul_comm]; exact h2
  · intro q hq
    rw [docMap_jac]
    refine (app_le_major o.jac q).trans ?_
    have e3 : (majorMinor o.jac).1 = (majorMinor o.jac).2 := (e1.symm.trans (hs.symm.trans e2))
    rw [e3]
    have h2 : (majorMinor o.jac).2 * vlen q ≤ (majorMinor o.jac).2 * (Real.pi / sk) := mul_le_mul_of_nonneg_left hq hpos.le
    refine h2.trans (le_of_eq ?_)
    have : (majorMinor o.wcs.toJac).2 = (majorMinor o.jac).2 := rfl
    rw [this]
    have := hpos.ne'
    field_simp

/-- Disagreement: `maxk` is divided by the largest and `stepk` by the smallest scale of the coordinate system
(interpolatedimage.py:222-239) where the other one is needed (as in transform.py:283-300).  With pixels of 1 by 2 and
`maxk = stepk = 1` in the image, the wave vector `(3/4, 0)` is beyond the reported `maxk` but inside the band, and the image
displacement `(0, π)` is within `π/stepk` of the image but at twice the reported `π/stepk` in the world. -/
theorem C87_counterexample_ranges : ∃ (o : II) (k q : ℝ × ℝ), o.Good ∧ o.args.forceMaxk ≤ 0 ∧ o.args.forceStepk ≤ 0 ∧
    (o.maxk 1 < Real.sqrt (k.1 ^ 2 + k.2 ^ 2) ∧
      Real.sqrt ((o.jac.a * k.1 + o.jac.c * k.2) ^ 2 + (o.jac.b * k.1 + o.jac.d * k.2) ^ 2) < 1) ∧
    Real.sqrt (q.1 ^ 2 + q.2 ^ 2) ≤ Real.pi / 1 ∧
      2 * (Real.pi / o.stepk 1) ≤ Real.sqrt (((WCS.loc o.wcs).docMap q).1 ^ 2 + ((WCS.loc o.wcs).docMap q).2 ^ 2) := by
  have hw : (LocalWCS.jac ⟨1, 0, 0, 2⟩).Nondeg := by show (1:ℝ) * 2 - 0 * 0 ≠ 0; norm_num
  have hpi := Real.pi_pos
  have hmax : (LocalWCS.jac ⟨1, 0, 0, 2⟩).maxScale = 2 ∧ (LocalWCS.jac ⟨1, 0, 0, 2⟩).minScale = 1 := by
    have s1 : Real.sqrt (((1:ℝ) + 2) ^ 2 + (0 - 0) ^ 2) = 3 := by
      rw [show ((1:ℝ) + 2) ^ 2 + (0 - 0) ^ 2 = 3 ^ 2 by norm_num]; exact Real.sqrt_sq (by norm_num)
    have s2 : Real.sqrt (((1:ℝ) - 2) ^ 2 + (0 + 0) ^ 2) = 1 := by
      rw [show ((1:ℝ) - 2) ^ 2 + (0 + 0) ^ 2 = 1 ^ 2 by norm_num]; exact Real.sqrt_sq (by norm_num)
    constructor
    · simp only [LocalWCS.maxScale, s1, s2]; norm_num
    · simp only [LocalWCS.minScale, s1, s2]; norm_num
  have f1 : (II.mk (defaultArgs exOnes (LocalWCS.jac ⟨1, 0, 0, 2⟩) 4) (LocalWCS.jac ⟨1, 0, 0, 2⟩)).maxk 1 = 1 / 2 := by
    show (if (0:ℝ) > 0 then (0:ℝ) else 1 / LocalWCS.maxScale _) = _
    rw [if_neg (lt_irrefl _), hmax.1]
  have f2 : (II.mk (defaultArgs exOnes (LocalWCS.jac ⟨1, 0, 0, 2⟩) 4) (LocalWCS.jac ⟨1, 0, 0, 2⟩)).stepk 1 = 1 := by
    show (if (0:ℝ) > 0 then (0:ℝ) else 1 / LocalWCS.minScale _) = _
    rw [if_neg (lt_irrefl _), hmax.2, div_one]
  refine ⟨_, (3 / 4, 0), (0, Real.pi), exOnes_good _ hw 4 le_rfl, le_rfl, le_rfl, ⟨?_, ?_⟩, ?_, ?_⟩
  · rw [f1]
    simp only
    rw [show ((3:ℝ) / 4) ^ 2 + 0 ^ 2 = (3 / 4) ^ 2 by ring, Real.sqrt_sq (by norm_num)]
    norm_num
  · simp only [II.jac, LocalWCS.toJac]
    rw [show ((1:ℝ) * (3 / 4) + 0 * 0) ^ 2 + (0 * (3 / 4) + 2 * 0) ^ 2 = (3 / 4) ^ 2 by ring, Real.sqrt_sq (by norm_num)]
    norm_num
  · simp only
    rw [show (0:ℝ) ^ 2 + Real.pi ^ 2 = Real.pi ^ 2 by ring, Real.sqrt_sq hpi.le, div_one]
  · rw [f2, docMap_jac]
    simp only [II.jac, LocalWCS.toJac, Mat2.app]
    rw [show ((1:ℝ) * 0 + 0 * Real.pi) ^ 2 + (0 * 0 + 2 * Real.pi) ^ 2 = (2 * Real.pi) ^ 2 by ring, Real.sqrt_sq (by positivity)]
    norm_num

/-! ### Equality -/

theorem padded_sum {r im : Image} (h : PaddedOf r im) (f : ℤ × ℤ → ℝ) :
    pixelSum (coordMap r) f = pixelSum (coordMap im) f := by
  unfold pixelSum
  refine finsum_congr fun p => ?_
  congr 1
  cases hi : coordMap im p.1 p.2 with
  | some v => rw [h.keeps _ _ _ hi]
  | none =>
    cases hr : coordMap r p.1 p.2 with
    | none => rfl
    | some v => rw [h.zeros _ _ _ hi hr]; rfl

theorem imageEq_map {x y : Image} (hx : x.Live) (hy : y.Live) (h : imageEq x y = true) : coordMap x = coordMap y := by
  simp only [imageEq, Bool.and_eq_true, Bool.or_eq_true, decide_eq_true_eq, hx.defd, Bool.not_true, Bool.false_eq_true,
    false_or, Bounds.eq, Bounds.initargs, if_true, hy.defd] at h
  obtain ⟨⟨hb, ⟨hh, hw⟩, hv⟩, -⟩ := h
  simp only [clsI, if_true, Option.some.injEq, Prod.mk.injEq] at hb
  obtain ⟨b1, b2, b3, b4⟩ := hb
  have xh := hx.h
  have xw := hx.w
  funext X Y
  simp only [coordMap, hx.defd, hy.defd, true_and, inRect, ← b1, ← b2, ← b3, ← b4]
  by_cases hr : (x.bounds.xmin ≤ X ∧ X < x.bounds.xmin + x.bounds.deltax) ∧ x.bounds.ymin ≤ Y ∧ Y < x.bounds.ymin + x.bounds.deltay
  · rw [if_pos hr, if_pos hr, hv _ (by omega) _ (by omega)]
  · rw [if_neg hr, if_neg hr]

/-- C87: objects that compare equal and have the same coordinate system show the same light.  Missing for the full claim:
`__eq__` does not compare the coordinate systems (counterexample). -/
theorem C87_equal_partial (K : ℕ → ℕ → ℝ) (o p : II) (ho : o.Good) (hp : p.Good) (hk : o.args.kernel.Local) (io ip : ℝ × ℝ)
    (he : o.eq p io ip = .ok true) (hw : o.wcs = p.wcs) (q : ℝ × ℝ) : o.xValue K q = p.xValue K q := by
  obtain ⟨x, x1, x2, x3, -⟩ := xim_ok ho
  obtain ⟨y, y1, y2, y3, -⟩ := xim_ok hp
  obtain ⟨d, d1, -⟩ := offset_ok ho
  obtain ⟨e, e1, -⟩ := offset_ok hp
  simp only [II.eq, x1, y1, d1, e1, C87_flux o ho, C87_flux p hp, Except.bind, Except.map, Except.ok.injEq, Bool.and_eq_true,
    decide_eq_true_eq] at he
  obtain ⟨⟨⟨⟨⟨⟨hx, hkk⟩, -⟩, hfl⟩, hd⟩, -⟩, -⟩ := he
  have hm := imageEq_map x3 y3 hx
  have hs : ∀ f, pixelSum (coordMap (workImage true o.args.im)) f = pixelSum (coordMap (workImage true p.args.im)) f := by
    intro f
    rw [← padded_sum x2, ← padded_sum y2, hm]
  have hl : light (coordMap o.args.im) = light (coordMap p.args.im) := by
    have := hs fun _ => 1
    rw [work_sum ho, work_sum hp] at this
    exact this
  have hj : o.jac = p.jac := by rw [II.jac, II.jac, hw]
  rw [II.xValue, II.xValue, fluxRatio_ok ho, fluxRatio_ok hp, innerX_work ho K hk _ d d1,
    innerX_work hp K (hkk ▸ hk) _ e e1, hfl, hl, hw, hj, hd, ← hkk, spread, spread, hs]

/-- Three pixels in a row, 1, 1 and 5. -/
noncomputable def exRow : Image :=
  ⟨⟨1, 3, fun _ j => if j = 2 then 5 else 1⟩, Bounds.mkDelta clsI ⟨1, true⟩ ⟨3, true⟩ ⟨1, true⟩ ⟨1, true⟩, some false, false⟩

theorem exRow_bounds : exRow.bounds.defined = true ∧ exRow.bounds.xmin = 1 ∧ exRow.bounds.deltax = 3 ∧
    exRow.bounds.ymin = 1 ∧ exRow.bounds.deltay = 1 := by
  simp [exRow, Bounds.mkDelta, Bounds.finish, clsI]

theorem exRow_shape : exRow.ShapeOK := by
  intro _
  simp [exRow, Bounds.mkDelta, Bounds.finish, Bounds.numpyShape, clsI]

theorem exRow_light : light (coordMap exRow) = 7 := by
  rw [← arrSum_light exRow exRow_bounds.1 exRow_shape]
  norm_num [arrSum, gridSum, exRow, Finset.sum_range_succ]

theorem exRow_good (w : LocalWCS) (hw : w.Nondeg) (pf : ℝ) (h4 : pf ≤ 4) : (II.mk (defaultArgs exRow w pf) w).Good where
  ok := by
    show exRow.bounds.OK
    unfold exRow Bounds.OK Bounds.mkDelta Bounds.finish
    simp [clsI]
  shape := exRow_shape
  defd := exRow_bounds.1
  static := rfl
  small := by
    show pf * ((max ((1:ℕ):ℤ) ((3:ℕ):ℤ) : ℤ) : ℝ) ≤ 99999
    norm_num
    linarith
  small' := by
    show max ((1:ℕ):ℤ) ((3:ℕ):ℤ) ≤ 99999
    norm_num
  plain := rfl
  light := by
    show light (coordMap exRow) ≠ 0
    rw [exRow_light]; norm_num
  wcs := hw

theorem imageEq_refl (x : Image) : imageEq x x = true := by simp [imageEq, Bounds.eq]

theorem lower_flux : isSb "flux" = false := by
  have : lower "flux" = "flux".toList := by decide
  rw [isSb, this]; decide

theorem exRow_eq (w w' : LocalWCS) (hw : w.Nondeg) (hw' : w'.Nondeg) (pf pf' : ℝ) (h4 : pf ≤ 4) (h4' : pf' ≤ 4)
    (hs : w.minScale = w'.minScale) (hs' : w.maxScale = w'.maxScale) (hx : ∀ im, Interp.xim pf im = Interp.xim pf' im)
    (io : ℝ × ℝ) : (II.mk (defaultArgs exRow w pf) w).eq (II.mk (defaultArgs exRow w' pf') w') io io = .ok true := by
  have g := exRow_good w hw pf h4
  have g' := exRow_good w' hw' pf' h4'
  obtain ⟨x, x1, -⟩ := xim_ok g
  obtain ⟨y, y1, -⟩ := xim_ok g'
  have hxy : x = y := by
    have : (II.mk (defaultArgs exRow w pf) w).xim = (II.mk (defaultArgs exRow w' pf') w').xim := by
      rw [II.xim, II.xim, image_eq g, image_eq g']
      show ((Interp.xim pf _).mapError _ : Except IIErr Image) = (Interp.xim pf' _).mapError _
      rw [hx]; rfl
    rw [x1, y1] at this
    exact Except.ok.inj this
  have hf : (II.mk (defaultArgs exRow w pf) w).wanted = (II.mk (defaultArgs exRow w' pf') w').wanted := by
    simp only [II.wanted, defaultArgs, lower_flux]
    rfl
  obtain ⟨d, d1, -⟩ := offset_ok g
  have e1 : (II.mk (defaultArgs exRow w' pf') w').offset = .ok d := by
    rw [← d1, II.offset, II.offset, image_eq g, image_eq g']; rfl
  have hm : (II.mk (defaultArgs exRow w pf) w).stepk io.2 = (II.mk (defaultArgs exRow w' pf') w').stepk io.2 := by
    show (if (0:ℝ) > 0 then (0:ℝ) else _ / w.minScale) = (if (0:ℝ) > 0 then (0:ℝ) else _ / w'.minScale)
    rw [hs]
  have hm' : (II.mk (defaultArgs exRow w pf) w).maxk io.1 = (II.mk (defaultArgs exRow w' pf') w').maxk io.1 := by
    show (if (0:ℝ) > 0 then (0:ℝ) else _ / w.maxScale) = (if (0:ℝ) > 0 then (0:ℝ) else _ / w'.maxScale)
    rw [hs']
  have hk : (defaultArgs exRow w pf).kernel = (defaultArgs exRow w' pf').kernel := rfl
  have hk' : (defaultArgs exRow w pf).kKernel = (defaultArgs exRow w' pf').kKernel := rfl
  simp only [II.eq, x1, y1, d1, e1, C87_flux _ g, C87_flux _ g', Except.bind, Except.map, hxy, hf, hm, hm', hk, hk', imageEq_refl, decide_true, Bool.and_self]

/-- Disagreement: `__eq__` (interpolatedimage.py:330-341) does not compare the coordinate systems, so the same image with
unit pixels and with pixels rotated by 90 degrees compare equal while their light differs: at `(1, 0)` one shows the pixel
with value 5 and the other nothing. -/
theorem C87_counterexample_equal (K : ℕ → ℕ → ℝ) (io : ℝ × ℝ) : ∃ (o p : II) (q : ℝ × ℝ), o.Good ∧ p.Good ∧
    o.eq p io io = .ok true ∧ o.xValue K q = .ok 5 ∧ p.xValue K q = .ok 0 := by
  have hw : (LocalWCS.jac ⟨1, 0, 0, 1⟩).Nondeg := by show (1:ℝ) * 1 - 0 * 0 ≠ 0; norm_num
  have hw' : (LocalWCS.jac ⟨0, -1, 1, 0⟩).Nondeg := by show (0:ℝ) * 0 - (-1) * 1 ≠ 0; norm_num
  have g := exRow_good _ hw 4 le_rfl
  have g' := exRow_good _ hw' 4 le_rfl
  obtain ⟨b0, b1, b2, b3, b4⟩ := exRow_bounds
  have hwant : ∀ w : LocalWCS, (II.mk (defaultArgs exRow w 4) w).wanted = 7 := by
    intro w
    simp only [II.wanted, defaultArgs, lower_flux, exRow_light]
    rfl
  have href : ∀ w : LocalWCS, (II.mk (defaultArgs exRow w 4) w).ref = (2, 1) := by
    intro w
    rw [II.ref]
    simp only [defaultArgs, if_true, b1, b2, b3, b4]
    ext <;> norm_num
  refine ⟨_, _, (1, 0), g, g', exRow_eq _ _ hw hw' 4 4 le_rfl le_rfl ?_ ?_ (fun _ => rfl) io, ?_, ?_⟩
  · simp only [LocalWCS.minScale]; norm_num
  · simp only [LocalWCS.maxScale]; norm_num
  · obtain ⟨v, v1, v2⟩ := C87_pixels K _ g (by intro v; simp [defaultArgs]) (by intro v; simp [defaultArgs])
      (by intro n d; simp [defaultArgs]) (3, 1)
    have hq : (WCS.loc (LocalWCS.jac ⟨1, 0, 0, 1⟩)).docMap ((((3:ℤ):ℝ), ((1:ℤ):ℝ)) - (2, 1)) = (1, 0) := by
      rw [← (C37_map _ _).1]; simp only [WCS.toWorld, LocalWCS.uv]; ext <;> norm_num
    rw [href] at v1
    simp only at v1
    rw [hq] at v1
    rw [v1]
    rw [hwant, docArea_eq] at v2
    have hp : pixelAt (coordMap exRow) (3, 1) = 5 := by
      simp only [pixelAt, coordMap, b0, inRect, b1, b2, b3, b4]
      norm_num [exRow]
      decide
    simp only [defaultArgs, exRow_light, hp, LocalWCS.toJac, Mat2.det] at v2
    norm_num at v2
    rw [v2]
  · obtain ⟨v, v1, v2⟩ := C87_pixels K _ g' (by intro v; simp [defaultArgs]) (by intro v; simp [defaultArgs])
      (by intro n d; simp [defaultArgs]) (2, 0)
    have hq : (WCS.loc (LocalWCS.jac ⟨0, -1, 1, 0⟩)).docMap ((((2:ℤ):ℝ), ((0:ℤ):ℝ)) - (2, 1)) = (1, 0) := by
      rw [← (C37_map _ _).1]; simp only [WCS.toWorld, LocalWCS.uv]; ext <;> norm_num
    rw [href] at v1
    simp only at v1
    rw [hq] at v1
    rw [v1]
    rw [hwant, docArea_eq] at v2
    have hp : pixelAt (coordMap exRow) (2, 0) = 0 := by
      simp only [pixelAt, coordMap, b0, inRect, b1, b2, b3, b4]
      norm_num
    simp only [defaultArgs, exRow_light, hp, LocalWCS.toJac, Mat2.det] at v2
    norm_num at v2
    rw [v2]

/-- Disagreement: `__hash__` (interpolatedimage.py:256-293) uses `pad_factor`, which `__eq__` does not compare, so objects that
compare equal feed different values to the hash. -/
theorem C87_counterexample_hash (io : ℝ × ℝ) : ∃ o p : II, o.Good ∧ p.Good ∧ o.eq p io io = .ok true ∧
    ∃ k l, o.key io = .ok k ∧ p.key io = .ok l ∧ k.padFactor ≠ l.padFactor := by
  have hw : (LocalWCS.pix 1).Nondeg := one_ne_zero
  have g := exRow_good _ hw 1 (by norm_num)
  have g' := exRow_good _ hw (1 / 2) (by norm_num)
  refine ⟨_, _, g, g', exRow_eq _ _ hw hw _ _ (by norm_num) (by norm_num) rfl rfl ?_ io, ?_⟩
  · intro im
    have : ∀ h w, padSize 1 h w = padSize (1 / 2) h w := by
      intro h w
      unfold padSize
      simp only
      rw [if_neg (by norm_num), if_neg (by norm_num)]
    unfold Interp.xim
    rw [this]
  · obtain ⟨x, x1, -⟩ := xim_ok g
    obtain ⟨y, y1, -⟩ := xim_ok g'
    obtain ⟨s, s1, -⟩ := padImage_ok g
    obtain ⟨t, t1, -⟩ := padImage_ok g'
    obtain ⟨d, d1, -⟩ := offset_ok g
    obtain ⟨e, e1, -⟩ := offset_ok g'
    have h1 : ∃ k, (II.mk (defaultArgs exRow (.pix 1) 1) (.pix 1)).key io = .ok k ∧ k.padFactor = 1 := by
      refine ⟨_, by rw [II.key, image_eq g, x1, s1, d1, C87_flux _ g]; rfl, rfl⟩
    have h2 : ∃ k, (II.mk (defaultArgs exRow (.pix 1) (1 / 2)) (.pix 1)).key io = .ok k ∧ k.padFactor = 1 / 2 := by
      refine ⟨_, by rw [II.key, image_eq g', y1, t1, e1, C87_flux _ g']; rfl, rfl⟩
    obtain ⟨k, k1, k2⟩ := h1
    obtain ⟨l, l1, l2⟩ := h2
    refine ⟨k, l, k1, l1, ?_⟩
    rw [k2, l2]
    norm_num

/-! ### Non-trivial cases -/

example (K : ℕ → ℕ → ℝ) (q : ℝ × ℝ) :
    ∃ v, (II.mk (defaultArgs exRow (.jac ⟨2, 1, 0, 3⟩) 4) (.jac ⟨2, 1, 0, 3⟩)).xValue K ((WCS.loc (.jac ⟨2, 1, 0, 3⟩)).docMap q) = .ok v :=
  ⟨_, C87_light_partial K _ (exRow_good _ (by show (2:ℝ) * 3 - 1 * 0 ≠ 0; norm_num) 4 le_rfl) trivial q⟩

example (K : ℕ → ℕ → ℝ) : ∃ x : ℝ × ℝ → ℝ,
    (∀ p, (II.mk (defaultArgs exRow (.jac ⟨2, 1, 0, 3⟩) 4) (.jac ⟨2, 1, 0, 3⟩)).xValue K p = .ok (x p)) ∧ ∫ p, x p = 7 := by
  have hw : (LocalWCS.jac ⟨2, 1, 0, 3⟩).Nondeg := by show (2:ℝ) * 3 - 1 * 0 ≠ 0; norm_num
  have g := exRow_good _ hw 4 le_rfl
  have hx : ∀ p, ∃ v, (II.mk (defaultArgs exRow (.jac ⟨2, 1, 0, 3⟩) 4) (.jac ⟨2, 1, 0, 3⟩)).xValue K p = .ok v := by
    intro p
    have h1 := C87_light_partial K _ g trivial ((Mat2.mk 2 1 0 3).inv'.app p)
    rw [docMap_jac] at h1
    simp only [II.jac, LocalWCS.toJac] at h1
    rw [Mat2.app_inv' (by norm_num [Mat2.det])] at h1
    exact ⟨_, h1⟩
  choose x hx using hx
  refine ⟨x, hx, ?_⟩
  rw [(C87_integral_partial K _ g (Or.inr (Or.inr rfl)) x hx).2.1]
  simp only [II.wanted, defaultArgs, lower_flux, exRow_light]
  rfl

example : (II.mk (defaultArgs exRow (.pix 2) 4) (.pix 2)).centroid = .ok (8 / 7, 0) := by
  have g := exRow_good (.pix 2) two_ne_zero 4 le_rfl
  obtain ⟨b0, b1, b2, b3, b4⟩ := exRow_bounds
  rw [C87_centroid_partial _ g rfl (fun _ => by simp only [defaultArgs, b2, b4]; decide), II.lightCentre, docMap_jac]
  have m1 : lightMean (coordMap exRow) pixX = 18 / 7 := by
    rw [lightMean, exRow_light, ← gridSum_pixelSum exRow b0 exRow_shape]
    norm_num [gridSum, exRow, Finset.sum_range_succ, Bounds.mkDelta, Bounds.finish, pixX, clsI]
  have m2 : lightMean (coordMap exRow) pixY = 1 := by
    rw [lightMean, exRow_light, ← gridSum_pixelSum exRow b0 exRow_shape]
    norm_num [gridSum, exRow, Finset.sum_range_succ, Bounds.mkDelta, Bounds.finish, pixY, clsI]
  simp only [II.ref, defaultArgs, m1, m2, b1, b2, b3, b4, if_true, II.jac, LocalWCS.toJac, Mat2.app]
  congr 1
  ext <;> norm_num

example : ∃ o, II.make (defaultArgs exRow (.pix 2) 4) = .ok o := by
  rw [C87_accepts]
  refine ⟨rfl, exRow_bounds.1, by decide, rfl, by norm_num [defaultArgs], rfl, rfl, by simp [defaultArgs], by simp [defaultArgs], fun _ => ?_⟩
  have h : arrSum exRow.arr = 7 := by rw [arrSum_light exRow exRow_bounds.1 exRow_shape, exRow_light]
  rw [arrSum, gridSum] at h
  simp only [defaultArgs]
  rw [h]; norm_num

end JG.Interp
