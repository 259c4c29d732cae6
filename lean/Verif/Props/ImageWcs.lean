import Verif.Model.ImageWcs
import Verif.Props.ImagePix
import Verif.Props.WCS

/-! C108: the sky stays with the pixels. -/

namespace JG

/-- What is seen of the sky: at world position `u` there is a pixel of value `v`. -/
def WImg.Sees (I : WImg) (u : ℝ × ℝ) (v : ℝ) : Prop :=
  ∃ (x y : ℤ) (w : WCS), coordMap I.im x y = some v ∧ I.wcs = some w ∧ w.toWorld ((x : ℝ), (y : ℝ)) = u

theorem localFlag_ok (w : WCS) : w.FlagOK w.localFlag := by
  intro h
  cases w with
  | loc l => exact ⟨l, rfl⟩
  | off => simp [WCS.localFlag] at h

/-- C108: a shift moves the coordinates of the pixels and leaves the sky where it was. -/
theorem C108_shift (I : WImg) (h : I.im.Live) (d : Pos ℤ) :
    (I.shiftBy d).im.Live ∧
    (∀ x y, coordMap (I.shiftBy d).im x y = coordMap I.im (x - d.x) (y - d.y)) ∧
    ∀ u v, (I.shiftBy d).Sees u v ↔ I.Sees u v := by
  obtain ⟨hl, hc⟩ := shiftBy_live h d true rfl
  refine ⟨hl, fun x y => congrFun (congrFun hc x) y, fun u v => ?_⟩
  constructor
  · rintro ⟨x, y, w, h1, h2, h3⟩
    simp only [WImg.shiftBy, Option.map_eq_some_iff] at h1 h2
    obtain ⟨w0, hw0, e⟩ := h2
    rw [hc] at h1
    refine ⟨x - d.x, y - d.y, w0, h1, hw0, ?_⟩
    rw [← h3, ← e, ← C38_shift w0 w0.localFlag (localFlag_ok w0) ((d.x : ℝ), (d.y : ℝ))]
    congr 1
    simp
  · rintro ⟨x, y, w, h1, h2, h3⟩
    refine ⟨x + d.x, y + d.y, w.shiftOrigin w.localFlag ((d.x : ℝ), (d.y : ℝ)) none, ?_, ?_, ?_⟩
    · simp only [WImg.shiftBy, hc]; rw [← h1]; congr 1 <;> ring
    · simp only [WImg.shiftBy, h2, Option.map_some]
    · rw [← h3, ← C38_shift w w.localFlag (localFlag_ok w) ((d.x : ℝ), (d.y : ℝ))]
      congr 1
      simp

/-- C108: so do `setOrigin` and `setCenter`, which put the origin or the centre where they are told. -/
theorem C108_relabel (I : WImg) (h : I.im.Live) (p : Pos ℤ) :
    ((I.setOrigin p).im.Live ∧ (I.setOrigin p).im.bounds.xmin = p.x ∧ (I.setOrigin p).im.bounds.ymin = p.y ∧
      ∀ u v, (I.setOrigin p).Sees u v ↔ I.Sees u v) ∧
    ∃ J, I.setCenter p = (J, none) ∧ J.im.Live ∧ J.im.bounds.centerI = some p ∧ ∀ u v, J.Sees u v ↔ I.Sees u v := by
  obtain ⟨-, r1, r2, r3, -⟩ := C20_relabel I.im h p
  have hc : I.im.bounds.centerI =
      some ⟨I.im.bounds.xmin + I.im.bounds.deltax / 2, I.im.bounds.ymin + I.im.bounds.deltay / 2⟩ := by
    unfold Bounds.centerI; rw [if_neg (by simp [h.defd])]
  constructor
  · have := C108_shift I h ⟨p.x - I.im.bounds.xmin, p.y - I.im.bounds.ymin⟩
    simp only [Image.step, h.static, Bool.and_self] at r1 r2
    exact ⟨this.1, r1, r2, this.2.2⟩
  · refine ⟨I.shiftBy ⟨p.x - (I.im.bounds.xmin + I.im.bounds.deltax / 2), p.y - (I.im.bounds.ymin + I.im.bounds.deltay / 2)⟩,
      ?_, ?_, ?_, ?_⟩
    · simp only [WImg.setCenter, hc]
    · exact (C108_shift I h _).1
    · simp only [Image.step, hc, h.static, Bool.and_self] at r3
      exact r3
    · exact (C108_shift I h _).2.2

theorem ofArrayBounds_flags {a : Arr ℝ} {b : Bounds ℤ} {i c : Bool} {s : Image} (hd : b.defined = true)
    (h : Image.ofArrayBounds a b i c = .ok s) : s.isConst = some c ∧ s.bounds.posPy = b.posPy := by
  unfold Image.ofArrayBounds at h
  rw [if_pos hd] at h
  split_ifs at h
  rw [← Except.ok.inj h]
  exact ⟨rfl, by simp [Bounds.mkDelta, Bounds.finish]⟩

/-- C108: the part `im[b]` of an image sees the pixels in `b`, where the whole sees them. -/
theorem C108_sub (I : WImg) (h : I.im.Live) (b : Bounds ℤ) (hb : b.OK) (hpy : b.posPy = true)
    (hin : I.im.bounds.includesB clsI b = true) :
    ∃ J, I.subImage b = .ok J ∧ J.im.Live ∧ ∀ u v, J.Sees u v ↔
      ∃ (x y : ℤ) (w : WCS), inRect b x y ∧ coordMap I.im x y = some v ∧ I.wcs = some w ∧ w.toWorld ((x : ℝ), (y : ℝ)) = u := by
  obtain ⟨s, h1, h2, h3, h4, h5, h6⟩ := C21_subImage I.im h.shape b hb hin
  have hbd : b.defined = true := by
    simp only [Bounds.includesB, Bool.and_eq_true] at hin
    exact hin.1.1.1.1.2
  have hfl : s.isConst = some false ∧ s.bounds.posPy = b.posPy := by
    unfold Image.subImage at h1
    rw [if_neg (by simp [h.defd]), if_pos (by simp [h.static, hpy]), if_neg (by simp [hin])] at h1
    exact ofArrayBounds_flags hbd h1
  have hsd : s.bounds.defined = true := by
    obtain ⟨x, y, hx⟩ := ((includesB_iff_rect hb).1 hin).1
    have hm := ((includesB_iff_rect hb).1 hin).2 x y hx
    have : (coordMap s x y).isSome = true := by
      rw [h6]; simp only [if_pos hx]; exact (isSome_coordMap x y).2 hm
    exact ((isSome_coordMap x y).1 this).1
  refine ⟨⟨s, I.wcs⟩, by simp only [WImg.subImage, h1], ⟨h3, h4, hsd, hfl.1, hfl.2.trans hpy⟩, fun u v => ?_⟩
  simp only [WImg.Sees, h6]
  constructor
  · rintro ⟨x, y, w, e1, e2, e3⟩
    by_cases hr : inRect b x y
    · rw [if_pos hr] at e1; exact ⟨x, y, w, hr, e1, e2, e3⟩
    · rw [if_neg hr] at e1; exact absurd e1 (by simp)
  · rintro ⟨x, y, w, hr, e1, e2, e3⟩
    exact ⟨x, y, w, by rw [if_pos hr]; exact e1, e2, e3⟩

theorem copy_live (im : Image) (h : im.Live) : ∃ s, im.copy false = .ok s ∧ s.Live ∧ coordMap s = coordMap im := by
  have s1 := h.shape h.defd
  simp only [Bounds.numpyShape, h.defd, if_true, Prod.mk.injEq] at s1
  obtain ⟨s, c1, c2, c3, c4⟩ := C21_copy im h.shape h.ok h.defd false
  refine ⟨s, c1, ?_, c3⟩
  have hs : s = ⟨im.arr, Bounds.mkDelta clsI ⟨im.bounds.xmin, im.bounds.posPy⟩ ⟨im.arr.w, true⟩ ⟨im.bounds.ymin, im.bounds.posPy⟩
      ⟨im.arr.h, true⟩, some false, im.isInt⟩ := by
    unfold Image.copy Image.ofArrayBounds at c1
    rw [if_neg (by simp [h.defd]), if_pos h.defd, if_neg (by push Not; exact ⟨s1.2.symm, s1.1.symm⟩)] at c1
    exact (Except.ok.inj c1).symm
  have hge := h.ok.1.mp h.defd
  have hok := mkDelta_ok im.bounds.xmin im.bounds.ymin im.arr.w im.arr.h im.bounds.posPy
  have hdef := hok.1.mpr ⟨by show (1 : ℤ) ≤ (im.arr.w : ℤ); omega, by show (1 : ℤ) ≤ (im.arr.h : ℤ); omega⟩
  rw [hs]
  refine ⟨hok, ?_, hdef, rfl, ?_⟩
  · intro _
    simp only [Bounds.numpyShape]
    rw [if_pos hdef]
    simp [Bounds.mkDelta, Bounds.finish]
  · show (Bounds.mkDelta clsI ⟨im.bounds.xmin, im.bounds.posPy⟩ ⟨im.arr.w, true⟩ ⟨im.bounds.ymin, im.bounds.posPy⟩
      ⟨im.arr.h, true⟩).posPy = true
    simp [Bounds.mkDelta, Bounds.finish, h.static]

/-- C108: a copy sees what the image sees, if it is given no other wcs: with an origin or a centre, which it then has, or
without. -/
theorem C108_copy (I : WImg) (h : I.im.Live) (o c : Option (Pos ℤ)) :
    (o.isSome = true ∧ c.isSome = true ∧ I.copy none none o c = .error (.im .incompatible)) ∨
    ∃ J, I.copy none none o c = .ok J ∧ J.im.Live ∧ (∀ u v, J.Sees u v ↔ I.Sees u v) ∧
      (∀ p, o = some p → J.im.bounds.xmin = p.x ∧ J.im.bounds.ymin = p.y) ∧
      (∀ p, c = some p → J.im.bounds.centerI = some p) ∧
      (o = none → c = none → coordMap J.im = coordMap I.im) := by
  obtain ⟨s, h1, h2, h3⟩ := copy_live I.im h
  have hs : ∀ u v, (⟨s, I.wcs⟩ : WImg).Sees u v ↔ I.Sees u v := by
    intro u v; simp only [WImg.Sees, h3]
  have hr := fun p => C108_relabel ⟨s, I.wcs⟩ h2 p
  cases o with
  | none =>
    cases c with
    | none =>
      exact Or.inr ⟨⟨s, I.wcs⟩, by simp [WImg.copy, copyWcs, h1], h2, hs, by simp, by simp, fun _ _ => h3⟩
    | some p =>
      obtain ⟨-, J, hJ, j1, j2, j3⟩ := hr p
      refine Or.inr ⟨J, by simp [WImg.copy, copyWcs, h1, hJ], j1, fun u v => (j3 u v).trans (hs u v), by simp, ?_, by simp⟩
      intro q hq; rw [← Option.some.inj hq]; exact j2
  | some p =>
    cases c with
    | none =>
      obtain ⟨⟨j1, j2, j3, j4⟩, -⟩ := hr p
      refine Or.inr ⟨(⟨s, I.wcs⟩ : WImg).setOrigin p, by simp [WImg.copy, copyWcs, h1], j1, fun u v => (j4 u v).trans (hs u v),
        ?_, by simp, by simp⟩
      intro q hq; rw [← Option.some.inj hq]; exact ⟨j2, j3⟩
    | some q => exact Or.inl ⟨rfl, rfl, by simp [WImg.copy]⟩

/-- The statements whose bounds are well formed and python numbers. -/
def WOp.Fine : WOp → Prop
  | .sub b => b.OK ∧ b.posPy = true
  | _ => True

theorem step_sees (I : WImg) (h : I.im.Live) (o : WOp) (ho : o.Fine) :
    (I.step o).1.im.Live ∧ (∀ u v, (I.step o).1.Sees u v → I.Sees u v) ∧
    ((∀ b, o ≠ .sub b) → ∀ u v, I.Sees u v → (I.step o).1.Sees u v) := by
  cases o with
  | shift d =>
    have := C108_shift I h d
    exact ⟨this.1, fun u v => (this.2.2 u v).1, fun _ u v => (this.2.2 u v).2⟩
  | setCenter p =>
    obtain ⟨-, J, hJ, j1, -, j3⟩ := C108_relabel I h p
    simp only [WImg.step, hJ]
    exact ⟨j1, fun u v => (j3 u v).1, fun _ u v => (j3 u v).2⟩
  | setOrigin p =>
    obtain ⟨⟨j1, -, -, j4⟩, -⟩ := C108_relabel I h p
    exact ⟨j1, fun u v => (j4 u v).1, fun _ u v => (j4 u v).2⟩
  | sub b =>
    cases hs : I.subImage b with
    | error e => simp only [WImg.step, hs]; exact ⟨h, fun _ _ h => h, fun _ _ _ h => h⟩
    | ok J =>
      have hin : I.im.bounds.includesB clsI b = true := by
        by_contra hn
        unfold WImg.subImage Image.subImage at hs
        rw [if_neg (by simp [h.defd]), if_pos (by simp [h.static, ho.2]), if_pos (by simpa using hn)] at hs
        simp at hs
      obtain ⟨J', e1, e2, e3⟩ := C108_sub I h b ho.1 ho.2 hin
      rw [e1] at hs
      obtain rfl := Except.ok.inj hs
      simp only [WImg.step, e1]
      refine ⟨e2, fun u v hu => ?_, fun hne => absurd rfl (hne b)⟩
      obtain ⟨x, y, w, -, k1, k2, k3⟩ := (e3 u v).1 hu
      exact ⟨x, y, w, k1, k2, k3⟩
  | copy o c =>
    rcases C108_copy I h o c with ⟨-, -, e⟩ | ⟨J, e, j1, j2, -⟩
    · simp only [WImg.step, e]; exact ⟨h, fun _ _ h => h, fun _ _ _ h => h⟩
    · simp only [WImg.step, e]; exact ⟨j1, fun u v => (j2 u v).1, fun _ u v => (j2 u v).2⟩

/-- C108: after any program of shifts, `setCenter`, `setOrigin`, parts and copies every pixel shows the place on the sky that
it showed at the start; without parts nothing is lost. -/
theorem C108_program (I : WImg) (h : I.im.Live) (ops : List WOp) (ho : ∀ o ∈ ops, o.Fine) :
    (∀ u v, (I.run ops).Sees u v → I.Sees u v) ∧
    ((∀ o ∈ ops, ∀ b, o ≠ .sub b) → ∀ u v, I.Sees u v → (I.run ops).Sees u v) := by
  induction ops generalizing I with
  | nil => exact ⟨fun _ _ h => h, fun _ _ _ h => h⟩
  | cons o ops ih =>
    obtain ⟨l, s1, s2⟩ := step_sees I h o (ho o List.mem_cons_self)
    obtain ⟨i1, i2⟩ := ih (I.step o).1 l fun o' h' => ho o' (List.mem_cons_of_mem _ h')
    exact ⟨fun u v hu => s1 u v (i1 u v hu), fun hn u v hu =>
      i2 (fun o' h' => hn o' (List.mem_cons_of_mem _ h')) u v (s2 (hn o List.mem_cons_self) u v hu)⟩

/-- C108: other pixels with `resize` do not move the coordinate system, unless another one is given. -/
theorem C108_resize (I : WImg) (b : Bounds ℤ) (w : Option WCS) :
    ((I.resize b w).2 = none → (I.resize b w).1.wcs = (match w with | some w => some w | none => I.wcs) ∧
      (I.resize b w).1.im.bounds = b) ∧
    ((I.resize b w).2 ≠ none → (I.resize b w).1 = I) := by
  unfold WImg.resize
  cases hs : I.im.step (.resize b) with
  | mk im' e =>
    cases e with
    | some e => simp
    | none =>
      refine ⟨fun _ => ⟨rfl, ?_⟩, by simp⟩
      simp only [Image.step, Image.guarded] at hs
      rcases hc : I.im.isConst with _ | c
      · simp [hc] at hs
      · cases c with
        | true => simp [hc] at hs
        | false =>
          simp only [hc] at hs
          cases hm : makeEmpty b.numpyShape with
          | none => simp [hm] at hs
          | some a => simp only [hm, Prod.mk.injEq] at hs; rw [← hs.1]

/-- C108: a copy is given the wcs or the scale it is told, and refuses both. -/
theorem C108_copy_wcs (I : WImg) (h : I.im.Live) (s : ℝ) (w : WCS) :
    (∃ J, I.copy (some s) none none none = .ok J ∧ coordMap J.im = coordMap I.im ∧ J.scale = .ok (some s) ∧
      ∀ w', J.wcs = some w' → ∀ p : ℝ × ℝ, w'.toWorld p = (s * p.1, s * p.2)) ∧
    (∃ J, I.copy none (some w) none none = .ok J ∧ coordMap J.im = coordMap I.im ∧ J.wcs = some w) ∧
    I.copy (some s) (some w) none none = .error (.im .incompatible) := by
  obtain ⟨s', h1, h2, h3⟩ := copy_live I.im h
  refine ⟨⟨⟨s', some (.loc (.pix s))⟩, by simp [WImg.copy, copyWcs, h1], h3, rfl, ?_⟩,
    ⟨⟨s', some w⟩, by simp [WImg.copy, copyWcs, h1], h3, rfl⟩, by simp [WImg.copy, copyWcs]⟩
  intro w' hw p
  rw [← Option.some.inj hw]
  simp [WCS.toWorld, LocalWCS.uv, mul_comm]

/-- C108: `im.scale = v` makes pixels of size `v`, which `im.scale` then reports; the pixels are kept, and an image with a wcs
that is not a simple pixel scale refuses and keeps its wcs. -/
theorem C108_scale_set (I : WImg) (v : ℝ) :
    ((∀ w, I.wcs = some w → ∃ c, w.localWCS = .pix c) → ∃ J, I.setScale v = (J, none) ∧ J.im = I.im ∧ J.scale = .ok (some v) ∧
      ∀ w, J.wcs = some w → ∀ p : ℝ × ℝ, w.toWorld p = (v * p.1, v * p.2)) ∧
    ((∃ w, I.wcs = some w ∧ ∀ c, w.localWCS ≠ .pix c) → I.setScale v = (I, some .galsim)) := by
  constructor
  · intro h
    refine ⟨⟨I.im, some (.loc (.pix v))⟩, ?_, rfl, rfl, ?_⟩
    · unfold WImg.setScale
      cases hw : I.wcs with
      | none => rfl
      | some w =>
        obtain ⟨c, hc⟩ := h w hw
        simp [isPixelScale, hc]
    · intro w hw p
      rw [← Option.some.inj hw]
      simp [WCS.toWorld, LocalWCS.uv, mul_comm]
  · rintro ⟨w, hw, hn⟩
    have : isPixelScale w = false := by
      unfold isPixelScale
      cases hl : w.localWCS with
      | pix c => exact absurd hl (hn c)
      | shear _ _ => rfl
      | jac _ => rfl
    simp [WImg.setScale, hw, this]

/-- C108: `im.scale` is the size of the pixels of an image without shear, nothing for an image without a wcs, and refused for
a general matrix.  Missing: sheared systems, for which it should be refused (`C108_counterexample_shear`). -/
theorem C108_scale_partial (I : WImg) :
    (I.scale = .ok none ↔ I.wcs = none) ∧
    (∀ c, (∃ w, I.wcs = some w ∧ w.localWCS = .pix c) → I.scale = .ok (some c)) ∧
    ((∃ w J, I.wcs = some w ∧ w.localWCS = .jac J) → I.scale = .error .galsim) := by
  refine ⟨⟨fun h => ?_, fun h => by simp [WImg.scale, imageScale, h]⟩, ?_, ?_⟩
  · cases hw : I.wcs with
    | none => rfl
    | some w =>
      unfold WImg.scale imageScale at h
      rw [hw] at h
      cases hl : w.localWCS <;> simp [hl] at h
  · rintro c ⟨w, hw, hl⟩
    simp [WImg.scale, imageScale, hw, hl]
  · rintro ⟨w, J, hw, hl⟩
    simp [WImg.scale, imageScale, hw, hl]

/-- Disagreement: an image with a `ShearWCS` is not one with a simple pixel scale, and `im.scale = v` refuses it with the
message that the scale is undefined, but reading `im.scale` gives the number in the `ShearWCS`. -/
theorem C108_counterexample_shear (im : Image) (c v : ℝ) (s : Shear) :
    (⟨im, some (.loc (.shear c s))⟩ : WImg).scale = .ok (some c) ∧
    ((⟨im, some (.loc (.shear c s))⟩ : WImg).setScale v).2 = some .galsim := ⟨rfl, rfl⟩

/-- Disagreement: giving an image the scale that it has, `im.scale = im.scale`, moves its pixels on the sky if the image was
shifted before: the origin of its wcs is dropped. -/
theorem C108_counterexample_reset (im : Image) :
    ∃ J, ((⟨im, some (.loc (.pix 1))⟩ : WImg).shiftBy ⟨1, 0⟩).setScale 1 = (J, none) ∧
      ((⟨im, some (.loc (.pix 1))⟩ : WImg).shiftBy ⟨1, 0⟩).scale = .ok (some 1) ∧
      ∀ w w', ((⟨im, some (.loc (.pix 1))⟩ : WImg).shiftBy ⟨1, 0⟩).wcs = some w → J.wcs = some w' →
        w.toWorld (1, 0) = (0, 0) ∧ w'.toWorld (1, 0) = (1, 0) := by
  refine ⟨⟨im.shiftBy ⟨1, 0⟩ true, some (.loc (.pix 1))⟩, rfl, rfl, ?_⟩
  intro w w' hw hw'
  rw [← Option.some.inj hw, ← Option.some.inj hw']
  constructor
  · simp [WCS.shiftOrigin, WCS.localFlag, WCS.newOrigin, WCS.toWorld, LocalWCS.uv, WCS.localWCS]
  · simp [WCS.toWorld, LocalWCS.uv]

/-- The example image with pixels of size 2: the lower left pixel is (10, -1), at (20, -2) on the sky. -/
noncomputable def exW : WImg := ⟨exIm false, some (.loc (.pix 2))⟩

example : exW.Sees (20, -2) 0 :=
  ⟨10, -1, .loc (.pix 2), by simp [exW, coordMap, exIm, inRect, pyB, Bounds.mk4, Bounds.finish, clsI],
    rfl, by norm_num [WCS.toWorld, LocalWCS.uv]⟩

/-- Shifted, cut and copied with its centre at the origin. -/
example (u : ℝ × ℝ) (v : ℝ) (h : (exW.run [.shift ⟨5, 5⟩, .sub (pyB 15 16 4 5), .copy none (some ⟨0, 0⟩)]).Sees u v) :
    exW.Sees u v := by
  refine (C108_program exW (exIm_live false) _ ?_).1 u v h
  intro o ho
  simp only [List.mem_cons, List.not_mem_nil, or_false] at ho
  rcases ho with rfl | rfl | rfl
  · trivial
  · exact ⟨mk4_ok _ _ _ _, rfl⟩
  · trivial

end JG
