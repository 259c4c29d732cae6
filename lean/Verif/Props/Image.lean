import Verif.Model.Image
import Mathlib.Algebra.BigOperators.Group.Finset.Basic
import Mathlib.Algebra.BigOperators.Group.Finset.Sigma
import Mathlib.Data.Multiset.Basic
import Mathlib.Algebra.Order.Group.Multiset
import Mathlib.Tactic.Linarith
import Mathlib.Tactic.NormNum

/-!
Properties C19–C23 of images.

Specification vocabulary: `Bounds.OK` (a rectangle with both sizes positive is defined, any other is
not — true of all bounds with python-number sizes), `Image.ShapeOK` (array shape equals
`bounds.numpyShape()`), `coordMap` (an image as a partial map from coordinates to values) and `specStep`
(what each call does to such a map).
-/

namespace JG

/-- Bounds whose definedness says exactly that both sizes are positive, and keeps saying so after a
shift.  Fails only for jax-array sizes of which exactly one is positive. -/
def Bounds.OK (b : Bounds ℤ) : Prop :=
  (b.defined = true ↔ 1 ≤ b.deltax ∧ 1 ≤ b.deltay) ∧
  (b.deltaPy = true ∨ (1 ≤ b.deltax ↔ 1 ≤ b.deltay))

/-- The array has the shape announced by the bounds. -/
def Image.ShapeOK (im : Image) : Prop :=
  im.bounds.defined = true → ((im.arr.h : ℤ), (im.arr.w : ℤ)) = im.bounds.numpyShape

/-- Arguments of an operation are well formed. -/
def Op.OK : Op → Prop
  | .resize b => b.OK
  | _ => True

/-- Arguments of a constructor are well formed. -/
def Ctor.OK : Ctor → Prop
  | .bounds b _ => b.OK
  | .image im => im.bounds.OK ∧ im.ShapeOK
  | _ => True

/-! ### bounds built from python sizes are OK -/

theorem finish_defined_iff {α : Type} [CommRing α] [LinearOrder α] (c : Cls α) (x dx y dy : α)
    (p q : Bool) (hI : c.isI = true) (h : q = true ∨ (c.ext ≤ dx ↔ c.ext ≤ dy)) :
    (Bounds.finish c x dx y dy p q true).defined = true ↔ c.ext ≤ dx ∧ c.ext ≤ dy := by
  simp only [← not_lt] at h ⊢
  by_cases h1 : dx < c.ext <;> by_cases h2 : dy < c.ext <;> cases q <;>
    simp_all [Bounds.finish]

theorem finish_ok (x dx y dy : ℤ) (p q : Bool) (h : q = true ∨ (1 ≤ dx ↔ 1 ≤ dy)) :
    (Bounds.finish clsI x dx y dy p q true).OK :=
  ⟨finish_defined_iff clsI x dx y dy p q rfl h, h⟩

theorem empty_ok : (Bounds.empty clsI).OK := by
  refine ⟨?_, Or.inl rfl⟩
  simp [Bounds.empty, Bounds.finish]

theorem mkDelta_ok (x y dx dy : ℤ) (p : Bool) :
    (Bounds.mkDelta clsI ⟨x, p⟩ ⟨dx, true⟩ ⟨y, p⟩ ⟨dy, true⟩).OK := finish_ok _ _ _ _ _ _ (Or.inl rfl)

theorem mk4_ok (x x' y y' : ℤ) :
    (Bounds.mk4 clsI ⟨x, true⟩ ⟨x', true⟩ ⟨y, true⟩ ⟨y', true⟩).OK := finish_ok _ _ _ _ _ _ (Or.inl rfl)

theorem shift_ok {b : Bounds ℤ} (h : b.OK) (d : Pos ℤ) (py : Bool) : (b.shift clsI d py).OK :=
  finish_ok _ _ _ _ _ _ h.2

theorem shift_defined {b : Bounds ℤ} (h : b.OK) (d : Pos ℤ) (py : Bool) :
    (b.shift clsI d py).defined = b.defined := by
  have h1 := (shift_ok h d py).1
  have h2 := h.1
  rw [Bool.eq_iff_iff, h1, h2]; rfl

/-! ### C19 -/

theorem makeEmpty_shape {b : Bounds ℤ} {a : Arr ℝ} (hb : b.OK) (hd : b.defined = true)
    (h : makeEmpty b.numpyShape = some a) : ((a.h : ℤ), (a.w : ℤ)) = b.numpyShape := by
  obtain ⟨h1, h2⟩ := hb.1.mp hd
  simp only [Bounds.numpyShape, hd, if_true, makeEmpty] at h ⊢
  have hp : b.deltay * b.deltax ≠ 0 := by positivity
  rw [if_neg hp, if_neg (by omega)] at h
  cases h
  simp only [Prod.mk.injEq]; omega

theorem addInit_shape (i : Bool) (v : Option ℝ) (a : Arr ℝ) :
    (addInit i v a).h = a.h ∧ (addInit i v a).w = a.w := by
  cases v <;> exact ⟨rfl, rfl⟩

theorem ofArrayBounds_ok {a : Arr ℝ} {b : Bounds ℤ} {i c : Bool} {im : Image}
    (h : Image.ofArrayBounds a b i c = .ok im) : im.bounds.OK ∧ im.ShapeOK := by
  unfold Image.ofArrayBounds at h
  split_ifs at h with h1 h2
  · cases h
    refine ⟨mkDelta_ok _ _ _ _ _, fun hd => ?_⟩
    show _ = Bounds.numpyShape _
    unfold Bounds.numpyShape
    rw [if_pos hd]; rfl
  · cases h
    exact ⟨empty_ok, fun hd => by simp [Bounds.empty, Bounds.finish] at hd⟩

theorem make_ok {c : Ctor} {i k : Bool} {im : Image} (hc : c.OK)
    (h : Image.make c i k = .ok im) : im.bounds.OK ∧ im.ShapeOK := by
  cases c with
  | size ncol nrow xmin ymin py init =>
    simp only [Image.make] at h
    split at h
    · cases h
    · rename_i a ha
      cases h
      refine ⟨mkDelta_ok _ _ _ _ _, fun hd => ?_⟩
      have hb := mkDelta_ok xmin ymin ncol nrow py
      have hs := makeEmpty_shape (a := a) hb hd
        (by simp only [Bounds.numpyShape, if_pos hd]; exact ha)
      rw [← hs]
      have := addInit_shape i init a
      simp [this]
  | bounds b init =>
    simp only [Image.make] at h
    split at h
    · cases h
    · rename_i a ha
      cases h
      refine ⟨hc, fun hd => ?_⟩
      have hs := makeEmpty_shape (a := a) hc hd ha
      rw [← hs]
      have := addInit_shape i init a
      simp [this]
  | array a xmin ymin py =>
    simp only [Image.make] at h
    split_ifs at h
    · cases h
      exact ⟨empty_ok, fun hd => by simp [Bounds.empty, Bounds.finish] at hd⟩
    · cases h
      refine ⟨mkDelta_ok _ _ _ _ _, fun hd => ?_⟩
      show _ = Bounds.numpyShape _
      unfold Bounds.numpyShape
      rw [if_pos hd]; rfl
  | arrayBounds a b => exact ofArrayBounds_ok h
  | image im' =>
    cases h
    exact ⟨hc.1, hc.2⟩
  | empty =>
    cases h
    exact ⟨empty_ok, fun hd => by simp [Bounds.empty, Bounds.finish] at hd⟩

theorem imageWrap_shape (mode : ℕ) (a : Arr ℝ) (r b : Rect) (hm : mode = 0 ∨ mode = 1 ∨ mode = 2) :
    (imageWrap mode a r b).h = a.h ∧ (imageWrap mode a r b).w = a.w := by
  rcases hm with rfl | rfl | rfl
  · exact ⟨rfl, rfl⟩
  · constructor
    · rfl
    · show (a.w - 1 + a.w) - (a.w - 1 + a.w) / 2 = a.w
      omega
  · constructor
    · show (a.h - 1 + a.h) - (a.h - 1 + a.h) / 2 = a.h
      omega
    · rfl

theorem wrapArr_shape {im : Image} {mode : ℕ} {b : Bounds ℤ} {a : Arr ℝ}
    (h : im.wrapArr mode b = .ok a) : a.h = im.arr.h ∧ a.w = im.arr.w := by
  unfold Image.wrapArr at h
  simp only at h
  split_ifs at h <;> cases h
  · exact imageWrap_shape _ _ _ _ (Or.inl rfl)
  · exact imageWrap_shape _ _ _ _ (Or.inr (Or.inl rfl))
  · exact imageWrap_shape _ _ _ _ (Or.inr (Or.inr rfl))

/-- What a step does to shapes: either a resize, or a shift of the bounds, or the bounds and the shape stay. -/
theorem step_shape (im : Image) (o : Op) :
    ((im.step o).1.bounds = im.bounds ∧ (im.step o).1.arr.h = im.arr.h ∧
      (im.step o).1.arr.w = im.arr.w) ∨
    (∃ d py, (im.step o).1.bounds = im.bounds.shift clsI d py ∧ (im.step o).1.arr = im.arr) ∨
    (∃ b a, o = .resize b ∧ makeEmpty b.numpyShape = some a ∧ (im.step o).1.bounds = b ∧
      (im.step o).1.arr = a) := by
  cases o with
  | resize b =>
    simp only [Image.step, Image.guarded]
    split
    · exact Or.inl ⟨rfl, rfl, rfl⟩
    · exact Or.inl ⟨rfl, rfl, rfl⟩
    · split
      · exact Or.inl ⟨rfl, rfl, rfl⟩
      · rename_i a ha
        exact Or.inr (Or.inr ⟨b, a, rfl, ha, rfl, rfl⟩)
  | shift d py => exact Or.inr (Or.inl ⟨d, py, rfl, rfl⟩)
  | setCenter p py =>
    simp only [Image.step]
    split
    · exact Or.inl ⟨rfl, rfl, rfl⟩
    · exact Or.inr (Or.inl ⟨_, _, rfl, rfl⟩)
  | setOrigin p py => exact Or.inr (Or.inl ⟨_, _, rfl, rfl⟩)
  | fill v =>
    left; simp only [Image.step, Image.guarded]
    repeat' split
    all_goals exact ⟨rfl, rfl, rfl⟩
  | setZero =>
    left; simp only [Image.step, Image.guarded]
    repeat' split
    all_goals exact ⟨rfl, rfl, rfl⟩
  | setValue p v =>
    left; simp only [Image.step, Image.guarded, Image.updPixel]
    repeat' split
    all_goals exact ⟨rfl, rfl, rfl⟩
  | addValue p v =>
    left; simp only [Image.step, Image.guarded, Image.updPixel]
    repeat' split
    all_goals exact ⟨rfl, rfl, rfl⟩
  | setSubImage b rhs =>
    left; simp only [Image.step, Image.guarded]
    split
    · exact ⟨rfl, rfl, rfl⟩
    · exact ⟨rfl, rfl, rfl⟩
    · unfold Image.setSub
      split_ifs
      · exact ⟨rfl, rfl, rfl⟩
      · exact ⟨rfl, rfl, rfl⟩
      · exact ⟨rfl, rfl, rfl⟩
      · simp only
        split
        · exact ⟨rfl, rfl, rfl⟩
        · rename_i a ha
          unfold Arr.setSlice at ha
          split at ha
          · cases ha
          · cases ha; exact ⟨rfl, rfl, rfl⟩
      · simp only
        split
        · exact ⟨rfl, rfl, rfl⟩
        · rename_i a ha
          unfold Arr.dynUpdate? at ha
          split_ifs at ha
          cases ha; exact ⟨rfl, rfl, rfl⟩
  | copyFrom rhs =>
    left; simp only [Image.step, Image.guarded]
    repeat' split
    all_goals exact ⟨rfl, rfl, rfl⟩
  | invertSelf =>
    left; simp only [Image.step, Image.guarded]
    repeat' split
    all_goals exact ⟨rfl, rfl, rfl⟩
  | replaceNegative v =>
    left; simp only [Image.step, Image.guarded]
    repeat' split
    all_goals exact ⟨rfl, rfl, rfl⟩
  | inplace f io d rhs =>
    left; simp only [Image.step]
    split
    · exact ⟨rfl, rfl, rfl⟩
    · split <;> exact ⟨rfl, rfl, rfl⟩
  | setArray a =>
    left; simp only [Image.step]
    split <;> exact ⟨rfl, rfl, rfl⟩
  | wrap mode b =>
    left; simp only [Image.step]
    split
    · exact ⟨rfl, rfl, rfl⟩
    · rename_i a ha
      have := wrapArr_shape ha
      split <;> exact ⟨rfl, this.1, this.2⟩

theorem step_ok {im : Image} {o : Op} (ho : o.OK) (hb : im.bounds.OK) (hs : im.ShapeOK) :
    (im.step o).1.bounds.OK ∧ (im.step o).1.ShapeOK := by
  rcases step_shape im o with ⟨h1, h2, h3⟩ | ⟨d, py, h1, h2⟩ | ⟨b, a, rfl, ha, h1, h2⟩
  · refine ⟨h1 ▸ hb, ?_⟩
    unfold Image.ShapeOK
    rw [h1, h2, h3]; exact hs
  · refine ⟨h1 ▸ shift_ok hb d py, ?_⟩
    unfold Image.ShapeOK
    rw [h1, h2]
    intro hd
    have hd' : im.bounds.defined = true := by rw [← shift_defined hb d py]; exact hd
    have := hs hd'
    rw [this]
    unfold Bounds.numpyShape
    rw [if_pos hd, if_pos hd']; rfl
  · refine ⟨by rw [h1]; exact ho, ?_⟩
    unfold Image.ShapeOK
    rw [h1, h2]
    intro hd
    exact makeEmpty_shape ho hd ha

theorem run_ok {im : Image} {ops : List Op} (ho : ∀ o ∈ ops, o.OK) (hb : im.bounds.OK)
    (hs : im.ShapeOK) : (im.run ops).bounds.OK ∧ (im.run ops).ShapeOK := by
  induction ops generalizing im with
  | nil => exact ⟨hb, hs⟩
  | cons o ops ih =>
    have := step_ok (ho o (by simp)) hb hs
    exact ih (fun o' h => ho o' (by simp [h])) this.1 this.2

/-- C19: whatever constructor was used and whatever public mutators were called afterwards (whether or not
they raised), a defined image has an array whose shape is `bounds.numpyShape()`. -/
theorem C19_shape_invariant_partial (c : Ctor) (isInt const : Bool) (im : Image) (hc : c.OK)
    (h : Image.make c isInt const = .ok im) (ops : List Op) (ho : ∀ o ∈ ops, o.OK)
    (hd : (im.run ops).bounds.defined = true) :
    (((im.run ops).arr.h : ℤ), ((im.run ops).arr.w : ℤ)) = (im.run ops).bounds.numpyShape := by
  have h0 := make_ok hc h
  exact (run_ok ho h0.1 h0.2).2 hd

/-- C19: a call that raises leaves the image unchanged — every public mutator except `wrap`, and `wrap`
too when the wrap region lies inside the image. -/
theorem C19_raise_unchanged_partial (im : Image) (hs : im.ShapeOK) (hb : im.bounds.OK) (o : Op)
    (e : ImErr) (h : (im.step o).2 = some e)
    (hw : ∀ mode b, o = .wrap mode b → im.bounds.includesB clsI b = true) :
    (im.step o).1 = im := by
  cases o with
  | wrap mode b =>
    have hin := hw mode b rfl
    simp only [Image.step] at h ⊢
    split
    · rfl
    · rename_i a ha
      rw [ha] at h
      simp only at h
      exfalso
      have hsh := wrapArr_shape ha
      simp only [Bounds.includesB, Bool.and_eq_true, decide_eq_true_eq] at hin
      obtain ⟨⟨⟨⟨⟨d1, d2⟩, x1⟩, x2⟩, y1⟩, y2⟩ := hin
      have hs' := hs d1
      simp only [Bounds.numpyShape, d1, if_true, Prod.mk.injEq] at hs'
      have hge := hb.1.mp d1
      have hne : ∃ s, Image.subImage { im with arr := a } b = .ok s := by
        simp only [Bounds.xmax, Bounds.ymax, clsI] at x2 y2
        unfold Image.subImage
        rw [if_neg (by simp [d1])]
        split_ifs with c1 c2
        · exfalso
          simp [Bounds.includesB, d1, d2, x1, y1, Bounds.xmax, Bounds.ymax, clsI] at c2
          omega
        · unfold Image.ofArrayBounds
          rw [if_pos d2]
          by_cases hpos : 0 ≤ b.deltax ∧ 0 ≤ b.deltay
          · rw [if_neg]
            · exact ⟨_, rfl⟩
            · simp only [Arr.slice, Bounds.xmax, Bounds.ymax, clsI, hsh.1, hsh.2]
              push Not
              constructor <;> omega
          · exfalso
            unfold Image.wrapArr at ha
            simp only at ha
            split_ifs at ha <;> simp only [Bounds.xmax, Bounds.ymax, clsI] at * <;> omega
        · by_cases hpos : 0 ≤ b.deltax ∧ 0 ≤ b.deltay
          · have : ∃ a', Arr.dynSlice a (b.ymin - im.bounds.ymin) (b.xmin - im.bounds.xmin)
                b.numpyShape.1 b.numpyShape.2 = some a' ∧ (a'.h : ℤ) = b.deltay ∧
                (a'.w : ℤ) = b.deltax := by
              simp only [Bounds.numpyShape, d2, if_true, Arr.dynSlice]
              rw [if_pos ⟨by omega, by omega, by omega, by omega⟩]
              exact ⟨_, rfl, by simp; omega, by simp; omega⟩
            obtain ⟨a', e1, e2, e3⟩ := this
            simp only [e1]
            unfold Image.ofArrayBounds
            rw [if_pos d2, if_neg (by push Not; exact ⟨e3.symm, e2.symm⟩)]
            exact ⟨_, rfl⟩
          · exfalso
            unfold Image.wrapArr at ha
            simp only at ha
            split_ifs at ha <;> simp only [Bounds.xmax, Bounds.ymax, clsI] at * <;> omega
      obtain ⟨s, hsub⟩ := hne
      rw [hsub] at h
      cases h
  | resize b =>
    simp only [Image.step, Image.guarded] at h ⊢
    repeat' split
    all_goals first | rfl | (exfalso; simp_all)
  | shift d py => simp [Image.step] at h
  | setCenter p py =>
    simp only [Image.step] at h ⊢
    repeat' split
    all_goals first | rfl | (exfalso; simp_all)
  | setOrigin p py => simp [Image.step] at h
  | fill v =>
    simp only [Image.step, Image.guarded] at h ⊢
    repeat' split
    all_goals first | rfl | (exfalso; simp_all)
  | setZero =>
    simp only [Image.step, Image.guarded] at h ⊢
    repeat' split
    all_goals first | rfl | (exfalso; simp_all)
  | setValue p v =>
    simp only [Image.step, Image.guarded, Image.updPixel] at h ⊢
    repeat' split
    all_goals first | rfl | (exfalso; simp_all)
  | addValue p v =>
    simp only [Image.step, Image.guarded, Image.updPixel] at h ⊢
    repeat' split
    all_goals first | rfl | (exfalso; simp_all)
  | setSubImage b rhs =>
    simp only [Image.step, Image.guarded, Image.setSub] at h ⊢
    repeat' split
    all_goals first | rfl | (exfalso; simp_all)
  | copyFrom rhs =>
    simp only [Image.step, Image.guarded] at h ⊢
    repeat' split
    all_goals first | rfl | (exfalso; simp_all)
  | invertSelf =>
    simp only [Image.step, Image.guarded] at h ⊢
    repeat' split
    all_goals first | rfl | (exfalso; simp_all)
  | replaceNegative v =>
    simp only [Image.step, Image.guarded] at h ⊢
    repeat' split
    all_goals first | rfl | (exfalso; simp_all)
  | inplace f io d rhs =>
    simp only [Image.step] at h ⊢
    repeat' split
    all_goals first | rfl | (exfalso; simp_all)
  | setArray a =>
    simp only [Image.step] at h ⊢
    repeat' split
    all_goals first | rfl | (exfalso; simp_all)

/-- Bounds with python numbers, as in `BoundsI(x, x', y, y')`. -/
def pyB (x x' y y' : ℤ) : Bounds ℤ := Bounds.mk4 clsI ⟨x, true⟩ ⟨x', true⟩ ⟨y, true⟩ ⟨y', true⟩

/-- A hypothesis instance for C19: build a 3x2 image, shift it, write a pixel, add, resize, wrap. -/
example : ∃ im, Image.make (.size 3 2 1 1 true (some 5)) false false = .ok im ∧
    (∀ o ∈ [Op.shift ⟨4, -1⟩ true, .setValue ⟨5, 0⟩ 7, .inplace (· + ·) false true (.scalar 2),
      .resize (pyB 0 3 0 4), .wrap 0 (pyB 0 1 0 1)], o.OK) := by
  refine ⟨_, rfl, ?_⟩
  intro o ho
  simp only [List.mem_cons, List.not_mem_nil, or_false] at ho
  rcases ho with rfl | rfl | rfl | rfl | rfl
  · trivial
  · trivial
  · trivial
  · exact mk4_ok 0 3 0 4
  · trivial

/-- Disagreement: an image without defined bounds (`Image()`) holds a 1x1 array although
`bounds.numpyShape()` is `(0, 0)`. -/
theorem C19_undefined_counterexample (isInt const : Bool) : ∃ im,
    Image.make .empty isInt const = .ok im ∧
      ((im.arr.h : ℤ), (im.arr.w : ℤ)) = (1, 1) ∧ im.bounds.numpyShape = (0, 0) :=
  ⟨_, rfl, rfl, rfl⟩

/-- Disagreement: with jax-array sizes a rectangle empty in one direction counts as defined, and an image made from it has a 1x1 array while
`bounds.numpyShape()` is `(5, 0)`. -/
theorem C19_jax_sizes_counterexample :
    let b := Bounds.mkDelta clsI ⟨1, true⟩ ⟨0, false⟩ ⟨1, true⟩ ⟨5, false⟩
    ∃ im, Image.make (.bounds b none) false false = .ok im ∧ im.bounds.defined = true ∧
      ((im.arr.h : ℤ), (im.arr.w : ℤ)) = (1, 1) ∧ im.bounds.numpyShape = (5, 0) :=
  ⟨_, rfl, rfl, rfl, rfl⟩

/-- Disagreement: `wrap` to a region that is not inside the image raises only after it has overwritten the
pixels (`ImageD(2, 2)` with pixels 1, 2, 3, 4 wrapped to `BoundsI(2, 3, 1, 1)`). -/
theorem C19_wrap_raise_counterexample :
    let im : Image := ⟨⟨2, 2, fun i j => (2 * i + j + 1 : ℕ)⟩, pyB 1 2 1 2, some false, false⟩
    let r := im.step (.wrap 0 (pyB 2 3 1 1))
    r.2 = some .outOfBounds ∧ im.arr.at' 0 0 = 1 ∧ r.1.arr.at' 0 0 = 6 := by
  intro im r
  have hw : im.wrapArr 0 (pyB 2 3 1 1) =
      .ok (imageWrap 0 im.arr ⟨1, 1, 2, 2⟩ ⟨2, 1, 2, 1⟩) := rfl
  have hsub : Image.subImage { im with arr := imageWrap 0 im.arr ⟨1, 1, 2, 2⟩ ⟨2, 1, 2, 1⟩ }
      (pyB 2 3 1 1) = .error .outOfBounds := rfl
  have hr : r = ({ im with arr := imageWrap 0 im.arr ⟨1, 1, 2, 2⟩ ⟨2, 1, 2, 1⟩ },
      some .outOfBounds) := by
    show im.step _ = _
    simp only [Image.step, hw, hsub]
  rw [hr]
  refine ⟨rfl, by norm_num [im], ?_⟩
  norm_num [imageWrap, wrapNonhermitian, nBlocks, Arr.pad, Arr.roll, blockReduceLoop, loopY, loopX,
    Arr.dynamicUpdate, dusStart, im]

end JG
