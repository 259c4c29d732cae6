import Verif.Props.ImagePix
import Mathlib.Tactic.FinCases

/-!
Properties C22 (constant images) and C23 (flips, rotations, transpose).
-/

namespace JG

/-! ### C22 -/

/-- The pixel values of an image, as an array: shape and entries inside the shape. -/
def samePixels (a b : Arr ℝ) : Prop :=
  a.h = b.h ∧ a.w = b.w ∧ ∀ i j, i < a.h → j < a.w → a.at' i j = b.at' i j

/-- Methods that check `isconst` first, plus the relabelling methods, which do not touch pixels. -/
def Op.Respects : Op → Prop
  | .resize _ | .fill _ | .setZero | .setValue _ _ | .addValue _ _ | .setSubImage _ _ | .copyFrom _
  | .invertSelf | .replaceNegative _ => True
  | .shift _ _ | .setCenter _ _ | .setOrigin _ _ => True
  | .inplace .. | .setArray _ | .wrap .. => False

/-- C22, the part that holds: no sequence of resize / fill / setZero / setValue / addValue / setSubImage /
copyFrom / invertSelf / replaceNegative / shift / setCenter / setOrigin calls changes the pixels of a constant
image, and the image stays constant.  Missing: in-place operators, `array = ..`, `wrap`, `addTo` (see the
counterexamples). -/
theorem C22_const_partial (im : Image) (hc : im.isConst = some true) (ops : List Op)
    (ho : ∀ o ∈ ops, o.Respects) :
    (im.run ops).arr = im.arr ∧ (im.run ops).isConst = some true := by
  have hg : ∀ (s : Image) b, s.isConst = some true → s.guarded b = (s, some .immutable) := by
    intro s b h; unfold Image.guarded; rw [h]
  induction ops generalizing im with
  | nil => exact ⟨rfl, hc⟩
  | cons o ops ih =>
    have h1 : (im.step o).1.arr = im.arr ∧ (im.step o).1.isConst = some true := by
      have h := ho o (by simp)
      cases o with
      | inplace => exact absurd h (by simp [Op.Respects])
      | setArray => exact absurd h (by simp [Op.Respects])
      | wrap => exact absurd h (by simp [Op.Respects])
      | shift d py => exact ⟨rfl, hc⟩
      | setOrigin d py => exact ⟨rfl, hc⟩
      | setCenter d py => simp only [Image.step]; split <;> exact ⟨rfl, hc⟩
      | _ => simp only [Image.step, hg im _ hc]; exact ⟨trivial, hc⟩
    have := ih (im.step o).1 h1.2 (fun o' h' => ho o' (by simp [h']))
    rw [h1.1] at this
    exact this

/-- C22: each pixel-writing method among these raises on a constant image. -/
theorem C22_const_raises (im : Image) (hc : im.isConst = some true) (o : Op) (ho : o.Respects)
    (hn : (∀ d py, o ≠ .shift d py) ∧ (∀ d py, o ≠ .setCenter d py) ∧ (∀ d py, o ≠ .setOrigin d py)) :
    im.step o = (im, some .immutable) := by
  have hg : ∀ b, im.guarded b = (im, some .immutable) := by
    intro b; unfold Image.guarded; rw [hc]
  cases o with
  | inplace => exact absurd ho (by simp [Op.Respects])
  | setArray => exact absurd ho (by simp [Op.Respects])
  | wrap => exact absurd ho (by simp [Op.Respects])
  | shift d py => exact absurd rfl (hn.1 d py)
  | setOrigin d py => exact absurd rfl (hn.2.2 d py)
  | setCenter d py => exact absurd rfl (hn.2.1 d py)
  | _ => simp only [Image.step, hg]

/-- The 3x2 example image, constant. -/
def constIm : Image := { exIm false with isConst := some true }

example : constIm.isConst = some true ∧
    ∀ o ∈ [Op.fill 3, .setValue ⟨10, 0⟩ 1, .shift ⟨1, 1⟩ true], o.Respects := by
  refine ⟨rfl, ?_⟩
  intro o ho
  simp only [List.mem_cons, List.not_mem_nil, or_false] at ho
  rcases ho with rfl | rfl | rfl <;> trivial

/-- Disagreement: in-place arithmetic changes a constant image (`im += 1` turns its first pixel from 0 into 1); the same
holds for `-=`, `*=`, `/=`, ... because none of them looks at `isconst`. -/
theorem C22_inplace_counterexample :
    let r := constIm.step (.inplace (· + ·) false true (.scalar 1))
    r.2 = none ∧ constIm.arr.at' 0 0 = 0 ∧ r.1.arr.at' 0 0 = 1 := by
  have h0 : constIm.arr.at' 0 0 = 0 := by simp [constIm, exIm]
  refine ⟨rfl, h0, ?_⟩
  show id (constIm.arr.at' 0 0 + 1) = 1
  rw [h0]; norm_num

/-- Disagreement: assigning to `im.array` changes a constant image. -/
theorem C22_setArray_counterexample :
    let r := constIm.step (.setArray ⟨1, 1, fun _ _ => 5⟩)
    r.2 = none ∧ constIm.arr.at' 0 0 = 0 ∧ r.1.arr.at' 0 0 = 5 := by
  refine ⟨rfl, by simp [constIm, exIm], ?_⟩
  show safeCast false 5 = 5
  rfl

/-- Disagreement: `wrap` changes a constant image (wrapping the 3x2 image onto its lower left pixel turns 0 into 36). -/
theorem C22_wrap_counterexample :
    let r := constIm.step (.wrap 0 (pyB 10 10 (-1) (-1)))
    r.2 = none ∧ constIm.arr.at' 0 0 = 0 ∧ r.1.arr.at' 0 0 = 36 := by
  intro r
  have hw : constIm.wrapArr 0 (pyB 10 10 (-1) (-1)) =
      .ok (imageWrap 0 constIm.arr ⟨10, -1, 3, 2⟩ ⟨10, -1, 1, 1⟩) := rfl
  have hsub : ∃ s, Image.subImage { constIm with
      arr := imageWrap 0 constIm.arr ⟨10, -1, 3, 2⟩ ⟨10, -1, 1, 1⟩ }
      (pyB 10 10 (-1) (-1)) = .ok s := ⟨_, rfl⟩
  obtain ⟨s, hs⟩ := hsub
  have hr : r = ({ constIm with arr := imageWrap 0 constIm.arr ⟨10, -1, 3, 2⟩ ⟨10, -1, 1, 1⟩ },
      none) := by
    show constIm.step _ = _
    simp only [Image.step, hw, hs]
  rw [hr]
  refine ⟨rfl, by norm_num [constIm, exIm], ?_⟩
  norm_num [imageWrap, wrapNonhermitian, nBlocks, Arr.pad, Arr.roll, blockReduceLoop, loopY, loopX,
    Arr.dynamicUpdate, dusStart, constIm, exIm]
  have : ((Int.toNat 2 : ℕ) : ℝ) = 2 := by norm_num [show Int.toNat 2 = 2 from rfl]
  rw [this]; norm_num

/-! ### C23 -/

/-- Same image: same bounds, same shape, same pixels (the missing `_is_const` attribute aside). -/
def Image.Same (a b : Image) : Prop := a.bounds.eq clsI b.bounds = true ∧ samePixels a.arr b.arr

theorem eq_refl' (b : Bounds ℤ) : b.eq clsI b = true := by simp [Bounds.eq]

theorem transposeI_transposeI {b : Bounds ℤ} (h : b.OK) : b.transposeI.transposeI.eq clsI b = true := by
  have h1 : b.transposeI.OK := finish_ok _ _ _ _ _ _ (by
    rcases h.2 with h | h
    · left; simp [h]
    · right; exact h.symm)
  have h2 : b.transposeI.transposeI.OK := finish_ok _ _ _ _ _ _ (by
    rcases h1.2 with h | h
    · left; simp [h]
    · right; exact h.symm)
  have hdef : b.transposeI.transposeI.defined = b.defined := by
    rw [Bool.eq_iff_iff, h2.1, h.1]; exact Iff.rfl
  simp only [Bounds.eq, Bounds.initargs, hdef, decide_eq_true_eq]
  rfl

/-- The pixel at `(col, row)` counted from the lower left corner. -/
def Image.px (im : Image) (col row : ℕ) : ℝ := im.arr.at' row col

/-- C23: where each pixel goes.  A pixel in column `c`, row `r` of a `W x H` image (rows counted upwards) goes to:
transpose: column `r`, row `c`; left-right flip: column `W-1-c`; up-down flip: row `H-1-r`; clockwise rotation
`(x, y) ↦ (y, -x)`: column `r`, row `W-1-c`; counter-clockwise `(x, y) ↦ (-y, x)`: column `H-1-r`, row `c`; half
turn: both reversed.  Shapes are those of the turned rectangle and the lower left corner is kept (swapped for the
transposing ones). -/
theorem C23_moves (im : Image) (c r : ℕ) (hc : c < im.arr.w) (hr : r < im.arr.h) :
    (im.transpose.px r c = im.px c r ∧ im.transpose.arr.w = im.arr.h ∧ im.transpose.arr.h = im.arr.w) ∧
    im.flipLR.px (im.arr.w - 1 - c) r = im.px c r ∧
    im.flipUD.px c (im.arr.h - 1 - r) = im.px c r ∧
    im.rotCW.px r (im.arr.w - 1 - c) = im.px c r ∧
    im.rotCCW.px (im.arr.h - 1 - r) c = im.px c r ∧
    im.rot180.px (im.arr.w - 1 - c) (im.arr.h - 1 - r) = im.px c r := by
  refine ⟨⟨rfl, rfl, rfl⟩, ?_, ?_, ?_, ?_, ?_⟩ <;>
    simp only [Image.px, Image.flipLR, Image.flipUD, Image.rotCW, Image.rotCCW, Image.rot180, Image.raw,
      Arr.revCols, Arr.revRows, Arr.transpose] <;> congr 1 <;> omega

/-- The bounds after a quarter turn or transpose: the corner and sizes are swapped; flips keep them. -/
theorem C23_bounds (im : Image) (h : im.bounds.OK) :
    (∀ im' ∈ [im.transpose, im.rotCW, im.rotCCW], im'.bounds.defined = im.bounds.defined ∧
      im'.bounds.xmin = im.bounds.ymin ∧ im'.bounds.ymin = im.bounds.xmin ∧
      im'.bounds.deltax = im.bounds.deltay ∧ im'.bounds.deltay = im.bounds.deltax) ∧
    (∀ im' ∈ [im.flipLR, im.flipUD, im.rot180], im'.bounds = im.bounds) := by
  have h1 : im.bounds.transposeI.OK := finish_ok _ _ _ _ _ _ (by
    rcases h.2 with h | h
    · left; simp [h]
    · right; exact h.symm)
  have hdef : im.bounds.transposeI.defined = im.bounds.defined := by
    rw [Bool.eq_iff_iff, h1.1, h.1]; exact And.comm
  constructor
  · intro im' hm
    simp only [List.mem_cons, List.not_mem_nil, or_false] at hm
    rcases hm with rfl | rfl | rfl <;> exact ⟨hdef, rfl, rfl, rfl, rfl⟩
  · intro im' hm
    simp only [List.mem_cons, List.not_mem_nil, or_false] at hm
    rcases hm with rfl | rfl | rfl <;> rfl

/-- C23: the relations of the symmetry group of the square: with `r = rot_cw`, `s = flip_lr`,
`r⁴ = s² = (s r)² = 1`, and the other four elements in terms of these. -/
theorem C23_dihedral (im : Image) (h : im.bounds.OK) :
    im.rotCW.rotCW.rotCW.rotCW.Same im ∧ im.flipLR.flipLR.Same im ∧
    im.flipLR.rotCW.flipLR.rotCW.Same im ∧
    im.rotCW.rotCCW.Same im ∧ im.rotCCW.rotCW.Same im ∧
    im.rotCW.rotCW.Same im.rot180 ∧ im.flipLR.flipUD.Same im.rot180 ∧
    im.flipUD.flipUD.Same im ∧ im.transpose.transpose.Same im ∧
    im.transpose.flipUD.Same im.rotCW ∧ im.transpose.flipLR.Same im.rotCCW ∧
    im.rotCCW.flipLR.Same im.transpose ∧ im.rot180.rot180.Same im := by
  have hT := transposeI_transposeI h
  have hT1 : im.bounds.transposeI.OK := finish_ok _ _ _ _ _ _ (by
    rcases h.2 with h | h
    · left; simp [h]
    · right; exact h.symm)
  have hTT : im.bounds.transposeI.transposeI = im.bounds.transposeI.transposeI := rfl
  have hT2 : im.bounds.transposeI.transposeI.OK := finish_ok _ _ _ _ _ _ (by
    rcases hT1.2 with h | h
    · left; simp [h]
    · right; exact h.symm)
  have hT4 : im.bounds.transposeI.transposeI.transposeI.transposeI.eq clsI im.bounds = true := by
    have h1 := transposeI_transposeI hT2
    simp only [Bounds.eq, decide_eq_true_eq] at h1 hT ⊢
    rw [h1, hT]
  refine ⟨⟨hT4, ?_⟩, ⟨eq_refl' _, ?_⟩, ⟨hT, ?_⟩, ⟨hT, ?_⟩, ⟨hT, ?_⟩, ⟨hT, ?_⟩, ⟨eq_refl' _, ?_⟩,
    ⟨eq_refl' _, ?_⟩, ⟨hT, ?_⟩, ⟨eq_refl' _, ?_⟩, ⟨eq_refl' _, ?_⟩, ⟨eq_refl' _, ?_⟩, ⟨eq_refl' _, ?_⟩⟩
  all_goals
    refine ⟨rfl, rfl, ?_⟩
    intro i j hi hj
    simp only [Image.flipLR, Image.flipUD, Image.rotCW, Image.rotCCW, Image.rot180, Image.raw,
      Image.transpose, Arr.revCols, Arr.revRows, Arr.transpose] at hi hj ⊢
    try (congr 1 <;> omega)

/-- All pixel values of an array with their multiplicities. -/
def pixelBag (a : Arr ℝ) : Multiset ℝ :=
  ∑ p ∈ Finset.range a.h ×ˢ Finset.range a.w, ({a.at' p.1 p.2} : Multiset ℝ)

theorem bag_transpose (a : Arr ℝ) : pixelBag a.transpose = pixelBag a := by
  unfold pixelBag Arr.transpose
  refine Finset.sum_bij' (fun p _ => (p.2, p.1)) (fun p _ => (p.2, p.1)) ?_ ?_ ?_ ?_ ?_ <;>
    simp +contextual

theorem bag_revRows (a : Arr ℝ) : pixelBag a.revRows = pixelBag a := by
  unfold pixelBag Arr.revRows
  refine Finset.sum_bij' (fun p _ => (a.h - 1 - p.1, p.2)) (fun p _ => (a.h - 1 - p.1, p.2))
    ?_ ?_ ?_ ?_ ?_
  · rintro ⟨i, j⟩ hp
    simp only [Finset.mem_product, Finset.mem_range] at hp ⊢; omega
  · rintro ⟨i, j⟩ hp
    simp only [Finset.mem_product, Finset.mem_range] at hp ⊢; omega
  · rintro ⟨i, j⟩ hp
    simp only [Finset.mem_product, Finset.mem_range, Prod.mk.injEq, and_true] at hp ⊢; omega
  · rintro ⟨i, j⟩ hp
    simp only [Finset.mem_product, Finset.mem_range, Prod.mk.injEq, and_true] at hp ⊢; omega
  · intros; rfl

theorem bag_revCols (a : Arr ℝ) : pixelBag a.revCols = pixelBag a := by
  unfold pixelBag Arr.revCols
  refine Finset.sum_bij' (fun p _ => (p.1, a.w - 1 - p.2)) (fun p _ => (p.1, a.w - 1 - p.2))
    ?_ ?_ ?_ ?_ ?_
  · rintro ⟨i, j⟩ hp
    simp only [Finset.mem_product, Finset.mem_range] at hp ⊢; omega
  · rintro ⟨i, j⟩ hp
    simp only [Finset.mem_product, Finset.mem_range] at hp ⊢; omega
  · rintro ⟨i, j⟩ hp
    simp only [Finset.mem_product, Finset.mem_range, Prod.mk.injEq, true_and] at hp ⊢; omega
  · rintro ⟨i, j⟩ hp
    simp only [Finset.mem_product, Finset.mem_range, Prod.mk.injEq, true_and] at hp ⊢; omega
  · intros; rfl

/-- C23: each of the six operations permutes the pixels: the multiset of values is the same. -/
theorem C23_permutes (im : Image) :
    pixelBag im.transpose.arr = pixelBag im.arr ∧ pixelBag im.flipLR.arr = pixelBag im.arr ∧
    pixelBag im.flipUD.arr = pixelBag im.arr ∧ pixelBag im.rotCW.arr = pixelBag im.arr ∧
    pixelBag im.rotCCW.arr = pixelBag im.arr ∧ pixelBag im.rot180.arr = pixelBag im.arr := by
  refine ⟨bag_transpose _, bag_revCols _, bag_revRows _, ?_, ?_, ?_⟩
  · show pixelBag im.arr.transpose.revRows = _
    rw [bag_revRows, bag_transpose]
  · show pixelBag im.arr.transpose.revCols = _
    rw [bag_revCols, bag_transpose]
  · show pixelBag im.arr.revRows.revCols = _
    rw [bag_revCols, bag_revRows]

/-- C23: the result keeps the array/bounds consistency of the source. -/
theorem C23_shape (im : Image) (h : im.bounds.OK) (hs : im.ShapeOK) :
    ∀ im' ∈ [im.transpose, im.flipLR, im.flipUD, im.rotCW, im.rotCCW, im.rot180], im'.ShapeOK := by
  have h1 : im.bounds.transposeI.OK := finish_ok _ _ _ _ _ _ (by
    rcases h.2 with h | h
    · left; simp [h]
    · right; exact h.symm)
  have hdef : im.bounds.transposeI.defined = im.bounds.defined := by
    rw [Bool.eq_iff_iff, h1.1, h.1]; exact And.comm
  have hT : ∀ im' : Image, im'.bounds = im.bounds.transposeI → im'.arr.h = im.arr.w →
      im'.arr.w = im.arr.h → im'.ShapeOK := by
    intro im' e1 e2 e3 hd
    rw [e1, hdef] at hd
    have := hs hd
    unfold Bounds.numpyShape at this ⊢
    rw [hd, if_pos rfl, Prod.mk.injEq] at this
    rw [e1, hdef, hd, if_pos rfl, e2, e3, this.1, this.2]
    rfl
  intro im' hm
  simp only [List.mem_cons, List.not_mem_nil, or_false] at hm
  rcases hm with rfl | rfl | rfl | rfl | rfl | rfl
  · exact hT _ rfl rfl rfl
  · exact hs
  · exact hs
  · exact hT _ rfl rfl rfl
  · exact hT _ rfl rfl rfl
  · exact hs

example : (exIm false).bounds.OK ∧ (exIm false).rotCW.px 1 0 = (exIm false).px 2 1 ∧
    (exIm false).px 2 1 = ((12 : ℕ) : ℝ) := ⟨mk4_ok _ _ _ _, rfl, rfl⟩

/-- Disagreement: the images returned by transpose, flips and rotations lack the `_is_const` attribute,
so that every mutator that checks it (`setValue`, `fill`, `resize`, ...) raises `AttributeError` on them. -/
theorem C23_unusable_counterexample (im : Image) (v : ℝ) (p : Pos ℤ) :
    ∀ im' ∈ [im.transpose, im.flipLR, im.flipUD, im.rotCW, im.rotCCW, im.rot180],
      im'.step (.setValue p v) = (im', some .attribute) ∧ im'.step (.fill v) = (im', some .attribute) := by
  intro im' hm
  simp only [List.mem_cons, List.not_mem_nil, or_false] at hm
  rcases hm with rfl | rfl | rfl | rfl | rfl | rfl <;> exact ⟨rfl, rfl⟩

end JG
