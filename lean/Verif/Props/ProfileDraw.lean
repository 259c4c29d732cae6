import Verif.Props.ProfileSum

/-! Properties C46 (deconvolution), C47 (positive and negative flux) and C48 (drawing by sampling). -/

namespace JG

/-! ### C48 -/

mutual
theorem drawReal_singular : ∀ (o : Prof), Flat o → ∀ (s : ℝ) (px : ℝ × ℝ) (j : Mat2) (off : ℝ × ℝ) (fs : ℝ),
    j.det = 0 → o.drawReal s px (some j) off fs = none
  | .leaf L, _, s, px, j, off, fs, h => by
    simp only [Prof.drawReal, drawByX, Option.getD_some, Mat2.inv_none h, Option.bind_none]
  | .trans o J o1 r, hf, s, px, j, off, fs, h => by
    simp only [Prof.drawReal]
    cases hf with
    | trans _ _ _ _ ho _ => exact drawReal_singular o ho s px _ _ _ (by rw [Mat2.det_mul, h, zero_mul])
  | .sum [], hf, s, px, j, off, fs, h => by
    cases hf with
    | sum _ _ _ he => exact absurd rfl he
  | .sum (o :: l), hf, s, px, j, off, fs, h => by
    simp only [Prof.drawReal, Prof.drawRealL]
    cases hf with
    | sum _ hl _ _ => rw [drawReal_singular o (hl o (by simp)) s px j off fs h, Option.bind_none]
  | .conv l, _, s, px, j, off, fs, h => by simp only [Prof.drawReal]
end

mutual
theorem drawReal_eq : ∀ (o : Prof), Flat o → ∀ (s : ℝ) (px : ℝ × ℝ) (jac : Option Mat2) (off : ℝ × ℝ) (fs : ℝ),
    (jac.getD .one).det ≠ 0 →
    o.drawReal s px jac off fs =
      (o.xValue ((jac.getD .one).inv'.app (px.1 * s - off.1, px.2 * s - off.2))).map
        fun v => v * (fs * s ^ 2 / |(jac.getD .one).det|)
  | .leaf L, _, s, px, jac, off, fs, h => by
    simp only [Prof.drawReal, Prof.xValue]
    unfold drawByX
    rw [Mat2.inv_some h, Option.bind_some]
    have hd : 0 < |(jac.getD .one).inv'.det| := by
      rw [Mat2.det_inv' h]; exact abs_pos.mpr (one_div_ne_zero h)
    rw [Real.exp_log hd, Mat2.det_inv' h, abs_div, abs_one]
    congr 1; funext v; ring
  | .trans o J o1 r, hf, s, px, jac, off, fs, h => by
    have ho : Flat o := by cases hf with | trans _ _ _ _ ho _ => exact ho
    have key : ∀ j : Mat2, j.det ≠ 0 →
        o.drawReal s px (some (j.mul J)) (off + j.app o1) (fs * fluxScaling J r) =
          ((Prof.trans o J o1 r).xValue (j.inv'.app (px.1 * s - off.1, px.2 * s - off.2))).map
            fun v => v * (fs * s ^ 2 / |j.det|) := by
      intro j hj
      simp only [Prof.xValue]
      by_cases hJ : J.det = 0
      · rw [Mat2.inv_none hJ]
        have hm : (j.mul J).det = 0 := by rw [Mat2.det_mul, hJ, mul_zero]
        simp only [Option.bind_none, Option.map_none]
        exact drawReal_singular o ho s px _ _ _ hm
      · have hm : (j.mul J).det ≠ 0 := by rw [Mat2.det_mul]; exact mul_ne_zero hj hJ
        rw [drawReal_eq o ho s px (some (j.mul J)) _ _ (by simpa using hm), Mat2.inv_some hJ, Option.bind_some]
        simp only [Option.getD_some, Option.map_map]
        rw [Mat2.inv'_mul_app hj hJ]
        have e : j.inv'.app (px.1 * s - (off + j.app o1).1, px.2 * s - (off + j.app o1).2) =
            j.inv'.app (px.1 * s - off.1, px.2 * s - off.2) - o1 := by
          rw [show ((px.1 * s - (off + j.app o1).1, px.2 * s - (off + j.app o1).2) : ℝ × ℝ) =
            (px.1 * s - off.1, px.2 * s - off.2) - j.app o1 by
              ext <;> simp only [Prod.fst_add, Prod.snd_add, Prod.fst_sub, Prod.snd_sub] <;> ring]
          rw [Mat2.app_sub, Mat2.inv'_app hj]
        rw [e]
        congr 1; funext v
        simp only [Function.comp]
        rw [Mat2.det_mul, abs_mul]
        unfold fluxScaling
        have h1 := abs_pos.mpr hJ
        have h2 := abs_pos.mpr hj
        field_simp
    cases jac with
    | none =>
      have := key .one (by rw [Mat2.det_one]; norm_num)
      simp only [Prof.drawReal, Option.getD_none]
      rw [Mat2.one_mul, Mat2.one_app] at this
      exact this
    | some j =>
      simp only [Prof.drawReal, Option.getD_some]
      exact key j h
  | .sum l, hf, s, px, jac, off, fs, h => by
    have hl : ∀ o ∈ l, Flat o := by cases hf with | sum _ hl _ _ => exact hl
    simp only [Prof.drawReal, Prof.xValue]
    exact drawRealL_eq l hl s px jac off fs h
  | .conv l, _, s, px, jac, off, fs, h => by simp only [Prof.drawReal, Prof.xValue, Option.map_none]
theorem drawRealL_eq : ∀ (l : List Prof), (∀ o ∈ l, Flat o) → ∀ (s : ℝ) (px : ℝ × ℝ) (jac : Option Mat2) (off : ℝ × ℝ) (fs : ℝ),
    (jac.getD .one).det ≠ 0 →
    Prof.drawRealL l s px jac off fs =
      (Prof.xValueL l ((jac.getD .one).inv'.app (px.1 * s - off.1, px.2 * s - off.2))).map
        fun v => v * (fs * s ^ 2 / |(jac.getD .one).det|)
  | [], _, s, px, jac, off, fs, h => by simp [Prof.drawRealL, Prof.xValueL]
  | o :: l, hl, s, px, jac, off, fs, h => by
    simp only [Prof.drawRealL, Prof.xValueL]
    rw [drawReal_eq o (hl o (by simp)) s px jac off fs h,
      drawRealL_eq l (fun o' ho' => hl o' (by simp [ho'])) s px jac off fs h]
    cases o.xValue _ <;> cases Prof.xValueL l _ <;> simp [add_mul]
end

/-- C48: each pixel of `drawReal` is the brightness at the point `y` which Jacobian and offset move to the pixel centre
`s · px`, times the pixel area, the flux scaling and `1 / |det|` - for every object that can be built. -/
theorem C48_drawReal (e : Expr) (s : ℝ) (px : ℝ × ℝ) (J : Mat2) (off : ℝ × ℝ) (fs : ℝ)
    (hJ : J.a * J.d - J.b * J.c ≠ 0) (y : ℝ × ℝ)
    (hy1 : J.a * y.1 + J.b * y.2 + off.1 = px.1 * s) (hy2 : J.c * y.1 + J.d * y.2 + off.2 = px.2 * s) :
    e.build.drawReal s px (some J) off fs =
      (e.sb y).map fun v => v * (fs * s ^ 2 / |J.a * J.d - J.b * J.c|) := by
  have hd : J.det ≠ 0 := hJ
  rw [drawReal_eq _ (C42_flat e) s px (some J) off fs (by simpa using hd)]
  simp only [Option.getD_some]
  have : J.inv'.app (px.1 * s - off.1, px.2 * s - off.2) = y := by
    rw [show ((px.1 * s - off.1, px.2 * s - off.2) : ℝ × ℝ) = J.app y by
      ext <;> simp only [Mat2.app] <;> linarith, Mat2.inv'_app hd]
  rw [this, C42_xValue]; rfl

/-- C48: without Jacobian, offset and flux scaling: brightness at the pixel centre times the pixel area. -/
theorem C48_drawReal_plain (e : Expr) (s : ℝ) (px : ℝ × ℝ) :
    e.build.drawReal s px none 0 1 = (e.sb (px.1 * s, px.2 * s)).map fun v => v * s ^ 2 := by
  rw [drawReal_eq _ (C42_flat e) s px none 0 1 (by rw [Option.getD_none, Mat2.det_one]; norm_num)]
  have : Mat2.one.inv'.app (px.1 * s - (0 : ℝ × ℝ).1, px.2 * s - (0 : ℝ × ℝ).2) = (px.1 * s, px.2 * s) := by
    ext <;> simp [Mat2.inv', Mat2.app, Mat2.one, Mat2.det]
  rw [Option.getD_none, this, C42_xValue, Mat2.det_one]
  congr 1; funext v; simp

/-- C48: drawing a transformed profile samples the transformed brightness. -/
theorem C48_drawReal_trans (e : Expr) (J : Mat2) (off : ℝ × ℝ) (r s : ℝ) (px y : ℝ × ℝ)
    (hJ : J.a * J.d - J.b * J.c ≠ 0)
    (hy1 : J.a * y.1 + J.b * y.2 + off.1 = px.1 * s) (hy2 : J.c * y.1 + J.d * y.2 + off.2 = px.2 * s) :
    (Expr.tr e J off r).build.drawReal s px none 0 1 = (e.sb y).map fun v => r * v * s ^ 2 := by
  rw [C48_drawReal_plain]
  simp only [Expr.sb, if_neg hJ, Option.map_map]
  congr 1
  congr 1
  ext
  · rw [div_eq_iff hJ]; linear_combination J.b * hy2 - J.d * hy1
  · rw [div_eq_iff hJ]; linear_combination J.c * hy1 - J.a * hy2

mutual
theorem drawK_eq : ∀ (o : Prof) (s : ℝ) (px : ℝ × ℝ) (jac : Option Mat2),
    o.drawK s px jac = o.kValue ((jac.getD .one).tr.app (px.1 * s, px.2 * s))
  | .leaf L, s, px, jac => by simp only [Prof.drawK, Prof.kValue, drawByK, rowMul_eq]
  | .trans o J o1 r, s, px, jac => by
    have hph : ∀ j : Mat2, kPhase o1 s px j * (fluxScaling J r : ℂ) = kFactor J o1 r (j.tr.app (px.1 * s, px.2 * s)) := by
      intro j
      unfold kPhase kFactor
      rw [rowMul_eq]
      generalize j.tr.app (px.1 * s, px.2 * s) = k
      simp only
      rw [mul_comm]
      congr 1
      rw [show (k.1 : ℂ) * (-Complex.I * o1.1) + (k.2 : ℂ) * (-Complex.I * o1.2) =
        ((-(k.1 * o1.1 + k.2 * o1.2) : ℝ) : ℂ) * Complex.I by push_cast; ring, Complex.exp_mul_I]
      push_cast; ring
    cases jac with
    | none =>
      simp only [Prof.drawK, Prof.kValue, Option.getD_none]
      rw [drawK_eq o, mul_assoc, hph]
      simp only [Option.getD_some]
      rw [show Mat2.one.tr = Mat2.one from rfl, Mat2.one_app]
    | some j =>
      simp only [Prof.drawK, Prof.kValue, Option.getD_some]
      rw [drawK_eq o, mul_assoc, hph]
      simp only [Option.getD_some]
      rw [Mat2.app_tr_mul]
  | .sum l, s, px, jac => by simp only [Prof.drawK, Prof.kValue]; exact drawKSum_eq l s px jac
  | .conv l, s, px, jac => by simp only [Prof.drawK, Prof.kValue]; exact drawKProd_eq l s px jac
theorem drawKSum_eq : ∀ (l : List Prof) (s : ℝ) (px : ℝ × ℝ) (jac : Option Mat2),
    Prof.drawKSum l s px jac = Prof.kSum l ((jac.getD .one).tr.app (px.1 * s, px.2 * s))
  | [], s, px, jac => by simp only [Prof.drawKSum, Prof.kSum]
  | o :: l, s, px, jac => by
    simp only [Prof.drawKSum, Prof.kSum]; rw [drawK_eq o, drawKSum_eq l]
theorem drawKProd_eq : ∀ (l : List Prof) (s : ℝ) (px : ℝ × ℝ) (jac : Option Mat2),
    Prof.drawKProd l s px jac = Prof.kProd l ((jac.getD .one).tr.app (px.1 * s, px.2 * s))
  | [], s, px, jac => by simp only [Prof.drawKProd, Prof.kProd]
  | o :: l, s, px, jac => by
    simp only [Prof.drawKProd, Prof.kProd]; rw [drawK_eq o, drawKProd_eq l]
end

/-- C48 in Fourier space: each pixel of `drawKImage` is the Fourier value at `Jᵀ k`, `k = s · px`. -/
theorem C48_drawK (e : Expr) (s : ℝ) (px : ℝ × ℝ) (J : Mat2) :
    e.build.drawK s px (some J) =
      e.ft (J.a * (px.1 * s) + J.c * (px.2 * s), J.b * (px.1 * s) + J.d * (px.2 * s)) ∧
    e.build.drawK s px none = e.ft (px.1 * s, px.2 * s) := by
  constructor
  · rw [drawK_eq, C42_kValue]; rfl
  · rw [drawK_eq, C42_kValue, Option.getD_none, show Mat2.one.tr = Mat2.one from rfl, Mat2.one_app]

example : (Expr.tr (.leaf sampleLeaf) ⟨2, 0, 0, 1⟩ (1, 0) 3).build.drawReal (1 / 2) (3, 0) none 0 1 =
    some (3 * (1 + 1 / 4) / 4) := by
  rw [C48_drawReal_trans (.leaf sampleLeaf) ⟨2, 0, 0, 1⟩ (1, 0) 3 (1 / 2) (3, 0) (1 / 4, 0) (by norm_num) (by norm_num)
    (by norm_num)]
  norm_num [Expr.sb, sampleLeaf]

/-- C48 on an integer image, for a profile without sums (a chain of transformations of a concrete profile): the pixel is
the rounded sample. -/
theorem C48_integer_partial (L : Leaf) (J : Mat2) (off : ℝ × ℝ) (r s : ℝ) (px : ℝ × ℝ) :
    (Prof.trans (.leaf L) J off r).drawRealPixelInt s px =
      ((Prof.trans (.leaf L) J off r).drawReal s px none 0 1).map roundHalfEven ∧
    (Prof.leaf L).drawRealPixelInt s px = ((Prof.leaf L).drawReal s px none 0 1).map roundHalfEven := by
  have hr : ∀ n : ℤ, roundHalfEven (n : ℝ) = n := by
    intro n
    unfold roundHalfEven
    simp
  constructor <;>
  · unfold Prof.drawRealPixelInt
    simp only [Prof.drawRealInt, Prof.drawReal, Option.map_map]
    congr 1; funext v
    simp [hr]

/-- Disagreement: drawing a sum onto an integer image rounds the first term before the others are added (two terms of
0.4 give 0 instead of round(0.8) = 1). -/
theorem C48_counterexample_integer_sum :
    ∃ e : Expr, e.sb (0, 0) = some (4 / 5) ∧ roundHalfEven (4 / 5) = 1 ∧
      e.build.drawRealPixelInt 1 (0, 0) = some 0 := by
  have hfl : ∀ x : ℝ, 0 ≤ x → x < 1 / 2 → roundHalfEven x = 0 := by
    intro x h1 h2
    have : ⌊x⌋ = 0 := by rw [Int.floor_eq_iff]; constructor <;> push_cast <;> linarith
    unfold roundHalfEven
    rw [if_pos (by unfold Int.fract; rw [this]; simpa using h2), this]
  have hinv : Mat2.one.inv = some Mat2.one.inv' := Mat2.inv_some (by rw [Mat2.det_one]; norm_num)
  have hdet : |Mat2.one.inv'.det| = 1 := by
    rw [Mat2.det_inv' (by rw [Mat2.det_one]; norm_num), Mat2.det_one]; norm_num
  have hd : drawByX (fun _ => some (2 / 5)) 1 (0, 0) Mat2.one (0 : ℝ × ℝ) 1 = some (2 / 5) := by
    unfold drawByX
    rw [hinv, Option.bind_some, hdet]
    norm_num
  refine ⟨.add (.leaf { sampleLeaf with xv := fun _ => some (2 / 5) })
    [.leaf { sampleLeaf with xv := fun _ => some (2 / 5) }], ?_, ?_, ?_⟩
  · norm_num [Expr.sb, Expr.sbL]
  · unfold roundHalfEven
    have : ⌊(4 / 5 : ℝ)⌋ = 0 := by rw [Int.floor_eq_iff]; constructor <;> norm_num
    rw [if_neg, if_pos, this]
    · norm_num
    · unfold Int.fract; rw [this]; norm_num
    · unfold Int.fract; rw [this]; norm_num
  · simp only [Expr.build, Expr.buildL, mkSum, List.flatMap_cons, List.flatMap_nil, sumTerms,
      Prof.drawRealPixelInt, List.append_nil, List.singleton_append, Prof.drawRealInt, Prof.drawRealL, Prof.drawReal,
      Option.getD_none, hd, Option.map_some, Option.bind_some]
    rw [hfl (2 / 5) (by norm_num) (by norm_num)]
    norm_num
    exact hfl _ (by norm_num) (by norm_num)

/-! ### C46 -/

/-- C46: profile times deconvolution is 1 in Fourier space wherever the profile is not below the threshold. -/
theorem C46_inverse (o : Prof) (acc : ℝ) (k : ℝ × ℝ) (h : o.flux * acc ≤ ‖o.kValue k‖) (h0 : o.kValue k ≠ 0) :
    o.kValue k * deconvKValue o acc k = 1 := by
  unfold deconvKValue minAccK
  rw [if_neg (not_lt.mpr h)]
  field_simp

/-- C46: for a profile of positive flux the deconvolution is bounded by `1 / (flux · accuracy)` everywhere. -/
theorem C46_bounded (o : Prof) (acc : ℝ) (h : 0 < o.flux * acc) (k : ℝ × ℝ) :
    ‖deconvKValue o acc k‖ ≤ 1 / (o.flux * acc) := by
  unfold deconvKValue minAccK
  split_ifs with hk
  · rw [norm_div, norm_one, Complex.norm_real, Real.norm_eq_abs, abs_of_pos h]
  · rw [norm_div, norm_one]
    exact one_div_le_one_div_of_le h (not_lt.mp hk)

/-- Disagreement: for a profile of negative flux the threshold `flux · accuracy` is negative, so small Fourier values are
never cut off and the deconvolution is not bounded (here: 10^20 for a value of 10^-20, accuracy 10^-5). -/
theorem C46_counterexample_negative_flux :
    ∃ o : Prof, o.flux = -1 ∧ deconvKValue o (1 / 100000) (0, 0) = 10 ^ 20 ∧
      ‖o.kValue (0, 0)‖ < |o.flux| * (1 / 100000) := by
  refine ⟨.leaf { sampleLeaf with flux := -1, kv := fun _ => ((1 / 10 ^ 20 : ℝ) : ℂ) }, rfl, ?_, ?_⟩
  · have h : ∀ o : Prof, o.flux = -1 → ¬ ‖o.kValue (0, 0)‖ < minAccK o (1 / 100000) := by
      intro o ho
      unfold minAccK
      rw [ho, not_lt]
      exact le_trans (by norm_num) (norm_nonneg _)
    unfold deconvKValue
    rw [if_neg (h _ rfl)]
    norm_num [Prof.kValue]
  · simp only [Prof.kValue, Prof.flux]
    rw [Complex.norm_real]
    norm_num

/-- C46: flux is the reciprocal and the centroid is reversed. -/
theorem C46_flux (o : Prof) (h : o.flux ≠ 0) (c : ℝ × ℝ) (hc : o.centroid = some c) :
    (∃ f, deconvFlux o = some f ∧ f * o.flux = 1) ∧ deconvCentroid o = some (-c.1, -c.2) := by
  refine ⟨⟨1 / o.flux, by unfold deconvFlux; rw [if_neg h], by field_simp⟩, ?_⟩
  unfold deconvCentroid; rw [hc]; rfl

/-- C46, drawing: within `maxk` and off the threshold itself, each drawn pixel is `kValue` there. -/
theorem C46_drawK_partial (o : Prof) (acc s : ℝ) (px : ℝ × ℝ) (jac : Option Mat2)
    (hk : ((jac.getD .one).tr.app (px.1 * s, px.2 * s)).1 ^ 2 + ((jac.getD .one).tr.app (px.1 * s, px.2 * s)).2 ^ 2
      ≤ o.maxk ^ 2)
    (ht : ‖o.kValue ((jac.getD .one).tr.app (px.1 * s, px.2 * s))‖ ≠ o.flux * acc) :
    deconvDrawK o acc s px jac = deconvKValue o acc ((jac.getD .one).tr.app (px.1 * s, px.2 * s)) := by
  unfold deconvDrawK deconvKValue
  simp only
  rw [drawK_eq]
  rw [if_neg (by
    rw [not_lt]
    refine le_trans (le_of_eq ?_) hk
    simp only [Mat2.tr, Mat2.app]; ring)]
  unfold minAccK
  by_cases h : ‖o.kValue ((jac.getD .one).tr.app (px.1 * s, px.2 * s))‖ < o.flux * acc
  · rw [if_pos h, if_neg (not_lt.mpr h.le)]
  · rw [if_neg h, if_pos (lt_of_le_of_ne (not_lt.mp h) (Ne.symm ht))]

/-- Outside `maxk` the drawn pixel is 0. -/
theorem C46_drawK_outside (o : Prof) (acc s : ℝ) (px : ℝ × ℝ) (h : o.maxk ^ 2 < (px.1 ^ 2 + px.2 ^ 2) * s ^ 2) :
    deconvDrawK o acc s px none = 0 := by
  unfold deconvDrawK
  simp only [Option.getD_none]
  rw [if_pos]
  simp only [Mat2.one]
  linarith

/-- Disagreement: outside `maxk`, `_kValue` does not return the 0 that `_drawKImage` draws. -/
theorem C46_counterexample_outside :
    ∃ o : Prof, deconvDrawK o (1 / 100000) 1 (4, 0) none = 0 ∧ deconvKValue o (1 / 100000) (4, 0) = 1 := by
  refine ⟨.leaf sampleLeaf, C46_drawK_outside _ _ _ _ (by norm_num [Prof.maxk, sampleLeaf]), ?_⟩
  unfold deconvKValue minAccK
  norm_num [Prof.kValue, Prof.flux, sampleLeaf]

/-- Disagreement: exactly at the threshold `_kValue` inverts the value but `_drawKImage` replaces it by the threshold;
for a negative Fourier value the two have opposite sign. -/
theorem C46_counterexample_threshold :
    ∃ o : Prof, deconvDrawK o (1 / 2) 1 (0, 0) none = 2 ∧ deconvKValue o (1 / 2) (0, 0) = -2 := by
  refine ⟨.leaf { sampleLeaf with kv := fun _ => ((-(1 / 2) : ℝ) : ℂ) }, ?_, ?_⟩
  · unfold deconvDrawK minAccK
    rw [drawK_eq]
    simp only [Prof.kValue, Prof.flux, Complex.norm_real, Prof.maxk]
    norm_num [sampleLeaf]
  · unfold deconvKValue minAccK
    simp only [Prof.kValue, Prof.flux, Complex.norm_real]
    norm_num [sampleLeaf]

example : (Prof.leaf sampleLeaf).flux * (1 / 100000) ≤ ‖(Prof.leaf sampleLeaf).kValue (1, 1)‖ := by
  norm_num [Prof.kValue, Prof.flux, sampleLeaf]

/-! ### C47 -/

mutual
/-- Every concrete profile in the tree satisfies `P`. -/
def Prof.AllLeaves (P : Leaf → Prop) : Prof → Prop
  | .leaf L => P L
  | .trans o _ _ _ => o.AllLeaves P
  | .sum l => Prof.AllLeavesL P l
  | .conv l => Prof.AllLeavesL P l
/-- Same for lists. -/
def Prof.AllLeavesL (P : Leaf → Prop) : List Prof → Prop
  | [] => True
  | o :: l => o.AllLeaves P ∧ Prof.AllLeavesL P l
end

mutual
/-- Every flux ratio in the tree is non-negative. -/
def Prof.NonnegRatios : Prof → Prop
  | .leaf _ => True
  | .trans o _ _ r => 0 ≤ r ∧ o.NonnegRatios
  | .sum l => Prof.NonnegRatiosL l
  | .conv l => Prof.NonnegRatiosL l
/-- Same for lists. -/
def Prof.NonnegRatiosL : List Prof → Prop
  | [] => True
  | o :: l => o.NonnegRatios ∧ Prof.NonnegRatiosL l
end

mutual
theorem pn_flux : ∀ (o : Prof), o.AllLeaves (fun L => L.pos - L.neg = L.flux) → o.posneg.1 - o.posneg.2 = o.flux
  | .leaf L, h => by simp only [Prof.AllLeaves] at h; simp only [Prof.posneg, Prof.flux]; exact h
  | .trans o J off r, h => by
    simp only [Prof.AllLeaves] at h
    simp only [Prof.posneg, Prof.flux]
    rw [← pn_flux o h]; ring
  | .sum l, h => by
    simp only [Prof.AllLeaves] at h
    simp only [Prof.posneg, Prof.flux]
    exact pn_fluxSum l h
  | .conv [], h => by simp [Prof.posneg, Prof.flux, Prof.fluxProd]
  | .conv (o :: l), h => by
    simp only [Prof.AllLeaves, Prof.AllLeavesL] at h
    simp only [Prof.posneg, Prof.flux, Prof.fluxProd]
    rw [pn_fluxProd l h.2, pn_flux o h.1]
theorem pn_fluxSum : ∀ (l : List Prof), Prof.AllLeavesL (fun L => L.pos - L.neg = L.flux) l →
    (Prof.pnSum l).1 - (Prof.pnSum l).2 = Prof.fluxSum l
  | [], _ => by simp [Prof.pnSum, Prof.fluxSum]
  | o :: l, h => by
    simp only [Prof.AllLeavesL] at h
    simp only [Prof.pnSum, Prof.fluxSum]
    rw [← pn_flux o h.1, ← pn_fluxSum l h.2]; ring
theorem pn_fluxProd : ∀ (l : List Prof), Prof.AllLeavesL (fun L => L.pos - L.neg = L.flux) l → ∀ s : ℝ × ℝ,
    (Prof.pnConv l s).1 - (Prof.pnConv l s).2 = (s.1 - s.2) * Prof.fluxProd l
  | [], _, s => by simp [Prof.pnConv, Prof.fluxProd]
  | o :: l, h, s => by
    simp only [Prof.AllLeavesL] at h
    simp only [Prof.pnConv, Prof.fluxProd]
    rw [pn_fluxProd l h.2, ← pn_flux o h.1]
    simp only [pnStep]; ring
end

/-- C47: `positive_flux - negative_flux = flux` for every tree of sums, convolutions and transformations (scalings of
either sign) of profiles for which it holds. -/
theorem C47_difference (o : Prof) (h : o.AllLeaves (fun L => L.pos - L.neg = L.flux)) :
    o.positiveFlux - o.negativeFlux = o.flux := pn_flux o h

mutual
theorem pn_nonneg : ∀ (o : Prof), o.AllLeaves (fun L => 0 ≤ L.pos ∧ 0 ≤ L.neg) → o.NonnegRatios →
    0 ≤ o.posneg.1 ∧ 0 ≤ o.posneg.2
  | .leaf L, h, _ => by simp only [Prof.AllLeaves] at h; simp only [Prof.posneg]; exact h
  | .trans o J off r, h, hr => by
    simp only [Prof.AllLeaves] at h
    simp only [Prof.NonnegRatios] at hr
    simp only [Prof.posneg]
    obtain ⟨h1, h2⟩ := pn_nonneg o h hr.2
    have : 0 ≤ fluxScaling J r := mul_nonneg (abs_nonneg _) hr.1
    exact ⟨mul_nonneg this h1, mul_nonneg this h2⟩
  | .sum l, h, hr => by
    simp only [Prof.AllLeaves] at h
    simp only [Prof.NonnegRatios] at hr
    simp only [Prof.posneg]
    exact pn_nonnegSum l h hr
  | .conv [], _, _ => by simp [Prof.posneg]
  | .conv (o :: l), h, hr => by
    simp only [Prof.AllLeaves, Prof.AllLeavesL] at h
    simp only [Prof.NonnegRatios, Prof.NonnegRatiosL] at hr
    simp only [Prof.posneg]
    exact pn_nonnegConv l h.2 hr.2 _ (pn_nonneg o h.1 hr.1)
theorem pn_nonnegSum : ∀ (l : List Prof), Prof.AllLeavesL (fun L => 0 ≤ L.pos ∧ 0 ≤ L.neg) l →
    Prof.NonnegRatiosL l → 0 ≤ (Prof.pnSum l).1 ∧ 0 ≤ (Prof.pnSum l).2
  | [], _, _ => by simp [Prof.pnSum]
  | o :: l, h, hr => by
    simp only [Prof.AllLeavesL] at h
    simp only [Prof.NonnegRatiosL] at hr
    simp only [Prof.pnSum]
    obtain ⟨a, b⟩ := pn_nonneg o h.1 hr.1
    obtain ⟨c, d⟩ := pn_nonnegSum l h.2 hr.2
    exact ⟨add_nonneg a c, add_nonneg b d⟩
theorem pn_nonnegConv : ∀ (l : List Prof), Prof.AllLeavesL (fun L => 0 ≤ L.pos ∧ 0 ≤ L.neg) l →
    Prof.NonnegRatiosL l → ∀ s : ℝ × ℝ, 0 ≤ s.1 ∧ 0 ≤ s.2 → 0 ≤ (Prof.pnConv l s).1 ∧ 0 ≤ (Prof.pnConv l s).2
  | [], _, _, s, hs => by simpa [Prof.pnConv] using hs
  | o :: l, h, hr, s, hs => by
    simp only [Prof.AllLeavesL] at h
    simp only [Prof.NonnegRatiosL] at hr
    simp only [Prof.pnConv]
    obtain ⟨a, b⟩ := pn_nonneg o h.1 hr.1
    obtain ⟨c, d⟩ := hs
    exact pn_nonnegConv l h.2 hr.2 _ ⟨add_nonneg (mul_nonneg c a) (mul_nonneg d b),
      add_nonneg (mul_nonneg c b) (mul_nonneg d a)⟩
end

/-- C47, sign: both fluxes are non-negative if they are so for the concrete profiles and no flux ratio is negative.
Missing: negative flux ratios, for which the claim is false. -/
theorem C47_nonneg_partial (o : Prof) (h : o.AllLeaves (fun L => 0 ≤ L.pos ∧ 0 ≤ L.neg)) (hr : o.NonnegRatios) :
    0 ≤ o.positiveFlux ∧ 0 ≤ o.negativeFlux := pn_nonneg o h hr

/-- Disagreement: scaling by a negative factor multiplies both fluxes by it instead of exchanging them, so `-profile` has
a negative `positive_flux`. -/
theorem C47_counterexample_scaled :
    ∃ o : Prof, o.AllLeaves (fun L => 0 ≤ L.pos ∧ 0 ≤ L.neg ∧ L.pos - L.neg = L.flux) ∧
      (o.withScaledFlux (-1)).positiveFlux < 0 := by
  refine ⟨.leaf sampleLeaf, by norm_num [Prof.AllLeaves, sampleLeaf], ?_⟩
  unfold Prof.withScaledFlux Prof.positiveFlux
  rw [posneg_mk, Mat2.det_one]
  norm_num [Prof.posneg, sampleLeaf]

/-- C47: the fluxes of a convolution multiply like (even, odd) signs: positive photons come from an even number of
negative ones. -/
theorem C47_convolution (p q : Prof) :
    (mkConv [p, q]).positiveFlux = p.positiveFlux * q.positiveFlux + p.negativeFlux * q.negativeFlux ∧
    (mkConv [p, q]).negativeFlux = p.positiveFlux * q.negativeFlux + p.negativeFlux * q.positiveFlux := by
  simp only [mkConv, Prof.positiveFlux, Prof.negativeFlux, Prof.posneg, Prof.pnConv, pnStep, and_self]

/-- C47: the flux carried by each photon times the absolute flux is the flux, and it is between -1 and 1. -/
theorem C47_flux_per_photon (o : Prof) (h : o.AllLeaves (fun L => L.pos - L.neg = L.flux))
    (hn : 0 ≤ o.positiveFlux ∧ 0 ≤ o.negativeFlux) (h0 : 0 < o.positiveFlux + o.negativeFlux) :
    ∃ f, o.fluxPerPhoton = some f ∧ f * (o.positiveFlux + o.negativeFlux) = o.flux ∧ -1 ≤ f ∧ f ≤ 1 := by
  have hd := C47_difference o h
  refine ⟨_, by unfold Prof.fluxPerPhoton; rw [if_neg h0.ne'], ?_, ?_, ?_⟩
  · rw [← hd]; field_simp; ring
  · have : o.negativeFlux / (o.positiveFlux + o.negativeFlux) ≤ 1 := (div_le_one h0).mpr (by linarith)
    linarith
  · have : 0 ≤ o.negativeFlux / (o.positiveFlux + o.negativeFlux) := div_nonneg hn.2 h0.le
    linarith

example : (mkConv [.leaf sampleLeaf2, mkSum [.leaf sampleLeaf, .leaf sampleLeaf2]]).AllLeaves
    (fun L => L.pos - L.neg = L.flux) := by
  norm_num [mkConv, mkSum, sumTerms, Prof.AllLeaves, Prof.AllLeavesL, sampleLeaf, sampleLeaf2]

end JG
