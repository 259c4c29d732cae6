import Verif.Lemmas.WCS
import Verif.Props.ProfileOps

/-! C37, C38 and C40: positions, origins and profiles under the uniform coordinate systems. -/

namespace JG

/-! ### Specification: the documented map -/

/-- The documented 2×2 matrix `∂(u,v)/∂(x,y)`, row by row, of a local system. -/
noncomputable def LocalWCS.docMatrix : LocalWCS → (ℝ × ℝ) × (ℝ × ℝ)
  | .pix c => ((c, 0), (0, c))
  | .shear c s =>
    let f := c / Real.sqrt (1 - s.absg ^ 2)
    ((f * (1 - s.g1), -(f * s.g2)), (-(f * s.g2), f * (1 + s.g1)))
  | .jac J => ((J.a, J.b), (J.c, J.d))

/-- The documented map: `(u, v) = M (x - x0, y - y0) + (u0, v0)`. -/
noncomputable def WCS.docMap (w : WCS) (p : ℝ × ℝ) : ℝ × ℝ :=
  let M := w.localWCS.docMatrix
  let d := match w with
    | .loc _ => p
    | .off _ o _ => (p.1 - o.1, p.2 - o.2)
  let t := match w with
    | .loc _ => ((0, 0) : ℝ × ℝ)
    | .off _ _ q => q
  (M.1.1 * d.1 + M.1.2 * d.2 + t.1, M.2.1 * d.1 + M.2.2 * d.2 + t.2)

/-- Non-degenerate parameters. -/
def WCS.Nondeg (w : WCS) : Prop := w.localWCS.Nondeg

/-! ### C37 -/

/-- C37: every uniform system maps as documented, in the object and in the coordinate form. -/
theorem C37_map (w : WCS) (p : ℝ × ℝ) : w.toWorld p = w.docMap p ∧ w.xyTouv p.1 p.2 = w.docMap p := by
  have key : ∀ (l : LocalWCS) (d : ℝ × ℝ), l.uv d =
      (l.docMatrix.1.1 * d.1 + l.docMatrix.1.2 * d.2, l.docMatrix.2.1 * d.1 + l.docMatrix.2.2 * d.2) := by
    intro l d
    cases l with
    | pix c => ext <;> simp only [LocalWCS.uv, LocalWCS.docMatrix] <;> ring
    | shear c s =>
      ext <;> simp only [LocalWCS.uv, LocalWCS.docMatrix, LocalWCS.gfactor, absg_sq] <;> ring
    | jac J => rfl
  cases w with
  | loc l => constructor <;> simp [WCS.toWorld, WCS.xyTouv, WCS.docMap, WCS.localWCS, key]
  | off l o u =>
    constructor <;> ext <;> simp [WCS.toWorld, WCS.xyTouv, WCS.docMap, WCS.localWCS, key]

/-- C37: `toImage` and `toWorld` are inverse to each other. -/
theorem C37_roundtrip (w : WCS) (h : w.Nondeg) (p : ℝ × ℝ) :
    w.toImage (w.toWorld p) = p ∧ w.toWorld (w.toImage p) = p := by
  cases w with
  | loc l => exact ⟨xy_uv h p, uv_xy h p⟩
  | off l o u =>
    have h : l.Nondeg := h
    simp only [WCS.toImage, WCS.toWorld, add_sub_cancel_right]
    exact ⟨by rw [xy_uv h]; simp, by rw [uv_xy h]; simp⟩

/-- C37: the same for the coordinate forms. -/
theorem C37_coordinates (w : WCS) (h : w.Nondeg) (x y : ℝ) :
    w.uvToxy (w.xyTouv x y).1 (w.xyTouv x y).2 = (x, y) ∧ w.xyTouv (w.uvToxy x y).1 (w.uvToxy x y).2 = (x, y) := by
  cases w with
  | loc l => exact ⟨xy_uv h (x, y), uv_xy h (x, y)⟩
  | off l o u =>
    have h : l.Nondeg := h
    simp only [WCS.uvToxy, WCS.xyTouv, add_sub_cancel_right, Prod.mk.eta]
    exact ⟨by rw [xy_uv h]; simp, by rw [uv_xy h]; simp⟩

example : (WCS.off (.jac ⟨1, 2, 3, 4⟩) (5, 6) (7, 8)).toImage
    ((WCS.off (.jac ⟨1, 2, 3, 4⟩) (5, 6) (7, 8)).toWorld (1, 0)) = (1, 0) :=
  (C37_roundtrip _ (by norm_num [WCS.Nondeg, WCS.localWCS, LocalWCS.Nondeg]) _).1

/-! ### C38 -/

/-- The flag `_isLocal` may be set only on local systems. -/
def WCS.FlagOK (w : WCS) (b : Bool) : Prop := b = true → ∃ l, w = .loc l

/-- C38 without `world_origin`: the mapping moves by `o`. -/
theorem C38_shift (w : WCS) (b : Bool) (hb : w.FlagOK b) (o p : ℝ × ℝ) :
    (w.shiftOrigin b o none).toWorld (p + o) = w.toWorld p := by
  cases b with
  | true =>
    obtain ⟨l, rfl⟩ := hb rfl
    simp [WCS.shiftOrigin, WCS.newOrigin, WCS.toWorld, WCS.localWCS]
  | false =>
    cases w with
    | loc l =>
      simp only [WCS.shiftOrigin, WCS.newOrigin, WCS.toWorld, WCS.localWCS, WCS.origin, WCS.worldOrigin,
        Bool.false_eq_true, if_false, Option.getD_some, show ((0, 0) : ℝ × ℝ) = 0 from rfl, add_zero,
        add_sub_cancel_right]
    | off l q u =>
      simp only [WCS.shiftOrigin, WCS.newOrigin, WCS.toWorld, WCS.localWCS, WCS.origin, WCS.worldOrigin,
        Bool.false_eq_true, if_false, Option.getD_some]
      congr 2; abel

/-- C38: shifts compose. -/
theorem C38_compose (w : WCS) (b b' c : Bool) (hb : w.FlagOK b) (hc : w.FlagOK c) (o o' : ℝ × ℝ)
    (hb' : (w.shiftOrigin b o none).FlagOK b') (p : ℝ × ℝ) :
    ((w.shiftOrigin b o none).shiftOrigin b' o' none).toWorld p = (w.shiftOrigin c (o + o') none).toWorld p := by
  have h1 := C38_shift (w.shiftOrigin b o none) b' hb' o' (p - o')
  have h2 := C38_shift w b hb o (p - o' - o)
  have h3 := C38_shift w c hc (o + o') (p - o' - o)
  rw [sub_add_cancel] at h1 h2
  rw [h1, h2, ← h3]
  congr 1; abel

/-- C38 with `world_origin`, the behaviour described in the comments of the code: the new origin maps to the given
world position and displacements map as before. -/
theorem C38_given (w : WCS) (b : Bool) (hb : w.FlagOK b) (o u d : ℝ × ℝ) :
    (w.shiftOrigin b o (some u)).toWorld o = u ∧
    (w.shiftOrigin b o (some u)).toWorld (o + d) - u = w.toWorld (w.origin + d) - w.toWorld w.origin := by
  have e0 : ∀ l : LocalWCS, l.uv 0 = 0 := fun l => uv_zero l
  have e1 : ∀ l : LocalWCS, l.uv (0, 0) = 0 := fun l => uv_zero l
  cases w with
  | loc l =>
    cases b <;>
    · simp only [WCS.shiftOrigin, WCS.newOrigin, WCS.toWorld, WCS.localWCS, WCS.origin, WCS.worldOrigin,
        Bool.false_eq_true, if_false, if_true, Option.getD_some, sub_self, add_sub_cancel_left, e0, e1, uv_add]
      constructor <;> ext <;> simp
  | off l q v =>
    cases b with
    | true => obtain ⟨l', hl⟩ := hb rfl; exact absurd hl (by simp)
    | false =>
      simp only [WCS.shiftOrigin, WCS.newOrigin, WCS.toWorld, WCS.localWCS, WCS.origin, WCS.worldOrigin,
        Bool.false_eq_true, if_false, Option.getD_some, sub_self, add_sub_cancel_left, e0]
      constructor <;> ext <;> simp

/-- C38 with `world_origin`, local systems: `shiftOrigin(o, u).toWorld(p + o) = toWorld(p) + u`.  Missing: systems that
already have an origin, for which the claim is false. -/
theorem C38_world_partial (l : LocalWCS) (b : Bool) (o u p : ℝ × ℝ) :
    ((WCS.loc l).shiftOrigin b o (some u)).toWorld (p + o) = (WCS.loc l).toWorld p + u := by
  have h := (C38_given (.loc l) b (fun _ => ⟨l, rfl⟩) o u p).2
  have e : (WCS.loc l).toWorld ((WCS.loc l).origin + p) - (WCS.loc l).toWorld (WCS.loc l).origin =
      (WCS.loc l).toWorld p := by
    simp only [WCS.toWorld, WCS.origin, uv_add, uv_zero]
    ext <;> simp
  rw [e] at h
  rw [add_comm p o, ← h]; abel

/-- Disagreement: on a system with its own origin, `shiftOrigin(o, w)` discards that origin (the given position becomes
the new origin), so it is not a shift of the mapping by `o` and `w`. -/
theorem C38_counterexample_given : ∃ (w : WCS) (o u p : ℝ × ℝ), w.FlagOK false ∧
    (w.shiftOrigin false o (some u)).toWorld (p + o) ≠ w.toWorld p + u := by
  refine ⟨.off (.pix 1) (1, 0) (0, 0), (0, 0), (0, 0), (0, 0), (fun h => nomatch h), ?_⟩
  simp [WCS.shiftOrigin, WCS.newOrigin, WCS.toWorld, WCS.localWCS, WCS.origin, WCS.worldOrigin, LocalWCS.uv]

example : ((WCS.off (.pix 2) (1, 0) (3, 3)).shiftOrigin false (5, 5) none).toWorld ((1, 1) + (5, 5)) = (3, 5) := by
  rw [C38_shift _ false (fun h => nomatch h)]
  norm_num [WCS.toWorld, LocalWCS.uv]

/-! ### C40 -/

/-- The documented area of a pixel. -/
noncomputable def LocalWCS.docArea (l : LocalWCS) : ℝ :=
  |l.docMatrix.1.1 * l.docMatrix.2.2 - l.docMatrix.1.2 * l.docMatrix.2.1|

theorem docArea_eq (l : LocalWCS) : l.docArea = |l.toJac.det| := by
  unfold LocalWCS.docArea Mat2.det
  cases l with
  | pix c => simp only [LocalWCS.docMatrix, LocalWCS.toJac]
  | shear c s =>
    simp only [LocalWCS.docMatrix, LocalWCS.toJac, LocalWCS.gfactor, absg_sq]
    congr 1; ring
  | jac J => rfl

/-- C40: the area the code reports is the documented one. -/
theorem C40_area (l : LocalWCS) (h : l.Nondeg) : l.pixelArea = l.docArea := by
  rw [docArea_eq, abs_det_toJac h]

/-- C40, image to world: the flux is only multiplied by `flux_ratio`; the world brightness at the image of `q` is the
image brightness at `q` divided by the pixel area. -/
theorem C40_toWorld (w : WCS) (h : w.Nondeg) (p : Prof) (fr : ℝ) (o : ℝ × ℝ) :
    ∃ p', w.profileToWorld p fr o = some p' ∧ p'.flux = fr * p.flux ∧
      ∀ q, p'.xValue ((WCS.loc w.localWCS).docMap q + o) =
        (p.xValue q).map fun v => fr * v / w.localWCS.docArea := by
  have hd : |w.localWCS.toJac.det| ≠ 0 := abs_ne_zero.mpr (det_toJac h)
  refine ⟨_, profileToWorld_eq h p fr o, ?_, ?_⟩
  · rw [flux_mk]; field_simp
  · intro q
    rw [← (C37_map _ q).1]
    simp only [WCS.toWorld, uv_eq]
    have hv := C42_point p w.localWCS.toJac o (fr / |w.localWCS.toJac.det|) (det_toJac h) q
    have e : w.localWCS.toJac.app q + o = (w.localWCS.toJac.a * q.1 + w.localWCS.toJac.b * q.2 + o.1,
        w.localWCS.toJac.c * q.1 + w.localWCS.toJac.d * q.2 + o.2) := rfl
    rw [e, hv, docArea_eq]
    congr 1; funext v; ring

/-- C40, world to image: the flux is only multiplied by `flux_ratio`; the image brightness at `q` is the world brightness
at the image of `q` times the pixel area. -/
theorem C40_toImage (w : WCS) (h : w.Nondeg) (p : Prof) (fr : ℝ) (o : ℝ × ℝ) :
    ∃ p', w.profileToImage p fr o = some p' ∧ p'.flux = fr * p.flux ∧
      ∀ q, p'.xValue (q + o) =
        (p.xValue ((WCS.loc w.localWCS).docMap q)).map fun v => fr * v * w.localWCS.docArea := by
  have hd : |w.localWCS.toJac.det| ≠ 0 := abs_ne_zero.mpr (det_toJac h)
  have hi : w.localWCS.toJac.inv'.det ≠ 0 := by
    rw [Mat2.det_inv' (det_toJac h)]; exact one_div_ne_zero (det_toJac h)
  refine ⟨_, profileToImage_eq h p fr o, ?_, ?_⟩
  · rw [flux_mk, Mat2.det_inv' (det_toJac h), abs_div, abs_one]; field_simp
  · intro q
    rw [← (C37_map _ q).1]
    simp only [WCS.toWorld, uv_eq]
    have hv := C42_point p w.localWCS.toJac.inv' o (fr * |w.localWCS.toJac.det|) hi (w.localWCS.toJac.app q)
    have e : w.localWCS.toJac.inv'.app (w.localWCS.toJac.app q) + o =
        (w.localWCS.toJac.inv'.a * (w.localWCS.toJac.app q).1 + w.localWCS.toJac.inv'.b * (w.localWCS.toJac.app q).2 + o.1,
         w.localWCS.toJac.inv'.c * (w.localWCS.toJac.app q).1 + w.localWCS.toJac.inv'.d * (w.localWCS.toJac.app q).2 + o.2) :=
      rfl
    rw [Mat2.inv'_app (det_toJac h)] at e
    rw [e, hv, docArea_eq]
    congr 1; funext v; ring

/-- Two profiles no observable tells apart. -/
structure SameProfile (p q : Prof) : Prop where
  flux : p.flux = q.flux
  value : ∀ x, p.xValue x = q.xValue x
  fourier : ∀ k, p.kValue k = q.kValue k
  centroid : p.centroid = q.centroid
  maxSb : p.maxSb = q.maxSb
  posneg : p.posneg = q.posneg

theorem same_one (p : Prof) : SameProfile (mkTransform p .one 0 1) p := by
  refine ⟨?_, ?_, ?_, ?_, ?_, ?_⟩
  · rw [flux_mk, Mat2.det_one]; simp
  · intro x
    have h := C42_point p .one 0 1 (by simp [Mat2.one]) x
    simpa [Mat2.one] using h
  · intro k
    rw [kValue_mk, kFactor_eq]
    simp [Mat2.one, Mat2.tr, Mat2.app]
  · rw [centroid_mk]
    have : (fun c : ℝ × ℝ => Mat2.one.app c + 0) = id := by funext c; simp [Mat2.one_app]
    rw [this, Option.map_id]; rfl
  · rw [maxSb_mk]; simp
  · rw [posneg_mk, Mat2.det_one]; simp

/-- C40: the two conversions undo each other, for every offset and flux ratio undone on the way back. -/
theorem C40_inverse (w : WCS) (h : w.Nondeg) (p : Prof) (fr : ℝ) (hfr : fr ≠ 0) (o : ℝ × ℝ) :
    (∃ p' p'', w.profileToWorld p fr o = some p' ∧
      w.profileToImage p' (1 / fr) (-(WCS.loc w.localWCS).toImage o) = some p'' ∧ SameProfile p'' p) ∧
    (∃ p' p'', w.profileToImage p fr o = some p' ∧
      w.profileToWorld p' (1 / fr) (-(WCS.loc w.localWCS).toWorld o) = some p'' ∧ SameProfile p'' p) := by
  have hJ := det_toJac h
  have hd : |w.localWCS.toJac.det| ≠ 0 := abs_ne_zero.mpr hJ
  constructor
  · refine ⟨_, _, profileToWorld_eq h p fr o, profileToImage_eq h _ _ _, ?_⟩
    rw [mk_mk, inv'_mul hJ]
    have e1 : -(WCS.loc w.localWCS).toImage o + w.localWCS.toJac.inv'.app o = 0 := by
      simp only [WCS.toImage]; rw [xy_eq h]; simp
    have e2 : 1 / fr * |w.localWCS.toJac.det| * (fr / |w.localWCS.toJac.det|) = 1 := by field_simp
    rw [e1, e2]; exact same_one p
  · refine ⟨_, _, profileToImage_eq h p fr o, profileToWorld_eq h _ _ _, ?_⟩
    rw [mk_mk, mul_inv' hJ]
    have e1 : -(WCS.loc w.localWCS).toWorld o + w.localWCS.toJac.app o = 0 := by
      simp only [WCS.toWorld]; rw [uv_eq]; simp
    have e2 : 1 / fr / |w.localWCS.toJac.det| * (fr * |w.localWCS.toJac.det|) = 1 := by field_simp
    rw [e1, e2]; exact same_one p

example : ∃ p', (WCS.loc (.pix (1 / 5))).profileToWorld (.leaf sampleLeaf) 1 (0, 0) = some p' ∧
    p'.flux = 1 * (Prof.leaf sampleLeaf).flux := by
  obtain ⟨p', h1, h2, _⟩ := C40_toWorld (.loc (.pix (1 / 5)))
    (by norm_num [WCS.Nondeg, WCS.localWCS, LocalWCS.Nondeg]) (.leaf sampleLeaf) 1 (0, 0)
  exact ⟨p', h1, h2⟩

end JG
