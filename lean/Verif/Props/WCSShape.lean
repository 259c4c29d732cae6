import Verif.Props.WCS

/-! C39: decomposition, scales, inverses and shears of the local coordinate systems. -/

namespace JG

/-- The matrix of a rotation by `t` radians. -/
noncomputable def rot (t : ℝ) : Mat2 := ⟨Real.cos t, -Real.sin t, Real.sin t, Real.cos t⟩
/-- The exchange of `x` and `y`, applied if `flip`. -/
def flipMat (f : Bool) : Mat2 := if f then ⟨0, 1, 1, 0⟩ else ⟨1, 0, 0, 1⟩

theorem rot_arg {C S : ℝ} (h : 0 < C ^ 2 + S ^ 2) :
    Real.cos (Complex.arg ⟨C, S⟩) = C / Real.sqrt (C ^ 2 + S ^ 2) ∧
    Real.sin (Complex.arg ⟨C, S⟩) = S / Real.sqrt (C ^ 2 + S ^ 2) := by
  have hn : ‖(⟨C, S⟩ : ℂ)‖ = Real.sqrt (C ^ 2 + S ^ 2) := by
    rw [← Real.sqrt_sq (norm_nonneg _), normsq_re_im]
  have h0 : (⟨C, S⟩ : ℂ) ≠ 0 := by
    intro e
    rw [Complex.ext_iff] at e
    simp only [Complex.zero_re, Complex.zero_im] at e
    rw [e.1, e.2] at h; norm_num at h
  rw [Complex.cos_arg h0, Complex.sin_arg, hn]
  exact ⟨rfl, rfl⟩

/-- The heart of the decomposition, for a matrix of positive determinant. -/
theorem decompose_pos (a b c d : ℝ) (h : 0 < a * d - b * c) :
    let C := a + d
    let S := c - b
    let N := C * C + S * S
    let g1 := C / N * (a - d) - S / N * (b + c)
    let g2 := S / N * (a - d) + C / N * (b + c)
    let r := Real.sqrt (a * d - b * c) / Real.sqrt (1 - (g1 ^ 2 + g2 ^ 2))
    g1 ^ 2 + g2 ^ 2 < 1 ∧
    r * ((1 + g1) * Real.cos (Complex.arg ⟨C, S⟩) + g2 * Real.sin (Complex.arg ⟨C, S⟩)) = a ∧
    r * (-((1 + g1) * Real.sin (Complex.arg ⟨C, S⟩)) + g2 * Real.cos (Complex.arg ⟨C, S⟩)) = b ∧
    r * (g2 * Real.cos (Complex.arg ⟨C, S⟩) + (1 - g1) * Real.sin (Complex.arg ⟨C, S⟩)) = c ∧
    r * (-(g2 * Real.sin (Complex.arg ⟨C, S⟩)) + (1 - g1) * Real.cos (Complex.arg ⟨C, S⟩)) = d := by
  intro C S N g1 g2 r
  have hN : 0 < N := by
    have : N = 4 * (a * d - b * c) + ((a - d) ^ 2 + (b + c) ^ 2) := by simp only [N, C, S]; ring
    rw [this]; positivity
  have hgg : g1 ^ 2 + g2 ^ 2 = ((a - d) ^ 2 + (b + c) ^ 2) / N := by
    simp only [g1, g2]
    field_simp
    simp only [N]; ring
  have h1 : 1 - (g1 ^ 2 + g2 ^ 2) = 4 * (a * d - b * c) / N := by
    rw [hgg]; field_simp; simp only [N, C, S]; ring
  have hlt : g1 ^ 2 + g2 ^ 2 < 1 := by
    have : 0 < 4 * (a * d - b * c) / N := by positivity
    linarith
  have hr : r = Real.sqrt N / 2 := by
    simp only [r]
    rw [h1, Real.sqrt_div (by positivity), Real.sqrt_mul (by norm_num),
      show Real.sqrt 4 = 2 by rw [show (4 : ℝ) = 2 ^ 2 by norm_num]; exact Real.sqrt_sq (by norm_num)]
    have := (Real.sqrt_pos.mpr h).ne'
    have := (Real.sqrt_pos.mpr hN).ne'
    field_simp
  have hN' : C ^ 2 + S ^ 2 = N := by simp only [N]; ring
  obtain ⟨hc, hs⟩ := rot_arg (C := C) (S := S) (by rw [hN']; exact hN)
  have hq := (Real.sqrt_pos.mpr hN).ne'
  rw [hc, hs, hN', hr]
  have e1 : g1 * C + g2 * S = a - d := by
    simp only [g1, g2]; field_simp; simp only [N]; ring
  have e2 : g2 * C - g1 * S = b + c := by
    simp only [g1, g2]; field_simp; simp only [N]; ring
  refine ⟨hlt, ?_, ?_, ?_, ?_⟩
  · field_simp; simp only [C, S] at *; linarith
  · field_simp; simp only [C, S] at *; linarith
  · field_simp; simp only [C, S] at *; linarith
  · field_simp; simp only [C, S] at *; linarith

/-- The same with the values named. -/
theorem decompose_named (a b c d g1 g2 t : ℝ) (h : 0 < a * d - b * c)
    (h1 : g1 = (a + d) / ((a + d) * (a + d) + (c - b) * (c - b)) * (a - d) -
      (c - b) / ((a + d) * (a + d) + (c - b) * (c - b)) * (b + c))
    (h2 : g2 = (c - b) / ((a + d) * (a + d) + (c - b) * (c - b)) * (a - d) +
      (a + d) / ((a + d) * (a + d) + (c - b) * (c - b)) * (b + c))
    (ht : t = Complex.arg ⟨a + d, c - b⟩) :
    g1 ^ 2 + g2 ^ 2 < 1 ∧
    (let r := Real.sqrt (a * d - b * c) / Real.sqrt (1 - (g1 ^ 2 + g2 ^ 2))
     r * ((1 + g1) * Real.cos t + g2 * Real.sin t) = a ∧
     r * (-((1 + g1) * Real.sin t) + g2 * Real.cos t) = b ∧
     r * (g2 * Real.cos t + (1 - g1) * Real.sin t) = c ∧
     r * (-(g2 * Real.sin t) + (1 - g1) * Real.cos t) = d) := by
  subst h1 h2 ht
  exact decompose_pos a b c d h

/-- C39: `getDecomposition` gives `J = scale · S · R(θ) · F` with a legal shear `S`, and `F` the exchange of axes exactly
for negative determinant. -/
theorem C39_decomposition (J : Mat2) (h : J.a * J.d - J.b * J.c ≠ 0) :
    ∃ s, (LocalWCS.decomposition J).shear = some s ∧ s.absg < 1 ∧ 0 < (LocalWCS.decomposition J).scale ∧
      (LocalWCS.decomposition J).scale ^ 2 = |J.a * J.d - J.b * J.c| ∧
      ((LocalWCS.decomposition J).flip = true ↔ J.a * J.d - J.b * J.c < 0) ∧
      (LocalWCS.decomposition J).theta ∈ Set.Ioc (-Real.pi) Real.pi ∧
      (let M := (s.matrix.mul (rot (LocalWCS.decomposition J).theta)).mul (flipMat (LocalWCS.decomposition J).flip)
       let c := (LocalWCS.decomposition J).scale
       J = ⟨c * M.a, c * M.b, c * M.c, c * M.d⟩) := by
  have hlegal : ∀ g1 g2 : ℝ, g1 ^ 2 + g2 ^ 2 < 1 → Shear.ofG g1 g2 = some ⟨⟨g1, g2⟩⟩ ∧
      (⟨⟨g1, g2⟩⟩ : Shear).absg < 1 ∧ (⟨⟨g1, g2⟩⟩ : Shear).absg ^ 2 = g1 ^ 2 + g2 ^ 2 := by
    intro g1 g2 hg
    have e : (⟨⟨g1, g2⟩⟩ : Shear).absg ^ 2 = g1 ^ 2 + g2 ^ 2 := absg_sq _
    have h0 : 0 ≤ (⟨⟨g1, g2⟩⟩ : Shear).absg := norm_nonneg _
    have h1 : (⟨⟨g1, g2⟩⟩ : Shear).absg < 1 := by nlinarith
    have h2 : ¬ ‖(⟨g1, g2⟩ : ℂ)‖ > 1 := not_lt.mpr (le_of_lt h1)
    refine ⟨?_, h1, e⟩
    unfold Shear.ofG
    rw [if_neg h2]
  obtain ⟨a, b, c, d⟩ := J
  by_cases hneg : (Mat2.mk a b c d).det < 0
  · have hp : 0 < b * c - a * d := by have : a * d - b * c < 0 := hneg; linarith
    obtain ⟨g1, h1⟩ : ∃ g1, g1 = (b + c) / ((b + c) * (b + c) + (d - a) * (d - a)) * (b - c) -
      (d - a) / ((b + c) * (b + c) + (d - a) * (d - a)) * (a + d) := ⟨_, rfl⟩
    obtain ⟨g2, h2⟩ : ∃ g2, g2 = (d - a) / ((b + c) * (b + c) + (d - a) * (d - a)) * (b - c) +
      (b + c) / ((b + c) * (b + c) + (d - a) * (d - a)) * (a + d) := ⟨_, rfl⟩
    obtain ⟨t, ht⟩ : ∃ t, t = Complex.arg ⟨b + c, d - a⟩ := ⟨_, rfl⟩
    have hD : LocalWCS.decomposition ⟨a, b, c, d⟩ = ⟨Real.sqrt |(Mat2.mk a b c d).det|, Shear.ofG g1 g2, t, true⟩ := by
      simp only [LocalWCS.decomposition, if_pos hneg, h1, h2, ht, decide_eq_true hneg]
    obtain ⟨hlt, ea, eb, ec, ed⟩ := decompose_named b a d c g1 g2 t hp h1 h2 ht
    obtain ⟨l1, l2, l3⟩ := hlegal _ _ hlt
    have habs : |(Mat2.mk a b c d).det| = b * c - a * d := by
      rw [abs_of_neg hneg]; simp only [Mat2.det]; ring
    rw [hD]
    refine ⟨_, l1, l2, ?_, ?_, ?_, ?_, ?_⟩
    · simp only [habs]; exact Real.sqrt_pos.mpr hp
    · simp only; rw [Real.sq_sqrt (abs_nonneg _)]; rfl
    · exact iff_of_true rfl hneg
    · simp only [ht]; exact Complex.arg_mem_Ioc _
    · simp only [flipMat, if_true, Mat2.mul, rot, Shear.matrix, l3, Shear.g1, Shear.g2, habs]
      refine Mat2.ext' ?_ ?_ ?_ ?_
      · exact eb.symm.trans (by ring)
      · exact ea.symm.trans (by ring)
      · exact ed.symm.trans (by ring)
      · exact ec.symm.trans (by ring)
  · have hp : 0 < a * d - b * c := lt_of_le_of_ne (not_lt.mp hneg) (Ne.symm h)
    obtain ⟨g1, h1⟩ : ∃ g1, g1 = (a + d) / ((a + d) * (a + d) + (c - b) * (c - b)) * (a - d) -
      (c - b) / ((a + d) * (a + d) + (c - b) * (c - b)) * (b + c) := ⟨_, rfl⟩
    obtain ⟨g2, h2⟩ : ∃ g2, g2 = (c - b) / ((a + d) * (a + d) + (c - b) * (c - b)) * (a - d) +
      (a + d) / ((a + d) * (a + d) + (c - b) * (c - b)) * (b + c) := ⟨_, rfl⟩
    obtain ⟨t, ht⟩ : ∃ t, t = Complex.arg ⟨a + d, c - b⟩ := ⟨_, rfl⟩
    have hD : LocalWCS.decomposition ⟨a, b, c, d⟩ = ⟨Real.sqrt |(Mat2.mk a b c d).det|, Shear.ofG g1 g2, t, false⟩ := by
      simp only [LocalWCS.decomposition, if_neg hneg, h1, h2, ht, decide_eq_false hneg]
    obtain ⟨hlt, ea, eb, ec, ed⟩ := decompose_named a b c d g1 g2 t hp h1 h2 ht
    obtain ⟨l1, l2, l3⟩ := hlegal _ _ hlt
    have habs : |(Mat2.mk a b c d).det| = a * d - b * c := abs_of_pos hp
    rw [hD]
    refine ⟨_, l1, l2, ?_, ?_, ?_, ?_, ?_⟩
    · simp only [habs]; exact Real.sqrt_pos.mpr hp
    · simp only; rw [Real.sq_sqrt (abs_nonneg _)]; rfl
    · exact iff_of_false (by simp) hneg
    · simp only [ht]; exact Complex.arg_mem_Ioc _
    · simp only [flipMat, Bool.false_eq_true, if_false, Mat2.mul, rot, Shear.matrix, l3, Shear.g1, Shear.g2, habs]
      refine Mat2.ext' ?_ ?_ ?_ ?_
      · exact ea.symm.trans (by ring)
      · exact eb.symm.trans (by ring)
      · exact ec.symm.trans (by ring)
      · exact ed.symm.trans (by ring)

/-- The stretch factors of the documented map. -/
def LocalWCS.stretches (l : LocalWCS) : Set ℝ :=
  {t | ∃ q : ℝ × ℝ, q.1 ^ 2 + q.2 ^ 2 = 1 ∧
    t = Real.sqrt (((WCS.loc l).docMap q).1 ^ 2 + ((WCS.loc l).docMap q).2 ^ 2)}

/-- Positive scale. -/
def LocalWCS.PosScale : LocalWCS → Prop
  | .pix c => 0 < c
  | .shear c s => 0 < c ∧ s.absg < 1
  | .jac _ => True

theorem scales_eq (l : LocalWCS) (h : l.PosScale) :
    l.maxScale = (majorMinor l.toJac).1 ∧ l.minScale = (majorMinor l.toJac).2 := by
  cases l with
  | pix c =>
    have hc : 0 < c := h
    have h2 : Real.sqrt ((c + c) ^ 2) = c + c := Real.sqrt_sq (by linarith)
    simp only [LocalWCS.maxScale, LocalWCS.minScale, LocalWCS.toJac, majorMinor, sub_self, add_zero, ne_eq,
      OfNat.ofNat_ne_zero, not_false_eq_true, zero_pow, h2, Real.sqrt_zero, sub_zero]
    rw [abs_of_pos (by linarith)]
    constructor <;> ring
  | shear c s =>
    have hc : 0 < c := h.1
    have hg := gfactor_pos h.2
    set G := Real.sqrt (s.g1 ^ 2 + s.g2 ^ 2) with hG
    have hG0 : 0 ≤ G := Real.sqrt_nonneg _
    have hG2 : G ^ 2 = s.g1 ^ 2 + s.g2 ^ 2 := Real.sq_sqrt (by positivity)
    have hG1 : G < 1 := by have := one_sub_g_pos h.2; nlinarith
    set f := LocalWCS.gfactor s
    have e1 : Real.sqrt (((1 - s.g1) * c * f + (1 + s.g1) * c * f) ^ 2 + (-s.g2 * c * f - -s.g2 * c * f) ^ 2) =
        2 * c * f := by
      rw [show ((1 - s.g1) * c * f + (1 + s.g1) * c * f) ^ 2 + (-s.g2 * c * f - -s.g2 * c * f) ^ 2 =
        (2 * c * f) ^ 2 by ring]
      exact Real.sqrt_sq (by positivity)
    have e2 : Real.sqrt (((1 - s.g1) * c * f - (1 + s.g1) * c * f) ^ 2 + (-s.g2 * c * f + -s.g2 * c * f) ^ 2) =
        2 * c * f * G := by
      rw [show ((1 - s.g1) * c * f - (1 + s.g1) * c * f) ^ 2 + (-s.g2 * c * f + -s.g2 * c * f) ^ 2 =
        (2 * c * f * G) ^ 2 by rw [mul_pow _ G, hG2]; ring]
      exact Real.sqrt_sq (by positivity)
    simp only [LocalWCS.maxScale, LocalWCS.minScale, LocalWCS.toJac, majorMinor]
    rw [e1, e2, ← hG, abs_of_nonneg (by positivity), abs_of_nonneg (by nlinarith [mul_pos hc hg])]
    constructor <;> ring
  | jac J =>
    simp only [LocalWCS.maxScale, LocalWCS.minScale, LocalWCS.toJac, majorMinor]
    rw [abs_of_nonneg (by positivity)]
    simp

/-- C39: `maxLinearScale` and `minLinearScale` are the extreme stretch factors and multiply to the pixel area, for all
three classes. -/
theorem C39_scales (l : LocalWCS) (h : l.PosScale) :
    IsGreatest l.stretches l.maxScale ∧ IsLeast l.stretches l.minScale ∧ l.maxScale * l.minScale = l.docArea := by
  obtain ⟨e1, e2⟩ := scales_eq l h
  obtain ⟨h1, h2, h3⟩ := C67_extremes l.toJac
  have hset : l.stretches = {t | ∃ q : ℝ × ℝ, q.1 ^ 2 + q.2 ^ 2 = 1 ∧ t = Real.sqrt
      ((l.toJac.a * q.1 + l.toJac.b * q.2) ^ 2 + (l.toJac.c * q.1 + l.toJac.d * q.2) ^ 2)} := by
    unfold LocalWCS.stretches
    congr 1; funext t
    congr 1; funext q
    rw [← (C37_map _ q).1]
    simp only [WCS.toWorld, uv_eq, Mat2.app]
  rw [hset, e1, e2, docArea_eq]
  exact ⟨h1, h2, h3⟩

/-- Disagreement: a negative `PixelScale` is accepted and its `minLinearScale` and `maxLinearScale` are negative. -/
theorem C39_counterexample_negative_scale : ¬ IsGreatest (LocalWCS.pix (-1)).stretches (LocalWCS.pix (-1)).maxScale := by
  rintro ⟨⟨q, _, hq⟩, _⟩
  have : (0 : ℝ) ≤ (LocalWCS.pix (-1)).maxScale := hq ▸ Real.sqrt_nonneg _
  simp only [LocalWCS.maxScale] at this
  linarith

/-- C39: the inverse system undoes the map on both sides, for all six classes; its Jacobian is the matrix inverse. -/
theorem C39_inverse (w : WCS) (h : w.Nondeg) (p : ℝ × ℝ) :
    w.inverse.toWorld (w.toWorld p) = p ∧ w.toWorld (w.inverse.toWorld p) = p ∧ w.inverse.Nondeg ∧
    w.inverse.localWCS.toJac.mul w.localWCS.toJac = ⟨1, 0, 0, 1⟩ ∧
    w.localWCS.toJac.mul w.inverse.localWCS.toJac = ⟨1, 0, 0, 1⟩ := by
  have hl : w.inverse.localWCS = w.localWCS.inverse := by cases w <;> rfl
  have hJ : w.inverse.localWCS.toJac = w.localWCS.toJac.inv' := by rw [hl, inverse_toJac h]
  have hd := det_toJac h
  refine ⟨?_, ?_, ?_, ?_, ?_⟩
  · cases w with
    | loc l =>
      have h : l.Nondeg := h
      simp only [WCS.inverse, WCS.toWorld]; rw [uv_eq, uv_eq, inverse_toJac h, Mat2.inv'_app (det_toJac h)]
    | off l o u =>
      have h : l.Nondeg := h
      simp only [WCS.inverse, WCS.newOrigin, WCS.toWorld, WCS.localWCS, Option.getD_some, add_sub_cancel_right]
      rw [uv_eq, uv_eq, inverse_toJac h, Mat2.inv'_app (det_toJac h)]; simp
  · cases w with
    | loc l =>
      have h : l.Nondeg := h
      simp only [WCS.inverse, WCS.toWorld]; rw [uv_eq, uv_eq, inverse_toJac h, Mat2.app_inv' (det_toJac h)]
    | off l o u =>
      have h : l.Nondeg := h
      simp only [WCS.inverse, WCS.newOrigin, WCS.toWorld, WCS.localWCS, Option.getD_some, add_sub_cancel_right]
      rw [uv_eq, uv_eq, inverse_toJac h, Mat2.app_inv' (det_toJac h)]; simp
  · unfold WCS.Nondeg; rw [hl]; exact nondeg_inverse h
  · rw [hJ]; exact inv'_mul hd
  · rw [hJ]; exact mul_inv' hd

example : ∃ s, (LocalWCS.decomposition ⟨0, 2, 1, 1⟩).shear = some s ∧ s.absg < 1 := by
  obtain ⟨s, h1, h2, _⟩ := C39_decomposition ⟨0, 2, 1, 1⟩ (by norm_num)
  exact ⟨s, h1, h2⟩

/-! ### Shears -/

/-- The shape tensor of a shear, up to scale: `[[1 + e1, e2], [e2, 1 - e1]]`. -/
noncomputable def shape (s : Shear) : Mat2 := ⟨1 + s.e1, s.e2, s.e2, 1 - s.e1⟩

theorem e_sq_lt {s : Shear} (h : s.absg < 1) : s.e1 ^ 2 + s.e2 ^ 2 < 1 := by
  have h0 : 0 ≤ s.absg := norm_nonneg _
  have hx : s.g.re ^ 2 + s.g.im ^ 2 = s.absg ^ 2 := (normsq_re_im _).symm
  have e : s.e1 ^ 2 + s.e2 ^ 2 = (2 * s.absg / (1 + s.absg ^ 2)) ^ 2 := by
    have hp : (1 + s.absg ^ 2) ≠ 0 := by positivity
    unfold Shear.e1 Shear.e2 Shear.g2e
    field_simp
    linear_combination hx
  rw [e]
  have h1 : 2 * s.absg / (1 + s.absg ^ 2) < 1 := by
    rw [div_lt_one (by positivity)]; nlinarith [sq_pos_of_pos (sub_pos.mpr h)]
  have h2 : 0 ≤ 2 * s.absg / (1 + s.absg ^ 2) := by positivity
  nlinarith

/-- C39, shears: the shape tensor of the world shear is `J · shape · Jᵀ` up to a positive factor.  Exact if the world
ellipticity exceeds 1/100 (below, `Shear(e1=, e2=)` uses a series).  Missing: the smaller ellipticities. -/
theorem C39_shear_partial (J : Mat2) (hJ : J.a * J.d - J.b * J.c ≠ 0) (s : Shear) (hs : s.absg < 1) :
    ∃ s', LocalWCS.jacShearToWorld J s = some s' ∧
      ∃ t : ℝ, 0 < t ∧ ∃ e1 e2 : ℝ, e1 ^ 2 + e2 ^ 2 < 1 ∧
        ((J.mul (shape s)).mul ⟨J.a, J.c, J.b, J.d⟩ = ⟨t * (1 + e1), t * e2, t * e2, t * (1 - e1)⟩) ∧
        (1 / 10000 < e1 ^ 2 + e2 ^ 2 → s'.e1 = e1 ∧ s'.e2 = e2) ∧
        |s'.e1 - e1| ≤ |e1| * (e1 ^ 2 + e2 ^ 2) ^ 4 ∧ |s'.e2 - e2| ≤ |e2| * (e1 ^ 2 + e2 ^ 2) ^ 4 := by
  have he := e_sq_lt hs
  set M := (J.mul (shape s)).mul ⟨J.a, J.c, J.b, J.d⟩ with hM
  have hsym : M.c = M.b := by simp only [hM, Mat2.mul, shape]; ring
  have hdet : M.a * M.d - M.b * M.c = (J.a * J.d - J.b * J.c) ^ 2 * (1 - (s.e1 ^ 2 + s.e2 ^ 2)) := by
    simp only [hM, Mat2.mul, shape]; ring
  have hpos : 0 < M.a * M.d - M.b * M.c := by
    rw [hdet]; have := sq_pos_of_ne_zero hJ; have : 0 < 1 - (s.e1 ^ 2 + s.e2 ^ 2) := by linarith
    positivity
  have hq : ∀ x y : ℝ, 0 ≤ (1 + s.e1) * x ^ 2 + 2 * s.e2 * (x * y) + (1 - s.e1) * y ^ 2 := by
    intro x y
    have h1 : 0 < 1 + s.e1 := by nlinarith [sq_nonneg s.e2]
    have : (1 + s.e1) * ((1 + s.e1) * x ^ 2 + 2 * s.e2 * (x * y) + (1 - s.e1) * y ^ 2) =
        ((1 + s.e1) * x + s.e2 * y) ^ 2 + (1 - (s.e1 ^ 2 + s.e2 ^ 2)) * y ^ 2 := by ring
    have h2 : 0 ≤ (1 + s.e1) * ((1 + s.e1) * x ^ 2 + 2 * s.e2 * (x * y) + (1 - s.e1) * y ^ 2) := by
      rw [this]; have : 0 ≤ 1 - (s.e1 ^ 2 + s.e2 ^ 2) := by linarith
      positivity
    exact nonneg_of_mul_nonneg_right h2 h1
  have hMa : 0 ≤ M.a := by
    have := hq J.a J.b
    have e : M.a = (1 + s.e1) * J.a ^ 2 + 2 * s.e2 * (J.a * J.b) + (1 - s.e1) * J.b ^ 2 := by
      simp only [hM, Mat2.mul, shape]; ring
    rw [e]; exact this
  have hMd : 0 ≤ M.d := by
    have := hq J.c J.d
    have e : M.d = (1 + s.e1) * J.c ^ 2 + 2 * s.e2 * (J.c * J.d) + (1 - s.e1) * J.d ^ 2 := by
      simp only [hM, Mat2.mul, shape]; ring
    rw [e]; exact this
  have hT : 0 < M.a + M.d := by
    rcases hMa.lt_or_eq with h | h
    · linarith
    · exfalso
      rw [← h, hsym] at hpos
      nlinarith [sq_nonneg M.b]
  set e1 := (M.a - M.d) / (M.a + M.d) with he1
  set e2 := (2 * M.b) / (M.a + M.d) with he2
  have hlt : e1 ^ 2 + e2 ^ 2 < 1 := by
    have : 1 - (e1 ^ 2 + e2 ^ 2) = 4 * (M.a * M.d - M.b * M.c) / (M.a + M.d) ^ 2 := by
      rw [he1, he2, hsym]; field_simp; ring
    have : 0 < 4 * (M.a * M.d - M.b * M.c) / (M.a + M.d) ^ 2 := by positivity
    linarith
  obtain ⟨s', h1, h2, h3, h4⟩ := C10_e1e2 e1 e2 hlt.le
  refine ⟨s', h1, (M.a + M.d) / 2, by positivity, e1, e2, hlt, ?_, h2, h3, h4⟩
  apply Mat2.ext'
  · simp only [he1]; field_simp; ring
  · simp only [he2]; field_simp
  · rw [hsym]; simp only [he2]; field_simp
  · simp only [he1]; field_simp; ring

end JG
