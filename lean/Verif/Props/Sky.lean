import Verif.Model.Sky
import Verif.Props.ImagePix
import Verif.Props.WCS
import Mathlib.Analysis.Calculus.MeanValue
import Mathlib.Analysis.Real.Pi.Bounds

/-!
Property C91: sky images and local coordinate systems of any coordinate system.
-/

namespace JG.Sky

open JG

/-! ### Specification -/

/-- The matrix of the half differences of a map between the neighbours of a point, one pixel away. -/
noncomputable def halfDiff (W : ℝ × ℝ → ℝ × ℝ) (p : ℝ × ℝ) : Mat2 :=
  ⟨((W (p.1 + 1, p.2)).1 - (W (p.1 - 1, p.2)).1) / 2, ((W (p.1, p.2 + 1)).1 - (W (p.1, p.2 - 1)).1) / 2,
    ((W (p.1 + 1, p.2)).2 - (W (p.1 - 1, p.2)).2) / 2, ((W (p.1, p.2 + 1)).2 - (W (p.1, p.2 - 1)).2) / 2⟩

/-- The image `r` is `im` with the value `f x y` in the pixel `(x, y)`. -/
def Repainted (r im : Image) (f : ℤ → ℤ → ℝ) : Prop :=
  r.bounds = im.bounds ∧ r.isConst = im.isConst ∧ r.isInt = im.isInt ∧
    ∀ x y, coordMap r x y = (coordMap im x y).map fun _ => f x y

/-- The number `f` is `v` as an image keeps it: `v` itself, or for integers the nearest one, the even one of two. -/
def Kept (isInt : Bool) (v f : ℝ) : Prop := if isInt then ∃ n : ℤ, f = n ∧ NearestEven v n else f = v

/-- Arc seconds in a radian: a full turn of `2 π` has 360 degrees of 3600. -/
noncomputable def arcsecs : ℝ := 360 * 3600 / (2 * Real.pi)

/-! ### Helpers -/

theorem radArcsec_eq : radArcsec = arcsecs := by
  have := Real.pi_ne_zero
  unfold radArcsec arcsecs
  field_simp
  ring

theorem linspace_unit (a : ℤ) (n : ℤ) (hn : 1 ≤ n) (i : ℕ) :
    linspace ((a - 1 : ℤ) : ℝ) ((a + n - 1 + 1 : ℤ) : ℝ) (a + n - 1 - a + 1 + 2) i = ((a - 1 + i : ℤ) : ℝ) := by
  have h : ((n : ℝ) + 1) ≠ 0 := by
    have : (1:ℝ) ≤ n := by exact_mod_cast hn
    linarith
  unfold linspace
  push_cast
  rw [show ((a:ℝ) + n - 1 + 1 - (a - 1)) = n + 1 by ring, show ((a:ℝ) + n - 1 - a + 1 + 2 - 1) = n + 1 by ring, div_self h]
  ring

theorem gridX_eq {b : Bounds ℤ} (h : b.OK) (hd : b.defined = true) (j : ℕ) : gridX b j = ((b.xmin - 1 + j : ℤ) : ℝ) := by
  have := (h.1.mp hd)
  unfold gridX Bounds.xmax
  exact linspace_unit b.xmin b.deltax (by omega) j

theorem gridY_eq {b : Bounds ℤ} (h : b.OK) (hd : b.defined = true) (j : ℕ) : gridY b j = ((b.ymin - 1 + j : ℤ) : ℝ) := by
  have := (h.1.mp hd)
  unfold gridY Bounds.ymax
  exact linspace_unit b.ymin b.deltay (by omega) j

theorem assign_ok {im : Image} (h : im.bounds.OK) (hs : im.ShapeOK) (hd : im.bounds.defined = true) (cast : ℝ → ℝ) (a : ℕ → ℕ → ℝ)
    (f : ℤ → ℤ → ℝ) (hf : ∀ i j : ℕ, inRect im.bounds (im.bounds.xmin + j) (im.bounds.ymin + i) → cast (a i j) = f (im.bounds.xmin + j) (im.bounds.ymin + i)) :
    ∃ r, assign im cast a = (r, none) ∧ Repainted r im f := by
  have hp := h.1.mp hd
  have e := hs hd
  simp only [Bounds.numpyShape, hd, if_true, Prod.mk.injEq] at e
  have hx : im.bounds.xmax clsI - im.bounds.xmin + 1 + 2 - 2 = im.bounds.deltax := by
    unfold Bounds.xmax; simp only [clsI]; ring
  have hy : im.bounds.ymax clsI - im.bounds.ymin + 1 + 2 - 2 = im.bounds.deltay := by
    unfold Bounds.ymax; simp only [clsI]; ring
  refine ⟨{ im with arr := ⟨im.arr.h, im.arr.w, fun i j => cast (a i j)⟩ }, ?_, rfl, rfl, rfl, ?_⟩
  · unfold assign
    simp only [hx, hy]
    unfold Arr.bcast
    have h1 : im.bounds.deltay.toNat = im.arr.h := by omega
    have h2 : im.bounds.deltax.toNat = im.arr.w := by omega
    simp only [h1, h2, true_or, and_self, if_true]
  · intro x y
    unfold coordMap
    by_cases hr : im.bounds.defined = true ∧ inRect im.bounds x y
    · rw [if_pos hr, if_pos hr]
      simp only [Option.map_some, Option.some.injEq]
      obtain ⟨-, hr⟩ := hr
      have e1 : im.bounds.xmin + ((x - im.bounds.xmin).toNat : ℤ) = x := by unfold inRect at hr; omega
      have e2 : im.bounds.ymin + ((y - im.bounds.ymin).toNat : ℤ) = y := by unfold inRect at hr; omega
      rw [hf _ _ (by rw [e1, e2]; exact hr), e1, e2]
    · rw [if_neg hr, if_neg hr]; rfl

/-! ### C91 -/

/-- C91: the local system at a point is the matrix of half differences of the world positions of its neighbours. -/
theorem C91_local (w : Euc) (p : ℝ × ℝ) : w.localJac p = halfDiff w.toWorld p := by
  unfold Euc.localJac halfDiff Euc.toWorld
  simp only [Mat2.mk.injEq]
  refine ⟨?_, ?_, ?_, ?_⟩ <;> ring_nf

/-- C91: the affine system at a point gives its world position and has the same half differences there. -/
theorem C91_affine (isLocal : Bool) (w : Euc) (p : ℝ × ℝ) :
    (w.affine isLocal p).toWorld p = w.toWorld p ∧ halfDiff (w.affine isLocal p).toWorld p = halfDiff w.toWorld p := by
  have e : w.affine isLocal p = .off (.jac (w.localJac p)) p (w.toWorld p) := by
    unfold Euc.affine WCS.shiftOrigin
    cases isLocal
    · simp [WCS.newOrigin, WCS.localWCS, WCS.worldOrigin, WCS.toWorld, WCS.origin, LocalWCS.uv]
    · rfl
  rw [e, ← C91_local]
  constructor
  · simp [WCS.toWorld, LocalWCS.uv]
  · unfold halfDiff WCS.toWorld LocalWCS.uv
    simp only [Prod.fst_add, Prod.snd_add, Prod.fst_sub, Prod.snd_sub]
    cases w.localJac p
    simp only [Mat2.mk.injEq]
    refine ⟨?_, ?_, ?_, ?_⟩ <;> ring

theorem sky_eq (w : Euc) (im : Image) (h : im.bounds.OK) (hs : im.ShapeOK) (hd : im.bounds.defined = true) (level : ℝ) :
    ∃ r, w.sky im level = (r, none) ∧
      Repainted r im (fun x y => safeCast im.isInt (level * |(halfDiff w.toWorld (x, y)).det|)) := by
  obtain ⟨r, r1, r2⟩ := assign_ok h hs hd (safeCast im.isInt) (fun i j =>
    |0.5 * stepX (fun i j => w.u (gridX im.bounds j - w.origin.1) (gridY im.bounds i - w.origin.2)) i j *
      (0.5 * stepY (fun i j => w.v (gridX im.bounds j - w.origin.1) (gridY im.bounds i - w.origin.2)) i j) -
      0.5 * stepX (fun i j => w.v (gridX im.bounds j - w.origin.1) (gridY im.bounds i - w.origin.2)) i j *
      (0.5 * stepY (fun i j => w.u (gridX im.bounds j - w.origin.1) (gridY im.bounds i - w.origin.2)) i j)| * level)
    (fun x y => safeCast im.isInt (level * |(halfDiff w.toWorld (x, y)).det|)) (by
      intro i j _
      congr 1
      rw [mul_comm level]
      congr 2
      unfold stepX stepY Mat2.det halfDiff Euc.toWorld
      simp only [gridX_eq h hd, gridY_eq h hd]
      push_cast
      ring_nf)
  exact ⟨r, r1, r2⟩

theorem kept_cast (isInt : Bool) (v : ℝ) : Kept isInt v (safeCast isInt v) := by
  unfold Kept
  cases isInt
  · rfl
  · obtain ⟨n, h1, h2, _⟩ := C21_rounding v
    exact ⟨n, h1, h2⟩

/-- C91: the sky image of a Euclidean system has in every pixel the sky level times the area of the pixel, which is that of the
local system at its centre; in an integer image it is rounded. -/
theorem C91_sky (w : Euc) (im : Image) (h : im.bounds.OK) (hs : im.ShapeOK) (hd : im.bounds.defined = true) (level : ℝ) :
    ∃ r f, w.sky im level = (r, none) ∧ Repainted r im f ∧
      ∀ x y : ℤ, Kept im.isInt (level * |(halfDiff w.toWorld (x, y)).det|) (f x y) ∧
        |(halfDiff w.toWorld (x, y)).det| = (LocalWCS.jac (w.localJac (x, y))).pixelArea := by
  obtain ⟨r, r1, r2⟩ := sky_eq w im h hs hd level
  exact ⟨r, _, r1, r2, fun x y => ⟨kept_cast _ _, by rw [C91_local]; rfl⟩⟩

/-- C91: the same for a uniform system and an image of floats that can be changed. -/
theorem C91_sky_uniform (w : WCS) (hw : w.localWCS.Nondeg) (im : Image) (hd : im.bounds.defined = true) (hc : im.isConst = some false)
    (hi : im.isInt = false) (level : ℝ) :
    ∃ r, uniformSky w im level = (r, none) ∧ Repainted r im (fun x y => level * |(halfDiff w.toWorld (x, y)).det|) := by
  have area : ∀ p, |(halfDiff w.toWorld p).det| = w.localWCS.pixelArea := by
    intro p
    rw [C40_area _ hw, docArea_eq]
    congr 2
    have e : ∀ q, w.toWorld q = w.localWCS.toJac.app (q - w.origin) + w.worldOrigin := by
      intro q
      cases w with
      | loc l => simp [WCS.toWorld, uv_eq, WCS.localWCS, WCS.origin, WCS.worldOrigin, ← Prod.zero_eq_mk]
      | off l o wo => simp [WCS.toWorld, uv_eq, WCS.localWCS, WCS.origin, WCS.worldOrigin]
    unfold halfDiff
    simp only [e, Mat2.app, Prod.fst_add, Prod.snd_add, Prod.fst_sub, Prod.snd_sub]
    cases w.localWCS.toJac
    simp only [Mat2.mk.injEq]
    refine ⟨?_, ?_, ?_, ?_⟩ <;> ring
  refine ⟨{ im with arr := im.arr.mapIdx fun _ _ _ => rawCast im.isInt (level * w.localWCS.pixelArea) }, ?_, rfl, rfl, rfl, ?_⟩
  · unfold uniformSky Image.step Image.guarded
    simp [hc, hd]
  · intro x y
    beta_reduce
    rw [area]
    unfold coordMap
    by_cases hr : im.bounds.defined = true ∧ inRect im.bounds x y
    · rw [if_pos hr, if_pos hr]
      simp [Arr.mapIdx, rawCast, hi]
    · rw [if_neg hr, if_neg hr]; rfl

/-- The right ascensions around a pixel as a continuous function: `lift` differs from them by full turns, and changes by less
than two radians over two pixels. -/
structure Lift (w : Cel) (lift : ℝ × ℝ → ℝ) (p : ℝ × ℝ) : Prop where
  turns : ∀ q, ∃ n : ℤ, (w.toWorld q).1 = lift q + n * (2 * Real.pi)
  range : ∀ q q', |(w.toWorld q).1 - (w.toWorld q').1| < 2 * Real.pi
  slowx : |lift (p.1 + 1, p.2) - lift (p.1 - 1, p.2)| < 2
  slowy : |lift (p.1, p.2 + 1) - lift (p.1, p.2 - 1)| < 2

theorem unwrapHalf_eq (d : ℝ) (n : ℤ) (hn : |n| ≤ 1) (hd : |d| < 1) : unwrapHalf (d + n * Real.pi) = d := by
  have h3 := Real.pi_gt_three
  rw [abs_lt] at hd
  have hn' := abs_le.mp hn
  have : n = -1 ∨ n = 0 ∨ n = 1 := by omega
  simp only [unwrapHalf]
  rcases this with e | e | e <;> rw [e] <;> push_cast <;> split_ifs <;> linarith

/-- The half difference of the wrapped right ascensions is unwrapped. -/
theorem unwrap_lift {w : Cel} {lift : ℝ × ℝ → ℝ} (ht : ∀ q, ∃ n : ℤ, (w.toWorld q).1 = lift q + n * (2 * Real.pi))
    (hr : ∀ q q', |(w.toWorld q).1 - (w.toWorld q').1| < 2 * Real.pi) (q q' : ℝ × ℝ) (hs : |lift q - lift q'| < 2) :
    unwrapHalf (-0.5 * ((w.toWorld q).1 - (w.toWorld q').1)) = -0.5 * (lift q - lift q') := by
  obtain ⟨n, hn⟩ := ht q
  obtain ⟨n', hn'⟩ := ht q'
  have h3 := Real.pi_gt_three
  have h1 := abs_lt.mp (hr q q')
  rw [abs_lt] at hs
  have hb : |n' - n| ≤ 1 := by
    rw [abs_le]
    have k1 : ((n' - n : ℤ) : ℝ) < 2 := by
      push_cast
      by_contra hc
      have : (2:ℝ) * (2 * Real.pi) ≤ (n' - n) * (2 * Real.pi) := by nlinarith
      nlinarith
    have k2 : ((-2 : ℤ) : ℝ) < ((n' - n : ℤ) : ℝ) := by
      push_cast
      by_contra hc
      have : (n' - n : ℝ) * (2 * Real.pi) ≤ -2 * (2 * Real.pi) := by nlinarith
      nlinarith
    have k1' : n' - n < 2 := by exact_mod_cast k1
    have k2' : -2 < n' - n := by exact_mod_cast k2
    omega
  rw [← unwrapHalf_eq (-0.5 * (lift q - lift q')) (n' - n) hb (by rw [abs_lt]; constructor <;> linarith), hn, hn']
  congr 1
  push_cast
  ring

/-- C91: the sky image of a celestial system has in every pixel the sky level times the area of the pixel on the sky in square
arc seconds, with the right ascensions taken without their jumps by a full turn. -/
theorem C91_sky_celestial (w : Cel) (im : Image) (h : im.bounds.OK) (hs : im.ShapeOK) (hd : im.bounds.defined = true)
    (hi : im.isInt = false) (lift : ℝ × ℝ → ℝ) (hl : ∀ x y : ℤ, inRect im.bounds x y → Lift w lift (x, y)) (level : ℝ) :
    ∃ r, w.sky im level = (r, none) ∧ Repainted r im (fun x y => level * (arcsecs ^ 2 *
      |Real.cos (w.toWorld (x, y)).2 * (halfDiff (fun q => (lift q, (w.toWorld q).2)) (x, y)).det|)) := by
  obtain ⟨r, r1, r2⟩ := assign_ok h hs hd (rawCast im.isInt) (fun i j =>
    |unwrapHalf (-0.5 * stepX (fun i j => (w.radec (gridX im.bounds j - w.origin.1) (gridY im.bounds i - w.origin.2)).1) i j) *
        Real.cos (w.radec (gridX im.bounds (j + 1) - w.origin.1) (gridY im.bounds (i + 1) - w.origin.2)).2 *
      (0.5 * stepY (fun i j => (w.radec (gridX im.bounds j - w.origin.1) (gridY im.bounds i - w.origin.2)).2) i j) -
      0.5 * stepX (fun i j => (w.radec (gridX im.bounds j - w.origin.1) (gridY im.bounds i - w.origin.2)).2) i j *
      (unwrapHalf (-0.5 * stepY (fun i j => (w.radec (gridX im.bounds j - w.origin.1) (gridY im.bounds i - w.origin.2)).1) i j) *
        Real.cos (w.radec (gridX im.bounds (j + 1) - w.origin.1) (gridY im.bounds (i + 1) - w.origin.2)).2)| * level * radArcsec ^ 2)
    (fun x y => level * (arcsecs ^ 2 *
      |Real.cos (w.toWorld (x, y)).2 * (halfDiff (fun q => (lift q, (w.toWorld q).2)) (x, y)).det|)) (by
      intro i j hin
      have g : ∀ i j : ℕ, w.radec (gridX im.bounds j - w.origin.1) (gridY im.bounds i - w.origin.2) =
          w.toWorld (((im.bounds.xmin - 1 + j : ℤ) : ℝ), ((im.bounds.ymin - 1 + i : ℤ) : ℝ)) := by
        intro i j
        rw [gridX_eq h hd, gridY_eq h hd]
        rfl
      obtain ⟨lt, lr, lx, ly⟩ := hl (im.bounds.xmin + j) (im.bounds.ymin + i) hin
      obtain ⟨x, hx⟩ : ∃ x : ℝ, x = ((im.bounds.xmin + j : ℤ) : ℝ) := ⟨_, rfl⟩
      obtain ⟨y, hy⟩ : ∃ y : ℝ, y = ((im.bounds.ymin + i : ℤ) : ℝ) := ⟨_, rfl⟩
      rw [← hx, ← hy] at lx ly
      simp only at lx ly
      simp only [rawCast, hi, Bool.false_eq_true, if_false, stepX, stepY, g]
      have x0 : ((im.bounds.xmin - 1 + j : ℤ) : ℝ) = x - 1 := by rw [hx]; push_cast; ring
      have x1 : ((im.bounds.xmin - 1 + (j + 1 : ℕ) : ℤ) : ℝ) = x := by rw [hx]; push_cast; ring
      have x2 : ((im.bounds.xmin - 1 + (j + 2 : ℕ) : ℤ) : ℝ) = x + 1 := by rw [hx]; push_cast; ring
      have y0 : ((im.bounds.ymin - 1 + i : ℤ) : ℝ) = y - 1 := by rw [hy]; push_cast; ring
      have y1 : ((im.bounds.ymin - 1 + (i + 1 : ℕ) : ℤ) : ℝ) = y := by rw [hy]; push_cast; ring
      have y2 : ((im.bounds.ymin - 1 + (i + 2 : ℕ) : ℤ) : ℝ) = y + 1 := by rw [hy]; push_cast; ring
      rw [x0, x1, x2, y0, y1, y2, unwrap_lift lt lr _ _ lx, unwrap_lift lt lr _ _ ly, ← hx, ← hy]
      rw [radArcsec_eq, mul_comm _ level, mul_assoc, mul_comm _ (arcsecs ^ 2)]
      congr 2
      rw [← abs_neg]
      congr 1
      unfold halfDiff Mat2.det
      simp only
      ring)
  exact ⟨r, r1, r2⟩

/-! ### How close half differences are to derivatives -/

/-- A function with value `0` at `0` is bounded by an integral of a bound of its derivative. -/
theorem bound_step {G G1 B B1 : ℝ → ℝ} (g : ∀ t ∈ Set.Icc (0:ℝ) 1, HasDerivAt G (G1 t) t) (b : ∀ t, HasDerivAt B (B1 t) t)
    (g0 : G 0 = 0) (b0 : B 0 = 0) (h : ∀ t ∈ Set.Icc (0:ℝ) 1, |G1 t| ≤ B1 t) : ∀ t ∈ Set.Icc (0:ℝ) 1, |G t| ≤ B t := by
  intro t ht
  refine image_norm_le_of_norm_deriv_right_le_deriv_boundary' (f := G) (f' := G1) (a := 0) (b := 1) (B := B) (B' := B1)
    (fun x hx => (g x hx).continuousAt.continuousWithinAt) (fun x hx => (g x ⟨hx.1, hx.2.le⟩).hasDerivWithinAt)
    (by rw [g0, b0]; simp) (fun x hx => (b x).continuousAt.continuousWithinAt) (fun x hx => (b x).hasDerivWithinAt)
    (fun x hx => h x ⟨hx.1, hx.2.le⟩) ht

/-- The half difference of a function differs from its derivative by at most a sixth of a bound of its third derivative. -/
theorem halfDiff_error {f f1 f2 f3 : ℝ → ℝ} {x M : ℝ} (h1 : ∀ t ∈ Set.Icc (x - 1) (x + 1), HasDerivAt f (f1 t) t)
    (h2 : ∀ t ∈ Set.Icc (x - 1) (x + 1), HasDerivAt f1 (f2 t) t) (h3 : ∀ t ∈ Set.Icc (x - 1) (x + 1), HasDerivAt f2 (f3 t) t)
    (hM : ∀ t ∈ Set.Icc (x - 1) (x + 1), |f3 t| ≤ M) : abs ((f (x + 1) - f (x - 1)) / 2 - f1 x) ≤ M / 6 := by
  have mem : ∀ t ∈ Set.Icc (0:ℝ) 1, x + t ∈ Set.Icc (x - 1) (x + 1) ∧ x - t ∈ Set.Icc (x - 1) (x + 1) := by
    intro t ht
    rw [Set.mem_Icc] at ht
    refine ⟨⟨?_, ?_⟩, ?_, ?_⟩ <;> linarith
  have pl : ∀ {F F1 : ℝ → ℝ} {t : ℝ}, HasDerivAt F (F1 (x + t)) (x + t) → HasDerivAt (fun s => F (x + s)) (F1 (x + t)) t := by
    intro F F1 t h
    exact h.comp_const_add x t
  have mi : ∀ {F F1 : ℝ → ℝ} {t : ℝ}, HasDerivAt F (F1 (x - t)) (x - t) → HasDerivAt (fun s => F (x - s)) (-F1 (x - t)) t := by
    intro F F1 t h
    exact h.comp_const_sub x t
  have s2 : ∀ t ∈ Set.Icc (0:ℝ) 1, |f2 (x + t) - f2 (x - t)| ≤ 2 * M * t := by
    refine bound_step (G := fun t => f2 (x + t) - f2 (x - t)) (G1 := fun t => f3 (x + t) + f3 (x - t)) (B := fun t => 2 * M * t)
      (B1 := fun _ => 2 * M) ?_ ?_ (by simp) (by simp) ?_
    · intro t ht
      simpa using (pl (h3 _ (mem t ht).1)).fun_sub (mi (h3 _ (mem t ht).2))
    · intro t
      simpa using (hasDerivAt_id t).const_mul (2 * M)
    · intro t ht
      have := abs_add_le (f3 (x + t)) (f3 (x - t))
      have := hM _ (mem t ht).1
      have := hM _ (mem t ht).2
      linarith
  have s1 : ∀ t ∈ Set.Icc (0:ℝ) 1, |f1 (x + t) + f1 (x - t) - 2 * f1 x| ≤ M * t ^ 2 := by
    refine bound_step (G := fun t => f1 (x + t) + f1 (x - t) - 2 * f1 x) (G1 := fun t => f2 (x + t) - f2 (x - t))
      (B := fun t => M * t ^ 2) (B1 := fun t => 2 * M * t) ?_ ?_ (by simp; ring) (by simp) s2
    · intro t ht
      simpa [sub_eq_add_neg] using ((pl (h2 _ (mem t ht).1)).fun_add (mi (h2 _ (mem t ht).2))).sub_const (2 * f1 x)
    · intro t
      exact (((hasDerivAt_id' t).fun_pow 2).const_mul M).congr_deriv (by push_cast; ring)
  have s0 : ∀ t ∈ Set.Icc (0:ℝ) 1, |f (x + t) - f (x - t) - 2 * f1 x * t| ≤ M / 3 * t ^ 3 := by
    refine bound_step (G := fun t => f (x + t) - f (x - t) - 2 * f1 x * t) (G1 := fun t => f1 (x + t) + f1 (x - t) - 2 * f1 x)
      (B := fun t => M / 3 * t ^ 3) (B1 := fun t => M * t ^ 2) ?_ ?_ (by simp) (by simp) s1
    · intro t ht
      have a := ((pl (h1 _ (mem t ht).1)).fun_sub (mi (h1 _ (mem t ht).2)))
      exact (a.fun_sub ((hasDerivAt_id' t).const_mul (2 * f1 x))).congr_deriv (by ring)
    · intro t
      exact (((hasDerivAt_id' t).fun_pow 3).const_mul (M / 3)).congr_deriv (by push_cast; ring)
  have := s0 1 ⟨zero_le_one, le_refl _⟩
  rw [show (f (x + 1) - f (x - 1)) / 2 - f1 x = (f (x + 1) - f (x - 1) - 2 * f1 x * 1) / 2 by ring, abs_div]
  rw [show |(2:ℝ)| = 2 by norm_num]
  linarith

/-- The first three derivatives of `f` around `x`, within a pixel, are `f1`, `f2`, `f3`, and the last is at most `M`. -/
structure Smooth (f f1 f2 f3 : ℝ → ℝ) (x M : ℝ) : Prop where
  d1 : ∀ t ∈ Set.Icc (x - 1) (x + 1), HasDerivAt f (f1 t) t
  d2 : ∀ t ∈ Set.Icc (x - 1) (x + 1), HasDerivAt f1 (f2 t) t
  d3 : ∀ t ∈ Set.Icc (x - 1) (x + 1), HasDerivAt f2 (f3 t) t
  le : ∀ t ∈ Set.Icc (x - 1) (x + 1), |f3 t| ≤ M

/-- C91: the entries of the local system are within a sixth of a bound of the third derivatives of the partial derivatives of the
world position. -/
theorem C91_derivative (w : Euc) (p : ℝ × ℝ) (M : ℝ) (ux uy vx vy : Fin 3 → ℝ → ℝ)
    (hux : Smooth (fun t => (w.toWorld (t, p.2)).1) (ux 0) (ux 1) (ux 2) p.1 M)
    (huy : Smooth (fun t => (w.toWorld (p.1, t)).1) (uy 0) (uy 1) (uy 2) p.2 M)
    (hvx : Smooth (fun t => (w.toWorld (t, p.2)).2) (vx 0) (vx 1) (vx 2) p.1 M)
    (hvy : Smooth (fun t => (w.toWorld (p.1, t)).2) (vy 0) (vy 1) (vy 2) p.2 M) :
    |(w.localJac p).a - ux 0 p.1| ≤ M / 6 ∧ |(w.localJac p).b - uy 0 p.2| ≤ M / 6 ∧
      |(w.localJac p).c - vx 0 p.1| ≤ M / 6 ∧ |(w.localJac p).d - vy 0 p.2| ≤ M / 6 := by
  rw [C91_local]
  exact ⟨halfDiff_error hux.d1 hux.d2 hux.d3 hux.le, halfDiff_error huy.d1 huy.d2 huy.d3 huy.le,
    halfDiff_error hvx.d1 hvx.d2 hvx.d3 hvx.le, halfDiff_error hvy.d1 hvy.d2 hvy.d3 hvy.le⟩

/-! ### Celestial systems -/

/-- C91: away from a jump of the right ascension the local system of a celestial system is its half differences, with `u` to the
west, in arc seconds. -/
theorem C91_local_celestial_partial (w : Cel) (p : ℝ × ℝ) :
    w.localJac p = ⟨-(arcsecs * Real.cos (w.toWorld p).2) * (halfDiff w.toWorld p).a,
      -(arcsecs * Real.cos (w.toWorld p).2) * (halfDiff w.toWorld p).b,
      arcsecs * (halfDiff w.toWorld p).c, arcsecs * (halfDiff w.toWorld p).d⟩ := by
  unfold Cel.localJac halfDiff Cel.toWorld
  simp only [Mat2.mk.injEq, radArcsec_eq]
  refine ⟨?_, ?_, ?_, ?_⟩ <;> ring_nf

/-- C91: a celestial system shifted by `o` has at `p + o` the sky position and the local system of `p`. -/
theorem C91_shift (w : Cel) (o p : ℝ × ℝ) :
    (w.shiftOrigin o).toWorld (p + o) = w.toWorld p ∧ (w.shiftOrigin o).localJac (p + o) = w.localJac p := by
  have e1 : (p + o).1 - (o + w.origin).1 = p.1 - w.origin.1 := by simp only [Prod.fst_add]; ring
  have e2 : (p + o).2 - (o + w.origin).2 = p.2 - w.origin.2 := by simp only [Prod.snd_add]; ring
  constructor
  · simp only [Cel.toWorld, Cel.shiftOrigin, e1, e2]
  · simp only [Cel.localJac, Cel.shiftOrigin, e1, e2]

example : ((Cel.mk (fun x y => (x / 1000, y / 2000)) (1, 2)).shiftOrigin (10, 20)).toWorld (13, 25) = (2 / 1000, 3 / 2000) := by
  have := (C91_shift ⟨fun x y => (x / 1000, y / 2000), (1, 2)⟩ (10, 20) (3, 5)).1
  norm_num [Cel.toWorld] at this ⊢
  exact this

/-- A celestial system whose right ascension jumps by a full turn between the columns `-1` and `0`. -/
noncomputable def exCel : Cel := ⟨fun x y => (2 * Real.pi * Int.fract (x / 10000), y / 10000), (0, 0)⟩

/-- The right ascensions of `exCel` without the jumps. -/
noncomputable def exLift (q : ℝ × ℝ) : ℝ := 2 * Real.pi * (q.1 / 10000)

theorem exCel_lift (p : ℝ × ℝ) : Lift exCel exLift p := by
  have h3 := Real.pi_gt_three
  have h4 := Real.pi_lt_four
  refine ⟨?_, ?_, ?_, ?_⟩
  · intro q
    refine ⟨-⌊q.1 / 10000⌋, ?_⟩
    simp only [Cel.toWorld, exCel, exLift, sub_zero]
    rw [← Int.self_sub_floor]
    push_cast
    ring
  · intro q q'
    simp only [Cel.toWorld, exCel, sub_zero]
    rw [← mul_sub, abs_mul, abs_of_pos (by linarith : 0 < 2 * Real.pi)]
    have a := Int.fract_nonneg (q.1 / 10000)
    have b := Int.fract_lt_one (q.1 / 10000)
    have a' := Int.fract_nonneg (q'.1 / 10000)
    have b' := Int.fract_lt_one (q'.1 / 10000)
    have : |Int.fract (q.1 / 10000) - Int.fract (q'.1 / 10000)| < 1 := by rw [abs_lt]; constructor <;> linarith
    nlinarith
  · simp only [exLift]
    rw [abs_lt]; constructor <;> linarith
  · simp [exLift]

/-- `C91_sky_celestial` applies to an image across the jump: the sky image is smooth there. -/
example : ∃ r, exCel.sky (exIm false) 100 = (r, none) ∧ Repainted r (exIm false) (fun x y => 100 * (arcsecs ^ 2 *
    |Real.cos (exCel.toWorld (x, y)).2 * (halfDiff (fun q => (exLift q, (exCel.toWorld q).2)) (x, y)).det|)) :=
  C91_sky_celestial exCel _ (exIm_live false).ok (exIm_live false).shape rfl rfl exLift (fun _ _ _ => exCel_lift _) 100

/-- Disagreement: the local system of a celestial system has no such treatment of jumps of the right ascension.  At the jump its
first entry is about `5000` times too large and of the wrong sign. -/
theorem C91_counterexample_jump :
    (exCel.localJac (0, 0)).a = arcsecs * (9998 / 10000 * Real.pi) ∧
      -(arcsecs * Real.cos (exCel.toWorld (0, 0)).2) * (halfDiff (fun q => (exLift q, (exCel.toWorld q).2)) (0, 0)).a =
        -(arcsecs * (2 / 10000 * Real.pi)) := by
  have f1 : Int.fract ((1:ℝ) / 10000) = 1 / 10000 := Int.fract_eq_self.mpr ⟨by norm_num, by norm_num⟩
  have f2 : Int.fract ((-1:ℝ) / 10000) = 9999 / 10000 := by
    rw [Int.fract_eq_iff]
    refine ⟨by norm_num, by norm_num, -1, ?_⟩
    push_cast; norm_num
  constructor
  · simp only [Cel.localJac, radArcsec_eq, exCel, sub_zero, zero_add, zero_sub, zero_div, Real.cos_zero, f1, f2]
    ring
  · simp only [halfDiff, exLift, Cel.toWorld, exCel, sub_zero, zero_add, zero_sub, zero_div, Real.cos_zero]
    ring

/-! ### Integer images and images that may not be changed -/

/-- A plane system with pixels of area `1.6`. -/
noncomputable def exEuc : Euc := ⟨fun x _ => 1.6 * x, fun _ y => y, (0, 0), (0, 0)⟩

/-- A system that is not uniform: `u = x + x³ / 1000`, `v = y + x y / 100`. -/
noncomputable def exCubic : Euc := ⟨fun x _ => x + x ^ 3 / 1000, fun x y => y + x * y / 100, (3, 2), (7, 1)⟩

/-- `C91_sky` applies to it and an image of integers. -/
example : ∃ r f, exCubic.sky (exIm true) 100 = (r, none) ∧ Repainted r (exIm true) f ∧
    ∀ x y : ℤ, Kept true (100 * |(halfDiff exCubic.toWorld (x, y)).det|) (f x y) :=
  let ⟨r, f, h1, h2, h3⟩ := C91_sky exCubic (exIm true) (exIm_live true).ok (exIm_live true).shape rfl 100
  ⟨r, f, h1, h2, fun x y => (h3 x y).1⟩

/-- Its half differences are exact but for `u` along `x`, where `C91_derivative` allows `1 / 1000` with the bound `6 / 1000` of the
third derivative. -/
example (p : ℝ × ℝ) : Smooth (fun t => (exCubic.toWorld (t, p.2)).1) (fun t => 1 + 3 * (t - 3) ^ 2 / 1000) (fun t => 6 * (t - 3) / 1000)
    (fun _ => 6 / 1000) p.1 (6 / 1000) ∧ (exCubic.localJac p).a - (1 + 3 * (p.1 - 3) ^ 2 / 1000) = 1 / 1000 := by
  refine ⟨⟨?_, ?_, ?_, ?_⟩, ?_⟩
  · intro t _
    have h := (hasDerivAt_id' t).sub_const 3
    exact ((h.fun_add ((h.fun_pow 3).div_const 1000)).add_const 7).congr_deriv (by push_cast; ring)
  · intro t _
    have h := (hasDerivAt_id' t).sub_const 3
    exact ((((h.fun_pow 2).const_mul 3).div_const 1000).const_add 1).congr_deriv (by push_cast; ring)
  · intro t _
    have h := (hasDerivAt_id' t).sub_const 3
    exact ((h.const_mul 6).div_const 1000).congr_deriv (by ring)
  · intro t _
    rw [abs_of_pos (by norm_num)]
  · simp only [Euc.localJac, exCubic]
    ring

/-- `C91_sky_uniform` applies to a rotated system. -/
example : ∃ r, uniformSky (.off (.jac ⟨0, -2, 2, 0⟩) (1, 2) (3, 4)) (exIm false) 5 = (r, none) ∧
    Repainted r (exIm false) (fun x y => 5 * |(halfDiff (WCS.off (.jac ⟨0, -2, 2, 0⟩) (1, 2) (3, 4)).toWorld (x, y)).det|) :=
  C91_sky_uniform _ (by simp [WCS.localWCS, LocalWCS.Nondeg]) _ rfl rfl rfl 5

/-- The value of the pixel at the lower left. -/
noncomputable def corner (r : Image × Option ImErr) : Option ℝ := coordMap r.1 10 (-1)

theorem exEuc_det (p : ℝ × ℝ) : (halfDiff exEuc.toWorld p).det = 1.6 := by
  simp only [halfDiff, Mat2.det, Euc.toWorld, exEuc]; ring

/-- Disagreement: the sky level of an integer image is rounded by `EuclideanWCS`, but cut off by a uniform system with the same
pixels: `1.6` becomes `2` in one and `1` in the other. -/
theorem C91_counterexample_integer :
    corner (exEuc.sky (exIm true) 1) = some 2 ∧ corner (uniformSky (.loc (.jac ⟨1.6, 0, 0, 1⟩)) (exIm true) 1) = some 1 := by
  constructor
  · obtain ⟨r, h1, h2⟩ := sky_eq exEuc (exIm true) (exIm_live true).ok (exIm_live true).shape rfl 1
    unfold corner
    rw [h1, h2.2.2.2 10 (-1)]
    beta_reduce
    rw [exEuc_det]
    have f : ⌊(1.6:ℝ)⌋ = 1 := by rw [Int.floor_eq_iff]; norm_num
    have g : safeCast (exIm true).isInt (1 * |1.6|) = 2 := by
      rw [one_mul, abs_of_pos (by norm_num)]
      simp only [safeCast, exIm, if_true, roundEven, f]
      norm_num
    rw [g]
    simp [coordMap, inRect, exIm, pyB, Bounds.mk4, Bounds.finish, clsI]
  · have f : ⌊(1.6:ℝ)⌋ = 1 := by rw [Int.floor_eq_iff]; norm_num
    have g : rawCast true (1 * (LocalWCS.jac ⟨1.6, 0, 0, 1⟩).pixelArea) = 1 := by
      simp only [LocalWCS.pixelArea, Mat2.det]
      rw [show (1:ℝ) * |1.6 * 1 - 0 * 0| = 1.6 by norm_num]
      simp only [rawCast, if_true, truncZ, f]
      norm_num
    have : corner (uniformSky (.loc (.jac ⟨1.6, 0, 0, 1⟩)) (exIm true) 1) =
        some (rawCast true (1 * (LocalWCS.jac ⟨1.6, 0, 0, 1⟩).pixelArea)) := by
      simp [corner, uniformSky, Image.step, Image.guarded, coordMap, inRect, exIm, pyB, Bounds.mk4, Bounds.finish, clsI, Arr.mapIdx, WCS.localWCS]
    rw [this, g]

/-- Disagreement: a uniform system refuses to overwrite an image that may not be changed, the other systems overwrite it. -/
theorem C91_counterexample_const :
    uniformSky (.loc (.pix 2)) { exIm false with isConst := some true } 1 = ({ exIm false with isConst := some true }, some .immutable) ∧
      corner (exEuc.sky { exIm false with isConst := some true } 1) = some 1.6 := by
  constructor
  · rfl
  · obtain ⟨r, h1, h2⟩ := sky_eq exEuc { exIm false with isConst := some true } (exIm_live false).ok (exIm_live false).shape rfl 1
    unfold corner
    rw [h1, h2.2.2.2 10 (-1)]
    beta_reduce
    rw [exEuc_det]
    have g : safeCast (exIm false).isInt (1 * |1.6|) = 1.6 := by
      rw [one_mul, abs_of_pos (by norm_num)]; rfl
    rw [g]
    simp [coordMap, inRect, exIm, pyB, Bounds.mk4, Bounds.finish, clsI]

end JG.Sky
