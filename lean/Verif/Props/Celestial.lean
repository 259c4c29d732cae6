import Verif.Lemmas.Celestial
import Mathlib.Analysis.InnerProductSpace.PiL2
import Mathlib.Geometry.Euclidean.Angle.Unoriented.TriangleInequality
import Mathlib.Tactic.NormNum
import Mathlib.Analysis.Real.Pi.Bounds

/-! C49 and C51: great-circle distances and changes of celestial coordinates. -/

namespace JG

open Real

/-! ### Specification -/

/-- Spherical law of cosines: the cosine of the angle between two directions. -/
noncomputable def cosSep (p q : Coord) : ℝ :=
  sin p.dec * sin q.dec + cos p.dec * cos q.dec * cos (p.ra - q.ra)

/-- Declination in its documented range. -/
def Coord.Valid (p : Coord) : Prop := -(π / 2) ≤ p.dec ∧ p.dec ≤ π / 2

/-- The same point of the sphere: equal declination, and equal right ascension up to full turns
unless at a pole. -/
def SamePoint (p q : Coord) : Prop :=
  p.dec = q.dec ∧ (cos p.dec = 0 ∨ ∃ n : ℤ, p.ra = q.ra + n * (2 * π))

theorem dot_eq_cosSep (p q : Coord) : p.xyz.dot q.xyz = cosSep p q := by
  simp only [V3.dot, Coord.xyz, cosSep, Real.cos_sub]; ring

theorem samePoint_iff {p q : Coord} (hp : p.Valid) (hq : q.Valid) :
    SamePoint p q ↔ p.xyz = q.xyz := by
  constructor
  · rintro ⟨hd, hr⟩
    rcases hr with hr | ⟨n, hn⟩
    · simp only [Coord.xyz, ← hd, hr, zero_mul]
    · simp only [Coord.xyz, hd, hn, Real.cos_add_int_mul_two_pi, Real.sin_add_int_mul_two_pi]
  · intro h
    have hd : p.dec = q.dec := Real.injOn_sin ⟨hp.1, hp.2⟩ ⟨hq.1, hq.2⟩ (congrArg V3.z h)
    refine ⟨hd, ?_⟩
    by_cases h0 : cos p.dec = 0
    · exact Or.inl h0
    · have hx := congrArg V3.x h
      have hy := congrArg V3.y h
      simp only [Coord.xyz, ← hd] at hx hy
      exact Or.inr (angle_eq_of_trig (mul_left_cancel₀ h0 hx) (mul_left_cancel₀ h0 hy))

theorem xyz_eq_of_dot {p q : Coord} (h : p.xyz.dot q.xyz = 1) : p.xyz = q.xyz := by
  have hd := rawDsq_eq p q
  rw [h] at hd
  simp only [rawDsq] at hd
  have hx : p.xyz.x - q.xyz.x = 0 := by
    nlinarith [sq_nonneg (p.xyz.x - q.xyz.x), sq_nonneg (p.xyz.y - q.xyz.y),
      sq_nonneg (p.xyz.z - q.xyz.z)]
  have hy : p.xyz.y - q.xyz.y = 0 := by
    nlinarith [sq_nonneg (p.xyz.x - q.xyz.x), sq_nonneg (p.xyz.y - q.xyz.y),
      sq_nonneg (p.xyz.z - q.xyz.z)]
  have hz : p.xyz.z - q.xyz.z = 0 := by
    nlinarith [sq_nonneg (p.xyz.x - q.xyz.x), sq_nonneg (p.xyz.y - q.xyz.y),
      sq_nonneg (p.xyz.z - q.xyz.z)]
  exact V3.ext (by linarith) (by linarith) (by linarith)

/-! ### C49: distances -/

/-- C49: for all points, `distanceTo` lies in `[0, π]` and its cosine is given by the spherical law
of cosines, on both branches of the code; it is the only such number. -/
theorem C49_cosine (p q : Coord) :
    0 ≤ p.distanceTo q ∧ p.distanceTo q ≤ π ∧ cos (p.distanceTo q) = cosSep p q ∧
    ∀ t, 0 ≤ t → t ≤ π → cos t = cosSep p q → t = p.distanceTo q := by
  obtain ⟨h, h0, h1⟩ := cos_distanceTo p q
  rw [dot_eq_cosSep] at h
  exact ⟨h0, h1, h, fun t ht0 ht1 ht =>
    Real.injOn_cos ⟨ht0, ht1⟩ ⟨h0, h1⟩ (ht.trans h.symm)⟩

/-- C49: `distanceTo` is symmetric. -/
theorem C49_symm (p q : Coord) : p.distanceTo q = q.distanceTo p :=
  distanceTo_congr (dot_comm' _ _)

/-- C49: the distance is zero exactly between coordinates of the same point; it is `π` exactly
between antipodes. -/
theorem C49_zero (p q : Coord) (hp : p.Valid) (hq : q.Valid) :
    (p.distanceTo q = 0 ↔ SamePoint p q) ∧
    (p.distanceTo q = π ↔ SamePoint p ⟨q.ra + π, -q.dec⟩) := by
  have hq' : (⟨q.ra + π, -q.dec⟩ : Coord).Valid := ⟨by simp; exact hq.2, by simp; linarith [hq.1]⟩
  have hanti : (⟨q.ra + π, -q.dec⟩ : Coord).xyz = ⟨-q.xyz.x, -q.xyz.y, -q.xyz.z⟩ := by
    simp [Coord.xyz]
  obtain ⟨h, h0, h1⟩ := cos_distanceTo p q
  constructor
  · rw [samePoint_iff hp hq]
    constructor
    · intro e
      rw [e, Real.cos_zero] at h
      exact xyz_eq_of_dot h.symm
    · intro e
      rw [e, xyz_unit] at h
      exact Real.injOn_cos ⟨h0, h1⟩ ⟨le_refl 0, Real.pi_pos.le⟩ (h.trans Real.cos_zero.symm)
  · rw [samePoint_iff hp hq']
    constructor
    · intro e
      rw [e, Real.cos_pi] at h
      apply xyz_eq_of_dot
      rw [hanti]
      simp only [V3.dot] at h ⊢
      linarith
    · intro e
      have hu := xyz_unit q
      rw [e, hanti] at h
      simp only [V3.dot] at h hu
      exact Real.injOn_cos ⟨h0, h1⟩ ⟨Real.pi_pos.le, le_refl π⟩
        (h.trans (by rw [Real.cos_pi]; linarith))

/-- The unit vector in Mathlib's Euclidean space. -/
noncomputable def Coord.vec (p : Coord) : EuclideanSpace ℝ (Fin 3) :=
  !₂[p.xyz.x, p.xyz.y, p.xyz.z]

theorem inner_vec (p q : Coord) : inner ℝ p.vec q.vec = p.xyz.dot q.xyz := by
  simp [Coord.vec, V3.dot, PiLp.inner_apply, Fin.sum_univ_three]
  ring

theorem norm_vec (p : Coord) : ‖p.vec‖ = 1 := by
  have h := real_inner_self_eq_norm_sq p.vec
  rw [inner_vec, xyz_unit] at h
  nlinarith [norm_nonneg p.vec, sq_nonneg (‖p.vec‖ - 1)]

/-- C49: `distanceTo` is Mathlib's angle between the two unit vectors. -/
theorem C49_angle (p q : Coord) : p.distanceTo q = InnerProductGeometry.angle p.vec q.vec := by
  unfold InnerProductGeometry.angle
  rw [inner_vec, norm_vec, norm_vec, mul_one, div_one, distanceTo_eq_arccos]

/-- C49: the triangle inequality. -/
theorem C49_triangle (p q r : Coord) :
    p.distanceTo r ≤ p.distanceTo q + q.distanceTo r := by
  rw [C49_angle, C49_angle, C49_angle]
  exact InnerProductGeometry.angle_le_angle_add_angle _ _ _

/-! ### C51: rotations -/

theorem precessVec_dot (e1 e2 : ℝ) (a b : V3) :
    (precessVec e1 e2 a).dot (precessVec e1 e2 b) = a.dot b := by
  simp only [precessVec, V3.dot]
  have ha := Real.sin_sq_add_cos_sq (precessAngles e1 e2).1
  have hb := Real.sin_sq_add_cos_sq (precessAngles e1 e2).2.1
  have hc := Real.sin_sq_add_cos_sq (precessAngles e1 e2).2.2
  obtain ⟨sa, hsa⟩ : ∃ s, s = sin (precessAngles e1 e2).1 := ⟨_, rfl⟩
  obtain ⟨ca, hca⟩ : ∃ s, s = cos (precessAngles e1 e2).1 := ⟨_, rfl⟩
  obtain ⟨sb, hsb⟩ : ∃ s, s = sin (precessAngles e1 e2).2.1 := ⟨_, rfl⟩
  obtain ⟨cb, hcb⟩ : ∃ s, s = cos (precessAngles e1 e2).2.1 := ⟨_, rfl⟩
  obtain ⟨sc, hsc⟩ : ∃ s, s = sin (precessAngles e1 e2).2.2 := ⟨_, rfl⟩
  obtain ⟨cc, hcc⟩ : ∃ s, s = cos (precessAngles e1 e2).2.2 := ⟨_, rfl⟩
  rw [← hsa, ← hca] at ha ⊢
  rw [← hsb, ← hcb] at hb ⊢
  rw [← hsc, ← hcc] at hc ⊢
  -- rotate about z, then y, then z
  have h1 : ∀ P Q R S : ℝ, (cb * P - sb * Q) * (cb * R - sb * S) + (sb * P + cb * Q) * (sb * R + cb * S)
      = P * R + Q * S := by
    intro P Q R S; linear_combination (P * R + Q * S) * hb
  have h2 : ∀ P Q R S : ℝ, (cc * P - sc * Q) * (cc * R - sc * S) + (sc * P + cc * Q) * (sc * R + cc * S)
      = P * R + Q * S := by
    intro P Q R S; linear_combination (P * R + Q * S) * hc
  have h3 : ∀ P Q R S : ℝ, (ca * P - sa * Q) * (ca * R - sa * S) + (sa * P + ca * Q) * (sa * R + ca * S)
      = P * R + Q * S := by
    intro P Q R S; linear_combination (P * R + Q * S) * ha
  have e1 := h1 (cc * (ca * a.x - sa * a.y) - sc * a.z) (sa * a.x + ca * a.y)
    (cc * (ca * b.x - sa * b.y) - sc * b.z) (sa * b.x + ca * b.y)
  have e2 := h2 (ca * a.x - sa * a.y) a.z (ca * b.x - sa * b.y) b.z
  have e3 := h3 a.x a.y b.x b.y
  linear_combination e1 + e2 + e3

/-- The scalar triple product. -/
def V3.det (a b c : V3) : ℝ :=
  a.x * (b.y * c.z - b.z * c.y) - a.y * (b.x * c.z - b.z * c.x) + a.z * (b.x * c.y - b.y * c.x)

/-- C51: for all epochs the precession map is linear and a proper rotation: it preserves scalar
products and orientation; for equal epochs it is the identity. -/
theorem C51_precession_matrix (e1 e2 : ℝ) :
    (∀ a b, (precessVec e1 e2 a).dot (precessVec e1 e2 b) = a.dot b) ∧
    (∀ a b c, (precessVec e1 e2 a).det (precessVec e1 e2 b) (precessVec e1 e2 c) = a.det b c) ∧
    (∀ (s t : ℝ) (a b : V3), precessVec e1 e2 ⟨s * a.x + t * b.x, s * a.y + t * b.y, s * a.z + t * b.z⟩ =
      ⟨s * (precessVec e1 e2 a).x + t * (precessVec e1 e2 b).x,
       s * (precessVec e1 e2 a).y + t * (precessVec e1 e2 b).y,
       s * (precessVec e1 e2 a).z + t * (precessVec e1 e2 b).z⟩) ∧
    (∀ a, precessVec e1 e1 a = a) := by
  refine ⟨precessVec_dot e1 e2, ?_, ?_, ?_⟩
  · intro a b c
    simp only [precessVec, V3.det]
    have ha := Real.sin_sq_add_cos_sq (precessAngles e1 e2).1
    have hb := Real.sin_sq_add_cos_sq (precessAngles e1 e2).2.1
    have hc := Real.sin_sq_add_cos_sq (precessAngles e1 e2).2.2
    obtain ⟨sa, hsa⟩ : ∃ s, s = sin (precessAngles e1 e2).1 := ⟨_, rfl⟩
    obtain ⟨ca, hca⟩ : ∃ s, s = cos (precessAngles e1 e2).1 := ⟨_, rfl⟩
    obtain ⟨sb, hsb⟩ : ∃ s, s = sin (precessAngles e1 e2).2.1 := ⟨_, rfl⟩
    obtain ⟨cb, hcb⟩ : ∃ s, s = cos (precessAngles e1 e2).2.1 := ⟨_, rfl⟩
    obtain ⟨sc, hsc⟩ : ∃ s, s = sin (precessAngles e1 e2).2.2 := ⟨_, rfl⟩
    obtain ⟨cc, hcc⟩ : ∃ s, s = cos (precessAngles e1 e2).2.2 := ⟨_, rfl⟩
    rw [← hsa, ← hca] at ha ⊢
    rw [← hsb, ← hcb] at hb ⊢
    rw [← hsc, ← hcc] at hc ⊢
    have hM : (ca * cc * cb - sa * sb) * ((-sa * cc * sb + ca * cb) * cc - (-sc * sb) * (-sa * sc))
        - (-sa * cc * cb - ca * sb) * ((ca * cc * sb + sa * cb) * cc - (-sc * sb) * (ca * sc))
        + (-sc * cb) * ((ca * cc * sb + sa * cb) * (-sa * sc) - (-sa * cc * sb + ca * cb) * (ca * sc))
        = 1 := by
      have : (ca * cc * cb - sa * sb) * ((-sa * cc * sb + ca * cb) * cc - (-sc * sb) * (-sa * sc))
        - (-sa * cc * cb - ca * sb) * ((ca * cc * sb + sa * cb) * cc - (-sc * sb) * (ca * sc))
        + (-sc * cb) * ((ca * cc * sb + sa * cb) * (-sa * sc) - (-sa * cc * sb + ca * cb) * (ca * sc))
        = (sa ^ 2 + ca ^ 2) * (sb ^ 2 + cb ^ 2) * (sc ^ 2 + cc ^ 2) := by ring
      rw [this, ha, hb, hc]; norm_num
    linear_combination (a.x * (b.y * c.z - b.z * c.y) - a.y * (b.x * c.z - b.z * c.x)
      + a.z * (b.x * c.y - b.y * c.x)) * hM
  · intro s t a b
    simp only [precessVec, V3.mk.injEq]
    refine ⟨?_, ?_, ?_⟩ <;> ring
  · intro a
    simp [precessVec, precessAngles]

/-- C51: precessing always succeeds, gives the rotated point in normalised coordinates, and from an
epoch to itself returns the very same coordinates. -/
theorem C51_precess (p : Coord) (e1 e2 : ℝ) :
    (∃ q, p.precess e1 e2 = some q ∧ q.xyz = precessVec e1 e2 p.xyz ∧
      (e1 ≠ e2 → 0 ≤ q.ra ∧ q.ra < 2 * π ∧ q.Valid)) ∧
    p.precess e1 e1 = some p := by
  refine ⟨?_, by simp [Coord.precess]⟩
  unfold Coord.precess
  by_cases h : e1 = e2
  · rw [if_pos h]
    refine ⟨p, rfl, ?_, fun h' => absurd h h'⟩
    rw [h, (C51_precession_matrix e2 e2).2.2.2]
  · rw [if_neg h]
    obtain ⟨q, hq, hx, hr⟩ := fromXYZ_unit (precessVec e1 e2 p.xyz)
      (by rw [precessVec_dot, xyz_unit])
    rw [hq]
    refine ⟨q.normal, rfl, by rw [normal_xyz, hx], fun _ => ⟨(wrapRad_range _).1, (wrapRad_range _).2,
      hr.2.2.1, hr.2.2.2⟩⟩

theorem galactic_xyz (p : Coord) :
    let g : Coord := ⟨p.galactic.1, p.galactic.2⟩
    let w : Coord := ⟨g.ra - galEl0, g.dec⟩
    let a : Coord := ⟨p.ra - galR0, p.dec⟩
    w.xyz = ⟨a.xyz.x, a.xyz.z * sin galD0 + a.xyz.y * cos galD0,
      a.xyz.z * cos galD0 - a.xyz.y * sin galD0⟩ ∧ g.Valid ∧ 0 ≤ g.ra ∧ g.ra < 2 * π := by
  intro g w a
  obtain ⟨X, hX⟩ : ∃ X, X = a.xyz.x := ⟨_, rfl⟩
  obtain ⟨Y, hY⟩ : ∃ X, X = a.xyz.z * sin galD0 + a.xyz.y * cos galD0 := ⟨_, rfl⟩
  obtain ⟨Z, hZ⟩ : ∃ X, X = a.xyz.z * cos galD0 - a.xyz.y * sin galD0 := ⟨_, rfl⟩
  have hu : X ^ 2 + Y ^ 2 + Z ^ 2 = 1 := by
    rw [hX, hY, hZ]
    have h1 := xyz_unit a
    simp only [V3.dot] at h1
    linear_combination h1 + (a.xyz.y ^ 2 + a.xyz.z ^ 2) * Real.sin_sq_add_cos_sq galD0
  have hra : g.ra = wrapRad (arctan2 Y X + galEl0) π := by
    rw [hX, hY]; rfl
  have hdec : g.dec = arcsin Z := by rw [hZ]; rfl
  have hZ1 : -1 ≤ Z ∧ Z ≤ 1 := abs_le.mp ((sq_le_one_iff_abs_le_one _).mp (by nlinarith))
  refine ⟨?_, ?_, ?_, ?_⟩
  · rw [← hX, ← hY, ← hZ]
    have hs : sin w.dec = Z := by
      change sin g.dec = Z
      rw [hdec, Real.sin_arcsin hZ1.1 hZ1.2]
    have hc : cos w.dec = √(X ^ 2 + Y ^ 2) := by
      change cos g.dec = _
      rw [hdec, Real.cos_arcsin]; congr 1; linarith
    have hwc : cos w.ra = cos (arctan2 Y X) ∧ sin w.ra = sin (arctan2 Y X) := by
      change cos (g.ra - galEl0) = _ ∧ sin (g.ra - galEl0) = _
      rw [Real.cos_sub, Real.sin_sub, hra, (wrapRad_trig _ π).1, (wrapRad_trig _ π).2,
        ← Real.cos_sub, ← Real.sin_sub, add_sub_cancel_right]
      exact ⟨rfl, rfl⟩
    simp only [Coord.xyz, hs, hc, hwc.1, hwc.2, V3.mk.injEq, and_true]
    by_cases h0 : X ^ 2 + Y ^ 2 = 0
    · have hx0 : X = 0 := by nlinarith [sq_nonneg X, sq_nonneg Y]
      have hy0 : Y = 0 := by nlinarith [sq_nonneg X, sq_nonneg Y]
      rw [h0, hx0, hy0]; simp
    · have hpos : 0 < X ^ 2 + Y ^ 2 := lt_of_le_of_ne (by positivity) (Ne.symm h0)
      have hr : 0 < √(X ^ 2 + Y ^ 2) := Real.sqrt_pos.mpr hpos
      obtain ⟨h1, h2⟩ := arctan2_trig (x := X) (y := Y) hr (Real.sq_sqrt hpos.le).symm
      rw [h1, h2, mul_div_cancel₀ _ hr.ne', mul_div_cancel₀ _ hr.ne']
      exact ⟨rfl, rfl⟩
  · constructor
    · rw [hdec]; exact Real.neg_pi_div_two_le_arcsin Z
    · rw [hdec]; exact Real.arcsin_le_pi_div_two Z
  · rw [hra]; exact (wrapRad_range _).1
  · rw [hra]; exact (wrapRad_range _).2

theorem xyz_shift (p : Coord) (t : ℝ) : (⟨p.ra + t, p.dec⟩ : Coord).xyz =
    ⟨cos t * p.xyz.x - sin t * p.xyz.y, sin t * p.xyz.x + cos t * p.xyz.y, p.xyz.z⟩ := by
  simp only [Coord.xyz, Real.cos_add, Real.sin_add, V3.mk.injEq, and_true]
  constructor <;> ring

/-- C51: `from_galactic` inverts `galactic`: the point is recovered for every right ascension and
declination, and the coordinates themselves when normalised and off the poles. -/
theorem C51_galactic_roundtrip (p : Coord) (hp : p.Valid) :
    ∃ q, fromGalactic p.galactic.1 p.galactic.2 = some q ∧ SamePoint q p ∧
      (0 ≤ p.ra → p.ra < 2 * π → -(π / 2) < p.dec → p.dec < π / 2 → q = p) := by
  obtain ⟨hw, -, -, -⟩ := galactic_xyz p
  simp only at hw
  have hx := congrArg V3.x hw
  have hy := congrArg V3.y hw
  have hz := congrArg V3.z hw
  simp only [Coord.xyz] at hx hy hz
  unfold fromGalactic
  simp only
  rw [hx, hy, hz]
  have hsc := Real.sin_sq_add_cos_sq galD0
  have hv : (⟨cos p.dec * cos (p.ra - galR0),
      (sin p.dec * sin galD0 + cos p.dec * sin (p.ra - galR0) * cos galD0) * cos galD0 -
        (sin p.dec * cos galD0 - cos p.dec * sin (p.ra - galR0) * sin galD0) * sin galD0,
      (sin p.dec * sin galD0 + cos p.dec * sin (p.ra - galR0) * cos galD0) * sin galD0 +
        (sin p.dec * cos galD0 - cos p.dec * sin (p.ra - galR0) * sin galD0) * cos galD0⟩ : V3) =
      (⟨p.ra - galR0, p.dec⟩ : Coord).xyz := by
    simp only [Coord.xyz, V3.mk.injEq, true_and]
    constructor
    · linear_combination cos p.dec * sin (p.ra - galR0) * hsc
    · linear_combination sin p.dec * hsc
  rw [hv]
  obtain ⟨t, ht, hxyz, h0, h1, hd0, hd1⟩ := fromXYZ_unit _ (xyz_unit ⟨p.ra - galR0, p.dec⟩)
  have hmk : Coord.mk? (t.ra + galR0) t.dec = some ⟨t.ra + galR0, t.dec⟩ := by
    unfold Coord.mk?
    rw [if_neg]
    push Not
    constructor <;> linarith
  rw [ht]
  refine ⟨Coord.normal ⟨t.ra + galR0, t.dec⟩, by simp [hmk], ?_⟩
  have hq : (Coord.normal ⟨t.ra + galR0, t.dec⟩).xyz = p.xyz := by
    rw [normal_xyz, xyz_shift, hxyz, ← xyz_shift]
    simp
  refine ⟨(samePoint_iff (p := Coord.normal ⟨t.ra + galR0, t.dec⟩) ⟨hd0, hd1⟩ hp).mpr hq, ?_⟩
  intro a b c d
  exact coord_eq_of_xyz (wrapRad_range _) ⟨a, b⟩ ⟨hd0, hd1⟩ ⟨c, d⟩ hq

theorem ecliptic_xyz (p : Coord) (epoch : ℝ) (date : Option DateInfo) :
    let g : Coord := ⟨(p.ecliptic epoch date).1, (p.ecliptic epoch date).2⟩
    let w : Coord := ⟨g.ra + sunLon date, g.dec⟩
    let ep := eclipticObliquity (effEpoch epoch date)
    w.xyz = ⟨p.xyz.x, cos ep * p.xyz.y + sin ep * p.xyz.z, -sin ep * p.xyz.y + cos ep * p.xyz.z⟩ ∧
    g.Valid ∧ -π ≤ g.ra ∧ g.ra < π := by
  intro g w ep
  obtain ⟨X, hX⟩ : ∃ X, X = p.xyz.x := ⟨_, rfl⟩
  obtain ⟨Y, hY⟩ : ∃ X, X = cos ep * p.xyz.y + sin ep * p.xyz.z := ⟨_, rfl⟩
  obtain ⟨Z, hZ⟩ : ∃ X, X = -sin ep * p.xyz.y + cos ep * p.xyz.z := ⟨_, rfl⟩
  have hu : X ^ 2 + Y ^ 2 + Z ^ 2 = 1 := by
    rw [hX, hY, hZ]
    have h1 := xyz_unit p
    simp only [V3.dot] at h1
    linear_combination h1 + (p.xyz.y ^ 2 + p.xyz.z ^ 2) * Real.sin_sq_add_cos_sq ep
  have hra : g.ra = wrapRad (arctan2 Y X - sunLon date) 0 := by
    rw [hX, hY]; rfl
  have hdec : g.dec = arcsin Z := by rw [hZ]; rfl
  have hZ1 : -1 ≤ Z ∧ Z ≤ 1 := abs_le.mp ((sq_le_one_iff_abs_le_one _).mp (by nlinarith))
  refine ⟨?_, ?_, ?_⟩
  · rw [← hX, ← hY, ← hZ]
    have hs : sin w.dec = Z := by
      change sin g.dec = Z
      rw [hdec, Real.sin_arcsin hZ1.1 hZ1.2]
    have hc : cos w.dec = √(X ^ 2 + Y ^ 2) := by
      change cos g.dec = _
      rw [hdec, Real.cos_arcsin]; congr 1; linarith
    have hwc : cos w.ra = cos (arctan2 Y X) ∧ sin w.ra = sin (arctan2 Y X) := by
      change cos (g.ra + sunLon date) = _ ∧ sin (g.ra + sunLon date) = _
      rw [Real.cos_add, Real.sin_add, hra, (wrapRad_trig _ 0).1, (wrapRad_trig _ 0).2,
        ← Real.cos_add, ← Real.sin_add, sub_add_cancel]
      exact ⟨rfl, rfl⟩
    simp only [Coord.xyz, hs, hc, hwc.1, hwc.2, V3.mk.injEq, and_true]
    by_cases h0 : X ^ 2 + Y ^ 2 = 0
    · have hx0 : X = 0 := by nlinarith [sq_nonneg X, sq_nonneg Y]
      have hy0 : Y = 0 := by nlinarith [sq_nonneg X, sq_nonneg Y]
      rw [h0, hx0, hy0]; simp
    · have hpos : 0 < X ^ 2 + Y ^ 2 := lt_of_le_of_ne (by positivity) (Ne.symm h0)
      have hr : 0 < √(X ^ 2 + Y ^ 2) := Real.sqrt_pos.mpr hpos
      obtain ⟨h1, h2⟩ := arctan2_trig (x := X) (y := Y) hr (Real.sq_sqrt hpos.le).symm
      rw [h1, h2, mul_div_cancel₀ _ hr.ne', mul_div_cancel₀ _ hr.ne']
      exact ⟨rfl, rfl⟩
  · constructor
    · rw [hdec]; exact Real.neg_pi_div_two_le_arcsin Z
    · rw [hdec]; exact Real.arcsin_le_pi_div_two Z
  · have := C08_wrap_range ⟨arctan2 Y X - sunLon date⟩ ⟨0⟩
    simp only at this
    rw [hra]; unfold wrapRad
    constructor <;> linarith [this.1, this.2.1]

/-- C51: `from_ecliptic` inverts `ecliptic` for every epoch or date. -/
theorem C51_ecliptic_roundtrip (p : Coord) (hp : p.Valid) (epoch : ℝ) (date : Option DateInfo) :
    ∃ q, fromEcliptic (p.ecliptic epoch date).1 (p.ecliptic epoch date).2 epoch date = some q ∧
      SamePoint q p ∧
      (0 ≤ p.ra → p.ra < 2 * π → -(π / 2) < p.dec → p.dec < π / 2 → q = p) := by
  obtain ⟨hw, -, -⟩ := ecliptic_xyz p epoch date
  simp only at hw
  have hx := congrArg V3.x hw
  have hy := congrArg V3.y hw
  have hz := congrArg V3.z hw
  obtain ⟨ep, hep⟩ : ∃ ep, ep = eclipticObliquity (effEpoch epoch date) := ⟨_, rfl⟩
  rw [← hep] at hx hy hz
  have hsc := Real.sin_sq_add_cos_sq ep
  have hx' : cos (p.ecliptic epoch date).2 * cos ((p.ecliptic epoch date).1 + sunLon date) = p.xyz.x :=
    hx
  have hy' : cos (p.ecliptic epoch date).2 * sin ((p.ecliptic epoch date).1 + sunLon date) = _ := hy
  have hz' : sin (p.ecliptic epoch date).2 = _ := hz
  unfold fromEcliptic
  simp only
  rw [← hep, hx', hy', hz']
  have hv : (⟨p.xyz.x,
      cos ep * (cos ep * p.xyz.y + sin ep * p.xyz.z) - sin ep * (-sin ep * p.xyz.y + cos ep * p.xyz.z),
      sin ep * (cos ep * p.xyz.y + sin ep * p.xyz.z) + cos ep * (-sin ep * p.xyz.y + cos ep * p.xyz.z)⟩ :
      V3) = p.xyz := by
    apply V3.ext
    · rfl
    · linear_combination p.xyz.y * hsc
    · linear_combination p.xyz.z * hsc
  rw [hv]
  obtain ⟨q, hq, hxyz, h0, h1, hd0, hd1⟩ := fromXYZ_unit _ (xyz_unit p)
  refine ⟨q, hq, (samePoint_iff ⟨hd0, hd1⟩ hp).mpr hxyz, ?_⟩
  intro a b c d
  exact coord_eq_of_xyz ⟨h0, h1⟩ ⟨a, b⟩ ⟨hd0, hd1⟩ ⟨c, d⟩ hxyz

/-- C51: conversely `galactic` inverts `from_galactic`, off the galactic poles. -/
theorem C51_galactic_roundtrip' (el b : ℝ) (he : 0 ≤ el ∧ el < 2 * π)
    (hb : -(π / 2) < b ∧ b < π / 2) :
    ∃ q, fromGalactic el b = some q ∧ q.galactic = (el, b) ∧ q.Valid ∧ 0 ≤ q.ra ∧ q.ra < 2 * π := by
  obtain ⟨w, hw⟩ : ∃ w : Coord, w = ⟨el - galEl0, b⟩ := ⟨_, rfl⟩
  have hsc := Real.sin_sq_add_cos_sq galD0
  obtain ⟨t, ht, hxyz, h0, h1, hd0, hd1⟩ := fromXYZ_unit
    ⟨w.xyz.x, w.xyz.y * cos galD0 - w.xyz.z * sin galD0, w.xyz.y * sin galD0 + w.xyz.z * cos galD0⟩
    (by
      have h := xyz_unit w
      simp only [V3.dot] at h ⊢
      linear_combination h + (w.xyz.y ^ 2 + w.xyz.z ^ 2) * hsc)
  have hmk : Coord.mk? (t.ra + galR0) t.dec = some ⟨t.ra + galR0, t.dec⟩ := by
    unfold Coord.mk?
    rw [if_neg]
    push Not
    constructor <;> linarith
  obtain ⟨q, hq⟩ : ∃ q, q = Coord.normal ⟨t.ra + galR0, t.dec⟩ := ⟨_, rfl⟩
  refine ⟨q, ?_, ?_, ?_, ?_⟩
  · rw [hw] at ht
    simp only [Coord.xyz] at ht
    simp only [fromGalactic, ht, Option.bind_some, hmk, Option.map_some, hq]
  · obtain ⟨hg, hv, hr0, hr1⟩ := galactic_xyz q
    simp only at hg hr0 hr1
    have hqx : (⟨q.ra - galR0, q.dec⟩ : Coord).xyz = t.xyz := by
      have h := xyz_shift q (-galR0)
      rw [← sub_eq_add_neg] at h
      rw [h, hq, normal_xyz, ← xyz_shift]
      simp
    rw [hqx, hxyz] at hg
    have hg' : (⟨q.galactic.1 - galEl0, q.galactic.2⟩ : Coord).xyz = w.xyz := by
      rw [hg]
      apply V3.ext
      · rfl
      · linear_combination w.xyz.y * hsc
      · linear_combination w.xyz.z * hsc
    have hg2 : (⟨q.galactic.1, q.galactic.2⟩ : Coord).xyz = (⟨el, b⟩ : Coord).xyz := by
      have h1 := xyz_shift ⟨q.galactic.1 - galEl0, q.galactic.2⟩ galEl0
      have h2 := xyz_shift ⟨el - galEl0, b⟩ galEl0
      simp only [sub_add_cancel] at h1 h2
      rw [h1, h2, hg', hw]
    have := coord_eq_of_xyz (p := ⟨q.galactic.1, q.galactic.2⟩) (q := ⟨el, b⟩) ⟨hr0, hr1⟩ he hv hb hg2
    rw [Coord.mk.injEq] at this
    exact Prod.ext this.1 this.2
  · rw [hq]; exact ⟨hd0, hd1⟩
  · rw [hq]; exact wrapRad_range _

/-- C51: conversely `ecliptic` inverts `from_ecliptic`, off the ecliptic poles. -/
theorem C51_ecliptic_roundtrip' (lam beta epoch : ℝ) (date : Option DateInfo)
    (hl : -π ≤ lam ∧ lam < π) (hb : -(π / 2) < beta ∧ beta < π / 2) :
    ∃ q, fromEcliptic lam beta epoch date = some q ∧ q.ecliptic epoch date = (lam, beta) ∧
      q.Valid ∧ 0 ≤ q.ra ∧ q.ra < 2 * π := by
  obtain ⟨w, hw⟩ : ∃ w : Coord, w = ⟨lam + sunLon date, beta⟩ := ⟨_, rfl⟩
  obtain ⟨ep, hep⟩ : ∃ ep, ep = eclipticObliquity (effEpoch epoch date) := ⟨_, rfl⟩
  have hsc := Real.sin_sq_add_cos_sq ep
  obtain ⟨q, hq, hxyz, h0, h1, hd0, hd1⟩ := fromXYZ_unit
    ⟨w.xyz.x, cos ep * w.xyz.y - sin ep * w.xyz.z, sin ep * w.xyz.y + cos ep * w.xyz.z⟩
    (by
      have h := xyz_unit w
      simp only [V3.dot] at h ⊢
      linear_combination h + (w.xyz.y ^ 2 + w.xyz.z ^ 2) * hsc)
  refine ⟨q, ?_, ?_, ⟨hd0, hd1⟩, h0, h1⟩
  · rw [hw, hep] at hq
    exact hq
  · obtain ⟨hg, hv, hr0, hr1⟩ := ecliptic_xyz q epoch date
    simp only at hg hr0 hr1
    rw [← hep, hxyz] at hg
    have hg' : (⟨(q.ecliptic epoch date).1 + sunLon date, (q.ecliptic epoch date).2⟩ : Coord).xyz
        = w.xyz := by
      rw [hg]
      apply V3.ext
      · rfl
      · linear_combination w.xyz.y * hsc
      · linear_combination w.xyz.z * hsc
    have hg2 : (⟨(q.ecliptic epoch date).1, (q.ecliptic epoch date).2⟩ : Coord).xyz =
        (⟨lam, beta⟩ : Coord).xyz := by
      have h1 := xyz_shift ⟨(q.ecliptic epoch date).1 + sunLon date, (q.ecliptic epoch date).2⟩
        (-sunLon date)
      have h2 := xyz_shift ⟨lam + sunLon date, beta⟩ (-sunLon date)
      simp only [add_neg_cancel_right] at h1 h2
      rw [h1, h2, hg', hw]
    have := coord_eq_of_xyz' (-π) (p := ⟨(q.ecliptic epoch date).1, (q.ecliptic epoch date).2⟩)
      (q := ⟨lam, beta⟩) ⟨hr0, by simp only; linarith⟩ ⟨hl.1, by simp only; linarith [hl.2]⟩ hv hb hg2
    rw [Coord.mk.injEq] at this
    exact Prod.ext this.1 this.2

/-- C51: `from_xyz` inverts `get_xyz`, whatever the length of the vector; the origin is refused. -/
theorem C51_xyz_roundtrip (p : Coord) (hp : p.Valid) (r : ℝ) (hr : 0 < r) :
    (∃ q, fromXYZ ⟨r * p.xyz.x, r * p.xyz.y, r * p.xyz.z⟩ = some q ∧ SamePoint q p ∧
      (0 ≤ p.ra → p.ra < 2 * π → -(π / 2) < p.dec → p.dec < π / 2 → q = p)) ∧
    fromXYZ ⟨0, 0, 0⟩ = none := by
  constructor
  · have hdot : V3.dot ⟨r * p.xyz.x, r * p.xyz.y, r * p.xyz.z⟩ ⟨r * p.xyz.x, r * p.xyz.y, r * p.xyz.z⟩
        = r ^ 2 := by
      have := xyz_unit p
      simp only [V3.dot] at *
      linear_combination r ^ 2 * this
    obtain ⟨q, hq, hx, h0, h1, hd0, hd1⟩ := fromXYZ_spec ⟨r * p.xyz.x, r * p.xyz.y, r * p.xyz.z⟩
      (by rw [hdot]; positivity)
    rw [hdot, Real.sqrt_sq hr.le] at hx
    have hxyz : q.xyz = p.xyz := by
      rw [hx]
      exact V3.ext (by simp only; field_simp) (by simp only; field_simp) (by simp only; field_simp)
    refine ⟨q, hq, (samePoint_iff ⟨hd0, hd1⟩ hp).mpr hxyz, ?_⟩
    intro a b c d
    exact coord_eq_of_xyz ⟨h0, h1⟩ ⟨a, b⟩ ⟨hd0, hd1⟩ ⟨c, d⟩ hxyz
  · simp [fromXYZ]

/-- C51: `xyz_to_radec` inverts `radec_to_xyz`: the radius and declination exactly, the right
ascension up to full turns. -/
theorem C51_radec_roundtrip (ra dec r : ℝ) (hr : 0 < r) (hd : -(π / 2) < dec ∧ dec < π / 2) :
    (xyzToRadec (radecToXYZ ra dec r)).2.2 = r ∧ (xyzToRadec (radecToXYZ ra dec r)).2.1 = dec ∧
    ∃ n : ℤ, (xyzToRadec (radecToXYZ ra dec r)).1 = ra + n * (2 * π) := by
  have hc : 0 < cos dec := Real.cos_pos_of_mem_Ioo ⟨hd.1, hd.2⟩
  have hsc := Real.sin_sq_add_cos_sq ra
  have hsd := Real.sin_sq_add_cos_sq dec
  have hxy : (cos dec * cos ra * r) ^ 2 + (cos dec * sin ra * r) ^ 2 = (cos dec * r) ^ 2 := by
    linear_combination (cos dec * r) ^ 2 * hsc
  have hpos : 0 < cos dec * r := by positivity
  have hxy' : (radecToXYZ ra dec r).x ^ 2 + (radecToXYZ ra dec r).y ^ 2 = (cos dec * r) ^ 2 := hxy
  have hne : ¬ (radecToXYZ ra dec r).x ^ 2 + (radecToXYZ ra dec r).y ^ 2 = 0 := by
    rw [hxy']; positivity
  simp only [xyzToRadec]
  rw [if_neg hne, hxy', Real.sqrt_sq hpos.le]
  simp only [radecToXYZ]
  refine ⟨?_, ?_, ?_⟩
  · rw [show (cos dec * r) ^ 2 + (sin dec * r) ^ 2 = r ^ 2 by linear_combination r ^ 2 * hsd,
      Real.sqrt_sq hr.le]
  · rw [mul_div_mul_right _ _ hr.ne', ← Real.tan_eq_sin_div_cos, Real.arctan_tan hd.1 hd.2]
  · rw [show cos dec * sin ra * r = cos dec * r * sin ra by ring,
      show cos dec * cos ra * r = cos dec * r * cos ra by ring]
    exact arctan2_polar hpos

/-- C49: precession, galactic and ecliptic coordinates preserve distances. -/
theorem C49_invariant (p q : Coord) :
    (∀ e1 e2 p' q', p.precess e1 e2 = some p' → q.precess e1 e2 = some q' →
      p'.distanceTo q' = p.distanceTo q) ∧
    Coord.distanceTo ⟨p.galactic.1, p.galactic.2⟩ ⟨q.galactic.1, q.galactic.2⟩ = p.distanceTo q ∧
    (∀ epoch date, Coord.distanceTo ⟨(p.ecliptic epoch date).1, (p.ecliptic epoch date).2⟩
      ⟨(q.ecliptic epoch date).1, (q.ecliptic epoch date).2⟩ = p.distanceTo q) ∧
    p.normal.distanceTo q.normal = p.distanceTo q := by
  have shift : ∀ (a b : Coord) (t : ℝ),
      (⟨a.ra + t, a.dec⟩ : Coord).xyz.dot (⟨b.ra + t, b.dec⟩ : Coord).xyz = a.xyz.dot b.xyz := by
    intro a b t
    rw [dot_eq_cosSep, dot_eq_cosSep]
    simp only [cosSep, add_sub_add_right_eq_sub]
  refine ⟨?_, ?_, ?_, ?_⟩
  · intro e1 e2 p' q' hp hq
    obtain ⟨⟨a, ha, hax, -⟩, -⟩ := C51_precess p e1 e2
    obtain ⟨⟨b, hb, hbx, -⟩, -⟩ := C51_precess q e1 e2
    rw [ha] at hp
    rw [hb] at hq
    cases hp; cases hq
    apply distanceTo_congr
    rw [hax, hbx, precessVec_dot]
  · apply distanceTo_congr
    have hp := (galactic_xyz p).1
    have hq := (galactic_xyz q).1
    simp only at hp hq
    have hs := shift ⟨p.galactic.1, p.galactic.2⟩ ⟨q.galactic.1, q.galactic.2⟩ (-galEl0)
    have hs2 := shift p q (-galR0)
    simp only [← sub_eq_add_neg] at hs hs2
    rw [← hs, ← hs2, hp, hq]
    simp only [V3.dot]
    linear_combination ((Coord.mk (p.ra - galR0) p.dec).xyz.y * (Coord.mk (q.ra - galR0) q.dec).xyz.y +
      (Coord.mk (p.ra - galR0) p.dec).xyz.z * (Coord.mk (q.ra - galR0) q.dec).xyz.z) *
      Real.sin_sq_add_cos_sq galD0
  · intro epoch date
    apply distanceTo_congr
    have hp := (ecliptic_xyz p epoch date).1
    have hq := (ecliptic_xyz q epoch date).1
    simp only at hp hq
    have hs := shift ⟨(p.ecliptic epoch date).1, (p.ecliptic epoch date).2⟩
      ⟨(q.ecliptic epoch date).1, (q.ecliptic epoch date).2⟩ (sunLon date)
    simp only at hs
    rw [← hs, hp, hq]
    simp only [V3.dot]
    linear_combination (p.xyz.y * q.xyz.y + p.xyz.z * q.xyz.z) *
      Real.sin_sq_add_cos_sq (eclipticObliquity (effEpoch epoch date))
  · apply distanceTo_congr
    rw [normal_xyz, normal_xyz]

/-! ### Concrete cases -/

/-- The near-antipodal branch: a point and its antipode are at distance `π`. -/
example : Coord.distanceTo ⟨0, 0⟩ ⟨π, 0⟩ = π := by
  refine ((C49_cosine ⟨0, 0⟩ ⟨π, 0⟩).2.2.2 π Real.pi_pos.le (le_refl _) ?_).symm
  simp [cosSep]

/-- A quarter turn from the equator to the pole. -/
example : Coord.distanceTo ⟨0, 0⟩ ⟨1, π / 2⟩ = π / 2 := by
  refine ((C49_cosine ⟨0, 0⟩ ⟨1, π / 2⟩).2.2.2 (π / 2) (by positivity) (by linarith [Real.pi_pos]) ?_).symm
  simp [cosSep]

example : (⟨1, 1 / 2⟩ : Coord).Valid := by
  constructor <;> simp only <;> linarith [Real.pi_gt_three]

example : ∃ q, fromGalactic (Coord.galactic ⟨1, 1 / 2⟩).1 (Coord.galactic ⟨1, 1 / 2⟩).2 = some q ∧
    q = ⟨1, 1 / 2⟩ := by
  have h3 := Real.pi_gt_three
  obtain ⟨q, h, -, e⟩ := C51_galactic_roundtrip ⟨1, 1 / 2⟩
    (by constructor <;> simp only <;> linarith)
  exact ⟨q, h, e (by norm_num) (by simp only; linarith) (by simp only; linarith) (by simp only; linarith)⟩

example : ∃ q, fromEcliptic 1 (1 / 2) 2000 (some ⟨2024, 3⟩) = some q ∧
    q.ecliptic 2000 (some ⟨2024, 3⟩) = (1, 1 / 2) := by
  have h3 := Real.pi_gt_three
  obtain ⟨q, h, e, -⟩ := C51_ecliptic_roundtrip' 1 (1 / 2) 2000 (some ⟨2024, 3⟩)
    ⟨by linarith, by linarith⟩ ⟨by linarith, by linarith⟩
  exact ⟨q, h, e⟩

end JG
