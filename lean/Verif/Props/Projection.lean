import Verif.Props.Celestial

/-! C50: the four projections of the sphere onto a tangent plane. -/

namespace JG

open Real

/-- Where a projection is one-to-one, by the cosine of the distance from the centre: the near
hemisphere for the gnomonic projection, everything but the antipode for the others. -/
def Proj.Dom (P : Proj) (cosc : ℝ) : Prop :=
  match P with
  | .gnomonic => 0 < cosc
  | _ => -1 < cosc

/-- The plane radii a projection reaches, by their squares. -/
def Proj.PlaneDom (P : Proj) (u v : ℝ) : Prop :=
  match P with
  | .gnomonic => True
  | .stereographic => True
  | .lambert => u ^ 2 + v ^ 2 < 4
  | .postel => u ^ 2 + v ^ 2 < π ^ 2

/-- Textbook radius in the plane of a point at distance `t` from the centre. -/
noncomputable def Proj.radius (P : Proj) (t : ℝ) : ℝ :=
  match P with
  | .gnomonic => tan t
  | .stereographic => 2 * tan (t / 2)
  | .lambert => 2 * sin (t / 2)
  | .postel => t

theorem jnpSinc_div_pi {t : ℝ} (h0 : 0 ≤ t) (h1 : t < π) :
    0 < jnpSinc (t / π) ∧ jnpSinc (t / π) * t = sin t := by
  have hpi := Real.pi_pos
  unfold jnpSinc
  rcases h0.eq_or_lt with h | h
  · rw [← h]; simp
  · rw [if_neg (by positivity), mul_div_cancel₀ _ hpi.ne']
    have := Real.sin_pos_of_pos_of_lt_pi h h1
    refine ⟨by positivity, by field_simp⟩

/-- The coordinates of `q` in the frame turned to the right ascension of the centre. -/
theorem projectP_eq (p0 q : Coord) (P : Proj) :
    p0.projectP q P =
      (-(Coord.mk (q.ra - p0.ra) q.dec).xyz.y * P.k (cosSep p0 q),
       (cos p0.dec * (Coord.mk (q.ra - p0.ra) q.dec).xyz.z -
          sin p0.dec * (Coord.mk (q.ra - p0.ra) q.dec).xyz.x) * P.k (cosSep p0 q)) ∧
    cosSep p0 q = cos p0.dec * (Coord.mk (q.ra - p0.ra) q.dec).xyz.x +
      sin p0.dec * (Coord.mk (q.ra - p0.ra) q.dec).xyz.z := by
  have hc : cos q.dec * (cos p0.ra * cos q.ra + sin p0.ra * sin q.ra) * cos p0.dec
      + sin p0.dec * sin q.dec = cosSep p0 q := by
    simp only [cosSep, Real.cos_sub]; ring
  constructor
  · unfold Coord.projectP
    simp only
    rw [hc]
    simp only [Coord.xyz, Real.cos_sub, Real.sin_sub, Prod.mk.injEq]
    constructor <;> ring
  · simp only [Coord.xyz, cosSep, Real.cos_sub]; ring

theorem projectP_rsq (p0 q : Coord) (P : Proj) :
    (p0.projectP q P).1 ^ 2 + (p0.projectP q P).2 ^ 2 =
      P.k (cosSep p0 q) ^ 2 * (1 - cosSep p0 q ^ 2) := by
  obtain ⟨h, hc⟩ := projectP_eq p0 q P
  rw [h]
  simp only
  obtain ⟨k, hk⟩ : ∃ k, k = P.k (cosSep p0 q) := ⟨_, rfl⟩
  rw [← hk, hc]
  have hu := xyz_unit (Coord.mk (q.ra - p0.ra) q.dec)
  simp only [V3.dot] at hu
  obtain ⟨w, hw⟩ : ∃ w, w = (Coord.mk (q.ra - p0.ra) q.dec).xyz := ⟨_, rfl⟩
  rw [← hw] at hu ⊢
  have hsc := Real.sin_sq_add_cos_sq p0.dec
  linear_combination k ^ 2 * hu + k ^ 2 * (w.x ^ 2 + w.z ^ 2) * hsc

/-- On its domain the factor of `_deproject` undoes that of `_project`. -/
theorem cs_of_k (P : Proj) (c u v : ℝ) (h1 : c ≤ 1) (hd : P.Dom c)
    (hr : u ^ 2 + v ^ 2 = P.k c ^ 2 * (1 - c ^ 2)) :
    (P.cs u v).1 = c ∧ P.k c * (P.cs u v).2 = 1 := by
  have hr' : u * u + v * v = P.k c ^ 2 * (1 - c ^ 2) := by rw [← hr]; ring
  unfold Proj.cs
  simp only
  rw [hr']
  cases P with
  | gnomonic =>
    have hd : 0 < c := hd
    simp only [Proj.k]
    have e : 1 + (1 / c) ^ 2 * (1 - c ^ 2) = (1 / c) ^ 2 := by field_simp; ring
    rw [e, Real.sqrt_sq (by positivity)]
    constructor <;> field_simp
  | stereographic =>
    have hd : -1 < c := hd
    have hp : 0 < 1 + c := by linarith
    simp only [Proj.k]
    have e : (2 / (1 + c)) ^ 2 * (1 - c ^ 2) = 4 * (1 - c) / (1 + c) := by field_simp; ring
    rw [e]
    have e1 : 4 + 4 * (1 - c) / (1 + c) = 8 / (1 + c) := by field_simp; ring
    have e2 : 4 - 4 * (1 - c) / (1 + c) = 8 * c / (1 + c) := by field_simp; ring
    rw [e1, e2]
    constructor <;> field_simp <;> norm_num
  | lambert =>
    have hd : -1 < c := hd
    have hp : 0 < 1 + c := by linarith
    simp only [Proj.k]
    rw [Real.sq_sqrt (by positivity)]
    have e : 2 / (1 + c) * (1 - c ^ 2) = 2 * (1 - c) := by field_simp; ring
    rw [e]
    refine ⟨by ring, ?_⟩
    rw [← mul_div_assoc, ← Real.sqrt_mul (by positivity)]
    have e2 : 2 / (1 + c) * (4 - 2 * (1 - c)) = 2 ^ 2 := by field_simp; ring
    rw [e2, Real.sqrt_sq (by norm_num)]; norm_num
  | postel =>
    have hd : -1 < c := hd
    simp only [Proj.k]
    have ht0 := Real.arccos_nonneg c
    have ht1 : arccos c < π := by
      rcases (Real.arccos_le_pi c).lt_or_eq with h | h
      · exact h
      · exact absurd (Real.arccos_eq_pi.mp h) (by linarith)
    obtain ⟨hs0, hs⟩ := jnpSinc_div_pi ht0 ht1
    have hcos := Real.cos_arccos hd.le h1
    have e : (1 / jnpSinc (arccos c / π)) ^ 2 * (1 - c ^ 2) = (arccos c) ^ 2 := by
      have hsin := Real.sin_sq_add_cos_sq (arccos c)
      rw [hcos, ← hs] at hsin
      have : 1 - c ^ 2 = (jnpSinc (arccos c / π) * arccos c) ^ 2 := by linarith
      rw [this]; field_simp
    rw [e, Real.sqrt_sq ht0, hcos]
    exact ⟨rfl, by field_simp⟩

theorem arctan2_arcsin_xyz {X Y Z : ℝ} (hu : X ^ 2 + Y ^ 2 + Z ^ 2 = 1) :
    (Coord.mk (arctan2 Y X) (arcsin Z)).xyz = ⟨X, Y, Z⟩ := by
  have hZ1 : -1 ≤ Z ∧ Z ≤ 1 := abs_le.mp ((sq_le_one_iff_abs_le_one _).mp (by nlinarith))
  have hs : sin (arcsin Z) = Z := Real.sin_arcsin hZ1.1 hZ1.2
  have hc : cos (arcsin Z) = √(X ^ 2 + Y ^ 2) := by rw [Real.cos_arcsin]; congr 1; linarith
  simp only [Coord.xyz, hs, hc, V3.mk.injEq, and_true]
  by_cases h0 : X ^ 2 + Y ^ 2 = 0
  · have hx0 : X = 0 := by nlinarith [sq_nonneg X, sq_nonneg Y]
    have hy0 : Y = 0 := by nlinarith [sq_nonneg X, sq_nonneg Y]
    rw [h0, hx0, hy0]; simp
  · have hpos : 0 < X ^ 2 + Y ^ 2 := lt_of_le_of_ne (by positivity) (Ne.symm h0)
    have hr : 0 < √(X ^ 2 + Y ^ 2) := Real.sqrt_pos.mpr hpos
    obtain ⟨h1, h2⟩ := arctan2_trig (x := X) (y := Y) hr (Real.sq_sqrt hpos.le).symm
    rw [h1, h2, mul_div_cancel₀ _ hr.ne', mul_div_cancel₀ _ hr.ne']
    exact ⟨rfl, rfl⟩

/-- C50: for all centres and points in its domain, `deproject` after `project` gives back the
point: the declination exactly, the right ascension up to full turns (unless at a pole). -/
theorem C50_deproject_project (P : Proj) (p0 q : Coord) (hq : q.Valid) (hd : P.Dom (cosSep p0 q)) :
    SamePoint (p0.deprojectP (p0.projectP q P).1 (p0.projectP q P).2 P) q := by
  have hle : cosSep p0 q ≤ 1 := by rw [← dot_eq_cosSep]; exact (dot_range p0 q).2
  obtain ⟨hc, hk⟩ := cs_of_k P (cosSep p0 q) _ _ hle hd (projectP_rsq p0 q P)
  obtain ⟨hp, hcs⟩ := projectP_eq p0 q P
  have hp1 := congrArg Prod.fst hp
  have hp2 := congrArg Prod.snd hp
  simp only at hp1 hp2
  obtain ⟨w, hw⟩ : ∃ w, w = (Coord.mk (q.ra - p0.ra) q.dec).xyz := ⟨_, rfl⟩
  rw [← hw] at hp1 hp2 hcs
  obtain ⟨s, hs⟩ : ∃ s, s = (P.cs (p0.projectP q P).1 (p0.projectP q P).2).2 := ⟨_, rfl⟩
  rw [← hs] at hk
  have hsc := Real.sin_sq_add_cos_sq p0.dec
  have hu1 : (p0.projectP q P).1 * s = -w.y := by
    rw [hp1]; linear_combination -w.y * hk
  have hv1 : (p0.projectP q P).2 * s = cos p0.dec * w.z - sin p0.dec * w.x := by
    rw [hp2]; linear_combination (cos p0.dec * w.z - sin p0.dec * w.x) * hk
  unfold Coord.deprojectP
  simp only
  rw [hc, ← hs, hu1, hv1, hcs]
  have e1 : (cos p0.dec * w.z - sin p0.dec * w.x) * cos p0.dec +
      (cos p0.dec * w.x + sin p0.dec * w.z) * sin p0.dec = sin q.dec := by
    have : w.z = sin q.dec := by rw [hw]; rfl
    rw [← this]; linear_combination w.z * hsc
  have e2 : (cos p0.dec * w.z - sin p0.dec * w.x) * -sin p0.dec +
      (cos p0.dec * w.x + sin p0.dec * w.z) * cos p0.dec = cos q.dec * cos (q.ra - p0.ra) := by
    have : w.x = cos q.dec * cos (q.ra - p0.ra) := by rw [hw]; rfl
    rw [← this]; linear_combination w.x * hsc
  have e3 : -w.y * -1 = cos q.dec * sin (q.ra - p0.ra) := by rw [hw]; simp [Coord.xyz]
  rw [e1, e2, e3, Real.arcsin_sin hq.1 hq.2]
  refine ⟨rfl, ?_⟩
  by_cases h0 : cos q.dec = 0
  · exact Or.inl h0
  · have hpos : 0 < cos q.dec := lt_of_le_of_ne (Real.cos_nonneg_of_mem_Icc ⟨hq.1, hq.2⟩) (Ne.symm h0)
    obtain ⟨n, hn⟩ := arctan2_polar (t := q.ra - p0.ra) hpos
    exact Or.inr ⟨n, by rw [hn]; ring⟩

/-- What `deproject` returns: the unit vector of the point in the frame of the centre. -/
theorem deprojectP_xyz (P : Proj) (p0 : Coord) (u v : ℝ)
    (h : (P.cs u v).1 ^ 2 + (u ^ 2 + v ^ 2) * (P.cs u v).2 ^ 2 = 1) :
    let q := p0.deprojectP u v P
    (Coord.mk (q.ra - p0.ra) q.dec).xyz =
      ⟨(P.cs u v).1 * cos p0.dec - v * (P.cs u v).2 * sin p0.dec, -(u * (P.cs u v).2),
        v * (P.cs u v).2 * cos p0.dec + (P.cs u v).1 * sin p0.dec⟩ := by
  intro q
  have hsc := Real.sin_sq_add_cos_sq p0.dec
  have hq : (Coord.mk (q.ra - p0.ra) q.dec) = ⟨arctan2 (u * (P.cs u v).2 * -1)
      (v * (P.cs u v).2 * -sin p0.dec + (P.cs u v).1 * cos p0.dec),
      arcsin (v * (P.cs u v).2 * cos p0.dec + (P.cs u v).1 * sin p0.dec)⟩ := by
    simp only [q, Coord.deprojectP, add_sub_cancel_left]
  rw [hq, arctan2_arcsin_xyz]
  · simp only [V3.mk.injEq, and_true]
    constructor <;> ring
  · linear_combination h + ((v * (P.cs u v).2) ^ 2 + (P.cs u v).1 ^ 2) * hsc

/-- `cosc` and `sinc_over_r` of `_deproject` are a cosine and a sine over the radius. -/
theorem cs_unit (P : Proj) (u v : ℝ) (h : P.PlaneDom u v) :
    (P.cs u v).1 ^ 2 + (u ^ 2 + v ^ 2) * (P.cs u v).2 ^ 2 = 1 := by
  have e : u ^ 2 + v ^ 2 = u * u + v * v := by ring
  have h0 : 0 ≤ u * u + v * v := by rw [← e]; positivity
  unfold Proj.PlaneDom at h
  unfold Proj.cs
  simp only
  simp only [e] at h ⊢
  clear e
  generalize u * u + v * v = R at h h0 ⊢
  cases P with
  | gnomonic =>
    simp only
    have : √(1 + R) ^ 2 = 1 + R := Real.sq_sqrt (by linarith)
    have hp : 0 < √(1 + R) := Real.sqrt_pos.mpr (by linarith)
    rw [div_pow, this]; field_simp
  | stereographic => simp only; field_simp; ring
  | lambert =>
    simp only at h ⊢
    have : √(4 - R) ^ 2 = 4 - R := Real.sq_sqrt (by linarith)
    rw [div_pow, this]; ring
  | postel =>
    simp only at h ⊢
    have hr : √R < π := by
      rw [show π = √(π ^ 2) from (Real.sqrt_sq Real.pi_pos.le).symm]
      exact Real.sqrt_lt_sqrt h0 h
    obtain ⟨-, hs⟩ := jnpSinc_div_pi (Real.sqrt_nonneg R) hr
    have h2 := Real.sin_sq_add_cos_sq √R
    rw [← hs, mul_pow, Real.sq_sqrt h0] at h2
    linarith

theorem k_of_cs (P : Proj) (u v : ℝ) (h : P.PlaneDom u v) :
    P.k (P.cs u v).1 * (P.cs u v).2 = 1 ∧ P.Dom (P.cs u v).1 := by
  have e : u ^ 2 + v ^ 2 = u * u + v * v := by ring
  have h0 : 0 ≤ u * u + v * v := by rw [← e]; positivity
  unfold Proj.PlaneDom at h
  unfold Proj.cs
  simp only
  simp only [e] at h ⊢
  clear e
  generalize u * u + v * v = R at h h0 ⊢
  cases P with
  | gnomonic =>
    have hp : 0 < √(1 + R) := Real.sqrt_pos.mpr (by linarith)
    simp only [Proj.k, Proj.Dom]
    exact ⟨by field_simp, by positivity⟩
  | stereographic =>
    simp only [Proj.k, Proj.Dom]
    have e1 : 1 + (4 - R) / (4 + R) = 8 / (4 + R) := by field_simp; ring
    constructor
    · rw [e1]; field_simp; norm_num
    · have : 0 < 8 / (4 + R) := by positivity
      linarith
  | lambert =>
    simp only [Proj.k, Proj.Dom] at h ⊢
    have hp : 0 < 4 - R := by linarith
    constructor
    · rw [← mul_div_assoc, ← Real.sqrt_mul (div_nonneg (by norm_num) (by linarith))]
      have e1 : 2 / (1 + (1 - R / 2)) * (4 - R) = 2 ^ 2 := by
        rw [show 1 + (1 - R / 2) = (4 - R) / 2 by ring]
        field_simp
      rw [e1, Real.sqrt_sq (by norm_num)]; norm_num
    · linarith
  | postel =>
    simp only [Proj.k, Proj.Dom] at h ⊢
    have hr : √R < π := by
      rw [show π = √(π ^ 2) from (Real.sqrt_sq Real.pi_pos.le).symm]
      exact Real.sqrt_lt_sqrt h0 h
    obtain ⟨hs, -⟩ := jnpSinc_div_pi (Real.sqrt_nonneg R) hr
    rw [Real.arccos_cos (Real.sqrt_nonneg R) hr.le]
    refine ⟨by field_simp, ?_⟩
    have := Real.cos_lt_cos_of_nonneg_of_le_pi (Real.sqrt_nonneg R) (le_refl π) hr
    rwa [Real.cos_pi] at this

/-- C50: conversely, for every plane position the projection reaches, `project` after `deproject`
gives it back, and the deprojected point lies in the domain of the projection. -/
theorem C50_project_deproject (P : Proj) (p0 : Coord) (u v : ℝ) (h : P.PlaneDom u v) :
    p0.projectP (p0.deprojectP u v P) P = (u, v) ∧ (p0.deprojectP u v P).Valid ∧
      P.Dom (cosSep p0 (p0.deprojectP u v P)) := by
  obtain ⟨hp, hcs⟩ := projectP_eq p0 (p0.deprojectP u v P) P
  have hx := deprojectP_xyz P p0 u v (cs_unit P u v h)
  simp only at hx
  obtain ⟨hk, hdom⟩ := k_of_cs P u v h
  have hsc := Real.sin_sq_add_cos_sq p0.dec
  rw [hx] at hp hcs
  simp only at hp hcs
  have hc : cosSep p0 (p0.deprojectP u v P) = (P.cs u v).1 := by
    rw [hcs]; linear_combination (P.cs u v).1 * hsc
  rw [hc] at hp ⊢
  refine ⟨?_, ⟨Real.neg_pi_div_two_le_arcsin _, Real.arcsin_le_pi_div_two _⟩, hdom⟩
  rw [hp, Prod.mk.injEq]
  constructor
  · linear_combination u * hk
  · linear_combination v * hk + v * (P.k (P.cs u v).1 * (P.cs u v).2) * hsc

/-- C50: the projections are the textbook ones: the distance from the origin of the plane is
`tan t`, `2 tan (t/2)`, `2 sin (t/2)` or `t` for a point at distance `t` from the centre, and the
direction is that of the point seen from the centre, north up and east to the left. -/
theorem C50_textbook (P : Proj) (p0 q : Coord) (hd : P.Dom (cosSep p0 q)) :
    √((p0.projectP q P).1 ^ 2 + (p0.projectP q P).2 ^ 2) = P.radius (p0.distanceTo q) ∧
    (p0.projectP q P).1 * sin (p0.distanceTo q) =
      -(cos q.dec * sin (q.ra - p0.ra)) * P.radius (p0.distanceTo q) ∧
    (p0.projectP q P).2 * sin (p0.distanceTo q) =
      (cos p0.dec * sin q.dec - sin p0.dec * cos q.dec * cos (q.ra - p0.ra)) *
        P.radius (p0.distanceTo q) := by
  obtain ⟨hc, ht0, ht1⟩ := cos_distanceTo p0 q
  rw [dot_eq_cosSep] at hc
  obtain ⟨t, ht⟩ : ∃ t, t = p0.distanceTo q := ⟨_, rfl⟩
  rw [← ht] at hc ht0 ht1 ⊢
  have hsin0 : 0 ≤ sin t := Real.sin_nonneg_of_nonneg_of_le_pi ht0 ht1
  have hlt : t < π := by
    rcases ht1.lt_or_eq with h | h
    · exact h
    · exfalso
      rw [h, Real.cos_pi] at hc
      rw [← hc] at hd
      cases P <;> simp only [Proj.Dom] at hd <;> linarith
  have hhalf : 0 < cos (t / 2) := Real.cos_pos_of_mem_Ioo ⟨by linarith, by linarith⟩
  have hhs : 0 ≤ sin (t / 2) := Real.sin_nonneg_of_nonneg_of_le_pi (by linarith) (by linarith)
  have h2s : sin t = 2 * sin (t / 2) * cos (t / 2) := by
    rw [← Real.sin_two_mul]; congr 1; ring
  have h2c : 1 + cos t = 2 * cos (t / 2) ^ 2 := by
    have := Real.cos_sq (t / 2)
    rw [this]; ring_nf
  have key : P.k (cosSep p0 q) * sin t = P.radius t ∧ 0 ≤ P.k (cosSep p0 q) := by
    rw [← hc]
    rw [← hc] at hd
    cases P with
    | gnomonic =>
      have hd : 0 < cos t := hd
      simp only [Proj.k, Proj.radius]
      exact ⟨by rw [Real.tan_eq_sin_div_cos]; ring, by positivity⟩
    | stereographic =>
      simp only [Proj.k, Proj.radius]
      rw [h2c, h2s, Real.tan_eq_sin_div_cos]
      exact ⟨by field_simp, by positivity⟩
    | lambert =>
      simp only [Proj.k, Proj.radius]
      rw [h2c, h2s]
      have e : 2 / (2 * cos (t / 2) ^ 2) = (1 / cos (t / 2)) ^ 2 := by field_simp
      rw [e, Real.sqrt_sq (by positivity)]
      exact ⟨by field_simp, by positivity⟩
    | postel =>
      simp only [Proj.k, Proj.radius]
      rw [Real.arccos_cos ht0 ht1]
      obtain ⟨hs0, hs⟩ := jnpSinc_div_pi ht0 hlt
      exact ⟨by rw [← hs]; field_simp, by positivity⟩
  obtain ⟨hk, hk0⟩ := key
  refine ⟨?_, ?_, ?_⟩
  · rw [projectP_rsq, ← hc, show 1 - cos t ^ 2 = sin t ^ 2 by
      linarith [Real.sin_sq_add_cos_sq t], ← mul_pow, hc, hk]
    apply Real.sqrt_sq
    rw [← hk]; positivity
  · rw [(projectP_eq p0 q P).1]
    simp only [Coord.xyz]
    rw [← hk]; ring
  · rw [(projectP_eq p0 q P).1]
    simp only [Coord.xyz]
    rw [← hk]; ring

/-- C50, public interface: for every accepted projection name, projecting and deprojecting succeed
and give the point back; any other name is refused by all of them. -/
theorem C50_names (name : Option String) (p0 q : Coord) (hq : q.Valid) :
    (∀ P, Proj.ofName name = some P → P.Dom (cosSep p0 q) →
      ∃ uv q', p0.project q name = some uv ∧ p0.deproject uv.1 uv.2 name = some q' ∧
        SamePoint q' q ∧ p0.deprojectRad uv.1 uv.2 name = some (q'.ra, q'.dec)) ∧
    ((name ∉ [none, some "gnomonic", some "stereographic", some "lambert", some "postel"]) →
      p0.project q name = none ∧ ∀ u v, p0.deproject u v name = none ∧
        p0.deprojectRad u v name = none) := by
  constructor
  · intro P hP hd
    have h := C50_deproject_project P p0 q hq hd
    refine ⟨p0.projectP q P, p0.deprojectP (p0.projectP q P).1 (p0.projectP q P).2 P, ?_, ?_, h, ?_⟩
    · simp [Coord.project, hP]
    · simp only [Coord.deproject, hP, Option.bind_some, Coord.mk?]
      rw [if_neg]
      push Not
      rw [h.1]
      constructor <;> linarith [hq.1, hq.2]
    · simp [Coord.deprojectRad, hP]
  · intro hn
    have : Proj.ofName name = none := by
      unfold Proj.ofName
      split <;> simp_all
    simp [Coord.project, Coord.deproject, Coord.deprojectRad, this]

/-- The default projection is the gnomonic one, and the four names select four projections. -/
theorem C50_dispatch : Proj.ofName none = some .gnomonic ∧
    Proj.ofName (some "gnomonic") = some .gnomonic ∧
    Proj.ofName (some "stereographic") = some .stereographic ∧
    Proj.ofName (some "lambert") = some .lambert ∧ Proj.ofName (some "postel") = some .postel :=
  ⟨rfl, rfl, rfl, rfl, rfl⟩

/-- Outside its hemisphere the gnomonic projection is not inverted: the antipode comes back. -/
theorem C50_gnomonic_antipode (p0 q : Coord) (hq : q.Valid) (hd : cosSep p0 q < 0) :
    SamePoint (p0.deprojectP (p0.projectP q .gnomonic).1 (p0.projectP q .gnomonic).2 .gnomonic)
      ⟨q.ra + π, -q.dec⟩ := by
  have hq' : (⟨q.ra + π, -q.dec⟩ : Coord).Valid := ⟨by simp; exact hq.2, by simp; linarith [hq.1]⟩
  have hs : cosSep p0 ⟨q.ra + π, -q.dec⟩ = -cosSep p0 q := by
    simp only [cosSep, Real.cos_neg, Real.sin_neg]
    rw [show p0.ra - (q.ra + π) = (p0.ra - q.ra) - π by ring, Real.cos_sub_pi]; ring
  have h := C50_deproject_project .gnomonic p0 ⟨q.ra + π, -q.dec⟩ hq' (by
    change 0 < _; rw [hs]; linarith)
  have e : p0.projectP ⟨q.ra + π, -q.dec⟩ .gnomonic = p0.projectP q .gnomonic := by
    rw [(projectP_eq p0 _ _).1, (projectP_eq p0 q _).1, hs]
    simp only [Coord.xyz, Proj.k, Real.cos_neg, Real.sin_neg, Prod.mk.injEq]
    rw [show q.ra + π - p0.ra = (q.ra - p0.ra) + π by ring, Real.cos_add_pi, Real.sin_add_pi]
    have : cosSep p0 q ≠ 0 := hd.ne
    constructor
    · field_simp
    · field_simp; ring
  rw [e] at h
  exact h

/-! ### Concrete cases -/

/-- A point one radian from the centre along the equator is in the domain of all four. -/
example (P : Proj) : P.Dom (cosSep ⟨0, 0⟩ ⟨1, 0⟩) := by
  have : 0 < cos 1 := Real.cos_pos_of_mem_Ioo
    ⟨by linarith [Real.pi_gt_three], by linarith [Real.pi_gt_three]⟩
  cases P <;> simp [Proj.Dom, cosSep] <;> linarith

example (P : Proj) : P.PlaneDom 1 1 := by
  have := Real.pi_gt_three
  cases P <;> simp only [Proj.PlaneDom] <;> nlinarith

end JG
