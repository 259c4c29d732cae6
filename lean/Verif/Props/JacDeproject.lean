import Verif.Props.Projection
import Mathlib.Analysis.SpecialFunctions.Trigonometric.Deriv
import Mathlib.Analysis.SpecialFunctions.Sqrt
import Mathlib.Analysis.SpecialFunctions.Trigonometric.Bounds

/-! C68: `jac_deproject` is the derivative of the deprojected point. -/

namespace JG

open Real Topology

/-! ### Specification -/

/-- Derivative of a moving point of space. -/
def HasDerivV3 (f : ℝ → V3) (d : V3) (t : ℝ) : Prop :=
  HasDerivAt (fun x => (f x).x) d.x t ∧ HasDerivAt (fun x => (f x).y) d.y t ∧
    HasDerivAt (fun x => (f x).z) d.z t

/-- The tangent vector of the sphere at `q` with the given components to the west and north. -/
noncomputable def Coord.tangent (q : Coord) (west north : ℝ) : V3 :=
  ⟨west * sin q.ra + north * (-(sin q.dec * cos q.ra)),
   west * (-cos q.ra) + north * (-(sin q.dec * sin q.ra)), north * cos q.dec⟩

/-! ### Derivatives of the two factors -/

theorem hasDerivAt_of_eq {f : ℝ → ℝ} {a b t : ℝ} (h : HasDerivAt f a t) (e : a = b) :
    HasDerivAt f b t := e ▸ h


theorem jnpSinc_eq (r : ℝ) : jnpSinc (r / π) = if r = 0 then 1 else sin r / r := by
  have hpi := Real.pi_pos
  unfold jnpSinc
  by_cases h : r = 0
  · simp [h]
  · rw [if_neg h, if_neg (div_ne_zero h hpi.ne'), mul_div_cancel₀ _ hpi.ne']

theorem sinc_bound {t : ℝ} (ht : t ≠ 0) (h1 : |t| ≤ 1) : |sin t / t - 1| ≤ |t| * |t| := by
  have key : ∀ x : ℝ, 0 < x → x ≤ 1 → |sin x / x - 1| ≤ x * x := by
    intro x hx hx1
    have h1 := Real.sin_gt_sub_cube hx
    have h2 := Real.sin_lt hx
    have e : sin x / x - 1 = (sin x - x) / x := by field_simp
    rw [e, abs_div, abs_of_neg (by linarith), abs_of_pos hx, div_le_iff₀ hx]
    nlinarith [pow_pos hx 3]
  rcases lt_or_gt_of_ne ht with h | h
  · have := key (-t) (by linarith) (by rwa [← abs_of_neg h])
    rw [Real.sin_neg, neg_div_neg_eq] at this
    rw [abs_of_neg h]; exact this
  · have := key t h (by rwa [← abs_of_pos h])
    rw [abs_of_pos h]; exact this

theorem hasDerivAt_sinc_zero : HasDerivAt (fun t => jnpSinc (|t| / π)) 0 0 := by
  rw [hasDerivAt_iff_tendsto_slope_zero]
  have hev : ∀ᶠ t in 𝓝[≠] (0:ℝ), ‖t⁻¹ • (jnpSinc (|0 + t| / π) - jnpSinc (|(0:ℝ)| / π))‖ ≤ |t| := by
    have h1 : ∀ᶠ t in 𝓝[≠] (0:ℝ), |t| ≤ 1 := by
      have : ∀ᶠ t in 𝓝 (0:ℝ), |t| < 1 := by
        have := (continuous_abs (G := ℝ)).tendsto 0
        rw [abs_zero] at this
        exact this.eventually (gt_mem_nhds one_pos)
      exact (this.filter_mono nhdsWithin_le_nhds).mono fun t h => h.le
    filter_upwards [h1, self_mem_nhdsWithin] with t ht hne
    have hne : t ≠ 0 := hne
    have ha : |t| ≠ 0 := abs_ne_zero.mpr hne
    rw [zero_add, jnpSinc_eq, jnpSinc_eq, if_neg ha, abs_zero, if_pos rfl, smul_eq_mul,
      Real.norm_eq_abs, abs_mul, abs_inv]
    have := sinc_bound (t := |t|) ha (by rwa [abs_abs])
    rw [abs_abs] at this
    rw [inv_mul_le_iff₀ (abs_pos.mpr hne)]
    exact this
  refine squeeze_zero_norm' hev ?_
  have := (continuous_abs (G := ℝ)).tendsto 0
  rw [abs_zero] at this
  exact this.mono_left nhdsWithin_le_nhds

theorem jacParts_cs (P : Proj) (u v : ℝ) :
    (P.jacParts u v).c = (P.cs u v).1 ∧ (P.jacParts u v).s = (P.cs u v).2 := by
  cases P with
  | gnomonic => exact ⟨rfl, rfl⟩
  | stereographic =>
    simp only [Proj.jacParts, Proj.cs]
    have : 0 < 4 + (u * u + v * v) := by nlinarith [mul_self_nonneg u, mul_self_nonneg v]
    exact ⟨by field_simp; ring, trivial⟩
  | lambert => exact ⟨rfl, rfl⟩
  | postel =>
    simp only [Proj.jacParts, Proj.cs]
    constructor
    · split_ifs with h
      · rw [h, Real.cos_zero]
      · rfl
    · rw [jnpSinc_eq]

theorem jacParts_symm (P : Proj) (u v : ℝ) :
    (P.jacParts u v).dcdv = (P.jacParts v u).dcdu ∧ (P.jacParts u v).dsdv = (P.jacParts v u).dsdu := by
  cases P <;> simp only [Proj.jacParts, add_comm (u * u) (v * v), and_self]

theorem cs_symm (P : Proj) (u v : ℝ) : P.cs u v = P.cs v u := by
  unfold Proj.cs; simp only [add_comm (u * u) (v * v)]

theorem hasDerivAt_rsq (u v : ℝ) : HasDerivAt (fun t => t * t + v * v) (2 * u) u := by
  have h := (hasDerivAt_id u).mul (hasDerivAt_id u)
  have h2 := h.add_const (v * v)
  exact hasDerivAt_of_eq h2 (by simp only [id]; ring)

/-- The derivatives of `cosc` and `sinc_over_r` with respect to the first coordinate. -/
theorem hasDerivAt_cs (P : Proj) (u v : ℝ) (h : P.PlaneDom u v) :
    HasDerivAt (fun t => (P.cs t v).1) (P.jacParts u v).dcdu u ∧
    HasDerivAt (fun t => (P.cs t v).2) (P.jacParts u v).dsdu u := by
  have hR := hasDerivAt_rsq u v
  have h0 : 0 ≤ u * u + v * v := by nlinarith [mul_self_nonneg u, mul_self_nonneg v]
  cases P with
  | gnomonic =>
    have hp : 0 < 1 + (u * u + v * v) := by linarith
    have hs : 0 < √(1 + (u * u + v * v)) := Real.sqrt_pos.mpr hp
    have hd : HasDerivAt (fun t => 1 / √(1 + (t * t + v * v)))
        (-u * (1 / √(1 + (u * u + v * v)) * (1 / √(1 + (u * u + v * v))) * (1 / √(1 + (u * u + v * v))))) u := by
      have h1 := (hR.const_add 1).sqrt hp.ne'
      have h2 := (hasDerivAt_const u (1:ℝ)).div h1 hs.ne'
      refine hasDerivAt_of_eq h2 ?_
      have hq := Real.sq_sqrt hp.le
      field_simp
      ring
    exact ⟨hd, hd⟩
  | stereographic =>
    have hp : 0 < 4 + (u * u + v * v) := by linarith
    have h1 := hR.const_add 4
    have h3 := hR.const_sub 4
    constructor
    · have h2 := h3.div h1 hp.ne'
      refine hasDerivAt_of_eq h2 ?_
      simp only [Proj.jacParts]
      field_simp
      ring
    · have h2 := (hasDerivAt_const u (4:ℝ)).div h1 hp.ne'
      refine hasDerivAt_of_eq h2 ?_
      simp only [Proj.jacParts]
      field_simp
      ring
  | lambert =>
    have h : u ^ 2 + v ^ 2 < 4 := h
    have hp : 0 < 4 - (u * u + v * v) := by nlinarith
    have hs : 0 < √(4 - (u * u + v * v)) := Real.sqrt_pos.mpr hp
    constructor
    · have h2 := (hR.div_const 2).const_sub 1
      refine hasDerivAt_of_eq h2 ?_
      simp only [Proj.jacParts]; ring
    · have h2 := ((hR.const_sub 4).sqrt hp.ne').div_const 2
      refine hasDerivAt_of_eq h2 ?_
      simp only [Proj.jacParts]
      field_simp
      ring
  | postel =>
    by_cases hz : u * u + v * v = 0
    · have hu : u = 0 := by nlinarith [mul_self_nonneg u, mul_self_nonneg v]
      have hv : v = 0 := by nlinarith [mul_self_nonneg u, mul_self_nonneg v]
      subst hu; subst hv
      have hr : ∀ t : ℝ, √(t * t + 0 * 0) = |t| := fun t => by
        rw [mul_zero, add_zero, Real.sqrt_mul_self_eq_abs]
      simp only [Proj.cs, Proj.jacParts, hr, abs_zero, if_true]
      constructor
      · simp only [Real.cos_abs]
        have := Real.hasDerivAt_cos 0
        rw [Real.sin_zero] at this
        exact this
      · exact hasDerivAt_sinc_zero
    · have hp : 0 < u * u + v * v := lt_of_le_of_ne h0 (Ne.symm hz)
      have hs : 0 < √(u * u + v * v) := Real.sqrt_pos.mpr hp
      have hq := Real.sq_sqrt hp.le
      have h1 := hR.sqrt hz
      simp only [Proj.cs, Proj.jacParts]
      rw [if_neg hs.ne', if_neg hs.ne', if_neg hs.ne', if_neg hs.ne']
      constructor
      · have h2 := h1.cos
        refine hasDerivAt_of_eq h2 ?_
        field_simp
      · have h2 := (h1.sin).div h1 hs.ne'
        have hev : (fun t => jnpSinc (√(t * t + v * v) / π)) =ᶠ[𝓝 u]
            ((fun t => sin √(t * t + v * v)) / fun t => √(t * t + v * v)) := by
          have hc : ∀ᶠ t in 𝓝 u, √(t * t + v * v) ≠ 0 :=
            h1.continuousAt.eventually_ne hs.ne'
          filter_upwards [hc] with t ht
          rw [jnpSinc_eq, if_neg ht]; rfl
        refine HasDerivAt.congr_of_eventuallyEq ?_ hev
        refine hasDerivAt_of_eq h2 ?_
        obtain ⟨r, hr⟩ : ∃ r, r = √(u * u + v * v) := ⟨_, rfl⟩
        rw [← hr] at hq hs ⊢
        rw [← hq]
        field_simp

/-! ### The tangent vector -/

theorem tangent_local {X Y Z X' Y' Z' r : ℝ} (hr : 0 < r) (hXY : X ^ 2 + Y ^ 2 = r ^ 2)
    (ho : X * X' + Y * Y' + Z * Z' = 0) :
    X' = (-Y' * X + Y * X') / r * (Y / r) + Z' / r * (-(Z * (X / r))) ∧
    Y' = (-Y' * X + Y * X') / r * (-(X / r)) + Z' / r * (-(Z * (Y / r))) ∧ Z' = Z' / r * r := by
  refine ⟨?_, ?_, by field_simp⟩
  · field_simp
    linear_combination -X' * hXY + X * ho
  · field_simp
    linear_combination -Y' * hXY + Y * ho

theorem hasDerivV3_of_eq {f : ℝ → V3} {a b : V3} {t : ℝ} (h : HasDerivV3 f a t) (e : a = b) :
    HasDerivV3 f b t := e ▸ h

/-- Derivative of the deprojected point along any path `t ↦ (a t, b t)` of one of the two
coordinates, from the derivatives of `c` and `s`. -/
theorem deproject_deriv (P : Proj) (p0 : Coord) (U V : ℝ → ℝ) (t0 c' s' U' V' : ℝ)
    (hU : HasDerivAt U U' t0) (hV : HasDerivAt V V' t0)
    (hc : HasDerivAt (fun t => (P.cs (U t) (V t)).1) c' t0)
    (hs : HasDerivAt (fun t => (P.cs (U t) (V t)).2) s' t0)
    (hdom : ∀ᶠ t in 𝓝 t0, P.PlaneDom (U t) (V t))
    (hpole : cos (p0.deprojectP (U t0) (V t0) P).dec ≠ 0) :
    let c := (P.cs (U t0) (V t0)).1
    let s := (P.cs (U t0) (V t0)).2
    let X := c * cos p0.dec - V t0 * s * sin p0.dec
    let Y := -(U t0 * s)
    let Z := V t0 * s * cos p0.dec + c * sin p0.dec
    let X' := c' * cos p0.dec - (V' * s + V t0 * s') * sin p0.dec
    let Y' := -(U' * s + U t0 * s')
    let Z' := (V' * s + V t0 * s') * cos p0.dec + c' * sin p0.dec
    X ^ 2 + Y ^ 2 = 1 - Z ^ 2 ∧ 0 < 1 - Z ^ 2 ∧
    HasDerivV3 (fun t => (p0.deprojectP (U t) (V t) P).xyz)
      ((p0.deprojectP (U t0) (V t0) P).tangent ((-Y' * X + Y * X') / √(1 - Z ^ 2))
        (Z' / √(1 - Z ^ 2))) t0 := by
  intro c s X Y Z X' Y' Z'
  have hd0 : P.PlaneDom (U t0) (V t0) := hdom.self_of_nhds
  have hsc := Real.sin_sq_add_cos_sq p0.dec
  have hunit := cs_unit P (U t0) (V t0) hd0
  have hX : HasDerivAt (fun t => (P.cs (U t) (V t)).1 * cos p0.dec -
      V t * (P.cs (U t) (V t)).2 * sin p0.dec) X' t0 :=
    (hc.mul_const _).sub ((hV.mul hs).mul_const _)
  have hY : HasDerivAt (fun t => -(U t * (P.cs (U t) (V t)).2)) Y' t0 := (hU.mul hs).neg
  have hZ : HasDerivAt (fun t => V t * (P.cs (U t) (V t)).2 * cos p0.dec +
      (P.cs (U t) (V t)).1 * sin p0.dec) Z' t0 :=
    ((hV.mul hs).mul_const _).add (hc.mul_const _)
  have hXYZ : X ^ 2 + Y ^ 2 = 1 - Z ^ 2 := by
    simp only [X, Y, Z, c, s]
    linear_combination hunit + ((V t0 * (P.cs (U t0) (V t0)).2) ^ 2 + (P.cs (U t0) (V t0)).1 ^ 2) * hsc
  -- the point stays on the sphere, so its velocity is orthogonal to it
  have ho : X * X' + Y * Y' + Z * Z' = 0 := by
    have h1 := ((hX.mul hX).add (hY.mul hY)).add (hZ.mul hZ)
    have h2 : HasDerivAt (fun _ : ℝ => (1:ℝ)) 0 t0 := hasDerivAt_const t0 1
    have h3 := h2.congr_of_eventuallyEq (f₁ := _) (f := fun _ => (1:ℝ)) (x := t0) (f' := 0)
      (by
        filter_upwards [hdom] with t ht
        have hu := cs_unit P (U t) (V t) ht
        show _ = (1:ℝ)
        change ((P.cs (U t) (V t)).1 * cos p0.dec - V t * (P.cs (U t) (V t)).2 * sin p0.dec) *
            ((P.cs (U t) (V t)).1 * cos p0.dec - V t * (P.cs (U t) (V t)).2 * sin p0.dec) +
          -(U t * (P.cs (U t) (V t)).2) * -(U t * (P.cs (U t) (V t)).2) +
          (V t * (P.cs (U t) (V t)).2 * cos p0.dec + (P.cs (U t) (V t)).1 * sin p0.dec) *
            (V t * (P.cs (U t) (V t)).2 * cos p0.dec + (P.cs (U t) (V t)).1 * sin p0.dec) = 1
        linear_combination hu + ((V t * (P.cs (U t) (V t)).2) ^ 2 + (P.cs (U t) (V t)).1 ^ 2) * hsc)
    have h4 := h1.unique h3
    simp only [X, Y, Z, c, s]
    linarith
  have hloc := deprojectP_xyz P p0 (U t0) (V t0) hunit
  obtain ⟨q, hq⟩ : ∃ q, q = p0.deprojectP (U t0) (V t0) P := ⟨_, rfl⟩
  simp only at hloc
  rw [← hq] at hloc hpole
  have hval : q.Valid := by
    rw [hq]; exact ⟨Real.neg_pi_div_two_le_arcsin _, Real.arcsin_le_pi_div_two _⟩
  have hcp : 0 < cos q.dec :=
    lt_of_le_of_ne (Real.cos_nonneg_of_mem_Icc ⟨hval.1, hval.2⟩) (Ne.symm hpole)
  have hlz : sin q.dec = Z := congrArg V3.z hloc
  have hlx : cos q.dec * cos (q.ra - p0.ra) = X := congrArg V3.x hloc
  have hly : cos q.dec * sin (q.ra - p0.ra) = Y := congrArg V3.y hloc
  have hcz : cos q.dec ^ 2 = 1 - Z ^ 2 := by
    rw [← hlz]; linarith [Real.sin_sq_add_cos_sq q.dec]
  have hpos : 0 < 1 - Z ^ 2 := by rw [← hcz]; positivity
  have hroot : √(1 - Z ^ 2) = cos q.dec := by rw [← hcz, Real.sqrt_sq hcp.le]
  refine ⟨hXYZ, hpos, ?_⟩
  rw [hroot, ← hq]
  obtain ⟨tx, ty, tz⟩ := tangent_local (X' := X') (Y' := Y') (Z' := Z') hcp
    (hXYZ.trans hcz.symm) ho
  have hcr : X / cos q.dec = cos (q.ra - p0.ra) := by rw [← hlx]; field_simp
  have hsr : Y / cos q.dec = sin (q.ra - p0.ra) := by rw [← hly]; field_simp
  rw [hcr, hsr] at tx ty
  obtain ⟨A, hA⟩ : ∃ A, A = (-Y' * X + Y * X') / cos q.dec := ⟨_, rfl⟩
  obtain ⟨B, hB⟩ : ∃ B, B = Z' / cos q.dec := ⟨_, rfl⟩
  rw [← hA, ← hB] at tx ty ⊢
  rw [← hB] at tz
  have hra : q.ra = (q.ra - p0.ra) + p0.ra := by ring
  have hxyz : ∀ᶠ t in 𝓝 t0, (p0.deprojectP (U t) (V t) P).xyz =
      ⟨cos p0.ra * ((P.cs (U t) (V t)).1 * cos p0.dec - V t * (P.cs (U t) (V t)).2 * sin p0.dec)
        - sin p0.ra * (-(U t * (P.cs (U t) (V t)).2)),
       sin p0.ra * ((P.cs (U t) (V t)).1 * cos p0.dec - V t * (P.cs (U t) (V t)).2 * sin p0.dec)
        + cos p0.ra * (-(U t * (P.cs (U t) (V t)).2)),
       V t * (P.cs (U t) (V t)).2 * cos p0.dec + (P.cs (U t) (V t)).1 * sin p0.dec⟩ := by
    filter_upwards [hdom] with t ht
    have h1 := deprojectP_xyz P p0 (U t) (V t) (cs_unit P _ _ ht)
    simp only at h1
    have h2 := xyz_shift ⟨(p0.deprojectP (U t) (V t) P).ra - p0.ra, (p0.deprojectP (U t) (V t) P).dec⟩ p0.ra
    simp only [sub_add_cancel] at h2
    rw [h1] at h2
    exact h2
  have hcq : cos q.ra = cos (q.ra - p0.ra) * cos p0.ra - sin (q.ra - p0.ra) * sin p0.ra := by
    conv_lhs => rw [hra]
    rw [Real.cos_add]
  have hsq : sin q.ra = sin (q.ra - p0.ra) * cos p0.ra + cos (q.ra - p0.ra) * sin p0.ra := by
    conv_lhs => rw [hra]
    rw [Real.sin_add]
  refine ⟨?_, ?_, ?_⟩
  · have h1 := (hX.const_mul (cos p0.ra)).sub (hY.const_mul (sin p0.ra))
    have h2 := h1.congr_of_eventuallyEq (f₁ := fun t => (p0.deprojectP (U t) (V t) P).xyz.x)
      (hxyz.mono fun t ht => congrArg V3.x ht)
    refine hasDerivAt_of_eq h2 ?_
    simp only [Coord.tangent]
    rw [hcq, hsq, hlz]
    linear_combination cos p0.ra * tx - sin p0.ra * ty
  · have h1 := (hX.const_mul (sin p0.ra)).add (hY.const_mul (cos p0.ra))
    have h2 := h1.congr_of_eventuallyEq (f₁ := fun t => (p0.deprojectP (U t) (V t) P).xyz.y)
      (hxyz.mono fun t ht => congrArg V3.y ht)
    refine hasDerivAt_of_eq h2 ?_
    simp only [Coord.tangent]
    rw [hcq, hsq, hlz]
    linear_combination sin p0.ra * tx + cos p0.ra * ty
  · have h2 := hZ.congr_of_eventuallyEq (f₁ := fun t => (p0.deprojectP (U t) (V t) P).xyz.z)
      (hxyz.mono fun t ht => congrArg V3.z ht)
    exact hasDerivAt_of_eq h2 tz

theorem planeDom_open (P : Proj) (U V : ℝ → ℝ) (t0 : ℝ) (hU : ContinuousAt U t0)
    (hV : ContinuousAt V t0) (h : P.PlaneDom (U t0) (V t0)) : ∀ᶠ t in 𝓝 t0, P.PlaneDom (U t) (V t) := by
  have hc : ContinuousAt (fun t => U t ^ 2 + V t ^ 2) t0 := (hU.pow 2).add (hV.pow 2)
  cases P with
  | gnomonic => exact Filter.Eventually.of_forall fun _ => trivial
  | stereographic => exact Filter.Eventually.of_forall fun _ => trivial
  | lambert => exact hc.eventually (gt_mem_nhds h)
  | postel => exact hc.eventually (gt_mem_nhds h)

/-- C68: for all centres, projections and plane positions that do not deproject to a pole, the
columns of `jac_deproject` are the components, to the west and to the north, of the velocity of the
deprojected point when `u`, respectively `v`, is varied. -/
theorem C68_jacobian (P : Proj) (p0 : Coord) (u v : ℝ) (h : P.PlaneDom u v)
    (hpole : cos (p0.deprojectP u v P).dec ≠ 0) :
    HasDerivV3 (fun t => (p0.deprojectP t v P).xyz)
      ((p0.deprojectP u v P).tangent (p0.jacDeproject u v P).a (p0.jacDeproject u v P).c) u ∧
    HasDerivV3 (fun t => (p0.deprojectP u t P).xyz)
      ((p0.deprojectP u v P).tangent (p0.jacDeproject u v P).b (p0.jacDeproject u v P).d) v := by
  obtain ⟨hjc, hjs⟩ := jacParts_cs P u v
  obtain ⟨hsc, hss⟩ := jacParts_symm P u v
  have h' : P.PlaneDom v u := by
    cases P <;> simp only [Proj.PlaneDom] at h ⊢ <;> linarith
  constructor
  · obtain ⟨hc, hs⟩ := hasDerivAt_cs P u v h
    obtain ⟨e1, e2, key⟩ := deproject_deriv P p0 (fun t => t) (fun _ => v) u _ _ 1 0 (hasDerivAt_id u)
      (hasDerivAt_const u v) hc hs
      (planeDom_open P _ _ u continuousAt_id continuousAt_const h) hpole
    refine hasDerivV3_of_eq key ?_
    simp only [Coord.jacDeproject]
    rw [hjc, hjs]
    obtain ⟨c, hcc⟩ : ∃ c, c = (P.cs u v).1 := ⟨_, rfl⟩
    obtain ⟨s, hss'⟩ : ∃ s, s = (P.cs u v).2 := ⟨_, rfl⟩
    rw [← hcc, ← hss'] at e1 e2 ⊢
    have er : √(1 - (c * sin p0.dec + v * s * cos p0.dec) * (c * sin p0.dec + v * s * cos p0.dec)) =
        √(1 - (v * s * cos p0.dec + c * sin p0.dec) ^ 2) := by congr 1; ring
    have ea : (c * cos p0.dec - v * s * sin p0.dec) ^ 2 + (u * s) ^ 2 =
        √(1 - (v * s * cos p0.dec + c * sin p0.dec) ^ 2) ^ 2 := by
      rw [Real.sq_sqrt e2.le, ← e1]; ring
    rw [er, ea]
    have hr : 0 < √(1 - (v * s * cos p0.dec + c * sin p0.dec) ^ 2) := Real.sqrt_pos.mpr e2
    obtain ⟨r, hrr⟩ : ∃ r, r = √(1 - (v * s * cos p0.dec + c * sin p0.dec) ^ 2) := ⟨_, rfl⟩
    rw [← hrr] at hr ⊢
    congr 1
    · field_simp; ring
    · field_simp; ring
  · obtain ⟨hc, hs⟩ := hasDerivAt_cs P v u h'
    rw [← hsc] at hc
    rw [← hss] at hs
    have hcs : ∀ t, P.cs t u = P.cs u t := fun t => cs_symm P t u
    simp only [hcs] at hc hs
    obtain ⟨e1, e2, key⟩ := deproject_deriv P p0 (fun _ => u) (fun t => t) v _ _ 0 1 (hasDerivAt_const v u)
      (hasDerivAt_id v) hc hs
      (planeDom_open P _ _ v continuousAt_const continuousAt_id h) hpole
    refine hasDerivV3_of_eq key ?_
    simp only [Coord.jacDeproject]
    rw [hjc, hjs]
    obtain ⟨c, hcc⟩ : ∃ c, c = (P.cs u v).1 := ⟨_, rfl⟩
    obtain ⟨s, hss'⟩ : ∃ s, s = (P.cs u v).2 := ⟨_, rfl⟩
    rw [← hcc, ← hss'] at e1 e2 ⊢
    have er : √(1 - (c * sin p0.dec + v * s * cos p0.dec) * (c * sin p0.dec + v * s * cos p0.dec)) =
        √(1 - (v * s * cos p0.dec + c * sin p0.dec) ^ 2) := by congr 1; ring
    have ea : (c * cos p0.dec - v * s * sin p0.dec) ^ 2 + (u * s) ^ 2 =
        √(1 - (v * s * cos p0.dec + c * sin p0.dec) ^ 2) ^ 2 := by
      rw [Real.sq_sqrt e2.le, ← e1]; ring
    rw [er, ea]
    have hr : 0 < √(1 - (v * s * cos p0.dec + c * sin p0.dec) ^ 2) := Real.sqrt_pos.mpr e2
    obtain ⟨r, hrr⟩ : ∃ r, r = √(1 - (v * s * cos p0.dec + c * sin p0.dec) ^ 2) := ⟨_, rfl⟩
    rw [← hrr] at hr ⊢
    congr 1
    · field_simp; ring
    · field_simp; ring

/-- At the centre of the plane, on the equator: one radian of `u` is one radian to the west. -/
example (P : Proj) : Coord.jacDeproject ⟨0, 0⟩ 0 0 P = ⟨1, 0, 0, 1⟩ := by
  have h4 : √(4:ℝ) = 2 := by rw [show (4:ℝ) = 2 ^ 2 by norm_num, Real.sqrt_sq (by norm_num)]
  cases P <;> simp [Coord.jacDeproject, Proj.jacParts, h4] <;> norm_num

example (P : Proj) : P.PlaneDom 0 0 ∧ cos (Coord.deprojectP ⟨0, 0⟩ 0 0 P).dec ≠ 0 := by
  constructor
  · cases P <;> simp [Proj.PlaneDom]
    positivity
  · simp [Coord.deprojectP]

end JG
