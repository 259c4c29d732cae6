import Verif.Props.FitsWcsLocal
import Mathlib.Analysis.SpecialFunctions.Sqrt

/-!
C68 along curves, C74: the local Jacobian of a FITS WCS is the derivative of the map from pixels to the sky.
-/

namespace JG
open Filter Topology Real

theorem cs_radial (P : Proj) (u v : ℝ) : P.cs u v = P.cs (√(u ^ 2 + v ^ 2)) 0 := by
  have e : √(u ^ 2 + v ^ 2) * √(u ^ 2 + v ^ 2) + 0 * 0 = u * u + v * v := by
    rw [Real.mul_self_sqrt (by positivity)]; ring
  unfold Proj.cs
  simp only [e]

theorem planeDom_radial (P : Proj) (u v : ℝ) (h : P.PlaneDom u v) : P.PlaneDom (√(u ^ 2 + v ^ 2)) 0 := by
  have e : √(u ^ 2 + v ^ 2) ^ 2 + (0:ℝ) ^ 2 = u ^ 2 + v ^ 2 := by rw [Real.sq_sqrt (by positivity)]; ring
  cases P <;> simp only [Proj.PlaneDom] at h ⊢ <;> rwa [e]

theorem jacParts_zero (P : Proj) : (P.jacParts 0 0).dcdu = 0 ∧ (P.jacParts 0 0).dsdu = 0 ∧ (P.jacParts 0 0).dcdv = 0 ∧
    (P.jacParts 0 0).dsdv = 0 := by
  cases P <;> simp [Proj.jacParts]

/-- A function with zero derivative at 0, of a radius that vanishes at `t0`. -/
theorem deriv_radius_zero (f : ℝ → ℝ) (hf : HasDerivAt f 0 0) (U V : ℝ → ℝ) (t0 U' V' : ℝ) (hU : HasDerivAt U U' t0)
    (hV : HasDerivAt V V' t0) (hu : U t0 = 0) (hv : V t0 = 0) : HasDerivAt (fun t => f (√(U t ^ 2 + V t ^ 2))) 0 t0 := by
  have hr0 : √(U t0 ^ 2 + V t0 ^ 2) = 0 := by rw [hu, hv]; norm_num
  have hcont : Tendsto (fun t => √(U t ^ 2 + V t ^ 2)) (𝓝 t0) (𝓝 0) := by
    have := ((hU.continuousAt.pow 2).add (hV.continuousAt.pow 2)).sqrt
    have h2 : Tendsto (fun t => √(U t ^ 2 + V t ^ 2)) (𝓝 t0) (𝓝 (√(U t0 ^ 2 + V t0 ^ 2))) := this
    rwa [hr0] at h2
  rw [hasDerivAt_iff_isLittleO] at hf ⊢
  have h1 := hf.comp_tendsto hcont
  have hb : (fun t => √(U t ^ 2 + V t ^ 2)) =O[𝓝 t0] fun t => t - t0 := by
    have bu : (fun t => U t) =O[𝓝 t0] fun t => t - t0 := by
      have := hU.hasFDerivAt.isBigO_sub
      simpa [hu] using this
    have bv : (fun t => V t) =O[𝓝 t0] fun t => t - t0 := by
      have := hV.hasFDerivAt.isBigO_sub
      simpa [hv] using this
    have bs : (fun t => |U t| + |V t|) =O[𝓝 t0] fun t => t - t0 := bu.abs_left.add bv.abs_left
    refine Asymptotics.IsBigO.trans (Asymptotics.IsBigO.of_bound 1 (Eventually.of_forall fun t => ?_)) bs
    rw [one_mul, Real.norm_of_nonneg (Real.sqrt_nonneg _), Real.norm_of_nonneg (by positivity), Real.sqrt_le_left (by positivity)]
    have := abs_nonneg (U t)
    have := abs_nonneg (V t)
    nlinarith [sq_abs (U t), sq_abs (V t)]
  have h2 : (fun t => f (√(U t ^ 2 + V t ^ 2)) - f 0) =o[𝓝 t0] fun t => √(U t ^ 2 + V t ^ 2) := by
    simpa [Function.comp_def] using h1
  have h3 := h2.trans_isBigO hb
  simpa [hr0] using h3

/-- The derivatives of the two factors along a curve. -/
theorem hasDerivAt_cs_curve (P : Proj) (U V : ℝ → ℝ) (t0 U' V' : ℝ) (hU : HasDerivAt U U' t0) (hV : HasDerivAt V V' t0)
    (h : P.PlaneDom (U t0) (V t0)) :
    HasDerivAt (fun t => (P.cs (U t) (V t)).1) ((P.jacParts (U t0) (V t0)).dcdu * U' + (P.jacParts (U t0) (V t0)).dcdv * V') t0 ∧
    HasDerivAt (fun t => (P.cs (U t) (V t)).2) ((P.jacParts (U t0) (V t0)).dsdu * U' + (P.jacParts (U t0) (V t0)).dsdv * V') t0 := by
  have hrad : (fun t => P.cs (U t) (V t)) = fun t => P.cs (√(U t ^ 2 + V t ^ 2)) 0 := by funext t; exact cs_radial P _ _
  have e1 : (fun t => (P.cs (U t) (V t)).1) = fun t => (fun r => (P.cs r 0).1) (√(U t ^ 2 + V t ^ 2)) := by
    funext t; rw [cs_radial]
  have e2 : (fun t => (P.cs (U t) (V t)).2) = fun t => (fun r => (P.cs r 0).2) (√(U t ^ 2 + V t ^ 2)) := by
    funext t; rw [cs_radial]
  rw [e1, e2]
  obtain ⟨d1, d2⟩ := hasDerivAt_cs P _ 0 (planeDom_radial P _ _ h)
  by_cases h0 : U t0 = 0 ∧ V t0 = 0
  · obtain ⟨hu, hv⟩ := h0
    obtain ⟨z1, z2, z3, z4⟩ := jacParts_zero P
    rw [hu, hv, z1, z2, z3, z4]
    have hr0 : √(U t0 ^ 2 + V t0 ^ 2) = 0 := by rw [hu, hv]; norm_num
    rw [hr0, z1] at d1
    rw [hr0, z2] at d2
    simp only [zero_mul, add_zero]
    exact ⟨deriv_radius_zero _ d1 U V t0 U' V' hU hV hu hv, deriv_radius_zero _ d2 U V t0 U' V' hU hV hu hv⟩
  · have hpos : 0 < U t0 ^ 2 + V t0 ^ 2 := by
      by_contra hc
      apply h0
      have a := sq_nonneg (U t0)
      have b := sq_nonneg (V t0)
      constructor
      · exact pow_eq_zero_iff (two_ne_zero) |>.mp (le_antisymm (by linarith) a)
      · exact pow_eq_zero_iff (two_ne_zero) |>.mp (le_antisymm (by linarith) b)
    -- derivative of the radius along any curve through the same point
    have hr : ∀ (A B : ℝ → ℝ) (s0 A' B' : ℝ), HasDerivAt A A' s0 → HasDerivAt B B' s0 → A s0 = U t0 → B s0 = V t0 →
        HasDerivAt (fun t => √(A t ^ 2 + B t ^ 2)) ((U t0 * A' + V t0 * B') / √(U t0 ^ 2 + V t0 ^ 2)) s0 := by
      intro A B s0 A' B' hA hB a b
      have hs := ((hA.pow 2).add (hB.pow 2)).sqrt (by
        show A s0 ^ 2 + B s0 ^ 2 ≠ 0
        rw [a, b]; exact hpos.ne')
      refine hasDerivAt_of_eq hs ?_
      simp only [Pi.add_apply, Pi.pow_apply, a, b]
      field_simp
      ring
    have comp : ∀ (f : ℝ → ℝ) (f' : ℝ), HasDerivAt f f' (√(U t0 ^ 2 + V t0 ^ 2)) → ∀ (A B : ℝ → ℝ) (s0 A' B' : ℝ),
        HasDerivAt A A' s0 → HasDerivAt B B' s0 → A s0 = U t0 → B s0 = V t0 →
        HasDerivAt (fun t => f (√(A t ^ 2 + B t ^ 2))) (f' * ((U t0 * A' + V t0 * B') / √(U t0 ^ 2 + V t0 ^ 2))) s0 := by
      intro f f' hf A B s0 A' B' hA hB a b
      have := hr A B s0 A' B' hA hB a b
      have hf2 : HasDerivAt f f' (√(A s0 ^ 2 + B s0 ^ 2)) := by rw [a, b]; exact hf
      exact hf2.comp s0 this
    obtain ⟨p1, p2⟩ := hasDerivAt_cs P (U t0) (V t0) h
    have h' : P.PlaneDom (V t0) (U t0) := by
      cases P <;> simp only [Proj.PlaneDom] at h ⊢ <;> linarith
    obtain ⟨q1, q2⟩ := hasDerivAt_cs P (V t0) (U t0) h'
    obtain ⟨s1, s2⟩ := jacParts_symm P (U t0) (V t0)
    rw [← s1] at q1
    rw [← s2] at q2
    have key : ∀ (g : ℝ × ℝ → ℝ) (du dv dr : ℝ), HasDerivAt (fun t => g (P.cs t (V t0))) du (U t0) →
        HasDerivAt (fun t => g (P.cs t (U t0))) dv (V t0) → HasDerivAt (fun r => g (P.cs r 0)) dr (√(U t0 ^ 2 + V t0 ^ 2)) →
        HasDerivAt (fun t => g (P.cs (√(U t ^ 2 + V t ^ 2)) 0)) (du * U' + dv * V') t0 := by
      intro g du dv dr hdu hdv hdr
      have cu := comp (fun r => g (P.cs r 0)) dr hdr (fun t => t) (fun _ => V t0) (U t0) 1 0 (hasDerivAt_id _)
        (hasDerivAt_const _ _) rfl rfl
      have cv := comp (fun r => g (P.cs r 0)) dr hdr (fun _ => U t0) (fun t => t) (V t0) 0 1 (hasDerivAt_const _ _)
        (hasDerivAt_id _) rfl rfl
      have eu : (fun t => g (P.cs t (V t0))) = fun t => g (P.cs (√(t ^ 2 + V t0 ^ 2)) 0) := by funext t; rw [cs_radial]
      have ev : (fun t => g (P.cs t (U t0))) = fun t => g (P.cs (√(U t0 ^ 2 + t ^ 2)) 0) := by
        funext t; rw [cs_symm, cs_radial]
      rw [eu] at hdu
      rw [ev] at hdv
      have iu := hdu.unique cu
      have iv := hdv.unique cv
      have c := comp (fun r => g (P.cs r 0)) dr hdr U V t0 U' V' hU hV rfl rfl
      refine hasDerivAt_of_eq c ?_
      rw [iu, iv]
      ring
    exact ⟨key Prod.fst _ _ _ p1 q1 d1, key Prod.snd _ _ _ p2 q2 d2⟩

/-- C68: along any differentiable curve in the plane, the velocity of the deprojected point is the matrix of
`jac_deproject` applied to the velocity in the plane. -/
theorem C68_curve (P : Proj) (p0 : Coord) (U V : ℝ → ℝ) (t0 U' V' : ℝ) (hU : HasDerivAt U U' t0) (hV : HasDerivAt V V' t0)
    (h : P.PlaneDom (U t0) (V t0)) (hpole : cos (p0.deprojectP (U t0) (V t0) P).dec ≠ 0) :
    HasDerivV3 (fun t => (p0.deprojectP (U t) (V t) P).xyz)
      ((p0.deprojectP (U t0) (V t0) P).tangent
        ((p0.jacDeproject (U t0) (V t0) P).a * U' + (p0.jacDeproject (U t0) (V t0) P).b * V')
        ((p0.jacDeproject (U t0) (V t0) P).c * U' + (p0.jacDeproject (U t0) (V t0) P).d * V')) t0 := by
  obtain ⟨hjc, hjs⟩ := jacParts_cs P (U t0) (V t0)
  obtain ⟨hc, hs⟩ := hasDerivAt_cs_curve P U V t0 U' V' hU hV h
  obtain ⟨e1, e2, key⟩ := deproject_deriv P p0 U V t0 _ _ U' V' hU hV hc hs
    (planeDom_open P U V t0 hU.continuousAt hV.continuousAt h) hpole
  refine hasDerivV3_of_eq key ?_
  simp only [Coord.jacDeproject]
  rw [hjc, hjs]
  obtain ⟨c, hcc⟩ : ∃ c, c = (P.cs (U t0) (V t0)).1 := ⟨_, rfl⟩
  obtain ⟨s, hss'⟩ : ∃ s, s = (P.cs (U t0) (V t0)).2 := ⟨_, rfl⟩
  rw [← hcc, ← hss'] at e1 e2 ⊢
  generalize U t0 = u at *
  generalize V t0 = v at *
  have er : √(1 - (c * sin p0.dec + v * s * cos p0.dec) * (c * sin p0.dec + v * s * cos p0.dec)) =
      √(1 - (v * s * cos p0.dec + c * sin p0.dec) ^ 2) := by congr 1; ring
  have ea : (c * cos p0.dec - v * s * sin p0.dec) ^ 2 + (u * s) ^ 2 =
      √(1 - (v * s * cos p0.dec + c * sin p0.dec) ^ 2) ^ 2 := by
    rw [Real.sq_sqrt e2.le, ← e1]; ring
  rw [er, ea]
  have hr : 0 < √(1 - (v * s * cos p0.dec + c * sin p0.dec) ^ 2) := Real.sqrt_pos.mpr e2
  obtain ⟨r, hrr⟩ : ∃ r, r = √(1 - (v * s * cos p0.dec + c * sin p0.dec) ^ 2) := ⟨_, rfl⟩
  rw [← hrr] at hr ⊢
  congr 1
  · field_simp; ring
  · field_simp; ring

end JG

namespace JG.FitsW
open Finset Real

/-! ### C74 -/

/-- An array without entries beyond its triangle, as all tables of the TPV, TNX and (well-formed) SIP conventions. -/
def Tab.Tri (t : Tab) : Prop := ∀ i j, i < t.n → j < t.n → t.n ≤ i + j → t.c i j = 0

/-- All distortions of a WCS are triangular. -/
def GS.Tri (w : GS) : Prop := (∀ p, w.ab = some p → p.1.Tri ∧ p.2.Tri) ∧ ∀ p, w.pv = some p → p.1.Tri ∧ p.2.Tri

theorem dot_eval (t : Tab) (ht : t.Tri) (x y : ℝ) : t.dot (fun k => x ^ k) (fun k => y ^ k) = t.eval x y := by
  rw [← evalFull_tri t ht, evalFull_eq]
  unfold Tab.dot
  refine sum_congr rfl fun i _ => ?_
  rw [sum_mul]
  exact sum_congr rfl fun j _ => by ring

theorem hasDerivAt_dpow (k : ℕ) (x : ℝ) : HasDerivAt (fun t : ℝ => t ^ k) (dpow x k) x := by
  refine hasDerivAt_of_eq (hasDerivAt_pow k x) ?_
  unfold dpow
  cases k with
  | zero => simp
  | succ k => simp

/-- The derivative of a table along a curve. -/
theorem dot_curve (t : Tab) (X Y : ℝ → ℝ) (s0 X' Y' : ℝ) (hX : HasDerivAt X X' s0) (hY : HasDerivAt Y Y' s0) :
    HasDerivAt (fun s => t.dot (fun k => X s ^ k) (fun k => Y s ^ k))
      (t.dot (dpow (X s0)) (fun k => Y s0 ^ k) * X' + t.dot (fun k => X s0 ^ k) (dpow (Y s0)) * Y') s0 := by
  unfold Tab.dot
  have hxp : ∀ k, HasDerivAt (fun s => X s ^ k) (dpow (X s0) k * X') s0 := fun k => (hasDerivAt_dpow k (X s0)).comp s0 hX
  have hyp : ∀ k, HasDerivAt (fun s => Y s ^ k) (dpow (Y s0) k * Y') s0 := fun k => (hasDerivAt_dpow k (Y s0)).comp s0 hY
  have h := HasDerivAt.fun_sum (u := range t.n) fun i _ =>
    (HasDerivAt.fun_sum (u := range t.n) fun j _ => (hyp j).const_mul (t.c i j)).mul (hxp i)
  refine hasDerivAt_of_eq h ?_
  simp only [sum_mul, ← sum_add_distrib]
  refine sum_congr rfl fun i _ => ?_
  exact sum_congr rfl fun j _ => by ring

/-- An optional distortion and its Jacobian, as in `_local`. -/
noncomputable def distortOpt (t : Option (Tab × Tab)) (s : (ℝ × ℝ) × Mat2) : (ℝ × ℝ) × Mat2 :=
  match t with
  | none => s
  | some ab => ((distort ab s.1.1 s.1.2).1, mdot (distort ab s.1.1 s.1.2).2 s.2)

theorem localUv_eq (w : GS) (x y : ℝ) : w.localUv x y =
    (let s := distortOpt w.ab ((x - w.crpix.1, y - w.crpix.2), ⟨1, 0, 0, 1⟩)
     let t := distortOpt w.pv ((w.cd.a * s.1.1 + w.cd.b * s.1.2, w.cd.c * s.1.1 + w.cd.d * s.1.2), mdot w.cd s.2)
     ((t.1.1 * (-degRad), t.1.2 * degRad),
      ⟨t.2.a * (-degRad), t.2.b * (-degRad), t.2.c * degRad, t.2.d * degRad⟩)) := by
  unfold GS.localUv distortOpt
  cases w.ab <;> cases w.pv <;> rfl

/-- `s` follows the curve `C` near `t0`: the position at `t0` and, by its matrix, the velocity. -/
def Follows (s : (ℝ × ℝ) × Mat2) (C : ℝ → ℝ × ℝ) (t0 x' y' : ℝ) : Prop :=
  s.1 = C t0 ∧ HasDerivAt (fun t => (C t).1) (s.2.a * x' + s.2.b * y') t0 ∧ HasDerivAt (fun t => (C t).2) (s.2.c * x' + s.2.d * y') t0

theorem follows_distort (o : Option (Tab × Tab)) (ho : ∀ p, o = some p → p.1.Tri ∧ p.2.Tri) (s : (ℝ × ℝ) × Mat2) (C : ℝ → ℝ × ℝ)
    (t0 x' y' : ℝ) (h : Follows s C t0 x' y') : Follows (distortOpt o s) (fun t => applyOpt o (C t)) t0 x' y' := by
  cases o with
  | none => exact h
  | some p =>
    obtain ⟨h1, h2, h3⟩ := h
    obtain ⟨t1, t2⟩ := ho p rfl
    have ec : (fun t => applyOpt (some p) (C t)) = fun t => (p.1.dot (fun k => (C t).1 ^ k) (fun k => (C t).2 ^ k),
        p.2.dot (fun k => (C t).1 ^ k) (fun k => (C t).2 ^ k)) := by
      funext t
      simp only [applyOpt, applyAb]
      rw [dot_eval _ t1, dot_eval _ t2]
    rw [ec]
    have k1 := dot_curve p.1 _ _ t0 _ _ h2 h3
    have k2 := dot_curve p.2 _ _ t0 _ _ h2 h3
    unfold distortOpt distort Follows
    simp only [h1, mdot]
    refine ⟨trivial, hasDerivAt_of_eq k1 ?_, hasDerivAt_of_eq k2 ?_⟩
    · ring
    · ring

/-- C74: along any curve of image positions, `_local` follows the tangent plane position of `_uv`. -/
theorem C74_plane_curve (w : GS) (hw : w.Tri) (X Y : ℝ → ℝ) (t0 x' y' : ℝ) (hX : HasDerivAt X x' t0) (hY : HasDerivAt Y y' t0) :
    (w.localUv (X t0) (Y t0)).1 = w.uv (X t0) (Y t0) ∧
    HasDerivAt (fun t => (w.uv (X t) (Y t)).1) ((w.localUv (X t0) (Y t0)).2.a * x' + (w.localUv (X t0) (Y t0)).2.b * y') t0 ∧
    HasDerivAt (fun t => (w.uv (X t) (Y t)).2) ((w.localUv (X t0) (Y t0)).2.c * x' + (w.localUv (X t0) (Y t0)).2.d * y') t0 := by
  have f0 : Follows ((X t0 - w.crpix.1, Y t0 - w.crpix.2), ⟨1, 0, 0, 1⟩) (fun t => (X t - w.crpix.1, Y t - w.crpix.2)) t0 x' y' := by
    refine ⟨rfl, hasDerivAt_of_eq (hX.sub_const _) (by ring), hasDerivAt_of_eq (hY.sub_const _) (by ring)⟩
  obtain ⟨g1, g2, g3⟩ := follows_distort w.ab hw.1 _ _ t0 x' y' f0
  rw [localUv_eq]
  obtain ⟨s, hs⟩ : ∃ s, s = distortOpt w.ab ((X t0 - w.crpix.1, Y t0 - w.crpix.2), ⟨1, 0, 0, 1⟩) := ⟨_, rfl⟩
  simp only [← hs] at g1 g2 g3 ⊢
  obtain ⟨C, hC⟩ : ∃ C : ℝ → ℝ × ℝ, C = fun t => applyOpt w.ab (X t - w.crpix.1, Y t - w.crpix.2) := ⟨_, rfl⟩
  have f1 : Follows ((w.cd.a * s.1.1 + w.cd.b * s.1.2, w.cd.c * s.1.1 + w.cd.d * s.1.2), mdot w.cd s.2)
      (fun t => (w.cd.a * (C t).1 + w.cd.b * (C t).2, w.cd.c * (C t).1 + w.cd.d * (C t).2)) t0 x' y' := by
    rw [hC]
    refine ⟨by rw [g1], ?_, ?_⟩
    · refine hasDerivAt_of_eq ((g2.const_mul w.cd.a).add (g3.const_mul w.cd.b)) ?_
      simp only [mdot]; ring
    · refine hasDerivAt_of_eq ((g2.const_mul w.cd.c).add (g3.const_mul w.cd.d)) ?_
      simp only [mdot]; ring
  obtain ⟨k1, k2, k3⟩ := follows_distort w.pv hw.2 _ _ t0 x' y' f1
  rw [hC] at k1 k2 k3
  refine ⟨?_, ?_, ?_⟩
  · rw [k1]; rfl
  · refine hasDerivAt_of_eq (k2.mul_const (-degRad)) ?_
    ring
  · refine hasDerivAt_of_eq (k3.mul_const degRad) ?_
    ring

/-- C74: the matrix of `_local` in the tangent plane holds the partial derivatives of `_uv`. -/
theorem C74_plane (w : GS) (hw : w.Tri) (x y : ℝ) : (w.localUv x y).1 = w.uv x y ∧
    HasDerivAt (fun t => (w.uv t y).1) (w.localUv x y).2.a x ∧ HasDerivAt (fun t => (w.uv x t).1) (w.localUv x y).2.b y ∧
    HasDerivAt (fun t => (w.uv t y).2) (w.localUv x y).2.c x ∧ HasDerivAt (fun t => (w.uv x t).2) (w.localUv x y).2.d y := by
  obtain ⟨a1, a2, a3⟩ := C74_plane_curve w hw (fun t => t) (fun _ => y) x 1 0 (hasDerivAt_id x) (hasDerivAt_const x y)
  obtain ⟨b1, b2, b3⟩ := C74_plane_curve w hw (fun _ => x) (fun t => t) y 0 1 (hasDerivAt_const y x) (hasDerivAt_id y)
  exact ⟨a1, hasDerivAt_of_eq a2 (by ring), hasDerivAt_of_eq b2 (by ring), hasDerivAt_of_eq a3 (by ring), hasDerivAt_of_eq b3 (by ring)⟩

/-- C74: the local `JacobianWCS`, in arcsec, gives the components to the west and to the north of the velocity of the sky
position along any curve of image positions. -/
theorem C74_sky_curve (w : GS) (hw : w.Tri) (X Y : ℝ → ℝ) (t0 x' y' : ℝ) (hX : HasDerivAt X x' t0) (hY : HasDerivAt Y y' t0)
    (hdom : w.wtype.proj.PlaneDom (w.uv (X t0) (Y t0)).1 (w.uv (X t0) (Y t0)).2) (hpole : cos (w.radec (X t0) (Y t0)).dec ≠ 0) :
    HasDerivV3 (fun t => (w.radec (X t) (Y t)).xyz)
      ((w.radec (X t0) (Y t0)).tangent
        (((w.localJac (X t0) (Y t0)).a * x' + (w.localJac (X t0) (Y t0)).b * y') * (π / (180 * 3600)))
        (((w.localJac (X t0) (Y t0)).c * x' + (w.localJac (X t0) (Y t0)).d * y') * (π / (180 * 3600)))) t0 := by
  obtain ⟨e1, e2, e3⟩ := C74_plane_curve w hw X Y t0 x' y' hX hY
  have h := C68_curve w.wtype.proj w.center (fun t => (w.uv (X t) (Y t)).1) (fun t => (w.uv (X t) (Y t)).2) t0 _ _ e2 e3 hdom hpole
  refine hasDerivV3_of_eq h ?_
  have hpi := Real.pi_ne_zero
  unfold GS.localJac GS.radec
  simp only [mdot]
  rw [e1]
  congr 1
  · field_simp; ring
  · field_simp; ring

/-- C74: the columns of the local Jacobian are the velocities as `x`, respectively `y`, varies. -/
theorem C74_sky (w : GS) (hw : w.Tri) (x y : ℝ) (hdom : w.wtype.proj.PlaneDom (w.uv x y).1 (w.uv x y).2)
    (hpole : cos (w.radec x y).dec ≠ 0) :
    HasDerivV3 (fun t => (w.radec t y).xyz)
      ((w.radec x y).tangent ((w.localJac x y).a * (π / (180 * 3600))) ((w.localJac x y).c * (π / (180 * 3600)))) x ∧
    HasDerivV3 (fun t => (w.radec x t).xyz)
      ((w.radec x y).tangent ((w.localJac x y).b * (π / (180 * 3600))) ((w.localJac x y).d * (π / (180 * 3600)))) y := by
  have a := C74_sky_curve w hw (fun t => t) (fun _ => y) x 1 0 (hasDerivAt_id x) (hasDerivAt_const x y) hdom hpole
  have b := C74_sky_curve w hw (fun _ => x) (fun t => t) y 0 1 (hasDerivAt_const y x) (hasDerivAt_id y) hdom hpole
  exact ⟨hasDerivV3_of_eq a (by simp), hasDerivV3_of_eq b (by simp)⟩

end JG.FitsW
