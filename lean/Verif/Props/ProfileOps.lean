import Verif.Props.Profile
import Verif.Props.Shear

/-! Property C43: what the operations of a profile do to its flux and brightness. -/

namespace JG

/-- Flux, peak brightness and the brightness at the point where `q` is moved to. -/
structure Effect (o o' : Prof) (fluxFactor sbFactor : ℝ) (move : ℝ × ℝ → ℝ × ℝ) : Prop where
  flux : o'.flux = fluxFactor * o.flux
  maxSb : o'.maxSb = sbFactor * o.maxSb
  value : ∀ q, o'.xValue (move q) = (o.xValue q).map fun v => sbFactor * v

theorem effect_mk (p : Prof) (J : Mat2) (off : ℝ × ℝ) (r F : ℝ) (hJ : J.a * J.d - J.b * J.c ≠ 0)
    (hF : F = |J.a * J.d - J.b * J.c| * r) :
    Effect p (mkTransform p J off r) F r
      (fun q => (J.a * q.1 + J.b * q.2 + off.1, J.c * q.1 + J.d * q.2 + off.2)) := by
  refine ⟨?_, maxSb_mk p J off r, C42_point p J off r hJ⟩
  rw [flux_mk, hF]; rfl

/-- `expand`: brightness kept, flux times `s²`. -/
theorem C43_expand (o : Prof) (s : ℝ) (hs : s ≠ 0) :
    Effect o (o.expand s) (s ^ 2) 1 (fun q => (s * q.1, s * q.2)) := by
  have h := effect_mk o ⟨s, 0, 0, s⟩ 0 1 (s ^ 2) (by simp [hs]) (by
    simp only [mul_zero, sub_zero, mul_one]; rw [abs_of_nonneg (mul_self_nonneg s)]; ring)
  simpa [Prof.expand] using h

/-- `dilate`: flux kept, brightness over `s²`. -/
theorem C43_dilate (o : Prof) (s : ℝ) (hs : s ≠ 0) :
    ∃ o', o.dilate s = some o' ∧ Effect o o' 1 (1 / s ^ 2) (fun q => (s * q.1, s * q.2)) := by
  refine ⟨_, by unfold Prof.dilate; rw [if_neg hs], ?_⟩
  have h := effect_mk o ⟨s, 0, 0, s⟩ 0 (1 / s ^ 2) 1 (by simp [hs]) (by
    simp only [mul_zero, sub_zero]; rw [abs_of_nonneg (mul_self_nonneg s)]; field_simp)
  simpa using h

/-- `magnify`: brightness kept, flux times `mu`. -/
theorem C43_magnify (o : Prof) (mu : ℝ) (hm : 0 < mu) :
    ∃ o', o.magnify mu = some o' ∧
      Effect o o' mu 1 (fun q => (Real.sqrt mu * q.1, Real.sqrt mu * q.2)) := by
  refine ⟨_, by unfold Prof.magnify; rw [if_neg (not_lt.mpr hm.le)], ?_⟩
  have h := C43_expand o (Real.sqrt mu) (Real.sqrt_pos.mpr hm).ne'
  rwa [Real.sq_sqrt hm.le] at h

/-- `shear`: flux and brightness kept. -/
theorem C43_shear (o : Prof) (s : Shear) (hs : s.absg < 1) :
    ∃ o', o.shear s = some o' ∧ Effect o o' 1 1 (fun q => s.matrix.app q) := by
  refine ⟨_, by unfold Prof.shear; rw [if_pos hs], ?_⟩
  have hd : s.matrix.a * s.matrix.d - s.matrix.b * s.matrix.c = 1 := C11_det s hs
  have h := effect_mk o s.matrix 0 1 1 (by rw [hd]; norm_num) (by rw [hd]; norm_num)
  simpa [Mat2.app] using h

/-- `lens`: brightness kept, flux times `mu`. -/
theorem C43_lens (o : Prof) (s : Shear) (hs : s.absg < 1) (mu : ℝ) (hm : 0 < mu) :
    ∃ o', o.lens s.g1 s.g2 mu = some o' ∧
      Effect o o' mu 1 (fun q => (Real.sqrt mu * (s.matrix.app q).1, Real.sqrt mu * (s.matrix.app q).2)) := by
  have hg : Shear.ofG s.g1 s.g2 = some s := by
    unfold Shear.ofG
    rw [if_neg]
    · simp [Shear.g1, Shear.g2, Complex.eta]
    · have : ‖(⟨s.g1, s.g2⟩ : ℂ)‖ = s.absg := by
        simp [Shear.g1, Shear.g2, Shear.absg]
      rw [this]; linarith
  refine ⟨_, by unfold Prof.lens; rw [hg, Option.bind_some, if_pos ⟨hs, hm.le⟩], ?_⟩
  have hd : s.matrix.a * s.matrix.d - s.matrix.b * s.matrix.c = 1 := C11_det s hs
  have hq := Real.sq_sqrt hm.le
  have hd2 : (s.matrix.smul (Real.sqrt mu)).a * (s.matrix.smul (Real.sqrt mu)).d -
      (s.matrix.smul (Real.sqrt mu)).b * (s.matrix.smul (Real.sqrt mu)).c = mu := by
    simp only [Mat2.smul]
    linear_combination (Real.sqrt mu) ^ 2 * hd + hq
  have h := effect_mk o (s.matrix.smul (Real.sqrt mu)) 0 1 mu (by rw [hd2]; exact hm.ne')
    (by rw [hd2, abs_of_pos hm, mul_one])
  convert h using 2 with q
  simp only [Mat2.smul, Mat2.app, Prod.fst_zero, Prod.snd_zero]
  ext <;> simp only <;> ring

/-- `rotate`: flux and brightness kept; `q` turns counter-clockwise by the angle. -/
theorem C43_rotate (o : Prof) (t : Angle) :
    Effect o (o.rotate t) 1 1 (fun q => (Real.cos t.rad * q.1 - Real.sin t.rad * q.2,
      Real.sin t.rad * q.1 + Real.cos t.rad * q.2)) := by
  have e : Real.cos t.rad * Real.cos t.rad - -Real.sin t.rad * Real.sin t.rad = 1 := by
    linear_combination Real.cos_sq_add_sin_sq t.rad
  have h := effect_mk o ⟨Real.cos t.rad, -Real.sin t.rad, Real.sin t.rad, Real.cos t.rad⟩ 0 1 1
    (by simp only [e]; norm_num) (by simp only [e]; norm_num)
  unfold Prof.rotate
  convert h using 2 with q
  ext
  · simp; ring
  · simp

/-- `shift`: flux and brightness kept, the centroid moves along. -/
theorem C43_shift (o : Prof) (d : ℝ × ℝ) :
    Effect o (o.shift d) 1 1 (fun q => (q.1 + d.1, q.2 + d.2)) ∧
    (o.shift d).centroid = o.centroid.map fun c => (c.1 + d.1, c.2 + d.2) := by
  constructor
  · have h := effect_mk o .one d 1 1 (by simp [Mat2.one]) (by simp [Mat2.one])
    unfold Prof.shift
    convert h using 2 with q
    ext <;> simp [Mat2.one]
  · unfold Prof.shift
    rw [centroid_mk]
    congr 1; funext c
    rw [Mat2.one_app]; rfl

/-- `transform`: brightness kept, flux times `|det|`. -/
theorem C43_transform (o : Prof) (J : Mat2) (hJ : J.a * J.d - J.b * J.c ≠ 0) :
    Effect o (o.transform J) |J.a * J.d - J.b * J.c| 1
      (fun q => (J.a * q.1 + J.b * q.2, J.c * q.1 + J.d * q.2)) := by
  have h := effect_mk o J 0 1 _ hJ (mul_one _).symm
  simpa [Prof.transform] using h

/-- `withScaledFlux`: flux and brightness times the factor (of any sign). -/
theorem C43_withScaledFlux (o : Prof) (r : ℝ) : Effect o (o.withScaledFlux r) r r id := by
  have h := effect_mk o .one 0 r r (by simp [Mat2.one]) (by simp [Mat2.one])
  unfold Prof.withScaledFlux
  convert h using 2 with q
  ext <;> simp [Mat2.one]

/-- `withFlux`: the flux is the given one, the brightness is scaled in proportion; it fails only for flux 0. -/
theorem C43_withFlux (o : Prof) (f : ℝ) :
    (o.flux ≠ 0 → ∃ o', o.withFlux f = some o' ∧ o'.flux = f ∧ Effect o o' (f / o.flux) (f / o.flux) id) ∧
    (o.flux = 0 → o.withFlux f = none) := by
  constructor
  · intro h0
    have h := C43_withScaledFlux o (f / o.flux)
    refine ⟨_, by unfold Prof.withFlux; rw [if_neg h0], ?_, h⟩
    rw [h.flux]; field_simp
  · intro h0; unfold Prof.withFlux; rw [if_pos h0]

/-- `-o` and `o / r` scale the flux by `-1` and `1 / r`; `o - p` has the difference of the fluxes. -/
theorem C43_arith (o p : Prof) (r : ℝ) (hr : r ≠ 0) :
    Effect o o.neg (-1) (-1) id ∧ (∃ o', o.div r = some o' ∧ Effect o o' (1 / r) (1 / r) id) ∧
    (o.sub p).flux = o.flux - p.flux ∧ (o.add p).flux = o.flux + p.flux := by
  refine ⟨C43_withScaledFlux o (-1), ⟨_, by unfold Prof.div; rw [if_neg hr], C43_withScaledFlux o (1 / r)⟩, ?_, ?_⟩
  · unfold Prof.sub
    rw [mkSum_cons]
    simp only [Prof.flux, fluxSum_append, fluxSum_terms, List.flatMap_cons, List.flatMap_nil, Prof.fluxSum]
    rw [(C43_withScaledFlux p (-1)).flux]; ring
  · unfold Prof.add
    rw [mkSum_cons]
    simp only [Prof.flux, fluxSum_append, fluxSum_terms, List.flatMap_cons, List.flatMap_nil, Prof.fluxSum]
    ring

/-- If `max_sb` bounds the brightness, it still does after a transformation with non-negative flux ratio. -/
theorem C43_maxSb_bounds (o : Prof) (h : ∀ x v, o.xValue x = some v → v ≤ o.maxSb) (J : Mat2) (off : ℝ × ℝ) (r : ℝ)
    (hr : 0 ≤ r) (x : ℝ × ℝ) (v : ℝ) (hv : (mkTransform o J off r).xValue x = some v) :
    v ≤ (mkTransform o J off r).maxSb := by
  rw [xValue_mk] at hv
  rw [maxSb_mk]
  cases hi : J.inv with
  | none => rw [hi] at hv; cases hv
  | some Ji =>
    rw [hi, Option.bind_some] at hv
    cases hx : o.xValue (Ji.app (x - off)) with
    | none => rw [hx] at hv; cases hv
    | some w =>
      rw [hx, Option.map_some, Option.some.injEq] at hv
      rw [← hv, mul_comm]
      exact mul_le_mul_of_nonneg_left (h _ _ hx) hr

example : ((Prof.leaf sampleLeaf).expand 3).flux = 9 ∧
    ((Prof.leaf sampleLeaf).expand 3).xValue (3 / 4, 0) = some (5 / 4) := by
  have h := C43_expand (.leaf sampleLeaf) 3 (by norm_num)
  refine ⟨by rw [h.flux]; norm_num [Prof.flux, sampleLeaf], ?_⟩
  have := h.value (1 / 4, 0)
  norm_num [Prof.xValue, sampleLeaf] at this
  rw [sampleLeaf]
  exact this

example : ((Prof.leaf sampleLeaf).withFlux 7).map Prof.flux = some 7 := by
  obtain ⟨o', h, hf, _⟩ := (C43_withFlux (.leaf sampleLeaf) 7).1 (by norm_num [Prof.flux, sampleLeaf])
  rw [h]; simp [hf]

example : (⟨⟨1 / 2, 0⟩⟩ : Shear).absg < 1 := by
  have : (⟨1 / 2, 0⟩ : ℂ) = ((1 / 2 : ℝ) : ℂ) := by apply Complex.ext <;> simp
  simp only [Shear.absg, this, Complex.norm_real, Real.norm_eq_abs]
  rw [abs_of_pos] <;> norm_num

end JG
