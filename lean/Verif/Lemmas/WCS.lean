import Verif.Model.WCS
import Verif.Props.Stretch
import Verif.Props.Shear

/-! Lemmas on the coordinate systems of `Model/WCS.lean`. -/

namespace JG

/-- Non-degenerate parameters. -/
def LocalWCS.Nondeg : LocalWCS → Prop
  | .pix c => c ≠ 0
  | .shear c s => c ≠ 0 ∧ s.absg < 1
  | .jac J => J.a * J.d - J.b * J.c ≠ 0

theorem absg_sq (s : Shear) : s.absg ^ 2 = s.g1 ^ 2 + s.g2 ^ 2 := by
  unfold Shear.absg Shear.g1 Shear.g2; exact normsq_re_im _

theorem one_sub_g_pos {s : Shear} (h : s.absg < 1) : 0 < 1 - (s.g1 ^ 2 + s.g2 ^ 2) := by
  have h0 : 0 ≤ s.absg := norm_nonneg _
  rw [← absg_sq]; nlinarith

theorem gfactor_pos {s : Shear} (h : s.absg < 1) : 0 < LocalWCS.gfactor s := by
  unfold LocalWCS.gfactor
  exact one_div_pos.mpr (Real.sqrt_pos.mpr (one_sub_g_pos h))

theorem gfactor_sq {s : Shear} (h : s.absg < 1) : LocalWCS.gfactor s ^ 2 * (1 - (s.g1 ^ 2 + s.g2 ^ 2)) = 1 := by
  have hp := one_sub_g_pos h
  unfold LocalWCS.gfactor
  rw [div_pow, one_pow, Real.sq_sqrt hp.le]
  field_simp

theorem det_toJac_shear (c : ℝ) {s : Shear} (h : s.absg < 1) : (LocalWCS.shear c s).toJac.det = c ^ 2 := by
  have := gfactor_sq h
  simp only [LocalWCS.toJac, Mat2.det]
  linear_combination c ^ 2 * this

theorem det_toJac {l : LocalWCS} (h : l.Nondeg) : l.toJac.det ≠ 0 := by
  cases l with
  | pix c =>
    have hc : c ≠ 0 := h
    simp only [LocalWCS.toJac, Mat2.det]; simpa using hc
  | shear c s => rw [det_toJac_shear c h.2]; exact pow_ne_zero 2 h.1
  | jac J => exact h

theorem abs_det_toJac {l : LocalWCS} (h : l.Nondeg) : |l.toJac.det| = l.pixelArea := by
  cases l with
  | pix c =>
    simp only [LocalWCS.toJac, Mat2.det, LocalWCS.pixelArea, mul_zero, sub_zero]
    rw [abs_of_nonneg (mul_self_nonneg c)]; ring
  | shear c s => rw [det_toJac_shear c h.2]; simp only [LocalWCS.pixelArea]; exact abs_of_nonneg (sq_nonneg c)
  | jac J => rfl

theorem uv_eq (l : LocalWCS) (p : ℝ × ℝ) : l.uv p = l.toJac.app p := by
  cases l <;> ext <;> simp only [LocalWCS.uv, LocalWCS.toJac, Mat2.app] <;> ring

theorem xy_eq {l : LocalWCS} (h : l.Nondeg) (p : ℝ × ℝ) : l.xy p = l.toJac.inv'.app p := by
  have hd := det_toJac h
  cases l with
  | pix c =>
    have hc : c ≠ 0 := h
    ext <;> simp only [LocalWCS.xy, LocalWCS.toJac, Mat2.app, Mat2.inv', Mat2.det] <;> field_simp <;> ring
  | shear c s =>
    have hc : c ≠ 0 := h.1
    have hdet := det_toJac_shear c h.2
    ext <;> simp only [LocalWCS.xy, Mat2.app, Mat2.inv', hdet] <;> simp only [LocalWCS.toJac] <;> field_simp <;> ring
  | jac J =>
    have hd' : J.det ≠ 0 := h
    ext <;> simp only [LocalWCS.xy, LocalWCS.toJac, Mat2.app, Mat2.inv'] <;> field_simp <;> ring

theorem xy_uv {l : LocalWCS} (h : l.Nondeg) (p : ℝ × ℝ) : l.xy (l.uv p) = p := by
  rw [xy_eq h, uv_eq, Mat2.inv'_app (det_toJac h)]

theorem uv_xy {l : LocalWCS} (h : l.Nondeg) (p : ℝ × ℝ) : l.uv (l.xy p) = p := by
  rw [xy_eq h, uv_eq, Mat2.app_inv' (det_toJac h)]

theorem uv_add (l : LocalWCS) (p q : ℝ × ℝ) : l.uv (p + q) = l.uv p + l.uv q := by
  simp only [uv_eq, Mat2.app_add]

theorem uv_zero (l : LocalWCS) : l.uv (0, 0) = (0, 0) := by
  rw [uv_eq]; simp [Mat2.app]

theorem absg_neg (s : Shear) : s.neg.absg = s.absg := by simp [Shear.absg, Shear.neg]

theorem nondeg_inverse {l : LocalWCS} (h : l.Nondeg) : l.inverse.Nondeg := by
  cases l with
  | pix c => exact one_div_ne_zero h
  | shear c s => exact ⟨one_div_ne_zero h.1, by rw [absg_neg]; exact h.2⟩
  | jac J =>
    have hd : J.det ≠ 0 := h
    have h1 : J.inv'.det ≠ 0 := by rw [Mat2.det_inv' hd]; exact one_div_ne_zero hd
    exact h1

theorem inverse_toJac {l : LocalWCS} (h : l.Nondeg) : l.inverse.toJac = l.toJac.inv' := by
  cases l with
  | pix c =>
    have hc : c ≠ 0 := h
    simp only [LocalWCS.inverse, LocalWCS.toJac, Mat2.inv', Mat2.det, Mat2.mk.injEq]
    refine ⟨?_, ?_, ?_, ?_⟩ <;> field_simp <;> ring
  | shear c s =>
    have hc : c ≠ 0 := h.1
    have hdet := det_toJac_shear c h.2
    have hg : LocalWCS.gfactor s.neg = LocalWCS.gfactor s := by
      simp [LocalWCS.gfactor, Shear.neg, Shear.g1, Shear.g2]
    simp only [LocalWCS.inverse, Mat2.inv', hdet]
    simp only [LocalWCS.toJac, hg, Mat2.mk.injEq]
    simp only [Shear.neg, Shear.g1, Shear.g2, Complex.neg_re, Complex.neg_im]
    refine ⟨?_, ?_, ?_, ?_⟩ <;> field_simp <;> ring
  | jac J => rfl

theorem inv'_mul {m : Mat2} (h : m.det ≠ 0) : m.inv'.mul m = Mat2.one := by
  simp only [Mat2.mul, Mat2.inv', Mat2.one, Mat2.mk.injEq]
  refine ⟨?_, ?_, ?_, ?_⟩ <;> field_simp <;> (try unfold Mat2.det) <;> ring

theorem mul_inv' {m : Mat2} (h : m.det ≠ 0) : m.mul m.inv' = Mat2.one := by
  simp only [Mat2.mul, Mat2.inv', Mat2.one, Mat2.mk.injEq]
  refine ⟨?_, ?_, ?_, ?_⟩ <;> field_simp <;> (try unfold Mat2.det) <;> ring

/-- A transformation of a transformation is one transformation. -/
theorem mk_mk (p : Prof) (J1 J2 : Mat2) (o1 o2 : ℝ × ℝ) (r1 r2 : ℝ) :
    mkTransform (mkTransform p J1 o1 r1) J2 o2 r2 = mkTransform p (J2.mul J1) (o2 + J2.app o1) (r2 * r1) := by
  cases p with
  | trans o J off r =>
    simp only [mkTransform, Mat2.mul_assoc, Mat2.app_add, Mat2.app_mul, Prof.trans.injEq, true_and]
    exact ⟨by rw [add_assoc], by ring⟩
  | _ => rfl

theorem shear_matrix_eq (s : Shear) : s.matrix =
    ⟨(1 + s.g1) * LocalWCS.gfactor s, s.g2 * LocalWCS.gfactor s, s.g2 * LocalWCS.gfactor s,
      (1 - s.g1) * LocalWCS.gfactor s⟩ := by
  unfold Shear.matrix LocalWCS.gfactor
  rw [absg_sq]
  simp only [Mat2.mk.injEq]
  refine ⟨?_, ?_, ?_, ?_⟩ <;> ring

theorem gfactor_neg (s : Shear) : LocalWCS.gfactor s.neg = LocalWCS.gfactor s := by
  simp [LocalWCS.gfactor, Shear.neg, Shear.g1, Shear.g2]

theorem profileToWorld_eq {l : LocalWCS} (h : l.Nondeg) (p : Prof) (fr : ℝ) (o : ℝ × ℝ) :
    l.profileToWorld p fr o = some (mkTransform p l.toJac o (fr / |l.toJac.det|)) := by
  rw [abs_det_toJac h]
  cases l with
  | pix c =>
    have hc : c ≠ 0 := h
    simp only [LocalWCS.profileToWorld, if_neg hc, LocalWCS.toJac, LocalWCS.pixelArea]
    congr 2; ring
  | shear c s =>
    have hc : c ≠ 0 := h.1
    have hs : s.neg.absg < 1 := by rw [absg_neg]; exact h.2
    simp only [LocalWCS.profileToWorld, Prof.dilate, if_neg hc, Option.bind_some, Prof.shear, if_pos hs,
      Option.map_some, Prof.shift, Prof.withScaledFlux, mk_mk, LocalWCS.pixelArea]
    rw [shear_matrix_eq, gfactor_neg]
    congr 2
    · simp only [LocalWCS.toJac, Mat2.mul, Mat2.one, Shear.neg, Shear.g1, Shear.g2, Complex.neg_re, Complex.neg_im,
        Mat2.mk.injEq]
      refine ⟨?_, ?_, ?_, ?_⟩ <;> ring
    · ext <;> simp [Mat2.app, Mat2.one]
    · ring
  | jac J =>
    have hd : J.det ≠ 0 := h
    simp only [LocalWCS.profileToWorld, if_neg hd, LocalWCS.toJac, LocalWCS.pixelArea]

theorem profileToImage_eq {l : LocalWCS} (h : l.Nondeg) (p : Prof) (fr : ℝ) (o : ℝ × ℝ) :
    l.profileToImage p fr o = some (mkTransform p l.toJac.inv' o (fr * |l.toJac.det|)) := by
  have hJ := inverse_toJac h
  rw [abs_det_toJac h, ← hJ]
  cases l with
  | pix c =>
    have hc : c ≠ 0 := h
    simp only [LocalWCS.profileToImage, if_neg hc, LocalWCS.toJac, LocalWCS.inverse, LocalWCS.pixelArea]
    congr 2; ring
  | shear c s =>
    have hc : (1 / c : ℝ) ≠ 0 := one_div_ne_zero h.1
    have hc' : c ≠ 0 := h.1
    simp only [LocalWCS.profileToImage, Prof.dilate, if_neg hc, Option.bind_some, Prof.shear, if_pos h.2,
      Option.map_some, Prof.shift, Prof.withScaledFlux, mk_mk, LocalWCS.pixelArea, LocalWCS.inverse]
    rw [shear_matrix_eq]
    congr 2
    · simp only [LocalWCS.toJac, gfactor_neg]
      simp only [Mat2.mul, Mat2.one, Shear.neg, Shear.g1, Shear.g2, Complex.neg_re,
        Complex.neg_im, Mat2.mk.injEq]
      refine ⟨?_, ?_, ?_, ?_⟩ <;> ring
    · ext <;> simp [Mat2.app, Mat2.one]
    · field_simp
  | jac J =>
    have hd : J.det ≠ 0 := h
    simp only [LocalWCS.profileToImage, if_neg hd, LocalWCS.toJac, LocalWCS.inverse, LocalWCS.pixelArea]

end JG
