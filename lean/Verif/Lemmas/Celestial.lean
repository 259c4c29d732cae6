import Verif.Model.Celestial
import Verif.Props.Angle
import Mathlib.Analysis.SpecialFunctions.Trigonometric.Angle
import Mathlib.Tactic.Linarith
import Mathlib.Tactic.FieldSimp
import Mathlib.Tactic.LinearCombination

/-! Helper lemmas about the celestial sphere. -/

namespace JG

open Real

/-- Scalar product. -/
def V3.dot (a b : V3) : ℝ := a.x * b.x + a.y * b.y + a.z * b.z

theorem xyz_unit (p : Coord) : p.xyz.dot p.xyz = 1 := by
  simp only [V3.dot, Coord.xyz]
  have h1 := Real.sin_sq_add_cos_sq p.ra
  have h2 := Real.sin_sq_add_cos_sq p.dec
  linear_combination h2 + (cos p.dec) ^ 2 * h1

theorem rawDsq_eq (p q : Coord) : rawDsq p.xyz q.xyz = 2 - 2 * p.xyz.dot q.xyz := by
  have h1 := xyz_unit p
  have h2 := xyz_unit q
  simp only [V3.dot, rawDsq] at *
  linear_combination h1 + h2

theorem rawCross_sq (p q : Coord) :
    (rawCross p.xyz q.xyz).x ^ 2 + (rawCross p.xyz q.xyz).y ^ 2 + (rawCross p.xyz q.xyz).z ^ 2
      = 1 - (p.xyz.dot q.xyz) ^ 2 := by
  have h1 := xyz_unit p
  have h2 := xyz_unit q
  simp only [V3.dot, rawCross] at *
  linear_combination (q.xyz.x * q.xyz.x + q.xyz.y * q.xyz.y + q.xyz.z * q.xyz.z) * h1 + h2

theorem dot_sq_le (p q : Coord) : (p.xyz.dot q.xyz) ^ 2 ≤ 1 := by
  have := rawCross_sq p q
  nlinarith [sq_nonneg (rawCross p.xyz q.xyz).x, sq_nonneg (rawCross p.xyz q.xyz).y,
    sq_nonneg (rawCross p.xyz q.xyz).z]

theorem dot_range (p q : Coord) : -1 ≤ p.xyz.dot q.xyz ∧ p.xyz.dot q.xyz ≤ 1 :=
  abs_le.mp ((sq_le_one_iff_abs_le_one _).mp (dot_sq_le p q))

theorem dot_comm' (a b : V3) : a.dot b = b.dot a := by simp only [V3.dot]; ring

/-- `distanceTo` is the arc cosine of the scalar product. -/
theorem cos_distanceTo (p q : Coord) : cos (p.distanceTo q) = p.xyz.dot q.xyz ∧
    0 ≤ p.distanceTo q ∧ p.distanceTo q ≤ π := by
  have hd := rawDsq_eq p q
  have hc := rawCross_sq p q
  obtain ⟨hl, hu⟩ := dot_range p q
  have hsq := dot_sq_le p q
  unfold Coord.distanceTo
  simp only
  rw [hc, hd]
  obtain ⟨D, hD⟩ : ∃ D, D = p.xyz.dot q.xyz := ⟨_, rfl⟩
  rw [← hD] at hl hu hsq ⊢
  split_ifs with h
  · have h0 : 0 ≤ 2 - 2 * D := by linarith
    have hs : 0 ≤ √(2 - 2 * D) := Real.sqrt_nonneg _
    have hs2 : √(2 - 2 * D) ^ 2 = 2 - 2 * D := Real.sq_sqrt h0
    have hle : 0.5 * √(2 - 2 * D) ≤ 1 := by nlinarith
    refine ⟨?_, ?_, ?_⟩
    · rw [Real.cos_two_mul, Real.cos_arcsin, Real.sq_sqrt (by nlinarith)]
      nlinarith
    · have := Real.arcsin_nonneg.mpr (show 0 ≤ 0.5 * √(2 - 2 * D) by positivity)
      linarith
    · have := Real.arcsin_le_pi_div_two (0.5 * √(2 - 2 * D))
      linarith
  · have hD0 : D ≤ 0 := by norm_num at h; linarith
    refine ⟨?_, ?_, ?_⟩
    · rw [Real.cos_pi_sub, Real.cos_arcsin, Real.sq_sqrt (by linarith),
        show 1 - (1 - D ^ 2) = (-D) ^ 2 by ring, Real.sqrt_sq (by linarith)]
      ring
    · have := Real.arcsin_le_pi_div_two √(1 - D ^ 2)
      linarith [Real.pi_pos]
    · have := Real.arcsin_nonneg.mpr (Real.sqrt_nonneg (1 - D ^ 2))
      linarith

theorem distanceTo_eq_arccos (p q : Coord) : p.distanceTo q = arccos (p.xyz.dot q.xyz) := by
  obtain ⟨h, h0, h1⟩ := cos_distanceTo p q
  rw [← h, Real.arccos_cos h0 h1]

/-- Distances depend only on the scalar product. -/
theorem distanceTo_congr {p q p' q' : Coord} (h : p.xyz.dot q.xyz = p'.xyz.dot q'.xyz) :
    p.distanceTo q = p'.distanceTo q' := by
  rw [distanceTo_eq_arccos, distanceTo_eq_arccos, h]

/-! ### Angles from sines and cosines -/

theorem angle_eq_of_trig {a b : ℝ} (hc : cos a = cos b) (hs : sin a = sin b) :
    ∃ n : ℤ, a = b + n * (2 * π) := by
  have h : (a : Real.Angle) = (b : Real.Angle) := Real.Angle.cos_sin_inj hc hs
  obtain ⟨k, hk⟩ := Real.Angle.angle_eq_iff_two_pi_dvd_sub.mp h
  exact ⟨k, by linarith⟩

theorem arctan2_trig {x y r : ℝ} (hr : 0 < r) (h : x ^ 2 + y ^ 2 = r ^ 2) :
    cos (arctan2 y x) = x / r ∧ sin (arctan2 y x) = y / r := by
  have hn : ‖(⟨x, y⟩ : ℂ)‖ = r := by
    rw [← sq_eq_sq₀ (norm_nonneg _) hr.le, ← h, Complex.sq_norm, Complex.normSq_apply]
    ring
  have h0 : (⟨x, y⟩ : ℂ) ≠ 0 := by
    intro e
    rw [e, norm_zero] at hn
    exact hr.ne hn
  unfold arctan2
  rw [Complex.cos_arg h0, Complex.sin_arg, hn]
  exact ⟨rfl, rfl⟩

/-- `arctan2 y x` is the angle of the point `(x, y)`, up to full turns. -/
theorem arctan2_polar {r t : ℝ} (hr : 0 < r) :
    ∃ n : ℤ, arctan2 (r * sin t) (r * cos t) = t + n * (2 * π) := by
  have h : (r * cos t) ^ 2 + (r * sin t) ^ 2 = r ^ 2 := by
    linear_combination r ^ 2 * Real.sin_sq_add_cos_sq t
  obtain ⟨hc, hs⟩ := arctan2_trig hr h
  refine angle_eq_of_trig ?_ ?_
  · rw [hc]; field_simp
  · rw [hs]; field_simp

theorem wrapRad_trig (a c : ℝ) : cos (wrapRad a c) = cos a ∧ sin (wrapRad a c) = sin a :=
  ⟨(C08_wrap_trig ⟨a⟩ ⟨c⟩).2, (C08_wrap_trig ⟨a⟩ ⟨c⟩).1⟩

theorem wrapRad_range (a : ℝ) : 0 ≤ wrapRad a π ∧ wrapRad a π < 2 * π := by
  have := C08_wrap_range ⟨a⟩ ⟨π⟩
  simp only at this
  unfold wrapRad
  constructor <;> linarith [this.1, this.2.1]

theorem normal_xyz (p : Coord) : p.normal.xyz = p.xyz := by
  simp only [Coord.xyz, Coord.normal, (wrapRad_trig p.ra π).1, (wrapRad_trig p.ra π).2]

/-- Two normalised coordinates of the same point away from the poles are equal. -/
theorem coord_eq_of_xyz' (c : ℝ) {p q : Coord} (hp : c ≤ p.ra ∧ p.ra < c + 2 * π)
    (hq : c ≤ q.ra ∧ q.ra < c + 2 * π) (hp' : -(π / 2) ≤ p.dec ∧ p.dec ≤ π / 2)
    (hq' : -(π / 2) < q.dec ∧ q.dec < π / 2) (h : p.xyz = q.xyz) : p = q := by
  have hz : sin p.dec = sin q.dec := congrArg V3.z h
  have hd : p.dec = q.dec :=
    Real.injOn_sin ⟨hp'.1, hp'.2⟩ ⟨hq'.1.le, hq'.2.le⟩ hz
  have hc : 0 < cos q.dec := Real.cos_pos_of_mem_Ioo ⟨hq'.1, hq'.2⟩
  have hx := congrArg V3.x h
  have hy := congrArg V3.y h
  simp only [Coord.xyz, hd] at hx hy
  obtain ⟨n, hn⟩ := angle_eq_of_trig (mul_left_cancel₀ hc.ne' hx) (mul_left_cancel₀ hc.ne' hy)
  have hpi := Real.pi_pos
  have h1 : (n : ℝ) * (2 * π) < 1 * (2 * π) := by linarith
  have h2 : (-1 : ℝ) * (2 * π) < n * (2 * π) := by linarith
  have h1' : (n : ℝ) < 1 := lt_of_mul_lt_mul_right h1 (by positivity)
  have h2' : (-1 : ℝ) < n := lt_of_mul_lt_mul_right h2 (by positivity)
  have h0 : n = 0 := by
    have : n < 1 := by exact_mod_cast h1'
    have : -1 < n := by exact_mod_cast h2'
    omega
  rw [h0] at hn
  exact Coord.ext (by simpa using hn) hd

theorem coord_eq_of_xyz {p q : Coord} (hp : 0 ≤ p.ra ∧ p.ra < 2 * π)
    (hq : 0 ≤ q.ra ∧ q.ra < 2 * π) (hp' : -(π / 2) ≤ p.dec ∧ p.dec ≤ π / 2)
    (hq' : -(π / 2) < q.dec ∧ q.dec < π / 2) (h : p.xyz = q.xyz) : p = q :=
  coord_eq_of_xyz' 0 (by rwa [zero_add]) (by rwa [zero_add]) hp' hq' h

/-- `from_xyz` of a vector other than the origin is the normalised coordinate of its direction. -/
theorem fromXYZ_spec (v : V3) (hv : 0 < v.dot v) :
    ∃ p, fromXYZ v = some p ∧
      p.xyz = ⟨v.x / √(v.dot v), v.y / √(v.dot v), v.z / √(v.dot v)⟩ ∧
      0 ≤ p.ra ∧ p.ra < 2 * π ∧ -(π / 2) ≤ p.dec ∧ p.dec ≤ π / 2 := by
  have hn0 : 0 < √(v.dot v) := Real.sqrt_pos.mpr hv
  have hn2 : √(v.dot v) ^ 2 = v.dot v := Real.sq_sqrt hv.le
  have hdot : v.x * v.x + v.y * v.y + v.z * v.z = v.dot v := rfl
  unfold fromXYZ
  simp only
  rw [hdot, if_neg hn0.ne']
  obtain ⟨x, hx⟩ : ∃ x, x = v.x / √(v.dot v) := ⟨_, rfl⟩
  obtain ⟨y, hy⟩ : ∃ y, y = v.y / √(v.dot v) := ⟨_, rfl⟩
  obtain ⟨z, hz⟩ : ∃ z, z = v.z / √(v.dot v) := ⟨_, rfl⟩
  rw [← hx, ← hy, ← hz]
  have hu : x * x + y * y + z * z = 1 := by
    rw [hx, hy, hz]
    field_simp
    rw [hn2, ← hdot]; ring
  have hxy : 0 ≤ x * x + y * y := by nlinarith [mul_self_nonneg x, mul_self_nonneg y]
  obtain ⟨c, hc⟩ : ∃ c, c = √(x * x + y * y) := ⟨_, rfl⟩
  have hc0 : 0 ≤ c := by rw [hc]; exact Real.sqrt_nonneg _
  have hc2 : c ^ 2 = x * x + y * y := by rw [hc]; exact Real.sq_sqrt hxy
  rw [← hc]
  obtain ⟨hdc, hds⟩ := arctan2_trig (x := c) (y := z) one_pos (by rw [hc2, ← sq]; nlinarith)
  have hdec : -(π / 2) ≤ arctan2 z c ∧ arctan2 z c ≤ π / 2 := by
    unfold arctan2
    have := (Complex.abs_arg_le_pi_div_two_iff (z := ⟨c, z⟩)).mpr hc0
    exact abs_le.mp this
  refine ⟨_, rfl, ?_, (wrapRad_range _).1, (wrapRad_range _).2, hdec.1, hdec.2⟩
  simp only [Coord.xyz, hdc, hds, div_one, (wrapRad_trig _ π).1, (wrapRad_trig _ π).2]
  by_cases h : c = 0
  · rw [if_pos h, if_pos h, h]
    have hx0 : x = 0 := by rw [h] at hc2; nlinarith [mul_self_nonneg x, mul_self_nonneg y]
    have hy0 : y = 0 := by rw [h] at hc2; nlinarith [mul_self_nonneg x, mul_self_nonneg y]
    rw [hx0, hy0]; simp
  · rw [if_neg h, if_neg h]
    have hcp : 0 < c := lt_of_le_of_ne hc0 (Ne.symm h)
    obtain ⟨h1, h2⟩ := arctan2_trig (x := x / c) (y := y / c) one_pos (by
      field_simp; rw [← sq, ← sq] at hc2; linarith)
    rw [h1, h2, div_one, div_one, mul_div_cancel₀ _ h, mul_div_cancel₀ _ h]

/-- For unit vectors no division is needed. -/
theorem fromXYZ_unit (v : V3) (hv : v.dot v = 1) :
    ∃ p, fromXYZ v = some p ∧ p.xyz = v ∧
      0 ≤ p.ra ∧ p.ra < 2 * π ∧ -(π / 2) ≤ p.dec ∧ p.dec ≤ π / 2 := by
  obtain ⟨p, h, hx, hr⟩ := fromXYZ_spec v (by rw [hv]; exact one_pos)
  refine ⟨p, h, ?_, hr⟩
  rw [hx, hv]; simp

end JG
