import Verif.Lemmas.BesselSteed

/-! # `K_ν` divided by its leading asymptotic form is monotone -/

namespace JG.BesK

open Real Set Filter Topology JG.Elt

/-- The comparison of hyperbolic functions behind the monotonicity. -/
noncomputable def hypD (nu x : ℝ) : ℝ := 2 * nu * sinh x * cosh (2 * nu * x) - sinh (2 * nu * x) * cosh x

theorem hypD_deriv (nu x : ℝ) : HasDerivAt (hypD nu) ((4 * nu ^ 2 - 1) * (sinh x * sinh (2 * nu * x))) x := by
  have l : HasDerivAt (fun x => 2 * nu * x) (2 * nu) x := by simpa using (hasDerivAt_id' x).const_mul (2 * nu)
  have h1 := ((hasDerivAt_sinh x).const_mul (2 * nu)).fun_mul l.cosh
  have h2 := l.sinh.fun_mul (hasDerivAt_cosh x)
  refine (h1.fun_sub h2).congr_deriv ?_
  ring

theorem hypD_sign {nu : ℝ} (hnu : 0 ≤ nu) {x : ℝ} (hx : 0 ≤ x) :
    (1 / 2 ≤ nu → 0 ≤ hypD nu x) ∧ (nu ≤ 1 / 2 → hypD nu x ≤ 0) := by
  have h0 : hypD nu 0 = 0 := by simp [hypD]
  have hc : Continuous (hypD nu) := continuous_iff_continuousAt.mpr fun x => (hypD_deriv nu x).continuousAt
  have hs : ∀ y ∈ interior (Ici (0 : ℝ)), 0 ≤ sinh y * sinh (2 * nu * y) := by
    intro y hy
    rw [interior_Ici] at hy
    have hy : (0 : ℝ) < y := hy
    exact mul_nonneg (sinh_nonneg_iff.mpr hy.le) (sinh_nonneg_iff.mpr (by positivity))
  constructor
  · intro h
    have m : MonotoneOn (hypD nu) (Ici 0) := monotoneOn_of_deriv_nonneg (convex_Ici 0) hc.continuousOn
      (fun y _ => (hypD_deriv nu y).differentiableAt.differentiableWithinAt) (fun y hy => by
        rw [(hypD_deriv nu y).deriv]
        exact mul_nonneg (by nlinarith) (hs y hy))
    rw [← h0]
    exact m self_mem_Ici hx hx
  · intro h
    have m : AntitoneOn (hypD nu) (Ici 0) := antitoneOn_of_deriv_nonpos (convex_Ici 0) hc.continuousOn
      (fun y _ => (hypD_deriv nu y).differentiableAt.differentiableWithinAt) (fun y hy => by
        rw [(hypD_deriv nu y).deriv]
        exact mul_nonpos_of_nonpos_of_nonneg (by nlinarith) (hs y hy))
    rw [← h0]
    exact m self_mem_Ici hx hx

/-- The sum of three hyperbolic cosines as a product. -/
theorem cosh_three {nu : ℝ} (hnu : 0 < nu) (L : ℝ) :
    (1 - 1 / (2 * nu)) * cosh ((nu + 1) * L) + (1 + 1 / (2 * nu)) * cosh ((nu - 1) * L) - 2 * cosh (nu * L)
      = 2 / nu * (sinh (L / 2) * hypD nu (L / 2)) := by
  have e1 : cosh ((nu + 1) * L) = cosh (nu * L) * cosh L + sinh (nu * L) * sinh L := by
    rw [← cosh_add]; ring_nf
  have e2 : cosh ((nu - 1) * L) = cosh (nu * L) * cosh L - sinh (nu * L) * sinh L := by
    rw [← cosh_sub]; ring_nf
  have e3 : cosh L = 1 + 2 * sinh (L / 2) ^ 2 := by
    have := cosh_two_mul (L / 2)
    rw [cosh_sq] at this
    rw [show L = 2 * (L / 2) by ring, this]
    ring_nf
  have e4 : sinh L = 2 * sinh (L / 2) * cosh (L / 2) := by
    rw [← sinh_two_mul]; ring_nf
  rw [e1, e2, e3, e4, hypD, show 2 * nu * (L / 2) = nu * L by ring]
  field_simp
  ring

theorem cosh_three_sign {nu : ℝ} (hnu : 0 < nu) (L : ℝ) :
    (1 / 2 ≤ nu → 2 * cosh (nu * L) ≤
      (1 - 1 / (2 * nu)) * cosh ((nu + 1) * L) + (1 + 1 / (2 * nu)) * cosh ((nu - 1) * L)) ∧
    (nu ≤ 1 / 2 → (1 - 1 / (2 * nu)) * cosh ((nu + 1) * L) + (1 + 1 / (2 * nu)) * cosh ((nu - 1) * L) ≤
      2 * cosh (nu * L)) := by
  have odd : sinh (L / 2) * hypD nu (L / 2) = sinh |L / 2| * hypD nu |L / 2| := by
    rcases abs_cases (L / 2) with ⟨h, _⟩ | ⟨h, _⟩ <;> rw [h]
    simp only [hypD, sinh_neg, cosh_neg, mul_neg]
    ring
  have e := cosh_three hnu L
  rw [odd] at e
  have hs : 0 ≤ sinh |L / 2| := sinh_nonneg_iff.mpr (abs_nonneg _)
  have hd := hypD_sign hnu.le (abs_nonneg (L / 2))
  have hn : 0 ≤ 2 / nu := by positivity
  constructor
  · intro h
    have := mul_nonneg hn (mul_nonneg hs (hd.1 h))
    linarith
  · intro h
    have := mul_nonpos_of_nonneg_of_nonpos hn (mul_nonpos_of_nonneg_of_nonpos hs (hd.2 h))
    linarith

theorem kv_neighbours {nu : ℝ} (hnu : 0 < nu) {z : ℝ} (hz : 0 < z) :
    (1 / 2 ≤ nu → 2 * kv nu z ≤ (1 - 1 / (2 * nu)) * kv (nu + 1) z + (1 + 1 / (2 * nu)) * kv (nu - 1) z) ∧
    (nu ≤ 1 / 2 → (1 - 1 / (2 * nu)) * kv (nu + 1) z + (1 + 1 / (2 * nu)) * kv (nu - 1) z ≤ 2 * kv nu z) := by
  have i0 := (kv_cosh_integrable nu hz).const_mul 2
  have i1 := (kv_cosh_integrable (nu + 1) hz).const_mul (1 - 1 / (2 * nu))
  have i2 := (kv_cosh_integrable (nu - 1) hz).const_mul (1 + 1 / (2 * nu))
  have e0 : 2 * kv nu z = 1 / 2 * ∫ t in Ioi (0 : ℝ), 2 * (cosh (nu * log (t / (z / 2))) *
      (t⁻¹ * exp (-t - z ^ 2 / (4 * t)))) := by
    rw [MeasureTheory.integral_const_mul, kv_cosh nu hz]
    ring
  have e1 : (1 - 1 / (2 * nu)) * kv (nu + 1) z + (1 + 1 / (2 * nu)) * kv (nu - 1) z = 1 / 2 * ∫ t in Ioi (0 : ℝ),
      ((1 - 1 / (2 * nu)) * (cosh ((nu + 1) * log (t / (z / 2))) * (t⁻¹ * exp (-t - z ^ 2 / (4 * t)))) +
       (1 + 1 / (2 * nu)) * (cosh ((nu - 1) * log (t / (z / 2))) * (t⁻¹ * exp (-t - z ^ 2 / (4 * t))))) := by
    rw [MeasureTheory.integral_add i1 i2, MeasureTheory.integral_const_mul, MeasureTheory.integral_const_mul,
      kv_cosh (nu + 1) hz, kv_cosh (nu - 1) hz]
    ring
  rw [e0, e1]
  constructor <;> intro h <;> refine mul_le_mul_of_nonneg_left ?_ (by norm_num)
  · refine MeasureTheory.setIntegral_mono_on i0 (i1.add i2) measurableSet_Ioi fun t ht => ?_
    have ht : 0 < t := ht
    have hw : 0 ≤ t⁻¹ * exp (-t - z ^ 2 / (4 * t)) := by positivity
    have := mul_le_mul_of_nonneg_right ((cosh_three_sign hnu (log (t / (z / 2)))).1 h) hw
    linarith
  · refine MeasureTheory.setIntegral_mono_on (i1.add i2) i0 measurableSet_Ioi fun t ht => ?_
    have ht : 0 < t := ht
    have hw : 0 ≤ t⁻¹ * exp (-t - z ^ 2 / (4 * t)) := by positivity
    have := mul_le_mul_of_nonneg_right ((cosh_three_sign hnu (log (t / (z / 2)))).2 h) hw
    linarith

/-- `K_ν(z) / (√(π / 2z) e^{-z})`. -/
noncomputable def kvE (nu z : ℝ) : ℝ := kv nu z / (exp (-z) * sqrt (π / 2 / z))

theorem kvE_eq (nu : ℝ) {z : ℝ} (hz : 0 < z) : kvE nu z = sqrt (2 / π) * (kv nu z * (exp z * sqrt z)) := by
  have hp := pi_pos
  have e : sqrt (2 / π) * sqrt z * sqrt (π / 2 / z) = 1 := by
    rw [← sqrt_mul (by positivity), ← sqrt_mul (by positivity), sqrt_eq_one]
    field_simp
  have h0 : sqrt (π / 2 / z) ≠ 0 := (sqrt_pos.mpr (by positivity)).ne'
  rw [kvE, div_eq_iff (by positivity)]
  have e2 : exp z * exp (-z) = 1 := by rw [← exp_add]; simp
  linear_combination (-(kv nu z)) * (exp z * exp (-z)) * e - kv nu z * e2

theorem kvE_half {z : ℝ} (hz : 0 < z) : kvE (1 / 2) z = 1 := by
  have hp := pi_pos
  have h0 : 0 < sqrt (π / 2 / z) := sqrt_pos.mpr (by positivity)
  have h := rpow_mul_kv (1 / 2) hz
  rw [kvInt_half hz.le, ← sqrt_eq_rpow, show (1 / 2 - 1 : ℝ) = -(1 / 2) by norm_num, rpow_neg (by norm_num), ← sqrt_eq_rpow] at h
  have e : sqrt z * sqrt (π / 2 / z) = (sqrt 2)⁻¹ * sqrt π := by
    rw [← sqrt_inv, ← sqrt_mul (by positivity), ← sqrt_mul (by positivity)]
    congr 1
    field_simp
  have hz0 : 0 < sqrt z := sqrt_pos.mpr hz
  rw [kvE, div_eq_one_iff_eq (by positivity)]
  have : sqrt z * kv (1 / 2) z = sqrt z * (exp (-z) * sqrt (π / 2 / z)) := by
    rw [h]
    linear_combination -exp (-z) * e
  exact mul_left_cancel₀ hz0.ne' this

theorem kvE_deriv {nu : ℝ} (hnu : 0 < nu) {z : ℝ} (hz : 0 < z) :
    HasDerivAt (kvE nu) (sqrt (2 / π) * (exp z * sqrt z) * (kv nu z - 1 / 2 *
      ((1 - 1 / (2 * nu)) * kv (nu + 1) z + (1 + 1 / (2 * nu)) * kv (nu - 1) z))) z := by
  have h1 := kv_hasDerivAt nu hz
  have h2 := (hasDerivAt_exp z).fun_mul (hasDerivAt_sqrt hz.ne')
  have h3 := (h1.fun_mul h2).const_mul (sqrt (2 / π))
  have ev : kvE nu =ᶠ[𝓝 z] fun y => sqrt (2 / π) * (kv nu y * (exp y * sqrt y)) := by
    filter_upwards [lt_mem_nhds hz] with y hy
    exact kvE_eq nu hy
  refine (h3.congr_of_eventuallyEq ev).congr_deriv ?_
  have hr := kv_recurrence nu hz
  have hz0 : 0 < sqrt z := sqrt_pos.mpr hz
  have hs : sqrt z * sqrt z = z := mul_self_sqrt hz.le
  have e : 1 / (2 * sqrt z) = sqrt z / (2 * z) := by
    rw [div_eq_div_iff (by positivity) (by positivity)]
    linear_combination -2 * hs
  rw [e]
  have e2 : 1 / (2 * z) * kv nu z = 1 / 2 * (1 / (2 * nu)) * (kv (nu + 1) z - kv (nu - 1) z) := by
    rw [hr]
    field_simp
    ring
  linear_combination sqrt (2 / π) * exp z * sqrt z * e2

/-- From order 1/2 upwards the ratio falls, below it grows. -/
theorem kvE_mono {nu : ℝ} (hnu : 0 < nu) {z w : ℝ} (hz : 0 < z) (h : z ≤ w) :
    (1 / 2 ≤ nu → kvE nu w ≤ kvE nu z) ∧ (nu ≤ 1 / 2 → kvE nu z ≤ kvE nu w) := by
  have hc : ContinuousOn (kvE nu) (Ioi 0) := fun y hy => (kvE_deriv hnu hy).continuousAt.continuousWithinAt
  have hd : DifferentiableOn ℝ (kvE nu) (interior (Ioi 0)) := fun y hy => by
    rw [interior_Ioi] at hy
    exact (kvE_deriv hnu hy).differentiableAt.differentiableWithinAt
  have hpos : ∀ y : ℝ, 0 ≤ sqrt (2 / π) * (exp y * sqrt y) := fun y => by positivity
  constructor
  · intro hn
    refine antitoneOn_of_deriv_nonpos (convex_Ioi 0) hc hd (fun y hy => ?_) hz (hz.trans_le h) h
    rw [interior_Ioi] at hy
    rw [(kvE_deriv hnu hy).deriv]
    exact mul_nonpos_of_nonneg_of_nonpos (hpos y) (by linarith [(kv_neighbours hnu hy).1 hn])
  · intro hn
    refine monotoneOn_of_deriv_nonneg (convex_Ioi 0) hc hd (fun y hy => ?_) hz (hz.trans_le h) h
    rw [interior_Ioi] at hy
    rw [(kvE_deriv hnu hy).deriv]
    exact mul_nonneg (hpos y) (by linarith [(kv_neighbours hnu hy).2 hn])

/-- The ratio is at least 1 from order 1/2 upwards, and at most 1 below. -/
theorem kvE_one {nu : ℝ} (hnu : 0 < nu) {z : ℝ} (hz : 0 < z) :
    (1 / 2 ≤ nu → 1 ≤ kvE nu z) ∧ (nu ≤ 1 / 2 → kvE nu z ≤ 1) := by
  have hp := pi_pos
  have h0 : 0 < exp (-z) * sqrt (π / 2 / z) := mul_pos (exp_pos _) (sqrt_pos.mpr (by positivity))
  have h1 := kvE_half hz
  constructor <;> intro h <;> rw [← h1, kvE, kvE] <;> refine div_le_div_of_nonneg_right (kv_mono ?_ hz) h0.le
  · rw [abs_of_pos (by norm_num : (0 : ℝ) < 1 / 2), abs_of_pos hnu]; exact h
  · rw [abs_of_pos (by norm_num : (0 : ℝ) < 1 / 2), abs_of_pos hnu]; exact h

end JG.BesK
