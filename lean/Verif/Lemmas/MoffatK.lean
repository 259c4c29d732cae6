import Verif.Lemmas.BesselMono
import Verif.Props.AkimaError

/-! # How smooth the transform of a Moffat profile is -/

namespace JG.BesK

open Real Set Filter Topology MeasureTheory JG.Elt

theorem kvInt_low {mu : ℝ} (h : 0 < mu) {z : ℝ} (hz : 0 < z) : z ^ 2 / 4 * kvInt (mu - 1) z ≤ 1 / 2 * Gamma mu := by
  rw [kvInt, ← integral_const_mul, Gamma_eq_integral h, ← integral_const_mul]
  have hi : IntegrableOn (fun t : ℝ => 1 / 2 * (exp (-t) * t ^ (mu - 1))) (Ioi 0) :=
    ((gammaInt_integrable h).congr_fun (fun t _ => mul_comm _ _) measurableSet_Ioi).const_mul _
  refine setIntegral_mono_on ((kvInt_integrable (mu - 1) hz).const_mul _) hi measurableSet_Ioi fun t ht => ?_
  have ht : (0 : ℝ) < t := ht
  obtain ⟨y, hy⟩ : ∃ y, y = z ^ 2 / (4 * t) := ⟨_, rfl⟩
  have hy0 : 0 < y := by rw [hy]; positivity
  have hexp : y * exp (-y) ≤ 1 / 2 := by
    have := quadratic_le_exp_of_nonneg hy0.le
    rw [exp_neg, mul_inv_le_iff₀ (exp_pos _)]
    nlinarith [sq_nonneg (y - 1)]
  have e : z ^ 2 / 4 * (t ^ (mu - 1 - 1) * exp (-t - z ^ 2 / (4 * t))) = (y * exp (-y)) * (exp (-t) * t ^ (mu - 1)) := by
    rw [sub_eq_add_neg (-t), exp_add, ← hy, rpow_sub_one ht.ne' (mu - 1), hy]
    field_simp
  rw [e]
  have := rpow_nonneg ht.le (mu - 1)
  gcongr

/-- The derivative of `kvInt` is Lipschitz. -/
theorem kvInt_deriv_lip {mu : ℝ} (h : 1 < mu) {z w : ℝ} (hz : 0 < z) (hw : 0 < w) :
    |-(z / 2) * kvInt (mu - 1) z - -(w / 2) * kvInt (mu - 1) w| ≤ 1 / 2 * Gamma (mu - 1) * |z - w| := by
  have hd : ∀ y ∈ Ioi (0 : ℝ), HasDerivWithinAt (fun y => -(y / 2) * kvInt (mu - 1) y)
      (-(1 / 2) * kvInt (mu - 1) y + -(y / 2) * (-(y / 2) * kvInt (mu - 1 - 1) y)) (Ioi 0) y := by
    intro y hy
    have h1 : HasDerivAt (fun y : ℝ => -(y / 2)) (-(1 / 2)) y := ((hasDerivAt_id' y).div_const 2).fun_neg
    exact (h1.fun_mul (kvInt_hasDerivAt (mu - 1) hy)).hasDerivWithinAt
  have hb : ∀ y ∈ Ioi (0 : ℝ), ‖-(1 / 2) * kvInt (mu - 1) y + -(y / 2) * (-(y / 2) * kvInt (mu - 1 - 1) y)‖ ≤
      1 / 2 * Gamma (mu - 1) := by
    intro y hy
    have hy : (0 : ℝ) < y := hy
    have a1 := kvInt_low (mu := mu - 1) (by linarith) hy
    have a2 := kvInt_antitone (mu := mu - 1) (by linarith) le_rfl hy.le
    rw [kvInt_zero (by linarith)] at a2
    have a3 := kvInt_nonneg (mu - 1) y
    have a4 := kvInt_nonneg (mu - 1 - 1) y
    have a5 : 0 ≤ y ^ 2 / 4 * kvInt (mu - 1 - 1) y := by positivity
    rw [Real.norm_eq_abs, show -(1 / 2) * kvInt (mu - 1) y + -(y / 2) * (-(y / 2) * kvInt (mu - 1 - 1) y) =
      y ^ 2 / 4 * kvInt (mu - 1 - 1) y - 1 / 2 * kvInt (mu - 1) y by ring, abs_le]
    constructor <;> linarith
  have := (convex_Ioi (0 : ℝ)).norm_image_sub_le_of_norm_hasDerivWithin_le hd hb (x := w) (y := z) hw hz
  simpa [Real.norm_eq_abs] using this

theorem gauss_lip (s r : ℝ) : |exp (-s ^ 2) - exp (-r ^ 2)| ≤ |s - r| := by
  have hd : ∀ y ∈ (univ : Set ℝ), HasDerivWithinAt (fun y : ℝ => exp (-y ^ 2)) (exp (-y ^ 2) * (-(2 * y))) univ y := by
    intro y _
    have h1 : HasDerivAt (fun y : ℝ => -y ^ 2) (-(2 * y)) y := by
      simpa using (hasDerivAt_pow 2 y).fun_neg
    exact h1.exp.hasDerivWithinAt
  have hb : ∀ y ∈ (univ : Set ℝ), ‖exp (-y ^ 2) * (-(2 * y))‖ ≤ 1 := by
    intro y _
    rw [Real.norm_eq_abs, abs_mul, abs_of_pos (exp_pos _), exp_neg, inv_mul_le_iff₀ (exp_pos _), mul_one]
    have := add_one_le_exp (y ^ 2)
    refine le_trans ?_ this
    rw [abs_le]
    constructor <;> nlinarith [sq_nonneg (y - 1), sq_nonneg (y + 1)]
  have := convex_univ.norm_image_sub_le_of_norm_hasDerivWithin_le hd hb (x := r) (y := s) (mem_univ _) (mem_univ _)
  simpa [Real.norm_eq_abs] using this

theorem min_rpow {d a : ℝ} (hd : 0 ≤ d) (ha : 0 < a) (ha1 : a ≤ 1) {e : ℝ} (h1 : e ≤ 1) (h2 : e ≤ d) : e ≤ d ^ a := by
  rcases le_total d 1 with h | h
  · rcases hd.eq_or_lt with hz | hp
    · rw [← hz] at h2 ⊢
      rw [zero_rpow ha.ne']
      exact h2
    · refine h2.trans ?_
      have := rpow_le_rpow_of_exponent_ge hp h ha1
      rwa [rpow_one] at this
  · exact h1.trans (one_le_rpow h ha.le)

/-- `kvInt` is Hölder continuous. -/
theorem kvInt_holder {mu a : ℝ} (ha : 0 < a) (ha1 : a ≤ 1) (h : a / 2 < mu) (z w : ℝ) :
    |kvInt mu z - kvInt mu w| ≤ Gamma (mu - a / 2) * (|z - w| / 2) ^ a := by
  have hmu : 0 < mu := by linarith
  have hi : IntegrableOn (fun t : ℝ => (|z - w| / 2) ^ a * (t ^ (mu - a / 2 - 1) * exp (-t))) (Ioi 0) :=
    (gammaInt_integrable (show 0 < mu - a / 2 by linarith)).const_mul _
  have eG : Gamma (mu - a / 2) * (|z - w| / 2) ^ a =
      ∫ t in Ioi (0 : ℝ), (|z - w| / 2) ^ a * (t ^ (mu - a / 2 - 1) * exp (-t)) := by
    rw [integral_const_mul, Gamma_eq_integral (by linarith), mul_comm]
    congr 1
    exact setIntegral_congr_fun measurableSet_Ioi fun t _ => mul_comm _ _
  rw [eG, kvInt, kvInt, ← integral_sub (kvInt_integrable_pos z hmu) (kvInt_integrable_pos w hmu)]
  refine (abs_integral_le_integral_abs).trans ?_
  refine setIntegral_mono_on ((kvInt_integrable_pos z hmu).sub (kvInt_integrable_pos w hmu)).abs hi measurableSet_Ioi
    fun t ht => ?_
  have ht : (0 : ℝ) < t := ht
  have hst : 0 < sqrt t := sqrt_pos.mpr ht
  have e : ∀ y : ℝ, t ^ (mu - 1) * exp (-t - y ^ 2 / (4 * t)) = t ^ (mu - 1) * exp (-t) * exp (-(y / (2 * sqrt t)) ^ 2) := by
    intro y
    rw [sub_eq_add_neg (-t), exp_add, div_pow, mul_pow, sq_sqrt ht.le]
    norm_num
    ring
  have hd : |z / (2 * sqrt t) - w / (2 * sqrt t)| = |z - w| / 2 / sqrt t := by
    rw [← sub_div, abs_div, abs_of_pos (by positivity : 0 < 2 * sqrt t), div_div]
  have h1 : |exp (-(z / (2 * sqrt t)) ^ 2) - exp (-(w / (2 * sqrt t)) ^ 2)| ≤ 1 := by
    have p1 := exp_pos (-(z / (2 * sqrt t)) ^ 2)
    have p2 := exp_pos (-(w / (2 * sqrt t)) ^ 2)
    have q1 : exp (-(z / (2 * sqrt t)) ^ 2) ≤ 1 := exp_le_one_iff.mpr (by nlinarith [sq_nonneg (z / (2 * sqrt t))])
    have q2 : exp (-(w / (2 * sqrt t)) ^ 2) ≤ 1 := exp_le_one_iff.mpr (by nlinarith [sq_nonneg (w / (2 * sqrt t))])
    rw [abs_le]
    constructor <;> linarith
  have h2 := gauss_lip (z / (2 * sqrt t)) (w / (2 * sqrt t))
  rw [hd] at h2
  have h3 := min_rpow (by positivity) ha ha1 h1 h2
  rw [e z, e w, ← mul_sub, abs_mul, abs_of_nonneg (by positivity)]
  have e4 : (|z - w| / 2) ^ a * (t ^ (mu - a / 2 - 1) * exp (-t)) =
      t ^ (mu - 1) * exp (-t) * (|z - w| / 2 / sqrt t) ^ a := by
    rw [div_rpow (by positivity) hst.le, sqrt_eq_rpow, ← rpow_mul ht.le, show mu - a / 2 - 1 = mu - 1 - 1 / 2 * a by ring,
      rpow_sub ht]
    ring
  rw [e4]
  gcongr

/-! ### Orders that are half of an odd number -/

/-- `K_{n+1/2}` divided by its leading form: `1`, `1 + 1/z`, `1 + 3/z + 3/z²`, .. -/
noncomputable def halfE : ℕ → ℝ → ℝ
  | 0, _ => 1
  | 1, z => 1 + 1 / z
  | n + 2, z => (2 * n + 3) / z * halfE (n + 1) z + halfE n z

theorem kvE_rec (mu : ℝ) {z : ℝ} (hz : 0 < z) : kvE (mu + 1) z = 2 * mu / z * kvE mu z + kvE (mu - 1) z := by
  simp only [kvE]
  rw [kv_recurrence mu hz]
  ring

theorem kvE_halfE {z : ℝ} (hz : 0 < z) (n : ℕ) : kvE ((n : ℝ) + 1 / 2) z = halfE n z ∧
    kvE ((n : ℝ) + 1 + 1 / 2) z = halfE (n + 1) z := by
  induction n with
  | zero =>
    have h1 : kvE (0 + 1 / 2) z = 1 := by rw [zero_add]; exact kvE_half hz
    refine ⟨by simpa [halfE] using h1, ?_⟩
    have h2 := kvE_rec (1 / 2) hz
    have h3 : kvE (1 / 2 - 1) z = kvE (1 / 2) z := by
      simp only [kvE]
      rw [show (1 / 2 - 1 : ℝ) = -(1 / 2) by norm_num, kv_neg _ hz]
    rw [h3, kvE_half hz] at h2
    norm_num [halfE] at h2 ⊢
    rw [h2]
    ring
  | succ n ih =>
    refine ⟨by push_cast; exact ih.2, ?_⟩
    have h := kvE_rec ((n : ℝ) + 1 + 1 / 2) hz
    rw [ih.2, show (n : ℝ) + 1 + 1 / 2 - 1 = n + 1 / 2 by ring, ih.1] at h
    push_cast
    rw [show (n : ℝ) + 1 + 1 + 1 / 2 = n + 1 + 1 / 2 + 1 by ring, h, halfE]
    ring

theorem kvE_le_halfE {nu z : ℝ} (hnu : 0 < nu) (hz : 0 < z) (n : ℕ) (h : nu ≤ n + 1 / 2) : kvE nu z ≤ halfE n z := by
  rw [← (kvE_halfE hz n).1, kvE, kvE]
  have hp := pi_pos
  refine div_le_div_of_nonneg_right (kv_mono ?_ hz) (by positivity)
  rw [abs_of_pos hnu, abs_of_pos (by positivity)]
  exact h

theorem halfE_mono {z : ℝ} (hz : 0 < z) {n m : ℕ} (h : n ≤ m) : halfE n z ≤ halfE m z := by
  rw [← (kvE_halfE hz n).1]
  refine kvE_le_halfE (by positivity) hz m ?_
  have : (n : ℝ) ≤ m := by exact_mod_cast h
  linarith

/-- Distance of the ratio from 1, for all orders. -/
theorem kvE_dev {nu z : ℝ} (hnu : 0 < nu) (hz : 0 < z) (n : ℕ) (hn : 1 ≤ n) (h : nu ≤ n + 1 / 2) :
    |kvE nu z - 1| ≤ halfE n z - 1 := by
  rcases le_total (1 / 2) nu with h2 | h2
  · rw [abs_of_nonneg (by linarith [(kvE_one hnu hz).1 h2])]
    linarith [kvE_le_halfE hnu hz n h]
  · have hle := (kvE_one hnu hz).2 h2
    rw [abs_of_nonpos (by linarith)]
    have hp := pi_pos
    have hq : 0 < exp (-z) * sqrt (π / 2 / z) := mul_pos (exp_pos _) (sqrt_pos.mpr (by positivity))
    have key : 2 * kv (1 / 2) z ≤ kv nu z + kv (1 - nu) z := by
      rw [kv_cosh nu hz, kv_cosh (1 - nu) hz, kv_cosh (1 / 2) hz, ← mul_add,
        ← integral_add (kv_cosh_integrable nu hz) (kv_cosh_integrable (1 - nu) hz), mul_left_comm, ← integral_const_mul]
      refine mul_le_mul_of_nonneg_left ?_ (by norm_num)
      refine setIntegral_mono_on ((kv_cosh_integrable (1 / 2) hz).const_mul 2)
        ((kv_cosh_integrable nu hz).add (kv_cosh_integrable (1 - nu) hz)) measurableSet_Ioi fun t ht => ?_
      have ht : (0 : ℝ) < t := ht
      obtain ⟨L, hL⟩ : ∃ L, L = log (t / (z / 2)) := ⟨_, rfl⟩
      have e : cosh (nu * L) + cosh ((1 - nu) * L) = 2 * cosh (1 / 2 * L) * cosh ((1 / 2 - nu) * L) := by
        have e1 : nu * L = 1 / 2 * L - (1 / 2 - nu) * L := by ring
        have e2 : (1 - nu) * L = 1 / 2 * L + (1 / 2 - nu) * L := by ring
        rw [e1, e2, cosh_add, cosh_sub]
        ring
      have hw : 0 ≤ t⁻¹ * exp (-t - z ^ 2 / (4 * t)) := by positivity
      have h3 : 2 * cosh (1 / 2 * L) ≤ cosh (nu * L) + cosh ((1 - nu) * L) := by
        rw [e]
        have := one_le_cosh ((1 / 2 - nu) * L)
        have h3 := one_le_cosh (1 / 2 * L)
        nlinarith
      have := mul_le_mul_of_nonneg_right h3 hw
      rw [← hL]
      linarith
    have key' : 2 * kvE (1 / 2) z ≤ kvE nu z + kvE (1 - nu) z := by
      simp only [kvE]
      rw [← add_div, ← mul_div_assoc]
      exact div_le_div_of_nonneg_right key hq.le
    rw [kvE_half hz] at key'
    have hn' : (1 : ℝ) ≤ n := by exact_mod_cast hn
    have := kvE_le_halfE (nu := 1 - nu) (by linarith) hz n (by linarith)
    linarith

end JG.BesK
