import Verif.Lemmas.Bessel
import Verif.Model.BesselK
import Mathlib.Tactic.LinearCombination

/-! # Recurrences of the modified Bessel function of the second kind -/

namespace JG.BesK

open Real Set JG.Elt

theorem kv_neg (mu : ℝ) {z : ℝ} (hz : 0 < z) : kv (-mu) z = kv mu z := by
  rw [kv_eq, kv_eq, kvInt_neg mu hz, neg_neg]
  have h2 : 0 < z / 2 := by positivity
  have e : z ^ 2 / 4 = (z / 2) * (z / 2) := by ring
  rw [e, Real.mul_rpow h2.le h2.le]
  have : (z / 2) ^ mu * (z / 2) ^ (-mu) = 1 := by rw [← Real.rpow_add h2]; simp
  linear_combination (1 / 2 * (z / 2) ^ (-mu) * kvInt mu z) * this

theorem kv_abs (mu : ℝ) {z : ℝ} (hz : 0 < z) : kv |mu| z = kv mu z := by
  rcases abs_choice mu with h | h <;> rw [h]
  exact kv_neg mu hz

/-- `K_μ' = -K_{μ-1} - (μ/z) K_μ`. -/
theorem kv_hasDerivAt_down (mu : ℝ) {z : ℝ} (hz : 0 < z) :
    HasDerivAt (kv mu) (-kv (mu - 1) z - mu / z * kv mu z) z := by
  have h2 : 0 < z / 2 := by positivity
  have h1 := kvInt_hasDerivAt mu hz
  have hd : HasDerivAt (fun y : ℝ => 1 / 2 * (y / 2) ^ (-mu)) (1 / 2 * (1 / 2 * (-mu) * (z / 2) ^ (-mu - 1))) z := by
    have := (((hasDerivAt_id' z).div_const 2).rpow_const (p := -mu) (Or.inl h2.ne')).const_mul (1 / 2)
    exact this
  have := hd.mul h1
  refine (this.congr_deriv ?_)
  rw [kv_eq, kv_eq]
  have e1 : (z / 2) ^ (-mu - 1) = (z / 2) ^ (-mu) / (z / 2) := by rw [Real.rpow_sub_one h2.ne']
  have e2 : (z / 2) ^ (-(mu - 1)) = (z / 2) ^ (-mu) * (z / 2) := by
    rw [neg_sub, sub_eq_add_neg, add_comm, Real.rpow_add_one h2.ne']
  rw [e1, e2]
  field_simp
  ring

/-- `K_μ' = -K_{μ+1} + (μ/z) K_μ`. -/
theorem kv_hasDerivAt_up (mu : ℝ) {z : ℝ} (hz : 0 < z) :
    HasDerivAt (kv mu) (-kv (mu + 1) z + mu / z * kv mu z) z := by
  have h := kv_hasDerivAt_down (-mu) hz
  have : kv (-mu) =ᶠ[nhds z] kv mu := by
    filter_upwards [lt_mem_nhds hz] with y hy using kv_neg mu hy
  refine (h.congr_of_eventuallyEq this.symm).congr_deriv ?_
  rw [show -mu - 1 = -(mu + 1) by ring, kv_neg _ hz, kv_neg _ hz]
  ring

theorem kv_recurrence (mu : ℝ) {z : ℝ} (hz : 0 < z) : kv (mu + 1) z = 2 * mu * kv mu z / z + kv (mu - 1) z := by
  have := (kv_hasDerivAt_down mu hz).unique (kv_hasDerivAt_up mu hz)
  linear_combination this

theorem kv_hasDerivAt (mu : ℝ) {z : ℝ} (hz : 0 < z) :
    HasDerivAt (kv mu) (-(1 / 2) * (kv (mu - 1) z + kv (mu + 1) z)) z := by
  refine (kv_hasDerivAt_down mu hz).congr_deriv ?_
  rw [kv_recurrence mu hz]
  ring

end JG.BesK
