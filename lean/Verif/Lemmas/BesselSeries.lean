import Verif.Lemmas.BesselK
import Mathlib.Analysis.Calculus.SmoothSeries
import Mathlib.Analysis.SpecificLimits.Normed

/-! # The power series of the modified Bessel functions -/

namespace JG.BesK

open Real Set Filter Topology JG.Elt

/-- `(1-μ)(2-μ)⋯(k-μ)`. -/
noncomputable def poch (mu : ℝ) (k : ℕ) : ℝ := ∏ i ∈ Finset.range k, ((i : ℝ) + 1 - mu)

theorem poch_succ (mu : ℝ) (k : ℕ) : poch mu (k + 1) = poch mu k * ((k : ℝ) + 1 - mu) := Finset.prod_range_succ ..

theorem poch_pos {mu : ℝ} (h : mu < 1) (k : ℕ) : 0 < poch mu k :=
  Finset.prod_pos fun i _ => by have : (0 : ℝ) ≤ i := Nat.cast_nonneg i; linarith

/-- Shifting the order. -/
theorem poch_shift (mu : ℝ) (k : ℕ) : poch mu (k + 1) = (1 - mu) * poch (mu - 1) k := by
  rw [poch, Finset.prod_range_succ']
  simp only [poch]
  rw [mul_comm]
  congr 1
  · simp
  · refine Finset.prod_congr rfl fun i _ => ?_
    push_cast
    ring

/-- Term of the series `₀F₁(1-μ; y)`. -/
noncomputable def gTerm (mu y : ℝ) (k : ℕ) : ℝ := y ^ k / (k.factorial * poch mu k)

/-- The function `₀F₁(1-μ; y)`. -/
noncomputable def gFun (mu y : ℝ) : ℝ := ∑' k, gTerm mu y k

theorem gTerm_succ {mu : ℝ} (h : mu < 1) (y : ℝ) (k : ℕ) :
    gTerm mu y (k + 1) = gTerm mu y k * (y / (((k : ℝ) + 1) * ((k : ℝ) + 1 - mu))) := by
  have h1 := (poch_pos h k).ne'
  have h2 : (k.factorial : ℝ) ≠ 0 := by positivity
  have h0 : (0 : ℝ) ≤ k := Nat.cast_nonneg k
  have h3 : (k : ℝ) + 1 - mu ≠ 0 := by linarith
  rw [gTerm, gTerm, poch_succ, Nat.factorial_succ, pow_succ]
  push_cast
  field_simp

theorem gTerm_summable {mu : ℝ} (h : mu < 1) (y : ℝ) : Summable (gTerm mu y) := by
  rcases eq_or_ne y 0 with rfl | hy
  · refine summable_of_ne_finset_zero (s := {0}) fun k hk => ?_
    have : k ≠ 0 := by simpa using hk
    simp [gTerm, this]
  refine summable_of_ratio_test_tendsto_lt_one (l := 0) one_pos ?_ ?_
  · refine Eventually.of_forall fun k => ?_
    have := (poch_pos h k).ne'
    have h2 : (k.factorial : ℝ) ≠ 0 := by positivity
    exact div_ne_zero (pow_ne_zero _ hy) (mul_ne_zero h2 this)
  · have hlim : Tendsto (fun k : ℕ => |y| / (1 - mu) * (1 / ((k : ℝ) + 1))) atTop (𝓝 0) := by
      simpa using tendsto_one_div_add_atTop_nhds_zero_nat.const_mul (|y| / (1 - mu))
    refine squeeze_zero (fun k => by positivity) (fun k => ?_) hlim
    have h1 := (poch_pos h k).ne'
    have h2 : (k.factorial : ℝ) ≠ 0 := by positivity
    have h0 : (0 : ℝ) ≤ k := Nat.cast_nonneg k
    have h3 : 0 < (k : ℝ) + 1 - mu := by linarith
    have h4 : 0 < 1 - mu := by linarith
    have hne : gTerm mu y k ≠ 0 := div_ne_zero (pow_ne_zero _ hy) (mul_ne_zero h2 h1)
    rw [gTerm_succ h, norm_mul, mul_div_cancel_left₀ _ (norm_ne_zero_iff.mpr hne), Real.norm_eq_abs, abs_div,
      abs_of_pos (by positivity : 0 < ((k : ℝ) + 1) * ((k : ℝ) + 1 - mu)), div_mul_div_comm, mul_one]
    refine div_le_div_of_nonneg_left (abs_nonneg _) (by positivity) ?_
    rw [mul_comm]
    gcongr
    linarith

theorem gFun_zero {mu : ℝ} : gFun mu 0 = 1 := by
  rw [gFun, tsum_eq_single 0 (fun k hk => by simp [gTerm, hk])]
  simp [gTerm, poch]

theorem gTerm_deriv (mu y : ℝ) (k : ℕ) :
    HasDerivAt (fun y => gTerm mu y k) ((k : ℝ) * y ^ (k - 1) / (k.factorial * poch mu k)) y := by
  exact (hasDerivAt_pow k y).div_const _

theorem gTerm_deriv_succ {mu : ℝ} (h : mu < 1) (y : ℝ) (k : ℕ) :
    ((k + 1 : ℕ) : ℝ) * y ^ (k + 1 - 1) / ((k + 1).factorial * poch mu (k + 1)) = gTerm (mu - 1) y k / (1 - mu) := by
  have h1 := (poch_pos (show mu - 1 < 1 by linarith) k).ne'
  have h2 : (k.factorial : ℝ) ≠ 0 := by positivity
  have h3 : 1 - mu ≠ 0 := by linarith
  have h4 : ((k : ℝ) + 1) ≠ 0 := by positivity
  rw [poch_shift, Nat.factorial_succ, gTerm]
  push_cast
  field_simp

theorem gTerm_deriv_summable {mu : ℝ} (h : mu < 1) (y : ℝ) :
    Summable fun k : ℕ => (k : ℝ) * y ^ (k - 1) / (k.factorial * poch mu k) := by
  rw [← summable_nat_add_iff 1]
  simp only [gTerm_deriv_succ h]
  exact (gTerm_summable (by linarith) y).div_const _

theorem gTerm_deriv_tsum {mu : ℝ} (h : mu < 1) (y : ℝ) :
    ∑' k : ℕ, (k : ℝ) * y ^ (k - 1) / (k.factorial * poch mu k) = gFun (mu - 1) y / (1 - mu) := by
  rw [(gTerm_deriv_summable h y).tsum_eq_zero_add]
  simp only [gTerm_deriv_succ h]
  rw [tsum_div_const, gFun]
  simp

theorem gFun_hasDerivAt {mu : ℝ} (h : mu < 1) (y : ℝ) : HasDerivAt (gFun mu) (gFun (mu - 1) y / (1 - mu)) y := by
  rw [← gTerm_deriv_tsum h]
  have hR : y ∈ Metric.ball (0 : ℝ) (|y| + 1) := by simp
  refine hasDerivAt_tsum_of_isPreconnected (gTerm_deriv_summable h (|y| + 1)) Metric.isOpen_ball
    (convex_ball (0 : ℝ) (|y| + 1)).isPreconnected (fun k x _ => gTerm_deriv mu x k) (fun k x hx => ?_) hR
    (gTerm_summable h y) hR
  have hx' : |x| ≤ |y| + 1 := by
    have := Metric.mem_ball.mp hx
    rw [Real.dist_eq, sub_zero] at this
    exact this.le
  have h1 := poch_pos h k
  rw [Real.norm_eq_abs, abs_div, abs_mul, abs_pow, abs_of_nonneg (Nat.cast_nonneg k : (0 : ℝ) ≤ k),
    abs_of_pos (by positivity : 0 < (k.factorial : ℝ) * poch mu k)]
  gcongr

theorem gFun_continuous {mu : ℝ} (h : mu < 1) : Continuous (gFun mu) :=
  continuous_iff_continuousAt.mpr fun y => (gFun_hasDerivAt h y).continuousAt

/-- The contiguous relation. -/
theorem gFun_contig {mu : ℝ} (h : mu < 1) (y : ℝ) :
    gFun (mu - 1) y + y * (gFun (mu - 2) y / (2 - mu)) / (1 - mu) = gFun mu y := by
  have h' : mu - 1 < 1 := by linarith
  have hs := (gTerm_summable h' y)
  have hd := gTerm_deriv_summable h' y
  have e : gFun (mu - 2) y / (2 - mu) = ∑' k : ℕ, (k : ℝ) * y ^ (k - 1) / (k.factorial * poch (mu - 1) k) := by
    rw [gTerm_deriv_tsum h', show mu - 1 - 1 = mu - 2 by ring, show 1 - (mu - 1) = 2 - mu by ring]
  rw [e, ← tsum_mul_left, ← tsum_div_const, gFun, ← hs.tsum_add ((hd.mul_left y).div_const _), gFun]
  refine tsum_congr fun k => ?_
  have h1 := (poch_pos h' k).ne'
  have h1' := (poch_pos h k).ne'
  have h2 : (k.factorial : ℝ) ≠ 0 := by positivity
  have h3 : 1 - mu ≠ 0 := by linarith
  have hy : y * ((k : ℝ) * y ^ (k - 1)) = k * y ^ k := by
    rcases k with _ | k
    · simp
    · simp only [Nat.add_sub_cancel, pow_succ]; ring
  have hp : poch mu k * ((k : ℝ) + 1 - mu) = (1 - mu) * poch (mu - 1) k := by rw [← poch_succ, poch_shift]
  rw [gTerm, gTerm, ← mul_div_assoc, hy]
  field_simp
  linear_combination (y ^ k) * hp

/-- `(z/2)^(-μ) ₀F₁(1-μ; z²/4)`, which is `Γ(1-μ) I_{-μ}(z)`. -/
noncomputable def uFun (mu z : ℝ) : ℝ := (z / 2) ^ (-mu) * gFun mu (z ^ 2 / 4)

theorem uFun_hasDerivAt_down {mu : ℝ} (h : mu < 1) {z : ℝ} (hz : 0 < z) :
    HasDerivAt (uFun mu) (-(mu / z) * uFun mu z + uFun (mu - 1) z / (1 - mu)) z := by
  have h2 : 0 < z / 2 := by positivity
  have hd : HasDerivAt (fun y : ℝ => (y / 2) ^ (-mu)) (1 / 2 * (-mu) * (z / 2) ^ (-mu - 1)) z :=
    ((hasDerivAt_id' z).div_const 2).rpow_const (p := -mu) (Or.inl h2.ne')
  have hy : HasDerivAt (fun y : ℝ => y ^ 2 / 4) (z / 2) z :=
    (((hasDerivAt_id' z).fun_pow 2).div_const 4).congr_deriv (by push_cast; ring)
  have hg : HasDerivAt (fun y : ℝ => gFun mu (y ^ 2 / 4)) (gFun (mu - 1) (z ^ 2 / 4) / (1 - mu) * (z / 2)) z :=
    HasDerivAt.comp (h := fun y : ℝ => y ^ 2 / 4) z (gFun_hasDerivAt h (z ^ 2 / 4)) hy
  refine (hd.mul hg).congr_deriv ?_
  have e1 : (z / 2) ^ (-mu - 1) = (z / 2) ^ (-mu) / (z / 2) := by rw [Real.rpow_sub_one h2.ne']
  have e2 : (z / 2) ^ (-(mu - 1)) = (z / 2) ^ (-mu) * (z / 2) := by
    rw [neg_sub, sub_eq_add_neg, add_comm, Real.rpow_add_one h2.ne']
  have h3 : 1 - mu ≠ 0 := by linarith
  rw [uFun, uFun, e1, e2]
  field_simp

/-- The recurrence over the order. -/
theorem uFun_rec {mu : ℝ} (h : mu < 1) {z : ℝ} (hz : 0 < z) :
    uFun (mu - 1) z + (z / 2) * uFun (mu - 2) z / ((2 - mu) * (1 - mu)) = (z / 2) * uFun mu z := by
  have h2 : 0 < z / 2 := by positivity
  have e1 : (z / 2) ^ (-(mu - 1)) = (z / 2) ^ (-mu) * (z / 2) := by
    rw [neg_sub, sub_eq_add_neg, add_comm, Real.rpow_add_one h2.ne']
  have e2 : (z / 2) ^ (-(mu - 2)) = (z / 2) ^ (-mu) * (z / 2) * (z / 2) := by
    rw [show -(mu - 2) = -(mu - 1) + 1 by ring, Real.rpow_add_one h2.ne', e1]
  have h3 : 1 - mu ≠ 0 := by linarith
  have h4 : 2 - mu ≠ 0 := by linarith
  have hc := gFun_contig h (z ^ 2 / 4)
  rw [uFun, uFun, uFun, e1, e2]
  rw [← hc]
  field_simp
  ring

theorem uFun_hasDerivAt_up {mu : ℝ} (h : mu < 1) {z : ℝ} (hz : 0 < z) :
    HasDerivAt (uFun (mu - 1)) ((1 - mu) * uFun mu z - (1 - mu) / z * uFun (mu - 1) z) z := by
  refine (uFun_hasDerivAt_down (show mu - 1 < 1 by linarith) hz).congr_deriv ?_
  have hr := uFun_rec h hz
  have h3 : 1 - mu ≠ 0 := by linarith
  have h4 : 2 - mu ≠ 0 := by linarith
  have h5 : 1 - (mu - 1) ≠ 0 := by linarith
  rw [show mu - 1 - 1 = mu - 2 by ring, show 1 - (mu - 1) = 2 - mu by ring]
  field_simp at hr ⊢
  linear_combination hr

/-- A function that is constant for positive arguments and has a limit at zero equals the limit. -/
theorem const_of_deriv {F : ℝ → ℝ} {l : ℝ} (hd : ∀ z : ℝ, 0 < z → HasDerivAt F 0 z)
    (hl : Tendsto F (𝓝[>] 0) (𝓝 l)) {z : ℝ} (hz : 0 < z) : F z = l := by
  have hc : ∀ y ∈ Ioi (0 : ℝ), F y = F z := by
    intro y hy
    refine (convex_Ioi (0 : ℝ)).is_const_of_fderivWithin_eq_zero (𝕜 := ℝ) (f := F) ?_ ?_ hy hz
    · exact fun x hx => (hd x hx).differentiableAt.differentiableWithinAt
    · intro x hx
      have := (hd x hx).hasFDerivAt.hasFDerivWithinAt.fderivWithin (isOpen_Ioi.uniqueDiffWithinAt hx) (s := Ioi 0)
      rw [this]
      ext
      simp
  refine tendsto_nhds_unique (Tendsto.congr' ?_ tendsto_const_nhds) hl
  filter_upwards [self_mem_nhdsWithin] with y hy using (hc y hy).symm

/-- The Wronskian of `K_μ` and `I_{-μ}`. -/
theorem wronskian_kv {mu : ℝ} (h0 : mu ≠ 0) (h : mu < 1) (h' : -1 < mu) {z : ℝ} (hz : 0 < z) :
    z * (uFun mu z * kv (mu - 1) z + uFun (mu - 1) z * kv mu z / (1 - mu)) = Real.Gamma (1 - mu) := by
  refine const_of_deriv (F := fun z => z * (uFun mu z * kv (mu - 1) z + uFun (mu - 1) z * kv mu z / (1 - mu))) ?_ ?_ hz
  · intro z hz
    have k1 := kv_hasDerivAt_up (mu - 1) hz
    have k2 := kv_hasDerivAt_down mu hz
    have u1 := uFun_hasDerivAt_down h hz
    have u2 := uFun_hasDerivAt_up h hz
    have h3 : 1 - mu ≠ 0 := by linarith
    refine ((hasDerivAt_id' z).mul ((u1.mul k1).add ((u2.mul k2).div_const (1 - mu)))).congr_deriv ?_
    rw [show mu - 1 + 1 = mu by ring]
    simp only [Pi.mul_apply, Pi.add_apply]
    field_simp
    ring
  · have hy : Tendsto (fun z : ℝ => z ^ 2 / 4) (𝓝[>] 0) (𝓝 0) := by
      have : Continuous fun z : ℝ => z ^ 2 / 4 := by fun_prop
      simpa using (this.tendsto 0).mono_left nhdsWithin_le_nhds
    have g1 : Tendsto (fun z : ℝ => gFun mu (z ^ 2 / 4)) (𝓝[>] 0) (𝓝 1) := by
      have := ((gFun_continuous h).tendsto 0).comp hy
      rwa [gFun_zero] at this
    have g2 : Tendsto (fun z : ℝ => gFun (mu - 1) (z ^ 2 / 4)) (𝓝[>] 0) (𝓝 1) := by
      have := ((gFun_continuous (show mu - 1 < 1 by linarith)).tendsto 0).comp hy
      rwa [gFun_zero] at this
    have i1 : Tendsto (fun z : ℝ => kvInt (1 - mu) z) (𝓝[>] 0) (𝓝 (Real.Gamma (1 - mu))) := by
      have h1 : 0 < 1 - mu := by linarith
      have := ((kvInt_continuous h1).tendsto 0).mono_left (nhdsWithin_le_nhds (s := Ioi 0))
      rwa [kvInt_zero h1] at this
    have i2 : Tendsto (fun z : ℝ => kvInt |mu| z) (𝓝[>] 0) (𝓝 (Real.Gamma |mu|)) := by
      have h1 : 0 < |mu| := abs_pos.mpr h0
      have := ((kvInt_continuous h1).tendsto 0).mono_left (nhdsWithin_le_nhds (s := Ioi 0))
      rwa [kvInt_zero h1] at this
    have hab : 0 < 2 - mu - |mu| := by
      rcases abs_cases mu with ⟨e, _⟩ | ⟨e, _⟩ <;> rw [e] <;> linarith
    have p1 : Tendsto (fun z : ℝ => (z / 2) ^ (2 - mu - |mu|)) (𝓝[>] 0) (𝓝 0) := by
      have hc : ContinuousAt (fun z : ℝ => (z / 2) ^ (2 - mu - |mu|)) 0 :=
        (continuousAt_id.div_const 2).rpow_const (Or.inr hab.le)
      have := hc.tendsto.mono_left (nhdsWithin_le_nhds (s := Ioi 0))
      simpa [Real.zero_rpow hab.ne'] using this
    have key := (g1.mul i1).add (((p1.mul g2).mul i2).div_const (1 - mu))
    have e0 : (1 : ℝ) * Real.Gamma (1 - mu) + 0 * 1 * Real.Gamma |mu| / (1 - mu) = Real.Gamma (1 - mu) := by simp
    rw [e0] at key
    refine key.congr' ?_
    filter_upwards [self_mem_nhdsWithin] with z hz
    have hz : 0 < z := hz
    have h2 : 0 < z / 2 := by positivity
    have e1 : kv (mu - 1) z = 1 / 2 * (z / 2) ^ (mu - 1) * kvInt (1 - mu) z := by
      rw [← kv_neg _ hz, neg_sub, kv_eq, neg_sub]
    have e2 : kv mu z = 1 / 2 * (z / 2) ^ (-|mu|) * kvInt |mu| z := by rw [← kv_abs _ hz, kv_eq]
    have r1 : (z / 2) ^ (-mu) * (z / 2) ^ (mu - 1) = 1 / (z / 2) := by
      rw [← Real.rpow_add h2, show -mu + (mu - 1) = -1 by ring, Real.rpow_neg_one, one_div]
    have r2 : (z / 2) ^ (2 - mu - |mu|) = (z / 2) * ((z / 2) ^ (-(mu - 1)) * (z / 2) ^ (-|mu|)) := by
      rw [← Real.rpow_add h2, mul_comm, ← Real.rpow_add_one h2.ne']
      ring_nf
    rw [e1, e2, uFun, uFun, r2]
    have hr1 : z * ((z / 2) ^ (-mu) * (z / 2) ^ (mu - 1)) = 2 := by rw [r1]; field_simp
    linear_combination (-1 / 2 * gFun mu (z ^ 2 / 4) * kvInt (1 - mu) z) * hr1

/-- The Wronskian of `I_{-μ}` and `I_μ`. -/
theorem wronskian_u {mu : ℝ} (h : mu < 1) (h' : -1 < mu) {z : ℝ} (hz : 0 < z) :
    z * (uFun mu z * uFun (-mu) z * (2 * mu / z) + uFun mu z * uFun (-mu - 1) z / (1 + mu)
      - uFun (-mu) z * uFun (mu - 1) z / (1 - mu)) = 2 * mu := by
  refine const_of_deriv (F := fun z => z * (uFun mu z * uFun (-mu) z * (2 * mu / z)
    + uFun mu z * uFun (-mu - 1) z / (1 + mu) - uFun (-mu) z * uFun (mu - 1) z / (1 - mu))) ?_ ?_ hz
  · intro z hz
    have hm : -mu < 1 := by linarith
    have u1 := uFun_hasDerivAt_down h hz
    have u2 := uFun_hasDerivAt_up h hz
    have v1 := uFun_hasDerivAt_down hm hz
    have v2 := uFun_hasDerivAt_up hm hz
    have h3 : 1 - mu ≠ 0 := by linarith
    have h4 : 1 + mu ≠ 0 := by linarith
    have h5 : 1 - -mu ≠ 0 := by linarith
    have hi : HasDerivAt (fun z : ℝ => 2 * mu / z) (-(2 * mu) / z ^ 2) z := by
      have := (hasDerivAt_inv hz.ne').const_mul (2 * mu)
      refine (this.congr_deriv (by ring))
    refine ((hasDerivAt_id' z).mul ((((u1.mul v1).mul hi).add ((u1.mul v2).div_const (1 + mu))).sub
      ((v1.mul u2).div_const (1 - mu)))).congr_deriv ?_
    simp only [Pi.mul_apply, Pi.add_apply, Pi.sub_apply]
    rw [show 1 - -mu = 1 + mu by ring]
    field_simp
    ring
  · have hy : Tendsto (fun z : ℝ => z ^ 2 / 4) (𝓝[>] 0) (𝓝 0) := by
      have : Continuous fun z : ℝ => z ^ 2 / 4 := by fun_prop
      simpa using (this.tendsto 0).mono_left nhdsWithin_le_nhds
    have g : ∀ {a : ℝ}, a < 1 → Tendsto (fun z : ℝ => gFun a (z ^ 2 / 4)) (𝓝[>] 0) (𝓝 1) := by
      intro a ha
      have := ((gFun_continuous ha).tendsto 0).comp hy
      rwa [gFun_zero] at this
    have g1 := g h
    have g2 := g (show -mu < 1 by linarith)
    have g3 := g (show mu - 1 < 1 by linarith)
    have g4 := g (show -mu - 1 < 1 by linarith)
    have hy2 : Tendsto (fun z : ℝ => z ^ 2 / 2) (𝓝[>] 0) (𝓝 0) := by
      have : Continuous fun z : ℝ => z ^ 2 / 2 := by fun_prop
      simpa using (this.tendsto 0).mono_left nhdsWithin_le_nhds
    have key := (((g1.mul g2).const_mul (2 * mu)).add ((hy2.mul (g1.mul g4)).div_const (1 + mu))).sub
      ((hy2.mul (g2.mul g3)).div_const (1 - mu))
    have e0 : 2 * mu * ((1 : ℝ) * 1) + 0 * (1 * 1) / (1 + mu) - 0 * (1 * 1) / (1 - mu) = 2 * mu := by simp
    rw [e0] at key
    refine key.congr' ?_
    filter_upwards [self_mem_nhdsWithin] with z hz
    have hz : 0 < z := hz
    have h2 : 0 < z / 2 := by positivity
    have r0 : (z / 2) ^ (-mu) * (z / 2) ^ mu = 1 := by rw [← Real.rpow_add h2]; simp
    have e1 : (z / 2) ^ (-(mu - 1)) = (z / 2) ^ (-mu) * (z / 2) := by
      rw [neg_sub, sub_eq_add_neg, add_comm, Real.rpow_add_one h2.ne']
    have e2 : (z / 2) ^ (-(-mu - 1)) = (z / 2) ^ mu * (z / 2) := by
      rw [show -(-mu - 1) = mu + 1 by ring, Real.rpow_add_one h2.ne']
    rw [uFun, uFun, uFun, uFun, e1, e2, neg_neg]
    have h3 : 1 - mu ≠ 0 := by linarith
    have h4 : 1 + mu ≠ 0 := by linarith
    have hz0 := hz.ne'
    have : z * (2 * mu / z) = 2 * mu := by field_simp
    linear_combination (-(2 * mu * gFun mu (z ^ 2 / 4) * gFun (-mu) (z ^ 2 / 4)
      + z ^ 2 / 2 * (gFun mu (z ^ 2 / 4) * gFun (-mu - 1) (z ^ 2 / 4)) / (1 + mu)
      - z ^ 2 / 2 * (gFun (-mu) (z ^ 2 / 4) * gFun (mu - 1) (z ^ 2 / 4)) / (1 - mu))) * r0
      - ((z / 2) ^ (-mu) * (z / 2) ^ mu * gFun mu (z ^ 2 / 4) * gFun (-mu) (z ^ 2 / 4)) * this

/-- `K_ν = π/2 (I_{-ν} - I_ν)/sin(νπ)`, written with the Gamma function. -/
theorem kv_eq_u {nu : ℝ} (h0 : nu ≠ 0) (h : nu < 1) (h' : -1 < nu) {z : ℝ} (hz : 0 < z) :
    kv nu z = (Real.Gamma (1 + nu) * uFun nu z - Real.Gamma (1 - nu) * uFun (-nu) z) / (2 * nu) := by
  have w1 := wronskian_kv h0 h h' hz
  have w2 := wronskian_kv (neg_ne_zero.mpr h0) (by linarith) (by linarith) hz
  have w3 := wronskian_u h h' hz
  rw [sub_neg_eq_add, show -nu - 1 = -(nu + 1) by ring, kv_neg _ hz, kv_neg _ hz, kv_recurrence nu hz] at w2
  rw [show -nu - 1 = -(nu + 1) by ring] at w3
  rw [eq_div_iff (by simpa using h0), ← w3, ← w1, ← w2]
  ring

theorem kvp1_eq_u {nu : ℝ} (h0 : nu ≠ 0) (h : nu < 1) (h' : -1 < nu) {z : ℝ} (hz : 0 < z) :
    kv (nu + 1) z = (Real.Gamma (1 + nu) * (2 * nu / z * uFun nu z - uFun (nu - 1) z / (1 - nu))
      + Real.Gamma (1 - nu) * (uFun (-nu - 1) z / (1 + nu))) / (2 * nu) := by
  have hk := kv_hasDerivAt_up nu hz
  have hu : HasDerivAt (fun z => (Real.Gamma (1 + nu) * uFun nu z - Real.Gamma (1 - nu) * uFun (-nu) z) / (2 * nu))
      _ z := (((uFun_hasDerivAt_down h hz).const_mul (Real.Gamma (1 + nu))).sub
        ((uFun_hasDerivAt_down (show -nu < 1 by linarith) hz).const_mul (Real.Gamma (1 - nu)))).div_const (2 * nu)
  have he : kv nu =ᶠ[𝓝 z] fun z => (Real.Gamma (1 + nu) * uFun nu z - Real.Gamma (1 - nu) * uFun (-nu) z) / (2 * nu) := by
    filter_upwards [lt_mem_nhds hz] with y hy using kv_eq_u h0 h h' hy
  have := hk.unique (hu.congr_of_eventuallyEq he)
  rw [kv_eq_u h0 h h' hz, sub_neg_eq_add] at this
  have h3 : 1 - nu ≠ 0 := by linarith
  have h4 : 1 + nu ≠ 0 := by linarith
  have hz0 := hz.ne'
  field_simp at this ⊢
  linear_combination -this

end JG.BesK
