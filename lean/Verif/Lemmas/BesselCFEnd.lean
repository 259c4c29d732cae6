import Verif.Lemmas.BesselCFTail

/-! # Steed's continued fraction: its loop, and the error of its results -/

namespace JG.BesK

open Real Set Filter Topology JG.Elt

/-! ### The loop -/

theorem steedLoop_iter (tol v z : ℝ) (fuel : ℕ) (k : ℕ) (hk : 1 ≤ fuel) :
    ∃ m, k + 1 ≤ m ∧ m ≤ k + fuel ∧ steedLoop tol fuel (steedIter v z k) = steedIter v z m ∧
      (∀ j, k + 1 ≤ j → j < m → ¬steedStop tol (steedIter v z j)) ∧
      (steedStop tol (steedIter v z m) ∨ m = k + fuel) := by
  induction fuel generalizing k with
  | zero => omega
  | succ fuel ih =>
    simp only [steedLoop]
    rw [← steedIter_succ]
    by_cases hstop : steedStop tol (steedIter v z (k + 1))
    · rw [if_pos hstop]
      exact ⟨k + 1, le_refl _, by omega, rfl, fun j _ _ => by omega, Or.inl hstop⟩
    · rw [if_neg hstop]
      rcases Nat.eq_zero_or_pos fuel with rfl | hf
      · exact ⟨k + 1, le_refl _, by omega, rfl, fun j _ _ => by omega, Or.inr rfl⟩
      · obtain ⟨m, a1, a2, a3, a4, a5⟩ := ih (k + 1) hf
        refine ⟨m, by omega, by omega, a3, fun j b1 b2 => ?_, a5.imp id (fun h => by omega)⟩
        rcases Nat.lt_or_ge j (k + 2) with hj | hj
        · rw [show j = k + 1 by omega]; exact hstop
        · exact a4 j hj b2

theorem steedIter_index (v z : ℝ) (n : ℕ) : (steedIter v z n).index = n + 2 := by
  induction n with
  | zero => simp [steedIter, steedInit]
  | succ n ih =>
    rw [steedIter_succ]
    simp only [steedBody, ih]
    push_cast
    ring

/-- The loop ends by its own rule after at most 999 turns. -/
theorem steedLoop_ends (tol v z : ℝ) : ∃ m, 1 ≤ m ∧ m ≤ 999 ∧ steedLoop tol 1000 (steedInit v z) = steedIter v z m ∧
    steedStop tol (steedIter v z m) := by
  obtain ⟨m, a1, a2, a3, a4, a5⟩ := steedLoop_iter tol v z 1000 0 (by norm_num)
  have hs : steedStop tol (steedIter v z 999) := by
    right
    rw [steedIter_index]
    norm_num
  have hm : m ≤ 999 := by
    by_contra h
    exact a4 999 (by norm_num) (by omega) hs
  exact ⟨m, by omega, hm, a3, a5.resolve_right (by omega)⟩

section
variable {v z : ℝ} (h1 : -(1 / 2) < v) (h2 : v < 1 / 2) (hz : 2 ≤ z)
include h1 h2 hz

/-! ### The last term at the last turn -/

/-- `(171/(n+171))^24`. -/
noncomputable def fN (n : ℕ) : ℝ := (171 / ((n : ℝ) + 171)) ^ 24

omit h1 h2 hz in
theorem fN_pos (n : ℕ) : 0 < fN n := by rw [fN]; positivity

omit h1 h2 hz in
theorem fN_step (n : ℕ) : fN n * (rt n / (rt n + 1)) ≤ fN (n + 1) := by
  have hn : (0 : ℝ) ≤ n := Nat.cast_nonneg n
  have hx := rt_ge n
  have hs := rt_sq n
  have e : fN (n + 1) = fN n * (1 + -(1 / ((n : ℝ) + 172))) ^ 24 := by
    rw [fN, fN, ← mul_pow]
    congr 1
    push_cast
    rw [show (n : ℝ) + 1 + 171 = n + 172 by ring]
    field_simp
    ring
  rw [e]
  refine mul_le_mul_of_nonneg_left ?_ (fN_pos n).le
  have hb := one_add_mul_le_pow (a := -(1 / ((n : ℝ) + 172)))
    (by
      have : 1 / ((n : ℝ) + 172) ≤ 1 := by rw [div_le_one (by linarith)]; linarith
      linarith) 24
  refine le_trans ?_ hb
  have e2 : rt n / (rt n + 1) = 1 - 1 / (rt n + 1) := by field_simp; ring
  rw [e2]
  have : ((24 : ℕ) : ℝ) * (1 / ((n : ℝ) + 172)) ≤ 1 / (rt n + 1) := by
    push_cast
    rw [mul_one_div, div_le_div_iff₀ (by linarith) (by linarith)]
    nlinarith [sq_nonneg (rt n - 12)]
  linarith

theorem tN_fN (n : ℕ) : tN v z n ≤ fN n * yN v z 0 := by
  have hz' : 0 < z := by linarith
  induction n with
  | zero => simp [tN, fN, cN]
  | succ n ih =>
    have y0 := yN_pos h1 h2 hz' 0
    have hx := rt_ge n
    have t0 := tN_pos h1 h2 hz' n
    have g := tN_le h1 h2 hz n
    have k : 1 - 1 / rt n ≤ rt n / (rt n + 1) := by
      rw [sub_le_iff_le_add, ← sub_le_iff_le_add', le_div_iff₀ (by linarith)]
      have : (1 - rt n / (rt n + 1)) * rt n = rt n / (rt n + 1) := by field_simp; ring
      rw [this, div_le_one (by linarith)]
      linarith
    have hr : 0 ≤ rt n / (rt n + 1) := div_nonneg (by linarith) (by linarith)
    calc _ ≤ _ := g
      _ ≤ rt n / (rt n + 1) * tN v z n := mul_le_mul_of_nonneg_right k t0.le
      _ ≤ rt n / (rt n + 1) * (fN n * yN v z 0) := mul_le_mul_of_nonneg_left ih hr
      _ = fN n * (rt n / (rt n + 1)) * yN v z 0 := by ring
      _ ≤ _ := mul_le_mul_of_nonneg_right (fN_step n) y0.le

omit hz in
theorem sQ_pos (hz' : 0 < z) (n : ℕ) : 0 < sQ v z (n + 1) := by
  induction n with
  | zero =>
    rw [sQ_succ]
    have : sQ v z 0 = 0 := by simp [sQ, qN]
    rw [this, zero_add]
    exact mul_pos (cN_pos h1 h2 _) (qN_pos h1 h2 hz' _)
  | succ n ih =>
    rw [sQ_succ]
    have := mul_pos (cN_pos h1 h2 (n + 2)) (qN_pos h1 h2 hz' (n + 1))
    exact add_pos ih this

omit hz in
theorem tN_eq (hz' : 0 < z) (n : ℕ) : tN v z (n + 1) = cN v (n + 1) * qN v z (n + 1) * rho v z (n + 1) := by
  have := (qN_pos h1 h2 hz' n).ne'
  rw [tN, rho]
  field_simp

theorem rest_fN (n : ℕ) : sQ v z (n + 1) * rho v z (n + 1) ≤ (n + 1) * fN (n + 1) * yN v z 0 := by
  have hz' : 0 < z := by linarith
  have y0 := yN_pos h1 h2 hz' 0
  induction n with
  | zero =>
    have : sQ v z 0 = 0 := by simp [sQ, qN]
    rw [sQ_succ, this, zero_add, ← tN_eq h1 h2 hz']
    have := tN_fN h1 h2 hz 1
    simpa using this
  | succ n ih =>
    rw [sQ_succ, add_mul, ← tN_eq h1 h2 hz']
    have t := tN_fN h1 h2 hz (n + 2)
    have r := rho_tail h1 h2 hz n
    have hx := rt_ge (n + 1)
    have r0 := rho_pos h1 h2 hz' n
    have q0 := sQ_pos h1 h2 hz' n
    have k : rho v z (n + 2) ≤ rho v z (n + 1) * (rt (n + 1) / (rt (n + 1) + 1)) := by
      rw [mul_div_assoc', le_div_iff₀ (by linarith)]
      linarith
    have hr : 0 ≤ rt (n + 1) / (rt (n + 1) + 1) := div_nonneg (by linarith) (by linarith)
    have k2 : sQ v z (n + 1) * rho v z (n + 2) ≤ (n + 1) * fN (n + 2) * yN v z 0 := by
      calc _ ≤ sQ v z (n + 1) * (rho v z (n + 1) * (rt (n + 1) / (rt (n + 1) + 1))) := mul_le_mul_of_nonneg_left k q0.le
        _ = sQ v z (n + 1) * rho v z (n + 1) * (rt (n + 1) / (rt (n + 1) + 1)) := by ring
        _ ≤ (n + 1) * fN (n + 1) * yN v z 0 * (rt (n + 1) / (rt (n + 1) + 1)) := mul_le_mul_of_nonneg_right ih hr
        _ = (n + 1) * yN v z 0 * (fN (n + 1) * (rt (n + 1) / (rt (n + 1) + 1))) := by ring
        _ ≤ (n + 1) * yN v z 0 * fN (n + 2) := mul_le_mul_of_nonneg_left (fN_step (n + 1)) (by positivity)
        _ = _ := by ring
    push_cast
    calc _ ≤ (n + 1) * fN (n + 2) * yN v z 0 + fN (n + 2) * yN v z 0 := add_le_add k2 t
      _ = _ := by ring

/-! ### The error -/

/-- The limit of the sum. -/
noncomputable def bigS (v z : ℝ) : ℝ := Gamma (v + 1 / 2) * (2 * z) ^ (-v - 1 / 2) / yN v z 0

/-- The last term. -/
noncomputable def lastT (v z : ℝ) (k : ℕ) : ℝ := (steedIter v z k).q * (steedIter v z k).convergentDifference

omit hz in
theorem lastT_eq (hz' : 0 < z) (k : ℕ) :
    lastT v z k * yN v z 0 = sQ v z (k + 1) * (rho v z (k + 1) - rho v z (k + 2)) := by
  obtain ⟨_, _, _, _, i5, _, _, _, _, i10, _⟩ := steed_closed h1 h2 hz' k
  rw [lastT, mul_assoc, i5, i10]

omit hz in
theorem lastT_pos (hz' : 0 < z) (k : ℕ) : 0 < lastT v z k := by
  have e := lastT_eq h1 h2 hz' k
  have : 0 < lastT v z k * yN v z 0 := by
    rw [e]
    exact mul_pos (sQ_pos h1 h2 hz' k) (by linarith [rho_anti h1 h2 hz' k])
  exact (mul_pos_iff_of_pos_right (yN_pos h1 h2 hz' 0)).mp this

omit hz in
theorem sum_ge_one (hz' : 0 < z) (k : ℕ) : 1 ≤ (steedIter v z k).hypergeometricSum := by
  obtain ⟨_, _, _, _, _, _, _, _, _, _, i11⟩ := steed_closed h1 h2 hz' k
  have y0 := yN_pos h1 h2 hz' 0
  rw [sQ, Finset.sum_range_succ', Finset.sum_range_succ' _ (k + 1)] at i11
  have e : ∑ m ∈ Finset.range (k + 1), cN v (m + 1) * yN v z (m + 1) + cN v 0 * yN v z 0
      - (∑ m ∈ Finset.range (k + 1), cN v (m + 1) * qN v z (m + 1) + cN v 0 * qN v z 0) * rho v z (k + 2)
      = yN v z 0 + ∑ m ∈ Finset.range (k + 1), cN v (m + 1) * qN v z (m + 1) * (rho v z (m + 1) - rho v z (k + 2)) := by
    have c0 : cN v 0 = 1 := by simp [cN]
    have q0 : qN v z 0 = 0 := rfl
    have : ∀ m, cN v (m + 1) * yN v z (m + 1) = cN v (m + 1) * qN v z (m + 1) * rho v z (m + 1) :=
      fun m => tN_eq h1 h2 hz' m
    simp only [this, c0, q0, mul_sub, Finset.sum_sub_distrib, ← Finset.sum_mul]
    ring
  rw [e] at i11
  have hs : 0 ≤ ∑ m ∈ Finset.range (k + 1), cN v (m + 1) * qN v z (m + 1) * (rho v z (m + 1) - rho v z (k + 2)) := by
    refine Finset.sum_nonneg fun m hm => ?_
    have hm' := Finset.mem_range.mp hm
    have r := rho_le h1 h2 hz' (m := m) (n := k + 1) (by omega)
    exact mul_nonneg (mul_pos (cN_pos h1 h2 _) (qN_pos h1 h2 hz' _)).le (by linarith)
  have : 1 * yN v z 0 ≤ (steedIter v z k).hypergeometricSum * yN v z 0 := by rw [i11]; linarith
  exact le_of_mul_le_mul_right this y0

/-- What the sum leaves out. -/
theorem sum_error (k : ℕ) : 0 ≤ bigS v z - (steedIter v z k).hypergeometricSum ∧
    bigS v z - (steedIter v z k).hypergeometricSum ≤ (rt (k + 1) ^ 2 + 2 * rt (k + 1)) * lastT v z k := by
  have hz' : 0 < z := by linarith
  obtain ⟨_, _, _, _, _, _, _, _, _, _, i11⟩ := steed_closed h1 h2 hz' k
  have y0 := yN_pos h1 h2 hz' 0
  have hs := cy_hasSum h1 h2 hz'
  have hx := rt_ge (k + 1)
  have tail := tN_tail h1 h2 hz (k + 1)
  have hsp := hs.summable.sum_add_tsum_nat_add (k + 2)
  rw [hs.tsum_eq] at hsp
  have eS : bigS v z * yN v z 0 = Gamma (v + 1 / 2) * (2 * z) ^ (-v - 1 / 2) := by rw [bigS]; field_simp
  obtain ⟨R, hR⟩ : ∃ R, R = ∑' m, tN v z (m + (k + 1 + 1)) := ⟨_, rfl⟩
  have hR' : ∑' m, cN v (m + (k + 2)) * yN v z (m + (k + 2)) = R := hR.symm
  rw [hR'] at hsp
  rw [← hR] at tail
  have hR0 : 0 ≤ R := by rw [hR]; exact tsum_nonneg fun m => (tN_pos h1 h2 hz' _).le
  have q0 := sQ_pos h1 h2 hz' k
  have r2 := rho_pos h1 h2 hz' (k + 1)
  have L := lastT_eq h1 h2 hz' k
  have ed : (bigS v z - (steedIter v z k).hypergeometricSum) * yN v z 0 = R + sQ v z (k + 1) * rho v z (k + 2) := by
    rw [sub_mul, eS, i11, ← hsp]; ring
  constructor
  · have : 0 ≤ (bigS v z - (steedIter v z k).hypergeometricSum) * yN v z 0 := by
      rw [ed]
      have := mul_pos q0 r2
      linarith
    exact nonneg_of_mul_nonneg_left this y0
  · have rt1 := rho_tail h1 h2 hz k
    have g1 : sQ v z (k + 1) * rho v z (k + 2) ≤ rt (k + 1) * (lastT v z k * yN v z 0) := by
      rw [L]
      have := mul_le_mul_of_nonneg_left rt1 q0.le
      linarith
    have g2 : sQ v z (k + 1) * rho v z (k + 1) ≤ (1 + rt (k + 1)) * (lastT v z k * yN v z 0) := by
      have : sQ v z (k + 1) * rho v z (k + 1) = lastT v z k * yN v z 0 + sQ v z (k + 1) * rho v z (k + 2) := by
        rw [L]; ring
      rw [this]
      linarith
    have g3 : tN v z (k + 1) ≤ sQ v z (k + 1) * rho v z (k + 1) := by
      rw [tN_eq h1 h2 hz', sQ_succ]
      refine mul_le_mul_of_nonneg_right ?_ (rho_pos h1 h2 hz' k).le
      have : 0 ≤ sQ v z k := by
        rcases Nat.eq_zero_or_pos k with rfl | hk
        · simp [sQ, qN]
        · obtain ⟨j, rfl⟩ : ∃ j, k = j + 1 := ⟨k - 1, by omega⟩
          exact (sQ_pos h1 h2 hz' j).le
      linarith
    have g4 := mul_le_mul_of_nonneg_left (g3.trans g2) (by linarith : 0 ≤ rt (k + 1))
    have : (bigS v z - (steedIter v z k).hypergeometricSum) * yN v z 0
        ≤ (rt (k + 1) ^ 2 + 2 * rt (k + 1)) * lastT v z k * yN v z 0 := by
      rw [ed]
      linarith
    exact le_of_mul_le_mul_right this y0

/-- At the end of the loop the last term is below the tolerance. -/
theorem last_small {tol : ℝ} (ht : (1 / 2) ^ 53 ≤ tol) {k : ℕ} (hk : k ≤ 999)
    (hs : steedStop tol (steedIter v z k)) : lastT v z k ≤ tol * (steedIter v z k).hypergeometricSum := by
  have hz' : 0 < z := by linarith
  have s1 := sum_ge_one h1 h2 hz' k
  have l0 := lastT_pos h1 h2 hz' k
  have ht0 : 0 < tol := lt_of_lt_of_le (by positivity) ht
  rcases hs with hs | hs
  · have e : (steedIter v z k).q * (steedIter v z k).convergentDifference = lastT v z k := rfl
    rw [e, abs_of_pos l0, abs_of_pos (by linarith)] at hs
    linarith
  · rw [steedIter_index] at hs
    have hk' : k = 999 := by
      have : (998 : ℝ) < k := by linarith
      have : 998 < k := by exact_mod_cast this
      omega
    have y0 := yN_pos h1 h2 hz' 0
    have L := lastT_eq h1 h2 hz' k
    have r := rest_fN h1 h2 hz k
    have q0 := sQ_pos h1 h2 hz' k
    have r2 := rho_pos h1 h2 hz' (k + 1)
    have hb : lastT v z k * yN v z 0 ≤ ((k : ℝ) + 1) * fN (k + 1) * yN v z 0 := by
      refine le_trans ?_ r
      rw [L, mul_sub]
      have := mul_pos q0 r2
      linarith
    have hb2 := le_of_mul_le_mul_right hb y0
    have hf : ((k : ℝ) + 1) * fN (k + 1) ≤ (1 / 2) ^ 53 := by
      rw [hk', fN]
      norm_num
    have : tol * 1 ≤ tol * (steedIter v z k).hypergeometricSum := mul_le_mul_of_nonneg_left s1 ht0.le
    linarith

/-! ### The exact values -/

omit hz in
theorem kv_bigS (hz' : 0 < z) : kv v z * bigS v z = kv (1 / 2) z := by
  have hG : 0 < Gamma (v + 1 / 2) := Gamma_pos_of_pos (by linarith)
  have w0 := (wI_pos h1 h2 hz' 0).ne'
  have e0 : yN v z 0 = wI v z 0 := by simp [yN, pN]
  rw [kv_eq_w h1 h2 hz', kv_half hz', bigS, e0, show (-v - 1 / 2 : ℝ) = -v + -(1 / 2) by ring,
    rpow_add (by linarith : 0 < 2 * z), rpow_neg (by linarith : 0 ≤ 2 * z) v]
  have p := (rpow_pos_of_pos (by linarith : 0 < 2 * z) v).ne'
  obtain ⟨P, hP⟩ : ∃ P, P = (2 * z) ^ (-(1 / 2) : ℝ) := ⟨_, rfl⟩
  obtain ⟨Q, hQ⟩ : ∃ P, P = (2 * z) ^ v := ⟨_, rfl⟩
  obtain ⟨g, hg⟩ : ∃ g, g = Gamma (v + 1 / 2) := ⟨_, rfl⟩
  rw [← hP, ← hQ, ← hg]
  rw [← hQ] at p
  rw [← hg] at hG
  field_simp

omit hz in
theorem kv_ratio (hz' : 0 < z) : z * kv (v + 1) z = kv v z * (v + 1 / 2 + z - aN v 1 * (yN v z 1 / yN v z 0)) := by
  rw [kvp1_eq_w h1 h2 hz']
  congr 2
  have e0 : yN v z 0 = wI v z 0 := by simp [yN, pN]
  have e1 : yN v z 1 = wI v z 1 / (v + 1 / 2) := by
    rw [yN, pN_succ]
    simp [pN]
  have hv : v + 1 / 2 ≠ 0 := by linarith
  rw [e0, e1, aN]
  have : ((1 : ℕ) : ℝ) = 1 := by norm_num
  rw [this]
  have hw := (wI_pos h1 h2 hz' 0).ne'
  rw [show ((1 : ℝ) - 1 / 2) ^ 2 - v ^ 2 = (1 / 2 - v) * (v + 1 / 2) by ring]
  obtain ⟨u, hu⟩ : ∃ u, u = v + 1 / 2 := ⟨_, rfl⟩
  rw [← hu] at hv ⊢
  field_simp

theorem bigS_le : bigS v z ≤ 2 := by
  have hz' : 0 < z := by linarith
  have e := kv_bigS h1 h2 hz'
  have k := (kv_near_half h1 h2 hz').1
  have hp := kv_pos v hz'
  have hh := kv_pos (1 / 2) hz'
  have : (1 / 2 : ℝ) ≤ 1 - 1 / z := by
    have : 1 / z ≤ 1 / 2 := one_div_le_one_div_of_le (by norm_num) hz
    linarith
  have k2 : 1 / 2 * kv (1 / 2) z ≤ kv v z := (mul_le_mul_of_nonneg_right this hh.le).trans k
  have : kv v z * bigS v z ≤ kv v z * 2 := by rw [e]; linarith
  exact le_of_mul_le_mul_left this hp

omit h1 h2 hz in
theorem steedOut_eq (hz' : 0 < z) {s : SteedState} (hS : 0 < s.hypergeometricSum)
    (hG : 0 < v + 1 / 2 + z + (v * v - 0.25) * s.hypergeometricRatio) :
    steedOut v z s = (kv (1 / 2) z * exp z / s.hypergeometricSum,
      kv (1 / 2) z * exp z / s.hypergeometricSum * ((v + 1 / 2 + z + (v * v - 0.25) * s.hypergeometricRatio) / z)) := by
  have hz2 : 0 < 2 * z := by linarith
  have e1 : exp (0.5 * Real.log (π / (2 * z))) = kv (1 / 2) z * exp z := by
    rw [kv_half hz', mul_assoc, ← exp_add, neg_add_cancel, exp_zero, mul_one, rpow_neg hz2.le, ← sqrt_eq_rpow,
      ← div_eq_mul_inv, ← sqrt_div pi_pos.le, sqrt_eq_rpow, rpow_def_of_pos (by positivity)]
    norm_num
    ring
  have e2 : exp (0.5 * Real.log (π / (2 * z)) - Real.log s.hypergeometricSum) = kv (1 / 2) z * exp z / s.hypergeometricSum := by
    rw [exp_sub, exp_log hS, e1]
  have hG2 : 0 < 1 + 2 * (v + z + (v * v - 0.25) * s.hypergeometricRatio) := by linarith
  have e3 : exp (0.5 * Real.log (π / (2 * z)) - Real.log s.hypergeometricSum
      + Real.log (1 + 2 * (v + z + (v * v - 0.25) * s.hypergeometricRatio)) - Real.log z - Real.log 2)
      = kv (1 / 2) z * exp z / s.hypergeometricSum * (1 + 2 * (v + z + (v * v - 0.25) * s.hypergeometricRatio)) / z / 2 := by
    rw [exp_sub, exp_sub, exp_add, e2, exp_log hG2, exp_log hz', exp_log (by norm_num : (0 : ℝ) < 2)]
  simp only [steedOut]
  rw [e2, e3]
  congr 1
  rw [div_div, mul_div_assoc]
  congr 1
  rw [div_eq_div_iff (by positivity) (by positivity)]
  ring

omit h1 h2 hz in
theorem out_arith {k1 k2 E T S G d al be tol' : ℝ} (kp : 0 < k1) (kp2 : 0 < k2) (hE : 0 < E) (hz' : 0 < z) (hS : 0 < S)
    (hG : 0 < G) (hd : 0 ≤ d) (d0 : 0 ≤ T - S) (dS : T - S ≤ al * S) (hd2 : d ≤ be * G) (hal : 0 ≤ al)
    (ek : k2 = k1 * G / z) (ht : al + be + al * be = tol') :
    |k1 * T * E / S - k1 * E| ≤ al * (k1 * E) ∧ |k1 * T * E / S * ((G + d) / z) - k2 * E| ≤ tol' * (k2 * E) := by
  obtain ⟨a, ha⟩ : ∃ a, a = T / S - 1 := ⟨_, rfl⟩
  obtain ⟨b, hb⟩ : ∃ a, a = d / G := ⟨_, rfl⟩
  have a1 : 0 ≤ a := by rw [ha, sub_nonneg, le_div_iff₀ hS]; linarith
  have a2 : a ≤ al := by rw [ha, sub_le_iff_le_add, div_le_iff₀ hS]; linarith
  have b1 : 0 ≤ b := by rw [hb]; exact div_nonneg hd hG.le
  have b2 : b ≤ be := by rw [hb, div_le_iff₀ hG]; exact hd2
  have eT : T = S * (1 + a) := by rw [ha]; field_simp; ring
  have ed : d = G * b := by rw [hb]; field_simp
  have p1 := mul_pos kp hE
  have p2 := mul_pos kp2 hE
  constructor
  · have e : k1 * T * E / S - k1 * E = a * (k1 * E) := by rw [eT]; field_simp; ring
    rw [e, abs_of_nonneg (mul_nonneg a1 p1.le)]
    exact mul_le_mul_of_nonneg_right a2 p1.le
  · have e : k1 * T * E / S * ((G + d) / z) - k2 * E = (a + b + a * b) * (k2 * E) := by
      rw [eT, ed, ek]; field_simp; ring
    have c0 := mul_nonneg a1 b1
    rw [e, abs_of_nonneg (mul_nonneg (by linarith) p2.le)]
    refine mul_le_mul_of_nonneg_right ?_ p2.le
    have := mul_le_mul a2 b2 b1 hal
    linarith

/-- The results after `k` turns. -/
theorem out_error (k : ℕ) {tol : ℝ} (ht0 : 0 < tol) (hL : lastT v z k ≤ tol * (steedIter v z k).hypergeometricSum) :
    |(steedOut v z (steedIter v z k)).1 - kv v z * exp z|
      ≤ (rt (k + 1) ^ 2 + 2 * rt (k + 1)) * tol * (kv v z * exp z) ∧
    |(steedOut v z (steedIter v z k)).2 - kv (v + 1) z * exp z|
      ≤ ((rt (k + 1) ^ 2 + 3 * rt (k + 1)) * tol + (rt (k + 1) ^ 2 + 2 * rt (k + 1)) * rt (k + 1) * tol ^ 2)
        * (kv (v + 1) z * exp z) := by
  have hz' : 0 < z := by linarith
  have hx := rt_ge (k + 1)
  obtain ⟨x, hxd⟩ : ∃ x, rt (k + 1) = x := ⟨_, rfl⟩
  rw [hxd] at hx ⊢
  have hxx : 0 ≤ x ^ 2 + 2 * x := by nlinarith
  have s1 := sum_ge_one h1 h2 hz' k
  have y0 := yN_pos h1 h2 hz' 0
  obtain ⟨d0, d1⟩ := sum_error h1 h2 hz k
  obtain ⟨_, _, _, _, _, i6, _⟩ := steed_closed h1 h2 hz' k
  have L0 := lastT_pos h1 h2 hz' k
  have eK := kv_bigS h1 h2 hz'
  have eR := kv_ratio h1 h2 hz'
  have hS2 := bigS_le h1 h2 hz
  have kp := kv_pos v hz'
  have kp1 := kv_pos (v + 1) hz'
  have hmono : kv v z ≤ kv (v + 1) z := kv_mono (by
    rw [abs_of_pos (by linarith : 0 < v + 1), abs_le]; constructor <;> linarith) hz'
  have eh : (steedIter v z k).hypergeometricRatio = (yN v z 1 - rho v z (k + 2)) / yN v z 0 := by
    have e1 : rho v z 1 = yN v z 1 := by simp [rho, qN]
    rw [eq_div_iff y0.ne', i6, e1]
  have eA : v * v - 0.25 = -aN v 1 := by rw [aN]; norm_num; ring
  -- the factor of the second result
  obtain ⟨G, hG⟩ : ∃ G, G = v + 1 / 2 + z - aN v 1 * (yN v z 1 / yN v z 0) := ⟨_, rfl⟩
  obtain ⟨d, hd⟩ : ∃ d, d = aN v 1 * (rho v z (k + 2) / yN v z 0) := ⟨_, rfl⟩
  have eG : v + 1 / 2 + z + (v * v - 0.25) * (steedIter v z k).hypergeometricRatio = G + d := by
    rw [eA, eh, hG, hd, sub_div]; ring
  have hd0 : 0 ≤ d := by
    rw [hd]
    exact mul_nonneg (aN_pos h1 h2 0).le (div_nonneg (rho_pos h1 h2 hz' (k + 1)).le y0.le)
  rw [← hG] at eR
  have hGz : z ≤ G := by
    have : kv v z * z ≤ kv v z * G := by
      rw [← eR, mul_comm]
      exact mul_le_mul_of_nonneg_left hmono hz'.le
    exact le_of_mul_le_mul_left this kp
  obtain ⟨S, hS⟩ : ∃ S, S = (steedIter v z k).hypergeometricSum := ⟨_, rfl⟩
  rw [← hS] at s1 d0 d1 hL
  obtain ⟨T, hT⟩ : ∃ S, S = bigS v z := ⟨_, rfl⟩
  rw [← hT] at d0 d1 hS2 eK
  have hq : aN v 1 ≤ sQ v z (k + 1) := by
    have : ∀ n, aN v 1 ≤ sQ v z (n + 1) := by
      intro n
      induction n with
      | zero => rw [sQ_succ]; simp [sQ, qN, cN]
      | succ n ih =>
        rw [sQ_succ]
        have := mul_pos (cN_pos h1 h2 (n + 2)) (qN_pos h1 h2 hz' (n + 1))
        linarith
    exact this k
  have hd1 : d ≤ x * lastT v z k := by
    have rt1 := rho_tail h1 h2 hz k
    rw [hxd] at rt1
    have r2 := rho_pos h1 h2 hz' (k + 1)
    have q0 := sQ_pos h1 h2 hz' k
    have LL := lastT_eq h1 h2 hz' k
    have : d * yN v z 0 ≤ x * lastT v z k * yN v z 0 := by
      have e : d * yN v z 0 = aN v 1 * rho v z (k + 2) := by rw [hd]; field_simp
      rw [e, mul_assoc x, LL]
      calc _ ≤ sQ v z (k + 1) * rho v z (k + 2) := mul_le_mul_of_nonneg_right hq r2.le
        _ ≤ sQ v z (k + 1) * (x * (rho v z (k + 1) - rho v z (k + 2))) := mul_le_mul_of_nonneg_left rt1 q0.le
        _ = _ := by ring
    exact le_of_mul_le_mul_right this y0
  have hd2 : d ≤ x * tol * G := by
    have a1 : lastT v z k ≤ tol * 2 := hL.trans (mul_le_mul_of_nonneg_left (by linarith) ht0.le)
    have a2 : x * lastT v z k ≤ x * (tol * 2) := mul_le_mul_of_nonneg_left a1 (by linarith)
    have a3 : x * tol * 2 ≤ x * tol * G := mul_le_mul_of_nonneg_left (by linarith) (by positivity)
    linarith
  have hGp : 0 < G := by linarith
  have hSp : 0 < S := by linarith
  rw [steedOut_eq hz' (hS ▸ hSp) (by rw [eG]; linarith), ← hS, eG, ← eK]
  obtain ⟨al, hal⟩ : ∃ al, al = (x ^ 2 + 2 * x) * tol := ⟨_, rfl⟩
  have hal0 : 0 ≤ al := by rw [hal]; exact mul_nonneg hxx ht0.le
  rw [hxd] at d1
  have dS : T - S ≤ al * S := by
    refine d1.trans ?_
    rw [hal, mul_assoc]
    exact mul_le_mul_of_nonneg_left hL hxx
  have ek : kv (v + 1) z = kv v z * G / z := by rw [eq_div_iff hz'.ne', mul_comm]; exact eR
  have fin := out_arith (be := x * tol) kp kp1 (exp_pos z) hz' hSp hGp hd0 d0 dS hd2 hal0 ek rfl
  rw [hal] at fin
  refine ⟨fin.1, fin.2.trans (le_of_eq ?_)⟩
  congr 1
  ring

theorem cf_error {tol : ℝ} (ht : (1 / 2) ^ 53 ≤ tol) (ht2 : tol ≤ (1 / 2) ^ 20) :
    |(continuedFractionKve tol v z).1 - kv v z * exp z| ≤ 1100 * tol * (kv v z * exp z) ∧
    |(continuedFractionKve tol v z).2 - kv (v + 1) z * exp z| ≤ 1100 * tol * (kv (v + 1) z * exp z) := by
  have hz' : 0 < z := by linarith
  obtain ⟨k, _, b2, b3, b4⟩ := steedLoop_ends tol v z
  have ht0 : 0 < tol := lt_of_lt_of_le (by positivity) ht
  have hL := last_small h1 h2 hz ht b2 b4
  obtain ⟨c1, c2⟩ := out_error h1 h2 hz k ht0 hL
  rw [continuedFractionKve, b3]
  have hx := rt_ge (k + 1)
  have hs := rt_sq (k + 1)
  obtain ⟨x, hxd⟩ : ∃ x, x = rt (k + 1) := ⟨_, rfl⟩
  rw [← hxd] at hx hs c1 c2
  have hk : (k : ℝ) ≤ 999 := by exact_mod_cast b2
  have hx2 : x ^ 2 ≤ 1004 := by rw [hs]; push_cast; linarith
  have hx1 : x ≤ 31.7 := by
    by_contra h
    push Not at h
    nlinarith
  have p1 : x ^ 2 + 2 * x ≤ 1068 := by linarith
  have p2 : (x ^ 2 + 2 * x) * x ≤ 1068 * 31.7 := mul_le_mul p1 hx1 (by linarith) (by norm_num)
  have k1 : 0 < kv v z * exp z := mul_pos (kv_pos v hz') (exp_pos z)
  have k2 : 0 < kv (v + 1) z * exp z := mul_pos (kv_pos (v + 1) hz') (exp_pos z)
  constructor
  · refine c1.trans (mul_le_mul_of_nonneg_right ?_ k1.le)
    exact mul_le_mul_of_nonneg_right (by linarith) ht0.le
  · refine c2.trans (mul_le_mul_of_nonneg_right ?_ k2.le)
    have q1 : (x ^ 2 + 2 * x) * x * tol ^ 2 ≤ 1068 * 31.7 * tol ^ 2 := mul_le_mul_of_nonneg_right p2 (by positivity)
    have q2 : 1068 * 31.7 * tol ^ 2 ≤ 0.5 * tol := by
      have : 1068 * 31.7 * tol ≤ 0.5 := by
        have : (1068 * 31.7 : ℝ) * tol ≤ 1068 * 31.7 * (1 / 2) ^ 20 := mul_le_mul_of_nonneg_left ht2 (by norm_num)
        refine this.trans (by norm_num)
      nlinarith
    have q3 : (x ^ 2 + 3 * x) * tol ≤ 1099.2 * tol := mul_le_mul_of_nonneg_right (by linarith) ht0.le
    linarith

end

/-! ### Order one half -/

theorem steed_half {v : ℝ} (z : ℝ) (hv : v * v = 0.25) (n : ℕ) :
    (steedIter v z n).c = 0 ∧ (steedIter v z n).q = 0 ∧ (steedIter v z n).hypergeometricSum = 1 := by
  induction n with
  | zero => simp [steedIter, steedInit, hv]
  | succ n ih =>
    obtain ⟨a, b, c⟩ := ih
    rw [steedIter_succ]
    simp [steedBody, a, b, c]

theorem half_out {v z : ℝ} (hz : 0 < z) (hv : v = 1 / 2 ∨ v = -(1 / 2)) (n : ℕ) :
    steedOut v z (steedIter v z n) = (kv v z * exp z, kv (v + 1) z * exp z) := by
  have hv2 : v * v = 0.25 := by rcases hv with rfl | rfl <;> norm_num
  obtain ⟨_, _, c⟩ := steed_half z hv2 n
  have hG : v + 1 / 2 + z + (v * v - 0.25) * (steedIter v z n).hypergeometricRatio = v + 1 / 2 + z := by rw [hv2]; ring
  have hp : 0 < v + 1 / 2 + z := by rcases hv with rfl | rfl <;> linarith
  rw [steedOut_eq hz (by rw [c]; norm_num) (by rw [hG]; exact hp), c, hG]
  rcases hv with rfl | rfl
  · have hr := kv_recurrence (1 / 2) hz
    rw [show (1 / 2 : ℝ) - 1 = -(1 / 2) by norm_num, kv_neg _ hz] at hr
    rw [hr, div_one]
    congr 1
    field_simp
    ring
  · rw [kv_neg _ hz, show -(1 / 2 : ℝ) + 1 = 1 / 2 by norm_num, div_one]
    congr 1
    field_simp
    ring

/-- Convergence of the results, for every positive argument. -/
theorem out_tendsto {v z : ℝ} (hv : |v| ≤ 1 / 2) (hz : 0 < z) :
    Tendsto (fun n => steedOut v z (steedIter v z n)) atTop (𝓝 (kv v z * exp z, kv (v + 1) z * exp z)) := by
  rw [abs_le] at hv
  by_cases hh : v = 1 / 2 ∨ v = -(1 / 2)
  · simp only [half_out hz hh]
    exact tendsto_const_nhds
  · push Not at hh
    have h1 : -(1 / 2) < v := lt_of_le_of_ne hv.1 (Ne.symm hh.2)
    have h2 : v < 1 / 2 := lt_of_le_of_ne hv.2 hh.1
    obtain ⟨t1, t2⟩ := steed_tendsto h1 h2 hz
    have eK := kv_bigS h1 h2 hz
    have eR := kv_ratio h1 h2 hz
    have kp := kv_pos v hz
    have kp1 := kv_pos (v + 1) hz
    have eA : v * v - 0.25 = -aN v 1 := by rw [aN]; norm_num; ring
    have t2' : Tendsto (fun n => (steedIter v z n).hypergeometricSum) atTop (𝓝 (bigS v z)) := t2
    have hG : 0 < v + 1 / 2 + z + (v * v - 0.25) * (yN v z 1 / yN v z 0) := by
      have : v + 1 / 2 + z + (v * v - 0.25) * (yN v z 1 / yN v z 0) = z * kv (v + 1) z / kv v z := by
        rw [eq_div_iff kp.ne', eR, eA]; ring
      rw [this]
      positivity
    have t3 : Tendsto (fun n => v + 1 / 2 + z + (v * v - 0.25) * (steedIter v z n).hypergeometricRatio) atTop
        (𝓝 (v + 1 / 2 + z + (v * v - 0.25) * (yN v z 1 / yN v z 0))) := (t1.const_mul _).const_add _
    have hS : 0 < bigS v z := by
      have := kv_pos (1 / 2) hz
      rw [← eK] at this
      exact (mul_pos_iff_of_pos_left kp).mp this
    have f1 : Tendsto (fun n => kv (1 / 2) z * exp z / (steedIter v z n).hypergeometricSum) atTop
        (𝓝 (kv v z * exp z)) := by
      have e : kv v z * exp z = kv (1 / 2) z * exp z / bigS v z := by
        rw [← eK]; field_simp
      rw [e]
      exact (tendsto_const_nhds (x := kv (1 / 2) z * exp z)).div t2' hS.ne'
    have f2 : Tendsto (fun n => kv (1 / 2) z * exp z / (steedIter v z n).hypergeometricSum
        * ((v + 1 / 2 + z + (v * v - 0.25) * (steedIter v z n).hypergeometricRatio) / z)) atTop
        (𝓝 (kv (v + 1) z * exp z)) := by
      have e : kv (v + 1) z * exp z
          = kv v z * exp z * ((v + 1 / 2 + z + (v * v - 0.25) * (yN v z 1 / yN v z 0)) / z) := by
        rw [eA, mul_div_assoc', eq_div_iff hz.ne']
        linear_combination exp z * eR
      rw [e]
      exact f1.mul (t3.div_const z)
    refine (f1.prodMk_nhds f2).congr' ?_
    filter_upwards [t2'.eventually (lt_mem_nhds hS), t3.eventually (lt_mem_nhds hG)] with n a b
    rw [steedOut_eq hz a b]

end JG.BesK
