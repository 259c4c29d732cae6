import Verif.Lemmas.BesselSteed

/-! # Steed's continued fraction: closed form of its loop and convergence -/

namespace JG.BesK

open Real Set Filter Topology JG.Elt

/-- `A_n = (n - 1/2)² - ν²`, minus the partial numerators. -/
noncomputable def aN (v : ℝ) (n : ℕ) : ℝ := ((n : ℝ) - 1 / 2) ^ 2 - v ^ 2

/-- The solution of the recurrence that starts with 0, 1. -/
noncomputable def qN (v z : ℝ) : ℕ → ℝ
  | 0 => 0
  | 1 => 1
  | n + 2 => (2 * (z + ((n : ℝ) + 1)) * qN v z (n + 1) - qN v z n) / aN v (n + 2)

/-- `(ν+1/2)(ν+3/2)⋯(ν+n-1/2)`. -/
noncomputable def pN (v : ℝ) (n : ℕ) : ℝ := ∏ i ∈ Finset.range n, (v + 1 / 2 + i)

/-- The decreasing solution of the recurrence. -/
noncomputable def yN (v z : ℝ) (n : ℕ) : ℝ := wI v z n / pN v n

/-- The coefficients `C_n`. -/
noncomputable def cN (v : ℝ) (n : ℕ) : ℝ := (∏ i ∈ Finset.range n, aN v (i + 1)) / n.factorial

/-- `Q_n`. -/
noncomputable def sQ (v z : ℝ) (n : ℕ) : ℝ := ∑ m ∈ Finset.range (n + 1), cN v m * qN v z m

/-- `ρ_n = y_n / q_n`. -/
noncomputable def rho (v z : ℝ) (n : ℕ) : ℝ := yN v z n / qN v z n

theorem pN_succ (v : ℝ) (n : ℕ) : pN v (n + 1) = pN v n * (v + 1 / 2 + n) := Finset.prod_range_succ ..

theorem cN_succ (v : ℝ) (n : ℕ) : cN v (n + 1) = cN v n * aN v (n + 1) / (n + 1) := by
  rw [cN, cN, Finset.prod_range_succ, Nat.factorial_succ]
  push_cast
  field_simp

theorem sQ_succ (v z : ℝ) (n : ℕ) : sQ v z (n + 1) = sQ v z n + cN v (n + 1) * qN v z (n + 1) := Finset.sum_range_succ ..

section
variable {v z : ℝ} (h1 : -(1 / 2) < v) (h2 : v < 1 / 2) (hz : 0 < z)

section
include h1 h2

theorem aN_pos (n : ℕ) : 0 < aN v (n + 1) := by
  have : (0 : ℝ) ≤ n := Nat.cast_nonneg n
  rw [aN, show ((n + 1 : ℕ) : ℝ) - 1 / 2 = n + 1 / 2 by push_cast; ring]
  have e : ((n : ℝ) + 1 / 2) ^ 2 - v ^ 2 = (n + 1 / 2 - v) * (n + 1 / 2 + v) := by ring
  rw [e]
  exact mul_pos (by linarith) (by linarith)

omit h2 in
theorem pN_pos (n : ℕ) : 0 < pN v n :=
  Finset.prod_pos fun i _ => by have : (0 : ℝ) ≤ i := Nat.cast_nonneg i; linarith

theorem cN_pos (n : ℕ) : 0 < cN v n :=
  div_pos (Finset.prod_pos fun i _ => aN_pos h1 h2 i) (by positivity)

end

include h1 h2 hz

theorem yN_pos (n : ℕ) : 0 < yN v z n := div_pos (wI_pos h1 h2 hz n) (pN_pos h1 n)

theorem yN_rec (n : ℕ) : yN v z n = 2 * (z + ((n : ℝ) + 1)) * yN v z (n + 1) - aN v (n + 2) * yN v z (n + 2) := by
  have hr := wI_rec h1 h2 hz n
  have hp := pN_pos h1 n
  have hn : (0 : ℝ) ≤ n := Nat.cast_nonneg n
  have e1 : v + 1 / 2 + (n : ℝ) ≠ 0 := by linarith
  have e2 : v + 1 / 2 + ((n : ℝ) + 1) ≠ 0 := by linarith
  simp only [yN, pN_succ, aN]
  push_cast
  have ea : ((n : ℝ) + 2 - 1 / 2) ^ 2 - v ^ 2 = (n + 3 / 2 - v) * (v + 1 / 2 + (n + 1)) := by ring
  rw [ea]
  obtain ⟨P, hP⟩ : ∃ P, P = pN v n := ⟨_, rfl⟩
  obtain ⟨a, ha⟩ : ∃ a, a = v + 1 / 2 + (n : ℝ) := ⟨_, rfl⟩
  obtain ⟨b, hb⟩ : ∃ b, b = v + 1 / 2 + ((n : ℝ) + 1) := ⟨_, rfl⟩
  rw [← hP, ← ha, ← hb]
  rw [← hP] at hp
  rw [← ha] at e1
  rw [← hb] at e2
  have hr2 : a * wI v z n - 2 * ((n : ℝ) + 1 + z) * wI v z (n + 1) + ((n : ℝ) + 3 / 2 - v) * wI v z (n + 2) = 0 := by
    rw [ha]
    linear_combination hr
  field_simp
  linear_combination 2 * hr2

omit hz in
theorem qN_rec (n : ℕ) : qN v z n = 2 * (z + ((n : ℝ) + 1)) * qN v z (n + 1) - aN v (n + 2) * qN v z (n + 2) := by
  have := aN_pos h1 h2 (n + 1)
  rw [qN]
  field_simp
  ring

/-- The Casoratian of the two solutions. -/
theorem cas_succ (n : ℕ) : yN v z (n + 1) * qN v z (n + 2) - yN v z (n + 2) * qN v z (n + 1)
    = (yN v z n * qN v z (n + 1) - yN v z (n + 1) * qN v z n) / aN v (n + 2) := by
  have := aN_pos h1 h2 (n + 1)
  rw [eq_div_iff this.ne']
  linear_combination yN v z (n + 1) * qN_rec h1 h2 (z := z) n - qN v z (n + 1) * yN_rec h1 h2 hz n

theorem cas_pos (n : ℕ) : 0 < yN v z n * qN v z (n + 1) - yN v z (n + 1) * qN v z n := by
  induction n with
  | zero => simpa [qN] using yN_pos h1 h2 hz 0
  | succ n ih =>
    rw [cas_succ h1 h2 hz n]
    exact div_pos ih (aN_pos h1 h2 (n + 1))

theorem qN_pos (n : ℕ) : 0 < qN v z (n + 1) := by
  induction n with
  | zero => simp [qN]
  | succ n ih =>
    have := cas_pos h1 h2 hz (n + 1)
    have y1 := yN_pos h1 h2 hz (n + 1)
    have y2 := yN_pos h1 h2 hz (n + 2)
    have : 0 < yN v z (n + 1) * qN v z (n + 2) := by nlinarith
    exact (mul_pos_iff_of_pos_left y1).mp this

theorem rho_pos (n : ℕ) : 0 < rho v z (n + 1) := div_pos (yN_pos h1 h2 hz _) (qN_pos h1 h2 hz _)

theorem rho_anti (n : ℕ) : rho v z (n + 2) < rho v z (n + 1) := by
  rw [rho, rho, div_lt_div_iff₀ (qN_pos h1 h2 hz _) (qN_pos h1 h2 hz _)]
  have := cas_pos h1 h2 hz (n + 1)
  linarith

/-- The factor from one difference of convergents to the next. -/
theorem rho_step (n : ℕ) : rho v z (n + 2) - rho v z (n + 3) = (rho v z (n + 1) - rho v z (n + 2))
    * (qN v z (n + 1) / (aN v (n + 3) * qN v z (n + 3))) := by
  have a := (aN_pos h1 h2 (n + 2)).ne'
  have q1 := (qN_pos h1 h2 hz n).ne'
  have q2 := (qN_pos h1 h2 hz (n + 1)).ne'
  have q3 := (qN_pos h1 h2 hz (n + 2)).ne'
  have c := cas_succ h1 h2 hz (n + 1)
  rw [eq_div_iff a] at c
  simp only [rho]
  field_simp
  linear_combination c

/-! ### The loop -/

/-- The state after `n` turns. -/
noncomputable def steedIter (v z : ℝ) (n : ℕ) : SteedState := steedBody^[n] (steedInit v z)

omit h1 h2 hz in
theorem steedIter_succ (n : ℕ) : steedIter v z (n + 1) = steedBody (steedIter v z n) := by
  rw [steedIter, Function.iterate_succ_apply']
  rfl

theorem steed_closed (n : ℕ) :
    (steedIter v z n).index = n + 2 ∧ (steedIter v z n).partialNumerator = -aN v (n + 1) ∧
    (steedIter v z n).partialDenominator = 2 * (z + (n + 1)) ∧
    (steedIter v z n).denominatorRatio = qN v z (n + 1) / (aN v (n + 2) * qN v z (n + 2)) ∧
    (steedIter v z n).convergentDifference * yN v z 0 = rho v z (n + 1) - rho v z (n + 2) ∧
    (steedIter v z n).hypergeometricRatio * yN v z 0 = rho v z 1 - rho v z (n + 2) ∧
    (steedIter v z n).k0 = qN v z n ∧ (steedIter v z n).k1 = qN v z (n + 1) ∧
    (steedIter v z n).c = cN v (n + 1) ∧ (steedIter v z n).q = sQ v z (n + 1) ∧
    (steedIter v z n).hypergeometricSum * yN v z 0
      = ∑ m ∈ Finset.range (n + 2), cN v m * yN v z m - sQ v z (n + 1) * rho v z (n + 2) := by
  have y0 := yN_pos h1 h2 hz 0
  induction n with
  | zero =>
    have a2 := (aN_pos h1 h2 1).ne'
    have hz1 : z + 1 ≠ 0 := by linarith
    have hA : -(v * v - 0.25) = aN v 1 := by rw [aN]; norm_num; ring
    have hC : cN v 1 = aN v 1 := by simp [cN]
    have hC0 : cN v 0 = 1 := by simp [cN]
    have hQ : sQ v z 1 = aN v 1 := by simp [sQ, Finset.sum_range_succ, qN, hC]
    have hq2 : aN v 2 * qN v z 2 = 2 * (z + 1) := by
      rw [qN]
      field_simp
      simp [qN]
    have hd : 1 / (2 * (z + 1)) * yN v z 0 = rho v z 1 - rho v z 2 := by
      have c := cas_succ h1 h2 hz 0
      rw [eq_div_iff a2] at c
      have q2 := (qN_pos h1 h2 hz 1).ne'
      change (yN v z 1 * qN v z 2 - yN v z 2 * 1) * aN v 2 = yN v z 0 * 1 - yN v z 1 * 0 at c
      rw [← hq2]
      simp only [rho]
      have : qN v z 1 = 1 := rfl
      rw [this]
      field_simp
      linear_combination -c
    refine ⟨by simp [steedIter, steedInit], ?_, ?_, ?_, ?_, ?_, ?_, ?_, ?_, ?_, ?_⟩
    · simp only [steedIter, Function.iterate_zero, id, steedInit, zero_add]
      rw [← hA]; ring
    · simp only [steedIter, Function.iterate_zero, id, steedInit]
      push_cast; ring
    · simp only [steedIter, Function.iterate_zero, id, steedInit, zero_add]
      rw [hq2]; rfl
    · simp only [steedIter, Function.iterate_zero, id, steedInit, zero_add]
      exact hd
    · simp only [steedIter, Function.iterate_zero, id, steedInit, zero_add]
      exact hd
    · rfl
    · rfl
    · simp only [steedIter, Function.iterate_zero, id, steedInit, zero_add]
      rw [hA, hC]
    · simp only [steedIter, Function.iterate_zero, id, steedInit, zero_add]
      rw [hA, hQ]
    · simp only [steedIter, Function.iterate_zero, id, steedInit, zero_add]
      rw [Finset.sum_range_succ, Finset.sum_range_one, hC0, hC, hQ]
      have e : rho v z 1 = yN v z 1 := by simp [rho, qN]
      have e2 : v * v - 0.25 = -aN v 1 := by rw [← hA]; ring
      rw [e2]
      rw [e] at hd
      linear_combination aN v 1 * hd
  | succ n ih =>
    obtain ⟨i1, i2, i3, i4, i5, i6, i7, i8, i9, i10, i11⟩ := ih
    have a2 := (aN_pos h1 h2 (n + 1)).ne'
    have a3 := (aN_pos h1 h2 (n + 2)).ne'
    have q1 := (qN_pos h1 h2 hz n).ne'
    have q2 := (qN_pos h1 h2 hz (n + 1)).ne'
    have q3 := (qN_pos h1 h2 hz (n + 2)).ne'
    have hn : (0 : ℝ) ≤ n := Nat.cast_nonneg n
    have e2 : (steedIter v z n).partialNumerator - 2 * ((steedIter v z n).index - 1) = -aN v (n + 2) := by
      rw [i1, i2, aN, aN]
      push_cast
      ring
    have ek : ((steedIter v z n).k0 - (steedIter v z n).partialDenominator * (steedIter v z n).k1) / -aN v (n + 2)
        = qN v z (n + 2) := by
      rw [i7, i3, i8, qN]
      field_simp
      ring
    have ec : -(steedIter v z n).c * -aN v (n + 2) / (steedIter v z n).index = cN v (n + 2) := by
      rw [i9, i1, cN_succ v (n + 1)]
      push_cast
      field_simp
      ring
    have eq' : (steedIter v z n).q + cN v (n + 2) * qN v z (n + 2) = sQ v z (n + 2) := by
      rw [i10, sQ_succ v z (n + 1)]
    have ed : (steedIter v z n).partialDenominator + 2 = 2 * (z + ((n : ℝ) + 1 + 1)) := by rw [i3]; ring
    have hr := qN_rec h1 h2 (z := z) (n + 1)
    push_cast at hr
    have eD : 1 / (2 * (z + ((n : ℝ) + 1 + 1)) + -aN v (n + 2) * (steedIter v z n).denominatorRatio)
        = qN v z (n + 2) / (aN v (n + 3) * qN v z (n + 3)) := by
      rw [i4]
      have e : 2 * (z + ((n : ℝ) + 1 + 1)) + -aN v (n + 2) * (qN v z (n + 1) / (aN v (n + 2) * qN v z (n + 2)))
          = aN v (n + 3) * qN v z (n + 3) / qN v z (n + 2) := by
        field_simp
        linear_combination (-1 : ℝ) * hr
      rw [e, one_div_div]
    have ef : 2 * (z + ((n : ℝ) + 1 + 1)) * (qN v z (n + 2) / (aN v (n + 3) * qN v z (n + 3))) - 1
        = qN v z (n + 1) / (aN v (n + 3) * qN v z (n + 3)) := by
      field_simp
      linear_combination (-1 : ℝ) * hr
    have eΔ : (steedIter v z n).convergentDifference * (qN v z (n + 1) / (aN v (n + 3) * qN v z (n + 3))) * yN v z 0
        = rho v z (n + 2) - rho v z (n + 3) := by
      rw [rho_step h1 h2 hz n, ← i5]
      ring
    rw [steedIter_succ]
    simp only [steedBody, e2, ek, ec, eq', ed, eD, ef]
    refine ⟨by rw [i1]; push_cast; ring, trivial, by push_cast; ring, trivial, eΔ, ?_, i8, trivial, trivial, trivial, ?_⟩
    · rw [add_mul, eΔ, i6]
      ring
    · rw [add_mul, i11, mul_assoc, eΔ, Finset.sum_range_succ _ (n + 2), sQ_succ v z (n + 1)]
      have e : rho v z (n + 2) * qN v z (n + 2) = yN v z (n + 2) := by rw [rho]; field_simp
      linear_combination cN v (n + 2) * e

/-! ### Convergence -/

omit h2 hz in
theorem cy_eq (n : ℕ) : cN v n * yN v z n = bc (1 / 2 - v) n * wI v z n := by
  have hp := (pN_pos h1 n).ne'
  have e : ∏ i ∈ Finset.range n, aN v (i + 1) = (∏ i ∈ Finset.range n, (1 / 2 - v + i)) * pN v n := by
    rw [pN, ← Finset.prod_mul_distrib]
    refine Finset.prod_congr rfl fun i _ => ?_
    rw [aN]
    push_cast
    ring
  rw [cN, yN, bc, e]
  field_simp

theorem cy_hasSum : HasSum (fun n => cN v n * yN v z n) (Gamma (v + 1 / 2) * (2 * z) ^ (-v - 1 / 2)) := by
  simp only [cy_eq h1]
  exact w_hasSum h1 h2 hz

/-- Lower bound of the increments of `q_n / y_n`. -/
theorem incr_bound : ∃ κ : ℝ, 0 < κ ∧ ∀ n, κ ≤ qN v z (n + 2) / yN v z (n + 2) - qN v z (n + 1) / yN v z (n + 1) := by
  obtain ⟨E, hE⟩ : ∃ E : ℕ → ℝ, E = fun n => (yN v z n * qN v z (n + 1) - yN v z (n + 1) * qN v z n) * pN v n * pN v (n + 1) :=
    ⟨_, rfl⟩
  have hpos : ∀ n, 0 < E n := by
    intro n
    rw [hE]
    exact mul_pos (mul_pos (cas_pos h1 h2 hz n) (pN_pos h1 n)) (pN_pos h1 (n + 1))
  have hstep : ∀ n : ℕ, E (n + 1) * ((n : ℝ) + 3 / 2 - v) = E n * ((n : ℝ) + 1 / 2 + v) := by
    intro n
    have hn : (0 : ℝ) ≤ n := Nat.cast_nonneg n
    have ha := (aN_pos h1 h2 (n + 1)).ne'
    simp only [hE]
    rw [cas_succ h1 h2 hz n, pN_succ v (n + 1)]
    have ea : aN v (n + 2) = ((n : ℝ) + 3 / 2 - v) * (v + 1 / 2 + (n + 1)) := by rw [aN]; push_cast; ring
    have e1 : (n : ℝ) + 3 / 2 - v ≠ 0 := by linarith
    have e2 : v + 1 / 2 + ((n : ℝ) + 1) ≠ 0 := by linarith
    rw [ea, pN_succ v n]
    push_cast
    obtain ⟨s, hs⟩ : ∃ s, s = (n : ℝ) + 3 / 2 - v := ⟨_, rfl⟩
    obtain ⟨t, ht⟩ : ∃ t, t = v + 1 / 2 + ((n : ℝ) + 1) := ⟨_, rfl⟩
    rw [← hs, ← ht]
    rw [← hs] at e1
    rw [← ht] at e2
    field_simp
    ring
  have hgrow : ∀ n : ℕ, 2 * E 1 ≤ E (n + 1) * (((n : ℝ) + 1) * (n + 2)) := by
    intro n
    induction n with
    | zero => simp; linarith
    | succ n ih =>
      have hn : (0 : ℝ) ≤ n := Nat.cast_nonneg n
      have hs := hstep (n + 1)
      push_cast at hs ⊢
      refine ih.trans ?_
      have hd : 0 < (n : ℝ) + 1 + 3 / 2 - v := by linarith
      have e : E (n + 1 + 1) = E (n + 1) * ((n : ℝ) + 1 + 1 / 2 + v) / ((n : ℝ) + 1 + 3 / 2 - v) := by
        rw [eq_div_iff hd.ne']; exact hs
      rw [e, div_mul_eq_mul_div, le_div_iff₀ hd]
      have hp := hpos (n + 1)
      have : ((n : ℝ) + 1) * (n + 2) * ((n : ℝ) + 1 + 3 / 2 - v) ≤ ((n : ℝ) + 1 + 1 / 2 + v) * ((n + 1 + 1) * (n + 1 + 2)) := by
        have : 0 ≤ (1 + 2 * v) * ((n : ℝ) + 2) := mul_nonneg (by linarith) (by linarith)
        nlinarith [mul_nonneg this (by linarith : (0 : ℝ) ≤ n + 2)]
      nlinarith
  obtain ⟨C, hC⟩ : ∃ C, C = wI v z 0 + gI (v + 1 / 2) (v - 1 / 2) z := ⟨_, rfl⟩
  have hC0 : 0 < C := by
    rw [hC]
    exact add_pos (wI_pos h1 h2 hz 0) (gI_pos (by linarith) (by linarith) hz)
  refine ⟨2 * E 1 / C ^ 2, by have := hpos 1; positivity, fun n => ?_⟩
  have hn : (0 : ℝ) ≤ n := Nat.cast_nonneg n
  have w1 := wI_pos h1 h2 hz (n + 1)
  have w2 := wI_pos h1 h2 hz (n + 2)
  have b1 := wI_le h1 h2 hz n
  have b2 := wI_le h1 h2 hz (n + 1)
  rw [← hC] at b1 b2
  push_cast at b2
  have p1 := pN_pos h1 (n + 1)
  have p2 := pN_pos h1 (n + 2)
  have e : qN v z (n + 2) / yN v z (n + 2) - qN v z (n + 1) / yN v z (n + 1)
      = E (n + 1) / (wI v z (n + 1) * wI v z (n + 2)) := by
    simp only [hE, yN]
    field_simp
  rw [e, div_le_div_iff₀ (by positivity) (by positivity)]
  have hw : wI v z (n + 1) * wI v z (n + 2) * (((n : ℝ) + 1) * (n + 2)) ≤ C ^ 2 := by
    rw [le_div_iff₀ (by linarith)] at b1 b2
    calc _ = (wI v z (n + 1) * (n + 1)) * (wI v z (n + 2) * (n + 1 + 1)) := by ring
      _ ≤ C * C := mul_le_mul b1 b2 (by positivity) hC0.le
      _ = _ := by ring
  have hp := hpos (n + 1)
  calc 2 * E 1 * (wI v z (n + 1) * wI v z (n + 2))
      ≤ E (n + 1) * (((n : ℝ) + 1) * (n + 2)) * (wI v z (n + 1) * wI v z (n + 2)) :=
        mul_le_mul_of_nonneg_right (hgrow n) (by positivity)
    _ = E (n + 1) * (wI v z (n + 1) * wI v z (n + 2) * (((n : ℝ) + 1) * (n + 2))) := by ring
    _ ≤ E (n + 1) * C ^ 2 := mul_le_mul_of_nonneg_left hw hp.le

theorem rho_tendsto : Tendsto (fun n => rho v z (n + 1)) atTop (𝓝 0) := by
  obtain ⟨κ, hκ, hi⟩ := incr_bound h1 h2 hz
  have hR : ∀ n : ℕ, κ * n ≤ qN v z (n + 1) / yN v z (n + 1) := by
    intro n
    induction n with
    | zero =>
      have := div_pos (qN_pos h1 h2 hz 0) (yN_pos h1 h2 hz 1)
      simpa using this.le
    | succ n ih =>
      have := hi n
      push_cast
      linarith
  have hl : Tendsto (fun n : ℕ => qN v z (n + 1) / yN v z (n + 1)) atTop atTop := by
    refine tendsto_atTop_mono hR ?_
    exact tendsto_natCast_atTop_atTop.const_mul_atTop hκ
  refine hl.inv_tendsto_atTop.congr fun n => ?_
  simp only [Pi.inv_apply, rho, inv_div]

theorem rho_le {m n : ℕ} (h : m ≤ n) : rho v z (n + 1) ≤ rho v z (m + 1) := by
  induction n, h using Nat.le_induction with
  | base => exact le_rfl
  | succ n _ ih => exact (rho_anti h1 h2 hz n).le.trans ih

/-- The remainder of the sum tends to zero. -/
theorem rest_tendsto : Tendsto (fun n => sQ v z (n + 1) * rho v z (n + 2)) atTop (𝓝 0) := by
  have hs := (cy_hasSum h1 h2 hz).summable
  have hq : ∀ m, 0 ≤ qN v z m := by
    intro m
    rcases m with _ | m
    · exact le_of_eq rfl
    · exact (qN_pos h1 h2 hz m).le
  have key : Tendsto (fun n => ∑' m, if m < n + 2 then cN v m * qN v z m * rho v z (n + 2) else 0) atTop (𝓝 (∑' _ : ℕ, (0 : ℝ))) := by
    refine tendsto_tsum_of_dominated_convergence (bound := fun m => cN v m * yN v z m) hs ?_ ?_
    · intro m
      have hr : Tendsto (fun n => rho v z (n + 2)) atTop (𝓝 0) := (tendsto_add_atTop_iff_nat 1).mpr (rho_tendsto h1 h2 hz)
      have := hr.const_mul (cN v m * qN v z m)
      rw [mul_zero] at this
      refine this.congr' ?_
      filter_upwards [eventually_ge_atTop m] with n hn
      rw [if_pos (by omega)]
    · refine Eventually.of_forall fun n m => ?_
      have c0 := cN_pos h1 h2 m
      have y0 := yN_pos h1 h2 hz m
      split_ifs with h
      · rw [Real.norm_of_nonneg (mul_nonneg (mul_nonneg c0.le (hq m)) (rho_pos h1 h2 hz _).le)]
        rcases m with _ | m
        · have : qN v z 0 = 0 := rfl
          rw [this]
          simp only [mul_zero, zero_mul]
          positivity
        · have hle := rho_le h1 h2 hz (show m ≤ n + 1 by omega)
          have e : cN v (m + 1) * yN v z (m + 1) = cN v (m + 1) * qN v z (m + 1) * rho v z (m + 1) := by
            have := (qN_pos h1 h2 hz m).ne'
            rw [rho]
            field_simp
          rw [e]
          exact mul_le_mul_of_nonneg_left hle (mul_nonneg c0.le (hq _))
      · simp only [norm_zero]
        positivity
  rw [tsum_zero] at key
  refine key.congr fun n => ?_
  rw [sQ, Finset.sum_mul, tsum_eq_sum (s := Finset.range (n + 1 + 1))]
  · refine Finset.sum_congr rfl fun m hm => ?_
    rw [if_pos (by have := Finset.mem_range.mp hm; omega)]
  · intro m hm
    rw [if_neg (by rw [Finset.mem_range] at hm; omega)]

/-- The limits of the two results of the loop. -/
theorem steed_tendsto :
    Tendsto (fun n => (steedIter v z n).hypergeometricRatio) atTop (𝓝 (yN v z 1 / yN v z 0)) ∧
    Tendsto (fun n => (steedIter v z n).hypergeometricSum) atTop
      (𝓝 (Gamma (v + 1 / 2) * (2 * z) ^ (-v - 1 / 2) / yN v z 0)) := by
  have y0 := yN_pos h1 h2 hz 0
  have hr : Tendsto (fun n => rho v z (n + 2)) atTop (𝓝 0) := (tendsto_add_atTop_iff_nat 1).mpr (rho_tendsto h1 h2 hz)
  have e1 : rho v z 1 = yN v z 1 := by simp [rho, qN]
  constructor
  · have := (hr.const_sub (rho v z 1)).div_const (yN v z 0)
    rw [sub_zero, e1] at this
    refine this.congr fun n => ?_
    obtain ⟨_, _, _, _, _, i6, _⟩ := steed_closed h1 h2 hz n
    rw [div_eq_iff y0.ne', i6, e1]
  · have hs : Tendsto (fun n => ∑ m ∈ Finset.range (n + 2), cN v m * yN v z m) atTop
        (𝓝 (Gamma (v + 1 / 2) * (2 * z) ^ (-v - 1 / 2))) :=
      (tendsto_add_atTop_iff_nat 2).mpr (cy_hasSum h1 h2 hz).tendsto_sum_nat
    have := (hs.sub (rest_tendsto h1 h2 hz)).div_const (yN v z 0)
    rw [sub_zero] at this
    refine this.congr fun n => ?_
    obtain ⟨_, _, _, _, _, _, _, _, _, _, i11⟩ := steed_closed h1 h2 hz n
    rw [div_eq_iff y0.ne', i11]

end

end JG.BesK
