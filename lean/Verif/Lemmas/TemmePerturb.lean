import Verif.Lemmas.TemmeTable
import Verif.Lemmas.BesselTail
import Verif.Lemmas.BesselSteed

/-! # Temme's series started from inexact coefficients -/

namespace JG.BesK

open Real JG.Elt

/-- The difference of two states at the start of the loop. -/
noncomputable def stDiff (s t : TemmeState) : TemmeState := ⟨1, s.f - t.f, s.p - t.p, s.q - t.q, 1, s.f - t.f, s.p - t.p⟩

theorem stDiff_start (s t : TemmeState) : Start (stDiff s t) := ⟨rfl, rfl, rfl, rfl⟩

/-- The loop is linear. -/
theorem iter_diff (v z : ℝ) {s t : TemmeState} (hs : Start s) (ht : Start t) (k : ℕ) :
    (temmeIter v z (stDiff s t) k).f = (temmeIter v z s k).f - (temmeIter v z t k).f ∧
    (temmeIter v z (stDiff s t) k).p = (temmeIter v z s k).p - (temmeIter v z t k).p ∧
    (temmeIter v z (stDiff s t) k).q = (temmeIter v z s k).q - (temmeIter v z t k).q := by
  induction k with
  | zero => exact ⟨rfl, rfl, rfl⟩
  | succ k ih =>
    obtain ⟨i1, i2, i3⟩ := ih
    simp only [temmeIter, temmeBody, iter_index v z hs k, iter_index v z ht k, iter_index v z (stDiff_start s t) k, i1, i2, i3]
    refine ⟨?_, ?_, ?_⟩ <;> ring

theorem kvTerm_diff (v z : ℝ) {s t : TemmeState} (hs : Start s) (ht : Start t) (k : ℕ) :
    kvTerm v z (stDiff s t) k = kvTerm v z s k - kvTerm v z t k ∧
    kvp1Term v z (stDiff s t) k = kvp1Term v z s k - kvp1Term v z t k := by
  obtain ⟨i1, i2, _⟩ := iter_diff v z hs ht k
  simp only [kvTerm, kvp1Term, iter_coeff v z hs, iter_coeff v z ht, iter_coeff v z (stDiff_start s t), i1, i2]
  constructor <;> ring

/-- Bound on the growth of a state. -/
noncomputable def growth : ℕ → ℝ
  | 0 => 1
  | 1 => 4
  | _ + 2 => 64 / 15

theorem growth_le (k : ℕ) : growth k ≤ 64 / 15 := by
  match k with
  | 0 => norm_num [growth]
  | 1 => norm_num [growth]
  | _ + 2 => simp [growth]

theorem growth_step {v : ℝ} (hv : |v| ≤ 1 / 2) (k : ℕ) :
    ((k : ℝ) + 3) * growth k ≤ growth (k + 1) * (((k : ℝ) + 1) * ((k : ℝ) + 1) - v * v) ∧
    growth k ≤ growth (k + 1) * ((k : ℝ) + 1 - v) ∧ growth k ≤ growth (k + 1) * ((k : ℝ) + 1 + v) := by
  obtain ⟨hv1, hv2⟩ := abs_le.mp hv
  match k with
  | 0 => simp only [growth, Nat.cast_zero]; refine ⟨?_, ?_, ?_⟩ <;> nlinarith
  | 1 => simp only [growth, Nat.cast_one]; refine ⟨?_, ?_, ?_⟩ <;> nlinarith
  | j + 2 =>
    have h0 : (0 : ℝ) ≤ j := Nat.cast_nonneg j
    simp only [growth, Nat.cast_add, Nat.cast_ofNat]
    refine ⟨?_, ?_, ?_⟩ <;> nlinarith

theorem iter_growth {v : ℝ} (hv : |v| ≤ 1 / 2) (z : ℝ) {s : TemmeState} (hs : Start s) {M : ℝ}
    (hf : |s.f| ≤ M) (hp : |s.p| ≤ M) (hq : |s.q| ≤ M) (k : ℕ) :
    |(temmeIter v z s k).f| ≤ M * growth k ∧ |(temmeIter v z s k).p| ≤ M * growth k ∧
      |(temmeIter v z s k).q| ≤ M * growth k := by
  obtain ⟨hv1, hv2⟩ := abs_le.mp hv
  have hM : 0 ≤ M := (abs_nonneg _).trans hf
  induction k with
  | zero => simpa [temmeIter, growth] using ⟨hf, hp, hq⟩
  | succ k ih =>
    obtain ⟨i1, i2, i3⟩ := ih
    obtain ⟨g1, g2, g3⟩ := growth_step hv k
    have h0 : (0 : ℝ) ≤ k := Nat.cast_nonneg k
    have d1 : 0 < (k : ℝ) + 1 - v := by linarith
    have d2 : 0 < (k : ℝ) + 1 + v := by linarith
    have d3 : 0 < ((k : ℝ) + 1) * ((k : ℝ) + 1) - v * v := by nlinarith
    simp only [temmeIter, temmeBody, iter_index v z hs k]
    refine ⟨?_, ?_, ?_⟩
    · rw [abs_div, abs_of_pos d3, div_le_iff₀ d3]
      have t1 := abs_add_le (((k : ℝ) + 1) * (temmeIter v z s k).f + (temmeIter v z s k).p) (temmeIter v z s k).q
      have t2 := abs_add_le (((k : ℝ) + 1) * (temmeIter v z s k).f) (temmeIter v z s k).p
      rw [abs_mul, abs_of_pos (by linarith : 0 < (k : ℝ) + 1)] at t2
      have t3 := mul_le_mul_of_nonneg_left i1 (by linarith : 0 ≤ (k : ℝ) + 1)
      have t6 := mul_le_mul_of_nonneg_left g1 hM
      linarith
    · rw [abs_div, abs_of_pos d1, div_le_iff₀ d1]
      have t6 := mul_le_mul_of_nonneg_left g2 hM
      linarith
    · rw [abs_div, abs_of_pos d2, div_le_iff₀ d2]
      have t6 := mul_le_mul_of_nonneg_left g3 hM
      linarith

theorem sum_inv_fact (n : ℕ) : ∑ j ∈ Finset.range (n + 2), 1 / (j.factorial : ℝ) + 1 / ((n + 1).factorial : ℝ) ≤ 3 := by
  induction n with
  | zero => simp [Finset.sum_range_succ]; norm_num
  | succ n ih =>
    rw [Finset.sum_range_succ]
    have hf : (0 : ℝ) < ((n + 1).factorial : ℝ) := by positivity
    have e : ((n + 1 + 1).factorial : ℝ) = ((n : ℝ) + 2) * ((n + 1).factorial : ℝ) := by
      rw [Nat.factorial_succ]; push_cast; ring
    have : 1 / ((n + 1 + 1).factorial : ℝ) ≤ 1 / 2 * (1 / ((n + 1).factorial : ℝ)) := by
      rw [e, ← one_div_mul_one_div]
      refine mul_le_mul_of_nonneg_right ?_ (by positivity)
      rw [one_div_le_one_div (by positivity) (by norm_num)]
      have : (0 : ℝ) ≤ n := Nat.cast_nonneg n
      linarith
    linarith

theorem sum_fact (n : ℕ) :
    ∑ j ∈ Finset.range (n + 1), ((j : ℝ) + 2) / ((j + 1).factorial : ℝ) + 3 / ((n + 1).factorial : ℝ) ≤ 5 := by
  induction n with
  | zero => simp; norm_num
  | succ n ih =>
    rw [Finset.sum_range_succ]
    have hf : (0 : ℝ) < ((n + 1).factorial : ℝ) := by positivity
    have h0 : (0 : ℝ) ≤ n := Nat.cast_nonneg n
    have e : ((n + 1 + 1).factorial : ℝ) = ((n : ℝ) + 2) * ((n + 1).factorial : ℝ) := by
      rw [Nat.factorial_succ]; push_cast; ring
    have : (((n + 1 : ℕ) : ℝ) + 2) / ((n + 1 + 1).factorial : ℝ) + 3 / ((n + 1 + 1).factorial : ℝ) ≤
        3 / ((n + 1).factorial : ℝ) := by
      rw [← add_div, e, div_le_div_iff₀ (by positivity) hf]
      push_cast
      nlinarith
    linarith

section
variable {v z : ℝ} (hv : |v| ≤ 1 / 2) (hz : 0 < z) (hz2 : z ≤ 2) {s : TemmeState} (hs : Start s) {M : ℝ}
  (hf : |s.f| ≤ M) (hp : |s.p| ≤ M) (hq : |s.q| ≤ M)
include hv hz hz2 hs hf hp hq

theorem diff_kvSum (k : ℕ) : |(temmeIter v z s (k + 1)).kvSum| ≤ 64 / 5 * M := by
  have hM : 0 ≤ M := (abs_nonneg _).trans hf
  have hy : z ^ 2 / 4 ≤ 1 := by nlinarith
  have hy0 : 0 ≤ z ^ 2 / 4 := by positivity
  rw [iter_kvSum v z hs]
  refine (Finset.abs_sum_le_sum_abs _ _).trans ?_
  have : ∀ j ∈ Finset.range (k + 1 + 1), |kvTerm v z s j| ≤ 64 / 15 * M * (1 / (j.factorial : ℝ)) := by
    intro j _
    obtain ⟨b1, _⟩ := iter_growth hv z hs hf hp hq j
    have hc : 0 ≤ (z ^ 2 / 4) ^ j / (j.factorial : ℝ) := by positivity
    have hc1 : (z ^ 2 / 4) ^ j / (j.factorial : ℝ) ≤ 1 / (j.factorial : ℝ) :=
      div_le_div_of_nonneg_right (pow_le_one₀ hy0 hy) (by positivity)
    rw [kvTerm, iter_coeff v z hs, abs_mul, abs_of_nonneg hc, mul_comm]
    refine mul_le_mul ?_ hc1 hc (by positivity)
    have := mul_le_mul_of_nonneg_left (growth_le j) hM
    linarith
  refine (Finset.sum_le_sum this).trans ?_
  rw [← Finset.mul_sum]
  have h3 := sum_inv_fact k
  have : (0 : ℝ) ≤ 1 / ((k + 1).factorial : ℝ) := by positivity
  calc _ ≤ 64 / 15 * M * 3 := mul_le_mul_of_nonneg_left (by linarith) (by positivity)
    _ = _ := by ring

theorem diff_term (k : ℕ) : |kvTerm v z s (k + 1)| ≤ 4 * M := by
  have hM : 0 ≤ M := (abs_nonneg _).trans hf
  have hy : z ^ 2 / 4 ≤ 1 := by nlinarith
  have hy0 : 0 ≤ z ^ 2 / 4 := by positivity
  obtain ⟨b1, _⟩ := iter_growth hv z hs hf hp hq (k + 1)
  have hc : 0 ≤ (z ^ 2 / 4) ^ (k + 1) / ((k + 1).factorial : ℝ) := by positivity
  have hc1 : (z ^ 2 / 4) ^ (k + 1) / ((k + 1).factorial : ℝ) ≤ 1 / ((k + 1).factorial : ℝ) :=
    div_le_div_of_nonneg_right (pow_le_one₀ hy0 hy) (by positivity)
  rw [kvTerm, iter_coeff v z hs, abs_mul, abs_of_nonneg hc]
  match k with
  | 0 =>
    simp only [growth, zero_add, Nat.factorial_one, Nat.cast_one] at b1 hc hc1 ⊢
    nlinarith [abs_nonneg (temmeIter v z s 1).f]
  | k + 1 =>
    simp only [growth] at b1
    have h2 : (2 : ℝ) ≤ ((k + 1 + 1).factorial : ℝ) := by
      have : (2 : ℕ).factorial ≤ (k + 1 + 1).factorial := Nat.factorial_le (by omega)
      exact_mod_cast this
    have h3 : 1 / ((k + 1 + 1).factorial : ℝ) ≤ 1 / 2 := one_div_le_one_div_of_le (by norm_num) h2
    have := mul_le_mul (hc1.trans h3) b1 (abs_nonneg _) (by norm_num)
    linarith

theorem diff_kvp1Sum (k : ℕ) : |(temmeIter v z s (k + 1)).kvp1Sum| ≤ |s.p| + 64 / 3 * (z ^ 2 / 4 * M) := by
  have hM : 0 ≤ M := (abs_nonneg _).trans hf
  have hy : z ^ 2 / 4 ≤ 1 := by nlinarith
  have hy0 : 0 ≤ z ^ 2 / 4 := by positivity
  rw [iter_kvp1Sum v z hs, Finset.sum_range_succ']
  refine (abs_add_le _ _).trans ?_
  have e0 : kvp1Term v z s 0 = s.p := by simp [kvp1Term, temmeIter, hs.2.1]
  rw [e0, add_comm]
  refine add_le_add_right ((Finset.abs_sum_le_sum_abs _ _).trans ?_) _
  have : ∀ j ∈ Finset.range (k + 1), |kvp1Term v z s (j + 1)| ≤
      64 / 15 * (z ^ 2 / 4 * M) * (((j : ℝ) + 2) / ((j + 1).factorial : ℝ)) := by
    intro j _
    obtain ⟨b1, b2, _⟩ := iter_growth hv z hs hf hp hq (j + 1)
    have hg := mul_le_mul_of_nonneg_left (growth_le (j + 1)) hM
    have hc : 0 ≤ (z ^ 2 / 4) ^ (j + 1) / ((j + 1).factorial : ℝ) := by positivity
    have hc1 : (z ^ 2 / 4) ^ (j + 1) / ((j + 1).factorial : ℝ) ≤ z ^ 2 / 4 / ((j + 1).factorial : ℝ) := by
      refine div_le_div_of_nonneg_right ?_ (by positivity)
      rw [pow_succ]
      exact mul_le_of_le_one_left hy0 (pow_le_one₀ hy0 hy)
    rw [kvp1Term, iter_coeff v z hs, abs_mul, abs_of_nonneg hc]
    have t1 := abs_sub (temmeIter v z s (j + 1)).p (((j + 1 : ℕ) : ℝ) * (temmeIter v z s (j + 1)).f)
    have hj : (0 : ℝ) ≤ ((j + 1 : ℕ) : ℝ) := Nat.cast_nonneg _
    rw [abs_mul, abs_of_nonneg hj] at t1
    have t2 := mul_le_mul_of_nonneg_left (b1.trans hg) hj
    push_cast at t1 t2 ⊢
    have t3 : |(temmeIter v z s (j + 1)).p - ((j : ℝ) + 1) * (temmeIter v z s (j + 1)).f| ≤ 64 / 15 * M * ((j : ℝ) + 2) := by
      linarith
    calc _ ≤ z ^ 2 / 4 / ((j + 1).factorial : ℝ) * (64 / 15 * M * ((j : ℝ) + 2)) :=
          mul_le_mul hc1 t3 (abs_nonneg _) (by positivity)
      _ = _ := by ring
  refine (Finset.sum_le_sum this).trans ?_
  rw [← Finset.mul_sum]
  have h3 := sum_fact k
  have : (0 : ℝ) ≤ 3 / ((k + 1).factorial : ℝ) := by positivity
  calc _ ≤ 64 / 15 * (z ^ 2 / 4 * M) * 5 := mul_le_mul_of_nonneg_left (by linarith) (by positivity)
    _ = _ := by ring

end

/-- A term that is still there after a thousand turns is negligible. -/
theorem term_last {v : ℝ} (hv : |v| ≤ 1 / 2) {z : ℝ} (hz : 0 < z) (hz2 : z ≤ 2) {m : ℕ} (hm : 1000 ≤ m) :
    kvTerm v z (exactInit v z) m ≤ (1 / 2) ^ 230 * kv v z := by
  have hK := kv_pos v hz
  obtain ⟨i, rfl⟩ : ∃ i, m = 2 + i := ⟨m - 2, by omega⟩
  have hT := term_two hv hz hz2 i
  have hp : ((1 : ℝ) / 2) ^ i ≤ (1 / 2) ^ 240 := pow_le_pow_of_le_one (by norm_num) (by norm_num) (by omega)
  have hT2 := hT.trans (mul_le_mul_of_nonneg_left hp (by positivity))
  have n1 : (153 : ℝ) * (1 / 2) ^ 240 ≤ (1 / 2) ^ 230 := by norm_num
  have := mul_le_mul_of_nonneg_right n1 hK.le
  linarith

theorem kv_le_succ {v : ℝ} (hv : |v| ≤ 1 / 2) {z : ℝ} (hz : 0 < z) : kv v z ≤ kv (v + 1) z := by
  refine kv_mono ?_ hz
  obtain ⟨hv1, hv2⟩ := abs_le.mp hv
  rw [abs_of_nonneg (by linarith : 0 ≤ v + 1)]
  rcases abs_cases v with ⟨e, _⟩ | ⟨e, _⟩ <;> rw [e] <;> linarith

theorem iter_sums_diff (v z : ℝ) {s t : TemmeState} (hs : Start s) (ht : Start t) (k : ℕ) :
    (temmeIter v z (stDiff s t) k).kvSum = (temmeIter v z s k).kvSum - (temmeIter v z t k).kvSum ∧
    (temmeIter v z (stDiff s t) k).kvp1Sum = (temmeIter v z s k).kvp1Sum - (temmeIter v z t k).kvp1Sum := by
  rw [iter_kvSum v z hs, iter_kvSum v z ht, iter_kvSum v z (stDiff_start s t), iter_kvp1Sum v z hs, iter_kvp1Sum v z ht,
    iter_kvp1Sum v z (stDiff_start s t), ← Finset.sum_sub_distrib, ← Finset.sum_sub_distrib]
  exact ⟨Finset.sum_congr rfl fun j _ => (kvTerm_diff v z hs ht j).1, Finset.sum_congr rfl fun j _ => (kvTerm_diff v z hs ht j).2⟩

/-- The loop started from values that are within `η` of the exact ones. -/
theorem perturb_loop {tol : ℝ} (ht : (1 / 2) ^ 200 ≤ tol) (ht2 : tol ≤ 1 / 1000) {v : ℝ} (hv : |v| ≤ 1 / 2) {z : ℝ}
    (hz : 0 < z) (hz2 : z ≤ 2) {s : TemmeState} (hs : Start s) {η : ℝ} (hη : η ≤ 1 / 10000)
    (hf : |s.f - (exactInit v z).f| ≤ η * kv v z) (hp : |s.p - (exactInit v z).p| ≤ η * kv v z)
    (hq : |s.q - (exactInit v z).q| ≤ η * kv v z) :
    |(temmeLoop tol v z 1000 s).kvSum - kv v z| ≤ (5 * tol + 32 * η) * kv v z ∧
    |(temmeLoop tol v z 1000 s).kvp1Sum - z / 2 * kv (v + 1) z| ≤
      |s.p - (exactInit v z).p| + (36 * tol + 160 * η) * (z / 2 * kv (v + 1) z) := by
  obtain ⟨m, h1, h2, h3, h4⟩ := loop_iter tol v z s 1000 0 (by norm_num)
  have h3' : temmeLoop tol v z 1000 s = temmeIter v z s m := h3
  rw [h3']
  have hm : 1 ≤ m := by omega
  obtain ⟨t1, t2, t3⟩ := exact_tail hv hz hz2 hm
  obtain ⟨n0, _, _⟩ := exact_ratio hv hz hz2 hm
  have hK := kv_pos v hz
  have htol : 0 < tol := lt_of_lt_of_le (by positivity) ht
  obtain ⟨k, rfl⟩ : ∃ k, m = k + 1 := ⟨m - 1, by omega⟩
  have hd := stDiff_start s (exactInit v z)
  obtain ⟨D1, D2⟩ := iter_sums_diff v z hs (exactStart v z) (k + 1)
  have d1 := diff_kvSum hv hz hz2 hd hf hp hq k
  have d2 := diff_term hv hz hz2 hd hf hp hq k
  have d3 := diff_kvp1Sum hv hz hz2 hd hf hp hq k
  rw [D1] at d1
  rw [D2] at d3
  rw [(kvTerm_diff v z hs (exactStart v z) (k + 1)).1] at d2
  have d3' : |(temmeIter v z s (k + 1)).kvp1Sum - (temmeIter v z (exactInit v z) (k + 1)).kvp1Sum| ≤
      |s.p - (exactInit v z).p| + 64 / 3 * (z ^ 2 / 4 * (η * kv v z)) := d3
  clear d3 D1 D2
  have hstop : |kvTerm v z s (k + 1)| < |(temmeIter v z s (k + 1)).kvSum| * tol ∨ 1000 ≤ k + 1 := by
    rcases h4 with h4 | h4
    · rcases h4 with h4 | h4
      · exact Or.inl h4
      · right
        rw [iter_index v z hs] at h4
        have : (999 : ℝ) < (k + 1 : ℕ) := by linarith
        have : 999 < k + 1 := by exact_mod_cast this
        omega
    · right; omega
  have hlast := fun h : 1000 ≤ k + 1 => term_last hv hz hz2 h
  have hmono := kv_le_succ hv hz
  have hK1 := kv_pos (v + 1) hz
  simp only [exactIter] at t1 t2 t3
  obtain ⟨t, htd⟩ : ∃ t, t = kvTerm v z (exactInit v z) (k + 1) := ⟨_, rfl⟩
  obtain ⟨t', htd'⟩ : ∃ t, t = kvTerm v z s (k + 1) := ⟨_, rfl⟩
  obtain ⟨S, hS⟩ : ∃ S, S = (temmeIter v z (exactInit v z) (k + 1)).kvSum := ⟨_, rfl⟩
  obtain ⟨S', hS'⟩ : ∃ S, S = (temmeIter v z s (k + 1)).kvSum := ⟨_, rfl⟩
  obtain ⟨P, hP⟩ : ∃ S, S = (temmeIter v z (exactInit v z) (k + 1)).kvp1Sum := ⟨_, rfl⟩
  obtain ⟨P', hP'⟩ : ∃ S, S = (temmeIter v z s (k + 1)).kvp1Sum := ⟨_, rfl⟩
  obtain ⟨K, hKd⟩ : ∃ K, K = kv v z := ⟨_, rfl⟩
  obtain ⟨K1, hK1d⟩ : ∃ K, K = kv (v + 1) z := ⟨_, rfl⟩
  obtain ⟨e, he⟩ : ∃ e, e = |s.p - (exactInit v z).p| := ⟨_, rfl⟩
  simp only [← htd, ← htd', ← hS, ← hS', ← hP, ← hP', ← hKd, ← hK1d, ← he] at *
  have hη0 : 0 ≤ η * K := (abs_nonneg _).trans hf
  have hηK : η * K ≤ 1 / 10000 * K := mul_le_mul_of_nonneg_right hη hK.le
  have htK : t ≤ (103 / 100 * tol + 405 / 100 * η) * K := by
    rcases hstop with h | h
    · have a1 : |t| ≤ |t'| + 4 * (η * K) := by
        have := abs_sub_abs_le_abs_sub t t'
        rw [abs_sub_comm] at this
        linarith
      rw [abs_of_nonneg n0] at a1
      have a2 : |S'| ≤ |S| + 64 / 5 * (η * K) := by
        have := abs_sub_abs_le_abs_sub S' S
        linarith
      have a3 : |S| ≤ K + 4 * t := by rw [abs_le]; constructor <;> linarith
      have a4 : |S'| * tol ≤ (K + 4 * t + 64 / 5 * (η * K)) * tol := mul_le_mul_of_nonneg_right (by linarith) htol.le
      have a5 : t * tol ≤ t * (1 / 1000) := mul_le_mul_of_nonneg_left ht2 n0
      have a6 : η * K * tol ≤ 1 / 10000 * K * tol := mul_le_mul_of_nonneg_right hηK htol.le
      have a7 : 0 < K * tol := by positivity
      linarith
    · have := hlast h
      have n3 : ((1 : ℝ) / 2) ^ 230 ≤ (1 / 2) ^ 200 := by norm_num
      have := mul_le_mul_of_nonneg_right (n3.trans ht) hK.le
      have a7 : 0 < tol * K := by positivity
      linarith
  constructor
  · have e : S' - K = (S' - S) - (K - S) := by ring
    rw [e]
    refine (abs_sub _ _).trans ?_
    rw [abs_of_nonneg (by linarith : 0 ≤ K - S)]
    have a7 : 0 < tol * K := by positivity
    linarith
  · have e : P' - z / 2 * K1 = (P' - P) - (z / 2 * K1 - P) := by ring
    rw [e]
    refine (abs_sub _ _).trans ?_
    have y1 : z ^ 2 / 4 * K ≤ z / 2 * K1 := by
      calc z ^ 2 / 4 * K ≤ z ^ 2 / 4 * K1 := mul_le_mul_of_nonneg_left hmono (by positivity)
        _ = (z / 2 * K1) * (z / 2) := by ring
        _ ≤ (z / 2 * K1) * 1 := mul_le_mul_of_nonneg_left (by linarith) (by positivity)
        _ = _ := mul_one _
    have hη' : 0 ≤ η := by
      by_contra hneg
      push Not at hneg
      nlinarith
    have y2 : z ^ 2 / 4 * 34 * t ≤ z ^ 2 / 4 * 34 * ((103 / 100 * tol + 405 / 100 * η) * K) :=
      mul_le_mul_of_nonneg_left htK (by positivity)
    have y3 : (34 * (103 / 100 * tol + 405 / 100 * η) + 64 / 3 * η) * (z ^ 2 / 4 * K) ≤
        (34 * (103 / 100 * tol + 405 / 100 * η) + 64 / 3 * η) * (z / 2 * K1) := mul_le_mul_of_nonneg_left y1 (by positivity)
    have y4 : (34 * (103 / 100 * tol + 405 / 100 * η) + 64 / 3 * η) * (z / 2 * K1) ≤
        (36 * tol + 160 * η) * (z / 2 * K1) := mul_le_mul_of_nonneg_right (by linarith) (by positivity)
    linarith

end JG.BesK
