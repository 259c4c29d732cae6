import Verif.Model.Elementary
import Mathlib.Tactic.Linarith
import Mathlib.Tactic.FieldSimp
import Mathlib.Tactic.Positivity

/-! Lemmas: interpolation in increasing tables, and bisection from zero. -/

namespace JG.Elt

/-- Strictly increasing on the first `n` indices. -/
def Inc (n : ℕ) (x : ℕ → ℝ) : Prop := ∀ i j, i < j → j < n → x i < x j

theorem Inc.le {n : ℕ} {x : ℕ → ℝ} (h : Inc n x) {i j : ℕ} (hij : i ≤ j) (hj : j < n) : x i ≤ x j := by
  rcases hij.eq_or_lt with rfl | h'
  · exact le_rfl
  · exact (h i j h' hj).le

/-- The interval containing a value of the table range. -/
theorem Inc.locate {n : ℕ} {x : ℕ → ℝ} (hn : 2 ≤ n) {t : ℝ} (h0 : x 0 ≤ t) (h1 : t ≤ x (n - 1)) :
    ∃ i, i + 1 < n ∧ x i ≤ t ∧ (t < x (i + 1) ∨ (i + 2 = n ∧ t = x (i + 1))) := by
  by_contra hc
  push Not at hc
  have all : ∀ i, i < n → x i ≤ t := by
    intro i
    induction i with
    | zero => exact fun _ => h0
    | succ i ih => exact fun hi => (hc i hi (ih (by omega))).1
  obtain ⟨m, rfl⟩ : ∃ m, n = m + 2 := ⟨n - 2, by omega⟩
  have := (hc m (by omega) (all m (by omega))).2 rfl
  have := all (m + 1) (by omega)
  simp only [show m + 2 - 1 = m + 1 by omega] at h1
  exact absurd (le_antisymm h1 this) (hc m (by omega) (all m (by omega)) |>.2 rfl)

theorem interp_index {n : ℕ} {x : ℕ → ℝ} (hx : Inc n x) {i : ℕ} {t : ℝ} (hi : i + 1 < n) (h1 : x i ≤ t)
    (h2 : t < x (i + 1) ∨ (i + 2 = n ∧ t = x (i + 1))) :
    (clipI (searchsortedRight n x t) 1 (n - 1)).toNat = i + 1 := by
  rcases h2 with h3 | ⟨h3, h4⟩
  · have : searchsortedRight n x t = i + 1 := by
      unfold searchsortedRight
      have : (Finset.range n).filter (fun k => x k ≤ t) = Finset.range (i + 1) := by
        ext k
        simp only [Finset.mem_filter, Finset.mem_range]
        constructor
        · rintro ⟨hk, hkt⟩
          by_contra hc
          have := hx.le (show i + 1 ≤ k by omega) hk
          linarith
        · intro hk
          exact ⟨by omega, (hx.le (show k ≤ i by omega) (by omega)).trans h1⟩
      rw [this, Finset.card_range]
    rw [this]
    simp only [clipI]
    omega
  · have : searchsortedRight n x t = n := by
      unfold searchsortedRight
      have : (Finset.range n).filter (fun k => x k ≤ t) = Finset.range n := by
        ext k
        simp only [Finset.mem_filter, Finset.mem_range, and_iff_left_iff_imp]
        intro hk
        rw [h4]
        exact hx.le (show k ≤ i + 1 by omega) hi
      rw [this, Finset.card_range]
    rw [this]
    simp only [clipI]
    omega

/-- Between two knots `jnp.interp` is the straight line. -/
theorem jnpInterp_line {n : ℕ} {x y : ℕ → ℝ} (hx : Inc n x) {i : ℕ} {t : ℝ} (hi : i + 1 < n) (h1 : x i ≤ t)
    (h2 : t < x (i + 1) ∨ (i + 2 = n ∧ t = x (i + 1))) :
    jnpInterp n x y t = y i + (t - x i) / (x (i + 1) - x i) * (y (i + 1) - y i) := by
  have hlo : ¬ t < x 0 := not_lt.2 ((hx.le (Nat.zero_le i) (by omega)).trans h1)
  have hhi : ¬ t > x (n - 1) := by
    rcases h2 with h3 | ⟨h3, h4⟩
    · exact not_lt.2 (h3.le.trans (hx.le (show i + 1 ≤ n - 1 by omega) (by omega)))
    · rw [h4, show n - 1 = i + 1 by omega]; exact lt_irrefl _
  have hd : x (i + 1) - x i ≠ 0 := by have := hx i (i + 1) (by omega) hi; linarith
  simp only [jnpInterp, interp_index hx hi h1 h2, Nat.add_sub_cancel, if_neg hlo, if_neg hhi, if_neg hd]

/-- At the knots `jnp.interp` returns the table values. -/
theorem jnpInterp_knot {n : ℕ} {x y : ℕ → ℝ} (hn : 2 ≤ n) (hx : Inc n x) {k : ℕ} (hk : k < n) :
    jnpInterp n x y (x k) = y k := by
  by_cases h : k + 1 < n
  · rw [jnpInterp_line hx h le_rfl (Or.inl (hx _ _ (by omega) h))]
    simp
  · obtain ⟨i, rfl⟩ : ∃ i, k = i + 1 := ⟨k - 1, by omega⟩
    have hlt := hx i (i + 1) (by omega) hk
    rw [jnpInterp_line hx hk hlt.le (Or.inr ⟨by omega, rfl⟩), div_self (by linarith)]
    ring

/-- `jnp.interp` of increasing tables: the result lies between the values at the neighbouring knots, and interpolating
back the other way recovers the argument. -/
theorem jnpInterp_inverse {n : ℕ} {x y : ℕ → ℝ} (hn : 2 ≤ n) (hx : Inc n x) (hy : Inc n y) {t : ℝ} (h0 : x 0 ≤ t)
    (h1 : t ≤ x (n - 1)) :
    y 0 ≤ jnpInterp n x y t ∧ jnpInterp n x y t ≤ y (n - 1) ∧ jnpInterp n y x (jnpInterp n x y t) = t := by
  obtain ⟨i, hi, ha, hb⟩ := Inc.locate hn h0 h1
  rw [jnpInterp_line hx hi ha hb]
  have hdx : 0 < x (i + 1) - x i := by have := hx i (i + 1) (by omega) hi; linarith
  have hdy : 0 < y (i + 1) - y i := by have := hy i (i + 1) (by omega) hi; linarith
  have htx : t ≤ x (i + 1) := by
    rcases hb with hb | hb
    · exact hb.le
    · exact hb.2.le
  have hr0 : 0 ≤ (t - x i) / (x (i + 1) - x i) := div_nonneg (by linarith) hdx.le
  have hr1 : (t - x i) / (x (i + 1) - x i) ≤ 1 := (div_le_one hdx).2 (by linarith)
  have hlo : y i ≤ y i + (t - x i) / (x (i + 1) - x i) * (y (i + 1) - y i) := by nlinarith
  have hup : y i + (t - x i) / (x (i + 1) - x i) * (y (i + 1) - y i) ≤ y (i + 1) := by nlinarith
  refine ⟨(hy.le (Nat.zero_le i) (by omega)).trans hlo, hup.trans (hy.le (show i + 1 ≤ n - 1 by omega) (by omega)), ?_⟩
  rw [jnpInterp_line hy hi hlo]
  · field_simp
    ring
  · rcases hb with hb | ⟨hb, hb'⟩
    · left
      have : (t - x i) / (x (i + 1) - x i) < 1 := (div_lt_one hdx).2 (by linarith)
      nlinarith
    · right
      refine ⟨hb, ?_⟩
      rw [hb', div_self hdx.ne']
      ring

/-! ### Bisection -/

/-- If the first step keeps the upper end, the rest is a run from the midpoint. -/
theorem bisRun_low (f : ℝ → ℝ) (low high : ℝ) (h : f ((low + high) / 2) * f high < 0) (n : ℕ) :
    bisRun f low high (n + 1) = bisRun f ((low + high) / 2) high n := by
  induction n with
  | zero => simp [bisRun, bisStep, h]
  | succ n ih => rw [bisRun, ih]; rfl

/-- While the function is positive at the midpoint, only the upper end moves. -/
theorem bisRun_high (f : ℝ → ℝ) (high : ℝ) (j : ℕ) (h : ∀ i ≤ j, 0 < f (high / 2 ^ i)) :
    bisRun f 0 high j = ⟨0, f 0, high / 2 ^ j, f (high / 2 ^ j)⟩ := by
  induction j with
  | zero => simp [bisRun]
  | succ j ih =>
    rw [bisRun, ih fun i hi => h i (by omega)]
    have h1 := h j (by omega)
    have h2 := h (j + 1) le_rfl
    have e : (0 + high / 2 ^ j) / 2 = high / 2 ^ (j + 1) := by rw [pow_succ]; field_simp; ring
    simp only [bisStep, e]
    rw [if_neg (not_lt.2 (mul_pos h2 h1).le)]

theorem bisRun_add (f : ℝ → ℝ) (low high : ℝ) (j n : ℕ) (l h : ℝ) (hj : bisRun f low high j = ⟨l, f l, h, f h⟩) :
    bisRun f low high (j + n) = bisRun f l h n := by
  induction n with
  | zero => simpa [bisRun] using hj
  | succ n ih => rw [← Nat.add_assoc, bisRun, ih]; rfl

theorem bis_interval (f : ℝ → ℝ) (low high : ℝ) (h : low ≤ high) (n : ℕ) :
    low ≤ (bisRun f low high n).low ∧ (bisRun f low high n).low ≤ (bisRun f low high n).high ∧
    (bisRun f low high n).high ≤ high := by
  induction n with
  | zero => exact ⟨le_rfl, h, le_rfl⟩
  | succ n ih =>
    obtain ⟨h1, h2, h3⟩ := ih
    simp only [bisRun, bisStep]
    split
    · refine ⟨?_, ?_, h3⟩ <;> simp only <;> linarith
    · refine ⟨h1, ?_, ?_⟩ <;> simp only <;> linarith

/-- Bisection started at 0 stays above `high / 2 ^ (j+1)` if the sign changes between there and `high / 2 ^ j`. -/
theorem bisect_lower (f : ℝ → ℝ) (high : ℝ) (h0 : 0 ≤ high) (j n : ℕ) (hp : ∀ i ≤ j, 0 < f (high / 2 ^ i))
    (hneg : f (high / 2 ^ (j + 1)) < 0) :
    high / 2 ^ (j + 1) ≤ bisectForRoot f 0 high (j + 1 + n) ∧ bisectForRoot f 0 high (j + 1 + n) ≤ high / 2 ^ j := by
  have e : (0 + high / 2 ^ j) / 2 = high / 2 ^ (j + 1) := by rw [pow_succ]; field_simp; ring
  have hj := bisRun_high f high j hp
  have h1 : bisRun f 0 high (j + (n + 1)) = bisRun f 0 (high / 2 ^ j) (n + 1) := bisRun_add f 0 high j (n + 1) 0 _ hj
  have h2 : bisRun f 0 (high / 2 ^ j) (n + 1) = bisRun f (high / 2 ^ (j + 1)) (high / 2 ^ j) n := by
    have := bisRun_low f 0 (high / 2 ^ j) (by rw [e]; exact mul_neg_of_neg_of_pos hneg (hp j le_rfl)) n
    rwa [e] at this
  have hle : high / 2 ^ (j + 1) ≤ high / 2 ^ j := by
    rw [← e]
    have : 0 ≤ high / 2 ^ j := by positivity
    linarith
  obtain ⟨a, b, c⟩ := bis_interval f _ _ hle n
  unfold bisectForRoot
  rw [show j + 1 + n = j + (n + 1) by omega, h1, h2]
  exact ⟨a.trans b, c⟩

/-- Bisection from 0 of a function with a single sign change at `r`, when no midpoint is `r` itself. -/
theorem bisect_root (f : ℝ → ℝ) (high r : ℝ) (hr : 0 < r) (hh : r < high)
    (hneg : ∀ z, r / 2 < z → z < r → f z < 0) (hpos : ∀ z, r < z → z ≤ high → 0 < f z)
    (hmid : ∀ n k : ℕ, (k : ℝ) * high / 2 ^ n ≠ r) (n : ℕ) :
    (bisRun f 0 high n).low < r ∧ r < (bisRun f 0 high n).high ∧
    (bisRun f 0 high n).high - (bisRun f 0 high n).low = high / 2 ^ n := by
  have key : (bisRun f 0 high n).low < r ∧ r < (bisRun f 0 high n).high ∧
      (bisRun f 0 high n).high - (bisRun f 0 high n).low = high / 2 ^ n ∧
      (bisRun f 0 high n).high ≤ high ∧
      (bisRun f 0 high n).fhigh = f (bisRun f 0 high n).high ∧
      (∃ k : ℕ, (bisRun f 0 high n).low = k * high / 2 ^ n) := by
    induction n with
    | zero => exact ⟨hr, hh, by simp [bisRun], le_rfl, rfl, 0, by simp [bisRun]⟩
    | succ n ih =>
      obtain ⟨h1, h2, h3, h4, h5, k, hk⟩ := ih
      have hhi := hpos _ h2 h4
      have hlow0 : 0 ≤ (bisRun f 0 high n).low := by
        rw [hk]
        have : 0 < high := hr.trans hh
        positivity
      have emid : ((bisRun f 0 high n).low + (bisRun f 0 high n).high) / 2 = ((2 * k + 1 : ℕ) : ℝ) * high / 2 ^ (n + 1) := by
        have : (bisRun f 0 high n).high = (bisRun f 0 high n).low + high / 2 ^ n := by linarith
        rw [this, hk, pow_succ]
        push_cast
        field_simp
        ring
      have hne := hmid (n + 1) (2 * k + 1)
      rw [← emid] at hne
      simp only [bisRun, bisStep]
      rw [h5]
      rcases lt_or_gt_of_ne hne with hlt | hgt
      · have hf := hneg _ (by linarith) hlt
        rw [if_pos (mul_neg_of_neg_of_pos hf hhi)]
        refine ⟨hlt, h2, ?_, h4, rfl, 2 * k + 1, emid⟩
        simp only
        rw [pow_succ, ← div_div, ← h3]
        ring
      · have hf := hpos _ hgt (by linarith)
        rw [if_neg (not_lt.2 (mul_pos hf hhi).le)]
        refine ⟨h1, hgt, ?_, by simp only; linarith, rfl, 2 * k, ?_⟩
        · simp only
          rw [pow_succ, ← div_div, ← h3]
          ring
        · simp only
          rw [hk, pow_succ]
          push_cast
          field_simp
  exact ⟨key.1, key.2.1, key.2.2.1⟩

end JG.Elt
