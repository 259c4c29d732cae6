import Mathlib.Algebra.Polynomial.Derivative
import Mathlib.Algebra.Polynomial.Eval.Defs
import Mathlib.Tactic.Ring
import Mathlib.Tactic.FieldSimp
import Mathlib.Tactic.Linarith
import Mathlib.Algebra.Order.Archimedean.Real.Basic
import Mathlib.Algebra.Order.Floor.Semiring
import Mathlib.Data.List.GetD
import Mathlib.Tactic.LinearCombination
import Mathlib.Algebra.Order.Round

/-! # The polynomials of Olver's expansion

`U₀ = 1`, `U_{k+1}' = ½ (x² (1 - x²) U_k')' + ⅛ (1 - 5 x²) U_k`, `U_{k+1}(0) = 0`, as lists of rational coefficients, and bounds
for such lists on the unit interval that are checked by computation. -/

namespace JG.BesK

open Polynomial

/-! ### Lists of coefficients, lowest power first -/

/-- The value of the polynomial with these coefficients. -/
noncomputable def evQ (x : ℝ) : List ℚ → ℝ
  | [] => 0
  | a :: l => (a : ℝ) + x * evQ x l

/-- The polynomial with these coefficients. -/
noncomputable def polyQ : List ℚ → ℝ[X]
  | [] => 0
  | a :: l => C (a : ℝ) + X * polyQ l

theorem polyQ_eval (x : ℝ) (l : List ℚ) : (polyQ l).eval x = evQ x l := by
  induction l with
  | nil => simp [polyQ, evQ]
  | cons a l ih => simp [polyQ, evQ, ih]

theorem polyQ_coeff (l : List ℚ) (m : ℕ) : (polyQ l).coeff m = ((l.getD m 0 : ℚ) : ℝ) := by
  induction l generalizing m with
  | nil => simp [polyQ]
  | cons a l ih =>
    cases m with
    | zero => simp [polyQ]
    | succ m => simp [polyQ, ih]

/-- The sum of the moduli of the terms at `r`. -/
def absQ (r : ℚ) : List ℚ → ℚ
  | [] => 0
  | a :: l => |a| + r * absQ r l

theorem absQ_nonneg {r : ℚ} (hr : 0 ≤ r) (l : List ℚ) : 0 ≤ absQ r l := by
  induction l with
  | nil => simp [absQ]
  | cons a l ih => simp only [absQ]; have := mul_nonneg hr ih; have := abs_nonneg a; linarith

theorem evQ_abs {r : ℚ} {x : ℝ} (hx : |x| ≤ r) (l : List ℚ) : |evQ x l| ≤ (absQ r l : ℝ) := by
  have hr : (0 : ℝ) ≤ r := (abs_nonneg x).trans hx
  have hr' : (0 : ℚ) ≤ r := by exact_mod_cast hr
  induction l with
  | nil => simp [evQ, absQ]
  | cons a l ih =>
    simp only [evQ, absQ]
    push_cast
    refine (abs_add_le _ _).trans (add_le_add le_rfl ?_)
    rw [abs_mul]
    exact mul_le_mul hx ih (abs_nonneg _) hr

/-- The coefficients of the derivative, from the power `m` on. -/
def derivQ (m : ℕ) : List ℚ → List ℚ
  | [] => []
  | a :: l => (m * a) :: derivQ (m + 1) l

/-- `(c + x) p`. -/
def mulLin (c : ℚ) (l : List ℚ) : List ℚ := go 0 l
where
  /-- Carries the coefficient of the power below. -/
  go (b : ℚ) : List ℚ → List ℚ
    | [] => [b]
    | a :: l => (b + c * a) :: go a l

theorem mulLin_go (c b : ℚ) (x : ℝ) (l : List ℚ) : evQ x (mulLin.go c b l) = (c + x) * evQ x l + b := by
  induction l generalizing b with
  | nil => simp [mulLin.go, evQ]
  | cons a l ih => simp only [mulLin.go, evQ, ih]; push_cast; ring

/-- The coefficients of `p(c + x)`. -/
def shiftQ (c : ℚ) : List ℚ → List ℚ
  | [] => []
  | a :: l =>
    match mulLin c (shiftQ c l) with
    | [] => [a]
    | b :: t => (a + b) :: t

theorem evQ_shift (c : ℚ) (x : ℝ) (l : List ℚ) : evQ x (shiftQ c l) = evQ (c + x) l := by
  induction l with
  | nil => rfl
  | cons a l ih =>
    have h : evQ x (mulLin c (shiftQ c l)) = (c + x) * evQ (c + x) l := by
      rw [mulLin, mulLin_go, ih]; simp
    simp only [shiftQ]
    cases hm : mulLin c (shiftQ c l) with
    | nil => rw [hm] at h; simp only [evQ] at h ⊢; rw [← h]; ring
    | cons b t =>
      rw [hm] at h
      simp only [evQ] at h ⊢
      rw [← h]
      push_cast
      ring

/-- A bound on the unit interval, from `n` subintervals. -/
def boundQ (n : ℕ) (l : List ℚ) (M : ℚ) : Bool :=
  (List.range n).all fun i => decide (absQ (1 / (2 * n)) (shiftQ ((2 * i + 1) / (2 * n)) l) ≤ M)

theorem boundQ_le {n : ℕ} (hn : 0 < n) {l : List ℚ} {M : ℚ} (h : boundQ n l M = true) {x : ℝ} (h0 : 0 ≤ x) (h1 : x ≤ 1) :
    |evQ x l| ≤ M := by
  have hn' : (0 : ℝ) < n := Nat.cast_pos.mpr hn
  obtain ⟨i, hi, hl, hu⟩ : ∃ i : ℕ, i < n ∧ (i : ℝ) ≤ n * x ∧ n * x ≤ i + 1 := by
    by_cases hx : x = 1
    · refine ⟨n - 1, by omega, ?_, ?_⟩
      · rw [hx, mul_one]; exact_mod_cast Nat.sub_le n 1
      · rw [hx, mul_one]
        have : n ≤ (n - 1) + 1 := by omega
        exact_mod_cast this
    · have hx1 : x < 1 := lt_of_le_of_ne h1 hx
      have hp : 0 ≤ n * x := mul_nonneg hn'.le h0
      refine ⟨⌊(n : ℝ) * x⌋₊, ?_, Nat.floor_le hp, (Nat.lt_floor_add_one _).le⟩
      rw [Nat.floor_lt hp]
      nlinarith
  simp only [boundQ, List.all_eq_true, List.mem_range, decide_eq_true_eq] at h
  have hb := h i hi
  have e : x = ((2 * i + 1) / (2 * n) : ℚ) + (x - ((2 * i + 1) / (2 * n) : ℚ)) := by ring
  rw [e, ← evQ_shift]
  refine le_trans (evQ_abs (r := 1 / (2 * n)) ?_ _) (by exact_mod_cast hb)
  push_cast
  rw [abs_le]
  constructor
  · rw [← sub_nonneg]
    have : x - (2 * (i : ℝ) + 1) / (2 * n) - -(1 / (2 * n)) = (n * x - i) / n := by field_simp; ring
    rw [this]
    exact div_nonneg (by linarith) hn'.le
  · rw [← sub_nonneg]
    have : 1 / (2 * (n : ℝ)) - (x - (2 * (i : ℝ) + 1) / (2 * n)) = (i + 1 - n * x) / n := by field_simp; ring
    rw [this]
    exact div_nonneg (by linarith) hn'.le

/-- The sum of the moduli of the differences. -/
def distQ : List ℚ → List ℚ → ℚ
  | [], l => absQ 1 l
  | a :: l, [] => |a| + absQ 1 l
  | a :: l, b :: t => |a - b| + distQ l t

theorem distQ_nonneg (l t : List ℚ) : 0 ≤ distQ l t := by
  induction l generalizing t with
  | nil => exact absQ_nonneg zero_le_one t
  | cons a l ih =>
    cases t with
    | nil => simp only [distQ]; have := absQ_nonneg zero_le_one l; have := abs_nonneg a; linarith
    | cons b t => simp only [distQ]; have := ih t; have := abs_nonneg (a - b); linarith

theorem distQ_le {x : ℝ} (h0 : 0 ≤ x) (h1 : x ≤ 1) (l t : List ℚ) : |evQ x l - evQ x t| ≤ (distQ l t : ℝ) := by
  have hx : |x| ≤ ((1 : ℚ) : ℝ) := by rw [abs_of_nonneg h0]; simpa using h1
  induction l generalizing t with
  | nil =>
    have := evQ_abs hx t
    simpa [evQ, distQ, abs_neg] using this
  | cons a l ih =>
    cases t with
    | nil =>
      have := evQ_abs hx (a :: l)
      simpa [evQ, distQ, absQ] using this
    | cons b t =>
      simp only [evQ, distQ]
      push_cast
      have e : (a : ℝ) + x * evQ x l - (b + x * evQ x t) = (a - b) + x * (evQ x l - evQ x t) := by ring
      rw [e]
      refine (abs_add_le _ _).trans (add_le_add le_rfl ?_)
      rw [abs_mul, abs_of_nonneg h0]
      calc _ ≤ 1 * |evQ x l - evQ x t| := mul_le_mul_of_nonneg_right h1 (abs_nonneg _)
        _ ≤ _ := by rw [one_mul]; exact ih t

/-! ### The polynomials -/

/-- One step of the recurrence, on coefficients. -/
def olStep (l : List ℚ) : List ℚ :=
  (List.range (l.length + 3)).map fun (m : ℕ) =>
    if m = 0 then 0
    else ((m : ℚ) - 1 / 2) ^ 2 / (2 * m) * l.getD (m - 1) 0
      - (if m < 3 then 0 else ((m : ℚ) - 5 / 2) * (m - 1 / 2) / (2 * m) * l.getD (m - 3) 0)

/-- The coefficients of `U_k`. -/
def olRow : ℕ → List ℚ
  | 0 => [1]
  | k + 1 => olStep (olRow k)

theorem olStep_getD (l : List ℚ) (m : ℕ) : (olStep l).getD (m + 1) 0
    = ((m : ℚ) + 1 / 2) ^ 2 / (2 * (m + 1)) * l.getD m 0
      - (if m < 2 then 0 else ((m : ℚ) - 3 / 2) * (m + 1 / 2) / (2 * (m + 1)) * l.getD (m - 2) 0) := by
  rw [olStep]
  by_cases h : m + 1 < l.length + 3
  · rw [List.getD_eq_getElem _ _ (by simpa using h)]
    simp only [List.getElem_map, List.getElem_range, Nat.succ_ne_zero, if_false, Nat.add_sub_cancel]
    have e1 : (((m + 1 : ℕ) : ℚ) - 1 / 2) = m + 1 / 2 := by push_cast; ring
    have e2 : (((m + 1 : ℕ) : ℚ) - 5 / 2) = m - 3 / 2 := by push_cast; ring
    rw [e1, e2, show m + 1 - 3 = m - 2 by omega]
    have : (m + 1 < 3) = (m < 2) := by simp; omega
    simp only [this]
    push_cast
    rfl
  · have h1 : l.length ≤ m := by omega
    have h2 : l.length ≤ m - 2 := by omega
    rw [List.getD_eq_default _ _ (by simpa using h), List.getD_eq_default _ _ h1, List.getD_eq_default _ _ h2]
    simp

theorem olStep_zero (l : List ℚ) : (olStep l).getD 0 0 = 0 := by
  rw [olStep, List.getD_eq_getElem _ _ (by simp)]
  simp

/-- `U_k`. -/
noncomputable def olU (k : ℕ) : ℝ[X] := polyQ (olRow k)

/-- The operator of the recurrence. -/
noncomputable def olT (p : ℝ[X]) : ℝ[X] :=
  C (1 / 2) * derivative (X ^ 2 * (1 - X ^ 2) * derivative p) + C (1 / 8) * ((1 - 5 * X ^ 2) * p)

theorem olT_coeff (p : ℝ[X]) (m : ℕ) : (olT p).coeff m
    = ((m : ℝ) + 1 / 2) ^ 2 / 2 * p.coeff m
      - (if m < 2 then 0 else ((m : ℝ) - 3 / 2) * (m + 1 / 2) / 2 * p.coeff (m - 2)) := by
  have e : olT p = C (1 / 2) * derivative (X ^ 2 * derivative p) - C (1 / 2) * derivative (X ^ 4 * derivative p)
      + C (1 / 8) * p - C (5 / 8) * (X ^ 2 * p) := by
    rw [olT]
    have : X ^ 2 * (1 - X ^ 2) * derivative p = X ^ 2 * derivative p - X ^ 4 * derivative p := by ring
    rw [this, derivative_sub]
    have e5 : (C (5 / 8) : ℝ[X]) = 5 * C (1 / 8) := by
      rw [show (5 : ℝ[X]) = C 5 from rfl, ← C_mul]; norm_num
    rw [e5]
    ring
  rw [e]
  simp only [coeff_add, coeff_sub, coeff_C_mul, coeff_derivative, coeff_X_pow_mul']
  rcases m with _ | _ | m
  · norm_num [coeff_derivative]
  · norm_num [coeff_derivative]
    ring
  · rcases m with _ | m
    · norm_num [coeff_derivative]
      ring
    · have h1 : ¬ (m + 1 + 1 + 1 < 2) := by omega
      have h2 : 2 ≤ m + 1 + 1 + 1 + 1 := by omega
      have h3 : 4 ≤ m + 1 + 1 + 1 + 1 := by omega
      have h4 : 2 ≤ m + 1 + 1 + 1 := by omega
      rw [if_neg h1, if_pos h2, if_pos h3, if_pos h4]
      have a1 : m + 1 + 1 + 1 + 1 - 2 = m + 2 := by omega
      have a2 : m + 1 + 1 + 1 + 1 - 4 = m := by omega
      have a3 : m + 1 + 1 + 1 - 2 = m + 1 := by omega
      rw [a1, a2, a3]
      push_cast
      ring

theorem olU_succ (k : ℕ) : derivative (olU (k + 1)) = olT (olU k) := by
  ext m
  have hm : (m : ℝ) + 1 ≠ 0 := by positivity
  rw [coeff_derivative, olT_coeff, olU, olU, polyQ_coeff, polyQ_coeff, polyQ_coeff]
  have : olRow (k + 1) = olStep (olRow k) := rfl
  rw [this, olStep_getD]
  obtain ⟨a, ha⟩ : ∃ a, a = (olRow k).getD m 0 := ⟨_, rfl⟩
  obtain ⟨b, hb⟩ : ∃ a, a = (olRow k).getD (m - 2) 0 := ⟨_, rfl⟩
  rw [← ha, ← hb]
  by_cases h : m < 2
  · simp only [if_pos h]
    push_cast
    field_simp
    ring
  · simp only [if_neg h]
    push_cast
    field_simp

theorem olU_zero (k : ℕ) : (olU (k + 1)).eval 0 = 0 := by
  rw [← coeff_zero_eq_eval_zero, olU, polyQ_coeff]
  have : olRow (k + 1) = olStep (olRow k) := rfl
  rw [this, olStep_zero]
  simp

theorem derivQ_coeff (m : ℕ) (l : List ℚ) (i : ℕ) : (derivQ m l).getD i 0 = ((m : ℚ) + i) * l.getD i 0 := by
  induction l generalizing m i with
  | nil => simp [derivQ]
  | cons a l ih =>
    cases i with
    | zero => simp [derivQ]
    | succ i => simp only [derivQ, List.getD_cons_succ, ih]; push_cast; ring

theorem deriv_polyQ (l : List ℚ) : derivative (polyQ l) = polyQ (derivQ 0 l).tail := by
  ext m
  have ht : ∀ (t : List ℚ) (m : ℕ), t.tail.getD m 0 = t.getD (m + 1) 0 := by
    intro t m
    cases t <;> simp
  rw [coeff_derivative, polyQ_coeff, polyQ_coeff, ht, derivQ_coeff]
  push_cast
  ring

/-- The sum `Σ_{k ≤ n} a^k U_k`. -/
noncomputable def olSum (a : ℝ) (n : ℕ) : ℝ[X] := ∑ k ∈ Finset.range (n + 1), C (a ^ k) * olU k

theorem olT_add (p q : ℝ[X]) : olT (p + q) = olT p + olT q := by
  rw [olT, olT, olT, derivative_add, mul_add, derivative_add]; ring

theorem olT_C_mul (c : ℝ) (p : ℝ[X]) : olT (C c * p) = C c * olT p := by
  rw [olT, olT, derivative_C_mul]
  have : X ^ 2 * (1 - X ^ 2) * (C c * derivative p) = C c * (X ^ 2 * (1 - X ^ 2) * derivative p) := by ring
  rw [this, derivative_C_mul]
  ring

/-- The sum solves the equation up to its last term. -/
theorem olSum_eq {nu : ℝ} (hnu : nu ≠ 0) (n : ℕ) :
    olT (olSum (-1 / nu) n) + C nu * derivative (olSum (-1 / nu) n) = C ((-1 / nu) ^ n) * derivative (olU (n + 1)) := by
  induction n with
  | zero =>
    have h0 : olU 0 = C 1 := by simp [olU, olRow, polyQ]
    simp only [olSum, zero_add, Finset.range_one, Finset.sum_singleton, pow_zero, C_1, one_mul]
    have : olU 0 = 1 := by rw [h0, C_1]
    rw [show (1 : ℕ) = 0 + 1 from rfl, olU_succ, this]
    simp
  | succ n ih =>
    have e : olSum (-1 / nu) (n + 1) = olSum (-1 / nu) n + C ((-1 / nu) ^ (n + 1)) * olU (n + 1) := by
      rw [olSum, Finset.sum_range_succ]; rfl
    rw [e, olT_add, olT_C_mul, derivative_add, derivative_C_mul, olU_succ (n + 1)]
    have e2 : C nu * (C ((-1 / nu) ^ (n + 1)) * derivative (olU (n + 1))) = -(C ((-1 / nu) ^ n) * derivative (olU (n + 1))) := by
      rw [← mul_assoc, ← C_mul, ← neg_mul, ← C_neg]
      congr 2
      rw [pow_succ]
      field_simp
    rw [mul_add, e2]
    linear_combination ih

/-- The derivative of `U₁₁` is below 209 on the unit interval. -/
theorem olU11_bound {x : ℝ} (h0 : 0 ≤ x) (h1 : x ≤ 1) : |(derivative (olU 11)).eval x| ≤ 209 := by
  have hb : boundQ 32 (derivQ 0 (olRow 11)).tail 209 = true := by decide +kernel
  have := boundQ_le (by norm_num) hb h0 h1
  rw [olU, deriv_polyQ, polyQ_eval]
  simpa using this

end JG.BesK
