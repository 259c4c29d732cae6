import Verif.Lemmas.OlverPoly
import Mathlib.Analysis.SpecialFunctions.Gamma.BohrMollerup
import Mathlib.Analysis.SpecialFunctions.Gamma.Deriv
import Mathlib.Analysis.Calculus.Deriv.Polynomial
import Mathlib.Analysis.Convex.Deriv
import Mathlib.Analysis.Real.Pi.Bounds

/-! # The Gamma function between one half and three halves

A polynomial that agrees with `1/Γ(1+v)` for `|v| ≤ 1/2`, with a proof of the error: the second derivative of the logarithm
of the quotient is bounded by computation, the values at `0`, `1/2` and `-1/2` are known. -/

namespace JG.BesK

open Polynomial Real Filter Topology

/-! ### More operations on coefficient lists -/

def addQ : List ℚ → List ℚ → List ℚ
  | [], t => t
  | a :: l, [] => a :: l
  | a :: l, b :: t => (a + b) :: addQ l t

def scQ (c : ℚ) (l : List ℚ) : List ℚ := l.map (c * ·)

def mulQ : List ℚ → List ℚ → List ℚ
  | [], _ => []
  | a :: l, t => addQ (scQ a t) (0 :: mulQ l t)

theorem evQ_add (x : ℝ) (l t : List ℚ) : evQ x (addQ l t) = evQ x l + evQ x t := by
  induction l generalizing t with
  | nil => simp [addQ, evQ]
  | cons a l ih =>
    cases t with
    | nil => simp [addQ, evQ]
    | cons b t => simp only [addQ, evQ, ih]; push_cast; ring

theorem evQ_sc (x : ℝ) (c : ℚ) (l : List ℚ) : evQ x (scQ c l) = c * evQ x l := by
  induction l with
  | nil => simp [scQ, evQ]
  | cons a l ih =>
    have : scQ c (a :: l) = (c * a) :: scQ c l := rfl
    rw [this, evQ, evQ, ih]; push_cast; ring

theorem evQ_mul (x : ℝ) (l t : List ℚ) : evQ x (mulQ l t) = evQ x l * evQ x t := by
  induction l with
  | nil => simp [mulQ, evQ]
  | cons a l ih => rw [mulQ, evQ_add, evQ_sc, evQ, evQ, ih]; push_cast; ring

/-- The coefficients of the derivative. -/
def dQ (l : List ℚ) : List ℚ := (derivQ 0 l).tail

theorem evQ_hasDerivAt (l : List ℚ) (x : ℝ) : HasDerivAt (fun x => evQ x l) (evQ x (dQ l)) x := by
  have h := (polyQ l).hasDerivAt x
  rw [deriv_polyQ, polyQ_eval] at h
  exact h.congr_of_eventuallyEq (Eventually.of_forall fun y => (polyQ_eval y l).symm)

/-- Positivity for `|x| ≤ 1/2`, from `n` subintervals. -/
def posQ (n : ℕ) (l : List ℚ) : Bool :=
  (List.range n).all fun i => match shiftQ ((2 * i + 1 - n) / (2 * n)) l with
    | [] => false
    | a :: t => decide (1 / (2 * n) * absQ (1 / (2 * n)) t < a)

theorem posQ_pos {n : ℕ} (hn : 0 < n) {l : List ℚ} (h : posQ n l = true) {x : ℝ} (hx : |x| ≤ 1 / 2) : 0 < evQ x l := by
  have hn' : (0 : ℝ) < n := by exact_mod_cast hn
  obtain ⟨h0, h1⟩ := abs_le.mp hx
  -- the subinterval
  obtain ⟨i, hi, hxi⟩ : ∃ i : ℕ, i < n ∧ |x - (2 * i + 1 - n) / (2 * n)| ≤ 1 / (2 * n) := by
    by_cases hx1 : x = 1 / 2
    · refine ⟨n - 1, by omega, ?_⟩
      have : ((n - 1 : ℕ) : ℝ) = n - 1 := by rw [Nat.cast_sub hn]; simp
      rw [this, hx1, show (1 : ℝ) / 2 - (2 * (n - 1) + 1 - n) / (2 * n) = 1 / (2 * n) by field_simp; ring,
        abs_of_pos (by positivity)]
    · have hx2 : x < 1 / 2 := lt_of_le_of_ne h1 hx1
      have hf0 : 0 ≤ (x + 1 / 2) * n := mul_nonneg (by linarith) hn'.le
      refine ⟨⌊(x + 1 / 2) * n⌋₊, ?_, ?_⟩
      · rw [Nat.floor_lt hf0]
        nlinarith
      · have a := Nat.floor_le hf0
        have b := Nat.lt_floor_add_one ((x + 1 / 2) * n)
        obtain ⟨k, hk⟩ : ∃ k : ℝ, k = (⌊(x + 1 / 2) * n⌋₊ : ℝ) := ⟨_, rfl⟩
        rw [← hk] at a b ⊢
        have e : x - (2 * k + 1 - n) / (2 * n) = (2 * ((x + 1 / 2) * n - k) - 1) / (2 * n) := by field_simp; ring
        rw [e, abs_div, abs_of_pos (by positivity : (0 : ℝ) < 2 * n)]
        refine div_le_div_of_nonneg_right ?_ (by positivity)
        rw [abs_le]
        constructor <;> linarith
  have hc := List.all_eq_true.mp h i (List.mem_range.mpr hi)
  obtain ⟨c, hcd⟩ : ∃ c : ℚ, c = (2 * i + 1 - n) / (2 * n) := ⟨_, rfl⟩
  have hcR : ((c : ℚ) : ℝ) = (2 * i + 1 - n) / (2 * n) := by rw [hcd]; push_cast; ring
  have e : evQ x l = evQ (x - c) (shiftQ c l) := by rw [evQ_shift]; congr 1; ring
  simp only [← hcd] at hc
  rw [e]
  rw [← hcR] at hxi
  cases hs : shiftQ c l with
  | nil => rw [hs] at hc; simp at hc
  | cons a t =>
    rw [hs] at hc
    simp only [decide_eq_true_eq] at hc
    have hb : |x - c| ≤ ((1 / (2 * n) : ℚ) : ℝ) := by push_cast; exact hxi
    have ht := evQ_abs hb t
    have hcR2 : ((1 / (2 * n) * absQ (1 / (2 * n)) t : ℚ) : ℝ) < (a : ℝ) := by exact_mod_cast hc
    rw [Rat.cast_mul] at hcR2
    have hm : |(x - c) * evQ (x - c) t| ≤ ((1 / (2 * n) : ℚ) : ℝ) * (absQ (1 / (2 * n)) t : ℝ) := by
      rw [abs_mul]
      exact mul_le_mul hb ht (abs_nonneg _) ((abs_nonneg _).trans hb)
    have := (abs_le.mp hm).1
    rw [evQ]
    linarith

/-! ### Fractions -/

/-- `t₁/y + t₂/y² + …`. -/
noncomputable def tailR (y : ℝ) : List ℚ → ℝ
  | [] => 0
  | t :: ts => (t + tailR y ts) / y

/-- Numerator and denominator of `tailR`, with a polynomial for `y`. -/
def tailFr (y : List ℚ) : List ℚ → List ℚ × List ℚ
  | [] => ([0], [1])
  | t :: ts => (addQ (tailFr y ts).1 (scQ t (tailFr y ts).2), mulQ (tailFr y ts).2 y)

theorem tailFr_eq (y : List ℚ) {x : ℝ} (hy : 0 < evQ x y) (ts : List ℚ) :
    0 < evQ x (tailFr y ts).2 ∧ evQ x (tailFr y ts).1 = tailR (evQ x y) ts * evQ x (tailFr y ts).2 := by
  induction ts with
  | nil => simp [tailFr, evQ, tailR]
  | cons t ts ih =>
    obtain ⟨a, b⟩ := ih
    simp only [tailFr, evQ_mul, evQ_add, evQ_sc, tailR]
    refine ⟨mul_pos a hy, ?_⟩
    rw [b]
    field_simp
    ring

/-- Adds `1/(1+x)² + … + 1/(m+x)²` to a fraction. -/
def headFr (s : List ℚ × List ℚ) : ℕ → List ℚ × List ℚ
  | 0 => s
  | m + 1 => (addQ (mulQ (headFr s m).1 (mulQ [1 + m, 1] [1 + m, 1])) (headFr s m).2,
      mulQ (headFr s m).2 (mulQ [1 + m, 1] [1 + m, 1]))

theorem headFr_eq {s : List ℚ × List ℚ} {x v : ℝ} (hx : -1 < x) (h0 : 0 < evQ x s.2) (h : evQ x s.1 = v * evQ x s.2) (m : ℕ) :
    0 < evQ x (headFr s m).2 ∧
      evQ x (headFr s m).1 = (v + ∑ i ∈ Finset.range m, 1 / (1 + x + i) ^ 2) * evQ x (headFr s m).2 := by
  induction m with
  | zero => simpa [headFr] using ⟨h0, h⟩
  | succ m ih =>
    obtain ⟨a, b⟩ := ih
    have hl : evQ x [1 + (m : ℚ), 1] = 1 + x + m := by simp [evQ]; ring
    have hp : 0 < 1 + x + m := by
      have : (0 : ℝ) ≤ m := Nat.cast_nonneg m
      linarith
    simp only [headFr, evQ_mul, evQ_add, hl]
    refine ⟨by positivity, ?_⟩
    rw [b, Finset.sum_range_succ]
    field_simp
    ring

/-! ### The sum of the inverse squares -/

/-- The first coefficients of the expansion of `Σ 1/(y+k)²`, a lower bound. -/
def loTail : List ℚ := [1, 1 / 2, 1 / 6, 0, -1 / 30, 0, 1 / 42, 0, -1 / 30, 0, 5 / 66, 0, -691 / 2730]

/-- One more, an upper bound. -/
def hiTail : List ℚ := loTail ++ [0, 7 / 6]

theorem evQ_nonneg {l : List ℚ} (h : l.all (fun a => decide (0 ≤ a)) = true) {x : ℝ} (hx : 0 ≤ x) : 0 ≤ evQ x l := by
  induction l with
  | nil => simp [evQ]
  | cons a l ih =>
    simp only [List.all_cons, Bool.and_eq_true, decide_eq_true_eq] at h
    have h1 : (0 : ℝ) ≤ a := by exact_mod_cast h.1
    have := ih h.2
    rw [evQ]
    positivity

/-- The numerator of `1/y² - T(y) + T(y+1)`. -/
def stepNum (ts : List ℚ) : List ℚ :=
  addQ (mulQ (tailFr [0, 1] ts).2 (tailFr [1, 1] ts).2)
    (mulQ [0, 0, 1] (addQ (mulQ (tailFr [1, 1] ts).1 (tailFr [0, 1] ts).2)
      (scQ (-1) (mulQ (tailFr [0, 1] ts).1 (tailFr [1, 1] ts).2))))

theorem step_eq (ts : List ℚ) {y : ℝ} (hy : 0 < y) :
    ∃ d, 0 < d ∧ evQ y (stepNum ts) = d * (1 / y ^ 2 - tailR y ts + tailR (y + 1) ts) := by
  have e0 : evQ y [0, 1] = y := by simp [evQ]
  have e1 : evQ y [1, 1] = y + 1 := by simp [evQ]; ring
  have e2 : evQ y [0, 0, 1] = y ^ 2 := by simp [evQ]; ring
  obtain ⟨a, b⟩ := tailFr_eq [0, 1] (x := y) (by rw [e0]; exact hy) ts
  obtain ⟨c, d⟩ := tailFr_eq [1, 1] (x := y) (by rw [e1]; linarith) ts
  refine ⟨y ^ 2 * evQ y (tailFr [0, 1] ts).2 * evQ y (tailFr [1, 1] ts).2, by positivity, ?_⟩
  rw [stepNum, evQ_add, evQ_mul, evQ_mul, evQ_add, evQ_sc, evQ_mul, evQ_mul, b, d, e0, e1, e2]
  field_simp
  push_cast
  ring

theorem lo_step {y : ℝ} (hy : 0 < y) : tailR y loTail - tailR (y + 1) loTail ≤ 1 / y ^ 2 := by
  obtain ⟨d, hd, h⟩ := step_eq loTail hy
  have hn : 0 ≤ evQ y (stepNum loTail) := evQ_nonneg (by decide +kernel) hy.le
  rw [h] at hn
  have := nonneg_of_mul_nonneg_right hn hd
  linarith

theorem hi_step {y : ℝ} (hy : 0 < y) : 1 / y ^ 2 ≤ tailR y hiTail - tailR (y + 1) hiTail := by
  obtain ⟨d, hd, h⟩ := step_eq hiTail hy
  have hn : 0 ≤ evQ y (scQ (-1) (stepNum hiTail)) := evQ_nonneg (by decide +kernel) hy.le
  rw [evQ_sc, h] at hn
  have : 0 ≤ d * (-(1 / y ^ 2 - tailR y hiTail + tailR (y + 1) hiTail)) := by push_cast at hn; linarith
  have := nonneg_of_mul_nonneg_right this hd
  linarith

theorem sq_sum_bounds {y : ℝ} (hy : 0 < y) (n : ℕ) :
    tailR y loTail - tailR (y + n) loTail ≤ ∑ i ∈ Finset.range n, 1 / (y + i) ^ 2 ∧
      ∑ i ∈ Finset.range n, 1 / (y + i) ^ 2 ≤ tailR y hiTail - tailR (y + n) hiTail := by
  induction n with
  | zero => simp
  | succ n ih =>
    have hp : 0 < y + n := by positivity
    have a := lo_step hp
    have b := hi_step hp
    rw [Finset.sum_range_succ]
    push_cast
    rw [show y + (n + 1 : ℝ) = y + n + 1 by ring]
    constructor <;> linarith [ih.1, ih.2]

theorem tail_abs {y : ℝ} (hy : 1 ≤ y) (ts : List ℚ) : |tailR y ts| ≤ absQ 1 ts / y := by
  induction ts with
  | nil => simp [tailR, absQ]
  | cons t ts ih =>
    have hy0 : 0 < y := by linarith
    rw [tailR, absQ, abs_div, abs_of_pos hy0]
    refine div_le_div_of_nonneg_right ?_ hy0.le
    push_cast
    refine (abs_add_le _ _).trans (add_le_add le_rfl ?_)
    have h0 : (0 : ℝ) ≤ absQ 1 ts := by exact_mod_cast absQ_nonneg (by norm_num) ts
    rw [one_mul]
    exact ih.trans (div_le_self h0 hy)

/-! ### The polynomial -/

/-- Approximate Taylor coefficients of `1/Γ(1+v)`. -/
def rGam : List ℚ :=
  [1, 57721566490153286060651209/100000000000000000000000000,
    -1024809486750396689182843/1562500000000000000000000, -4200263503409523552900393/100000000000000000000000000,
    104086632113932180938563/625000000000000000000000, -421977345555443367482083/10000000000000000000000000,
    -240549288196924339052873/25000000000000000000000000, 721894324666309954239501/100000000000000000000000000,
    -116516759185906511211397/100000000000000000000000000, -21524167411495097281573/100000000000000000000000000,
    320125705970290465383/2500000000000000000000000, -2013485478078823865569/100000000000000000000000000,
    -25009869642853413147/20000000000000000000000000, 113302723198169588237/100000000000000000000000000,
    -4112676833955214207/20000000000000000000000000, 305804755224070791/50000000000000000000000000,
    500200764446922293/100000000000000000000000000, -59063728524351007/50000000000000000000000000,
    2086853423382201/20000000000000000000000000, 778226343990507/100000000000000000000000000,
    -369680561864221/100000000000000000000000000, 10200740574909/20000000000000000000000000,
    -2058326053567/100000000000000000000000000]

/-- The bound on the second derivative. -/
def cGam : ℚ := 6 / 10 ^ 16

/-- `R'' R - R'²`. -/
def wGam : List ℚ := addQ (mulQ (dQ (dQ rGam)) rGam) (scQ (-1) (mulQ (dQ rGam) (dQ rGam)))

def loFr : List ℚ × List ℚ := headFr (tailFr [11, 1] loTail) 10

def hiFr : List ℚ × List ℚ := headFr (tailFr [11, 1] hiTail) 10

def loPoly : List ℚ :=
  addQ (mulQ wGam loFr.2) (mulQ (mulQ rGam rGam) (addQ loFr.1 (scQ cGam loFr.2)))

def hiPoly : List ℚ :=
  addQ (scQ (-1) (mulQ wGam hiFr.2)) (mulQ (mulQ rGam rGam) (addQ (scQ (-1) hiFr.1) (scQ cGam hiFr.2)))

theorem rGam_pos {v : ℝ} (hv : |v| ≤ 1 / 2) : 0 < evQ v rGam :=
  posQ_pos (n := 4) (by norm_num) (by decide +kernel) hv

end JG.BesK
