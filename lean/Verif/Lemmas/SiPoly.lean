import Verif.Lemmas.GammaTaylor
import Verif.Model.BesselSi

/-! # Polynomial inequalities for the approximations of the sine integral -/

namespace JG.Si

open JG.BesK

theorem nest_eq (y : ℝ) (l : List ℚ) : nest y l = evQ y l := by
  induction l with
  | nil => rfl
  | cons a l ih => simp only [nest, evQ, ih]

/-- Positivity on the interval from `lo` to `hi`, from the Taylor expansion at its middle. -/
def posOn (lo hi : ℚ) (l : List ℚ) : Bool :=
  match shiftQ ((lo + hi) / 2) l with
  | [] => false
  | a :: t => decide ((hi - lo) / 2 * absQ ((hi - lo) / 2) t < a)

theorem posOn_pos {lo hi : ℚ} {l : List ℚ} (h : posOn lo hi l = true) {x : ℝ} (h0 : (lo : ℝ) ≤ x) (h1 : x ≤ hi) : 0 < evQ x l := by
  obtain ⟨c, hc⟩ : ∃ c : ℚ, c = (lo + hi) / 2 := ⟨_, rfl⟩
  obtain ⟨r, hr⟩ : ∃ r : ℚ, r = (hi - lo) / 2 := ⟨_, rfl⟩
  have e : evQ x l = evQ (x - c) (shiftQ c l) := by rw [evQ_shift]; congr 1; ring
  simp only [posOn, ← hc, ← hr] at h
  have hx : |x - c| ≤ (r : ℝ) := by
    rw [hc, hr]
    push_cast
    rw [abs_le]
    constructor <;> linarith
  rw [e]
  cases hs : shiftQ c l with
  | nil => rw [hs] at h; simp at h
  | cons a t =>
    rw [hs] at h
    simp only [decide_eq_true_eq] at h
    have ht := evQ_abs hx t
    have hR : ((r * absQ r t : ℚ) : ℝ) < (a : ℝ) := by exact_mod_cast h
    rw [Rat.cast_mul] at hR
    have hm : |(x - c) * evQ (x - c) t| ≤ (r : ℝ) * (absQ r t : ℝ) := by
      rw [abs_mul]
      exact mul_le_mul hx ht (abs_nonneg _) ((abs_nonneg _).trans hx)
    have := (abs_le.mp hm).1
    rw [evQ]
    linarith

/-- Positivity on the intervals between consecutive points. -/
def posBr : ℚ → List ℚ → List ℚ → Bool
  | _, [], _ => true
  | lo, hi :: bs, l => posOn lo hi l && posBr hi bs l

theorem posBr_pos {lo : ℚ} {bs : List ℚ} {l : List ℚ} (h : posBr lo bs l = true) {x : ℝ} (h0 : (lo : ℝ) ≤ x) {b : ℚ} (hb : b ∈ bs)
    (h1 : x ≤ b) : 0 < evQ x l := by
  induction bs generalizing lo with
  | nil => simp at hb
  | cons hi bs ih =>
    simp only [posBr, Bool.and_eq_true] at h
    rcases le_total x (hi : ℝ) with hx | hx
    · exact posOn_pos h.1 h0 hx
    · rcases List.mem_cons.mp hb with rfl | hb
      · exact posOn_pos h.1 h0 h1
      · exact ih h.2 hx hb

/-! ### The two residuals -/

/-- `y⁻¹ (f' + g)` with the approximations for `f` and `g`, times `aDen`. -/
def aNum : List ℚ :=
  addQ (addQ (scQ (-1) (mulQ (mulQ fNum fDen) gDen))
    (scQ (-2) (0 :: mulQ (addQ (mulQ (dQ fNum) fDen) (scQ (-1) (mulQ fNum (dQ fDen)))) gDen))) (mulQ gNum (mulQ fDen fDen))

def aDen : List ℚ := mulQ (mulQ fDen fDen) gDen

/-- `(fNum - fDen)/y`. -/
def fDiff : List ℚ := (addQ fNum (scQ (-1) fDen)).tail

/-- `y⁻¹ x (f - g' - 1/x)`, times `bDen`. -/
def bNum : List ℚ :=
  addQ (addQ (mulQ (mulQ fDiff gDen) gDen) (scQ 2 (mulQ (mulQ gNum gDen) fDen)))
    (scQ 2 (0 :: mulQ (addQ (mulQ (dQ gNum) gDen) (scQ (-1) (mulQ gNum (dQ gDen)))) fDen))

def bDen : List ℚ := mulQ fDen (mulQ gDen gDen)

def aBreaks : List ℚ :=
  [1/16384, 1/8192, 1/4096, 1/2048, 3/4096, 1/1024, 9/8192, 5/4096, 3/2048, 1/512, 9/4096, 5/2048, 11/4096, 3/1024, 7/2048,
    1/256, 9/2048, 5/1024, 3/512, 13/2048, 7/1024, 1/128, 9/1024, 5/512, 11/1024, 3/256, 13/1024, 7/512, 15/1024, 1/64,
    9/512, 5/256, 11/512, 3/128, 13/512, 7/256, 15/512, 1/32, 17/512, 9/256, 19/512, 5/128, 11/256, 3/64, 13/256, 7/128,
    15/256, 1/16]

def bBreaks : List ℚ :=
  [1/32768, 1/16384, 1/8192, 1/4096, 3/8192, 1/2048, 3/4096, 7/8192, 1/1024, 5/4096, 3/2048, 7/4096, 1/512, 9/4096, 5/2048,
    3/1024, 13/4096, 7/2048, 1/256, 5/1024, 11/2048, 3/512, 7/1024, 1/128, 9/1024, 5/512, 11/1024, 3/256, 13/1024, 7/512,
    15/1024, 1/64, 9/512, 5/256, 11/512, 3/128, 13/512, 7/256, 15/512, 1/32, 17/512, 9/256, 19/512, 5/128, 21/512, 11/256,
    3/64, 13/256, 7/128, 15/256, 1/16]

theorem a_pos (s : ℚ) (hs : s = 1 ∨ s = -1) : posBr 0 aBreaks (addQ (scQ (1 / 10 ^ 14) aDen) (scQ s aNum)) = true := by
  rcases hs with rfl | rfl <;> decide +kernel

theorem b_pos (s : ℚ) (hs : s = 1 ∨ s = -1) :
    posBr 0 bBreaks (addQ (scQ (1 / 10 ^ 15) bDen) (scQ s (mulQ [1 / 10 ^ 4, 1] bNum))) = true := by
  rcases hs with rfl | rfl <;> decide +kernel

theorem a_bound {y : ℝ} (h0 : 0 ≤ y) (h1 : y ≤ 1 / 16) : |evQ y aNum| ≤ 1 / 10 ^ 14 * evQ y aDen := by
  have p := posBr_pos (a_pos 1 (Or.inl rfl)) (x := y) (by simpa using h0) (b := 1 / 16) (by decide +kernel) (by push_cast; linarith)
  have m := posBr_pos (a_pos (-1) (Or.inr rfl)) (x := y) (by simpa using h0) (b := 1 / 16) (by decide +kernel) (by push_cast; linarith)
  rw [evQ_add, evQ_sc, evQ_sc] at p m
  push_cast at p m
  rw [abs_le]
  constructor <;> linarith

theorem b_bound {y : ℝ} (h0 : 0 ≤ y) (h1 : y ≤ 1 / 16) : |(1 / 10 ^ 4 + y) * evQ y bNum| ≤ 1 / 10 ^ 15 * evQ y bDen := by
  have p := posBr_pos (b_pos 1 (Or.inl rfl)) (x := y) (by simpa using h0) (b := 1 / 16) (by decide +kernel) (by push_cast; linarith)
  have m := posBr_pos (b_pos (-1) (Or.inr rfl)) (x := y) (by simpa using h0) (b := 1 / 16) (by decide +kernel) (by push_cast; linarith)
  rw [evQ_add, evQ_sc, evQ_sc, evQ_mul] at p m
  have e : evQ y [1 / 10 ^ 4, 1] = 1 / 10 ^ 4 + y := by simp [evQ]
  rw [e] at p m
  push_cast at p m
  rw [abs_le]
  constructor <;> linarith

end JG.Si
