import Verif.Model.Wrap
import Mathlib.Algebra.BigOperators.Intervals
import Mathlib.Tactic.Ring
import Mathlib.Tactic.Linarith
import Mathlib.Tactic.LinearCombination
import Mathlib.Tactic.Positivity
import Mathlib.Algebra.Star.Basic

/-! Helper lemmas for wrapping. -/

namespace JG
open Finset

section
variable {M : Type} [AddCommMonoid M]

theorem loopX_eq (sim : Arr M) (m yl : ℕ) (k : ℕ) : ∀ xl fim i j,
    loopX sim m yl k xl fim i j = fim i j + ∑ c ∈ range k, sim.at' (yl + i) (xl + c * m + j) := by
  induction k with
  | zero => intro xl fim i j; simp [loopX]
  | succ k ih =>
    intro xl fim i j
    rw [loopX, ih, sum_range_succ']
    simp only [Nat.zero_mul, Nat.add_zero]
    rw [add_assoc, add_comm (sim.at' (yl + i) (xl + j))]
    congr 2
    apply sum_congr rfl
    intro c _
    congr 1
    ring

theorem loopY_eq (sim : Arr M) (nx m m' : ℕ) (k : ℕ) : ∀ yl fim i j,
    loopY sim nx m m' k yl fim i j
      = fim i j + ∑ b ∈ range k, ∑ c ∈ range nx, sim.at' (yl + b * m' + i) (c * m + j) := by
  induction k with
  | zero => intro yl fim i j; simp [loopY]
  | succ k ih =>
    intro yl fim i j
    rw [loopY, ih, loopX_eq, sum_range_succ']
    simp only [Nat.zero_mul, Nat.add_zero, Nat.zero_add]
    rw [add_assoc, add_comm (∑ c ∈ range nx, sim.at' (yl + i) (c * m + j))]
    congr 2
    apply sum_congr rfl
    intro b _
    apply sum_congr rfl
    intro c _
    congr 1
    ring

theorem sum_div_mod (nx : ℕ) (hx : 0 < nx) (g : ℕ → ℕ → M) (ny : ℕ) :
    ∑ k ∈ range (ny * nx), g (k / nx) (k % nx) = ∑ b ∈ range ny, ∑ c ∈ range nx, g b c := by
  induction ny with
  | zero => simp
  | succ n ih =>
    rw [Nat.succ_mul, sum_range_add, ih, sum_range_succ]
    congr 1
    apply sum_congr rfl
    intro c hc
    rw [mem_range] at hc
    have h1 : (n * nx + c) / nx = n := by
      rw [Nat.add_comm, Nat.add_mul_div_right _ _ hx, Nat.div_eq_of_lt hc]; simp
    have h2 : (n * nx + c) % nx = c := by
      rw [Nat.add_comm, Nat.add_mul_mod_self_right, Nat.mod_eq_of_lt hc]
    rw [h1, h2]

theorem nWindows_eq (n m : ℕ) (hm : 0 < m) (hn : 0 < n) : nWindows (n * m) m = n := by
  unfold nWindows
  have h : m ≤ n * m := Nat.le_mul_of_pos_left m hn
  have : n * m - m + 1 + (m - 1) = n * m := by omega
  rw [this, Nat.mul_div_cancel _ hm]

/-- Both reduction strategies compute the sum over all blocks. -/
theorem blockReduce_agree (sim : Arr M) (nx ny m m' : ℕ) (hm : 0 < m) (hm' : 0 < m') (hnx : 0 < nx)
    (hny : 0 < ny) (hw : sim.w = nx * m) (hh : sim.h = ny * m') (i j : ℕ) :
    (blockReduceIndex sim m m').at' i j = ∑ b ∈ range ny, ∑ c ∈ range nx, sim.at' (b * m' + i) (c * m + j) ∧
    (blockReduceLoop sim nx ny m m').at' i j
      = ∑ b ∈ range ny, ∑ c ∈ range nx, sim.at' (b * m' + i) (c * m + j) := by
  constructor
  · simp only [blockReduceIndex]
    rw [hw, hh, nWindows_eq ny m' hm' hny, nWindows_eq nx m hm hnx]
    exact sum_div_mod nx hnx (fun b c => sim.at' (b * m' + i) (c * m + j)) ny
  · simp only [blockReduceLoop]
    rw [loopY_eq]
    simp

theorem nBlocks_spec (n m : ℕ) (hm : 0 < m) (hn : 0 < n) : 0 < nBlocks n m ∧ n ≤ nBlocks n m * m := by
  unfold nBlocks
  have h := Nat.div_add_mod n m
  have hlt := Nat.mod_lt n hm
  split
  · refine ⟨Nat.succ_pos _, ?_⟩
    rw [Nat.add_mul, Nat.mul_comm (n / m) m]; omega
  · rename_i hc
    push Not at hc
    refine ⟨?_, ?_⟩
    · by_contra h0
      have : n / m = 0 := Nat.eq_zero_of_not_pos h0
      rw [this, hc, Nat.mul_zero] at h; omega
    · rw [Nat.mul_comm]; omega

/-- One-dimensional reindexing: block entries of the padded and rolled line are the entries in the
congruence class. -/
theorem wrap_sum (f : ℕ → M) (N n m : ℕ) (hm : 0 < m) (hn : 0 < n) (hN : N ≤ n * m) (s r : ℤ) (j : ℕ) :
    ∑ c ∈ range n, (fun x => if x < N then f x else 0) (((((c * m + j : ℕ) : ℤ) + s) % ((n * m : ℕ) : ℤ)).toNat)
      = ∑ X ∈ (Ico r (r + N)).filter (fun X => (m : ℤ) ∣ X - (r + s + j)), f (X - r).toNat := by
  have hP : (0 : ℤ) < ((n * m : ℕ) : ℤ) := by exact_mod_cast Nat.mul_pos hn hm
  have hmd : (m : ℤ) ∣ ((n * m : ℕ) : ℤ) := ⟨n, by push_cast; ring⟩
  -- to all residues of the padded line
  have step1 : ∑ c ∈ range n, (fun x => if x < N then f x else 0)
        (((((c * m + j : ℕ) : ℤ) + s) % ((n * m : ℕ) : ℤ)).toNat)
      = ∑ X ∈ (Ico r (r + (n * m : ℕ))).filter (fun X => (m : ℤ) ∣ X - (r + s + j)),
          (fun x => if x < N then f x else 0) (X - r).toNat := by
    apply sum_nbij' (fun c : ℕ => r + (((c * m + j : ℕ) : ℤ) + s) % ((n * m : ℕ) : ℤ))
      (fun X : ℤ => (((X - r - s - j) % ((n * m : ℕ) : ℤ)) / m).toNat)
    · intro c hc
      rw [mem_filter, mem_Ico]
      have h1 := Int.emod_nonneg (((c * m + j : ℕ) : ℤ) + s) hP.ne'
      have h2 := Int.emod_lt_of_pos (((c * m + j : ℕ) : ℤ) + s) hP
      refine ⟨⟨by linarith, by linarith⟩, ?_⟩
      have e := Int.emod_add_mul_ediv (((c * m + j : ℕ) : ℤ) + s) ((n * m : ℕ) : ℤ)
      set q := (((c * m + j : ℕ) : ℤ) + s) / ((n * m : ℕ) : ℤ)
      set t := (((c * m + j : ℕ) : ℤ) + s) % ((n * m : ℕ) : ℤ)
      refine ⟨c - n * q, ?_⟩
      push_cast at e ⊢
      linear_combination e
    · intro X hX
      rw [mem_filter, mem_Ico] at hX
      rw [mem_range]
      have h1 := Int.emod_nonneg (X - r - s - j) hP.ne'
      have h2 := Int.emod_lt_of_pos (X - r - s - j) hP
      have hm' : (0 : ℤ) < m := by exact_mod_cast hm
      have h3 : ((X - r - s - j) % ((n * m : ℕ) : ℤ)) / m < n := by
        apply Int.ediv_lt_of_lt_mul hm'
        push_cast at h2 ⊢
        exact h2
      have h4 : 0 ≤ ((X - r - s - j) % ((n * m : ℕ) : ℤ)) / m := Int.ediv_nonneg h1 hm'.le
      omega
    · intro c hc
      rw [mem_range] at hc
      have hm' : (0 : ℤ) < m := by exact_mod_cast hm
      have e1 : (r + (((c * m + j : ℕ) : ℤ) + s) % ((n * m : ℕ) : ℤ) - r - s - j) % ((n * m : ℕ) : ℤ)
          = (c : ℤ) * m := by
        have : (r + (((c * m + j : ℕ) : ℤ) + s) % ((n * m : ℕ) : ℤ) - r - s - j)
            = (((c * m + j : ℕ) : ℤ) + s) % ((n * m : ℕ) : ℤ) - (s + j) := by ring
        rw [this, Int.emod_sub_emod]
        have : ((c * m + j : ℕ) : ℤ) + s - (s + j) = (c : ℤ) * m := by push_cast; ring
        rw [this]
        apply Int.emod_eq_of_lt
        · positivity
        · push_cast
          exact mul_lt_mul_of_pos_right (by exact_mod_cast hc) hm'
      simp only [e1]
      rw [Int.mul_ediv_cancel _ hm'.ne']
      simp
    · intro X hX
      rw [mem_filter, mem_Ico] at hX
      obtain ⟨⟨hX1, hX2⟩, hd⟩ := hX
      have hm' : (0 : ℤ) < m := by exact_mod_cast hm
      have hd' : (m : ℤ) ∣ (X - r - s - j) % ((n * m : ℕ) : ℤ) := by
        rw [Int.dvd_iff_emod_eq_zero, Int.emod_emod_of_dvd _ hmd, ← Int.dvd_iff_emod_eq_zero]
        have : X - r - s - j = X - (r + s + j) := by ring
        rw [this]; exact hd
      have h1 := Int.emod_nonneg (X - r - s - j) hP.ne'
      have h4 : 0 ≤ ((X - r - s - j) % ((n * m : ℕ) : ℤ)) / m := Int.ediv_nonneg h1 hm'.le
      have e : ((((((X - r - s - j) % ((n * m : ℕ) : ℤ)) / m).toNat * m + j : ℕ) : ℤ)) + s
          = (X - r - s - j) % ((n * m : ℕ) : ℤ) + (s + j) := by
        generalize ((n * m : ℕ) : ℤ) = P at h4 hd' ⊢
        push_cast
        rw [Int.toNat_of_nonneg h4, Int.ediv_mul_cancel hd']; ring
      rw [e, Int.emod_add_emod]
      have : X - r - s - j + (s + j) = X - r := by ring
      rw [this, Int.emod_eq_of_lt (by linarith) (by linarith)]
      ring
    · intro c _
      have : r + (((c * m + j : ℕ) : ℤ) + s) % ((n * m : ℕ) : ℤ) - r
          = (((c * m + j : ℕ) : ℤ) + s) % ((n * m : ℕ) : ℤ) := by ring
      rw [this]
  rw [step1]
  -- drop the padding
  rw [← sum_filter_add_sum_filter_not _ (fun X => X < r + N)]
  have z : ∑ X ∈ ((Ico r (r + (n * m : ℕ))).filter (fun X => (m : ℤ) ∣ X - (r + s + j))).filter
      (fun X => ¬ X < r + N), (fun x => if x < N then f x else 0) (X - r).toNat = 0 := by
    apply sum_eq_zero
    intro X hX
    rw [mem_filter, mem_filter, mem_Ico] at hX
    simp only
    rw [if_neg]
    omega
  rw [z, add_zero]
  apply sum_congr
  · ext X
    simp only [mem_filter, mem_Ico]
    constructor
    · rintro ⟨⟨⟨h1, h2⟩, h3⟩, h4⟩; exact ⟨⟨h1, h4⟩, h3⟩
    · rintro ⟨⟨h1, h2⟩, h3⟩
      refine ⟨⟨⟨h1, ?_⟩, h3⟩, h2⟩
      have : ((N : ℕ) : ℤ) ≤ ((n * m : ℕ) : ℤ) := by exact_mod_cast hN
      linarith
  · intro X hX
    rw [mem_filter, mem_Ico] at hX
    simp only
    rw [if_pos]
    omega

end
end JG
