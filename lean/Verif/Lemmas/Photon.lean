import Verif.Model.Photon
import Mathlib.Algebra.BigOperators.Ring.Finset
import Mathlib.Algebra.BigOperators.Fin
import Mathlib.Tactic.FieldSimp
import Mathlib.Tactic.Linarith
import Mathlib.Tactic.Ring
import Mathlib.Tactic.NormNum

/-! Helper lemmas for photon arrays. -/

namespace JG
variable {N M : ℕ}

/-- Number of unmasked entries of a mask. -/
def cnt (f : Fin N → Bool) : ℕ := (Finset.univ.filter fun i => f i = false).card

theorem numKeep_eq (p : PhotonArray N) : p.numKeep = cnt fun i => (p.ph i).nokeep := rfl

theorem cnt_perm (f : Fin N → Bool) (σ : Equiv.Perm (Fin N)) : cnt (fun i => f (σ i)) = cnt f := by
  unfold cnt
  apply Finset.card_bij (fun i _ => σ i)
  · intro i hi; simpa using hi
  · intro i _ j _ h; exact σ.injective h
  · intro j hj; exact ⟨σ.symm j, by simpa using hj, by simp⟩

theorem cnt_le (f : Fin N → Bool) : cnt f ≤ N := by
  unfold cnt
  exact (Finset.card_filter_le _ _).trans (by simp)

theorem cnt_eq_iff (f : Fin N → Bool) : cnt f = N ↔ ∀ i, f i = false := by
  unfold cnt
  constructor
  · intro h i
    have : (Finset.univ.filter fun i => f i = false) = Finset.univ := by
      apply Finset.eq_univ_of_card; simpa using h
    have hi : i ∈ (Finset.univ.filter fun i => f i = false) := by rw [this]; simp
    simpa using hi
  · intro h
    rw [Finset.filter_true_of_mem (fun i _ => h i)]; simp

theorem cnt_ge (n : ℕ) (hn : n ≤ N) : cnt (fun i : Fin N => decide ((i : ℕ) ≥ n)) = n := by
  unfold cnt
  simp only [decide_eq_false_iff_not, not_le, ge_iff_le]
  rw [Fin.card_filter_val_lt]; omega

theorem cnt_ge' (n : ℕ) (hn : N ≤ n) : cnt (fun i : Fin N => decide ((i : ℕ) ≥ n)) = N := by
  rw [cnt_eq_iff]; intro i; simp; omega

theorem sorted_iff (f : Fin N → Bool) (h : Monotone f) (i : Fin N) : f i = false ↔ (i : ℕ) < cnt f := by
  have := Tuple.lt_card_lt_iff_apply_lt_of_monotone (j := i) (f := f) (a := true) h
  unfold cnt
  have e : ∀ b : Bool, b < true ↔ b = false := by decide
  simp only [e] at this
  exact this.symm

theorem sort_iff (f : Fin N → Bool) (i : Fin N) :
    f (Tuple.sort f i) = false ↔ (i : ℕ) < cnt f := by
  have h := sorted_iff (fun j => f (Tuple.sort f j)) (Tuple.monotone_sort f) i
  rw [cnt_perm] at h
  exact h

theorem sort_symm_iff (f : Fin N → Bool) (i : Fin N) :
    f i = false ↔ (((Tuple.sort f).symm i : Fin N) : ℕ) < cnt f := by
  have := sort_iff f ((Tuple.sort f).symm i)
  simpa using this

/-- Positions of kept entries in sorted order follow the original order. -/
theorem sort_symm_lt (f : Fin N → Bool) (i j : Fin N) (hij : i < j) (h : f i = f j) :
    (Tuple.sort f).symm i < (Tuple.sort f).symm j := by
  by_contra hc
  have hne : (Tuple.sort f).symm i ≠ (Tuple.sort f).symm j := by
    intro e; have := (Tuple.sort f).symm.injective e; omega
  have hlt : (Tuple.sort f).symm j < (Tuple.sort f).symm i :=
    lt_of_le_of_ne (not_lt.mp hc) (Ne.symm hne)
  have := (Tuple.eq_sort_iff.mp (rfl : Tuple.sort f = Tuple.sort f)).2 _ _ hlt (by simp [h])
  simp at this
  omega

theorem setNumKeep_ph (p : PhotonArray N) (n : ℕ) (i : Fin N) :
    (p.setNumKeep n).ph i = { p.ph i with nokeep := decide (((p.argsort.symm i : Fin N) : ℕ) ≥ n) } := by
  simp [PhotonArray.setNumKeep, PhotonArray.scatter, PhotonArray.gather]

theorem setAt_hit {β : Type} {m : ℕ} (old : Fin N → β) (t : Fin m → Fin N) (v : Fin m → β)
    (ht : Function.Injective t) (k : Fin m) : setAt old t v (t k) = v k := ht.extend_apply v old k

theorem setAt_miss {β : Type} {m : ℕ} (old : Fin N → β) (t : Fin m → Fin N) (v : Fin m → β)
    (i : Fin N) (h : ∀ k, t k ≠ i) : setAt old t v i = old i :=
  Function.extend_apply' _ _ _ (by rintro ⟨k, hk⟩; exact h k hk)

theorem condSetAt_hit {m : ℕ} (old : Fin N → Option ℝ) (t : Fin m → Fin N) (v : Fin m → Option ℝ) (c : Bool)
    (ht : Function.Injective t) (k : Fin m) :
    condSetAt old t v c (t k) = if c then v k else old (t k) := by
  unfold condSetAt; cases c
  · simp
  · simp [setAt_hit _ _ _ ht]

theorem condSetAt_miss {m : ℕ} (old : Fin N → Option ℝ) (t : Fin m → Fin N) (v : Fin m → Option ℝ) (c : Bool)
    (i : Fin N) (h : ∀ k, t k ≠ i) : condSetAt old t v c i = old i := by
  unfold condSetAt; cases c
  · simp
  · simp [setAt_miss _ _ _ i h]

theorem copyFrom_miss {m : ℕ} (p : PhotonArray N) (r : PhotonArray M) (t : Fin m → Fin N) (s : Fin m → Fin M)
    (i : Fin N) (hi : ∀ k, t k ≠ i) :
    { (p.copyFrom r t s true true true).ph i with flux := (p.ph i).flux } = p.ph i := by
  ext1 <;> simp [PhotonArray.copyFrom, condSetAt_miss _ _ _ _ i hi, setAt_miss _ _ _ i hi]

end JG
