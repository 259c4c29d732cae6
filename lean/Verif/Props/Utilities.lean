import Verif.Model.Utilities
import Mathlib.Algebra.BigOperators.Group.Finset.Basic
import Mathlib.Algebra.BigOperators.Ring.Finset
import Mathlib.Algebra.BigOperators.Fin
import Mathlib.Data.List.Perm.Basic
import Mathlib.Data.List.GetD
import Mathlib.Tactic.Ring
import Mathlib.Tactic.Linarith

/-! Properties C12 (Horner evaluation) and C13 (position arguments). -/

namespace JG
open Finset

/-! ### C12 -/

section
variable {R : Type} [CommRing R]

/-- Specification: the polynomial with the given coefficients in ascending order. -/
def polySum (x : R) (c : List R) : R := ∑ k ∈ range c.length, c.getD k 0 * x ^ k

/-- Specification: the two-dimensional polynomial. -/
def polySum2 (x y : R) (c : List (List R)) : R :=
  ∑ i ∈ range c.length, ∑ j ∈ range (c.getD i []).length, (c.getD i []).getD j 0 * x ^ i * y ^ j

theorem polySum_cons (x c : R) (cs : List R) : polySum x (c :: cs) = c + x * polySum x cs := by
  unfold polySum
  rw [List.length_cons, sum_range_succ']
  simp only [List.getD_cons_succ, List.getD_cons_zero, pow_zero, mul_one]
  rw [add_comm, mul_sum]
  congr 1
  apply sum_congr rfl
  intro i _
  rw [pow_succ]; ring

theorem foldl_reverse_cons (x : R) (f : List R → R) (c : List R) (cs : List (List R)) :
    (c :: cs).reverse.foldl (fun r p => r * x + f p) 0
      = cs.reverse.foldl (fun r p => r * x + f p) 0 * x + f c := by
  simp [List.foldl_append]

/-- C12: `horner(x, coef)` is the polynomial value, for any number of coefficients. -/
theorem C12_horner (x : R) (c : List R) : horner x c = polySum x c := by
  have h : polyval c.reverse x = polySum x c := by
    induction c with
    | nil => simp [polyval, polySum]
    | cons a t ih =>
      rw [polySum_cons, ← ih]
      simp only [polyval, List.reverse_cons, List.foldl_append, List.foldl_cons, List.foldl_nil]
      ring
  unfold horner
  split
  · rename_i h0
    rw [List.length_eq_zero_iff] at h0
    simp [h0, polySum]
  · exact h

theorem polySum2_cons (x y : R) (c : List R) (cs : List (List R)) :
    polySum2 x y (c :: cs) = polySum y c + x * polySum2 x y cs := by
  unfold polySum2 polySum
  rw [List.length_cons, sum_range_succ']
  simp only [List.getD_cons_succ, List.getD_cons_zero, pow_zero, mul_one]
  rw [add_comm, mul_sum]
  congr 1
  apply sum_congr rfl
  intro i _
  rw [mul_sum]
  apply sum_congr rfl
  intro j _
  rw [pow_succ]; ring

theorem fold_polySum2 (x y : R) (c : List (List R)) :
    c.reverse.foldl (fun res p => res * x + horner y p) 0 = polySum2 x y c := by
  induction c with
  | nil => simp [polySum2]
  | cons a t ih =>
    rw [foldl_reverse_cons, ih, polySum2_cons, C12_horner]; ring

/-- C12: `horner2d` is the full double sum, for any (even ragged) coefficient array. -/
theorem C12_horner2d (x y : R) (c : List (List R)) : horner2d x y c false = some (polySum2 x y c) := by
  simp only [horner2d, Bool.false_eq_true, false_and, if_false]
  rw [fold_polySum2]

/-- The rows kept by `triangle=True`: entry `(i, j)` survives when `i + j < n`. -/
def upperLeft (c : List (List R)) : List (List R) :=
  c.mapIdx fun i row => row.mapIdx fun j v => if i + j < c.length then v else 0

theorem tril_reverse (c : List (List R)) : tril c.reverse = (upperLeft c).reverse := by
  apply List.ext_getElem
  · simp [tril, upperLeft]
  · intro r h1 h2
    simp only [tril, upperLeft, List.getElem_mapIdx, List.getElem_reverse, List.length_mapIdx]
    have hr : r < c.length := by simpa [tril] using h1
    apply List.ext_getElem
    · simp
    · intro j h3 h4
      simp only [List.getElem_mapIdx]
      congr 1
      apply propext
      omega

/-- C12: with `triangle=True` a square array evaluates to the sum over `i + j < n`. -/
theorem C12_triangle (x y : R) (c : List (List R)) (hs : ∀ row ∈ c, row.length = c.length) :
    horner2d x y c true =
      some (∑ i ∈ range c.length, ∑ j ∈ (range c.length).filter (fun j => i + j < c.length),
        (c.getD i []).getD j 0 * x ^ i * y ^ j) := by
  have hsq : isSquare c = true := by
    unfold isSquare; rw [List.all_eq_true]; intro r hr; simpa using hs r hr
  simp only [horner2d, hsq, not_true_eq_false, and_false, if_false, if_true]
  rw [tril_reverse, fold_polySum2]
  congr 1
  unfold polySum2
  have hl : (upperLeft c).length = c.length := by simp [upperLeft]
  rw [hl]
  apply sum_congr rfl
  intro i hi
  rw [mem_range] at hi
  have hrow : (upperLeft c).getD i [] = (c[i]).mapIdx fun j v => if i + j < c.length then v else 0 := by
    rw [List.getD_eq_getElem _ _ (by rw [hl]; exact hi)]
    simp [upperLeft]
  have hci : c.getD i [] = c[i] := List.getD_eq_getElem _ _ hi
  rw [hrow, hci, List.length_mapIdx, hs _ (List.getElem_mem hi), sum_filter]
  apply sum_congr rfl
  intro j hj
  rw [mem_range] at hj
  have hj' : j < (c[i]).length := by rw [hs _ (List.getElem_mem hi)]; exact hj
  rw [List.getD_eq_getElem _ _ (by rw [List.length_mapIdx]; exact hj'),
    List.getD_eq_getElem _ _ hj']
  simp only [List.getElem_mapIdx]
  split <;> simp

/-- C12: with `triangle=True` the full sum is obtained when the array is upper-left triangular, and
a non-square array is refused. -/
theorem C12_triangle_full (x y : R) (c : List (List R)) :
    ((∀ row ∈ c, row.length = c.length) →
      (∀ i j, c.length ≤ i + j → (c.getD i []).getD j 0 = 0) →
      horner2d x y c true = some (polySum2 x y c)) ∧
    ((∃ row ∈ c, row.length ≠ c.length) → horner2d x y c true = none) := by
  constructor
  · intro hs hz
    rw [C12_triangle x y c hs]
    congr 1
    unfold polySum2
    apply sum_congr rfl
    intro i hi
    rw [mem_range] at hi
    have hci : c.getD i [] = c[i] := List.getD_eq_getElem _ _ hi
    have hlen : (c.getD i []).length = c.length := by rw [hci]; exact hs _ (List.getElem_mem hi)
    rw [hlen, sum_filter]
    apply sum_congr rfl
    intro j _
    split
    · rfl
    · rename_i h
      rw [hz i j (by omega)]; ring
  · rintro ⟨row, hr, hne⟩
    have : isSquare c = false := by
      unfold isSquare
      rw [List.all_eq_false]
      exact ⟨row, hr, by simpa using hne⟩
    simp [horner2d, this]

end

example : horner (2 : ℤ) [1, 2, 3] = 17 := by decide
example : horner2d (2 : ℤ) 3 [[1, 2], [5, 0]] true = some 17 := by decide
example : (∀ row ∈ [[(1:ℤ), 2], [5, 0]], row.length = 2) := by decide

/-! ### C13 -/

/-- Specification: the keywords are exactly the given names (in any order) with the given values. -/
def KwExactly (kw : List (String × PArg)) (names : List String) (vs : List PArg) : Prop :=
  vs.length = names.length ∧ kw.Perm (names.zip vs)

/-- Specification: the legal spellings of "position `(x, y)` and further values `vals`". -/
inductive Spelling (name1 name2 : String) (integer : Bool) (others : List String) :
    List PArg → List (String × PArg) → ℝ → ℝ → List PArg → Prop
  | twoScalars (x y : ℝ) (extra vs : List PArg) (kw) : extra.length ≤ others.length →
      KwExactly kw (others.drop extra.length) vs →
      Spelling name1 name2 integer others (.num x :: .num y :: extra) kw x y (extra ++ vs)
  | posI (x y : ℤ) (extra vs : List PArg) (kw) : extra.length ≤ others.length →
      KwExactly kw (others.drop extra.length) vs →
      Spelling name1 name2 integer others (.pos (.I x y) :: extra) kw x y (extra ++ vs)
  | posD (x y : ℝ) (extra vs : List PArg) (kw) : integer = false → extra.length ≤ others.length →
      KwExactly kw (others.drop extra.length) vs →
      Spelling name1 name2 integer others (.pos (.D x y) :: extra) kw x y (extra ++ vs)
  | pair (x y : ℝ) (extra vs : List PArg) (kw) : extra.length ≤ others.length →
      KwExactly kw (others.drop extra.length) vs →
      Spelling name1 name2 integer others (.seq [x, y] :: extra) kw x y (extra ++ vs)
  | jpair (x y : ℝ) (extra vs : List PArg) (kw) : extra.length ≤ others.length →
      KwExactly kw (others.drop extra.length) vs →
      Spelling name1 name2 integer others (.jarr [x, y] :: extra) kw x y (extra ++ vs)
  | keywords (x y : ℝ) (vs : List PArg) (kw) :
      KwExactly kw (name1 :: name2 :: others) (.num x :: .num y :: vs) →
      Spelling name1 name2 integer others [] kw x y vs

/-- Specification: the position object for the numbers `x, y` (`none`: refused). -/
noncomputable def posFor (integer : Bool) (x y : ℝ) (p : Position) : Prop :=
  if integer then ∃ i j : ℤ, x = i ∧ y = j ∧ p = .I i j else p = .D x y

/-- Arguments whose first entry, if a sequence, has length two. -/
def CleanArgs : List PArg → Prop
  | .seq l :: _ => l.length = 2
  | .jarr l :: _ => l.length = 2
  | _ => True

theorem find_of_mem {kw : List (String × PArg)} (hk : (kw.map Prod.fst).Nodup) {n : String} {v : PArg}
    (h : (n, v) ∈ kw) : kw.find? (fun p => p.1 = n) = some (n, v) := by
  induction kw with
  | nil => simp at h
  | cons p t ih =>
    rw [List.map_cons, List.nodup_cons] at hk
    rcases List.mem_cons.mp h with h | h
    · rw [← h]; simp
    · have : p.1 ≠ n := by
        intro hc
        apply hk.1
        rw [hc]; exact List.mem_map.mpr ⟨_, h, rfl⟩
      rw [List.find?_cons_of_neg (by simpa using this)]
      exact ih hk.2 h

theorem perm_pop {kw : List (String × PArg)} (hk : (kw.map Prod.fst).Nodup) {n : String} {v : PArg}
    (h : (n, v) ∈ kw) : kw.Perm ((n, v) :: kw.filter (fun q => q.1 ≠ n)) := by
  induction kw with
  | nil => simp at h
  | cons p t ih =>
    rw [List.map_cons, List.nodup_cons] at hk
    rcases List.mem_cons.mp h with h | h
    · rw [← h]
      have ht : t.filter (fun q => q.1 ≠ n) = t := by
        apply List.filter_eq_self.mpr
        intro q hq
        simp only [decide_eq_true_eq]
        intro hc
        apply hk.1
        rw [← h, ← hc]
        exact List.mem_map.mpr ⟨_, hq, rfl⟩
      have : List.filter (fun q : String × PArg => decide (q.1 ≠ n)) ((n, v) :: t) = t := by
        rw [List.filter_cons_of_neg (by simp)]; exact ht
      rw [this]
    · have : p.1 ≠ n := by
        intro hc
        apply hk.1
        rw [hc]; exact List.mem_map.mpr ⟨_, h, rfl⟩
      rw [List.filter_cons_of_pos (by simpa using this)]
      exact ((ih hk.2 h).cons p).trans (List.Perm.swap _ _ _)

theorem popKw_iff {kw : List (String × PArg)} (hk : (kw.map Prod.fst).Nodup) (n : String) (v : PArg)
    (kw' : List (String × PArg)) : popKw kw n = some (v, kw') ↔
      (n, v) ∈ kw ∧ kw' = kw.filter (fun q => q.1 ≠ n) := by
  unfold popKw
  constructor
  · intro h
    split at h
    · rename_i p hp
      have h1 := List.mem_of_find?_eq_some hp
      have h2 := List.find?_some hp
      simp only [decide_eq_true_eq] at h2
      simp only [Option.some.injEq, Prod.mk.injEq] at h
      refine ⟨?_, h.2.symm⟩
      rw [← h.1, ← h2]; exact h1
    · exact absurd h (by simp)
  · rintro ⟨h1, h2⟩
    rw [find_of_mem hk h1, h2]

theorem filter_keys_nodup {kw : List (String × PArg)} (hk : (kw.map Prod.fst).Nodup)
    (f : String × PArg → Bool) : ((kw.filter f).map Prod.fst).Nodup :=
  hk.sublist (List.filter_sublist.map _)

theorem popOthers_perm (names : List String) : ∀ (kw : List (String × PArg)),
    (kw.map Prod.fst).Nodup → ∀ vs kw', popOthers kw names = some (vs, kw') →
      vs.length = names.length ∧ kw.Perm (names.zip vs ++ kw') := by
  induction names with
  | nil =>
    intro kw _ vs kw' h
    simp only [popOthers, Option.some.injEq, Prod.mk.injEq] at h
    simp [← h.1, ← h.2]
  | cons n ns ih =>
    intro kw hk vs kw' h
    simp only [popOthers] at h
    split at h
    · exact absurd h (by simp)
    · rename_i v kw1 hp
      rw [popKw_iff hk] at hp
      split at h
      · exact absurd h (by simp)
      · rename_i vs1 kw2 hq
        simp only [Option.some.injEq, Prod.mk.injEq] at h
        have hk1 : (kw1.map Prod.fst).Nodup := by rw [hp.2]; exact filter_keys_nodup hk _
        obtain ⟨hl, hperm⟩ := ih kw1 hk1 _ _ hq
        rw [← h.1, ← h.2]
        refine ⟨by simp [hl], ?_⟩
        rw [List.zip_cons_cons, List.cons_append]
        refine (perm_pop hk hp.1).trans (List.Perm.cons _ ?_)
        rw [← hp.2]; exact hperm

theorem popOthers_iff (names : List String) : ∀ (kw : List (String × PArg)),
    (kw.map Prod.fst).Nodup → ∀ vs, popOthers kw names = some (vs, []) ↔ KwExactly kw names vs := by
  intro kw hk vs
  constructor
  · intro h
    have := popOthers_perm names kw hk vs [] h
    rw [List.append_nil] at this
    exact this
  · induction names generalizing kw vs with
    | nil =>
      rintro ⟨hl, hp⟩
      have : vs = [] := List.length_eq_zero_iff.mp hl
      rw [this] at hp ⊢
      have : kw = [] := List.Perm.eq_nil hp
      rw [this]; rfl
    | cons n ns ih =>
      rintro ⟨hl, hp⟩
      cases vs with
      | nil => simp at hl
      | cons v vs =>
        rw [List.zip_cons_cons] at hp
        have hm : (n, v) ∈ kw := hp.mem_iff.mpr (by simp)
        have hpop := (popKw_iff hk n v _).mpr ⟨hm, rfl⟩
        have h1 : (kw.filter (fun q => q.1 ≠ n)).Perm (ns.zip vs) :=
          List.Perm.cons_inv ((perm_pop hk hm).symm.trans hp)
        have := ih _ (filter_keys_nodup hk _) vs ⟨by simpa using hl, h1⟩
        simp only [popOthers, hpop, this]

theorem mkPosArgs_iff (integer : Bool) (a b : PArg) (p : Position) :
    mkPosArgs integer a b = some p ↔ ∃ x y, a = .num x ∧ b = .num y ∧ posFor integer x y p := by
  cases a <;> cases b <;> simp only [mkPosArgs, reduceCtorEq, false_and, exists_false, and_false]
  rename_i x y
  constructor
  · intro h
    refine ⟨x, y, rfl, rfl, ?_⟩
    unfold posFor
    split at h
    · rename_i hi
      rw [if_pos hi]
      unfold mkPosI asInt at h
      split at h
      · rename_i a b ha hb
        split at ha
        · split at hb
          · rename_i h1 h2
            refine ⟨_, _, h1, h2, ?_⟩
            simp only [Option.some.injEq] at h ha hb
            rw [← h, ← ha, ← hb]
          · exact absurd hb (by simp)
        · exact absurd ha (by simp)
      · exact absurd h (by simp)
    · rename_i hi
      rw [if_neg hi]
      simpa using h.symm
  · rintro ⟨x', y', hx, hy, h⟩
    cases hx; cases hy
    unfold posFor at h
    split at h
    · rename_i hi
      rw [if_pos hi]
      obtain ⟨i, j, rfl, rfl, rfl⟩ := h
      simp [mkPosI, asInt]
    · rename_i hi
      rw [if_neg hi, h]

theorem parseFinish_iff (integer : Bool) (a b : PArg) (vals : List PArg) (others : List String)
    (kw : List (String × PArg)) (hk : (kw.map Prod.fst).Nodup) (p : Position) (r : List PArg) :
    parseFinish integer a b vals others kw = .ok (p, r) ↔
      ∃ x y vs, a = .num x ∧ b = .num y ∧ posFor integer x y p ∧ KwExactly kw others vs ∧
        r = vals ++ vs := by
  unfold parseFinish
  constructor
  · intro h
    split at h
    · exact absurd h (by simp)
    · rename_i vs kw' hp
      split at h
      · rename_i he
        rw [List.isEmpty_iff] at he
        rw [he, popOthers_iff _ _ hk] at hp
        split at h
        · rename_i q hq
          rw [mkPosArgs_iff] at hq
          obtain ⟨x, y, hx, hy, hf⟩ := hq
          simp only [Except.ok.injEq, Prod.mk.injEq] at h
          exact ⟨x, y, vs, hx, hy, h.1 ▸ hf, hp, h.2.symm⟩
        · exact absurd h (by simp)
      · exact absurd h (by simp)
  · rintro ⟨x, y, vs, hx, hy, hf, hp, hr⟩
    rw [← popOthers_iff _ _ hk] at hp
    have := (mkPosArgs_iff integer a b p).mpr ⟨x, y, hx, hy, hf⟩
    simp [hp, this, hr]

/-- C13: for arguments whose first sequence has two entries, parsing succeeds exactly on the legal
spellings, and then gives exactly the spelled position and values. -/
theorem C13_parse_iff_partial (args : List PArg) (kw : List (String × PArg)) (name1 name2 : String)
    (integer : Bool) (others : List String) (hk : (kw.map Prod.fst).Nodup) (hc : CleanArgs args)
    (p : Position) (vals : List PArg) :
    parsePosArgs args kw name1 name2 integer others = .ok (p, vals) ↔
      ∃ x y, Spelling name1 name2 integer others args kw x y vals ∧ posFor integer x y p := by
  cases args with
  | nil =>
    simp only [parsePosArgs]
    constructor
    · intro h
      split at h
      · exact absurd h (by simp)
      · rename_i a kw1 h1
        split at h
        · exact absurd h (by simp)
        · rename_i b kw2 h2
          rw [popKw_iff hk] at h1
          have hk1 : (kw1.map Prod.fst).Nodup := by rw [h1.2]; exact filter_keys_nodup hk _
          rw [popKw_iff hk1] at h2
          have hk2 : (kw2.map Prod.fst).Nodup := by rw [h2.2]; exact filter_keys_nodup hk1 _
          rw [parseFinish_iff _ _ _ _ _ _ hk2] at h
          obtain ⟨x, y, vs, hx, hy, hf, hp, hr⟩ := h
          refine ⟨x, y, ?_, hf⟩
          rw [hr]
          apply Spelling.keywords
          refine ⟨by simp [hp.1], ?_⟩
          rw [List.zip_cons_cons, List.zip_cons_cons, ← hx, ← hy]
          refine (perm_pop hk h1.1).trans (List.Perm.cons _ ?_)
          rw [← h1.2]
          refine (perm_pop hk1 h2.1).trans (List.Perm.cons _ ?_)
          rw [← h2.2]; exact hp.2
    · rintro ⟨x, y, h, hf⟩
      cases h with
      | keywords _ _ _ _ hp =>
        obtain ⟨hl, hp⟩ := hp
        rw [List.zip_cons_cons, List.zip_cons_cons] at hp
        have m1 : (name1, PArg.num x) ∈ kw := hp.mem_iff.mpr (by simp)
        have p1 := List.Perm.cons_inv ((perm_pop hk m1).symm.trans hp)
        have hk1 := filter_keys_nodup hk (fun q => decide (q.1 ≠ name1))
        have m2 : (name2, PArg.num y) ∈ kw.filter (fun q => decide (q.1 ≠ name1)) :=
          p1.mem_iff.mpr (by simp)
        have p2 := List.Perm.cons_inv ((perm_pop hk1 m2).symm.trans p1)
        have hk2 := filter_keys_nodup hk1 (fun q => decide (q.1 ≠ name2))
        rw [(popKw_iff hk name1 _ _).mpr ⟨m1, rfl⟩]
        simp only
        rw [(popKw_iff hk1 name2 _ _).mpr ⟨m2, rfl⟩]
        simp only
        rw [parseFinish_iff _ _ _ _ _ _ hk2]
        exact ⟨x, y, vals, rfl, rfl, hf, ⟨by simpa using hl, p2⟩, by simp⟩
  | cons a rest =>
    -- the first argument gives a position by itself
    have single : ∀ (x y : ℝ), rest.length ≤ others.length →
        (parseFinish integer (.num x) (.num y) rest (others.drop rest.length) kw = .ok (p, vals) ↔
          ∃ vs, posFor integer x y p ∧ KwExactly kw (others.drop rest.length) vs ∧
            vals = rest ++ vs) := by
      intro x y _
      rw [parseFinish_iff _ _ _ _ _ _ hk]
      constructor
      · rintro ⟨x', y', vs, hx, hy, hf, hp, hr⟩
        cases hx; cases hy
        exact ⟨vs, hf, hp, hr⟩
      · rintro ⟨vs, hf, hp, hr⟩
        exact ⟨x, y, vs, rfl, rfl, hf, hp, hr⟩
    -- the fall-through branch
    have two : parseTwo integer a rest others kw = .ok (p, vals) ↔
        ∃ x y extra vs, a = .num x ∧ rest = .num y :: extra ∧ extra.length ≤ others.length ∧
          KwExactly kw (others.drop extra.length) vs ∧ vals = extra ++ vs ∧ posFor integer x y p := by
      cases rest with
      | nil => simp [parseTwo]
      | cons b r =>
        simp only [parseTwo]
        split
        · rename_i hle
          rw [parseFinish_iff _ _ _ _ _ _ hk]
          constructor
          · rintro ⟨x, y, vs, hx, hy, hf, hp, hr⟩
            exact ⟨x, y, r, vs, hx, by rw [hy], hle, hp, hr, hf⟩
          · rintro ⟨x, y, extra, vs, hx, hy, _, hp, hr, hf⟩
            obtain ⟨hb, rfl⟩ := List.cons.inj hy
            exact ⟨x, y, vs, hx, hb, hf, hp, hr⟩
        · rename_i hle
          constructor
          · intro h; exact absurd h (by simp)
          · rintro ⟨x, y, extra, vs, hx, hy, h, _⟩
            obtain ⟨_, rfl⟩ := List.cons.inj hy
            exact absurd h hle
    simp only [parsePosArgs]
    cases a with
    | num v =>
      simp only [asPosArg, canIndex, ite_self]
      rw [two]
      constructor
      · rintro ⟨x, y, extra, vs, hx, hy, hle, hp, hr, hf⟩
        refine ⟨x, y, ?_, hf⟩
        cases hx; rw [hy, hr]
        exact .twoScalars _ _ _ _ _ hle hp
      · rintro ⟨x, y, h, hf⟩
        cases h with
        | twoScalars _ _ extra vs _ hle hp => exact ⟨_, _, extra, vs, rfl, rfl, hle, hp, rfl, hf⟩
    | pos q =>
      simp only [canIndex, ite_self]
      cases q with
      | I i j =>
        simp only [asPosArg]
        by_cases hle : rest.length ≤ others.length
        · simp only [hle, if_true]
          rw [single _ _ hle]
          constructor
          · rintro ⟨vs, hf, hp, hr⟩
            exact ⟨_, _, hr ▸ .posI i j _ _ _ hle hp, hf⟩
          · rintro ⟨x, y, h, hf⟩
            cases h with
            | posI _ _ _ vs _ _ hp => exact ⟨vs, hf, hp, rfl⟩
        · simp only [hle, if_false]
          rw [two]
          constructor
          · rintro ⟨x, y, extra, vs, hx, _⟩; cases hx
          · rintro ⟨x, y, h, hf⟩
            cases h with
            | posI _ _ _ vs _ h _ => exact absurd h hle
      | D x0 y0 =>
        simp only [asPosArg]
        by_cases hle : rest.length ≤ others.length
        · cases integer with
          | false =>
            simp only [hle, if_true, Bool.false_eq_true, if_false]
            rw [single _ _ hle]
            constructor
            · rintro ⟨vs, hf, hp, hr⟩
              exact ⟨_, _, hr ▸ .posD x0 y0 _ _ _ rfl hle hp, hf⟩
            · rintro ⟨x, y, h, hf⟩
              cases h with
              | posD _ _ _ vs _ _ _ hp => exact ⟨vs, hf, hp, rfl⟩
          | true =>
            simp only [hle, if_true]
            rw [two]
            constructor
            · rintro ⟨x, y, extra, vs, hx, _⟩; cases hx
            · rintro ⟨x, y, h, hf⟩
              cases h with
              | posD _ _ _ vs _ h _ _ => exact absurd h (by simp)
        · simp only [hle, if_false]
          rw [two]
          constructor
          · rintro ⟨x, y, extra, vs, hx, _⟩; cases hx
          · rintro ⟨x, y, h, hf⟩
            cases h with
            | posD _ _ _ vs _ _ h _ => exact absurd h hle
    | seq l =>
      obtain ⟨x0, y0, rfl⟩ := List.length_eq_two.mp hc
      simp only [asPosArg, canIndex, ite_self]
      by_cases hle : rest.length ≤ others.length
      · simp only [hle, if_true]
        rw [single _ _ hle]
        constructor
        · rintro ⟨vs, hf, hp, hr⟩
          exact ⟨_, _, hr ▸ .pair x0 y0 _ _ _ hle hp, hf⟩
        · rintro ⟨x, y, h, hf⟩
          cases h with
          | pair _ _ _ vs _ _ hp => exact ⟨vs, hf, hp, rfl⟩
      · simp only [hle, if_false]
        rw [two]
        constructor
        · rintro ⟨x, y, extra, vs, hx, _⟩; cases hx
        · rintro ⟨x, y, h, hf⟩
          cases h with
          | pair _ _ _ vs _ h _ => exact absurd h hle
    | jarr l =>
      obtain ⟨x0, y0, rfl⟩ := List.length_eq_two.mp hc
      have g : canIndex (.jarr [x0, y0]) = some (x0, y0) := by simp [canIndex, jaxGet]
      simp only [asPosArg, g, ite_self]
      by_cases hle : rest.length ≤ others.length
      · simp only [hle, if_true]
        rw [single _ _ hle]
        constructor
        · rintro ⟨vs, hf, hp, hr⟩
          exact ⟨_, _, hr ▸ .jpair x0 y0 _ _ _ hle hp, hf⟩
        · rintro ⟨x, y, h, hf⟩
          cases h with
          | jpair _ _ _ vs _ _ hp => exact ⟨vs, hf, hp, rfl⟩
      · simp only [hle, if_false]
        rw [two]
        constructor
        · rintro ⟨x, y, extra, vs, hx, _⟩; cases hx
        · rintro ⟨x, y, h, hf⟩
          cases h with
          | jpair _ _ _ vs _ h _ => exact absurd h hle

theorem popOthers_none (names : List String) : ∀ (kw : List (String × PArg)),
    popOthers kw names = none → ¬ names.Nodup ∨ ∃ n ∈ names, n ∉ kw.map Prod.fst := by
  induction names with
  | nil => intro kw h; exact absurd h (by simp [popOthers])
  | cons n ns ih =>
    intro kw h
    simp only [popOthers] at h
    split at h
    · rename_i hp
      right
      refine ⟨n, by simp, ?_⟩
      intro hm
      obtain ⟨q, hq, hqn⟩ := List.mem_map.mp hm
      unfold popKw at hp
      split at hp
      · exact absurd hp (by simp)
      · rename_i hf
        rw [List.find?_eq_none] at hf
        exact hf q hq (by simpa using hqn)
    · rename_i v kw1 hp
      split at h
      · rename_i hq
        rcases ih kw1 hq with hd | ⟨m, hm, hmk⟩
        · left; exact fun hc => hd (List.nodup_cons.mp hc).2
        · by_cases hmn : m = n
          · left; intro hc; exact (List.nodup_cons.mp hc).1 (hmn ▸ hm)
          · right
            refine ⟨m, List.mem_cons_of_mem _ hm, ?_⟩
            intro hmem
            apply hmk
            unfold popKw at hp
            split at hp
            · simp only [Option.some.injEq, Prod.mk.injEq] at hp
              rw [← hp.2]
              obtain ⟨q, hq', hqm⟩ := List.mem_map.mp hmem
              refine List.mem_map.mpr ⟨q, List.mem_filter.mpr ⟨hq', ?_⟩, hqm⟩
              simp only [decide_eq_true_eq]
              rw [hqm]; exact hmn
            · exact absurd hp (by simp)
      · exact absurd h (by simp)

/-- C13: everything else is a `TypeError`, except when one of the further values is missing from the
keywords (then it is a `KeyError`). -/
theorem C13_error_kind_partial (args : List PArg) (kw : List (String × PArg)) (name1 name2 : String)
    (integer : Bool) (others : List String) (ho : others.Nodup)
    (hn : name1 ∉ others ∧ name2 ∉ others)
    (h : parsePosArgs args kw name1 name2 integer others = .error .keyError) :
    ∃ n ∈ others, n ∉ kw.map Prod.fst := by
  have fin : ∀ a b vals k kw', parseFinish integer a b vals (others.drop k) kw' = .error .keyError →
      ∃ n ∈ others, n ∉ kw'.map Prod.fst := by
    intro a b vals k kw' h
    unfold parseFinish at h
    split at h
    · rename_i hp
      rcases popOthers_none _ _ hp with hd | ⟨n, hm, hk⟩
      · exact absurd (ho.sublist (List.drop_sublist _ _)) hd
      · exact ⟨n, List.drop_subset _ _ hm, hk⟩
    · split at h
      · split at h <;> simp at h
      · simp at h
  have keep : ∀ (kw kw' : List (String × PArg)) m v, popKw kw m = some (v, kw') →
      ∀ n ∈ others, m ∉ others → n ∉ kw'.map Prod.fst → n ∉ kw.map Prod.fst := by
    intro kw kw' m v hp n hno hmo hnk hmem
    unfold popKw at hp
    split at hp
    · simp only [Option.some.injEq, Prod.mk.injEq] at hp
      apply hnk
      rw [← hp.2]
      obtain ⟨q, hq', hqm⟩ := List.mem_map.mp hmem
      refine List.mem_map.mpr ⟨q, List.mem_filter.mpr ⟨hq', ?_⟩, hqm⟩
      simp only [decide_eq_true_eq]
      rw [hqm]; exact fun hc => hmo (hc ▸ hno)
    · exact absurd hp (by simp)
  unfold parsePosArgs at h
  split at h
  · split at h
    · simp at h
    · rename_i x kw1 h1
      split at h
      · simp at h
      · rename_i y kw2 h2
        obtain ⟨n, hno, hnk⟩ := fin _ _ _ 0 _ h
        exact ⟨n, hno, keep _ _ _ _ h1 n hno hn.1 (keep _ _ _ _ h2 n hno hn.2 hnk)⟩
  · split at h
    · exact fin _ _ _ _ _ h
    · split at h
      · exact fin _ _ _ _ _ h
      · unfold parseTwo at h
        split at h
        · simp at h
        · split at h
          · exact fin _ _ _ _ _ h
          · simp at h

/-- Disagreement: a missing value gives `KeyError`, not `TypeError`
(`image.setValue(1, 2)` without a value). -/
theorem C13_keyerror_counterexample :
    parsePosArgs [.num 1, .num 2] [] "x" "y" true ["value"] = .error .keyError := by
  simp [parsePosArgs, parseTwo, asPosArg, canIndex, parseFinish, popOthers, popKw]

/-- Disagreement: a sequence longer than two is silently truncated, and a one-element jax array is
read as `(v, v)`, instead of raising `TypeError`. -/
theorem C13_sequence_counterexample (v w u : ℝ) :
    parsePosArgs [.seq [v, w, u]] [] "x" "y" false [] = .ok (.D v w, []) ∧
    parsePosArgs [.jarr [v]] [] "x" "y" false [] = .ok (.D v v, []) := by
  constructor <;>
    simp [parsePosArgs, asPosArg, canIndex, jaxGet, parseFinish, popOthers, mkPosArgs]

-- three spellings of the same position with a value
example : Spelling "x" "y" true ["value"] [.num 1, .num 2] [("value", .num 7)] 1 2 [.num 7] :=
  .twoScalars 1 2 [] [.num 7] _ (by simp) ⟨rfl, by simp⟩
example : Spelling "x" "y" true ["value"] [] [("y", .num 2), ("value", .num 7), ("x", .num 1)]
    1 2 [.num 7] := by
  refine .keywords 1 2 [.num 7] _ ⟨rfl, ?_⟩
  simp only [List.zip_cons_cons, List.zip_nil_right]
  exact (List.perm_append_comm (l₁ := [("y", PArg.num 2), ("value", PArg.num 7)])
    (l₂ := [("x", PArg.num 1)]))
example : posFor true 1 2 (.I 1 2) := by
  unfold posFor; simp only [if_true]; exact ⟨1, 2, by norm_num, by norm_num, rfl⟩
example : ((["y", "value", "x"] : List String)).Nodup ∧ CleanArgs [.seq [1, 2]] := ⟨by decide, rfl⟩

end JG
