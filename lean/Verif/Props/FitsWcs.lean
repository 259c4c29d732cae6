import Verif.Model.FitsWcs
import Verif.Props.Utilities
import Mathlib.Tactic.IntervalCases
import Mathlib.Tactic.FieldSimp

/-!
C58: `TanWCS`.  C59: distortion tables of FITS headers (TPV, SIP, TNX).
-/

namespace JG.FitsW
open Finset

/-! ### Tables as polynomials -/

/-- Specification: the polynomial with the coefficients of total degree below `n`. -/
noncomputable def triPoly (n : ℕ) (c : ℕ → ℕ → ℝ) (x y : ℝ) : ℝ :=
  ∑ i ∈ range n, ∑ j ∈ (range n).filter (fun j => i + j < n), c i j * x ^ i * y ^ j

theorem rows_getD (t : Tab) (i j : ℕ) (hi : i < t.n) (hj : j < t.n) : (t.rows.getD i []).getD j 0 = t.c i j := by
  simp [Tab.rows, List.getD, hi, hj]

theorem eval_eq (t : Tab) (x y : ℝ) : t.eval x y = triPoly t.n t.c x y := by
  unfold Tab.eval
  have hl : t.rows.length = t.n := by simp [Tab.rows]
  rw [C12_triangle x y t.rows (by
    intro row hrow
    rw [hl]
    unfold Tab.rows at hrow
    rw [List.mem_map] at hrow
    obtain ⟨i, _, rfl⟩ := hrow
    simp)]
  rw [Option.getD_some, hl]
  unfold triPoly
  refine sum_congr rfl fun i hi => sum_congr rfl fun j hj => ?_
  rw [mem_range] at hi
  rw [mem_filter, mem_range] at hj
  rw [rows_getD t i j hi hj.1]

/-! ### C59: TPV -/

/-- Specification: the terms of the TPV convention without odd powers of the radius: key number, power of the
axis' own coordinate, power of the other coordinate. -/
def tpvTerms : List (ℕ × ℕ × ℕ) :=
  [(0, 0, 0), (1, 1, 0), (2, 0, 1), (4, 2, 0), (5, 1, 1), (6, 0, 2), (7, 3, 0), (8, 2, 1), (9, 1, 2), (10, 0, 3),
   (12, 4, 0), (13, 3, 1), (14, 2, 2), (15, 1, 3), (16, 0, 4),
   (17, 5, 0), (18, 4, 1), (19, 3, 2), (20, 2, 3), (21, 1, 4), (22, 0, 5),
   (24, 6, 0), (25, 5, 1), (26, 4, 2), (27, 3, 3), (28, 2, 4), (29, 1, 5), (30, 0, 6),
   (31, 7, 0), (32, 6, 1), (33, 5, 2), (34, 4, 3), (35, 3, 4), (36, 2, 5), (37, 1, 6), (38, 0, 7)]

/-- Specification: the TPV polynomial of the coefficients `c`, in the own and the other coordinate. -/
noncomputable def tpvPoly (c : ℕ → ℝ) (x y : ℝ) : ℝ := (tpvTerms.map fun e => c e.1 * x ^ e.2.1 * y ^ e.2.2).sum

/-- Position of a term in the list of terms. -/
def pos (i j : ℕ) : ℕ := (i + j) * (i + j + 1) / 2 + j

/-- Key number of a term. -/
def key (i j : ℕ) : ℕ := (tpvTerms.getD (pos i j) (0, 0, 0)).1

theorem pvList_eq (h : Hdr) (i : ℕ) : pvList h i = tpvTerms.map fun e => (h.pv i e.1).getD 0 := by
  have e : ((List.range 40).filter fun k => !oddIdx.contains k) = tpvTerms.map fun e => e.1 := by decide
  unfold pvList
  rw [e, List.map_map]
  rfl

theorem pvList_len (h : Hdr) (i : ℕ) : (pvList h i).length = 36 := by rw [pvList_eq, List.length_map]; rfl

theorem term_at : ∀ i < 8, ∀ j < 8 - i, tpvTerms.getD (pos i j) (0, 0, 0) = (key i j, i, j) ∧ pos i j < 36 := by decide

theorem term_mem : ∀ e ∈ tpvTerms, e.2.1 + e.2.2 < 8 ∧ e.1 = key e.2.1 e.2.2 := by decide

theorem pvList_getD (h : Hdr) (a i j : ℕ) (hij : i + j < 8) : (pvList h a).getD (pos i j) 0 = (h.pv a (key i j)).getD 0 := by
  obtain ⟨h1, h2⟩ := term_at i (by omega) j (by omega)
  rw [pvList_eq, List.getD_eq_getElem?_getD, List.getElem?_map]
  rw [List.getD_eq_getElem?_getD] at h1
  have hlen : pos i j < tpvTerms.length := h2
  rw [List.getElem?_eq_getElem hlen] at h1 ⊢
  simp only [Option.getD_some] at h1
  rw [h1]
  rfl

theorem tpvPoly_eq (c : ℕ → ℝ) (x y : ℝ) : tpvPoly c x y = triPoly 8 (fun i j => c (key i j)) x y := by
  have hk : key 0 0 = 0 ∧ key 1 0 = 1 ∧ key 0 1 = 2 ∧ key 2 0 = 4 ∧ key 1 1 = 5 ∧ key 0 2 = 6 ∧ key 3 0 = 7 ∧ key 2 1 = 8 ∧
    key 1 2 = 9 ∧ key 0 3 = 10 ∧ key 4 0 = 12 ∧ key 3 1 = 13 ∧ key 2 2 = 14 ∧ key 1 3 = 15 ∧ key 0 4 = 16 ∧ key 5 0 = 17 ∧
    key 4 1 = 18 ∧ key 3 2 = 19 ∧ key 2 3 = 20 ∧ key 1 4 = 21 ∧ key 0 5 = 22 ∧ key 6 0 = 24 ∧ key 5 1 = 25 ∧ key 4 2 = 26 ∧
    key 3 3 = 27 ∧ key 2 4 = 28 ∧ key 1 5 = 29 ∧ key 0 6 = 30 ∧ key 7 0 = 31 ∧ key 6 1 = 32 ∧ key 5 2 = 33 ∧ key 4 3 = 34 ∧
    key 3 4 = 35 ∧ key 2 5 = 36 ∧ key 1 6 = 37 ∧ key 0 7 = 38 := by decide
  obtain ⟨k0, k1, k2, k3, k4, k5, k6, k7, k8, k9, k10, k11, k12, k13, k14, k15, k16, k17, k18, k19, k20, k21, k22, k23, k24, k25,
    k26, k27, k28, k29, k30, k31, k32, k33, k34, k35⟩ := hk
  unfold tpvPoly triPoly
  simp only [sum_filter, sum_range_succ, sum_range_zero, tpvTerms, List.map_cons, List.map_nil, List.sum_cons, List.sum_nil]
  norm_num [k0, k1, k2, k3, k4, k5, k6, k7, k8, k9, k10, k11, k12, k13, k14, k15, k16, k17, k18, k19, k20, k21, k22, k23, k24, k25,
    k26, k27, k28, k29, k30, k31, k32, k33, k34, k35]
  ring

/-- Terms of higher degree that vanish can be left out. -/
theorem triPoly_trim (m n : ℕ) (h : m ≤ n) (c : ℕ → ℕ → ℝ) (hz : ∀ i j, m ≤ i + j → i + j < n → c i j = 0) (x y : ℝ) :
    triPoly n c x y = triPoly m c x y := by
  unfold triPoly
  symm
  have hs : range m ⊆ range n := by intro t; rw [mem_range, mem_range]; omega
  rw [sum_subset hs]
  · refine sum_congr rfl fun i hi => ?_
    refine sum_subset ?_ ?_
    · intro j hj; rw [mem_filter, mem_range] at *; omega
    · intro j hj hj'
      rw [mem_filter, mem_range] at *
      rw [hz i j (by omega) (by omega)]; ring
  · intro i _ hi
    refine sum_eq_zero fun j hj => ?_
    rw [mem_range] at hi
    rw [mem_filter, mem_range] at hj
    omega

theorem triPoly_congr (n : ℕ) (c d : ℕ → ℕ → ℝ) (h : ∀ i j, i + j < n → c i j = d i j) (x y : ℝ) : triPoly n c x y = triPoly n d x y := by
  unfold triPoly
  refine sum_congr rfl fun i _ => sum_congr rfl fun j hj => ?_
  rw [mem_filter] at hj
  rw [h i j hj.2]

theorem triPoly_swap (n : ℕ) (c : ℕ → ℕ → ℝ) (x y : ℝ) : triPoly n c x y = triPoly n (fun i j => c j i) y x := by
  unfold triPoly
  simp only [sum_filter]
  rw [sum_comm]
  refine sum_congr rfl fun i _ => sum_congr rfl fun j _ => ?_
  rw [show i + j = j + i by omega]
  split_ifs
  · ring
  · rfl

theorem lastNonzero_spec (l : List ℝ) (k : ℕ) :
    lastNonzero l = some k ↔ l.getD k 0 ≠ 0 ∧ ∀ m, k < m → l.getD m 0 = 0 := by
  classical
  have gen : ∀ n, n ≤ l.length → (((List.range n).filter fun k => decide (l.getD k 0 ≠ 0)).getLast? = some k ↔
      (k < n ∧ l.getD k 0 ≠ 0 ∧ ∀ m, k < m → m < n → l.getD m 0 = 0)) := by
    intro n
    induction n with
    | zero => intro _; simp
    | succ n ih =>
      intro hn
      rw [List.range_succ, List.filter_append]
      by_cases h0 : l.getD n 0 = 0
      · have : List.filter (fun k => decide (l.getD k 0 ≠ 0)) [n] = [] := by rw [List.filter_singleton, decide_eq_false (not_not.mpr h0)]; rfl
        rw [this, List.append_nil, ih (by omega)]
        constructor
        · rintro ⟨a, b, c⟩
          refine ⟨by omega, b, fun m m1 m2 => ?_⟩
          rcases Nat.lt_succ_iff_lt_or_eq.mp m2 with h | h
          · exact c m m1 h
          · rw [h]; exact h0
        · rintro ⟨a, b, c⟩
          have : k ≠ n := by rintro rfl; exact b h0
          exact ⟨by omega, b, fun m m1 m2 => c m m1 (by omega)⟩
      · have : List.filter (fun k => decide (l.getD k 0 ≠ 0)) [n] = [n] := by rw [List.filter_singleton, decide_eq_true h0]; rfl
        rw [this, List.getLast?_append]
        simp only [List.getLast?_singleton, Option.some_or, Option.some.injEq]
        constructor
        · rintro rfl
          exact ⟨by omega, h0, fun m m1 m2 => by omega⟩
        · rintro ⟨a, b, c⟩
          by_contra hne
          exact h0 (c n (by omega) (by omega))
  have g := gen l.length (le_refl _)
  unfold lastNonzero
  have conv : ∀ d : DecidablePred fun k => l.getD k 0 ≠ 0,
      ((List.range l.length).filter fun k => @decide _ (d k)) = (List.range l.length).filter fun k => decide (l.getD k 0 ≠ 0) := by
    intro d; congr 1
  rw [conv, g]
  constructor
  · rintro ⟨a, b, c⟩
    refine ⟨b, fun m hm => ?_⟩
    by_cases h : m < l.length
    · exact c m hm h
    · rw [List.getD_eq_default _ _ (by omega)]
  · rintro ⟨b, c⟩
    refine ⟨?_, b, fun m m1 _ => c m m1⟩
    by_contra h
    exact b (List.getD_eq_default _ _ (by omega))

theorem readIdx_mem (o : ℕ) (ho : o < 8) : (∀ e ∈ readIdx o, e.2.1 + e.2.2 ≤ o ∧ e.1 = pos e.2.1 e.2.2) ∧
    ∀ i < o + 1, ∀ j < o + 1 - i, (pos i j, i, j) ∈ readIdx o := by
  have h1 : ∀ o < 8, ∀ e ∈ readIdx o, e.2.1 + e.2.2 ≤ o ∧ e.1 = pos e.2.1 e.2.2 := by decide
  have h2 : ∀ i < o + 1, ∀ j < o + 1 - i, (pos i j, i, j) ∈ readIdx o := by interval_cases o <;> decide
  exact ⟨h1 o ho, h2⟩

/-- The arrays filled by the loop of `_read_tpv`. -/
theorem fill_eq (pv1 pv2 : List ℝ) (idx : List (ℕ × ℕ × ℕ)) (hpos : ∀ e ∈ idx, e.1 = pos e.2.1 e.2.2) (s : Tab × Tab) :
    let r := idx.foldl (fun (s : Tab × Tab) e =>
        ((⟨s.1.n, Function.update s.1.c e.2.1 (Function.update (s.1.c e.2.1) e.2.2 (pv1.getD e.1 0))⟩ : Tab),
          (⟨s.2.n, Function.update s.2.c e.2.2 (Function.update (s.2.c e.2.2) e.2.1 (pv2.getD e.1 0))⟩ : Tab))) s
    r.1.n = s.1.n ∧ r.2.n = s.2.n ∧
    (∀ i j, r.1.c i j = if (pos i j, i, j) ∈ idx then pv1.getD (pos i j) 0 else s.1.c i j) ∧
    ∀ i j, r.2.c j i = if (pos i j, i, j) ∈ idx then pv2.getD (pos i j) 0 else s.2.c j i := by
  induction idx generalizing s with
  | nil => simp
  | cons e t ih =>
    obtain ⟨k, a, b⟩ := e
    have hk : k = pos a b := hpos _ List.mem_cons_self
    subst hk
    obtain ⟨h1, h2, h3, h4⟩ := ih (fun e he => hpos e (List.mem_cons_of_mem _ he))
      (⟨s.1.n, Function.update s.1.c a (Function.update (s.1.c a) b (pv1.getD (pos a b) 0))⟩,
        ⟨s.2.n, Function.update s.2.c b (Function.update (s.2.c b) a (pv2.getD (pos a b) 0))⟩)
    simp only [List.foldl_cons]
    refine ⟨h1, h2, fun i j => ?_, fun i j => ?_⟩
    · rw [h3 i j]
      by_cases hij : i = a ∧ j = b
      · obtain ⟨rfl, rfl⟩ := hij
        simp
      · have : ¬ (pos i j, i, j) = (pos a b, a, b) := by
          intro he; rw [Prod.mk.injEq, Prod.mk.injEq] at he; exact hij he.2
        simp only [List.mem_cons, this, false_or]
        congr 1
        by_cases hi : i = a
        · subst hi
          rw [Function.update_self, Function.update_of_ne (fun h => hij ⟨rfl, h⟩)]
        · rw [Function.update_of_ne hi]
    · rw [h4 i j]
      by_cases hij : i = a ∧ j = b
      · obtain ⟨rfl, rfl⟩ := hij
        simp
      · have : ¬ (pos i j, i, j) = (pos a b, a, b) := by
          intro he; rw [Prod.mk.injEq, Prod.mk.injEq] at he; exact hij he.2
        simp only [List.mem_cons, this, false_or]
        congr 1
        by_cases hj : j = b
        · subst hj
          rw [Function.update_self, Function.update_of_ne (fun h => hij ⟨h, rfl⟩)]
        · rw [Function.update_of_ne hj]

/-- A TPV header: no odd powers of the radius, and each axis has a non-zero coefficient. -/
structure TpvHeader (h : Hdr) : Prop where
  noOdd : ∀ a, a = 1 ∨ a = 2 → ∀ k ∈ oddIdx, (h.pv a k).getD 0 = 0
  some : ∀ a, a = 1 ∨ a = 2 → ∃ e ∈ tpvTerms, (h.pv a e.1).getD 0 ≠ 0

theorem lastNonzero_exists (l : List ℝ) (h : ∃ k, l.getD k 0 ≠ 0) : ∃ k, lastNonzero l = some k := by
  obtain ⟨k0, hk0⟩ := h
  have hlt : k0 < l.length := by
    by_contra hc; exact hk0 (List.getD_eq_default _ _ (by omega))
  classical
  refine ⟨Nat.findGreatest (fun k => l.getD k 0 ≠ 0) l.length, (lastNonzero_spec _ _).mpr ⟨?_, fun m hm => ?_⟩⟩
  · exact Nat.findGreatest_spec (P := fun k => l.getD k 0 ≠ 0) hlt.le hk0
  · by_cases hl : m ≤ l.length
    · by_contra hne
      exact absurd hm (not_lt.mpr (Nat.le_findGreatest hl hne))
    · exact List.getD_eq_default _ _ (by omega)

/-- Reading succeeds with the arrays of the terms up to the order computed from the last non-zero position. -/
theorem readTpv_eq (h : Hdr) (hh : TpvHeader h) : ∃ (maxk : ℕ) (T : Tab × Tab), readTpv h = .ok T ∧ maxk < 36 ∧
    ((pvList h 1).getD maxk 0 ≠ 0 ∨ (pvList h 2).getD maxk 0 ≠ 0) ∧
    (∀ a, a = 1 ∨ a = 2 → ∀ m, maxk < m → (pvList h a).getD m 0 = 0) ∧ tpvOrder maxk < 8 ∧
    T.1.n = tpvOrder maxk + 1 ∧ T.2.n = tpvOrder maxk + 1 ∧
    (∀ i j, i + j ≤ tpvOrder maxk → T.1.c i j = (h.pv 1 (key i j)).getD 0 ∧ T.2.c j i = (h.pv 2 (key i j)).getD 0) := by
  have ex : ∀ a, a = 1 ∨ a = 2 → ∃ k, lastNonzero (pvList h a) = some k := by
    intro a ha
    obtain ⟨e, he, hne⟩ := hh.some a ha
    obtain ⟨m1, m2⟩ := term_mem e he
    refine lastNonzero_exists _ ⟨pos e.2.1 e.2.2, ?_⟩
    rw [pvList_getD h a _ _ m1, ← m2]; exact hne
  obtain ⟨k1, hk1⟩ := ex 1 (Or.inl rfl)
  obtain ⟨k2, hk2⟩ := ex 2 (Or.inr rfl)
  have s1 := (lastNonzero_spec _ _).mp hk1
  have s2 := (lastNonzero_spec _ _).mp hk2
  have lt : ∀ a k, (pvList h a).getD k 0 ≠ 0 → k < 36 := by
    intro a k hne
    by_contra hc
    exact hne (List.getD_eq_default _ _ (by rw [pvList_len]; omega))
  have l1 := lt 1 k1 s1.1
  have l2 := lt 2 k2 s2.1
  have ho : ∀ k < 36, tpvOrder k < 8 := by
    intro k hk
    unfold tpvOrder
    have : Nat.sqrt (2 * (k + 1)) < 9 := Nat.sqrt_lt'.mpr (by omega)
    omega
  have hm : max k1 k2 < 36 := by omega
  obtain ⟨i1, i2⟩ := readIdx_mem (tpvOrder (max k1 k2)) (ho _ hm)
  have fill := fill_eq (pvList h 1) (pvList h 2) (readIdx (tpvOrder (max k1 k2))) (fun e he => (i1 e he).2)
    (⟨tpvOrder (max k1 k2) + 1, fun _ _ => 0⟩, ⟨tpvOrder (max k1 k2) + 1, fun _ _ => 0⟩)
  simp only at fill
  obtain ⟨f1, f2, f3, f4⟩ := fill
  refine ⟨max k1 k2, _, ?_, hm, ?_, ?_, ho _ hm, f1, f2, ?_⟩
  · unfold readTpv
    rw [if_neg]
    · simp only [hk1, hk2]
    · rintro ⟨a, ha, k, hk, hne⟩
      refine hne (hh.noOdd a ?_ k hk)
      simpa using ha
  · rcases le_total k1 k2 with hle | hle
    · rw [max_eq_right hle]; exact Or.inr s2.1
    · rw [max_eq_left hle]; exact Or.inl s1.1
  · rintro a (rfl | rfl) m hm'
    · exact s1.2 m (by omega)
    · exact s2.2 m (by omega)
  · intro i j hij
    have hlt := ho _ hm
    have hmem := i2 i (by omega) j (by omega)
    rw [f3, f4, if_pos hmem, if_pos hmem, pvList_getD h 1 i j (by omega), pvList_getD h 2 i j (by omega)]
    exact ⟨rfl, rfl⟩

/-- The position of a term determines its degree. -/
theorem pos_range (i j : ℕ) : (i + j) * (i + j + 1) / 2 ≤ pos i j ∧ pos i j < (i + j + 1) * (i + j + 2) / 2 := by
  unfold pos
  have : (i + j + 1) * (i + j + 2) = (i + j) * (i + j + 1) + 2 * (i + j + 1) := by ring
  constructor
  · omega
  · rw [this, Nat.add_mul_div_left _ _ two_pos]; omega

theorem order_keeps (d j k : ℕ) (hd : d ≤ 2 * j + 1) (h1 : d * (d + 1) / 2 + j ≤ k) (h2 : k < (d + 1) * (d + 2) / 2) :
    tpvOrder k = d := by
  unfold tpvOrder
  have e1 : d * (d + 1) / 2 * 2 = d * (d + 1) := Nat.div_mul_cancel (Nat.even_mul_succ_self d).two_dvd
  have e2 : (d + 1) * (d + 2) / 2 * 2 = (d + 1) * (d + 2) := Nat.div_mul_cancel (Nat.even_mul_succ_self (d + 1)).two_dvd
  have : d + 1 = Nat.sqrt (2 * (k + 1)) := by
    rw [Nat.eq_sqrt]
    constructor <;> nlinarith
  omega

theorem key_term : ∀ i < 8, ∀ j < 8 - i, (key i j, i, j) ∈ tpvTerms := by decide

/-- C59 (partial): reading a TPV header gives, on each axis, the polynomial of the convention, provided that among
the terms of the highest degree `d` one with a non-zero coefficient has `d ≤ 2 j + 1`, `j` being the power of the
other coordinate.  Missing: without that condition the terms of highest degree are dropped, see
`C59_counterexample_tpv`. -/
theorem C59_tpv_read_partial (h : Hdr) (hh : TpvHeader h) (d : ℕ)
    (top : ∀ e ∈ tpvTerms, d < e.2.1 + e.2.2 → (h.pv 1 e.1).getD 0 = 0 ∧ (h.pv 2 e.1).getD 0 = 0)
    (upper : ∃ e ∈ tpvTerms, e.2.1 + e.2.2 = d ∧ d ≤ 2 * e.2.2 + 1 ∧ ((h.pv 1 e.1).getD 0 ≠ 0 ∨ (h.pv 2 e.1).getD 0 ≠ 0)) :
    ∃ T, readTpv h = .ok T ∧ T.1.n = d + 1 ∧ T.2.n = d + 1 ∧ ∀ x y, applyAb T x y =
      (tpvPoly (fun k => (h.pv 1 k).getD 0) x y, tpvPoly (fun k => (h.pv 2 k).getD 0) y x) := by
  obtain ⟨maxk, T, hT, hm, hne, hz, ho, n1, n2, hc⟩ := readTpv_eq h hh
  obtain ⟨e, he, hed, hej, hen⟩ := upper
  obtain ⟨e8, ek⟩ := term_mem e he
  have hd8 : d < 8 := by omega
  -- the last non-zero position lies in degree d
  have hlow : d * (d + 1) / 2 + e.2.2 ≤ maxk := by
    by_contra hc'
    have hp : pos e.2.1 e.2.2 = d * (d + 1) / 2 + e.2.2 := by unfold pos; rw [hed]
    have z1 := hz 1 (Or.inl rfl) (pos e.2.1 e.2.2) (by omega)
    have z2 := hz 2 (Or.inr rfl) (pos e.2.1 e.2.2) (by omega)
    rw [pvList_getD h _ _ _ e8, ← ek] at z1 z2
    rcases hen with h1 | h1
    · exact h1 z1
    · exact h1 z2
  have hhigh : maxk < (d + 1) * (d + 2) / 2 := by
    by_contra hc'
    have hterm : ∃ i j, i + j < 8 ∧ pos i j = maxk := by
      have all : ∀ k < 36, ∃ i < 8, ∃ j < 8 - i, pos i j = k := by decide
      obtain ⟨i, hi, j, hj, hp⟩ := all maxk hm
      exact ⟨i, j, by omega, hp⟩
    obtain ⟨i, j, hij, hp⟩ := hterm
    have hdeg : d < i + j := by
      by_contra hle
      have := (pos_range i j).2
      have mono : (i + j + 1) * (i + j + 2) ≤ (d + 1) * (d + 2) := Nat.mul_le_mul (by omega) (by omega)
      have := Nat.div_le_div_right (c := 2) mono
      omega
    have t := top _ (key_term i (by omega) j (by omega)) hdeg
    simp only at t
    rw [← hp, pvList_getD h 1 i j hij, pvList_getD h 2 i j hij] at hne
    rcases hne with h1 | h1
    · exact h1 t.1
    · exact h1 t.2
  have hord := order_keeps d e.2.2 maxk hej hlow hhigh
  rw [hord] at n1 n2 hc
  refine ⟨T, hT, n1, n2, fun x y => ?_⟩
  unfold applyAb
  have ztop : ∀ i j, d + 1 ≤ i + j → i + j < 8 → (h.pv 1 (key i j)).getD 0 = 0 ∧ (h.pv 2 (key i j)).getD 0 = 0 := by
    intro i j h1 h2
    exact top (key i j, i, j) (key_term i (by omega) j (by omega)) (by show d < i + j; omega)
  rw [eval_eq, eval_eq, n1, n2, tpvPoly_eq, tpvPoly_eq,
    triPoly_trim (d + 1) 8 (by omega) _ (fun i j h1 h2 => (ztop i j h1 h2).1),
    triPoly_trim (d + 1) 8 (by omega) _ (fun i j h1 h2 => (ztop i j h1 h2).2)]
  rw [Prod.mk.injEq]
  constructor
  · exact triPoly_congr _ _ _ (fun i j hij => (hc i j (by omega)).1) x y
  · rw [triPoly_swap]
    exact triPoly_congr _ _ _ (fun i j hij => (hc i j (by omega)).2) y x

/-- A header with the given `PV` keys only. -/
def pvHdr (pv : ℕ → ℕ → Option ℝ) : Hdr :=
  ⟨(.ra, "TPV"), (.dec, "TPV"), 0, 0, 0, 0, some ⟨1, 0, 0, 1⟩, none, none, none, pv, fun _ _ => none, fun _ _ => none,
    fun _ _ => none, fun _ _ => none, none, none, none, none, none, none⟩

/-- The header `PV1_1 = PV2_1 = 1`, `PV1_4 = 1`: a quadratic term in the own coordinate only. -/
def quadPv (a k : ℕ) : Option ℝ := if k = 1 then some 1 else if a = 1 ∧ k = 4 then some 1 else none

/-- Disagreement: a TPV header whose last non-zero coefficient is `PV1_4` (the square of the axis' own coordinate)
is read as if that coefficient were zero: `order` is computed from the position of the last coefficient as if
all terms of its degree were present. -/
theorem C59_counterexample_tpv : ∃ h T, TpvHeader h ∧ readTpv h = .ok T ∧
    T.1.eval 1 0 ≠ tpvPoly (fun k => (h.pv 1 k).getD 0) 1 0 := by
  have hh : TpvHeader (pvHdr quadPv) := by
    refine ⟨?_, ?_⟩
    · rintro a ha k hk
      simp only [oddIdx, List.mem_cons, List.not_mem_nil, or_false] at hk
      rcases hk with rfl | rfl | rfl | rfl <;> simp [pvHdr, quadPv]
    · rintro a ha
      exact ⟨(1, 1, 0), by decide, by simp [pvHdr, quadPv]⟩
  obtain ⟨maxk, T, hT, hm, hne, hz, ho, n1, n2, hc⟩ := readTpv_eq _ hh
  refine ⟨pvHdr quadPv, T, hh, hT, ?_⟩
  have v3 : (pvList (pvHdr quadPv) 1).getD 3 0 = 1 := by
    have := pvList_getD (pvHdr quadPv) 1 2 0 (by norm_num)
    rw [show pos 2 0 = 3 from rfl, show key 2 0 = 4 from rfl] at this
    rw [this]; simp [pvHdr, quadPv]
  have hmax : maxk = 3 := by
    have h3 : ¬ maxk < 3 := by
      intro hlt
      have := hz 1 (Or.inl rfl) 3 hlt
      rw [v3] at this
      norm_num at this
    by_contra hne3
    have all : ∀ k < 36, 3 < k → ∃ i < 8, ∃ j < 8 - i, pos i j = k ∧ key i j ≠ 1 ∧ key i j ≠ 4 := by decide
    obtain ⟨i, hi, j, hj, hp, h1, h4⟩ := all maxk hm (by omega)
    rw [← hp, pvList_getD _ 1 i j (by omega), pvList_getD _ 2 i j (by omega)] at hne
    simp [pvHdr, quadPv, h1, h4] at hne
  subst hmax
  have o3 : tpvOrder 3 = 1 := by
    have : 2 = Nat.sqrt (2 * (3 + 1)) := Nat.eq_sqrt.mpr (by norm_num)
    unfold tpvOrder
    omega
  rw [o3] at n1 hc
  rw [eval_eq, n1]
  have c00 := (hc 0 0 (by norm_num)).1
  have c10 := (hc 1 0 (by norm_num)).1
  rw [show key 0 0 = 0 from rfl] at c00
  rw [show key 1 0 = 1 from rfl] at c10
  have l : triPoly (1 + 1) T.1.c 1 0 = 1 := by
    unfold triPoly
    simp [sum_filter, sum_range_succ, c00, c10, pvHdr, quadPv]
  have r : tpvPoly (fun k => ((pvHdr quadPv).pv 1 k).getD 0) 1 0 = 2 := by
    unfold tpvPoly
    simp only [tpvTerms, List.map_cons, List.map_nil, List.sum_cons, List.sum_nil]
    norm_num [pvHdr, quadPv]
  rw [l, r]
  norm_num

/-! ### Writing TPV keys -/

theorem writeIdx_mem (o : ℕ) (ho : o < 8) : (∀ e ∈ writeIdx o, e.2.1 + e.2.2 ≤ o ∧ e.1 = key e.2.1 e.2.2) ∧
    ∀ i < o + 1, ∀ j < o + 1 - i, (key i j, i, j) ∈ writeIdx o := by
  have h1 : ∀ o < 8, ∀ e ∈ writeIdx o, e.2.1 + e.2.2 ≤ o ∧ e.1 = key e.2.1 e.2.2 := by decide
  have h2 : ∀ i < o + 1, ∀ j < o + 1 - i, (key i j, i, j) ∈ writeIdx o := by interval_cases o <;> decide
  exact ⟨h1 o ho, h2⟩

theorem key_inj (i j a b : ℕ) (h1 : i + j < 8) (h2 : a + b < 8) (h : key i j = key a b) : i = a ∧ j = b := by
  have all : ∀ e ∈ tpvTerms, ∀ f ∈ tpvTerms, e.1 = f.1 → e.2 = f.2 := by decide
  have := all (key i j, i, j) (key_term i (by omega) j (by omega)) (key a b, a, b) (key_term a (by omega) b (by omega)) h
  simpa using this

theorem key_odd : ∀ i < 8, ∀ j < 8 - i, key i j ∉ oddIdx := by decide

theorem writeFold_eq (pv : Tab × Tab) (idx : List (ℕ × ℕ × ℕ)) (hk : ∀ e ∈ idx, e.2.1 + e.2.2 < 8 ∧ e.1 = key e.2.1 e.2.2)
    (h0 : ℕ → ℕ → Option ℝ) :
    let r := idx.foldl (fun (h : ℕ → ℕ → Option ℝ) e =>
      Function.update (Function.update h 1 (Function.update (h 1) e.1 (some (pv.1.c e.2.1 e.2.2))))
        2 (Function.update (h 2) e.1 (some (pv.2.c e.2.2 e.2.1)))) h0
    (∀ i j, i + j < 8 → r 1 (key i j) = if (key i j, i, j) ∈ idx then some (pv.1.c i j) else h0 1 (key i j)) ∧
    (∀ i j, i + j < 8 → r 2 (key i j) = if (key i j, i, j) ∈ idx then some (pv.2.c j i) else h0 2 (key i j)) ∧
    ∀ a k, k ∈ oddIdx → r a k = h0 a k := by
  induction idx generalizing h0 with
  | nil => simp
  | cons e t ih =>
    obtain ⟨k, a, b⟩ := e
    obtain ⟨hab, hk0⟩ := hk _ List.mem_cons_self
    simp only at hab hk0
    subst hk0
    obtain ⟨h1, h2, h3⟩ := ih (fun e he => hk e (List.mem_cons_of_mem _ he))
      (Function.update (Function.update h0 1 (Function.update (h0 1) (key a b) (some (pv.1.c a b))))
        2 (Function.update (h0 2) (key a b) (some (pv.2.c b a))))
    simp only [List.foldl_cons]
    refine ⟨fun i j hij => ?_, fun i j hij => ?_, fun c k hkk => ?_⟩
    · rw [h1 i j hij]
      by_cases he : i = a ∧ j = b
      · obtain ⟨rfl, rfl⟩ := he
        simp
      · have hkne : key i j ≠ key a b := fun hh => he (key_inj i j a b hij hab hh)
        have : ¬ (key i j, i, j) = (key a b, a, b) := fun hh => hkne (Prod.mk.inj hh).1
        simp only [List.mem_cons, this, false_or]
        congr 1
        rw [Function.update_of_ne (by norm_num), Function.update_self, Function.update_of_ne hkne]
    · rw [h2 i j hij]
      by_cases he : i = a ∧ j = b
      · obtain ⟨rfl, rfl⟩ := he
        simp
      · have hkne : key i j ≠ key a b := fun hh => he (key_inj i j a b hij hab hh)
        have : ¬ (key i j, i, j) = (key a b, a, b) := fun hh => hkne (Prod.mk.inj hh).1
        simp only [List.mem_cons, this, false_or]
        congr 1
        rw [Function.update_self, Function.update_of_ne hkne]
    · rw [h3 c k hkk]
      have hkne : k ≠ key a b := by rintro rfl; exact key_odd a (by omega) b (by omega) hkk
      by_cases c2 : c = 2
      · subst c2; rw [Function.update_self, Function.update_of_ne hkne]
      · rw [Function.update_of_ne c2]
        by_cases c1 : c = 1
        · subst c1; rw [Function.update_self, Function.update_of_ne hkne]
        · rw [Function.update_of_ne c1]

/-- The written keys. -/
theorem writePv_eq (pv : Tab × Tab) (hn : 0 < pv.1.n) (h8 : pv.1.n ≤ 8) :
    (∀ i j, i + j < 8 → writePv pv 1 (key i j) = if i + j < pv.1.n then some (pv.1.c i j) else none) ∧
    (∀ i j, i + j < 8 → writePv pv 2 (key i j) = if i + j < pv.1.n then some (pv.2.c j i) else none) ∧
    ∀ a k, k ∈ oddIdx → writePv pv a k = none := by
  obtain ⟨m1, m2⟩ := writeIdx_mem (pv.1.n - 1) (by omega)
  have := writeFold_eq pv (writeIdx (pv.1.n - 1)) (fun e he => ⟨by have := (m1 e he).1; omega, (m1 e he).2⟩) fun _ _ => none
  simp only at this
  obtain ⟨h1, h2, h3⟩ := this
  have mem : ∀ i j, i + j < 8 → ((key i j, i, j) ∈ writeIdx (pv.1.n - 1) ↔ i + j < pv.1.n) := by
    intro i j _
    constructor
    · intro he; have := (m1 _ he).1; simp only at this; omega
    · intro he; exact m2 i (by omega) j (by omega)
  refine ⟨fun i j hij => ?_, fun i j hij => ?_, h3⟩
  · unfold writePv; rw [h1 i j hij]; simp only [mem i j hij]
  · unfold writePv; rw [h2 i j hij]; simp only [mem i j hij]

/-- C59 (partial): writing the `PV` keys of a pair of tables and reading them gives the same polynomials, provided
each table is non-zero and among the terms of the highest degree `d` one with a non-zero coefficient has
`d ≤ 2 j + 1`.  Missing: other tables lose their terms of highest degree (`C59_counterexample_tpv`). -/
theorem C59_tpv_roundtrip_partial (pv : Tab × Tab) (hn : 0 < pv.1.n) (h8 : pv.1.n ≤ 8) (hsq : pv.2.n = pv.1.n) (d : ℕ)
    (nz1 : ∃ i j, i + j < pv.1.n ∧ pv.1.c i j ≠ 0) (nz2 : ∃ i j, i + j < pv.1.n ∧ pv.2.c i j ≠ 0)
    (top : ∀ i j, d < i + j → i + j < pv.1.n → pv.1.c i j = 0 ∧ pv.2.c j i = 0)
    (upper : ∃ i j, i + j = d ∧ d < pv.1.n ∧ d ≤ 2 * j + 1 ∧ (pv.1.c i j ≠ 0 ∨ pv.2.c j i ≠ 0)) (h : Hdr) (hpv : h.pv = writePv pv) :
    ∃ T, readTpv h = .ok T ∧ ∀ x y, applyAb T x y = applyAb pv x y := by
  obtain ⟨w1, w2, w3⟩ := writePv_eq pv hn h8
  have g1 : ∀ i j, i + j < 8 → (h.pv 1 (key i j)).getD 0 = if i + j < pv.1.n then pv.1.c i j else 0 := by
    intro i j hij; rw [hpv, w1 i j hij]; split_ifs <;> rfl
  have g2 : ∀ i j, i + j < 8 → (h.pv 2 (key i j)).getD 0 = if i + j < pv.1.n then pv.2.c j i else 0 := by
    intro i j hij; rw [hpv, w2 i j hij]; split_ifs <;> rfl
  have hh : TpvHeader h := by
    refine ⟨?_, ?_⟩
    · intro a _ k hk; rw [hpv, w3 a k hk]; rfl
    · rintro a (rfl | rfl)
      · obtain ⟨i, j, hij, hne⟩ := nz1
        refine ⟨_, key_term i (by omega) j (by omega), ?_⟩
        simp only
        rw [g1 i j (by omega), if_pos hij]; exact hne
      · obtain ⟨i, j, hij, hne⟩ := nz2
        refine ⟨_, key_term j (by omega) i (by omega), ?_⟩
        simp only
        rw [g2 j i (by omega), if_pos (by omega)]; exact hne
  obtain ⟨T, hT, n1, n2, hev⟩ := C59_tpv_read_partial h hh d (by
      intro e he hlt
      obtain ⟨e8, ek⟩ := term_mem e he
      rw [ek, g1 _ _ e8, g2 _ _ e8]
      split_ifs with hc
      · exact top _ _ hlt hc
      · exact ⟨rfl, rfl⟩) (by
      obtain ⟨i, j, hij, hdn, hj, hne⟩ := upper
      refine ⟨_, key_term i (by omega) j (by omega), hij, hj, ?_⟩
      simp only
      rw [g1 i j (by omega), g2 i j (by omega), if_pos (by omega), if_pos (by omega)]
      exact hne)
  refine ⟨T, hT, fun x y => ?_⟩
  rw [hev]
  unfold applyAb
  rw [eval_eq, eval_eq, hsq, tpvPoly_eq, tpvPoly_eq,
    triPoly_trim pv.1.n 8 h8 _ (fun i j h1 h2 => by rw [g1 i j h2, if_neg (by omega)]),
    triPoly_trim pv.1.n 8 h8 _ (fun i j h1 h2 => by rw [g2 i j h2, if_neg (by omega)]), Prod.mk.injEq]
  constructor
  · exact triPoly_congr _ _ _ (fun i j hij => by rw [g1 i j (by omega), if_pos hij]) x y
  · rw [triPoly_swap pv.1.n pv.2.c]
    exact triPoly_congr _ _ _ (fun i j hij => by rw [g2 i j (by omega), if_pos hij]) y x

end JG.FitsW
