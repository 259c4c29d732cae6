import Verif.Model.Bounds
import Mathlib.Tactic.Linarith
import Mathlib.Tactic.Ring
import Mathlib.Tactic.NormNum
import Mathlib.Tactic.Positivity
import Mathlib.Data.Int.CardIntervalMod
import Mathlib.Data.Fintype.Prod

/-! Properties C01–C06: bounds. -/

set_option linter.unusedSectionVars false
set_option linter.unusedVariables false

namespace JG

section generic
variable {α : Type} [CommRing α] [LinearOrder α] [IsStrictOrderedRing α]

/-! ### C01 -/

/-- Specification: the closed rectangle covered by bounds, written without the model's `includes`. -/
def Bounds.Covers (c : Cls α) (b : Bounds α) (x y : α) : Prop :=
  b.defined = true ∧ (b.xmin ≤ x ∧ x ≤ b.xmin + b.deltax - c.ext)
    ∧ (b.ymin ≤ y ∧ y ≤ b.ymin + b.deltay - c.ext)

theorem includesP_iff (c : Cls α) (b : Bounds α) (p : Pos α) :
    b.includesP c p = true ↔ b.Covers c p.x p.y := by
  simp only [Bounds.includesP, Bounds.Covers, Bounds.xmax, Bounds.ymax, Bool.and_eq_true,
    decide_eq_true_eq (p := _ ≤ _)]
  constructor
  · rintro ⟨⟨⟨⟨h1, h2⟩, h3⟩, h4⟩, h5⟩; exact ⟨h1, ⟨h2, of_decide_eq_true h4⟩, h3, of_decide_eq_true h5⟩
  · rintro ⟨h1, ⟨h2, h4⟩, h3, h5⟩; exact ⟨⟨⟨⟨h1, h2⟩, h3⟩, decide_eq_true h4⟩, decide_eq_true h5⟩

theorem mk4_xmax (c : Cls α) (x x' y y' : Scal α) : (Bounds.mk4 c x x' y y').xmax c = x'.val := by
  simp only [Bounds.mk4, Bounds.finish, Bounds.xmax]; ring
theorem mk4_ymax (c : Cls α) (x x' y y' : Scal α) : (Bounds.mk4 c x x' y y').ymax c = y'.val := by
  simp only [Bounds.mk4, Bounds.finish, Bounds.ymax]; ring
theorem border_xmax (c : Cls α) (b : Bounds α) (dx dy : α) (py : Bool) :
    (b.withBorder c dx dy py).xmax c = b.xmax c + dx := by
  simp only [Bounds.withBorder, Bounds.finish, Bounds.xmax]; ring
theorem border_ymax (c : Cls α) (b : Bounds α) (dx dy : α) (py : Bool) :
    (b.withBorder c dx dy py).ymax c = b.ymax c + dy := by
  simp only [Bounds.withBorder, Bounds.finish, Bounds.ymax]; ring
theorem border_xmin (c : Cls α) (b : Bounds α) (dx dy : α) (py : Bool) :
    (b.withBorder c dx dy py).xmin = b.xmin - dx := rfl
theorem border_ymin (c : Cls α) (b : Bounds α) (dx dy : α) (py : Bool) :
    (b.withBorder c dx dy py).ymin = b.ymin - dy := rfl

/-- The four-argument constructor with jax scalars. -/
theorem mk4_jax_defined (c : Cls α) (x x' y y' : α) (h : x ≤ x') :
    (Bounds.mk4 c ⟨x, false⟩ ⟨x', false⟩ ⟨y, false⟩ ⟨y', false⟩).defined = true := by
  have h1 : ¬ (x' - x + c.ext < c.ext) := by linarith
  simp [Bounds.mk4, Bounds.finish, h1]

/-- C01: membership in `a & b` is membership in both (any class, any operands, any point). -/
theorem C01_inter_includes (c : Cls α) (a b : Bounds α) (p : Pos α) :
    (a.and c b).includesP c p = true ↔ a.includesP c p = true ∧ b.includesP c p = true := by
  rw [includesP_iff, includesP_iff, includesP_iff]
  unfold Bounds.and
  by_cases hd : (!a.defined || !b.defined) = true
  · rw [if_pos hd]
    constructor
    · intro h
      have := h.1
      simp [Bounds.empty, Bounds.finish] at this
    · rintro ⟨h1, h2⟩
      simp [h1.1, h2.1] at hd
  · rw [if_neg hd]
    simp only [Bool.or_eq_true, Bool.not_eq_true', not_or, Bool.not_eq_false] at hd
    dsimp only
    split
    · rename_i he
      constructor
      · intro h
        have := h.1
        simp [Bounds.empty, Bounds.finish] at this
      · rintro ⟨⟨_, ⟨hx1, hx2⟩, hy1, hy2⟩, ⟨_, ⟨hx3, hx4⟩, hy3, hy4⟩⟩
        exfalso
        simp only [Bounds.xmax, Bounds.ymax] at he
        rcases he with he | he
        · exact absurd he (not_lt.mpr (le_trans (max_le hx1 hx3) (le_min hx2 hx4)))
        · exact absurd he (not_lt.mpr (le_trans (max_le hy1 hy3) (le_min hy2 hy4)))
    · rename_i he
      push Not at he
      have hdef := mk4_jax_defined c (max a.xmin b.xmin) (min (a.xmax c) (b.xmax c))
        (max a.ymin b.ymin) (min (a.ymax c) (b.ymax c)) he.1
      unfold Bounds.Covers
      rw [hdef]
      have e1 : ∀ u v w : α, u + (v - u + w) - w = v := by intros; ring
      simp only [Bounds.mk4, Bounds.finish, e1, max_le_iff]
      simp only [hd.1, hd.2, le_min_iff, Bounds.xmax, Bounds.ymax]
      tauto

/-- C01: if the operands share no point (or one is undefined) the intersection is undefined. -/
theorem C01_inter_undefined (c : Cls α) (a b : Bounds α)
    (h : ∀ p : Pos α, ¬ (a.includesP c p = true ∧ b.includesP c p = true)) :
    (a.and c b).defined = false := by
  by_contra hne
  rw [Bool.not_eq_false] at hne
  unfold Bounds.and at hne
  by_cases hd : (!a.defined || !b.defined) = true
  · rw [if_pos hd] at hne; simp [Bounds.empty, Bounds.finish] at hne
  · rw [if_neg hd] at hne
    dsimp only at hne
    split at hne
    · simp [Bounds.empty, Bounds.finish] at hne
    · rename_i he
      push Not at he
      simp only [Bool.or_eq_true, Bool.not_eq_true', not_or, Bool.not_eq_false] at hd
      refine h ⟨max a.xmin b.xmin, max a.ymin b.ymin⟩ ?_
      simp only [includesP_iff]
      unfold Bounds.Covers
      exact ⟨⟨hd.1, ⟨le_max_left _ _, he.1.trans (min_le_left _ _)⟩,
          le_max_left _ _, he.2.trans (min_le_left _ _)⟩,
        ⟨hd.2, ⟨le_max_right _ _, he.1.trans (min_le_right _ _)⟩,
          le_max_right _ _, he.2.trans (min_le_right _ _)⟩⟩

/-- C01: a defined intersection is non-empty (its own corner is included). -/
theorem C01_inter_nonempty (c : Cls α) (a b : Bounds α) (h : (a.and c b).defined = true) :
    ∃ p : Pos α, (a.and c b).includesP c p = true := by
  by_contra hne
  push Not at hne
  have := C01_inter_undefined c a b (fun p hp => hne p ((C01_inter_includes c a b p).mpr hp))
  rw [this] at h; exact absurd h (by simp)

/-! ### Validity -/

/-- Invariant of all constructors: a *defined* bounds is non-empty in both directions. -/
def Bounds.Good (c : Cls α) (b : Bounds α) : Prop :=
  b.defined = true → c.ext ≤ b.deltax ∧ c.ext ≤ b.deltay

/-- What the `__init__` code enforces for any kind of scalars. -/
def Bounds.Inv (c : Cls α) (b : Bounds α) : Prop :=
  b.defined = true → c.isI = true → ¬ (b.deltax < c.ext ∧ b.deltay < c.ext)

theorem Bounds.Good.inv {c : Cls α} {b : Bounds α} (h : b.Good c) : b.Inv c :=
  fun hd _ hc => absurd (h hd).1 (not_le.mpr hc.1)

theorem finish_defined (c : Cls α) (x dx y dy : α) (pp dp : Bool) (hx : c.ext ≤ dx)
    (hy : c.ext ≤ dy) : (Bounds.finish c x dx y dy pp dp true).defined = true := by
  simp [Bounds.finish, not_lt.mpr hx, not_lt.mpr hy]

theorem finish_py_defined_iff (c : Cls α) (x dx y dy : α) (pp : Bool) :
    (Bounds.finish c x dx y dy pp true true).defined = true ↔ c.ext ≤ dx ∧ c.ext ≤ dy := by
  simp only [Bounds.finish]
  simp
  intro h1 h2
  exact Or.inr (Or.inl h1)

/-- Bounds obtainable through the public API from python numbers, in any number of steps.
(`empty`, four numbers, keyword deltas, a position, copies, `&`, `+`, shifts, non-negative borders). -/
inductive Made (c : Cls α) : Bounds α → Prop
  | empty : Made c (Bounds.empty c)
  | mk4 (x x' y y' : α) : Made c (Bounds.mk4 c ⟨x, true⟩ ⟨x', true⟩ ⟨y, true⟩ ⟨y', true⟩)
  | mkDelta (x dx y dy : α) : Made c (Bounds.mkDelta c ⟨x, true⟩ ⟨dx, true⟩ ⟨y, true⟩ ⟨dy, true⟩)
  | ofPos (p : Pos α) (py : Bool) : Made c (Bounds.ofPos c p py)
  | copy (b) : Made c b → Made c (b.copy c)
  | and (a b) : Made c a → Made c b → Made c (a.and c b)
  | add (a b) : Made c a → Made c b → Made c (a.add c b)
  | addP (a p) : Made c a → Made c (a.addP c p)
  | shift (b d py) : Made c b → Made c (b.shift c d py)
  | border (b dx dy) : Made c b → 0 ≤ dx → 0 ≤ dy → Made c (b.withBorder c dx dy true)

theorem finish_py_cases (c : Cls α) (x dx y dy : α) (pp dp : Bool)
    (h : (c.ext ≤ dx ∧ c.ext ≤ dy) ∨ dp = true) :
    let b := Bounds.finish c x dx y dy pp dp true
    (c.ext ≤ b.deltax ∧ c.ext ≤ b.deltay ∧ b.defined = true) ∨
      (b.defined = false ∧ b.deltaPy = true ∧ (0 < c.ext → b.deltax < c.ext ∨ b.deltay < c.ext)) := by
  intro b
  by_cases hg : c.ext ≤ dx ∧ c.ext ≤ dy
  · exact Or.inl ⟨hg.1, hg.2, finish_defined c _ _ _ _ _ _ hg.1 hg.2⟩
  · right
    have hp := h.resolve_left hg
    subst hp
    refine ⟨?_, rfl, fun _ => ?_⟩
    · have := (finish_py_defined_iff c x dx y dy pp).not.mpr hg
      rwa [Bool.not_eq_true] at this
    · rwa [not_and_or, not_le, not_le] at hg

/-- Auxiliary: undefined made bounds still have python deltas; otherwise the deltas are fine. -/
theorem Made.aux {c : Cls α} {b : Bounds α} (h : Made c b) :
    (c.ext ≤ b.deltax ∧ c.ext ≤ b.deltay ∧ b.defined = true) ∨
      (b.defined = false ∧ b.deltaPy = true ∧ (0 < c.ext → b.deltax < c.ext ∨ b.deltay < c.ext)) := by
  have hempty : (c.ext ≤ (Bounds.empty c).deltax ∧ c.ext ≤ (Bounds.empty c).deltay ∧
      (Bounds.empty c).defined = true) ∨
      ((Bounds.empty c).defined = false ∧ (Bounds.empty c).deltaPy = true ∧
        (0 < c.ext → (Bounds.empty c).deltax < c.ext ∨ (Bounds.empty c).deltay < c.ext)) := by
    right; simp [Bounds.empty, Bounds.finish]
  induction h with
  | empty => exact hempty
  | mk4 x x' y y' => exact finish_py_cases c _ _ _ _ _ _ (Or.inr rfl)
  | mkDelta x dx y dy => exact finish_py_cases c _ _ _ _ _ _ (Or.inr rfl)
  | ofPos p py => exact finish_py_cases c _ _ _ _ _ _ (Or.inl ⟨by linarith, by linarith⟩)
  | copy b _ ih =>
    exact finish_py_cases c _ _ _ _ _ _ (ih.imp (fun h => ⟨h.1, h.2.1⟩) (fun h => h.2.1))
  | and a b _ _ _ _ =>
    unfold Bounds.and
    split
    · exact hempty
    · dsimp only
      split
      · exact hempty
      · rename_i he
        push Not at he
        exact finish_py_cases c _ _ _ _ _ _ (Or.inl ⟨by linarith [he.1], by linarith [he.2]⟩)
  | add a b _ _ iha ihb =>
    unfold Bounds.add
    split
    · exact iha
    · split
      · rename_i hb ha
        have ga : c.ext ≤ a.deltax ∧ c.ext ≤ a.deltay := by
          rcases iha with h | h
          · exact ⟨h.1, h.2.1⟩
          · rw [ha] at h; exact absurd h.1 (by simp)
        have h1 : a.xmin ≤ a.xmax c := by unfold Bounds.xmax; linarith [ga.1]
        have h2 : a.ymin ≤ a.ymax c := by unfold Bounds.ymax; linarith [ga.2]
        have h3 := min_le_left a.xmin b.xmin
        have h4 := le_max_left (a.xmax c) (b.xmax c)
        have h5 := min_le_left a.ymin b.ymin
        have h6 := le_max_left (a.ymax c) (b.ymax c)
        exact finish_py_cases c _ _ _ _ _ _ (Or.inl ⟨by linarith, by linarith⟩)
      · exact ihb
  | addP a p _ iha =>
    unfold Bounds.addP
    split
    · have h3 := min_le_right a.xmin p.x
      have h4 := le_max_right (a.xmax c) p.x
      have h5 := min_le_right a.ymin p.y
      have h6 := le_max_right (a.ymax c) p.y
      exact finish_py_cases c _ _ _ _ _ _ (Or.inl ⟨by linarith, by linarith⟩)
    · exact finish_py_cases c _ _ _ _ _ _ (Or.inl ⟨by linarith, by linarith⟩)
  | shift b d py _ ih =>
    exact finish_py_cases c _ _ _ _ _ _ (ih.imp (fun h => ⟨h.1, h.2.1⟩) (fun h => h.2.1))
  | border b dx dy _ hx hy ih =>
    exact finish_py_cases c _ _ _ _ _ _
      (ih.imp (fun h => ⟨by linarith [h.1], by linarith [h.2.1]⟩) (fun h => by simp [h.2.1]))

/-- Every bounds built through the API from python numbers is non-empty when defined. -/
theorem C03_made_good {c : Cls α} {b : Bounds α} (h : Made c b) : b.Good c := by
  intro hd
  rcases h.aux with h | h
  · exact ⟨h.1, h.2.1⟩
  · rw [hd] at h; exact absurd h.1 (by simp)

/-! ### C02 -/

/-- `B` includes bounds `a` (the API's own test on bounds). -/
theorem includesB_iff (c : Cls α) (a b : Bounds α) :
    a.includesB c b = true ↔ a.defined = true ∧ b.defined = true ∧ a.xmin ≤ b.xmin
      ∧ b.xmax c ≤ a.xmax c ∧ a.ymin ≤ b.ymin ∧ b.ymax c ≤ a.ymax c := by
  simp [Bounds.includesB, and_assoc]

theorem add_defined (c : Cls α) (a b : Bounds α) (ha : a.defined = true) (hb : b.defined = true)
    (hi : a.Inv c) :
    (a.add c b).defined = true ∧ (a.add c b).xmin = min a.xmin b.xmin
      ∧ (a.add c b).ymin = min a.ymin b.ymin
      ∧ (a.add c b).xmax c = max (a.xmax c) (b.xmax c)
      ∧ (a.add c b).ymax c = max (a.ymax c) (b.ymax c) := by
  have hadd : a.add c b = Bounds.mk4 c ⟨min a.xmin b.xmin, false⟩ ⟨max (a.xmax c) (b.xmax c), false⟩
      ⟨min a.ymin b.ymin, false⟩ ⟨max (a.ymax c) (b.ymax c), false⟩ := by
    simp [Bounds.add, ha, hb]
  rw [hadd]
  refine ⟨?_, rfl, rfl, ?_, ?_⟩
  · by_cases hI : c.isI = true
    · have hh := hi ha hI
      simp only [Bounds.mk4, Bounds.finish, hI]
      have h3 := min_le_left a.xmin b.xmin
      have h4 := le_max_left (a.xmax c) (b.xmax c)
      have h5 := min_le_left a.ymin b.ymin
      have h6 := le_max_left (a.ymax c) (b.ymax c)
      rw [not_and_or, not_lt, not_lt] at hh
      have : ¬ (max (a.xmax c) (b.xmax c) - min a.xmin b.xmin + c.ext < c.ext ∧
          max (a.ymax c) (b.ymax c) - min a.ymin b.ymin + c.ext < c.ext) := by
        rintro ⟨q1, q2⟩
        unfold Bounds.xmax at *
        unfold Bounds.ymax at *
        rcases hh with hh | hh <;> linarith
      simp only [Bool.false_and, Bool.not_false, Bool.true_and, Bool.and_true]
      simpa only [Bool.not_eq_true', ← Bool.decide_and, decide_eq_false_iff_not] using this
    · simp [Bounds.mk4, Bounds.finish, hI]
  · simp only [Bounds.mk4, Bounds.finish, Bounds.xmax]; ring
  · simp only [Bounds.mk4, Bounds.finish, Bounds.ymax]; ring

/-- C02: `a + b` includes every point of `a` and of `b`. -/
theorem C02_union_upper (c : Cls α) (a b : Bounds α) (hi : a.Inv c) (p : Pos α)
    (h : a.includesP c p = true ∨ b.includesP c p = true) : (a.add c b).includesP c p = true := by
  simp only [includesP_iff] at h ⊢
  cases hb : b.defined with
  | false =>
    have e : a.add c b = a := by simp [Bounds.add, hb]
    rcases h with h | h
    · rwa [e]
    · have := h.1; rw [hb] at this; exact absurd this (by simp)
  | true =>
    cases ha : a.defined with
    | false =>
      have e : a.add c b = b := by simp [Bounds.add, hb, ha]
      rcases h with h | h
      · have := h.1; rw [ha] at this; exact absurd this (by simp)
      · rwa [e]
    | true =>
      obtain ⟨hd, hx, hy, hX, hY⟩ := add_defined c a b ha hb hi
      refine ⟨hd, ?_⟩
      change (_ ∧ p.x ≤ (a.add c b).xmax c) ∧ (_ ∧ p.y ≤ (a.add c b).ymax c)
      rw [hx, hy, hX, hY]
      rcases h with ⟨_, ⟨h1, h2⟩, h3, h4⟩ | ⟨_, ⟨h1, h2⟩, h3, h4⟩
      · exact ⟨⟨min_le_of_left_le h1, le_max_of_le_left h2⟩,
          min_le_of_left_le h3, le_max_of_le_left h4⟩
      · exact ⟨⟨min_le_of_right_le h1, le_max_of_le_right h2⟩,
          min_le_of_right_le h3, le_max_of_le_right h4⟩

/-- C02: any bounds including both operands includes `a + b`. -/
theorem C02_union_least (c : Cls α) (a b B : Bounds α) (hi : a.Inv c)
    (h1 : B.includesB c a = true) (h2 : B.includesB c b = true) :
    B.includesB c (a.add c b) = true := by
  rw [includesB_iff] at *
  obtain ⟨hd, hx, hy, hX, hY⟩ := add_defined c a b h1.2.1 h2.2.1 hi
  rw [hx, hy, hX, hY]
  exact ⟨h1.1, hd, le_min h1.2.2.1 h2.2.2.1, max_le h1.2.2.2.1 h2.2.2.2.1,
    le_min h1.2.2.2.2.1 h2.2.2.2.2.1, max_le h1.2.2.2.2.2 h2.2.2.2.2.2⟩

/-- C02: point-wise form of minimality: for non-empty operands every rectangle (given by its
edges) that covers all points of both covers all points of the union. -/
theorem C02_union_hull (c : Cls α) (a b : Bounds α) (ha : a.Good c) (hb : b.Good c)
    (x0 x1 y0 y1 : α)
    (h : ∀ x y, (a.Covers c x y ∨ b.Covers c x y) → (x0 ≤ x ∧ x ≤ x1) ∧ (y0 ≤ y ∧ y ≤ y1)) :
    ∀ x y, (a.add c b).Covers c x y → (x0 ≤ x ∧ x ≤ x1) ∧ (y0 ≤ y ∧ y ≤ y1) := by
  have corner : ∀ e : Bounds α, e.Good c → e.defined = true →
      e.Covers c e.xmin e.ymin ∧ e.Covers c (e.xmax c) (e.ymax c) := by
    intro e he hd
    have := he hd
    unfold Bounds.Covers Bounds.xmax Bounds.ymax
    refine ⟨⟨hd, ⟨le_rfl, by linarith⟩, le_rfl, by linarith⟩,
      ⟨hd, ⟨by linarith, le_rfl⟩, by linarith, le_rfl⟩⟩
  intro x y hxy
  cases hdb : b.defined with
  | false =>
    have e : a.add c b = a := by simp [Bounds.add, hdb]
    rw [e] at hxy
    exact h x y (Or.inl hxy)
  | true =>
    cases hda : a.defined with
    | false =>
      have e : a.add c b = b := by simp [Bounds.add, hdb, hda]
      rw [e] at hxy
      exact h x y (Or.inr hxy)
    | true =>
      obtain ⟨hd, hx, hy, hX, hY⟩ := add_defined c a b hda hdb ha.inv
      obtain ⟨_, h2⟩ := hxy
      change (_ ∧ x ≤ (a.add c b).xmax c) ∧ (_ ∧ y ≤ (a.add c b).ymax c) at h2
      rw [hx, hy, hX, hY] at h2
      obtain ⟨ca1, ca2⟩ := corner a ha hda
      obtain ⟨cb1, cb2⟩ := corner b hb hdb
      have q1 := h _ _ (Or.inl ca1)
      have q2 := h _ _ (Or.inl ca2)
      have q3 := h _ _ (Or.inr cb1)
      have q4 := h _ _ (Or.inr cb2)
      exact ⟨⟨(le_min q1.1.1 q3.1.1).trans h2.1.1, h2.1.2.trans (max_le q2.1.2 q4.1.2)⟩,
        ⟨(le_min q1.2.1 q3.2.1).trans h2.2.1, h2.2.2.trans (max_le q2.2.2 q4.2.2)⟩⟩

/-- C02: undefined bounds are a two-sided identity. -/
theorem C02_union_identity (c : Cls α) (a b : Bounds α) (h : b.defined = false) :
    a.add c b = a ∧ (a.defined = true → b.add c a = a) := by
  constructor
  · simp [Bounds.add, h]
  · intro ha; simp [Bounds.add, h, ha]

/-- C02: adding a position gives the smallest bounds with the old points and the new one. -/
theorem C02_union_position (c : Cls α) (a : Bounds α) (p : Pos α) :
    (∀ q : Pos α, a.includesP c q = true ∨ q = p → (a.addP c p).includesP c q = true) ∧
    (∀ B : Bounds α, (a.defined = true → B.includesB c a = true) → B.includesP c p = true →
      B.includesB c (a.addP c p) = true) := by
  have e1 : ∀ u v w : α, u + (v - u + w) - w = v := by intros; ring
  cases ha : a.defined with
  | true =>
    have hadd : a.addP c p = Bounds.mk4 c ⟨min a.xmin p.x, false⟩ ⟨max (a.xmax c) p.x, false⟩
      ⟨min a.ymin p.y, false⟩ ⟨max (a.ymax c) p.y, false⟩ := by simp [Bounds.addP, ha]
    have hle : min a.xmin p.x ≤ max (a.xmax c) p.x := (min_le_right _ _).trans (le_max_right _ _)
    have hdef := mk4_jax_defined c _ _ (min a.ymin p.y) (max (a.ymax c) p.y) hle
    rw [hadd]
    constructor
    · intro q hq
      rw [includesP_iff] at hq ⊢
      refine ⟨hdef, ?_⟩
      simp only [Bounds.mk4, Bounds.finish, e1]
      rcases hq with ⟨_, ⟨h1, h2⟩, h3, h4⟩ | rfl
      · exact ⟨⟨min_le_of_left_le h1, le_max_of_le_left h2⟩,
          min_le_of_left_le h3, le_max_of_le_left h4⟩
      · exact ⟨⟨min_le_right _ _, le_max_right _ _⟩, min_le_right _ _, le_max_right _ _⟩
    · intro B hB hp
      have hB := hB rfl
      rw [includesB_iff] at hB ⊢
      rw [includesP_iff] at hp
      refine ⟨hB.1, hdef, ?_⟩
      rw [mk4_xmax, mk4_ymax]
      exact ⟨le_min hB.2.2.1 hp.2.1.1, max_le hB.2.2.2.1 hp.2.1.2,
        le_min hB.2.2.2.2.1 hp.2.2.1, max_le hB.2.2.2.2.2 hp.2.2.2⟩
  | false =>
    have hadd : a.addP c p = Bounds.ofPos c p true := by simp [Bounds.addP, ha]
    have hdef : (Bounds.ofPos c p true).defined = true :=
      finish_defined c _ _ _ _ _ _ (by simp) (by simp)
    rw [hadd]
    constructor
    · intro q hq
      rw [includesP_iff] at hq ⊢
      refine ⟨hdef, ?_⟩
      rcases hq with hq | rfl
      · have := hq.1; rw [ha] at this; exact absurd this (by simp)
      · simp [Bounds.ofPos, Bounds.finish]
    · intro B _ hp
      rw [includesB_iff]
      rw [includesP_iff] at hp
      refine ⟨hp.1, hdef, hp.2.1.1, ?_, hp.2.2.1, ?_⟩
      · have := hp.2.1.2
        simpa [Bounds.ofPos, Bounds.finish, Bounds.xmax] using this
      · have := hp.2.2.2
        simpa [Bounds.ofPos, Bounds.finish, Bounds.ymax] using this

/-! ### C04 -/

/-- C04: `b.shift(d)` includes `p + d` iff `b` includes `p`. -/
theorem C04_shift_includes_partial (c : Cls α) (b : Bounds α) (hb : b.Good c) (hd : b.defined = true)
    (d p : Pos α) (py : Bool) :
    (b.shift c d py).includesP c ⟨p.x + d.x, p.y + d.y⟩ = true ↔ b.includesP c p = true := by
  rw [includesP_iff, includesP_iff]
  have hdef : (b.shift c d py).defined = true := finish_defined c _ _ _ _ _ _ (hb hd).1 (hb hd).2
  unfold Bounds.Covers
  rw [hdef, hd]
  simp only [Bounds.shift, Bounds.finish]
  constructor
  · rintro ⟨_, ⟨h1, h2⟩, h3, h4⟩
    exact ⟨trivial, ⟨by linarith, by linarith⟩, by linarith, by linarith⟩
  · rintro ⟨_, ⟨h1, h2⟩, h3, h4⟩
    exact ⟨trivial, ⟨by linarith, by linarith⟩, by linarith, by linarith⟩

/-- C04: shifts compose additively and the opposite shift undoes a shift (as `==` and in full state
up to the python/jax kind of the coordinates). -/
theorem C04_shift_compose (c : Cls α) (b : Bounds α) (hb : b.Good c) (hd : b.defined = true)
    (d d' : Pos α) (py py' : Bool) :
    (b.shift c d py).shift c d' py' = b.shift c ⟨d.x + d'.x, d.y + d'.y⟩ (py && py') ∧
    ((b.shift c d py).shift c ⟨-d.x, -d.y⟩ py').eq c b = true := by
  constructor
  · simp only [Bounds.shift, Bounds.finish, add_assoc, Bool.and_assoc]
  · have h1 : ¬ b.deltax < c.ext := not_lt.mpr (hb hd).1
    have h2 : ¬ b.deltay < c.ext := not_lt.mpr (hb hd).2
    simp [Bounds.eq, Bounds.initargs, Bounds.shift, Bounds.finish, h1, h2, hd, Bounds.xmax,
      Bounds.ymax]

/-- C04: `withBorder(dx, dy)` includes exactly the points within `dx`, `dy` of the rectangle
(negative borders shrink; python sizes, so that an over-shrunk rectangle becomes undefined). -/
theorem C04_border_includes (c : Cls α) (b : Bounds α) (dx dy : α) (p : Pos α)
    (hpy : b.deltaPy = true) :
    (b.withBorder c dx dy true).includesP c p = true ↔
      (b.xmin - dx ≤ p.x ∧ p.x ≤ b.xmax c + dx) ∧ (b.ymin - dy ≤ p.y ∧ p.y ≤ b.ymax c + dy) := by
  rw [includesP_iff]
  unfold Bounds.Covers
  have hiff := finish_py_defined_iff c (b.xmin - dx) (b.deltax + 2 * dx) (b.ymin - dy)
    (b.deltay + 2 * dy) (b.posPy && true)
  have e : b.withBorder c dx dy true = Bounds.finish c (b.xmin - dx) (b.deltax + 2 * dx)
    (b.ymin - dy) (b.deltay + 2 * dy) (b.posPy && true) true true := by
    simp [Bounds.withBorder, hpy]
  rw [e, hiff]
  simp only [Bounds.finish, Bounds.xmax, Bounds.ymax]
  constructor
  · rintro ⟨_, ⟨h1, h2⟩, h3, h4⟩
    exact ⟨⟨h1, by linarith⟩, h3, by linarith⟩
  · rintro ⟨⟨h1, h2⟩, h3, h4⟩
    exact ⟨⟨by linarith, by linarith⟩, ⟨h1, by linarith⟩, h3, by linarith⟩

/-- C04: the same for jax-array sizes, as long as the border is non-negative. -/
theorem C04_border_includes_jax (c : Cls α) (b : Bounds α) (hb : b.Good c) (hd : b.defined = true)
    (dx dy : α) (hx : 0 ≤ dx) (hy : 0 ≤ dy) (p : Pos α) (py : Bool) :
    (b.withBorder c dx dy py).includesP c p = true ↔
      (b.xmin - dx ≤ p.x ∧ p.x ≤ b.xmax c + dx) ∧ (b.ymin - dy ≤ p.y ∧ p.y ≤ b.ymax c + dy) := by
  rw [includesP_iff]
  unfold Bounds.Covers
  have hg := hb hd
  have hdef : (b.withBorder c dx dy py).defined = true :=
    finish_defined c _ _ _ _ _ _ (by linarith [hg.1]) (by linarith [hg.2])
  rw [hdef]
  simp only [Bounds.withBorder, Bounds.finish, Bounds.xmax, Bounds.ymax]
  constructor
  · rintro ⟨_, ⟨h1, h2⟩, h3, h4⟩
    exact ⟨⟨h1, by linarith⟩, h3, by linarith⟩
  · rintro ⟨⟨h1, h2⟩, h3, h4⟩
    exact ⟨trivial, ⟨h1, by linarith⟩, h3, by linarith⟩

/-- C04: `withBorder(-n)` undoes `withBorder(n)`. -/
theorem C04_border_undo (c : Cls α) (b : Bounds α) (hb : b.Good c) (hd : b.defined = true)
    (dx dy : α) (py py' : Bool) :
    ((b.withBorder c dx dy py).withBorder c (-dx) (-dy) py').eq c b = true := by
  have h1 : ¬ b.deltax < c.ext := not_lt.mpr (hb hd).1
  have h2 : ¬ b.deltay < c.ext := not_lt.mpr (hb hd).2
  simp [Bounds.eq, Bounds.initargs, Bounds.withBorder, Bounds.finish, h1, h2, hd, Bounds.xmax,
      Bounds.ymax]

/-! ### C05 / C06 generic parts -/

/-- C05: copying a defined bounds gives an equal one (same coordinates, kinds and definedness). -/
theorem C05_copy_defined (c : Cls α) (b : Bounds α) (hb : b.Good c) (hd : b.defined = true) :
    b.copy c = b := by
  have h1 : ¬ b.deltax < c.ext := not_lt.mpr (hb hd).1
  have h2 : ¬ b.deltay < c.ext := not_lt.mpr (hb hd).2
  cases b
  simp_all [Bounds.copy, Bounds.finish]

/-- C06: equal *defined* bounds have equal hash keys. -/
theorem C06_eq_hash_partial (c : Cls α) (a b : Bounds α) (hd : a.defined = true)
    (h : a.eq c b = true) : a.hashKey = b.hashKey := by
  simp only [Bounds.eq, decide_eq_true_eq] at h
  unfold Bounds.hashKey
  by_cases hI : c.isI = true
  · cases hb : b.defined
    · simp [Bounds.initargs, hd, hb, hI] at h
    · simpa [Bounds.initargs, hd, hb, hI] using h
  · cases hb : b.defined
    · simp [Bounds.initargs, hd, hb, hI] at h
    · simp [Bounds.initargs, hd, hb, hI, Bounds.xmax, Bounds.ymax] at h
      obtain ⟨h1, h2, h3, h4⟩ := h
      rw [h1] at h2; rw [h3] at h4
      simp only [Prod.mk.injEq]
      exact ⟨h1, by linarith, h3, by linarith⟩

end generic

/-! ### Integer and float specific parts -/

section special

/-- C03: the integer points included in bounds are exactly `area()` many, and `area()` is the product
of the array shape. -/
theorem C03_area_counts (b : Bounds ℤ) (hb : b.Good clsI) :
    ∃ S : Finset (ℤ × ℤ), (∀ q : ℤ × ℤ, q ∈ S ↔ b.includesP clsI ⟨q.1, q.2⟩ = true) ∧
      (S.card : ℤ) = b.areaI ∧ b.areaI = b.numpyShape.1 * b.numpyShape.2 := by
  cases hd : b.defined with
  | false =>
    refine ⟨∅, ?_, ?_, ?_⟩
    · intro q
      simp [Bounds.includesP, hd]
    · simp [Bounds.areaI, hd]
    · simp [Bounds.areaI, Bounds.numpyShape, hd]
  | true =>
    have hg := hb hd
    simp only [clsI] at hg
    refine ⟨Finset.Icc b.xmin (b.xmin + b.deltax - 1) ×ˢ Finset.Icc b.ymin (b.ymin + b.deltay - 1),
      ?_, ?_, ?_⟩
    · intro q
      rw [includesP_iff, Finset.mem_product, Finset.mem_Icc, Finset.mem_Icc]
      simp only [Bounds.Covers, hd, clsI]
      tauto
    · rw [Finset.card_product, Int.card_Icc, Int.card_Icc]
      simp only [Bounds.areaI, hd]
      push_cast
      rw [Int.toNat_of_nonneg (by omega), Int.toNat_of_nonneg (by omega)]
      simp
    · simp only [Bounds.areaI, Bounds.numpyShape, hd]
      simp; ring

/-- C03: `xmax - xmin + 1` is the x size (and the same in y). -/
theorem C03_size (b : Bounds ℤ) : b.defined = true →
    (b.numpyShape = (b.ymax clsI - b.ymin + 1, b.xmax clsI - b.xmin + 1)) := by
  intro hd
  simp only [Bounds.numpyShape, hd, Bounds.xmax, Bounds.ymax, clsI, if_true, Prod.mk.injEq]
  omega

/-- C03: the centre pixel is included, and sits 0 or half a pixel above/right of the true centre,
according to the parity of the size. -/
theorem C03_center (b : Bounds ℤ) (hb : b.Good clsI) (hd : b.defined = true) :
    ∃ p t, b.centerI = some p ∧ b.trueCenterI = some t ∧ b.includesP clsI p = true ∧
      (b.xmin : ℝ) ≤ t.x ∧ t.x ≤ (b.xmax clsI : ℤ) ∧ (b.ymin : ℝ) ≤ t.y ∧ t.y ≤ (b.ymax clsI : ℤ) ∧
      (p.x : ℝ) - t.x = (if b.deltax % 2 = 0 then 1/2 else 0) ∧
      (p.y : ℝ) - t.y = (if b.deltay % 2 = 0 then 1/2 else 0) := by
  have hg := hb hd
  simp only [clsI] at hg
  have half : ∀ m n : ℤ, ((m + n / 2 : ℤ) : ℝ) - ((m + n - 1 + m : ℤ) : ℝ) / 2
      = if n % 2 = 0 then 1/2 else 0 := by
    intro m n
    have h := Int.mul_ediv_add_emod n 2
    have hn : ((n : ℤ) : ℝ) = 2 * ((n / 2 : ℤ) : ℝ) + ((n % 2 : ℤ) : ℝ) := by
      exact_mod_cast h.symm
    rcases Int.emod_two_eq_zero_or_one n with h0 | h0
    · rw [h0] at hn
      rw [if_pos h0]
      push_cast at *
      linarith
    · rw [h0] at hn
      rw [if_neg (by omega)]
      push_cast at *
      linarith
  have hX : (1 : ℝ) ≤ (b.deltax : ℝ) := by exact_mod_cast hg.1
  have hY : (1 : ℝ) ≤ (b.deltay : ℝ) := by exact_mod_cast hg.2
  refine ⟨⟨b.xmin + b.deltax / 2, b.ymin + b.deltay / 2⟩, ⟨((b.xmax clsI + b.xmin : ℤ) : ℝ) / 2,
    ((b.ymax clsI + b.ymin : ℤ) : ℝ) / 2⟩, ?_, ?_, ?_, ?_, ?_, ?_, ?_, ?_, ?_⟩
  · simp [Bounds.centerI, hd]
  · simp [Bounds.trueCenterI, hd]
  · rw [includesP_iff]
    refine ⟨hd, ?_⟩
    simp only [clsI]
    omega
  · simp only [Bounds.xmax, clsI]; push_cast; linarith
  · simp only [Bounds.xmax, clsI]; push_cast; linarith
  · simp only [Bounds.ymax, clsI]; push_cast; linarith
  · simp only [Bounds.ymax, clsI]; push_cast; linarith
  · simp only [Bounds.xmax, clsI]; exact half _ _
  · simp only [Bounds.ymax, clsI]; exact half _ _

/-- C03: on undefined bounds the area is zero and asking for a centre is an error. -/
theorem C03_undefined (b : Bounds ℤ) (hd : b.defined = false) :
    b.areaI = 0 ∧ b.numpyShape = (0, 0) ∧ b.centerI = none ∧ b.trueCenterI = none := by
  simp [Bounds.areaI, Bounds.numpyShape, Bounds.centerI, Bounds.trueCenterI, hd]

/-- Disagreement: with jax-array sizes, bounds empty in one direction only are
reported as defined, with a non-positive area although they include no point
(`BoundsI(jnp.array(1), jnp.array(-1), 1, 5)`). -/
theorem C03_jax_sizes_counterexample :
    ∃ b : Bounds ℤ, b = Bounds.mk4 clsI ⟨1, false⟩ ⟨-1, false⟩ ⟨1, true⟩ ⟨5, true⟩ ∧
      b.defined = true ∧ (∀ p, b.includesP clsI p = false) ∧ b.areaI = -5 := by
  refine ⟨_, rfl, by decide, ?_, by decide⟩
  intro p
  by_contra h
  rw [Bool.not_eq_false, includesP_iff] at h
  have h1 := h.2.1.1
  have h2 := h.2.1.2
  simp [Bounds.mk4, Bounds.finish, clsI] at h1 h2
  omega

/-- Disagreement: an undefined `BoundsD` can report a positive area
(`BoundsD(1, 0, 1, 0).area() == 1`). -/
theorem C03_areaD_counterexample :
    ∃ b : Bounds ℝ, b = Bounds.mk4 clsD ⟨1, true⟩ ⟨0, true⟩ ⟨1, true⟩ ⟨0, true⟩ ∧
      b.defined = false ∧ b.areaD = 1 := by
  refine ⟨_, rfl, ?_, ?_⟩
  · simp [Bounds.mk4, Bounds.finish, clsD]
  · simp [Bounds.mk4, Bounds.finish, clsD, Bounds.areaD]

/-- C04: `expand(f)` with `f ≥ 1` contains the original and is at least `f` times as wide
(integer bounds). -/
theorem C04_expandI (b : Bounds ℤ) (hb : b.Good clsI) (hd : b.defined = true) (fx fy : ℝ)
    (hx : 1 ≤ fx) (hy : 1 ≤ fy) :
    (b.expandI fx fy).includesB clsI b = true ∧
    fx * ((b.xmax clsI - b.xmin : ℤ) : ℝ) ≤
      (((b.expandI fx fy).xmax clsI - (b.expandI fx fy).xmin : ℤ) : ℝ) ∧
    fy * ((b.ymax clsI - b.ymin : ℤ) : ℝ) ≤
      (((b.expandI fx fy).ymax clsI - (b.expandI fx fy).ymin : ℤ) : ℝ) := by
  have hg := hb hd
  simp only [clsI] at hg
  have key : ∀ (m : ℤ) (f : ℝ), 0 ≤ m → 1 ≤ f → 0 ≤ ⌈(m : ℝ) * (1/2) * (f - 1)⌉ ∧
      f * m ≤ m + 2 * (⌈(m : ℝ) * (1/2) * (f - 1)⌉ : ℝ) := by
    intro m f hm hf
    have hm' : (0 : ℝ) ≤ m := by exact_mod_cast hm
    constructor
    · exact Int.ceil_nonneg (by have : 0 ≤ f - 1 := by linarith
                                positivity)
    · have := Int.le_ceil ((m : ℝ) * (1/2) * (f - 1))
      nlinarith
  have kx := key (b.xmax clsI - b.xmin) fx (by simp [Bounds.xmax, clsI]; omega) hx
  have ky := key (b.ymax clsI - b.ymin) fy (by simp [Bounds.ymax, clsI]; omega) hy
  refine ⟨?_, ?_, ?_⟩
  · rw [includesB_iff]
    refine ⟨finish_defined clsI _ _ _ _ _ _ ?_ ?_, hd, ?_, ?_, ?_, ?_⟩
    · simp only [clsI] at *; omega
    · simp only [clsI] at *; omega
    all_goals
      simp only [Bounds.expandI, border_xmin, border_xmax, border_ymin, border_ymax]
      omega
  · have e : (b.expandI fx fy).xmax clsI - (b.expandI fx fy).xmin
        = (b.xmax clsI - b.xmin) + 2 * ⌈((b.xmax clsI - b.xmin : ℤ) : ℝ) * (1/2) * (fx - 1)⌉ := by
      simp only [Bounds.expandI, border_xmin, border_xmax]
      omega
    rw [e]; push_cast; push_cast at kx; exact kx.2
  · have e : (b.expandI fx fy).ymax clsI - (b.expandI fx fy).ymin
        = (b.ymax clsI - b.ymin) + 2 * ⌈((b.ymax clsI - b.ymin : ℤ) : ℝ) * (1/2) * (fy - 1)⌉ := by
      simp only [Bounds.expandI, border_ymin, border_ymax]
      omega
    rw [e]; push_cast; push_cast at ky; exact ky.2

/-- C04: for float bounds `expand(f)` has exactly `f` times the extent, the same centre, and for
`f ≥ 1` contains the original. -/
theorem C04_expandD (b : Bounds ℝ) (hb : b.Good clsD) (hd : b.defined = true) (fx fy : ℝ)
    (hx : 1 ≤ fx) (hy : 1 ≤ fy) :
    (b.expandD fx fy).includesB clsD b = true ∧
    (b.expandD fx fy).xmax clsD - (b.expandD fx fy).xmin = fx * (b.xmax clsD - b.xmin) ∧
    (b.expandD fx fy).ymax clsD - (b.expandD fx fy).ymin = fy * (b.ymax clsD - b.ymin) ∧
    (b.expandD fx fy).xmax clsD + (b.expandD fx fy).xmin = b.xmax clsD + b.xmin ∧
    (b.expandD fx fy).ymax clsD + (b.expandD fx fy).ymin = b.ymax clsD + b.ymin := by
  have hg := hb hd
  simp only [clsD] at hg
  have px : 0 ≤ b.deltax * (fx - 1) := mul_nonneg hg.1 (by linarith)
  have py : 0 ≤ b.deltay * (fy - 1) := mul_nonneg hg.2 (by linarith)
  refine ⟨?_, ?_, ?_, ?_, ?_⟩
  · rw [includesB_iff]
    refine ⟨finish_defined clsD _ _ _ _ _ _ ?_ ?_, hd, ?_, ?_, ?_, ?_⟩
    all_goals
      simp only [Bounds.expandD, Bounds.withBorder, Bounds.finish, Bounds.xmax, Bounds.ymax, clsD]
      linarith
  all_goals
    simp only [Bounds.expandD, Bounds.withBorder, Bounds.finish, Bounds.xmax, Bounds.ymax, clsD]
    ring

/-- Disagreement: shifting an undefined float bounds, or padding an undefined integer bounds, gives
a defined bounds that includes points (`BoundsD().shift(p)`, `BoundsI().withBorder(1)`). -/
theorem C04_undefined_counterexample :
    (∀ d : Pos ℝ, ((Bounds.empty clsD).shift clsD d true).includesP clsD d = true) ∧
    ((Bounds.empty clsI).withBorder clsI 1 1 true).includesP clsI ⟨0, 0⟩ = true := by
  constructor
  · intro d
    rw [includesP_iff]
    simp [Bounds.Covers, Bounds.shift, Bounds.finish, Bounds.empty, clsD]
  · decide

/-- C05: copying any integer bounds gives an equal one; undefined bounds stay undefined. -/
theorem C05_copyI (b : Bounds ℤ) (h : Made clsI b) : (b.copy clsI).eq clsI b = true := by
  cases hd : b.defined with
  | true => rw [C05_copy_defined clsI b (C03_made_good h) hd]; simp [Bounds.eq]
  | false =>
    have h2 := h.aux.resolve_left (by simp [hd])
    have h3 := h2.2.2 (by simp [clsI])
    have : (b.copy clsI).defined = false := by
      rcases h3 with h3 | h3 <;> simp [Bounds.copy, Bounds.finish, h2.2.1, h3]
    simp [Bounds.eq, Bounds.initargs, hd, this]

/-- Disagreement: copying an undefined `BoundsD` gives a *defined* bounds, not equal to the original;
converting it to `BoundsI` gives a defined one-pixel bounds. -/
theorem C05_copyD_counterexample :
    Made clsD (Bounds.empty clsD) ∧
    ((Bounds.empty clsD).copy clsD).eq clsD (Bounds.empty clsD) = false ∧
    ∃ b, (Bounds.empty clsD).toI = some b ∧ b.defined = true ∧ b.areaI = 1 := by
  refine ⟨Made.empty, ?_, ?_⟩
  · simp [Bounds.eq, Bounds.initargs, Bounds.copy, Bounds.finish, Bounds.empty, clsD]
  · simp [Bounds.toI, Bounds.finish, Bounds.empty, clsD, clsI, Bounds.areaI]

/-- C05 (float bounds): copying defined bounds is the identity.  The full statement also covers
undefined bounds, where it fails (`C05_copyD_counterexample`). -/
theorem C05_copyD_partial (b : Bounds ℝ) (h : Made clsD b) (hd : b.defined = true) :
    b.copy clsD = b := C05_copy_defined clsD b (C03_made_good h) hd

/-- C05: converting `BoundsI` to `BoundsD` and back gives equal bounds covering the same integer
points, and undefined bounds stay undefined on the way. -/
theorem C05_convert_roundtrip (b : Bounds ℤ) (h : Made clsI b) :
    ∃ b', b.toD.toI = some b' ∧ b'.eq clsI b = true ∧ b.toD.defined = b.defined ∧
      (∀ x y : ℤ, b.toD.includesP clsD ⟨x, y⟩ = b.includesP clsI ⟨x, y⟩) := by
  have e : b.toD.toI = some (b.copy clsI) := by
    unfold Bounds.toI
    have q1 : b.toD.xmin = (b.xmin : ℝ) := rfl
    have q2 : b.toD.ymin = (b.ymin : ℝ) := rfl
    have q3 : b.toD.deltax = ((b.deltax + -1 : ℤ) : ℝ) := rfl
    have q4 : b.toD.deltay = ((b.deltay + -1 : ℤ) : ℝ) := rfl
    rw [q1, q2, q3, q4, Int.floor_intCast, Int.floor_intCast, Int.floor_intCast, Int.floor_intCast,
      if_pos ⟨rfl, rfl, rfl, rfl⟩]
    simp [Bounds.toD, Bounds.finish, Bounds.copy]
  have hdef : b.toD.defined = b.defined := by
    rcases h.aux with g | g
    · simp only [clsI] at g
      rw [g.2.2]
      apply finish_defined
      · simp only [clsD]; exact_mod_cast (by omega : (0:ℤ) ≤ b.deltax + -1)
      · simp only [clsD]; exact_mod_cast (by omega : (0:ℤ) ≤ b.deltay + -1)
    · rw [g.1]
      have h3 := g.2.2 (by simp [clsI])
      simp only [clsI] at h3
      by_contra hne
      rw [Bool.not_eq_false] at hne
      have := (finish_py_defined_iff clsD (b.xmin : ℝ) ((b.deltax + -1 : ℤ) : ℝ) b.ymin
        ((b.deltay + -1 : ℤ) : ℝ) b.posPy).mp (by simpa [Bounds.toD, g.2.1] using hne)
      simp only [clsD] at this
      have h4 : (0:ℤ) ≤ b.deltax + -1 := by exact_mod_cast this.1
      have h5 : (0:ℤ) ≤ b.deltay + -1 := by exact_mod_cast this.2
      omega
  refine ⟨_, e, C05_copyI b h, hdef, ?_⟩
  intro x y
  rw [Bool.eq_iff_iff, includesP_iff, includesP_iff]
  unfold Bounds.Covers
  rw [hdef]
  simp only [Bounds.toD, Bounds.finish, clsD, clsI, sub_zero]
  have q1 : ∀ m d x : ℤ, ((m : ℝ) ≤ x ∧ (x : ℝ) ≤ m + ((d + -1 : ℤ) : ℝ)) ↔ (m ≤ x ∧ x ≤ m + d - 1) := by
    intro m d x
    constructor
    · rintro ⟨h1, h2⟩
      have h1 : m ≤ x := by exact_mod_cast h1
      have h2 : x ≤ m + (d + -1) := by exact_mod_cast h2
      omega
    · rintro ⟨h1, h2⟩
      have h2 : x ≤ m + (d + -1) := by omega
      exact ⟨by exact_mod_cast h1, by exact_mod_cast h2⟩
  rw [q1, q1]

/-- C05: flattening and unflattening integer bounds gives equal bounds with the same definedness; for
defined bounds the complete state (including staticness and scalar kinds) is preserved. -/
theorem C05_pytreeI (b : Bounds ℤ) (hb : b.Inv clsI) :
    (unflattenI b.flattenI).eq clsI b = true ∧ (unflattenI b.flattenI).defined = b.defined ∧
    (b.defined = true → unflattenI b.flattenI = b) := by
  cases hd : b.defined with
  | true =>
    have : unflattenI b.flattenI = b := by
      have hi := hb hd rfl
      simp only [clsI, not_and_or] at hi
      have hi' : (!(decide (b.deltax < 1) && decide (b.deltay < 1))) = true := by
        rcases hi with hi | hi <;> simp [hi]
      unfold Bounds.flattenI
      rw [if_pos hd]
      split
      · rename_i hp
        cases b; simp_all [unflattenI]
      · rename_i hp
        cases b; simp_all [unflattenI]
    rw [this]
    exact ⟨by simp [Bounds.eq], hd, fun _ => rfl⟩
  | false =>
    have : unflattenI b.flattenI = Bounds.empty clsI := by
      simp [Bounds.flattenI, hd, unflattenI]
    rw [this]
    refine ⟨?_, ?_, ?_⟩
    · simp [Bounds.eq, Bounds.initargs, hd, Bounds.empty, Bounds.finish]
    · simp [Bounds.empty, Bounds.finish]
    · simp

/-- C05: the same for float bounds, whose leaves keep their kinds. -/
theorem C05_pytreeD (b : Bounds ℝ) (h : Made clsD b) :
    (unflattenD b.flattenD).eq clsD b = true ∧ (unflattenD b.flattenD).defined = b.defined ∧
    (b.defined = true → unflattenD b.flattenD = b) := by
  cases hd : b.defined with
  | true =>
    have : unflattenD b.flattenD = b := by
      have := C05_copyD_partial b h hd
      simpa [unflattenD, Bounds.flattenD, hd, Bounds.copy] using this
    rw [this]
    exact ⟨by simp [Bounds.eq], hd, fun _ => rfl⟩
  | false =>
    have : unflattenD b.flattenD = Bounds.empty clsD := by
      simp [Bounds.flattenD, hd, unflattenD]
    rw [this]
    refine ⟨?_, ?_, ?_⟩
    · simp [Bounds.eq, Bounds.initargs, hd, Bounds.empty, Bounds.finish]
    · simp [Bounds.empty, Bounds.finish]
    · simp

/-- Disagreement: two undefined bounds compare equal but hash different tuples
(`BoundsI()` and `BoundsI(5, 4, 1, 1)`). -/
theorem C06_undefined_counterexample :
    ∃ a b : Bounds ℤ, Made clsI a ∧ Made clsI b ∧ a.eq clsI b = true ∧ a.hashKey ≠ b.hashKey :=
  ⟨Bounds.empty clsI, Bounds.mk4 clsI ⟨5, true⟩ ⟨4, true⟩ ⟨1, true⟩ ⟨1, true⟩, Made.empty,
    Made.mk4 _ _ _ _, by decide, by decide⟩

/-! ### Non-trivial instances of the hypotheses -/

/-- `BoundsI(-3, 10, 2, 7)` -/
def exB : Bounds ℤ := Bounds.mk4 clsI ⟨-3, true⟩ ⟨10, true⟩ ⟨2, true⟩ ⟨7, true⟩
/-- `BoundsI(8, 20, -1, 4)` -/
def exB' : Bounds ℤ := Bounds.mk4 clsI ⟨8, true⟩ ⟨20, true⟩ ⟨-1, true⟩ ⟨4, true⟩

example : exB.Good clsI ∧ exB.defined = true ∧ Made clsI exB ∧ exB.Inv clsI :=
  ⟨C03_made_good (Made.mk4 _ _ _ _), by decide, Made.mk4 _ _ _ _, (C03_made_good (Made.mk4 _ _ _ _)).inv⟩
-- C01
example : (exB.and clsI exB').includesP clsI ⟨9, 3⟩ = true := by decide
example : (exB.and clsI exB').includesP clsI ⟨7, 3⟩ = false := by decide
-- C02
example : (exB.add clsI exB').includesB clsI exB' = true := by decide
-- C03
example : exB.areaI = 84 ∧ exB.centerI = some ⟨4, 5⟩ := by decide
-- C04
example : ((exB.shift clsI ⟨2, 3⟩ true).withBorder clsI 4 (-1) true).numpyShape = (4, 22) := by decide
-- C05, C06
example : exB.eq clsI exB' = false ∧ exB.eq clsI (exB.copy clsI) = true := by decide

end special
end JG
