import Verif.Model.BoundsArgs
import Verif.Props.Bounds

/-! C121: every form of the arguments of `BoundsI` and `BoundsD` means the same region. -/

namespace JG

variable {α : Type} [CommRing α] [LinearOrder α] [IsStrictOrderedRing α]

/-- No keywords. -/
def noKw (α : Type) : BKw α := ⟨none, none, none, none, none, none, false⟩
/-- The keywords `xmin, xmax, ymin, ymax`. -/
def kwMax (x x' y y' : Scal α) : BKw α := ⟨some x, some x', some y, some y', none, none, false⟩
/-- The keywords `xmin, deltax, ymin, deltay`. -/
def kwDelta (x dx y dy : Scal α) : BKw α := ⟨some x, none, some y, none, some dx, some dy, false⟩

omit [IsStrictOrderedRing α] in
/-- C121: positional arguments are accepted exactly in the five documented forms. -/
theorem C121_positional (c : Cls α) (args : List (BArg α)) :
    (Bounds.parse c args (noKw α)).isSome ↔
      args = [] ∨ (∃ b, args = [.bounds b]) ∨ (∃ p py, args = [.pos p py]) ∨
      (∃ p py q qy, args = [.pos p py, .pos q qy]) ∨
      (∃ x x' y y', args = [.num x, .num x', .num y, .num y']) := by
  have e : Bounds.parse c args (noKw α) = Bounds.ofArgs c args := by
    simp [Bounds.parse, noKw, BKw.isEmpty]
  rw [e]
  rcases args with _ | ⟨a, _ | ⟨b, _ | ⟨d, _ | ⟨f, _ | ⟨g, r⟩⟩⟩⟩⟩
  · simp [Bounds.ofArgs]
  · cases a <;> simp [Bounds.ofArgs]
  · cases a <;> cases b <;> simp [Bounds.ofArgs]
  · cases a <;> cases b <;> simp [Bounds.ofArgs]
  · cases a <;> cases b <;> cases d <;> cases f <;> simp [Bounds.ofArgs]
  · cases a <;> cases b <;> cases d <;> cases f <;> simp [Bounds.ofArgs]

omit [IsStrictOrderedRing α] in
/-- C121: if there are keywords, they are accepted exactly if there is no positional argument and they are
`xmin, ymin` with either both of `xmax, ymax` or both of `deltax, deltay`, and nothing else. -/
theorem C121_keywords (c : Cls α) (args : List (BArg α)) (k : BKw α) (hk : k ≠ noKw α) :
    (Bounds.parse c args k).isSome ↔
      args = [] ∧ ((∃ x x' y y', k = kwMax x x' y y') ∨ (∃ x dx y dy, k = kwDelta x dx y dy)) := by
  have he : k.isEmpty = false := by
    rcases k with ⟨_ | _, _ | _, _ | _, _ | _, _ | _, _ | _, _ | _⟩ <;> simp_all [BKw.isEmpty, noKw]
  unfold Bounds.parse
  rw [if_neg (by simp [he])]
  rcases args with _ | ⟨a, r⟩
  · simp only [List.length_nil, ne_eq, not_true_eq_false, if_false, true_and]
    rcases k with ⟨_ | _, _ | _, _ | _, _ | _, _ | _, _ | _, _ | _⟩ <;>
      simp [Bounds.ofKw, kwMax, kwDelta]
  · simp

omit [IsStrictOrderedRing α] in
/-- C121: the keywords `xmin, xmax, ymin, ymax` mean what the four numbers mean in that order. -/
theorem C121_four (c : Cls α) (x x' y y' : Scal α) :
    Bounds.parse c [] (kwMax x x' y y') = Bounds.parse c [.num x, .num x', .num y, .num y'] (noKw α) := by
  simp [Bounds.parse, kwMax, noKw, BKw.isEmpty, Bounds.ofKw, Bounds.ofArgs]

/-- C121: four numbers of any kind, in order, give the points between them and nothing else. -/
theorem C121_four_covers (c : Cls α) (x x' y y' : Scal α) (hx : x.val ≤ x'.val) (hy : y.val ≤ y'.val) :
    ∃ b, Bounds.parse c [.num x, .num x', .num y, .num y'] (noKw α) = some b ∧
      ∀ p, b.includesP c p = true ↔ (x.val ≤ p.x ∧ p.x ≤ x'.val) ∧ (y.val ≤ p.y ∧ p.y ≤ y'.val) := by
  refine ⟨Bounds.mk4 c x x' y y', by simp [Bounds.parse, noKw, BKw.isEmpty, Bounds.ofArgs], fun p => ?_⟩
  have hd : (Bounds.mk4 c x x' y y').defined = true :=
    finish_defined c _ _ _ _ _ _ (by linarith) (by linarith)
  unfold Bounds.includesP
  rw [hd, mk4_xmax, mk4_ymax]
  simp only [Bounds.mk4, Bounds.finish, Bool.true_and, Bool.and_eq_true, decide_eq_true_eq]
  tauto

/-- C121: the number of columns and rows as keywords: `deltax` columns from `xmin`; for `BoundsD` the width. -/
theorem C121_delta_covers (c : Cls α) (x dx y dy : Scal α) (hx : c.ext ≤ dx.val) (hy : c.ext ≤ dy.val) :
    ∃ b, Bounds.parse c [] (kwDelta x dx y dy) = some b ∧
      ∀ p, b.includesP c p = true ↔
        (x.val ≤ p.x ∧ p.x ≤ x.val + dx.val - c.ext) ∧ (y.val ≤ p.y ∧ p.y ≤ y.val + dy.val - c.ext) := by
  refine ⟨Bounds.mkDelta c x dx y dy, by simp [Bounds.parse, kwDelta, BKw.isEmpty, Bounds.ofKw], fun p => ?_⟩
  have hd : (Bounds.mkDelta c x dx y dy).defined = true := finish_defined c _ _ _ _ _ _ hx hy
  unfold Bounds.includesP
  rw [hd]
  simp only [Bounds.mkDelta, Bounds.finish, Bounds.xmax, Bounds.ymax, Bool.true_and, Bool.and_eq_true,
    decide_eq_true_eq]
  tauto

/-- C121: two positions, in any order and at any pair of opposite corners, give the rectangle between them. -/
theorem C121_corners (c : Cls α) (p q : Pos α) (py qy : Bool) :
    ∃ b, Bounds.parse c [.pos p py, .pos q qy] (noKw α) = some b ∧
      Bounds.parse c [.pos q qy, .pos p py] (noKw α) = some b ∧
      b.includesP c p = true ∧ b.includesP c q = true ∧
      (∀ r, b.includesP c r = true ↔
        ((p.x ≤ r.x ∧ r.x ≤ q.x) ∨ (q.x ≤ r.x ∧ r.x ≤ p.x)) ∧ ((p.y ≤ r.y ∧ r.y ≤ q.y) ∨ (q.y ≤ r.y ∧ r.y ≤ p.y))) := by
  have hd : ∀ p q : Pos α, (Bounds.ofTwo c p q (py && qy)).defined = true := fun p q =>
    finish_defined c _ _ _ _ _ _ (by have := min_le_max (a := p.x) (b := q.x); simp only; linarith)
      (by have := min_le_max (a := p.y) (b := q.y); simp only; linarith)
  have hi : ∀ r, (Bounds.ofTwo c p q (py && qy)).includesP c r = true ↔
      ((p.x ≤ r.x ∧ r.x ≤ q.x) ∨ (q.x ≤ r.x ∧ r.x ≤ p.x)) ∧
      ((p.y ≤ r.y ∧ r.y ≤ q.y) ∨ (q.y ≤ r.y ∧ r.y ≤ p.y)) := by
    intro r
    unfold Bounds.includesP
    rw [hd]
    have e1 : (Bounds.ofTwo c p q (py && qy)).xmax c = max p.x q.x := mk4_xmax c _ _ _ _
    have e2 : (Bounds.ofTwo c p q (py && qy)).ymax c = max p.y q.y := mk4_ymax c _ _ _ _
    rw [e1, e2]
    simp only [Bounds.ofTwo, Bounds.mk4, Bounds.finish, Bool.true_and, Bool.and_eq_true, decide_eq_true_eq,
      min_le_iff, le_max_iff]
    constructor
    · rintro ⟨⟨⟨h1, h2⟩, h3⟩, h4⟩
      constructor
      · rcases le_total p.x q.x with h | h
        · exact Or.inl ⟨h1.elim id fun h' => h.trans h', h3.elim (fun h' => h'.trans h) id⟩
        · exact Or.inr ⟨h1.elim (fun h' => h.trans h') id, h3.elim id fun h' => h'.trans h⟩
      · rcases le_total p.y q.y with h | h
        · exact Or.inl ⟨h2.elim id fun h' => h.trans h', h4.elim (fun h' => h'.trans h) id⟩
        · exact Or.inr ⟨h2.elim (fun h' => h.trans h') id, h4.elim id fun h' => h'.trans h⟩
    · rintro ⟨h1, h2⟩
      rcases h1 with h1 | h1 <;> rcases h2 with h2 | h2 <;> simp [h1, h2]
  refine ⟨Bounds.ofTwo c p q (py && qy), by simp [Bounds.parse, noKw, BKw.isEmpty, Bounds.ofArgs], ?_, ?_, ?_, hi⟩
  · simp only [Bounds.parse, noKw, BKw.isEmpty, Bounds.ofArgs, Bounds.ofTwo, min_comm q.x, min_comm q.y,
      max_comm q.x, max_comm q.y, Bool.and_comm qy]
    simp
  · rw [hi]
    exact ⟨by rcases le_total p.x q.x with h | h <;> simp [h], by rcases le_total p.y q.y with h | h <;> simp [h]⟩
  · rw [hi]
    exact ⟨by rcases le_total p.x q.x with h | h <;> simp [h], by rcases le_total p.y q.y with h | h <;> simp [h]⟩

/-- C121: one position gives the bounds that include that position alone. -/
theorem C121_point (c : Cls α) (p : Pos α) (py : Bool) :
    ∃ b, Bounds.parse c [.pos p py] (noKw α) = some b ∧ ∀ r, b.includesP c r = true ↔ r = p := by
  refine ⟨Bounds.ofPos c p py, by simp [Bounds.parse, noKw, BKw.isEmpty, Bounds.ofArgs], fun r => ?_⟩
  have hd : (Bounds.ofPos c p py).defined = true := finish_defined c _ _ _ _ _ _ (by simp) (by simp)
  unfold Bounds.includesP
  rw [hd]
  simp only [Bounds.ofPos, Bounds.finish, Bounds.xmax, Bounds.ymax, Bool.true_and, Bool.and_eq_true,
    decide_eq_true_eq, sub_self, zero_add, add_sub_cancel_right]
  rcases p with ⟨a, b⟩; rcases r with ⟨a', b'⟩
  simp only [Pos.mk.injEq]
  constructor
  · rintro ⟨⟨⟨h1, h2⟩, h3⟩, h4⟩; exact ⟨le_antisymm h3 h1, le_antisymm h4 h2⟩
  · rintro ⟨rfl, rfl⟩; simp

omit [IsStrictOrderedRing α] in
/-- C121: no argument gives bounds that include nothing. -/
theorem C121_nothing (c : Cls α) : ∃ b, Bounds.parse c [] (noKw α) = some b ∧ b.defined = false ∧
    ∀ r, b.includesP c r = false := by
  have hd : (Bounds.empty c).defined = false := by simp [Bounds.empty, Bounds.finish]
  refine ⟨Bounds.empty c, by simp [Bounds.parse, noKw, BKw.isEmpty, Bounds.ofArgs], hd, fun r => ?_⟩
  simp [Bounds.includesP, hd]

omit [IsStrictOrderedRing α] in
/-- C121: unlike two positions, numbers given one by one in the wrong order give bounds that include nothing, whatever
kind of numbers they are. -/
theorem C121_order (c : Cls α) (x x' y y' : Scal α) (h : x'.val < x.val ∨ y'.val < y.val) :
    ∃ b, Bounds.parse c [.num x, .num x', .num y, .num y'] (noKw α) = some b ∧ ∀ r, b.includesP c r = false := by
  refine ⟨Bounds.mk4 c x x' y y', by simp [Bounds.parse, noKw, BKw.isEmpty, Bounds.ofArgs], fun r => ?_⟩
  rw [Bool.eq_false_iff]
  intro hr
  unfold Bounds.includesP at hr
  have e1 : (Bounds.mk4 c x x' y y').xmax c = x'.val := by simp only [Bounds.mk4, Bounds.finish, Bounds.xmax]; ring
  have e2 : (Bounds.mk4 c x x' y y').ymax c = y'.val := by simp only [Bounds.mk4, Bounds.finish, Bounds.ymax]; ring
  rw [e1, e2] at hr
  simp only [Bounds.mk4, Bounds.finish, Bool.and_eq_true, decide_eq_true_eq] at hr
  rcases h with h | h
  · exact absurd (le_trans (of_decide_eq_true hr.1.1.1.2) hr.1.2) (not_le.2 h)
  · exact absurd (le_trans (of_decide_eq_true hr.1.1.2) hr.2) (not_le.2 h)

example : (Bounds.parse clsI [.num ⟨1, true⟩] (noKw ℤ)) = none := rfl
example : (Bounds.parse clsI [] ⟨some ⟨1, true⟩, some ⟨4, true⟩, some ⟨1, true⟩, none, none, some ⟨3, true⟩, false⟩) =
    (none : Option (Bounds ℤ)) := rfl

end JG
