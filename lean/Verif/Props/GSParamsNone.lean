import Verif.Model.GSParamsNone
import Verif.Props.GSParams

/-!
# C14 for `None` entries and arguments of any type
-/

namespace JG

/-- **C14** (`None` entries): entries that are `None` are ignored by `combine` as soon as one entry is
not: the result is, field by field, the strictest of the entries that are there. -/
theorem C14_none_entries (l : List (Option GSP)) (hl : ∃ g, some g ∈ l) :
    ∃ c, GSP.combineN l = some (some c) ∧ ∀ f, Strictest f (l.filterMap id) (c f) := by
  have mem : ∀ g, g ∈ l.filterMap id ↔ some g ∈ l := by intro g; simp
  match l, hl with
  | [], hl => simp at hl
  | [g], hl =>
    obtain ⟨g', hg⟩ := hl
    rw [List.mem_singleton] at hg
    subst hg
    exact ⟨g', rfl, fun f => ⟨⟨g', by simp, rfl⟩, by
      intro h hm
      have : h = g' := by simpa using hm
      rw [this]; exact ⟨fun _ => le_rfl, fun _ => le_rfl⟩⟩⟩
  | g :: h :: rest, hl =>
    rw [GSP.combineN]
    split_ifs with heq
    · obtain ⟨g', hg⟩ := hl
      have hgg : g = some g' := by
        rcases List.mem_cons.mp hg with e | e
        · exact e.symm
        · exact (heq _ e).symm
      subst hgg
      refine ⟨g', rfl, fun f => ⟨⟨g', by simp, rfl⟩, ?_⟩⟩
      intro k hk
      have hk' := (mem k).mp hk
      have : k = g' := by
        rcases List.mem_cons.mp hk' with e | e
        · exact Option.some.inj e
        · exact Option.some.inj (heq _ e)
      rw [this]; exact ⟨fun _ => le_rfl, fun _ => le_rfl⟩
    · cases hf : (g :: h :: rest).filterMap id with
      | nil =>
        obtain ⟨g', hg⟩ := hl
        have := (mem g').mpr hg
        rw [hf] at this
        simp at this
      | cons a m => exact ⟨_, rfl, fun f => reduce_spec f a m⟩
    · simp

/-- **C14** (`None` entries): combining agrees with combining the entries that are there. -/
theorem C14_none_ignored (l : List (Option GSP)) (hl : ∃ g, some g ∈ l) :
    GSP.combineN l = (GSP.combine (l.filterMap id)).map some := by
  obtain ⟨c, h1, h2⟩ := C14_none_entries l hl
  have hne : l.filterMap id ≠ [] := by
    obtain ⟨g, hg⟩ := hl
    intro h
    have : g ∈ l.filterMap id := by simpa using hg
    rw [h] at this
    simp at this
  rw [h1, combine_eq_of _ c hne h2]
  rfl

/-- **C14** (nothing there): a non-empty list of `None` combines to `None`; the empty list raises. -/
theorem C14_all_none (n : ℕ) :
    GSP.combineN (List.replicate (n + 1) none) = some none ∧ GSP.combineN [] = none := by
  refine ⟨?_, rfl⟩
  cases n with
  | zero => rfl
  | succ n =>
    have h : List.replicate (n + 1 + 1) (none : Option GSP)
        = none :: none :: List.replicate n none := rfl
    rw [h, GSP.combineN, if_pos]
    · intro x hx
      rcases List.mem_cons.mp hx with e | e
      · exact e
      · exact List.eq_of_mem_replicate e
    · simp

/-- Specification: the parameters that `check` starts from. -/
def CheckBase (cd : GSP) (g d : GSArg) (b : GSP) : Prop :=
  g = .gsp b ∨ g = .none ∧ (d = .gsp b ∨ d = .none ∧ b = cd)

/-- Specification: the value a list of keywords gives to a name, the last one counting. -/
def KwValue (kw : List (String × ℝ)) (k : String) (v : ℝ) : Prop :=
  ∃ l m, kw = l ++ (k, v) :: m ∧ ∀ p ∈ m, p.1 ≠ k

theorem find_name_some {k : String} {f : GSField}
    (h : GSField.all.find? (fun g => g.name = k) = some f) : f.name = k := by
  simpa using List.find?_some h

theorem find_name_none {k : String}
    (h : GSField.all.find? (fun g => g.name = k) = none) (f : GSField) : f.name ≠ k := by
  intro e
  subst e
  rw [GSField.find_name f] at h
  simp at h

theorem name_inj {f g : GSField} (h : f.name = g.name) : f = g := by
  have h1 := GSField.find_name f
  rw [h, GSField.find_name g] at h1
  exact (Option.some.inj h1).symm

theorem withParams_spec (kw : List (String × ℝ)) : ∀ (g r : GSP), g.withParams kw = some r →
    (∀ p ∈ kw, ∃ f : GSField, f.name = p.1) ∧
    ∀ f : GSField, (∀ v, KwValue kw f.name v → r f = v) ∧
      ((∀ p ∈ kw, p.1 ≠ f.name) → r f = g f) := by
  induction kw with
  | nil =>
    intro g r h
    obtain rfl : g = r := Option.some.inj h
    refine ⟨by simp, fun f => ⟨?_, fun _ => rfl⟩⟩
    rintro v ⟨l, m, e, _⟩
    simp at e
  | cons p rest ih =>
    obtain ⟨k, v⟩ := p
    intro g r h
    rw [GSP.withParams] at h
    cases hf : GSField.all.find? (fun f => f.name = k) with
    | none => rw [hf] at h; simp at h
    | some f0 =>
      rw [hf] at h
      have hk := find_name_some hf
      obtain ⟨h1, h2⟩ := ih _ _ h
      refine ⟨?_, fun f => ⟨?_, ?_⟩⟩
      · intro p hp
        rcases List.mem_cons.mp hp with e | e
        · exact ⟨f0, by rw [e, hk]⟩
        · exact h1 p e
      · rintro w ⟨l, m, e, hm⟩
        cases l with
        | nil =>
          simp only [List.nil_append, List.cons.injEq, Prod.mk.injEq] at e
          obtain ⟨⟨e1, e2⟩, e3⟩ := e
          subst e3
          rw [(h2 f).2 hm, if_pos (name_inj (by rw [hk, e1])), e2]
        | cons q l =>
          simp only [List.cons_append, List.cons.injEq] at e
          exact (h2 f).1 w ⟨l, m, e.2, hm⟩
      · intro hn
        rw [(h2 f).2 fun p hp => hn p (List.mem_cons_of_mem _ hp), if_neg]
        intro e
        exact hn (k, v) List.mem_cons_self (by rw [e, hk])

theorem withParams_ok (kw : List (String × ℝ)) : ∀ (g : GSP),
    (∀ p ∈ kw, ∃ f : GSField, f.name = p.1) → ∃ r, g.withParams kw = some r := by
  induction kw with
  | nil => intro g _; exact ⟨g, rfl⟩
  | cons p rest ih =>
    obtain ⟨k, v⟩ := p
    intro g h
    rw [GSP.withParams]
    cases hf : GSField.all.find? (fun f => f.name = k) with
    | none =>
      obtain ⟨f, e⟩ := h (k, v) List.mem_cons_self
      exact absurd e (find_name_none hf f)
    | some f0 => exact ih _ fun p hp => h p (List.mem_cons_of_mem _ hp)

/-- **C14** (`check`, arguments of any type, any keywords): it succeeds exactly if the argument that is
used is a `GSParams` (the default only when the first is `None`, the class default when both are) and
every keyword names a field. -/
theorem C14_check_succeeds (cd : GSP) (g d : GSArg) (kw : List (String × ℝ)) :
    (∃ r, GSP.checkArg cd g d kw = some r) ↔
      (∃ b, CheckBase cd g d b) ∧ ∀ p ∈ kw, ∃ f : GSField, f.name = p.1 := by
  have key : ∀ b : GSP, (∃ r, b.withParams kw = some r) ↔ ∀ p ∈ kw, ∃ f : GSField, f.name = p.1 :=
    fun b => ⟨fun ⟨r, h⟩ => (withParams_spec kw b r h).1, withParams_ok kw b⟩
  cases g <;> cases d <;> simp [GSP.checkArg, CheckBase, key]

/-- **C14** (`check`, result): the fields named by keywords have the given values, all the others those
of the parameters that are used. -/
theorem C14_check_result (cd b r : GSP) (g d : GSArg) (kw : List (String × ℝ))
    (hb : CheckBase cd g d b) (h : GSP.checkArg cd g d kw = some r) (f : GSField) :
    (∀ v, KwValue kw f.name v → r f = v) ∧ ((∀ p ∈ kw, p.1 ≠ f.name) → r f = b f) := by
  have : b.withParams kw = some r := by
    rcases hb with rfl | ⟨rfl, rfl | ⟨rfl, rfl⟩⟩ <;> exact h
  exact (withParams_spec kw b r this).2 f

/-- A list with `None` in front, in the middle and at the end. -/
example (a b : GSP) : GSP.combineN [none, some a, none, some b, none] =
    (GSP.combine [a, b]).map some := by
  have := C14_none_ignored [none, some a, none, some b, none] ⟨a, by simp⟩
  simpa using this

/-- Two keywords on a default, the object itself being `None`. -/
example (cd d : GSP) : ∃ r, GSP.checkArg cd .none (.gsp d)
      [("table_spacing", 2), ("maxk_threshold", 3)] = some r ∧
    r .table_spacing = 2 ∧ r .folding_threshold = d .folding_threshold := by
  obtain ⟨r, hr⟩ := (C14_check_succeeds cd .none (.gsp d)
    [("table_spacing", 2), ("maxk_threshold", 3)]).mpr
    ⟨⟨d, Or.inr ⟨rfl, Or.inl rfl⟩⟩, by
      intro p hp
      simp only [List.mem_cons, List.not_mem_nil, or_false] at hp
      rcases hp with rfl | rfl
      · exact ⟨.table_spacing, rfl⟩
      · exact ⟨.maxk_threshold, rfl⟩⟩
  have res := C14_check_result cd d r .none (.gsp d) _ (Or.inr ⟨rfl, Or.inl rfl⟩) hr
  refine ⟨r, hr, (res .table_spacing).1 2 ⟨[], _, rfl, ?_⟩, (res .folding_threshold).2 ?_⟩
  · simp [GSField.name]
  · simp [GSField.name]

end JG
