import Verif.Model.GSParams
import Mathlib.Data.List.Perm.Basic
import Mathlib.Tactic.Linarith

/-! Property C14: combining GSParams. -/

namespace JG

/-- Specification: fields where a larger value means "at least as accurate/permissive". -/
def GSField.largerIsStricter (f : GSField) : Prop :=
  f = .minimum_fft_size ∨ f = .maximum_fft_size ∨ f = .stepk_minimum_hlr

/-- Specification: `a` is at least as strict as `b` in field `f`. -/
def AtLeast (f : GSField) (a b : ℝ) : Prop :=
  (f.largerIsStricter → b ≤ a) ∧ (¬ f.largerIsStricter → a ≤ b)

/-- Specification: `v` is the strictest value of field `f` among the list. -/
def Strictest (f : GSField) (l : List GSP) (v : ℝ) : Prop :=
  (∃ g ∈ l, g f = v) ∧ ∀ g ∈ l, AtLeast f v (g f)

theorem pyMax_spec (l : List ℝ) : ∀ a, (pyMax a l = a ∨ pyMax a l ∈ l) ∧ a ≤ pyMax a l ∧
    ∀ b ∈ l, b ≤ pyMax a l := by
  induction l with
  | nil => intro a; simp [pyMax]
  | cons c t ih =>
    intro a
    obtain ⟨h1, h2, h3⟩ := ih (max a c)
    have e : pyMax a (c :: t) = pyMax (max a c) t := rfl
    rw [e]
    refine ⟨?_, (le_max_left _ _).trans h2, ?_⟩
    · rcases h1 with h1 | h1
      · rw [h1]
        rcases max_choice a c with h | h
        · left; exact h
        · right; rw [h]; simp
      · right; exact List.mem_cons_of_mem _ h1
    · intro b hb
      rcases List.mem_cons.mp hb with rfl | hb
      · exact (le_max_right _ _).trans h2
      · exact h3 b hb

theorem pyMin_spec (l : List ℝ) : ∀ a, (pyMin a l = a ∨ pyMin a l ∈ l) ∧ pyMin a l ≤ a ∧
    ∀ b ∈ l, pyMin a l ≤ b := by
  induction l with
  | nil => intro a; simp [pyMin]
  | cons c t ih =>
    intro a
    obtain ⟨h1, h2, h3⟩ := ih (min a c)
    have e : pyMin a (c :: t) = pyMin (min a c) t := rfl
    rw [e]
    refine ⟨?_, h2.trans (min_le_left _ _), ?_⟩
    · rcases h1 with h1 | h1
      · rw [h1]
        rcases min_choice a c with h | h
        · left; exact h
        · right; rw [h]; simp
      · right; exact List.mem_cons_of_mem _ h1
    · intro b hb
      rcases List.mem_cons.mp hb with rfl | hb
      · exact h2.trans (min_le_right _ _)
      · exact h3 b hb

theorem reduce_spec (f : GSField) (g : GSP) (rest : List GSP) :
    Strictest f (g :: rest) (f.reduce (g f) (rest.map fun h => h f)) := by
  have mx := pyMax_spec (rest.map fun h => h f) (g f)
  have mn := pyMin_spec (rest.map fun h => h f) (g f)
  have memb : ∀ v, (v = g f ∨ v ∈ rest.map fun h => h f) → ∃ h ∈ g :: rest, h f = v := by
    rintro v (h | h)
    · exact ⟨g, by simp, h.symm⟩
    · obtain ⟨h', hm, he⟩ := List.mem_map.mp h
      exact ⟨h', List.mem_cons_of_mem _ hm, he⟩
  have up : ∀ h ∈ g :: rest, h f ≤ pyMax (g f) (rest.map fun h => h f) := by
    intro h hm
    rcases List.mem_cons.mp hm with rfl | hm
    · exact mx.2.1
    · exact mx.2.2 _ (List.mem_map.mpr ⟨h, hm, rfl⟩)
  have dn : ∀ h ∈ g :: rest, pyMin (g f) (rest.map fun h => h f) ≤ h f := by
    intro h hm
    rcases List.mem_cons.mp hm with rfl | hm
    · exact mn.2.1
    · exact mn.2.2 _ (List.mem_map.mpr ⟨h, hm, rfl⟩)
  cases f
  case minimum_fft_size =>
    exact ⟨memb _ mx.1, fun h hm => ⟨fun _ => up h hm, fun hc => absurd (by simp [GSField.largerIsStricter]) hc⟩⟩
  case maximum_fft_size =>
    exact ⟨memb _ mx.1, fun h hm => ⟨fun _ => up h hm, fun hc => absurd (by simp [GSField.largerIsStricter]) hc⟩⟩
  case stepk_minimum_hlr =>
    exact ⟨memb _ mx.1, fun h hm => ⟨fun _ => up h hm, fun hc => absurd (by simp [GSField.largerIsStricter]) hc⟩⟩
  all_goals
    exact ⟨memb _ mn.1, fun h hm => ⟨fun hc => absurd hc (by simp [GSField.largerIsStricter]), fun _ => dn h hm⟩⟩

theorem strictest_unique (f : GSField) (l : List GSP) (v w : ℝ) (hv : Strictest f l v)
    (hw : Strictest f l w) : v = w := by
  obtain ⟨⟨a, ha, rfl⟩, h1⟩ := hv
  obtain ⟨⟨b, hb, rfl⟩, h2⟩ := hw
  have p := h1 b hb
  have q := h2 a ha
  by_cases hc : f.largerIsStricter
  · exact le_antisymm (q.1 hc) (p.1 hc)
  · exact le_antisymm (p.2 hc) (q.2 hc)

/-- C14: combining a non-empty list succeeds, and every field of the result is the strictest of the
inputs (in particular one of the input values, and at least as accurate as every input). -/
theorem C14_strictest (l : List GSP) (hl : l ≠ []) :
    ∃ c, GSP.combine l = some c ∧ ∀ f, Strictest f l (c f) := by
  match l, hl with
  | [g], _ => exact ⟨g, rfl, fun f => ⟨⟨g, by simp, rfl⟩, by
      intro h hm; rw [List.mem_singleton.mp hm]; exact ⟨fun _ => le_rfl, fun _ => le_rfl⟩⟩⟩
  | g :: h :: rest, _ =>
    rw [GSP.combine]
    split
    · rename_i he
      refine ⟨g, rfl, fun f => ⟨⟨g, by simp, rfl⟩, ?_⟩⟩
      intro k hk
      have : k = g := by
        rcases List.mem_cons.mp hk with h | h
        · exact h
        · exact he k h
      rw [this]; exact ⟨fun _ => le_rfl, fun _ => le_rfl⟩
    · exact ⟨_, rfl, fun f => reduce_spec f g (h :: rest)⟩
    · simp

theorem combine_eq_of (l : List GSP) (c : GSP) (hl : l ≠ []) (h : ∀ f, Strictest f l (c f)) :
    GSP.combine l = some c := by
  obtain ⟨c', h1, h2⟩ := C14_strictest l hl
  rw [h1]
  congr 1
  funext f
  exact strictest_unique f l _ _ (h2 f) (h f)

/-- C14: the order of the list (and repetitions) do not matter. -/
theorem C14_order (l m : List GSP) (h : ∀ g, g ∈ l ↔ g ∈ m) : GSP.combine l = GSP.combine m := by
  by_cases hm : m = []
  · have : l = [] := by
      apply List.eq_nil_iff_forall_not_mem.mpr
      intro a ha; rw [h, hm] at ha; simp at ha
    rw [this, hm]
  · obtain ⟨c, h1, h2⟩ := C14_strictest m hm
    rw [h1]
    apply combine_eq_of
    · intro hl
      apply hm
      apply List.eq_nil_iff_forall_not_mem.mpr
      intro a ha; rw [← h, hl] at ha; simp at ha
    · intro f
      obtain ⟨⟨g, hg, hv⟩, h3⟩ := h2 f
      exact ⟨⟨g, (h g).mpr hg, hv⟩, fun k hk => h3 k ((h k).mp hk)⟩

theorem AtLeast.trans {f : GSField} {a b c : ℝ} (h1 : AtLeast f a b) (h2 : AtLeast f b c) :
    AtLeast f a c :=
  ⟨fun h => (h2.1 h).trans (h1.1 h), fun h => (h1.2 h).trans (h2.2 h)⟩

/-- C14: grouping does not matter: combining the combinations of two lists is combining all. -/
theorem C14_grouping (l m : List GSP) (a b : GSP) (ha : GSP.combine l = some a)
    (hb : GSP.combine m = some b) : GSP.combine [a, b] = GSP.combine (l ++ m) := by
  have hl : l ≠ [] := by rintro rfl; simp [GSP.combine] at ha
  have hm : m ≠ [] := by rintro rfl; simp [GSP.combine] at hb
  obtain ⟨a', ha', sa⟩ := C14_strictest l hl
  obtain ⟨b', hb', sb⟩ := C14_strictest m hm
  rw [ha] at ha'; rw [hb] at hb'
  cases ha'; cases hb'
  obtain ⟨c, hc, sc⟩ := C14_strictest [a, b] (by simp)
  rw [hc]
  symm
  apply combine_eq_of _ _ (by simp [hl])
  intro f
  obtain ⟨⟨g, hg, hgv⟩, hst⟩ := sc f
  constructor
  · rcases List.mem_cons.mp hg with rfl | hg
    · obtain ⟨k, hk, hkv⟩ := (sa f).1
      exact ⟨k, List.mem_append_left _ hk, hkv.trans hgv⟩
    · rw [List.mem_singleton.mp hg] at hgv
      obtain ⟨k, hk, hkv⟩ := (sb f).1
      exact ⟨k, List.mem_append_right _ hk, hkv.trans hgv⟩
  · intro k hk
    rcases List.mem_append.mp hk with hk | hk
    · exact (hst a (by simp)).trans ((sa f).2 k hk)
    · exact (hst b (by simp)).trans ((sb f).2 k hk)

/-- C14: combining equal params returns them unchanged. -/
theorem C14_equal (g : GSP) (n : ℕ) : GSP.combine (List.replicate (n + 1) g) = some g := by
  apply combine_eq_of _ _ (by simp)
  intro f
  refine ⟨⟨g, by simp, rfl⟩, ?_⟩
  intro k hk
  rw [List.eq_of_mem_replicate hk]; exact ⟨fun _ => le_rfl, fun _ => le_rfl⟩

theorem GSField.find_name (f : GSField) : GSField.all.find? (fun g => g.name = f.name) = some f := by
  cases f <;> decide

/-- C14 (`check`/`withParams`): keywords override exactly the named fields of the given params (or of
the default when `None` is given); an unknown name is refused. -/
theorem C14_check (cd : GSP) (g d : Option GSP) (f : GSField) (v : ℝ) (bad : String)
    (hbad : ∀ f : GSField, f.name ≠ bad) :
    GSP.check cd g d [] = some ((g <|> d).getD cd) ∧
    GSP.check cd g d [(f.name, v)] = some (Function.update ((g <|> d).getD cd) f v) ∧
    GSP.check cd g d [(bad, v)] = none := by
  have base : GSP.check cd g d = ((g <|> d).getD cd).withParams := by
    cases g <;> cases d <;> rfl
  rw [base]
  refine ⟨rfl, ?_, ?_⟩
  · simp only [GSP.withParams, GSField.find_name]
    congr 1
    funext f'
    simp [Function.update_apply]
  · simp only [GSP.withParams]
    have : GSField.all.find? (fun f => decide (f.name = bad)) = none := by
      rw [List.find?_eq_none]; intro f _; simpa using hbad f
    rw [this]

-- a list with a genuine conflict
example : ∃ a b : GSP, a ≠ b ∧ a .folding_threshold < b .folding_threshold ∧
    b .minimum_fft_size < a .minimum_fft_size :=
  ⟨fun f => if f = .minimum_fft_size then 256 else 0.001, fun f => if f = .minimum_fft_size then 128 else 0.005,
    by
      refine ⟨fun h => ?_, by simp; norm_num, by simp; norm_num⟩
      have := congrFun h .minimum_fft_size
      simp at this⟩
example : ∀ f : GSField, f.name ≠ "no_such_field" := by intro f; cases f <;> decide

end JG
