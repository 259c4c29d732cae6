import Verif.Model.CompoundArgs
import Mathlib.Tactic.SplitIfs

/-!
# C119: sums and convolutions take their objects one by one or as a sequence

Specification: `Forms`, the ways to give a list of objects, and `RealSpace`, when the convolution has
to be done in real space.
-/

namespace JG.Compound

variable {α : Type}

/-- Specification: `args` gives the objects `objs`, as separate arguments or as one list or tuple. -/
def Forms (args : List (Arg α)) (objs : List α) : Prop :=
  objs ≠ [] ∧ args = objs.map .obj ∨ args = [.seq (objs.map .obj)]

/-- Specification: at most two objects, analytic in real space, and real space is asked for or, without
a request, all have hard edges. -/
def RealSpace (hard analytic : α → Bool) (rs : Option Bool) (objs : List α) : Prop :=
  objs.length ≤ 2 ∧ (∀ o ∈ objs, analytic o = true) ∧
    (rs = some true ∨ rs = none ∧ ∀ o ∈ objs, hard o = true)

theorem objects_ok (l : List (Arg α)) : ∀ objs, objects l = .ok objs ↔ l = objs.map .obj := by
  induction l with
  | nil =>
    intro objs
    cases objs <;> simp [objects]
  | cons x rest ih =>
    intro objs
    cases x with
    | obj a =>
      cases h : objects rest with
      | error e =>
        simp only [objects, h]
        constructor
        · intro e'; cases e'
        · intro e'
          cases objs with
          | nil => simp at e'
          | cons b t =>
            simp only [List.map_cons, List.cons.injEq] at e'
            rw [(ih t).2 e'.2] at h
            cases h
      | ok t =>
        have ht := (ih t).1 h
        simp only [objects, h, Except.ok.injEq]
        constructor
        · rintro rfl
          simp [ht]
        · intro e'
          cases objs with
          | nil => simp at e'
          | cons b t' =>
            simp only [List.map_cons, List.cons.injEq, Arg.obj.injEq] at e'
            rw [(ih t').2 e'.2] at h
            cases h
            rw [e'.1]
    | seq l =>
      cases objs <;> simp [objects]
    | other =>
      cases objs <;> simp [objects]

theorem given (args : List (Arg α)) (objs : List α) :
    (∃ l, components args = .ok l ∧ objects l = .ok objs) ↔ Forms args objs := by
  constructor
  · rintro ⟨l, h1, h2⟩
    rw [objects_ok] at h2
    subst h2
    match args, h1 with
    | [.obj a], h1 =>
      left
      have e : [Arg.obj a] = objs.map Arg.obj := by simpa [components] using h1
      exact ⟨by rintro rfl; simp at e, e⟩
    | [.seq l], h1 =>
      right
      have e : l = objs.map Arg.obj := by simpa [components] using h1
      rw [e]
    | x :: y :: r, h1 =>
      left
      have e : x :: y :: r = objs.map Arg.obj := by simpa [components] using h1
      exact ⟨by rintro rfl; simp at e, e⟩
  · rintro (⟨hne, rfl⟩ | rfl)
    · refine ⟨objs.map .obj, ?_, (objects_ok _ _).2 rfl⟩
      match objs, hne with
      | [a], _ => rfl
      | a :: b :: r, _ => rfl
    · exact ⟨_, rfl, (objects_ok _ _).2 rfl⟩

/-- **C119** (sums): a sum is made exactly from objects given one by one or as one sequence, and keeps
their terms in order; an empty sum needs `gsparams`. -/
theorem C119_sum (parts : α → List α) (gs : Bool) (args : List (Arg α)) (r : List α) :
    sumInit parts gs args = .ok r ↔
      ∃ objs, Forms args objs ∧ r = objs.flatMap parts ∧ (gs = true ∨ r ≠ []) := by
  constructor
  · intro h
    unfold sumInit at h
    cases h1 : components args with
    | error e => rw [h1] at h; cases h
    | ok l =>
      rw [h1] at h
      dsimp only at h
      cases h2 : objects l with
      | error e => rw [h2] at h; cases h
      | ok objs =>
        rw [h2] at h
        dsimp only at h
        split_ifs at h with hc
        cases h
        refine ⟨objs, (given _ _).1 ⟨l, h1, h2⟩, rfl, ?_⟩
        cases gs
        · right
          intro e
          exact hc (by simp [e])
        · exact Or.inl rfl
  · rintro ⟨objs, hf, rfl, hg⟩
    obtain ⟨l, h1, h2⟩ := (given _ _).2 hf
    simp only [sumInit, h1, h2]
    rw [if_neg]
    intro hc
    rw [Bool.and_eq_true, Bool.not_eq_true', List.isEmpty_iff] at hc
    rcases hg with hg | hg
    · rw [hg] at hc
      exact absurd hc.1 (by decide)
    · exact hg hc.2

theorem realSpace_iff (hard analytic : α → Bool) (rs : Option Bool) (l : List α) :
    realSpaceOf hard analytic rs l = true ↔ RealSpace hard analytic rs l := by
  unfold realSpaceOf RealSpace
  rcases rs with _ | _ | _ <;> by_cases hl : l.length ≤ 2 <;>
    simp [hl, and_comm]

/-- **C119** (convolutions): a convolution is made exactly from objects given one by one or as one
sequence, without unknown keywords, when it is not to be done in real space; it keeps the objects in
order; the empty one needs `gsparams`. -/
theorem C119_convolution (hard analytic : α → Bool) (rs : Option Bool) (gs extra : Bool)
    (args : List (Arg α)) (r : List α) :
    convInit hard analytic rs gs extra args = .ok r ↔
      Forms args r ∧ extra = false ∧ ¬ RealSpace hard analytic rs r ∧ (gs = true ∨ r ≠ []) := by
  constructor
  · intro h
    unfold convInit at h
    cases h1 : components args with
    | error e => rw [h1] at h; cases h
    | ok l =>
      rw [h1] at h
      dsimp only at h
      cases extra with
      | true => rw [if_pos rfl] at h; cases h
      | false =>
        rw [if_neg (by decide)] at h
        cases h2 : objects l with
        | error e => rw [h2] at h; cases h
        | ok objs =>
          rw [h2] at h
          dsimp only at h
          split_ifs at h with hr hc
          cases h
          refine ⟨(given _ _).1 ⟨l, h1, h2⟩, rfl, fun hR => hr ((realSpace_iff _ _ _ _).2 hR), ?_⟩
          cases gs
          · right
            intro e
            exact hc (by simp [e])
          · exact Or.inl rfl
  · rintro ⟨hf, rfl, hR, hg⟩
    obtain ⟨l, h1, h2⟩ := (given _ _).2 hf
    simp only [convInit, h1, h2]
    rw [if_neg (by decide), if_neg fun h => hR ((realSpace_iff _ _ _ _).1 h), if_neg]
    intro hc
    rw [Bool.and_eq_true, Bool.not_eq_true', List.isEmpty_iff] at hc
    rcases hg with hg | hg
    · rw [hg] at hc
      exact absurd hc.1 (by decide)
    · exact hg hc.2

/-- **C119** (`Convolve`): for objects given in either form the function and the class agree, but for
the empty sequence, which the function refuses. -/
theorem C119_convolve (hard analytic : α → Bool) (rs : Option Bool) (gs extra : Bool)
    (args : List (Arg α)) (objs : List α) (hf : Forms args objs) :
    convolve hard analytic rs gs extra args =
      if objs = [] then .error .typeError else convInit hard analytic rs gs extra args := by
  rcases hf with ⟨hne, rfl⟩ | rfl
  · rw [if_neg hne]
    match objs, hne with
    | [a], _ => rfl
    | a :: b :: r, _ => rfl
  · by_cases hne : objs = []
    · rw [if_pos hne]
      subst hne
      rfl
    · rw [if_neg hne]
      match objs, hne with
      | [a], _ => rfl
      | a :: b :: r, _ => rfl

/-- Disagreement: `Convolve([[a, b]])`, with a list in a list, is accepted, while `Convolution([[a, b]])`
raises `TypeError`. -/
theorem C119_nested_counterexample (objs : List α) (hard analytic : α → Bool) (rs : Option Bool)
    (h : ¬ RealSpace hard analytic rs objs) :
    convolve hard analytic rs true false [.seq [.seq (objs.map .obj)]] = .ok objs ∧
      convInit hard analytic rs true false [.seq [.seq (objs.map .obj)]] = .error .typeError := by
  refine ⟨?_, by simp [convInit, components, objects]⟩
  exact (C119_convolution hard analytic rs true false [.seq (objs.map .obj)] objs).2
    ⟨Or.inr rfl, rfl, h, Or.inl rfl⟩

/-- Disagreement: two objects with hard edges that are analytic in real space, such as two boxes, cannot
be convolved without `real_space=False`: real space is chosen and then raises. -/
theorem C119_hard_edges_counterexample (a b : α) (hard analytic : α → Bool)
    (h : ∀ o ∈ [a, b], hard o = true ∧ analytic o = true) (gs : Bool) :
    convInit hard analytic none gs false [.obj a, .obj b] = .error .notImplemented ∧
      convInit hard analytic (some false) gs false [.obj a, .obj b] = .ok [a, b] := by
  have ha := h a (by simp)
  have hb := h b (by simp)
  refine ⟨by simp [convInit, components, objects, realSpaceOf, ha, hb], ?_⟩
  exact (C119_convolution hard analytic (some false) gs false _ [a, b]).2
    ⟨Or.inl ⟨by simp, rfl⟩, rfl, by simp [RealSpace], Or.inr (by simp)⟩

/-- Three objects, one of them a sum of two, in the two forms. -/
example : sumInit (fun n : ℕ => if n = 2 then [20, 21] else [n]) false [.obj 1, .obj 2, .obj 3]
      = .ok [1, 20, 21, 3] ∧
    sumInit (fun n : ℕ => if n = 2 then [20, 21] else [n]) false [.seq [.obj 1, .obj 2, .obj 3]]
      = .ok [1, 20, 21, 3] := by
  refine ⟨(C119_sum _ _ _ _).2 ⟨[1, 2, 3], Or.inl ⟨by simp, rfl⟩, by simp, Or.inr (by simp)⟩,
    (C119_sum _ _ _ _).2 ⟨[1, 2, 3], Or.inr rfl, by simp, Or.inr (by simp)⟩⟩

end JG.Compound
