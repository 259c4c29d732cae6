import Verif.Model.PickleState
import Mathlib.Tactic.SplitIfs
import Mathlib.Tactic.NormNum

/-!
# C117: pickling and copying keep every attribute and leave the original alone

Specification: `Restored`, which attributes an object rebuilt from a state must have, as lookups.
-/

namespace JG.Pickle

variable {α : Type}

/-- What a rebuilt `GSObject` or `Interpolant` must look like, attribute by attribute: everything as
in the original, except that the cache `_workspace` is there iff it was, empty, and that the marker
`had_workspace` of the state is gone. -/
structure Restored (orig new : Dict α) : Prop where
  attrs : ∀ k, k ≠ "_workspace" → k ≠ "had_workspace" → new.get k = orig.get k
  cached : (∃ v, orig.get "_workspace" = some v) → new.get "_workspace" = some (.workspace [])
  uncached : orig.get "_workspace" = none → new.get "_workspace" = none
  marker : new.get "had_workspace" = none

theorem get_put (d : Dict α) (k k' : String) (v : Val α) :
    (d.put k v).get k' = if k = k' then some v else d.get k' := by
  induction d with
  | nil => simp [Dict.put, Dict.get]
  | cons e rest ih =>
    obtain ⟨k0, v0⟩ := e
    by_cases h0 : k0 = k
    · subst h0
      by_cases h1 : k0 = k' <;> simp [Dict.put, Dict.get, h1]
    · by_cases h1 : k0 = k'
      · subst h1
        simp [Dict.put, Dict.get, h0, Ne.symm h0]
      · simp [Dict.put, Dict.get, h0, h1, ih]

theorem get_drop (d : Dict α) (k k' : String) :
    (d.drop k).get k' = if k = k' then none else d.get k' := by
  induction d with
  | nil => simp [Dict.drop, Dict.get]
  | cons e rest ih =>
    obtain ⟨k0, v0⟩ := e
    unfold Dict.drop at ih ⊢
    by_cases h0 : k0 = k
    · subst h0
      by_cases h1 : k0 = k'
      · simpa [Dict.get, h1] using ih
      · simpa [Dict.get, h1] using ih
    · by_cases h1 : k0 = k'
      · subst h1
        simp [Dict.get, h0, Ne.symm h0]
      · simpa [Dict.get, h0, h1] using ih

theorem mutate_same (h : Heap α) (d : Dict α) (f : Dict α → Dict α) :
    Heap.mutate (h ++ [d]) h.length f = h ++ [f d] := by
  unfold Heap.mutate
  rw [List.modify_eq_take_cons_drop (by simp)]
  simp

theorem at_end (h : Heap α) (d : Dict α) : (h ++ [d])[h.length]? = some d := by simp

/-- The state of the dictionary `d`. -/
def stateOf (d : Dict α) : Dict α :=
  Dict.drop (d.put "had_workspace" (.bool (d.mem "_workspace"))) "_workspace"

theorem getstate_eq (c : Cls) (hc : c ≠ .interpImage) (h : Heap α) (self : ℕ) (d : Dict α)
    (hd : h[self]? = some d) : getstate c h self = some (h.length, h ++ [stateOf d]) := by
  have : Heap.has (h ++ [d]) h.length "_workspace" = d.mem "_workspace" := by
    simp [Heap.has]
  cases c with
  | interpImage => exact absurd rfl hc
  | gsobject => simp only [getstate, Heap.copy, hd, mutate_same, this, stateOf]
  | interpolant => simp only [getstate, Heap.copy, hd, mutate_same, this, stateOf]

theorem state_marker (d : Dict α) :
    (stateOf d).get "had_workspace" = some (.bool (d.mem "_workspace")) := by
  rw [stateOf, get_drop, if_neg (by decide), get_put, if_pos rfl]

/-- The dictionary rebuilt from a state. -/
def rebuilt (d : Dict α) : Dict α :=
  if d.mem "_workspace" then
    ((stateOf d).drop "had_workspace").put "_workspace" (.workspace [])
  else (stateOf d).drop "had_workspace"

theorem setstate_eq (c : Cls) (hc : c ≠ .interpImage) (h : Heap α) (d : Dict α) :
    setstate c (h ++ [stateOf d]) h.length = h ++ [rebuilt d] := by
  cases c with
  | interpImage => exact absurd rfl hc
  | gsobject =>
    cases hm : d.mem "_workspace" <;>
      simp [setstate, state_marker, Val.truthy, mutate_same, rebuilt, hm]
  | interpolant =>
    cases hm : d.mem "_workspace" <;>
      simp [setstate, state_marker, Val.truthy, mutate_same, rebuilt, hm]

theorem rebuilt_restored (d : Dict α) : Restored d (rebuilt d) := by
  have hget : ∀ k, (rebuilt d).get k = if k = "_workspace" then
      (if d.mem "_workspace" then some (.workspace []) else none)
      else if k = "had_workspace" then none else d.get k := by
    intro k
    by_cases h1 : k = "_workspace"
    · subst h1
      cases hm : d.mem "_workspace" <;> simp [rebuilt, hm, get_put, get_drop, stateOf]
    · by_cases h2 : k = "had_workspace"
      · subst h2
        cases hm : d.mem "_workspace" <;> simp [rebuilt, hm, get_put, get_drop]
      · cases hm : d.mem "_workspace" <;>
          simp [rebuilt, hm, get_put, get_drop, stateOf, h1, h2, Ne.symm h1, Ne.symm h2]
  refine ⟨fun k h1 h2 => by rw [hget, if_neg h1, if_neg h2], ?_, ?_, ?_⟩
  · rintro ⟨v, hv⟩
    rw [hget, if_pos rfl, if_pos (by simp [Dict.mem, hv])]
  · intro hv
    rw [hget, if_pos rfl, if_neg (by simp [Dict.mem, hv])]
  · rw [hget, if_neg (by decide), if_pos rfl]

/-- **C117** (pickling): for every object and every process, `dumps` succeeds, leaves all the
existing dictionaries as they were, writes no cache, and `loads` in any process gives an object with
all the attributes of the original and leaves all the other objects of that process alone. -/
theorem C117_pickle (c : Cls) (hc : c ≠ .interpImage) (h h2 : Heap α) (self : ℕ) (d : Dict α)
    (hd : h[self]? = some d) :
    ∃ state h', dumps c h self = some (state, h') ∧
      (∀ r : ℕ, r < h.length → h'[r]? = h[r]?) ∧
      state.get "_workspace" = none ∧
      ∃ new, (loads c h2 state).2[(loads c h2 state).1]? = some new ∧ Restored d new ∧
        ∀ r : ℕ, r < h2.length → (loads c h2 state).2[r]? = h2[r]? := by
  refine ⟨stateOf d, h ++ [stateOf d], ?_, ?_, ?_, rebuilt d, ?_, rebuilt_restored d, ?_⟩
  · simp [dumps, getstate_eq c hc h self d hd]
  · intro r hr
    rw [List.getElem?_append_left hr]
  · rw [stateOf, get_drop, if_pos rfl]
  · simp only [loads, setstate_eq c hc]
    exact at_end _ _
  · intro r hr
    simp only [loads, setstate_eq c hc]
    rw [List.getElem?_append_left hr]

/-- **C117** (copying): `copy.copy(obj)` is a new object with the attributes of the original; no
existing object changes, and a later assignment to an attribute of the copy changes none either, nor
does an assignment to the original change the copy. -/
theorem C117_copy (c : Cls) (hc : c ≠ .interpImage) (h : Heap α) (self : ℕ) (d : Dict α)
    (hd : h[self]? = some d) :
    ∃ r h' new, copyObj c h self = some (r, h') ∧ r ≠ self ∧ h'[r]? = some new ∧ Restored d new ∧
      (∀ s : ℕ, s < h.length → h'[s]? = h[s]?) ∧
      (∀ (s : ℕ) (k : String) (v : Val α), s < h.length →
        (h'.mutate r fun x => x.put k v)[s]? = h[s]?) ∧
      ∀ (k : String) (v : Val α), (h'.mutate self fun x => x.put k v)[r]? = some new := by
  have hself : self < h.length := (List.getElem?_eq_some_iff.1 hd).1
  refine ⟨h.length, h ++ [rebuilt d], rebuilt d, ?_, by omega, at_end _ _, rebuilt_restored d,
    ?_, ?_, ?_⟩
  · simp [copyObj, getstate_eq c hc h self d hd, setstate_eq c hc]
  · intro s hs
    rw [List.getElem?_append_left hs]
  · intro s k v hs
    rw [mutate_same, List.getElem?_append_left hs]
  · intro k v
    have hne : self ≠ h.length := by omega
    rw [Heap.mutate, List.getElem?_modify, at_end]
    simp [hne]

/-- **C117** (the wrapper of an interpolated image): its copies keep the whole dictionary, cache
included, in a dictionary of their own. -/
theorem C117_wrapper (h h2 : Heap α) (self : ℕ) (d : Dict α) (hd : h[self]? = some d) :
    (∃ r h', copyObj .interpImage h self = some (r, h') ∧ r ≠ self ∧ h'[r]? = some d ∧
      ∀ s : ℕ, s < h.length → h'[s]? = h[s]?) ∧
    ∃ h', dumps .interpImage h self = some (d, h') ∧
      (∀ s : ℕ, s < h.length → h'[s]? = h[s]?) ∧
      (loads .interpImage h2 d).2[(loads .interpImage h2 d).1]? = some d := by
  have hself : self < h.length := (List.getElem?_eq_some_iff.1 hd).1
  refine ⟨⟨h.length, h ++ [d], ?_, by omega, at_end _ _, ?_⟩, h ++ [d], ?_, ?_, ?_⟩
  · simp [copyObj, getstate, Heap.copy, hd, setstate]
  · intro s hs
    rw [List.getElem?_append_left hs]
  · simp [dumps, getstate, Heap.copy, hd]
  · intro s hs
    rw [List.getElem?_append_left hs]
  · simp [loads, setstate]

/-- **C117** (once is enough): an object that is pickled, restored, pickled and restored again has,
attribute by attribute, what it had after the first time. -/
theorem C117_twice (d new newer : Dict α) (h1 : Restored d new) (h2 : Restored new newer) (k : String) :
    newer.get k = new.get k := by
  by_cases hw : k = "_workspace"
  · subst hw
    cases hd : d.get "_workspace" with
    | none => rw [h2.uncached (h1.uncached hd), h1.uncached hd]
    | some v => rw [h2.cached ⟨_, h1.cached ⟨v, hd⟩⟩, h1.cached ⟨v, hd⟩]
  · by_cases hh : k = "had_workspace"
    · subst hh
      rw [h2.marker, h1.marker]
    · exact h2.attrs k hw hh

/-- **C117** (`GSParams`): the parameters rebuilt from the state are the original ones, for every
value of the thirteen fields. -/
theorem C117_gsparams (g : GSP) : gspSetstate (initargs g) = some g := by
  unfold gspSetstate initargs dataclassFields
  simp only [init, Option.map_some, Option.some.injEq]
  funext f
  cases f <;> simp

/-- **C117** (`GSParams`, equality): the state tells the parameters apart: `__eq__`, which compares
the states, holds exactly of the same parameters. -/
theorem C117_gsparams_eq (g g' : GSP) : initargs g = initargs g' ↔ g = g' := by
  refine ⟨fun h => ?_, fun h => by rw [h]⟩
  have := congrArg gspSetstate h
  rwa [C117_gsparams, C117_gsparams, Option.some.injEq] at this

/-- An object with a filled cache among others: hypotheses of the theorems. -/
example : ∃ new, Restored (α := ℕ)
    [("_params", .attr 1), ("_workspace", .workspace [5, 6]), ("_gsparams", .attr 2)] new ∧
    new.get "_params" = some (.attr 1) ∧ new.get "_gsparams" = some (.attr 2) ∧
    new.get "_workspace" = some (.workspace []) := by
  refine ⟨_, rebuilt_restored _, ?_⟩
  refine ⟨?_, ?_, ?_⟩ <;> rfl

example : ∃ state h', dumps (α := ℕ) .gsobject
      [[("_params", .attr 9)], [("_params", .attr 1), ("_workspace", .workspace [5, 6])]] 1
      = some (state, h') ∧ state.get "_workspace" = none := by
  obtain ⟨s, h', e, _, e2, _⟩ := C117_pickle (α := ℕ) .gsobject (by decide)
    [[("_params", .attr 9)], [("_params", .attr 1), ("_workspace", .workspace [5, 6])]] [] 1 _ rfl
  exact ⟨s, h', e, e2⟩

example : initargs dataclassDefault ≠ initargs fun _ => 1 := by
  rw [Ne, C117_gsparams_eq]
  intro h
  have := congrFun h .minimum_fft_size
  norm_num [dataclassDefault] at this

end JG.Pickle
