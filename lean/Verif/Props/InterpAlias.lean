import Verif.Model.InterpAlias
import Verif.Props.PickleState

/-!
# C117: changing the accuracy of an interpolated image leaves the original alone
-/

namespace JG.Pickle

variable {α : Type}

/-- The keys of a python dictionary are distinct. -/
def Distinct (d : Dict α) : Prop := (d.map Prod.fst).Nodup

theorem get_none_of (d : Dict α) (k : String) (h : k ∉ d.map Prod.fst) : d.get k = none := by
  induction d with
  | nil => rfl
  | cons e rest ih =>
    obtain ⟨k0, v0⟩ := e
    simp only [List.map_cons, List.mem_cons, not_or] at h
    simp [Dict.get, Ne.symm h.1, ih h.2]

theorem get_update (d : Dict α) (hd : Distinct d) : ∀ (val : Dict α) (k : String),
    (val.update d).get k = (d.get k).or (val.get k) := by
  induction d with
  | nil => intro val k; simp [Dict.update, Dict.get]
  | cons e rest ih =>
    obtain ⟨k0, v0⟩ := e
    intro val k
    have hn : k0 ∉ rest.map Prod.fst ∧ Distinct rest := by
      unfold Distinct at hd
      rw [List.map_cons, List.nodup_cons] at hd
      exact hd
    have e1 : Dict.update val ((k0, v0) :: rest) = Dict.update (val.put k0 v0) rest := rfl
    rw [e1, ih hn.2, get_put]
    by_cases hk : k0 = k
    · subst hk
      simp [Dict.get, get_none_of rest k0 hn.1]
    · simp [Dict.get, hk]

theorem get_named (dflt : String → Val α) (val : Dict α) (keys : List String) (k : String)
    (hk : k ∈ keys) : (named dflt val keys).get k = some ((val.get k).getD (dflt k)) := by
  induction keys with
  | nil => simp at hk
  | cons a rest ih =>
    by_cases h : a = k
    · subst h
      simp [named, Dict.get]
    · have hr : k ∈ rest := by
        rcases List.mem_cons.1 hk with e | e
        · exact absurd e.symm h
        · exact e
      have := ih hr
      simp only [named] at this
      simp [named, Dict.get, h, this]

theorem keys_put (d : Dict α) (k : String) (v : Val α) :
    (d.put k v).map Prod.fst = d.map Prod.fst ∨ k ∉ d.map Prod.fst ∧
      (d.put k v).map Prod.fst = d.map Prod.fst ++ [k] := by
  induction d with
  | nil => right; simp [Dict.put]
  | cons e rest ih =>
    obtain ⟨k0, v0⟩ := e
    by_cases h : k0 = k
    · left
      simp [Dict.put, h]
    · rcases ih with ih | ⟨h1, h2⟩
      · left
        simp [Dict.put, h, ih]
      · right
        refine ⟨?_, by simp [Dict.put, h, h2]⟩
        simp only [List.map_cons, List.mem_cons, not_or]
        exact ⟨Ne.symm h, h1⟩

theorem distinct_put (d : Dict α) (k : String) (v : Val α) (h : Distinct d) : Distinct (d.put k v) := by
  unfold Distinct at h ⊢
  rcases keys_put d k v with e | ⟨hn, e⟩
  · rw [e]; exact h
  · rw [e, List.nodup_append]
    refine ⟨h, by simp, ?_⟩
    rintro a ha b hb rfl
    rw [List.mem_singleton] at hb
    exact hn (hb ▸ ha)

/-- Specification: the parameters of the constructor, interpolatedimage.py:90-115. -/
def ctorParams : List String :=
  ["image", "x_interpolant", "k_interpolant", "normalization", "scale", "wcs", "flux", "pad_factor",
    "noise_pad_size", "noise_pad", "rng", "pad_image", "calculate_stepk", "calculate_maxk",
    "use_cache", "use_true_center", "depixelize", "offset", "gsparams", "_force_stepk", "_force_maxk",
    "_recenter_image", "hdu", "_obj"]

/-- **C117** (arguments): every parameter of the constructor is kept in exactly one of the image, the
children, the wrapped object and the auxiliary data, and nothing else is, so that unflattening passes
all of them and no unknown one. -/
theorem C117_arguments :
    ctorParams.Perm ("image" :: "_obj" :: (kidKeys ++ auxKeys)) ∧ ctorParams.Nodup := by
  decide

/-- The dictionaries of an interpolated image, as its constructor leaves them. -/
structure WellFormed (h : Heap α) (o : IObj) (a k : Dict α) : Prop where
  aux : h[o.aux]? = some a
  kids : h[o.kids]? = some k
  distinct_aux : Distinct a
  distinct_kids : Distinct k
  aux_keys : ∀ x, (∃ v, a.get x = some v) ↔ x ∈ auxKeys
  kid_keys : ∀ x, (∃ v, k.get x = some v) ↔ x ∈ kidKeys ∨ x = "_obj"

/-- **C117** (`withGSParams` of an interpolated image): the new object has every argument of the
original, in dictionaries of its own, but for the accuracy parameters; no dictionary that existed
before, in particular none of the original, is changed. -/
theorem C117_withGS (dflt : String → Val α) (obj : Dict α → Val α) (h : Heap α) (o : IObj)
    (a k : Dict α) (g : Val α) (w : WellFormed h o a k) :
    ∃ o' h' a' k', withGS dflt obj h o g = some (o', h') ∧
      h'[o'.aux]? = some a' ∧ h'[o'.kids]? = some k' ∧
      a'.get "gsparams" = some g ∧
      (∀ x, x ∈ auxKeys → x ≠ "gsparams" → a'.get x = a.get x) ∧
      (∀ x, x ∈ kidKeys → k'.get x = k.get x) ∧
      (∃ val : Dict α, k'.get "_obj" = some (obj val) ∧ val.get "_obj" = k.get "_obj" ∧
        val.get "gsparams" = some g) ∧
      o'.aux ≠ o.aux ∧ o'.kids ≠ o.kids ∧ o'.aux ≠ o'.kids ∧
      ∀ r : ℕ, r < h.length → h'[r]? = h[r]? := by
  have ha : o.aux < h.length := (List.getElem?_eq_some_iff.1 w.aux).1
  have hk : o.kids < h.length := (List.getElem?_eq_some_iff.1 w.kids).1
  obtain ⟨a2, ha2⟩ : ∃ a2, a2 = a.put "gsparams" g := ⟨_, rfl⟩
  obtain ⟨val, hval⟩ : ∃ val, val = (Dict.update [] a2).update k := ⟨_, rfl⟩
  have hda : Distinct a2 := by rw [ha2]; exact distinct_put _ _ _ w.distinct_aux
  have hget : ∀ x, val.get x = (k.get x).or (a2.get x) := by
    intro x
    rw [hval, get_update k w.distinct_kids, get_update a2 hda]
    simp [Dict.get]
  have hga : ∀ x, a2.get x = if "gsparams" = x then some g else a.get x := by
    intro x
    rw [ha2, get_put]
  have hkn : ∀ x, x ∉ kidKeys → x ≠ "_obj" → k.get x = none := by
    intro x h1 h2
    by_contra hne
    obtain ⟨v, hv⟩ := Option.ne_none_iff_exists'.1 hne
    rcases (w.kid_keys x).1 ⟨v, hv⟩ with e | e
    · exact h1 e
    · exact h2 e
  have disj : ∀ x ∈ auxKeys, x ∉ kidKeys ∧ x ≠ "_obj" := by decide
  have hgs : val.get "gsparams" = some g := by
    rw [hget, hkn _ (by decide) (by decide), hga, if_pos rfl]
    rfl
  obtain ⟨hh, hhe⟩ : ∃ hh, hh = h ++ [a2] := ⟨_, rfl⟩
  have hlen : hh.length = h.length + 1 := by rw [hhe]; simp
  obtain ⟨K, hK⟩ : ∃ K, K = (named dflt val kidKeys).put "_obj" (obj val) := ⟨_, rfl⟩
  obtain ⟨A, hA⟩ : ∃ A, A = named dflt val auxKeys := ⟨_, rfl⟩
  have hmut : Heap.mutate (hh ++ [named dflt val kidKeys] ++ [A]) hh.length
      (fun x => x.put "_obj" (obj val)) = hh ++ [K] ++ [A] := by
    unfold Heap.mutate
    rw [List.modify_eq_take_cons_drop (by simp)]
    simp [hK]
  have hrun : withGS dflt obj h o g = some (⟨hh.length + 1, hh.length⟩, hh ++ [K] ++ [A]) := by
    have hkk : hh[o.kids]? = some k := by rw [hhe, List.getElem?_append_left hk, w.kids]
    have haa : hh[h.length]? = some a2 := by rw [hhe]; exact at_end _ _
    simp only [withGS, flatten, Heap.copy, w.aux, Option.map_some, mutate_same, ← ha2, unflatten,
      ← hhe, haa, hkk, ← hval, construct, ← hA, hmut]
  refine ⟨_, _, A, K, hrun, ?_, ?_, ?_, ?_, ?_, ⟨val, ?_, ?_, hgs⟩, ?_, ?_, ?_, ?_⟩
  · have : hh.length + 1 = (hh ++ [K]).length := by simp
    rw [show (IObj.mk (hh.length + 1) hh.length).aux = (hh ++ [K]).length from this]
    exact at_end _ _
  · have : (IObj.mk (hh.length + 1) hh.length).kids < (hh ++ [K]).length := by simp
    rw [List.getElem?_append_left this]
    exact at_end _ _
  · rw [hA, get_named _ _ _ _ (by decide), hgs]
    rfl
  · intro x hx hne
    obtain ⟨v, hv⟩ := (w.aux_keys x).2 hx
    obtain ⟨d1, d2⟩ := disj x hx
    rw [hA, get_named _ _ _ _ hx, hget, hkn x d1 d2, hga, if_neg (Ne.symm hne), hv]
    rfl
  · intro x hx
    obtain ⟨v, hv⟩ := (w.kid_keys x).2 (Or.inl hx)
    have hne : "_obj" ≠ x := by
      rintro rfl
      revert hx
      decide
    rw [hK, get_put, if_neg hne, get_named _ _ _ _ hx, hget, hv]
    rfl
  · rw [hK, get_put, if_pos rfl]
  · obtain ⟨v, hv⟩ := (w.kid_keys "_obj").2 (Or.inr rfl)
    rw [hget, hv]
    rfl
  · show hh.length + 1 ≠ o.aux
    omega
  · show hh.length ≠ o.kids
    omega
  · show hh.length + 1 ≠ hh.length
    omega
  · intro r hr
    rw [List.getElem?_append_left (by simp; omega), List.getElem?_append_left (by omega), hhe,
      List.getElem?_append_left hr]

/-- A heap with one interpolated image. -/
example : WellFormed (α := ℕ) [auxKeys.map fun k => (k, .attr 1),
    (kidKeys ++ ["_obj"]).map fun k => (k, .attr 2)] ⟨0, 1⟩
    (auxKeys.map fun k => (k, .attr 1)) ((kidKeys ++ ["_obj"]).map fun k => (k, .attr 2)) := by
  have gen : ∀ (l : List String) (v : Val ℕ) (x : String),
      (∃ u, Dict.get (l.map fun k => (k, v)) x = some u) ↔ x ∈ l := by
    intro l v x
    induction l with
    | nil => simp [Dict.get]
    | cons b rest ih =>
      by_cases h : b = x
      · subst h; simp [Dict.get]
      · simp only [List.map_cons, Dict.get, h, if_false, ih, List.mem_cons, Ne.symm h, false_or]
  refine ⟨rfl, rfl, ?_, ?_, gen _ _, fun x => ?_⟩
  · unfold Distinct
    simp only [List.map_map, Function.comp_def, List.map_id']
    decide
  · unfold Distinct
    simp only [List.map_map, Function.comp_def, List.map_id']
    decide
  · rw [gen]
    simp

end JG.Pickle
