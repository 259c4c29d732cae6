import Verif.Model.Fits

/-! C52: the FITS writers leave the images as they were. -/

namespace JG.Fits

/-- Instances of `jax_galsim.Image`. -/
def IsJaxImage (o : Obj) : Prop := ∃ n, o.cls = .jaxImage n

/-- What the upstream writer must be shown for an image: class `galsim.Image`, a numpy copy of its
array. -/
def asNumpy (o : Obj) : Obj := ⟨.galImage, .npCopy o.arr⟩

/-- State of affairs while images are being entered. -/
structure Inv (h0 h : Heap) (s : List (ℕ × Obj)) : Prop where
  saved : ∀ p ∈ s, p.2 = h0 p.1 ∧ IsJaxImage (h0 p.1)
  inside : ∀ p ∈ s, h p.1 = asNumpy (h0 p.1)
  outside : ∀ a, a ∉ s.map Prod.fst → h a = h0 a

theorem unwind_spec (h0 : Heap) (s : List (ℕ × Obj)) (hs : ∀ p ∈ s, p.2 = h0 p.1) (h : Heap) (a : ℕ) :
    unwind s h a = if a ∈ s.map Prod.fst then h0 a else h a := by
  induction s generalizing h with
  | nil => simp [unwind]
  | cons p s ih =>
    obtain ⟨b, o⟩ := p
    have ho : o = h0 b := hs (b, o) (by simp)
    rw [unwind, ih (fun q hq => hs q (by simp [hq]))]
    simp only [List.map_cons, List.mem_cons]
    by_cases h1 : a ∈ s.map Prod.fst
    · rw [if_pos h1, if_pos (Or.inr h1)]
    · rw [if_neg h1]
      by_cases h2 : a = b
      · rw [if_pos (Or.inl h2), exitImage, h2, Function.update_self, ho]
      · rw [if_neg (by rintro (h | h); exacts [h2 h, h1 h]), exitImage, Function.update_of_ne h2]

theorem enterImage_spec (cr : Crash) (hcr : cr ≠ .interrupt) (a : ℕ) (h : Heap) :
    (cr = .no ∧ enterImage cr a h = .ok (Function.update h a (asNumpy (h a)), h a)) ∨
    (cr ≠ .no ∧ enterImage cr a h = .error h) := by
  cases cr with
  | no => left; simp [enterImage, asNumpy]
  | read => right; simp [enterImage]
  | convert => right; simp [enterImage]
  | interrupt => exact absurd rfl hcr
  | setClass =>
    right
    refine ⟨by simp, ?_⟩
    simp [enterImage]

/-- What entering the elements of a list achieves, from any reachable state. -/
theorem enterAll_spec (arrays : Bool) (crash : ℕ → Crash) (hcr : ∀ i, crash i ≠ .interrupt) (h0 : Heap)
    (l : List ℕ) (i : ℕ) (h : Heap) (s : List (ℕ × Obj)) (inv : Inv h0 h s) :
    (∃ h' s', enterAll arrays crash l i h s = .ok (h', s') ∧ Inv h0 h' s' ∧
      (∀ p ∈ s, p ∈ s') ∧ (∀ a ∈ l, IsJaxImage (h0 a) → a ∈ s'.map Prod.fst)) ∨
    (∃ h' s', enterAll arrays crash l i h s = .error (h', s') ∧ Inv h0 h' s') := by
  induction l generalizing i h s with
  | nil => exact Or.inl ⟨h, s, rfl, inv, fun _ hp => hp, by simp⟩
  | cons a l ih =>
    -- an image already entered has class `galImage`, one not entered its original class
    have hin : a ∈ s.map Prod.fst → (h a).cls = .galImage := by
      intro hm
      obtain ⟨p, hp, rfl⟩ := List.mem_map.mp hm
      rw [inv.inside p hp]; rfl
    have hout : a ∉ s.map Prod.fst → h a = h0 a := inv.outside a
    have skip : (IsJaxImage (h0 a) → a ∈ s.map Prod.fst) →
        enterAll arrays crash (a :: l) i h s = enterAll arrays crash l (i + 1) h s →
        ((∃ h' s', enterAll arrays crash (a :: l) i h s = .ok (h', s') ∧ Inv h0 h' s' ∧
          (∀ p ∈ s, p ∈ s') ∧ (∀ b ∈ a :: l, IsJaxImage (h0 b) → b ∈ s'.map Prod.fst)) ∨
        (∃ h' s', enterAll arrays crash (a :: l) i h s = .error (h', s') ∧ Inv h0 h' s')) := by
      intro hj heq
      rcases ih (i + 1) h s inv with ⟨h', s', e, v, sub, all⟩ | ⟨h', s', e, v⟩
      · refine Or.inl ⟨h', s', heq.trans e, v, sub, ?_⟩
        intro b hb hbj
        rcases List.mem_cons.mp hb with rfl | hb
        · obtain ⟨p, hp, hpe⟩ := List.mem_map.mp (hj hbj)
          exact List.mem_map.mpr ⟨p, sub p hp, hpe⟩
        · exact all b hb hbj
      · exact Or.inr ⟨h', s', heq.trans e, v⟩
    cases hc : (h a).cls with
    | jaxImage n =>
      have hnot : a ∉ s.map Prod.fst := by
        intro hm; rw [hin hm] at hc; exact nomatch hc
      have ha0 := hout hnot
      rcases enterImage_spec (crash i) (hcr i) a h with ⟨-, he⟩ | ⟨-, he⟩
      · have inv' : Inv h0 (Function.update h a (asNumpy (h a))) ((a, h a) :: s) := by
          refine ⟨?_, ?_, ?_⟩
          · intro p hp
            rcases List.mem_cons.mp hp with rfl | hp
            · exact ⟨ha0, n, by rw [← ha0]; exact hc⟩
            · exact inv.saved p hp
          · intro p hp
            rcases List.mem_cons.mp hp with rfl | hp
            · simp only [Function.update_self, ha0]
            · have : p.1 ≠ a := fun hpa => hnot (List.mem_map.mpr ⟨p, hp, hpa⟩)
              rw [Function.update_of_ne this]
              exact inv.inside p hp
          · intro b hb
            simp only [List.map_cons, List.mem_cons, not_or] at hb
            rw [Function.update_of_ne hb.1]
            exact inv.outside b hb.2
        have heq : enterAll arrays crash (a :: l) i h s =
            enterAll arrays crash l (i + 1) (Function.update h a (asNumpy (h a))) ((a, h a) :: s) := by
          rw [enterAll]; simp only [hc, he]
        rcases ih (i + 1) _ _ inv' with ⟨h', s', e, v, sub, all⟩ | ⟨h', s', e, v⟩
        · refine Or.inl ⟨h', s', heq.trans e, v, fun p hp => sub p (List.mem_cons_of_mem _ hp), ?_⟩
          intro b hb hbj
          rcases List.mem_cons.mp hb with rfl | hb
          · exact List.mem_map.mpr ⟨_, sub _ List.mem_cons_self, rfl⟩
          · exact all b hb hbj
        · exact Or.inr ⟨h', s', heq.trans e, v⟩
      · refine Or.inr ⟨h, s, ?_, inv⟩
        rw [enterAll]; simp only [hc, he]
    | galImage =>
      refine skip ?_ (by rw [enterAll]; simp only [hc])
      intro ⟨n, hn⟩
      by_contra hm
      rw [hout hm, hn] at hc; exact nomatch hc
    | jaxArray =>
      by_cases hx : arrays = true ∧ crash i ≠ .no
      · refine Or.inr ⟨h, s, ?_, inv⟩
        rw [enterAll]; simp only [hc]; rw [if_pos hx]
      · refine skip ?_ (by rw [enterAll]; simp only [hc]; rw [if_neg hx])
        intro ⟨n, hn⟩
        by_contra hm
        rw [hout hm, hn] at hc; exact nomatch hc
    | other m =>
      refine skip ?_ (by rw [enterAll]; simp only [hc])
      intro ⟨n, hn⟩
      by_contra hm
      rw [hout hm, hn] at hc; exact nomatch hc

theorem enterAll_mem (arrays : Bool) (crash : ℕ → Crash) (l : List ℕ) (i : ℕ) (h1 : Heap)
    (s : List (ℕ × Obj)) (h2 : Heap) (s2 : List (ℕ × Obj))
    (e : enterAll arrays crash l i h1 s = .ok (h2, s2)) (p : ℕ × Obj) (hp : p ∈ s2) : p ∈ s ∨ p.1 ∈ l := by
  induction l generalizing i h1 s with
  | nil => rw [enterAll] at e; cases e; exact Or.inl hp
  | cons b l ih =>
    rw [enterAll] at e
    cases hc : (h1 b).cls with
    | jaxImage n =>
      simp only [hc] at e
      cases he : enterImage (crash i) b h1 with
      | error h3 => simp only [he] at e; exact nomatch e
      | ok r =>
        obtain ⟨h3, sv⟩ := r
        simp only [he] at e
        rcases ih _ _ _ e with hq | hq
        · rcases List.mem_cons.mp hq with rfl | hq
          · exact Or.inr List.mem_cons_self
          · exact Or.inl hq
        · exact Or.inr (List.mem_cons_of_mem _ hq)
    | galImage =>
      simp only [hc] at e
      exact (ih _ _ _ e).imp id (List.mem_cons_of_mem _)
    | jaxArray =>
      simp only [hc] at e
      split_ifs at e
      exact (ih _ _ _ e).imp id (List.mem_cons_of_mem _)
    | other m =>
      simp only [hc] at e
      exact (ih _ _ _ e).imp id (List.mem_cons_of_mem _)

theorem mem_stack {arrays : Bool} {crash : ℕ → Crash} {l : List ℕ} {h h' : Heap} {s' : List (ℕ × Obj)}
    (e : enterAll arrays crash l 0 h [] = .ok (h', s')) (v : Inv h h' s')
    (all : ∀ a ∈ l, IsJaxImage (h a) → a ∈ s'.map Prod.fst) (a : ℕ) :
    a ∈ s'.map Prod.fst ↔ (a ∈ l ∧ IsJaxImage (h a)) := by
  constructor
  · intro hm
    obtain ⟨p, hp, rfl⟩ := List.mem_map.mp hm
    rcases enterAll_mem _ _ _ _ _ _ _ _ e p hp with hq | hq
    · exact absurd hq List.not_mem_nil
    · exact ⟨hq, (v.saved p hp).2⟩
  · exact fun ⟨h1, h2⟩ => all a h1 h2

theorem inv_nil (h0 : Heap) : Inv h0 h0 [] :=
  ⟨fun _ hp => absurd hp List.not_mem_nil, fun _ hp => absurd hp List.not_mem_nil, fun _ _ => rfl⟩

/-- C52 for `writeMulti` and `writeCube`: whatever the list (with repetitions), whichever of the
synchronous operations raises, and whatever the upstream writer does to the objects or whether it
raises, every jax_galsim image of the list has its class and its array object back afterwards.
Missing: asynchronous exceptions, for which the claim is false. -/
theorem C52_list_partial (arrays : Bool) (crash : ℕ → Crash) (hcr : ∀ i, crash i ≠ .interrupt)
    (body : Heap → Heap × Bool) (l : List ℕ) (h : Heap) (a : ℕ) (ha : a ∈ l) (hj : IsJaxImage (h a)) :
    (writeList arrays crash body l h).1 a = h a := by
  unfold writeList
  rcases enterAll_spec arrays crash hcr h l 0 h [] (inv_nil h) with ⟨h', s', e, v, -, all⟩ | ⟨h', s', e, v⟩
  · rw [e]
    simp only
    rw [unwind_spec h s' (fun p hp => (v.saved p hp).1), if_pos (all a ha hj)]
  · rw [e]
    simp only
    rw [unwind_spec h s' (fun p hp => (v.saved p hp).1)]
    split_ifs with hm
    · rfl
    · exact v.outside a hm

/-- C52 for `write`. -/
theorem C52_write_partial (crash : Crash) (hcr : crash ≠ .interrupt) (body : Heap → Heap × Bool) (a : ℕ)
    (h : Heap) (hj : IsJaxImage (h a)) : (write crash body a h).1 a = h a := by
  obtain ⟨n, hn⟩ := hj
  unfold write
  simp only [hn]
  rcases enterImage_spec crash hcr a h with ⟨-, he⟩ | ⟨-, he⟩ <;> rw [he]
  simp only [exitImage, Function.update_self]

/-- C52: objects that were not entered are touched by nothing but the upstream writer; if it is
never reached, no object at all is changed. -/
theorem C52_frame (arrays : Bool) (crash : ℕ → Crash) (hcr : ∀ i, crash i ≠ .interrupt) (body : Heap → Heap × Bool)
    (l : List ℕ) (h : Heap) :
    (writeList arrays crash body l h).1 = h ∨
    ∃ h', (∀ a ∈ l, IsJaxImage (h a) → h' a = asNumpy (h a)) ∧
      (∀ a, ¬ (a ∈ l ∧ IsJaxImage (h a)) → h' a = h a) ∧
      (writeList arrays crash body l h).2 = (body h').2 ∧
      ∀ a, ¬ (a ∈ l ∧ IsJaxImage (h a)) → (writeList arrays crash body l h).1 a = (body h').1 a := by
  unfold writeList
  rcases enterAll_spec arrays crash hcr h l 0 h [] (inv_nil h) with ⟨h', s', e, v, -, all⟩ | ⟨h', s', e, v⟩
  · right
    have hmem := mem_stack e v all
    refine ⟨h', ?_, ?_, by rw [e], ?_⟩
    · intro a ha hj
      obtain ⟨p, hp, rfl⟩ := List.mem_map.mp (all a ha hj)
      exact v.inside p hp
    · intro a ha
      exact v.outside a (fun hm => ha ((hmem a).mp hm))
    · intro a ha
      rw [e]
      simp only
      rw [unwind_spec h s' (fun p hp => (v.saved p hp).1), if_neg (fun hm => ha ((hmem a).mp hm))]
  · left
    rw [e]
    simp only
    funext a
    rw [unwind_spec h s' (fun p hp => (v.saved p hp).1)]
    split_ifs with hm
    · rfl
    · exact v.outside a hm

/-- C52: without a crash point the upstream writer is reached, once, and sees every jax_galsim image
of the list as a `galsim.Image` with a numpy copy of the array; the call returns or raises as it
does. -/
theorem C52_shown (arrays : Bool) (body : Heap → Heap × Bool) (l : List ℕ) (h : Heap) :
    ∃ h', (∀ a ∈ l, IsJaxImage (h a) → h' a = asNumpy (h a)) ∧
      (∀ a, a ∉ l ∨ ¬ IsJaxImage (h a) → h' a = h a) ∧
      (writeList arrays (fun _ => .no) body l h).2 = (body h').2 := by
  have ok : ∀ (l : List ℕ) (i : ℕ) (h1 : Heap) (s : List (ℕ × Obj)),
      ∃ r, enterAll arrays (fun _ => .no) l i h1 s = .ok r := by
    intro l
    induction l with
    | nil => intro i h1 s; exact ⟨_, rfl⟩
    | cons b l ih =>
      intro i h1 s
      rw [enterAll]
      cases hc : (h1 b).cls with
      | jaxImage n =>
        rcases enterImage_spec .no (by simp) b h1 with ⟨-, he⟩ | ⟨hne, -⟩
        · simp only [he]; exact ih _ _ _
        · exact absurd rfl hne
      | galImage => simp only; exact ih _ _ _
      | jaxArray => simp only; rw [if_neg (by simp)]; exact ih _ _ _
      | other m => simp only; exact ih _ _ _
  rcases enterAll_spec arrays (fun _ => .no) (by simp) h l 0 h [] (inv_nil h) with
    ⟨h', s', e, v, -, all⟩ | ⟨h', s', e, v⟩
  · refine ⟨h', ?_, ?_, ?_⟩
    · intro a ha hj
      obtain ⟨p, hp, rfl⟩ := List.mem_map.mp (all a ha hj)
      exact v.inside p hp
    · intro a ha
      refine v.outside a (fun hm => ?_)
      obtain ⟨h1, h2⟩ := (mem_stack e v all a).mp hm
      exact ha.elim (fun x => x h1) (fun x => x h2)
    · unfold writeList; rw [e]
  · obtain ⟨r, hr⟩ := ok l 0 h []
    rw [hr] at e
    exact nomatch e

/-- C52 for `write` on an image: what the upstream writer sees. -/
theorem C52_write_shown (body : Heap → Heap × Bool) (a : ℕ) (h : Heap) (hj : IsJaxImage (h a)) :
    ∃ h', h' a = asNumpy (h a) ∧ (∀ b, b ≠ a → h' b = h b) ∧ (write .no body a h).2 = (body h').2 := by
  obtain ⟨n, hn⟩ := hj
  refine ⟨Function.update h a (asNumpy (h a)), Function.update_self .., fun b hb => Function.update_of_ne hb .., ?_⟩
  rcases enterImage_spec .no (by simp) a h with ⟨-, he⟩ | ⟨hne, -⟩
  · unfold write; simp only [hn, he]
  · exact absurd rfl hne

/-- Disagreement: an asynchronous exception (`KeyboardInterrupt`) between the replacement of `_array`
and the binding of `old_class` makes the `finally` clause of `_image_as_numpy` raise
`UnboundLocalError` before it restores anything; the image keeps the numpy copy. -/
theorem C52_counterexample_interrupt (body : Heap → Heap × Bool) (a n k : ℕ) (h : Heap)
    (ha : h a = ⟨.jaxImage n, .orig k⟩) :
    (write .interrupt body a h).1 a = ⟨.jaxImage n, .npCopy (.orig k)⟩ ∧
    (writeList false (fun _ => .interrupt) body [a] h).1 a ≠ h a := by
  constructor
  · simp [write, enterImage, ha]
  · simp [writeList, enterAll, enterImage, ha, unwind]

/-- A heap with two images, an array and an upstream image. -/
def demoHeap : Heap := fun a =>
  if a = 0 then ⟨.jaxImage 0, .orig 10⟩
  else if a = 1 then ⟨.jaxImage 3, .orig 10⟩
  else if a = 2 then ⟨.jaxArray, .orig 12⟩
  else ⟨.galImage, .orig a⟩

/-- Image 0 occurs twice, images 0 and 1 share their array, the last element fails to convert, and
the writer would overwrite everything: the images are restored. -/
example (a : ℕ) (ha : a = 0 ∨ a = 1) :
    (writeList true (fun i => if i = 4 then .convert else .no) (fun _ => (fun _ => ⟨.other 7, .orig 7⟩, false))
      [0, 1, 0, 5, 2] demoHeap).1 a = demoHeap a := by
  refine C52_list_partial true _ ?_ _ _ _ a (by rcases ha with rfl | rfl <;> simp) ?_
  · intro i; split_ifs <;> simp
  · rcases ha with rfl | rfl
    · exact ⟨0, rfl⟩
    · exact ⟨3, rfl⟩

example : IsJaxImage (demoHeap 1) := ⟨3, rfl⟩

example : (demoHeap 0) = ⟨.jaxImage 0, .orig 10⟩ := rfl

/-- C52, reading: the dtype after reading is always one that images accept, and a supported dtype is
kept. -/
theorem C52_read_dtype (valid : List String) (hv : "float64" ∈ valid) (d : String) :
    readDtype valid d ∈ valid ∧ (d ∈ valid → readDtype valid d = d) := by
  unfold readDtype
  refine ⟨?_, fun h => if_pos h⟩
  split_ifs with h
  · exact h
  · exact hv

end JG.Fits
