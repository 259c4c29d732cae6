import Verif.Model.InterpCheck
import Mathlib.Tactic.NormNum
import Mathlib.Tactic.FieldSimp

/-!
# C118: an interpolated image accepts exactly the arguments it can use

Specification: `Valid`, the conditions on the arguments one by one, without any order.
-/

namespace JG.InterpCheck

variable {W I : Type}

/-- Specification: what the documentation asks of the arguments. -/
structure Valid (a : Args W I) (im : Im W) : Prop where
  image : a.image = some im
  float : im.isFloat = true
  bounds : im.defined = true
  norm : normOk a.normalization = true
  x : a.xInterp ≠ some none
  k : a.kInterp ≠ some none
  pad_image : a.padImage = false
  pad_factor : 0 < a.padFactor
  noise_size : a.noisePadSize = false
  noise : a.noisePad = false
  one_wcs : a.scale = none ∨ a.wcs = none
  is_wcs : a.wcs ≠ some none
  some_wcs : a.scale ≠ none ∨ a.wcs ≠ none ∨ im.wcs ≠ none
  nonzero : (a.calculateStepk = true ∨ a.calculateMaxk = true ∨ a.flux ≠ none) → im.pixels.sum ≠ 0

theorem useInterp_ok (q : I) (x : Option (Option I)) :
    (∃ i, useInterp q x = .ok i) ↔ x ≠ some none := by
  rcases x with _ | _ | i <;> simp [useInterp]

theorem checkWcs_ok (a : Args W I) (im : Im W) :
    checkWcs a im = .ok () ↔ (a.scale = none ∨ a.wcs = none) ∧ a.wcs ≠ some none ∧
      (a.scale ≠ none ∨ a.wcs ≠ none ∨ im.wcs ≠ none) := by
  unfold checkWcs
  rcases hs : a.scale with _ | s <;> rcases hw : a.wcs with _ | _ | w <;>
    rcases hi : im.wcs with _ | v <;> simp

theorem checkFlux_ok (a : Args W I) (im : Im W) :
    checkFlux a im = .ok () ↔
      ((a.calculateStepk = true ∨ a.calculateMaxk = true ∨ a.flux ≠ none) → im.pixels.sum ≠ 0) := by
  unfold checkFlux
  by_cases h : a.calculateStepk = true ∨ a.calculateMaxk = true ∨ a.flux ≠ none
  · have h' : a.calculateStepk = true ∨ a.calculateMaxk = true ∨ a.flux.isSome = true := by
      simpa [Option.isSome_iff_ne_none] using h
    by_cases hz : im.pixels.sum = 0 <;> simp [h, h', hz]
  · have h' : ¬ (a.calculateStepk = true ∨ a.calculateMaxk = true ∨ a.flux.isSome = true) := by
      simpa [Option.isSome_iff_ne_none] using h
    simp [h, h']

/-- **C118** (acceptance): the constructor succeeds exactly for the valid arguments, and then keeps
the image, the arguments and the given interpolants (quintic ones when none is given). -/
theorem C118_accepts (q : I) (a : Args W I) (o : Obj W I) :
    construct q a = .ok o ↔ Valid a o.im ∧ o.args = a ∧
      (∀ i, a.xInterp = some (some i) → o.x = i) ∧ (a.xInterp = none → o.x = q) ∧
      (∀ i, a.kInterp = some (some i) → o.k = i) ∧ (a.kInterp = none → o.k = q) := by
  obtain ⟨oi, ox, ok, oa⟩ := o
  constructor
  · intro h
    unfold construct at h
    cases him : a.image with
    | none => rw [him] at h; cases h
    | some im =>
      rw [him] at h
      dsimp only at h
      cases h1 : im.isFloat <;> simp only [h1, Bool.not_false, Bool.not_true, if_true] at h
      · cases h
      cases h2 : im.defined <;> simp only [h2, Bool.not_false, Bool.not_true, if_true] at h
      · cases h
      cases h3 : normOk a.normalization <;>
        simp only [h3, Bool.not_false, Bool.not_true, if_true] at h
      · cases h
      simp only [Bool.false_eq_true, if_false] at h
      cases hx : useInterp q a.xInterp with
      | error e => rw [hx] at h; cases h
      | ok x =>
        rw [hx] at h
        dsimp only at h
        cases hk : useInterp q a.kInterp with
        | error e => rw [hk] at h; cases h
        | ok k =>
          rw [hk] at h
          dsimp only at h
          split_ifs at h with h4 h5 h6 h7
          cases hw : checkWcs a im with
          | error e => rw [hw] at h; cases h
          | ok u =>
            rw [hw] at h
            dsimp only at h
            cases hf : checkFlux a im with
            | error e => rw [hf] at h; cases h
            | ok u' =>
              rw [hf] at h
              cases h
              obtain ⟨w1, w2, w3⟩ := (checkWcs_ok a _).1 hw
              refine ⟨⟨him, h1, h2, h3, (useInterp_ok q _).1 ⟨_, hx⟩, (useInterp_ok q _).1 ⟨_, hk⟩,
                by simpa using h4, not_le.1 h5, by simpa using h6, by simpa using h7, w1, w2, w3,
                (checkFlux_ok a _).1 hf⟩, rfl, ?_, ?_, ?_, ?_⟩
              · intro i e; rw [e] at hx; cases hx; rfl
              · intro e; rw [e] at hx; cases hx; rfl
              · intro i e; rw [e] at hk; cases hk; rfl
              · intro e; rw [e] at hk; cases hk; rfl
  · rintro ⟨v, rfl, x1, x2, k1, k2⟩
    dsimp only at v x1 x2 k1 k2
    have hx : useInterp q oa.xInterp = .ok ox := by
      rcases e : oa.xInterp with _ | _ | i
      · rw [x2 e]; rfl
      · exact absurd e v.x
      · rw [x1 i e]; rfl
    have hk : useInterp q oa.kInterp = .ok ok := by
      rcases e : oa.kInterp with _ | _ | i
      · rw [k2 e]; rfl
      · exact absurd e v.k
      · rw [k1 i e]; rfl
    have hw := (checkWcs_ok oa oi).2 ⟨v.one_wcs, v.is_wcs, v.some_wcs⟩
    have hf := (checkFlux_ok oa oi).2 v.nonzero
    simp only [construct, v.image, v.float, v.bounds, v.norm, hx, hk, v.pad_image, v.noise_size,
      v.noise, not_le.2 v.pad_factor, hw, hf]
    simp

/-- Specification: `s` is the name `t` with any of its letters in upper case. -/
def SameName (s t : List Char) : Prop := List.Forall₂ (fun c d => c = d ∨ c = d.toUpper) s t

/-- The characters of the names. -/
def nameChars : List Char := "flux surface brightness".toList

theorem upper_range : ∀ d ∈ nameChars, d.toUpper ≠ d → 'A' ≤ d.toUpper ∧ d.toUpper ≤ 'Z' := by
  decide

theorem lowerC_upper : ∀ d ∈ nameChars, IName.lowerC d.toUpper = d ∧ IName.lowerC d = d := by
  decide

theorem lowerC_range : ∀ n : Fin 26, ∀ d ∈ nameChars,
    IName.lowerC (Char.ofNat (65 + n)) = d → Char.ofNat (65 + n) = d.toUpper := by
  decide

theorem lowerC_iff (c d : Char) (hd : d ∈ nameChars) :
    IName.lowerC c = d ↔ c = d ∨ c = d.toUpper := by
  constructor
  · intro h
    by_cases hc : 'A' ≤ c ∧ c ≤ 'Z'
    · have h1 : 65 ≤ c.toNat := hc.1
      have h2 : c.toNat ≤ 90 := hc.2
      have e : Char.ofNat (65 + (c.toNat - 65)) = c := by
        rw [Nat.add_sub_cancel' h1, Char.ofNat_toNat]
      have := lowerC_range ⟨c.toNat - 65, by omega⟩ d hd
      simp only [e] at this
      exact Or.inr (this h)
    · rw [IName.lowerC, if_neg hc] at h
      exact Or.inl h
  · rintro (rfl | rfl)
    · exact (lowerC_upper c hd).2
    · exact (lowerC_upper d hd).1

theorem lower_iff (t : List Char) (ht : ∀ d ∈ t, d ∈ nameChars) :
    ∀ s, lower s = t ↔ SameName s t := by
  induction t with
  | nil => intro s; cases s <;> simp [lower, SameName]
  | cons d t ih =>
    intro s
    cases s with
    | nil => simp [lower, SameName]
    | cons c s =>
      have h1 := lowerC_iff c d (ht d List.mem_cons_self)
      have h2 := ih (fun x hx => ht x (List.mem_cons_of_mem _ hx)) s
      unfold SameName at h2 ⊢
      rw [List.forall₂_cons, ← h2, ← h1]
      simp [lower]

/-- **C118** (spelling): the normalisation is one of the four names in any capitalisation, nothing
else; the last two, and only these, mean surface brightness. -/
theorem C118_names (s : List Char) :
    (normOk s = true ↔ SameName s "flux".toList ∨ SameName s "f".toList ∨
      SameName s "surface brightness".toList ∨ SameName s "sb".toList) ∧
    (normSB s = true ↔ SameName s "surface brightness".toList ∨ SameName s "sb".toList) := by
  rw [← lower_iff "flux".toList (by decide), ← lower_iff "f".toList (by decide),
    ← lower_iff "surface brightness".toList (by decide), ← lower_iff "sb".toList (by decide)]
  simp [normOk, normSB]

/-- **C118** (wcs): an accepted image always has a wcs: that of the scale if one is given, else the
given one, else that of the image. -/
theorem C118_wcs (q : I) (a : Args W I) (o : Obj W I) (ps : ℝ → W) (h : construct q a = .ok o) :
    ∃ w, o.wcs ps = some w ∧ (∀ s, a.scale = some s → w = ps s) ∧
      (∀ u, a.wcs = some (some u) → w = u) ∧
      (a.scale = none → a.wcs = none → o.im.wcs = some w) := by
  obtain ⟨v, rfl, _⟩ := (C118_accepts q a o).1 h
  have h1 := v.one_wcs
  have h2 := v.is_wcs
  have h3 := v.some_wcs
  unfold Obj.wcs
  rcases hs : o.args.scale with _ | s <;> rcases hw : o.args.wcs with _ | _ | w <;>
    rcases hi : o.im.wcs with _ | u <;> simp_all

/-- **C118** (flux): for an accepted image the ratio times the sum of the pixels is the flux asked for;
without one it is the sum of the pixels, times the pixel area for a surface brightness, provided the
sum is not zero; the sum cannot be zero when a flux is given. -/
theorem C118_flux (q : I) (a : Args W I) (o : Obj W I) (area : ℝ) (h : construct q a = .ok o) :
    (∀ f, a.flux = some f → o.fluxRatio area * o.im.pixels.sum = f) ∧
    (a.flux = none → o.im.pixels.sum ≠ 0 →
      o.fluxRatio area = if normSB a.normalization then area else 1) := by
  obtain ⟨v, rfl, _⟩ := (C118_accepts q a o).1 h
  refine ⟨?_, ?_⟩
  · intro f hf
    have hz := v.nonzero (Or.inr (Or.inr (by simp [hf])))
    simp only [Obj.fluxRatio, hf]
    exact div_mul_cancel₀ f hz
  · intro hf hz
    simp only [Obj.fluxRatio, hf]
    cases hn : normSB o.args.normalization
    · simp [hz]
    · simp only [if_true]
      exact mul_div_cancel_left₀ area hz

/-- **C118** (use): without `depixelize` an accepted image can be used, and its pixels are those given. -/
theorem C118_usable_partial (q : I) (a : Args W I) (o : Obj W I) (h : construct q a = .ok o)
    (hd : a.depixelize = false) : o.pixels = .ok o.im.pixels ∧ a.image = some o.im := by
  obtain ⟨v, rfl, _⟩ := (C118_accepts q a o).1 h
  exact ⟨by simp [Obj.pixels, hd], v.image⟩

/-- Arguments that are accepted. -/
def goodArgs : Args ℝ ℕ where
  image := some ⟨true, true, none, [1, 2]⟩
  xInterp := none
  kInterp := some (some 3)
  normalization := "SB".toList
  scale := some 2
  wcs := none
  flux := some 5
  padFactor := 4
  noisePadSize := false
  noisePad := false
  padImage := false
  calculateStepk := true
  calculateMaxk := true
  depixelize := false

theorem goodArgs_valid (b : Bool) :
    Valid { goodArgs with depixelize := b } ⟨true, true, none, [1, 2]⟩ := by
  refine ⟨rfl, rfl, rfl, by simp only [goodArgs]; decide, by simp [goodArgs], by simp [goodArgs], rfl,
    by norm_num [goodArgs], rfl, rfl, Or.inr rfl, by simp [goodArgs], Or.inl (by simp [goodArgs]), ?_⟩
  intro _
  norm_num

/-- Disagreement: `depixelize=True` is not supported, but the constructor accepts it; the exception
comes at the first use of the object. -/
theorem C118_depixelize_counterexample : ∃ (a : Args ℝ ℕ) (o : Obj ℝ ℕ),
    construct 0 a = .ok o ∧ o.pixels = .error .notImplemented := by
  refine ⟨{ goodArgs with depixelize := true }, ⟨⟨true, true, none, [1, 2]⟩, 0, 3,
    { goodArgs with depixelize := true }⟩, ?_, by simp [Obj.pixels]⟩
  refine (C118_accepts _ _ _).2 ⟨goodArgs_valid true, rfl, ?_, ?_, ?_, ?_⟩ <;> simp [goodArgs]

/-- Disagreement: an image whose pixels sum to zero is refused only when `calculate_stepk`,
`calculate_maxk` or a flux is given; otherwise it is accepted and its flux ratio is `0 / 0`. -/
theorem C118_zero_flux_counterexample : ∃ (a : Args ℝ ℕ) (o : Obj ℝ ℕ),
    construct 0 a = .ok o ∧ o.im.pixels.sum = 0 ∧ a.flux = none := by
  refine ⟨{ goodArgs with
      image := some ⟨true, true, none, [1, -1]⟩, flux := none, calculateStepk := false,
      calculateMaxk := false },
    ⟨⟨true, true, none, [1, -1]⟩, 0, 3, { goodArgs with
      image := some ⟨true, true, none, [1, -1]⟩, flux := none, calculateStepk := false,
      calculateMaxk := false }⟩, ?_, by norm_num, rfl⟩
  refine (C118_accepts _ _ _).2 ⟨⟨rfl, rfl, rfl, by simp only [goodArgs]; decide, by simp [goodArgs],
    by simp [goodArgs], rfl, by norm_num [goodArgs], rfl, rfl, Or.inr rfl, by simp [goodArgs],
    Or.inl (by simp [goodArgs]), by simp⟩, rfl, ?_, ?_, ?_, ?_⟩ <;> simp [goodArgs]

example : ∃ o, construct 0 goodArgs = .ok o ∧ o.fluxRatio 4 * 3 = 5 := by
  have h : construct 0 goodArgs = .ok ⟨⟨true, true, none, [1, 2]⟩, 0, 3, goodArgs⟩ :=
    (C118_accepts _ _ _).2 ⟨goodArgs_valid false, rfl, by simp [goodArgs], by simp [goodArgs],
      by simp [goodArgs], by simp [goodArgs]⟩
  refine ⟨_, h, ?_⟩
  have := (C118_flux 0 goodArgs _ 4 h).1 5 rfl
  norm_num at this ⊢
  exact this

end JG.InterpCheck
