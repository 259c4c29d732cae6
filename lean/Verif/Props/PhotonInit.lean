import Verif.Model.PhotonInit
import Verif.Props.Photon

/-! C102: photon arrays are what they were made from. -/

set_option autoImplicit false

namespace JG

variable {N M : ℕ}

/-! ### The constructor -/

/-- A given array of an optional attribute holds a number (it is not NaN everywhere). -/
def Given (a : Option (Fin N → Option ℝ)) : Prop := ∀ v, a = some v → 0 < N → ∃ i, (v i).isSome

/-- Specification: what an attribute reads when it comes in a pair: the given array, zero when only the other of the pair was given,
NaN when neither was. -/
def PairRead (a b : Option (Fin N → Option ℝ)) (i : Fin N) : Option ℝ :=
  match a, b with
  | some v, _ => v i
  | none, some _ => some 0
  | none, none => none

theorem anyFinite_of {v : Fin N → Option ℝ} (h : ∃ i, (v i).isSome) : anyFinite v = true := by
  unfold anyFinite; simpa using h

theorem anyFinite_none : anyFinite (fun _ : Fin N => (none : Option ℝ)) = false := by unfold anyFinite; simp

theorem pair_angles (p : PhotonArray N) (hp : ∀ i, (p.ph i).dxdz = none ∧ (p.ph i).dydz = none)
    (a b : Option (Fin N → Option ℝ)) (ha : Given a) (hb : Given b) (i : Fin N) :
    ((p.setIf PhotonArray.setDxdz a).setIf PhotonArray.setDydz b).ph i =
      { p.ph i with dxdz := PairRead a b i, dydz := PairRead b a i } := by
  have hd : (fun j => (p.ph j).dydz) = fun _ => none := by funext j; exact (hp j).2
  have hx : (fun j => (p.ph j).dxdz) = fun _ => none := by funext j; exact (hp j).1
  cases a with
  | none =>
    cases b with
    | none =>
      show p.ph i = _
      ext1 <;> simp [PairRead, hp i]
    | some w =>
      have hw := anyFinite_of (hb w rfl i.pos)
      have e : zeroIfNeeded w (fun j => (p.ph j).dxdz) = fun _ => some 0 := by rw [hx]; simp [zeroIfNeeded, hw, anyFinite_none]
      simp only [PhotonArray.setIf, PhotonArray.setDydz, e, PairRead]
  | some v =>
    have hv := anyFinite_of (ha v rfl i.pos)
    cases b with
    | none =>
      have e : zeroIfNeeded v (fun j => (p.ph j).dydz) = fun _ => some 0 := by rw [hd]; simp [zeroIfNeeded, hv, anyFinite_none]
      simp only [PhotonArray.setIf, PhotonArray.setDxdz, e, PairRead]
    | some w =>
      have hw := anyFinite_of (hb w rfl i.pos)
      simp only [PhotonArray.setIf]
      rw [angles_set p v w (by rw [hv, hw])]
      rfl

theorem pair_pupil (p : PhotonArray N) (hp : ∀ i, (p.ph i).pupU = none ∧ (p.ph i).pupV = none)
    (a b : Option (Fin N → Option ℝ)) (ha : Given a) (hb : Given b) (i : Fin N) :
    ((p.setIf PhotonArray.setPupU a).setIf PhotonArray.setPupV b).ph i =
      { p.ph i with pupU := PairRead a b i, pupV := PairRead b a i } := by
  have hd : (fun j => (p.ph j).pupV) = fun _ => none := by funext j; exact (hp j).2
  have hx : (fun j => (p.ph j).pupU) = fun _ => none := by funext j; exact (hp j).1
  cases a with
  | none =>
    cases b with
    | none =>
      show p.ph i = _
      ext1 <;> simp [PairRead, hp i]
    | some w =>
      have hw := anyFinite_of (hb w rfl i.pos)
      have e : zeroIfNeeded w (fun j => (p.ph j).pupU) = fun _ => some 0 := by rw [hx]; simp [zeroIfNeeded, hw, anyFinite_none]
      simp only [PhotonArray.setIf, PhotonArray.setPupV, e, PairRead]
  | some v =>
    have hv := anyFinite_of (ha v rfl i.pos)
    cases b with
    | none =>
      have e : zeroIfNeeded v (fun j => (p.ph j).pupV) = fun _ => some 0 := by rw [hd]; simp [zeroIfNeeded, hv, anyFinite_none]
      simp only [PhotonArray.setIf, PhotonArray.setPupU, e, PairRead]
    | some w =>
      have hw := anyFinite_of (hb w rfl i.pos)
      simp only [PhotonArray.setIf]
      rw [pupil_set p v w (by rw [hv, hw])]
      rfl

/-- Specification: the photons not kept, in an array for `n` photons. -/
def Masked (n : ℕ) (nk : Option (Fin N → Bool)) (i : Fin N) : Bool :=
  match nk with
  | some v => v i
  | none => !decide ((i : ℕ) < n)

/-- The number of kept photons. -/
def keeps (n : ℕ) (nk : Option (Fin N → Bool)) : ℕ := (Finset.univ.filter fun i => Masked n nk i = false).card

theorem set_wave (p : PhotonArray N) (hp : ∀ i, (p.ph i).wave = none) (a : Option (Fin N → Option ℝ)) (i : Fin N) :
    (p.setIf PhotonArray.setWave a).ph i = { p.ph i with wave := a.elim none fun v => v i } := by
  cases a with
  | none => show p.ph i = _; ext1 <;> simp [hp i]
  | some v => rfl

theorem set_time (p : PhotonArray N) (hp : ∀ i, (p.ph i).time = none) (a : Option (Fin N → Option ℝ)) (i : Fin N) :
    (p.setIf PhotonArray.setTime a).ph i = { p.ph i with time := a.elim none fun v => v i } := by
  cases a with
  | none => show p.ph i = _; ext1 <;> simp [hp i]
  | some v => rfl

theorem set_xyf (p : PhotonArray N) (hp : ∀ i, (p.ph i).x = 0 ∧ (p.ph i).y = 0 ∧ (p.ph i).flux = 0) (x y f : Option (Fin N → ℝ))
    (i : Fin N) :
    (((p.setIf PhotonArray.setX x).setIf PhotonArray.setY y).setIf PhotonArray.setFlux f).ph i =
      { p.ph i with x := x.elim 0 fun v => v i, y := y.elim 0 fun v => v i,
                    flux := f.elim 0 fun v => if p.numKeep = 0 then 0 else v i / ((N : ℝ) / p.numKeep) } := by
  obtain ⟨h1, h2, h3⟩ := hp i
  cases x <;> cases y <;> cases f <;> ext1 <;> first | rfl | exact h1 | exact h2 | exact h3

theorem init_ph (n : ℕ) (a : PhotArgs N) (h1 : Given a.dxdz) (h2 : Given a.dydz) (h3 : Given a.pupU) (h4 : Given a.pupV) (i : Fin N) :
    (PhotonArray.initWith n a).ph i =
      ⟨a.x.elim 0 fun v => v i, a.y.elim 0 fun v => v i,
        a.flux.elim 0 fun v => if keeps n a.nokeep = 0 then 0 else v i / ((N : ℝ) / keeps n a.nokeep),
        Masked n a.nokeep i, PairRead a.dxdz a.dydz i, PairRead a.dydz a.dxdz i, a.wave.elim none fun v => v i,
        PairRead a.pupU a.pupV i, PairRead a.pupV a.pupU i, a.time.elim none fun v => v i⟩ := by
  obtain ⟨nk, hnk⟩ : ∃ nk : Fin N → Bool, nk = (match a.nokeep with
    | some v => v
    | none => fun i => decide ((i : ℕ) ≥ n)) := ⟨_, rfl⟩
  have hm : ∀ j, nk j = Masked n a.nokeep j := by
    intro j; rw [hnk]; unfold Masked
    cases a.nokeep with
    | none => by_cases hj : (j : ℕ) < n <;> simp [hj, not_le.2, le_of_not_gt]
    | some v => rfl
  obtain ⟨p, hp⟩ : ∃ p : PhotonArray N, p = ⟨fun i => ⟨0, 0, 0, nk i, none, none, none, none, none, none⟩, false⟩ := ⟨_, rfl⟩
  have hk : p.numKeep = keeps n a.nokeep := by
    unfold PhotonArray.numKeep keeps; rw [hp]; simp only [hm]
  have e0 := set_xyf p (fun j => by rw [hp]; exact ⟨rfl, rfl, rfl⟩) a.x a.y a.flux
  have e1 := pair_angles _ (fun j => by rw [e0 j, hp]; exact ⟨rfl, rfl⟩) a.dxdz a.dydz h1 h2
  have e2 := set_wave _ (fun j => by rw [e1 j, e0 j, hp]) a.wave
  have e3 := pair_pupil _ (fun j => by rw [e2 j, e1 j, e0 j, hp]; exact ⟨rfl, rfl⟩) a.pupU a.pupV h3 h4
  have e4 := set_time _ (fun j => by rw [e3 j, e2 j, e1 j, e0 j, hp]) a.time i
  have : (PhotonArray.initWith n a) = ((((((((p.setIf PhotonArray.setX a.x).setIf PhotonArray.setY a.y).setIf PhotonArray.setFlux a.flux).setIf
    PhotonArray.setDxdz a.dxdz).setIf PhotonArray.setDydz a.dydz).setIf PhotonArray.setWave a.wave).setIf PhotonArray.setPupU
      a.pupU).setIf PhotonArray.setPupV a.pupV).setIf PhotonArray.setTime a.time := by
    rw [hp, hnk]; rfl
  rw [this, e4, e3 i, e2 i, e1 i, e0 i, hk]
  rw [hp, ← hm i]

/-- C102: the attributes of a new array are the arrays it was made from; an attribute which was not given is zero (position, flux),
NaN (the others), or zero if the other of its pair was given.  The fluxes are those of the kept photons. -/
theorem C102_init (n : ℕ) (a : PhotArgs N) (h1 : Given a.dxdz) (h2 : Given a.dydz) (h3 : Given a.pupU) (h4 : Given a.pupV)
    (hk : 0 < keeps n a.nokeep) :
    (∀ i, ((PhotonArray.initWith n a).ph i).x = a.x.elim 0 fun v => v i) ∧
    (∀ i, ((PhotonArray.initWith n a).ph i).y = a.y.elim 0 fun v => v i) ∧
    (∀ i, ((PhotonArray.initWith n a).ph i).nokeep = Masked n a.nokeep i) ∧
    (PhotonArray.initWith n a).flux = some (fun i => if Masked n a.nokeep i then 0 else a.flux.elim 0 fun v => v i) ∧
    (∀ i, ((PhotonArray.initWith n a).ph i).dxdz = PairRead a.dxdz a.dydz i ∧
      ((PhotonArray.initWith n a).ph i).dydz = PairRead a.dydz a.dxdz i ∧
      ((PhotonArray.initWith n a).ph i).pupU = PairRead a.pupU a.pupV i ∧
      ((PhotonArray.initWith n a).ph i).pupV = PairRead a.pupV a.pupU i ∧
      ((PhotonArray.initWith n a).ph i).wave = a.wave.elim none (fun v => v i) ∧
      ((PhotonArray.initWith n a).ph i).time = a.time.elim none fun v => v i) := by
  have h := init_ph n a h1 h2 h3 h4
  have hn : (PhotonArray.initWith n a).numKeep = keeps n a.nokeep := by
    unfold PhotonArray.numKeep keeps; simp only [h]
  refine ⟨fun i => by rw [h], fun i => by rw [h], fun i => by rw [h], ?_, fun i => by rw [h]; exact ⟨rfl, rfl, rfl, rfl, rfl, rfl⟩⟩
  rw [flux_eq _ (by rw [hn]; exact hk)]
  congr 1; funext i
  rw [h, hn]
  simp only
  have hN : (0 : ℝ) < N := by exact_mod_cast i.pos
  have hk' : (0 : ℝ) < keeps n a.nokeep := by exact_mod_cast hk
  cases Masked n a.nokeep i with
  | true => simp
  | false =>
    cases a.flux with
    | none => simp
    | some v => simp only [Option.elim, if_neg hk.ne', Bool.false_eq_true, if_false]; field_simp

/-- Four places for three photons, with one angle given. -/
example : Given (N := 4) (some fun _ => some 1) ∧ Given (N := 4) none ∧ 0 < keeps (N := 4) 3 none :=
  ⟨fun v h _ => by injection h with h; exact ⟨0, by rw [← h]; rfl⟩, fun v h => by simp at h, by decide⟩

/-! ### Equality -/

/-- Specification: two arrays hold the same photons: same places, same kept places, same positions and attributes at each place and
the same flux at the kept ones. -/
def SamePhot (p : PhotonArray N) (q : PhotonArray M) : Prop :=
  N = M ∧ ∀ (i : Fin N) (j : Fin M), (i : ℕ) = j →
    (p.ph i).nokeep = (q.ph j).nokeep ∧ (p.ph i).x = (q.ph j).x ∧ (p.ph i).y = (q.ph j).y ∧
    ((p.ph i).nokeep = false → (p.ph i).flux = (q.ph j).flux) ∧
    (p.ph i).dxdz = (q.ph j).dxdz ∧ (p.ph i).dydz = (q.ph j).dydz ∧ (p.ph i).wave = (q.ph j).wave ∧
    (p.ph i).pupU = (q.ph j).pupU ∧ (p.ph i).pupV = (q.ph j).pupV ∧ (p.ph i).time = (q.ph j).time

theorem flux_zero (p : PhotonArray N) (hN : N = 0) : ∃ f, p.flux = some f := by
  subst hN
  refine ⟨p.masked, ?_⟩
  unfold PhotonArray.flux
  rw [if_pos]
  simp [PhotonArray.numKeep]

/-- C102: the constructor succeeds exactly if the photons fit in the fixed size when there is one; the array then has that size
(without a fixed size that of the photons) and is the one described by `C102_init`. -/
theorem C102_init_size (size : Option ℕ) (n : ℕ) (a : PhotArgs (photNtot size n)) :
    (PhotonArray.init size n a = some (.initWith n a) ↔ ∀ s, size = some s → n ≤ s) ∧
    (PhotonArray.init size n a = none ↔ ∃ s, size = some s ∧ s < n) ∧
    (size = none → photNtot size n = n) ∧ (∀ s, size = some s → n ≤ s → photNtot size n = s) := by
  cases size with
  | none => simp [PhotonArray.init, photFits, photNtot]
  | some s =>
    refine ⟨?_, ?_, by simp, ?_⟩
    · by_cases h : n ≤ s
      · simp [PhotonArray.init, photFits, h]
      · simp [PhotonArray.init, photFits, not_le.1 h]
    · by_cases h : n ≤ s
      · simp [PhotonArray.init, photFits, h]
      · simp [PhotonArray.init, photFits, not_le.1 h]
    · intro t ht hn
      obtain rfl : s = t := Option.some.inj ht
      by_cases h0 : s = 0
      · subst h0
        simp only [photNtot, if_true]
        omega
      · simp [photNtot, h0]

/-- A smaller number of photons in a fixed size. -/
example (a : PhotArgs (photNtot (some 5) 3)) : PhotonArray.init (some 5) 3 a = some (.initWith 3 a) :=
  (C102_init_size (some 5) 3 a).1.2 (by simp)

/-- C102: arrays that keep a photon, and empty arrays, are equal exactly when they hold the same photons. -/
theorem C102_eq_partial (p : PhotonArray N) (q : PhotonArray M) (hk : 0 < p.numKeep ∨ N = 0) : p.eq q ↔ SamePhot p q := by
  by_cases hNM : N = M
  swap
  · exact ⟨fun h => absurd h.1 hNM, fun h => absurd h.1 hNM⟩
  subst hNM
  have hS : SamePhot p q ↔ ∀ i, (p.ph i).nokeep = (q.ph i).nokeep ∧ (p.ph i).x = (q.ph i).x ∧ (p.ph i).y = (q.ph i).y ∧
    ((p.ph i).nokeep = false → (p.ph i).flux = (q.ph i).flux) ∧
    (p.ph i).dxdz = (q.ph i).dxdz ∧ (p.ph i).dydz = (q.ph i).dydz ∧ (p.ph i).wave = (q.ph i).wave ∧
    (p.ph i).pupU = (q.ph i).pupU ∧ (p.ph i).pupV = (q.ph i).pupV ∧ (p.ph i).time = (q.ph i).time := by
    constructor
    · exact fun h i => h.2 i i rfl
    · exact fun h => ⟨rfl, fun i j hij => by rw [← Fin.ext hij]; exact h i⟩
  have hnk : (∀ i, (p.ph i).nokeep = (q.ph i).nokeep) → q.numKeep = p.numKeep := by
    intro h; unfold PhotonArray.numKeep; simp only [h]
  have hf : (∀ i, (p.ph i).nokeep = (q.ph i).nokeep) →
      (p.fluxEq q ↔ ∀ i, (p.ph i).nokeep = false → (p.ph i).flux = (q.ph i).flux) := by
    intro h
    unfold PhotonArray.fluxEq
    rcases hk with hk | hN
    · rw [flux_eq p hk, flux_eq q (by rw [hnk h]; exact hk), hnk h]
      simp only
      have hk' : (0 : ℝ) < p.numKeep := by exact_mod_cast hk
      constructor
      · intro e i hi
        have := congrFun e i
        have hN : (0 : ℝ) < N := by exact_mod_cast i.pos
        rw [← h i, hi] at this
        simp only [Bool.false_eq_true, if_false] at this
        exact mul_right_cancel₀ (by positivity) this
      · intro e; funext i
        rw [← h i]
        cases hi : (p.ph i).nokeep with
        | true => simp
        | false => simp only [Bool.false_eq_true, if_false]; rw [e i hi]
    · obtain ⟨f, e1⟩ := flux_zero p hN
      obtain ⟨g, e2⟩ := flux_zero q hN
      rw [e1, e2]
      subst hN
      simp only
      exact ⟨fun _ i => i.elim0, fun _ => funext fun i => i.elim0⟩
  rw [hS]
  constructor
  · rintro ⟨_, h1, h2, h3, h4, h5, h6, h7, h8, h9, h10⟩ i
    exact ⟨h4 i, h1 i, h2 i, (hf h4).1 h3 i, h5 i, h6 i, h7 i, h8 i, h9 i, h10 i⟩
  · intro h
    have h4 : ∀ i, (p.ph i).nokeep = (q.ph i).nokeep := fun i => (h i).1
    exact ⟨rfl, fun i => (h i).2.1, fun i => (h i).2.2.1, (hf h4).2 fun i => (h i).2.2.2.1, h4, fun i => (h i).2.2.2.2.1,
      fun i => (h i).2.2.2.2.2.1, fun i => (h i).2.2.2.2.2.2.1, fun i => (h i).2.2.2.2.2.2.2.1, fun i => (h i).2.2.2.2.2.2.2.2.1,
      fun i => (h i).2.2.2.2.2.2.2.2.2⟩

/-- Disagreement: an array none of whose photons is kept is not equal to any array, so not to its own copy: its fluxes read NaN
(`0 * inf`, photon_array.py:315-322) and NaN fluxes compare unequal. -/
theorem C102_counterexample_eq_none (p : PhotonArray N) (q : PhotonArray M) (hN : 0 < N) (hk : p.numKeep = 0) : ¬p.eq q := by
  rintro ⟨_, _, _, h, _⟩
  unfold PhotonArray.fluxEq at h
  have : p.flux = none := by
    unfold PhotonArray.flux
    rw [if_neg (by omega), if_pos hk]
  rw [this] at h
  exact h

/-- Disagreement: the flag set by `setCorrelated` is not compared (photon_array.py:849-862). -/
theorem C102_counterexample_eq_corr : ∃ p q : PhotonArray 1, p.eq q ∧ p.isCorr ≠ q.isCorr := by
  refine ⟨PhotonArray.blank none 1, { PhotonArray.blank none 1 with isCorr := true }, ?_, by simp [PhotonArray.blank]⟩
  refine (C102_eq_partial _ _ (Or.inl ?_)).2 ⟨rfl, fun i j hij => ?_⟩
  · have h := (C24_new none 1 rfl).1
    exact lt_of_lt_of_eq Nat.one_pos h.symm
  · have : i = j := Fin.ext hij
    subst this
    exact ⟨rfl, rfl, rfl, fun _ => rfl, rfl, rfl, rfl, rfl, rfl, rfl⟩

/-! ### Text -/

theorem given_if {c : Bool} {v : Fin N → Option ℝ} (h : c = true → anyFinite v = true) : Given (if c then some v else none) := by
  intro w hw _
  cases c with
  | false => simp at hw
  | true =>
    simp only [if_true, Option.some.injEq] at hw
    have := h rfl
    unfold anyFinite at this
    rw [← hw]; simpa using this

theorem pairRead_if {c : Bool} {v w : Fin N → Option ℝ} (h : c = false → ∀ i, v i = none) (i : Fin N) :
    PairRead (if c then some v else none) (if c then some w else none) i = v i := by
  cases c with
  | true => rfl
  | false => simp [PairRead, h rfl i]

theorem elim_if {c : Bool} {v : Fin N → Option ℝ} (h : c = false → ∀ i, v i = none) (i : Fin N) :
    ((if c then some v else none).elim none fun v => v i) = v i := by
  cases c with
  | true => rfl
  | false => simp [h rfl i]

/-- C102: the text of an array that keeps a photon is read back, outside of `fixed_photon_array_size` or inside with the size of the
array, as an array equal to it. -/
theorem C102_repr_partial (p : PhotonArray N) (hp : p.Paired) (hk : 0 < p.numKeep) (size : Option ℕ) (hs : size = none ∨ size = some N) :
    ∃ a, p.repr = some (N, a) ∧ photFits size N = true ∧ photNtot size N = N ∧ (PhotonArray.initWith N a).eq p := by
  obtain ⟨ha, hu⟩ := hp
  have hfl := flux_eq p hk
  obtain ⟨f, hf⟩ : ∃ f, p.flux = some f := ⟨_, hfl⟩
  rw [hf] at hfl
  injection hfl with hfl
  unfold PhotonArray.repr
  rw [hf]
  refine ⟨_, rfl, ?_, ?_, ?_⟩
  · rcases hs with rfl | rfl <;> simp [photFits]
  · rcases hs with rfl | rfl <;> simp [photNtot]
  obtain ⟨a, hadef⟩ : ∃ a : PhotArgs N, a =
    { x := some fun i => (p.ph i).x
      y := some fun i => (p.ph i).y
      flux := some f
      dxdz := if p.hasAngles then some fun i => (p.ph i).dxdz else none
      dydz := if p.hasAngles then some fun i => (p.ph i).dydz else none
      wave := if p.hasWave then some fun i => (p.ph i).wave else none
      pupU := if p.hasPupil then some fun i => (p.ph i).pupU else none
      pupV := if p.hasPupil then some fun i => (p.ph i).pupV else none
      time := if p.hasTime then some fun i => (p.ph i).time else none
      nokeep := some fun i => (p.ph i).nokeep } := ⟨_, rfl⟩
  rw [← hadef]
  have hA := hasAngles_eq p
  have hP := hasPupil_eq p
  have g1 : Given a.dxdz := by rw [hadef]; exact given_if fun h => by rw [hA, ← ha, Bool.or_self] at h; exact h
  have g2 : Given a.dydz := by rw [hadef]; exact given_if fun h => by rw [hA, ha, Bool.or_self] at h; exact h
  have g3 : Given a.pupU := by rw [hadef]; exact given_if fun h => by rw [hP, ← hu, Bool.or_self] at h; exact h
  have g4 : Given a.pupV := by rw [hadef]; exact given_if fun h => by rw [hP, hu, Bool.or_self] at h; exact h
  have hkk : keeps N a.nokeep = p.numKeep := by rw [hadef]; rfl
  have h := init_ph N a g1 g2 g3 g4
  refine (C102_eq_partial _ _ (Or.inl ?_)).2 ⟨rfl, fun i j hij => ?_⟩
  · have : (PhotonArray.initWith N a).numKeep = keeps N a.nokeep := by unfold PhotonArray.numKeep keeps; simp only [h]
    rw [this, hkk]; exact hk
  have : i = j := Fin.ext hij
  subst this
  rw [h, hkk]
  have hN : (0 : ℝ) < N := by exact_mod_cast i.pos
  have hk' : (0 : ℝ) < p.numKeep := by exact_mod_cast hk
  have n1 : p.hasAngles = false → (∀ i, (p.ph i).dxdz = none) ∧ ∀ i, (p.ph i).dydz = none := fun h => by
    rw [hA, Bool.or_eq_false_iff] at h; exact ⟨anyFinite_false _ h.1, anyFinite_false _ h.2⟩
  have n2 : p.hasPupil = false → (∀ i, (p.ph i).pupU = none) ∧ ∀ i, (p.ph i).pupV = none := fun h => by
    rw [hP, Bool.or_eq_false_iff] at h; exact ⟨anyFinite_false _ h.1, anyFinite_false _ h.2⟩
  rw [hadef]
  refine ⟨rfl, rfl, rfl, ?_, pairRead_if (fun h => (n1 h).1) i, pairRead_if (fun h => (n1 h).2) i,
    elim_if (fun h => anyFinite_false _ h) i, pairRead_if (fun h => (n2 h).1) i, pairRead_if (fun h => (n2 h).2) i,
    elim_if (fun h => anyFinite_false _ h) i⟩
  intro hm
  have hm' : (p.ph i).nokeep = false := hm
  simp only [Option.elim, if_neg hk.ne']
  rw [hfl]
  simp only [hm', Bool.false_eq_true, if_false]
  field_simp

example : (PhotonArray.blank none 3).Paired ∧ 0 < (PhotonArray.blank none 3).numKeep :=
  ⟨⟨rfl, rfl⟩, by rw [(C24_new none 3 rfl).1]; norm_num⟩

/-- Disagreement: the flag set by `setCorrelated` is not in the text. -/
theorem C102_counterexample_repr_corr : ∃ p q : PhotonArray 1, p.repr = q.repr ∧ p.isCorr ≠ q.isCorr :=
  ⟨PhotonArray.blank none 1, { PhotonArray.blank none 1 with isCorr := true }, rfl, by simp [PhotonArray.blank]⟩

/-! ### fromArrays -/

/-- C102: `fromArrays` gives an array that keeps all photons, with the given attributes and the given fluxes; inside of
`fixed_photon_array_size` it needs arrays of that size. -/
theorem C102_fromArrays {n : ℕ} (size : Option ℕ) (c : PhotCols n) (b : Bool) :
    (size = none ∨ size = some n → ∃ p, PhotonArray.fromArrays size c b = some p ∧ p.numKeep = n ∧ p.isCorr = b ∧ p.flux = some c.flux ∧
      ∀ i, (p.ph i).x = c.x i ∧ (p.ph i).y = c.y i ∧ (p.ph i).dxdz = c.dxdz.elim none (fun v => v i) ∧
        (p.ph i).dydz = c.dydz.elim none (fun v => v i) ∧ (p.ph i).wave = c.wave.elim none (fun v => v i) ∧
        (p.ph i).pupU = c.pupU.elim none (fun v => v i) ∧ (p.ph i).pupV = c.pupV.elim none (fun v => v i) ∧
        (p.ph i).time = c.time.elim none (fun v => v i)) ∧
    (∀ s, size = some s → s ≠ n → PhotonArray.fromArrays size c b = none) := by
  constructor
  · intro hs
    unfold PhotonArray.fromArrays
    rw [if_neg (by rcases hs with rfl | rfl <;> simp)]
    refine ⟨_, rfl, ?_, rfl, ?_, fun i => ?_⟩
    · rw [numKeep_eq]; exact cnt_ge n le_rfl
    · unfold PhotonArray.flux
      rw [if_pos (by symm; rw [numKeep_eq]; exact cnt_ge n le_rfl)]
      congr 1; funext i
      simp [PhotonArray.masked]
    · refine ⟨rfl, rfl, ?_, ?_, ?_, ?_, ?_, ?_⟩
      · cases c.dxdz <;> rfl
      · cases c.dydz <;> rfl
      · cases c.wave <;> rfl
      · cases c.pupU <;> rfl
      · cases c.pupV <;> rfl
      · cases c.time <;> rfl
  · rintro s rfl hne
    unfold PhotonArray.fromArrays
    rw [if_pos (by simpa using Ne.symm hne)]

/-- Disagreement: with one angle given, `fromArrays` leaves the other NaN where the constructor sets it to zero
(photon_array.py:198-207 against 340-356), so that the two ways to make the array give different arrays. -/
theorem C102_counterexample_pair {n : ℕ} (v : Fin (n + 1) → ℝ) :
    ∃ p, PhotonArray.fromArrays none ⟨v, v, v, some fun i => some (v i), none, none, none, none, none⟩ false = some p ∧
      ¬p.eq (PhotonArray.initWith (N := n + 1) (n + 1) { x := some v, y := some v, flux := some v, dxdz := some fun i => some (v i) }) := by
  have hg : Given (N := n + 1) (some fun i => some (v i)) := by
    intro w hw _
    injection hw with hw
    exact ⟨0, by rw [← hw]; rfl⟩
  have hn : ∀ m : ℕ, Given (N := m) none := fun m w hw => by simp at hw
  refine ⟨_, if_neg (by simp), ?_⟩
  rintro ⟨_, _, _, _, _, _, h, _⟩
  have := h 0
  rw [init_ph _ _ hg (hn _) (hn _) (hn _)] at this
  simp [PairRead] at this

/-! ### fixed_photon_array_size -/

/-- Specification: what a program makes, with the size in force at each place given by the innermost enclosing
`fixed_photon_array_size`, and whether it ends without an exception. -/
inductive Makes : Option ℕ → PProg → List (ℕ × ℕ) → Bool → Prop
  | skip (e) : Makes e .skip [] true
  | fail (e) : Makes e .fail [] false
  | new_free (n) : Makes none (.new n) [(n, n)] true
  | new_fixed (s n) : n ≤ s → Makes (some s) (.new n) [(s, n)] true
  | new_large (s n) : s < n → Makes (some s) (.new n) [] false
  | arr_free (n) : Makes none (.fromArr n) [(n, n)] true
  | arr_fixed (n) : Makes (some n) (.fromArr n) [(n, n)] true
  | arr_other (s n) : s ≠ n → Makes (some s) (.fromArr n) [] false
  | seq (e p q l m b) : Makes e p l true → Makes e q m b → Makes e (.seq p q) (l ++ m) b
  | seq_fail (e p q l) : Makes e p l false → Makes e (.seq p q) l false
  | fixed (e s p l b) : Makes s p l b → Makes e (.fixed s p) l b
  | catch_ok (e p q l) : Makes e p l true → Makes e (.catch p q) l true
  | catch_fail (e p q l m b) : Makes e p l false → Makes e q m b → Makes e (.catch p q) (l ++ m) b

/-- C102: whatever a program does, including exceptions raised and caught anywhere, the size is back to what it was before, and each
array was made with the size of the innermost enclosing `fixed_photon_array_size`. -/
theorem C102_scope (p : PProg) (g : Option ℕ) : (p.run g).size = g ∧ Makes g p (p.run g).made (p.run g).ok := by
  induction p generalizing g with
  | skip => exact ⟨rfl, .skip g⟩
  | fail => exact ⟨rfl, .fail g⟩
  | new n =>
    unfold PProg.run
    by_cases h : photFits g n = true
    · rw [if_pos h]
      refine ⟨rfl, ?_⟩
      simp only [(C24_new g n h).1]
      cases g with
      | none => exact .new_free n
      | some s =>
        have hs : n ≤ s := by simpa [photFits] using h
        have : photNtot (some s) n = s := by unfold photNtot; simp only; split <;> omega
        rw [this]; exact .new_fixed s n hs
    · rw [if_neg h]
      refine ⟨rfl, ?_⟩
      cases g with
      | none => simp [photFits] at h
      | some s => exact .new_large s n (by simpa [photFits] using h)
  | fromArr n =>
    obtain ⟨c, hc⟩ : ∃ c : PhotCols n, c = ⟨fun _ => 0, fun _ => 0, fun _ => 0, none, none, none, none, none, none⟩ := ⟨_, rfl⟩
    have h := C102_fromArrays g c false
    unfold PProg.run
    rw [← hc]
    cases g with
    | none =>
      obtain ⟨p, hp, hk, _⟩ := h.1 (Or.inl rfl)
      rw [hp]; simp only [hk]
      exact ⟨trivial, .arr_free n⟩
    | some s =>
      by_cases hs : s = n
      · subst hs
        obtain ⟨p, hp, hk, _⟩ := h.1 (Or.inr rfl)
        rw [hp]; simp only [hk]
        exact ⟨trivial, .arr_fixed s⟩
      · rw [h.2 s rfl hs]
        exact ⟨rfl, .arr_other s n hs⟩
  | seq p q hp hq =>
    obtain ⟨h1, h2⟩ := hp g
    unfold PProg.run
    cases hb : (p.run g).ok with
    | true =>
      rw [hb] at h2
      simp only [hb, if_true, h1]
      exact ⟨(hq g).1, .seq g p q _ _ _ h2 (hq g).2⟩
    | false =>
      simp only [Bool.false_eq_true, if_false, hb]
      rw [hb] at h2
      exact ⟨h1, .seq_fail g p q _ h2⟩
  | fixed s p hp =>
    exact ⟨rfl, .fixed g s p _ _ (hp s).2⟩
  | «catch» p q hp hq =>
    obtain ⟨h1, h2⟩ := hp g
    unfold PProg.run
    cases hb : (p.run g).ok with
    | true =>
      simp only [if_true, hb]
      rw [hb] at h2
      exact ⟨h1, .catch_ok g p q _ h2⟩
    | false =>
      rw [hb] at h2
      simp only [hb, Bool.false_eq_true, if_false, h1]
      exact ⟨(hq g).1, .catch_fail g p q _ _ _ h2 (hq g).2⟩

/-- The specification says one thing about each program. -/
theorem C102_scope_unique (p : PProg) (e : Option ℕ) (l m : List (ℕ × ℕ)) (b c : Bool) (h : Makes e p l b) (k : Makes e p m c) :
    l = m ∧ b = c := by
  induction h generalizing m c with
  | skip => cases k; exact ⟨rfl, rfl⟩
  | fail => cases k; exact ⟨rfl, rfl⟩
  | new_free => cases k; exact ⟨rfl, rfl⟩
  | new_fixed s n h => cases k with
    | new_fixed => exact ⟨rfl, rfl⟩
    | new_large _ _ h' => omega
  | new_large s n h => cases k with
    | new_fixed _ _ h' => omega
    | new_large => exact ⟨rfl, rfl⟩
  | arr_free => cases k; exact ⟨rfl, rfl⟩
  | arr_fixed n => cases k with
    | arr_fixed => exact ⟨rfl, rfl⟩
    | arr_other _ _ h' => exact absurd rfl h'
  | arr_other s n h => cases k with
    | arr_fixed => exact absurd rfl h
    | arr_other => exact ⟨rfl, rfl⟩
  | seq e p q l m' b h1 h2 i1 i2 => cases k with
    | seq _ _ _ l2 m2 _ k1 k2 =>
      obtain ⟨a1, _⟩ := i1 _ _ k1
      obtain ⟨a2, a3⟩ := i2 _ _ k2
      exact ⟨by rw [a1, a2], a3⟩
    | seq_fail _ _ _ _ k1 => exact absurd (i1 _ _ k1).2 (by simp)
  | seq_fail e p q l h1 i1 => cases k with
    | seq _ _ _ l2 m2 _ k1 k2 => exact absurd (i1 _ _ k1).2 (by simp)
    | seq_fail _ _ _ _ k1 => exact i1 _ _ k1
  | fixed e s p l b h i => cases k with
    | fixed _ _ _ _ _ k => exact i _ _ k
  | catch_ok e p q l h i => cases k with
    | catch_ok _ _ _ _ k => exact i _ _ k
    | catch_fail _ _ _ _ _ _ k1 k2 => exact absurd (i _ _ k1).2 (by simp)
  | catch_fail e p q l m' b h1 h2 i1 i2 => cases k with
    | catch_ok _ _ _ _ k => exact absurd (i1 _ _ k).2 (by simp)
    | catch_fail _ _ _ _ _ _ k1 k2 =>
      obtain ⟨a1, _⟩ := i1 _ _ k1
      obtain ⟨a2, a3⟩ := i2 _ _ k2
      exact ⟨by rw [a1, a2], a3⟩

/-- A nested block that fails inside of an outer one: the array made after it has the size of the outer block. -/
example : Makes none (.seq (.fixed (some 5) (.seq (.catch (.fixed (some 3) (.new 4)) .skip) (.new 2))) (.new 7)) [(5, 2), (7, 7)] true :=
  .seq _ _ _ [(5, 2)] _ _ (.fixed _ _ _ _ _ (.seq _ _ _ [] _ _ (.catch_fail _ _ _ [] [] _ (.fixed _ _ _ _ _ (.new_large _ _ (by norm_num)))
    (.skip _)) (.new_fixed _ _ (by norm_num)))) (.new_free _)

end JG
