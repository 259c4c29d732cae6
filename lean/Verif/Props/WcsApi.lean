import Verif.Model.WcsApi
import Mathlib.Tactic.Linarith
import Mathlib.Tactic.FieldSimp
import Mathlib.Tactic.Ring

/-!
Property C104: the public interface of the coordinate systems gives one answer whichever way it is asked.
-/

namespace JG.WApi

open JG

variable {C : Type}

/-! ### Specification -/

/-- The world position of an image position as documented: the class's function of the position from the image origin, plus the
world origin for a euclidean system. -/
def Sys.worldOf (w : Sys C) (c : Option C) (p : ℝ × ℝ) : ℝ × ℝ :=
  w.fwd c (p.1 - w.origin.1) (p.2 - w.origin.2) + (if w.celestial then 0 else w.world)

/-- The class inverts its own function. -/
def Sys.Invertible (w : Sys C) : Prop :=
  ∃ b, w.bwd = some b ∧ ∀ c x y, b c (w.fwd c x y).1 (w.fwd c x y).2 = (x, y)

/-- The colour a call is about: the one given, or the colour of the system. -/
def Sys.about (w : Sys C) (c : Option C) : Option C := c.or w.color

/-- The object for a world position. -/
def Sys.worldArg (w : Sys C) (q : ℝ × ℝ) : Arg := if w.celestial then .coord q else .pos q

/-- The result for a world position. -/
def Sys.worldOut (w : Sys C) (q : ℝ × ℝ) : Out := if w.celestial then .coord q else .pos q

/-- The units of a call with two numbers: none for a euclidean system, a unit (of nonzero size) or its name for a celestial one. -/
inductive Sys.Units (w : Sys C) : Option Arg → ℝ → Prop
  | euc : w.celestial = false → Sys.Units w none 1
  | unit (u : AngleUnit) : w.celestial = true → u.value ≠ 0 → Sys.Units w (some (.unit u)) u.value
  | text (s : List Char) (u : AngleUnit) : w.celestial = true → AngOp.unitFromName s = some u → u.value ≠ 0 →
      Sys.Units w (some (.text s)) u.value

/-- The calls that the documentation allows, and the kind of result. -/
inductive Legal (w : Sys C) (world : Bool) : List Arg → Kw C → Out → Prop
  | prof (p q i wo c f o) : (i = none ∨ wo = none) → Legal w world [.prof p] ⟨i, wo, c, none, f, o⟩ (.prof q)
  | shear (s t i wo c) : (i = none ∨ wo = none) → Legal w world [.shear s] ⟨i, wo, c, none, none, none⟩ (.shear t)
  | toWorld (p q c) : world = true → Legal w world [.pos p] { color := c } (w.worldOut q)
  | toImage (p q c) : world = false → Legal w world [w.worldArg q] { color := c } (.pos p)
  | pair (x y q c u) : (w.celestial = false ∧ u = none ∨ w.celestial = true ∧ (∃ v, u = some (.unit v)) ∨
      w.celestial = true ∧ ∃ s v, u = some (.text s) ∧ AngOp.unitFromName s = some v) →
      Legal w world [.num x, .num y] { color := c, units := u } (.pair q)

/-- The same system with another colour. -/
def Sys.withColor (w : Sys C) (c : Option C) : Sys C := { w with color := c }

/-! ### Helpers -/

theorem col_about (w : Sys C) (c : Option C) : w.col c = w.about c := by
  cases c <;> simp [Sys.col, Sys.about]

theorem about_about (w : Sys C) (c : Option C) : w.about (w.about c) = w.about c := by
  cases c <;> simp [Sys.about]

theorem fwdAt_worldOf (w : Sys C) (c : Option C) (p : ℝ × ℝ) : w.fwdAt c p = w.worldOf c p := by
  unfold Sys.fwdAt Sys.worldOf
  cases w.celestial <;> simp [Prod.ext_iff]

theorem bwdAt_worldOf (w : Sys C) (h : w.Invertible) (c : Option C) (p : ℝ × ℝ) : w.bwdAt c (w.worldOf c p) = .ok p := by
  obtain ⟨b, hb, hf⟩ := h
  unfold Sys.bwdAt Sys.worldOf
  rw [hb]
  cases w.celestial <;> simp [hf]

theorem posToImage_worldOf (w : Sys C) (h : w.Invertible) (c : Option C) (p : ℝ × ℝ) :
    w.posToImage (w.worldArg (w.worldOf (w.about c) p)) c = .ok p := by
  have := bwdAt_worldOf w h (w.about c) p
  unfold Sys.posToImage Sys.worldArg
  rw [col_about]
  cases hc : w.celestial <;> simp [this]

theorem bind_ok {α β : Type} {x : Except Err α} {f : α → Except Err β} {r : β} (h : x.bind f = .ok r) :
    ∃ a, x = .ok a ∧ f a = .ok r := by
  cases x with
  | error e => simp [Except.bind] at h
  | ok a => exact ⟨a, rfl, h⟩

theorem map_ok {α β : Type} {x : Except Err α} {f : α → β} {r : β} (h : x.map f = .ok r) : ∃ a, x = .ok a ∧ f a = r := by
  cases x with
  | error e => simp [Except.map] at h
  | ok a => exact ⟨a, rfl, by simpa [Except.map] using h⟩

theorem inner_ok {α : Type} {f : α → Out} {o : Option α} {r : Out} (h : Sys.inner f o = .ok r) : ∃ a, r = f a := by
  cases o with
  | none => simp [Sys.inner] at h
  | some a => exact ⟨a, by simpa [Sys.inner] using h.symm⟩

theorem local_one (w : Sys C) {i wo : Option Arg} {c : Option C} {l : LocalWCS} (h : w.localW i wo c = .ok l) : i = none ∨ wo = none := by
  cases i <;> cases wo <;> simp_all [Sys.localW]

theorem legal_prof (w : Sys C) (b : Bool) (p : Prof) (k : Kw C) (F : LocalWCS → Option Prof) (r : Out)
    (h : (if k.units.isSome then .error .type
      else (w.localW k.image k.world (w.col k.color)).bind fun l => Sys.inner .prof (F l)) = .ok r) : Legal w b [.prof p] k r := by
  obtain ⟨ki, kw, kc, ku, kf, ko⟩ := k
  cases ku with
  | some _ => simp at h
  | none =>
    obtain ⟨l, hl, h2⟩ := bind_ok (by simpa using h)
    obtain ⟨a, rfl⟩ := inner_ok h2
    exact Legal.prof p a ki kw kc kf ko (local_one w hl)

theorem legal_shear (w : Sys C) (b : Bool) (s : Shear) (k : Kw C) (F : LocalWCS → Option Shear) (r : Out)
    (h : (if k.units.isSome || k.flux.isSome || k.offset.isSome then .error .type
      else (w.localW k.image k.world (w.col k.color)).bind fun l => Sys.inner .shear (F l)) = .ok r) : Legal w b [.shear s] k r := by
  obtain ⟨ki, kw, kc, ku, kf, ko⟩ := k
  cases ku <;> cases kf <;> cases ko <;> simp at h
  obtain ⟨l, hl, h2⟩ := bind_ok h
  obtain ⟨a, rfl⟩ := inner_ok h2
  exact Legal.shear s a ki kw kc (local_one w hl)

theorem units_ok {u : Option Arg} {v : ℝ} (h : Sys.units u = .ok v) :
    (∃ v, u = some (.unit v)) ∨ ∃ s v, u = some (.text s) ∧ AngOp.unitFromName s = some v := by
  rcases u with _ | a
  · simp [Sys.units] at h
  · cases a <;> simp [Sys.units] at h
    · rename_i s
      cases hs : AngOp.unitFromName s with
      | none => simp [hs] at h
      | some v => exact .inr ⟨s, v, rfl, hs⟩
    · exact .inl ⟨_, rfl⟩

theorem xyToWorld_ok (w : Sys C) {a b : Arg} {u : Option Arg} {c : Option C} {r : Out} (h : w.xyToWorld a b u c = .ok r) :
    ∃ x y q, a = .num x ∧ b = .num y ∧ r = .pair q ∧ (w.celestial = true → ∃ v, Sys.units u = .ok v) := by
  unfold Sys.xyToWorld at h
  cases hc : w.celestial with
  | false =>
    cases a <;> cases b <;> simp [hc] at h
    exact ⟨_, _, _, rfl, rfl, h.symm, by simp⟩
  | true =>
    simp only [hc, if_true] at h
    obtain ⟨v, hv, h2⟩ := bind_ok h
    cases a <;> cases b <;> simp at h2
    exact ⟨_, _, _, rfl, rfl, h2.symm, fun _ => ⟨v, hv⟩⟩

theorem worldToxy_ok (w : Sys C) {a b : Arg} {u : Option Arg} {c : Option C} {r : Out} (h : w.worldToxy a b u c = .ok r) :
    ∃ x y q, a = .num x ∧ b = .num y ∧ r = .pair q ∧ (w.celestial = true → ∃ v, Sys.units u = .ok v) := by
  unfold Sys.worldToxy at h
  cases hc : w.celestial with
  | false =>
    cases a <;> cases b <;> cases hb : w.bwd <;> simp [hc, hb] at h
    exact ⟨_, _, _, rfl, rfl, h.symm, by simp⟩
  | true =>
    simp only [hc, if_true] at h
    obtain ⟨v, hv, h2⟩ := bind_ok h
    cases a <;> cases b <;> cases hb : w.bwd <;> simp [hb] at h2
    exact ⟨_, _, _, rfl, rfl, h2.symm, fun _ => ⟨v, hv⟩⟩

theorem legal_pair (w : Sys C) (t : Bool) {a b : Arg} {u : Option Arg} {c : Option C} {r : Out}
    (h : ∃ x y q, a = .num x ∧ b = .num y ∧ r = .pair q ∧ (w.celestial = true → ∃ v, Sys.units u = .ok v))
    (hu : w.celestial = false → u = none) : Legal w t [a, b] { color := c, units := u } r := by
  obtain ⟨x, y, q, rfl, rfl, rfl, hv⟩ := h
  refine Legal.pair x y q c u ?_
  cases hc : w.celestial with
  | false => exact .inl ⟨rfl, hu hc⟩
  | true =>
    obtain ⟨v, hv⟩ := hv hc
    rcases units_ok hv with h | h
    · exact .inr (.inl ⟨rfl, h⟩)
    · exact .inr (.inr ⟨rfl, h⟩)

theorem posToImage_ok (w : Sys C) {a : Arg} {c : Option C} {p : ℝ × ℝ} (h : w.posToImage a c = .ok p) : ∃ q, a = w.worldArg q := by
  unfold Sys.posToImage at h
  unfold Sys.worldArg
  cases hc : w.celestial <;> cases a <;> simp_all

/-! ### Theorems -/

/-- C104: `toWorld` of a position is the world position of the class, of the kind that the system has. -/
theorem C104_position (w : Sys C) (p : ℝ × ℝ) (c : Option C) :
    w.toWorld [.pos p] { color := c } = .ok (w.worldOut (w.worldOf (w.about c) p)) := by
  simp [Sys.toWorld, Sys.posToWorld, Sys.worldOut, col_about, fwdAt_worldOf]

/-- C104: `toWorld` of two numbers is the same position, in the units asked for. -/
theorem C104_numbers (w : Sys C) (x y : ℝ) (c : Option C) (u : Option Arg) (v : ℝ) (h : w.Units u v) :
    ∃ q : ℝ × ℝ, w.toWorld [.num x, .num y] { color := c, units := u } = .ok (.pair q) ∧
      w.worldOf (w.about c) (x, y) = (q.1 * v, q.2 * v) := by
  cases h with
  | euc hc => simp [Sys.toWorld, Sys.xyToWorld, Sys.worldOf, col_about, hc, Prod.ext_iff]
  | unit u hc hu =>
    refine ⟨_, by simp [Sys.toWorld, Sys.xyToWorld, Sys.units, col_about, hc, Except.bind]; rfl, ?_⟩
    simp [Sys.worldOf, hc, hu]
  | text s u hc hs hu =>
    refine ⟨_, by simp [Sys.toWorld, Sys.xyToWorld, Sys.units, col_about, hc, hs, Except.bind]; rfl, ?_⟩
    simp [Sys.worldOf, hc, hu]

/-- C104: `toImage` undoes `toWorld`, for positions, whenever the class inverts its function. -/
theorem C104_back (w : Sys C) (h : w.Invertible) (p : ℝ × ℝ) (c : Option C) :
    w.toImage [w.worldArg (w.worldOf (w.about c) p)] { color := c } = .ok (.pos p) := by
  have := posToImage_worldOf w h c p
  unfold Sys.worldArg at this ⊢
  cases hc : w.celestial <;> simp_all [Sys.toImage, Except.map]

/-- C104: `toImage` undoes `toWorld` for two numbers, in any units. -/
theorem C104_back_numbers (w : Sys C) (h : w.Invertible) (x y : ℝ) (c : Option C) (u : Option Arg) (v : ℝ) (hu : w.Units u v)
    (q : ℝ × ℝ) (hq : w.toWorld [.num x, .num y] { color := c, units := u } = .ok (.pair q)) :
    w.toImage [.num q.1, .num q.2] { color := c, units := u } = .ok (.pair (x, y)) := by
  obtain ⟨q', h1, h2⟩ := C104_numbers w x y c u v hu
  rw [h1] at hq
  cases hq
  obtain ⟨b, hb, hf⟩ := h
  have hw := hf (w.about c) (x - w.origin.1) (y - w.origin.2)
  unfold Sys.worldOf at h2
  rw [Prod.ext_iff] at h2
  cases hu with
  | euc hc =>
    simp [hc] at h2
    simp [Sys.toImage, Sys.worldToxy, col_about, hc, hb, ← h2.1, ← h2.2, hw]
  | unit u hc _ =>
    simp [hc] at h2
    simp [Sys.toImage, Sys.worldToxy, Sys.units, col_about, hc, hb, ← h2.1, ← h2.2, hw, Except.bind]
  | text s u hc hs _ =>
    simp [hc] at h2
    simp [Sys.toImage, Sys.worldToxy, Sys.units, col_about, hc, hs, hb, ← h2.1, ← h2.2, hw, Except.bind]

/-- C104: a call that succeeds is one of the documented forms, and its result is of the documented kind. -/
theorem C104_legal_world (w : Sys C) (args : List Arg) (k : Kw C) (r : Out) (h : w.toWorld args k = .ok r) : Legal w true args k r := by
  obtain ⟨ki, kw, kc, ku, kf, ko⟩ := k
  match args, h with
  | [.prof p], h => exact legal_prof w true p ⟨ki, kw, kc, ku, kf, ko⟩ _ r h
  | [.shear s], h => exact legal_shear w true s ⟨ki, kw, kc, ku, kf, ko⟩ _ r h
  | [.pos p], h =>
    cases ki <;> cases kw <;> cases ku <;> cases kf <;> cases ko <;> simp [Sys.toWorld, Sys.posToWorld] at h
    rw [← h]
    exact Legal.toWorld p _ kc rfl
  | [.coord p], h => simp [Sys.toWorld, Sys.posToWorld] at h
  | [.num p], h => simp [Sys.toWorld, Sys.posToWorld] at h
  | [.text p], h => simp [Sys.toWorld, Sys.posToWorld] at h
  | [.unit p], h => simp [Sys.toWorld, Sys.posToWorld] at h
  | [.other], h => simp [Sys.toWorld, Sys.posToWorld] at h
  | [a, b], h =>
    cases ki <;> cases kw <;> cases kf <;> cases ko <;> simp [Sys.toWorld] at h
    split_ifs at h with hu
    exact legal_pair w true (xyToWorld_ok w h) fun hc => by cases ku <;> simp_all

/-- C104: the same for `toImage`. -/
theorem C104_legal_image (w : Sys C) (args : List Arg) (k : Kw C) (r : Out) (h : w.toImage args k = .ok r) : Legal w false args k r := by
  obtain ⟨ki, kw, kc, ku, kf, ko⟩ := k
  have one : ∀ a, (if ki.isSome || kw.isSome || ku.isSome || kf.isSome || ko.isSome then .error .type
      else (w.posToImage a kc).map Out.pos) = .ok r → Legal w false [a] ⟨ki, kw, kc, ku, kf, ko⟩ r := by
    intro a h
    cases ki <;> cases kw <;> cases ku <;> cases kf <;> cases ko <;> simp at h
    obtain ⟨p, hp, rfl⟩ := map_ok h
    obtain ⟨q, rfl⟩ := posToImage_ok w hp
    exact Legal.toImage p q kc rfl
  match args, h with
  | [.prof p], h => exact legal_prof w false p ⟨ki, kw, kc, ku, kf, ko⟩ _ r h
  | [.shear s], h => exact legal_shear w false s ⟨ki, kw, kc, ku, kf, ko⟩ _ r h
  | [.pos p], h => exact one _ h
  | [.coord p], h => exact one _ h
  | [.num p], h => exact one _ h
  | [.text p], h => exact one _ h
  | [.unit p], h => exact one _ h
  | [.other], h => exact one _ h
  | [a, b], h =>
    cases ki <;> cases kw <;> cases kf <;> cases ko <;> simp [Sys.toImage] at h
    split_ifs at h with hu
    exact legal_pair w false (worldToxy_ok w h) fun hc => by cases ku <;> simp_all

/-- C104: `local` at a world position is `local` at the image position it belongs to. -/
theorem C104_local (w : Sys C) (h : w.Invertible) (p : ℝ × ℝ) (c : Option C) :
    w.localW none (some (w.worldArg (w.worldOf (w.about c) p))) c = w.localW (some (.pos p)) none c := by
  unfold Sys.localW
  rw [col_about]
  have := posToImage_worldOf w h (w.about c) p
  rw [about_about] at this
  simp [this, Except.bind]

/-- C104: `local` refuses two positions, and anything that is not a position; without a position only a uniform system has a
local one. -/
theorem C104_local_refused (w : Sys C) (a q : Arg) (c : Option C) :
    w.localW (some a) (some q) c = .error .both ∧
    ((∀ p, a ≠ .pos p) → w.localW (some a) none c = .error .type) ∧
    ((∀ p, q ≠ w.worldArg p) → w.localW none (some q) c = .error .type) ∧
    (∀ l, w.locs = .inl l → w.localW none none c = .ok l) ∧
    (∀ f, w.locs = .inr f → w.localW none none c = .error .type) := by
  refine ⟨rfl, ?_, ?_, ?_, ?_⟩
  · intro h
    cases a <;> simp_all [Sys.localW]
  · intro h
    unfold Sys.worldArg at h
    cases hc : w.celestial <;> cases q <;> simp_all [Sys.localW, Sys.posToImage, Except.bind]
  · intro l hl
    simp [Sys.localW, Sys.locAt, hl]
  · intro f hf
    simp [Sys.localW, Sys.locAt, hf]

/-- C104: profiles and shears are carried by the local system at the position given, which may be named in image or world
coordinates. -/
theorem C104_objects (w : Sys C) (h : w.Invertible) (P : ℝ × ℝ) (c : Option C) (p : Prof) (s : Shear) (f : Option ℝ)
    (o : Option (ℝ × ℝ)) :
    (∀ l, w.localW (some (.pos P)) none c = .ok l →
      (∀ q, l.profileToWorld p (f.getD 1) (o.getD (0, 0)) = some q →
        w.toWorld [.prof p] { image := some (.pos P), color := c, flux := f, offset := o } = .ok (.prof q)) ∧
      (∀ q, l.profileToImage p (f.getD 1) (o.getD (0, 0)) = some q →
        w.toImage [.prof p] { image := some (.pos P), color := c, flux := f, offset := o } = .ok (.prof q)) ∧
      (∀ t, l.shearToWorld s = some t → w.toWorld [.shear s] { image := some (.pos P), color := c } = .ok (.shear t)) ∧
      (∀ t, l.shearToImage s = some t → w.toImage [.shear s] { image := some (.pos P), color := c } = .ok (.shear t))) ∧
    (w.toWorld [.prof p] { world := some (w.worldArg (w.worldOf (w.about c) P)), color := c, flux := f, offset := o } =
      w.toWorld [.prof p] { image := some (.pos P), color := c, flux := f, offset := o }) ∧
    (w.toImage [.prof p] { world := some (w.worldArg (w.worldOf (w.about c) P)), color := c, flux := f, offset := o } =
      w.toImage [.prof p] { image := some (.pos P), color := c, flux := f, offset := o }) ∧
    (w.toWorld [.shear s] { world := some (w.worldArg (w.worldOf (w.about c) P)), color := c } =
      w.toWorld [.shear s] { image := some (.pos P), color := c }) ∧
    (w.toImage [.shear s] { world := some (w.worldArg (w.worldOf (w.about c) P)), color := c } =
      w.toImage [.shear s] { image := some (.pos P), color := c }) := by
  have e : ∀ i wo, w.localW i wo (w.about c) = w.localW i wo c := by
    intro i wo
    simp [Sys.localW, col_about, about_about]
  have hl := C104_local w h P c
  refine ⟨fun l hl => ⟨?_, ?_, ?_, ?_⟩, ?_, ?_, ?_, ?_⟩
  · intro q hq
    simp [Sys.toWorld, col_about, e, hl, Except.bind, hq, Sys.inner]
  · intro q hq
    simp [Sys.toImage, col_about, e, hl, Except.bind, hq, Sys.inner]
  · intro q hq
    simp [Sys.toWorld, col_about, e, hl, Except.bind, hq, Sys.inner]
  · intro q hq
    simp [Sys.toImage, col_about, e, hl, Except.bind, hq, Sys.inner]
  all_goals simp [Sys.toWorld, Sys.toImage, col_about, e, hl]

/-- C104: a colour given to a call acts as the colour of the system, in every method. -/
theorem C104_color (isLocal : Bool) (w : Sys C) (c : C) (args : List Arg) (k : Kw C) (i wo : Option Arg) :
    w.toWorld args { k with color := some c } = (w.withColor (some c)).toWorld args { k with color := none } ∧
    w.toImage args { k with color := some c } = (w.withColor (some c)).toImage args { k with color := none } ∧
    w.localW i wo (some c) = (w.withColor (some c)).localW i wo none ∧
    w.jacobian i wo (some c) = (w.withColor (some c)).jacobian i wo none ∧
    w.affine isLocal i wo (some c) = (w.withColor (some c)).affine isLocal i wo none := by
  exact ⟨rfl, rfl, rfl, rfl, rfl⟩

/-- C104: without a colour the colour of the system is used. -/
theorem C104_default_color (isLocal : Bool) (w : Sys C) (args : List Arg) (k : Kw C) (i wo : Option Arg) :
    w.toWorld args { k with color := none } = w.toWorld args { k with color := w.color } ∧
    w.toImage args { k with color := none } = w.toImage args { k with color := w.color } ∧
    w.localW i wo none = w.localW i wo w.color ∧
    w.jacobian i wo none = w.jacobian i wo w.color ∧
    w.affine isLocal i wo none = w.affine isLocal i wo w.color := by
  have h0 : w.col none = w.color := rfl
  have h1 : w.col w.color = w.color := by
    rw [col_about]
    cases h : w.color <;> simp [Sys.about, h]
  refine ⟨?_, ?_, ?_, ?_, ?_⟩
  · simp only [Sys.toWorld, Sys.posToWorld, Sys.xyToWorld, h0, h1]
  · simp only [Sys.toImage, Sys.posToImage, Sys.worldToxy, h0, h1]
  · simp only [Sys.localW, h0, h1]
  · simp only [Sys.jacobian, h0, h1]
  · simp only [Sys.affine, h0, h1]

/-- C104: `affine` at a position is the linear system that agrees with this one there, with the local Jacobian; a celestial system
has the position at the world origin.  It may be asked with an image or a world position. -/
theorem C104_affine (isLocal : Bool) (w : Sys C) (h : w.Invertible) (p : ℝ × ℝ) (c : Option C) :
    w.affine isLocal none (some (w.worldArg (w.worldOf (w.about c) p))) c = w.affine isLocal (some (.pos p)) none c ∧
    ∃ J A, w.jacobian (some (.pos p)) none c = .ok J ∧ w.affine isLocal (some (.pos p)) none c = .ok A ∧
      ∀ d : ℝ × ℝ, A.toWorld (p + d) =
        (if w.celestial then 0 else w.worldOf (w.about c) p) + (J.a * d.1 + J.b * d.2, J.c * d.1 + J.d * d.2) := by
  have ea : w.about (w.about c) = w.about c := about_about w c
  have hJ : ∃ l, w.localW (some (.pos p)) none (w.about c) = .ok l := by
    cases hl : w.locs <;> simp [Sys.localW, Sys.locAt, hl]
  obtain ⟨l, hl⟩ := hJ
  have hl' := C104_local w h p (w.about c)
  rw [ea, hl] at hl'
  have hb := C104_back w h p (w.about c)
  rw [ea] at hb
  have hj : w.jacobian (some (.pos p)) none c = .ok l.toJac := by
    simp [Sys.jacobian, col_about, hl, Except.map]
  have hj2 : w.jacobian (some (.pos p)) none (w.about c) = .ok l.toJac := by
    simp [Sys.jacobian, col_about, hl, ea, Except.map]
  have hj3 : w.jacobian none (some (w.worldArg (w.worldOf (w.about c) p))) (w.about c) = .ok l.toJac := by
    simp [Sys.jacobian, col_about, hl', ea, Except.map]
  have hp := C104_position w p (w.about c)
  rw [ea] at hp
  refine ⟨?_, l.toJac, ?_⟩
  · simp only [Sys.affine, col_about, hj2, hj3, Except.bind, Sys.affineImage, hb, Sys.asPos]
    cases hc : w.celestial with
    | true => simp
    | false => simp [Sys.affineWorld, hp, Sys.worldArg, Sys.worldOut, hc, Except.bind, Except.map, Sys.asPos]
  · cases hc : w.celestial with
    | true =>
      refine ⟨_, hj, by simp [Sys.affine, col_about, hj2, Except.bind, Sys.affineImage, hc]; rfl, fun d => ?_⟩
      cases isLocal <;> simp [WCS.shiftOrigin, WCS.newOrigin, WCS.toWorld, WCS.origin, WCS.worldOrigin, WCS.localWCS, LocalWCS.uv]
    | false =>
      refine ⟨_, hj, by
        simp [Sys.affine, col_about, hj2, Except.bind, Sys.affineImage, hc, Sys.affineWorld, hp, Sys.worldOut, Except.map,
          Sys.asPos]; rfl, fun d => ?_⟩
      cases isLocal <;> simp [WCS.shiftOrigin, WCS.newOrigin, WCS.toWorld, WCS.origin, WCS.worldOrigin, WCS.localWCS, LocalWCS.uv, add_comm]

/-- C104: `shiftOrigin` of a celestial system moves the image by the shift; it refuses a world origin and what is not a position. -/
theorem C104_shift_celestial (w : Sys C) (hc : w.celestial = true) (o : Arg) (wo : Option Arg) (w' : Sys C)
    (h : w.shiftOriginCel o wo = .ok w') :
    wo = none ∧ ∃ s, o = .pos s ∧ ∀ c p, w'.worldOf c (p + s) = w.worldOf c p := by
  cases o <;> cases wo <;> simp [Sys.shiftOriginCel] at h
  rename_i s
  subst h
  refine ⟨rfl, s, rfl, fun c p => ?_⟩
  have e1 : p.1 + s.1 - (s.1 + w.origin.1) = p.1 - w.origin.1 := by ring
  have e2 : p.2 + s.2 - (s.2 + w.origin.2) = p.2 - w.origin.2 := by ring
  simp [Sys.worldOf, hc, e1, e2]

/-- C104: `shiftOrigin` of a euclidean system moves the image by the shift, or carries the new origin to the world origin given. -/
theorem C104_shift_euclidean (w : Sys C) (hc : w.celestial = false) (o : Arg) (wo : Option Arg) (c : Option C) (w' : Sys C)
    (h : w.shiftOriginEuc o wo c = .ok w') :
    ∃ s, o = .pos s ∧ (wo = none ∧ (∀ c' p, w'.worldOf c' (p + s) = w.worldOf c' p) ∨
      ∃ q, wo = some (.pos q) ∧ ∀ p, w'.worldOf (w.about c) (s + p) - q = w.worldOf (w.about c) (w.origin + p) -
        w.worldOf (w.about c) w.origin) := by
  cases o <;> rcases wo with _ | a <;> simp [Sys.shiftOriginEuc] at h
  · rename_i s
    subst h
    refine ⟨s, rfl, .inl ⟨rfl, fun c p => ?_⟩⟩
    have e1 : p.1 + s.1 - (s.1 + w.origin.1) = p.1 - w.origin.1 := by ring
    have e2 : p.2 + s.2 - (s.2 + w.origin.2) = p.2 - w.origin.2 := by ring
    simp [Sys.worldOf, hc, e1, e2]
  · rename_i s
    cases a <;> simp at h
    rename_i q
    subst h
    refine ⟨s, rfl, .inr ⟨q, rfl, fun p => ?_⟩⟩
    rw [col_about, fwdAt_worldOf]
    simp [Sys.worldOf, hc, Prod.ext_iff]
    constructor <;> ring

/-! ### A concrete system -/

/-- A euclidean system whose magnification depends on the colour, twice as large at colour 1, and its celestial sister. -/
noncomputable def exSys (cel : Bool) : Sys ℕ where
  celestial := cel
  fwd c x y := (((c.getD 0 : ℕ) + 1) * x, 3 * y)
  bwd := some fun c u v => (u / ((c.getD 0 : ℕ) + 1), v / 3)
  origin := (10, 20)
  world := (5, 7)
  locs := .inr fun c _ => ⟨(c.getD 0 : ℕ) + 1, 0, 0, 3⟩
  color := some 1

theorem exSys_inv (cel : Bool) : (exSys cel).Invertible :=
  ⟨_, rfl, fun c x y => by
    have : ((c.getD 0 : ℕ) : ℝ) + 1 ≠ 0 := by positivity
    simp only [exSys, Prod.mk.injEq]
    constructor
    · field_simp
    · ring⟩

example : (exSys false).toWorld [.pos (11, 21)] {} = .ok (.pos (7, 10)) := by
  rw [C104_position]
  simp [exSys, Sys.worldOut, Sys.worldOf, Sys.about]
  norm_num

example : (exSys true).toWorld [.pos (11, 21)] { color := some 3 } = .ok (.coord (4, 3)) := by
  rw [C104_position]
  simp [exSys, Sys.worldOut, Sys.worldOf, Sys.about]
  norm_num

example : (exSys false).toImage [.pos (7, 10)] {} = .ok (.pos (11, 21)) := by
  have h := C104_back (exSys false) (exSys_inv false) (11, 21) none
  have e : (exSys false).worldArg ((exSys false).worldOf ((exSys false).about none) (11, 21)) = .pos (7, 10) := by
    simp [exSys, Sys.worldArg, Sys.worldOf, Sys.about]
    norm_num
  rwa [e] at h

example : (exSys true).Units (some (.unit ⟨2⟩)) 2 := .unit ⟨2⟩ rfl two_ne_zero

example : (exSys true).toWorld [.num 11, .num 21] {} = .error .type := by
  simp [exSys, Sys.toWorld, Sys.xyToWorld, Sys.units, Except.bind]

example : (exSys true).shiftOriginCel (.pos (1, 1)) none = .ok { exSys true with origin := (1, 1) + (10, 20) } := rfl

example : ∃ w', (exSys false).shiftOriginEuc (.pos (1, 1)) (some (.pos (2, 2))) none = .ok w' := ⟨_, rfl⟩

end JG.WApi
