import Verif.Model.Place
import Mathlib.Tactic.Linarith
import Mathlib.Tactic.Ring

/-!
Property C31: `drawImage` puts the object where it was asked to.
-/

namespace JG

/-- Specification: the position (in the coordinates of the returned image) where the origin of the object has to be:
the given centre, or the true centre of the pixel grid, or the centre pixel (the upper right one of the middle pixels),
plus the offset. -/
noncomputable def requestedPos (a : PlaceArgs) (b : Bounds ℤ) : ℝ × ℝ :=
  let xmax := b.xmin + b.deltax - 1
  let ymax := b.ymin + b.deltay - 1
  let base : ℝ × ℝ := match a.center with
    | some c => (c.x, c.y)
    | none =>
      if a.useTrue then (((b.xmin : ℝ) + xmax) / 2, ((b.ymin : ℝ) + ymax) / 2)
      else ((((b.xmin + xmax + 1) / 2 : ℤ) : ℝ), (((b.ymin + ymax + 1) / 2 : ℤ) : ℝ))
  (base.1 + a.offset.x, base.2 + a.offset.y)

/-- Specification: the arguments ask for this image rectangle `(xmin, nx, ymin, ny)`, where they determine it. -/
def requestedRect (a : PlaceArgs) (b : Bounds ℤ) : Prop :=
  (∀ i, a.image = some i → i.defined = true → (b.xmin, b.deltax, b.ymin, b.deltay) = (i.xmin, i.deltax, i.ymin, i.deltay)) ∧
  (∀ i, a.bounds = some i → (b.xmin, b.deltax, b.ymin, b.deltay) = (i.xmin, i.deltax, i.ymin, i.deltay)) ∧
  (∀ nx ny, a.nx = some nx → a.ny = some ny → b.deltax = nx ∧ b.deltay = ny) ∧
  (∀ nx ny, a.nx = some nx → a.ny = some ny → a.center = none → b.xmin = 1 ∧ b.ymin = 1)

theorem centerI_eq {b : Bounds ℤ} {c : Pos ℤ} (h : b.centerI = some c) :
    b.defined = true ∧ c = ⟨b.xmin + b.deltax / 2, b.ymin + b.deltay / 2⟩ := by
  unfold Bounds.centerI at h
  cases hd : b.defined <;> simp [hd] at h
  exact ⟨rfl, h.symm⟩

theorem setCenterB_eq {b b' : Bounds ℤ} {c : Pos ℤ} (h : setCenterB b c = some b') :
    b'.xmin = c.x - b.deltax / 2 ∧ b'.ymin = c.y - b.deltay / 2 ∧ b'.deltax = b.deltax ∧ b'.deltay = b.deltay := by
  unfold setCenterB at h
  cases hc : b.centerI with
  | none => simp [hc] at h
  | some o =>
    obtain ⟨-, rfl⟩ := centerI_eq hc
    simp only [hc, Option.map_some, Option.some.injEq] at h
    subst h
    simp [Bounds.shift, Bounds.finish]
    constructor <;> ring

/-- If the bounds known beforehand are the final bounds, the offset is adjusted correctly. -/
theorem adjust_known (a : PlaceArgs) (b : Bounds ℤ) (c : Pos ℤ) (h : b.centerI = some c) :
    ((c.x : ℝ) + (adjustOffset b a).x, (c.y : ℝ) + (adjustOffset b a).y) = requestedPos a b := by
  obtain ⟨hd, hc⟩ := centerI_eq h
  unfold adjustOffset requestedPos
  cases hcen : a.center with
  | some p => simp only [h]; ext <;> simp only <;> ring
  | none =>
    have par : ∀ x d : ℤ, ((x + d / 2 : ℤ) : ℝ) - 1 / 2 * ((d + 1) % 2 : ℤ) = ((x : ℝ) + (x + d - 1 : ℤ)) / 2 := by
      intro x d
      rcases Int.emod_two_eq_zero_or_one d with hm | hm
      · have h1 : (d + 1) % 2 = 1 := by omega
        obtain ⟨k, rfl⟩ : ∃ k, d = 2 * k := ⟨d / 2, by omega⟩
        have h2 : 2 * k / 2 = k := by omega
        rw [h1, h2]; push_cast; ring
      · have h1 : (d + 1) % 2 = 0 := by omega
        obtain ⟨k, rfl⟩ : ∃ k, d = 2 * k + 1 := ⟨d / 2, by omega⟩
        have h2 : (2 * k + 1) / 2 = k := by omega
        rw [h1, h2]; push_cast; ring
    have hshape : b.numpyShape = (b.deltay, b.deltax) := by simp [Bounds.numpyShape, hd]
    cases a.useTrue
    · simp only [Bool.false_eq_true, if_false, hc]
      have e1 : (b.xmin + (b.xmin + b.deltax - 1) + 1) / 2 = b.xmin + b.deltax / 2 := by omega
      have e2 : (b.ymin + (b.ymin + b.deltay - 1) + 1) / 2 = b.ymin + b.deltay / 2 := by omega
      rw [e1, e2]
    · simp only [if_true, hc, hshape]
      have e1 := par b.xmin b.deltax
      have e2 := par b.ymin b.deltay
      ext <;> simp only <;> linarith

/-- Automatically sized images: offset adjusted as for an even-sized image. -/
theorem adjust_auto (a : PlaceArgs) (N : ℤ) (hN : N % 2 = 0) (b : Bounds ℤ) (c : Pos ℤ) (h : b.centerI = some c)
    (hb : b.deltax = N ∧ b.deltay = N) (hcen : ∀ p, a.center = some p → c = ⟨⌈p.x⌉, ⌈p.y⌉⟩) :
    ((c.x : ℝ) + (adjustOffset (Bounds.empty clsI) a).x, (c.y : ℝ) + (adjustOffset (Bounds.empty clsI) a).y)
      = requestedPos a b := by
  obtain ⟨hd, hc⟩ := centerI_eq h
  have he : (Bounds.empty clsI).centerI = none := rfl
  have hs : (Bounds.empty clsI).numpyShape = (0, 0) := rfl
  obtain ⟨k, rfl⟩ : ∃ k, N = 2 * k := ⟨N / 2, by omega⟩
  have h2 : 2 * k / 2 = k := by omega
  unfold adjustOffset requestedPos
  cases hcc : a.center with
  | some p => simp only [he, hcen p hcc]; ext <;> simp only <;> ring
  | none =>
    rw [hb.1, hb.2, h2] at hc
    cases a.useTrue
    · simp only [Bool.false_eq_true, if_false, hc, hb.1, hb.2]
      have e1 : (b.xmin + (b.xmin + 2 * k - 1) + 1) / 2 = b.xmin + k := by omega
      have e2 : (b.ymin + (b.ymin + 2 * k - 1) + 1) / 2 = b.ymin + k := by omega
      rw [e1, e2]
    · simp only [if_true, hc, hs, hb.1, hb.2]
      have e3 : ((0 : ℤ) + 1) % 2 = 1 := rfl
      rw [e3]; push_cast
      ext <;> simp only <;> ring

/-- What `setupImage` returns agrees with `requestedRect`, and with the bounds used for the offset. -/
theorem setup_cases (a : PlaceArgs) (nb b : Bounds ℤ) (hnb : getNewBounds a = some nb) (hb : setupImage a = some b)
    (hgood : ∀ i, a.image = some i → i.defined = false → a.center = none) :
    requestedRect a b ∧ (nb = b ∨ (nb = Bounds.empty clsI ∧ b.deltax = a.goodN ∧ b.deltay = a.goodN ∧
      ∀ p c, a.center = some p → b.centerI = some c → c = ⟨⌈p.x⌉, ⌈p.y⌉⟩)) := by
  unfold getNewBounds at hnb
  unfold getNewBounds.rest at hnb
  unfold setupImage at hb
  unfold requestedRect
  cases hi : a.image with
  | some i =>
    simp only [hi] at hnb hb
    cases hB : a.bounds <;> simp only [hB, Option.isSome_some, Option.isSome_none, Bool.true_or, if_true, Bool.false_or,
      reduceCtorEq] at hb
    cases hX : a.nx <;> simp only [hX, Option.isSome_some, Option.isSome_none, Bool.true_or, if_true, Bool.false_or,
      reduceCtorEq] at hb
    cases hY : a.ny <;> simp only [hY, Option.isSome_some, Option.isSome_none, if_true,
      reduceCtorEq, Bool.false_eq_true, if_false] at hb
    simp only [hB, hX, hY] at hnb
    cases hd : i.defined
    · simp only [hd, Bool.false_eq_true, if_false] at hb hnb
      split at hb
      · cases hb
      · injection hnb with hnb; injection hb with hb
        subst hb
        refine ⟨⟨?_, by simp, by simp, by simp⟩, Or.inr ⟨hnb.symm, rfl, rfl, ?_⟩⟩
        · intro i' e h; injection e with e; subst e; rw [hd] at h; cases h
        · intro p c hp; rw [hgood i hi hd] at hp; cases hp
    · simp only [hd, if_true] at hb hnb
      injection hnb with hnb; injection hb with hb
      subst hb
      refine ⟨⟨?_, by simp, by simp, by simp⟩, Or.inl hnb.symm⟩
      intro i' e _; injection e with e; subst e; rfl
  | none =>
    simp only [hi] at hnb hb
    split at hb
    · cases hb
    · cases hB : a.bounds with
      | some B =>
        simp only [hB] at hb hnb
        cases hX : a.nx <;> simp only [hX, Option.isSome_some, Option.isSome_none, Bool.true_or, if_true, Bool.false_or,
          reduceCtorEq] at hb
        cases hY : a.ny <;> simp only [hY, Option.isSome_some, Option.isSome_none, if_true,
          reduceCtorEq, Bool.false_eq_true, if_false] at hb
        simp only [hX, hY] at hnb
        cases hd : B.defined <;> simp only [hd, if_true, Bool.false_eq_true, if_false, reduceCtorEq] at hb hnb
        injection hnb with hnb; injection hb with hb
        subst hb
        refine ⟨⟨by simp, ?_, by simp, by simp⟩, Or.inl hnb.symm⟩
        intro i' e; injection e with e; subst e; rfl
      | none =>
        simp only [hB] at hb hnb
        cases hX : a.nx with
        | none =>
          cases hY : a.ny with
          | some y => simp only [hX, hY, reduceCtorEq] at hb
          | none =>
            simp only [hX, hY] at hb hnb
            injection hnb with hnb
            refine ⟨⟨by simp, by simp, by simp, by simp⟩, Or.inr ⟨hnb.symm, ?_⟩⟩
            cases hC : a.center with
            | none =>
              simp only [hC] at hb
              injection hb with hb; subst hb
              exact ⟨rfl, rfl, by simp⟩
            | some p =>
              simp only [hC] at hb
              obtain ⟨h1, h2, h3, h4⟩ := setCenterB_eq hb
              refine ⟨h3, h4, ?_⟩
              intro p' c hp hc
              injection hp with hp; subst hp
              obtain ⟨-, rfl⟩ := centerI_eq hc
              rw [h1, h2, h3, h4]; simp
        | some x =>
          cases hY : a.ny with
          | none => simp only [hX, hY, reduceCtorEq] at hb
          | some y =>
            simp only [hX, hY] at hb hnb
            cases hC : a.center with
            | none =>
              simp only [hC] at hb hnb
              injection hnb with hnb; injection hb with hb
              subst hb
              refine ⟨⟨by simp, by simp, ?_, ?_⟩, Or.inl hnb.symm⟩
              · intro x' y' e1 e2; injection e1 with e1; injection e2 with e2; subst e1; subst e2; exact ⟨rfl, rfl⟩
              · intro x' y' _ _ _; exact ⟨rfl, rfl⟩
            | some p =>
              simp only [hC] at hb hnb
              refine ⟨⟨by simp, by simp, ?_, by simp⟩, Or.inl (Option.some_injective _ (hnb.symm.trans hb))⟩
              intro x' y' e1 e2; injection e1 with e1; injection e2 with e2; subst e1; subst e2
              unfold shiftToCenter at hb
              cases ht : (boundsFrom1 x y).trueCenterI with
              | none => simp [ht] at hb
              | some t =>
                simp only [ht, Option.map_some, Option.some.injEq] at hb
                subst hb; exact ⟨rfl, rfl⟩

/-- C31: whenever `drawImage` draws, every pixel of the returned image (at its coordinates in that image) samples the
object at the pixel's position minus the requested position, and the image has the requested rectangle.  Missing: an
image with undefined bounds together with `center` (see below). -/
theorem C31_place_partial (a : PlaceArgs) (hN : a.goodN % 2 = 0)
    (hgood : ∀ i, a.image = some i → i.defined = false → a.center = none)
    (b : Bounds ℤ) (sample : ℕ → ℕ → ℝ × ℝ) (h : drawPlaced a = some (b, sample)) :
    requestedRect a b ∧ ∀ i j : ℕ,
      sample i j = ((b.xmin : ℝ) + i - (requestedPos a b).1, (b.ymin : ℝ) + j - (requestedPos a b).2) := by
  unfold drawPlaced at h
  simp only [Option.bind_eq_bind, Option.bind_eq_some_iff, Option.some.injEq, Prod.mk.injEq] at h
  obtain ⟨nb, hnb, b1, hb1, oc, hoc, b0, hb0, rfl, rfl⟩ := h
  obtain ⟨hx, hy, hdx, hdy⟩ := setCenterB_eq hb0
  obtain ⟨hrect, hcase⟩ := setup_cases a nb b1 hnb hb1 hgood
  obtain ⟨hd, hoc'⟩ := centerI_eq hoc
  have e1 : (b0.shift clsI oc false).xmin = b1.xmin := by
    simp only [Bounds.shift, Bounds.finish, hx, hoc']; ring
  have e2 : (b0.shift clsI oc false).ymin = b1.ymin := by
    simp only [Bounds.shift, Bounds.finish, hy, hoc']; ring
  have e3 : (b0.shift clsI oc false).deltax = b1.deltax := hdx
  have e4 : (b0.shift clsI oc false).deltay = b1.deltay := hdy
  have hreq : requestedPos a (b0.shift clsI oc false) = requestedPos a b1 := by
    simp only [requestedPos, e1, e2, e3, e4]
  have hoff : ((oc.x : ℝ) + (adjustOffset nb a).x, (oc.y : ℝ) + (adjustOffset nb a).y) = requestedPos a b1 := by
    rcases hcase with rfl | ⟨rfl, h1, h2, h3⟩
    · exact adjust_known a _ oc hoc
    · exact adjust_auto a a.goodN hN b1 oc hoc ⟨h1, h2⟩ (fun p hp => h3 p oc hp hoc)
  refine ⟨?_, ?_⟩
  · unfold requestedRect at hrect ⊢
    rw [e1, e2, e3, e4]; exact hrect
  · intro i j
    rw [hreq, ← hoff, e1, e2]
    have f1 : (b0.xmin : ℤ) = b1.xmin - oc.x := by rw [hx, hoc']; simp only; ring
    have f2 : (b0.ymin : ℤ) = b1.ymin - oc.y := by rw [hy, hoc']; simp only; ring
    rw [f1, f2]; push_cast
    ext <;> simp only <;> ring

/-- A non-trivial case: a 4 × 5 image made from `nx`, `ny` with a centre. -/
example : ∃ b s, drawPlaced ⟨none, some 4, some 5, none, some ⟨10, 20⟩, ⟨1 / 4, 0⟩, true, false, 6⟩ = some (b, s) := by
  simp [drawPlaced, getNewBounds, getNewBounds.rest, setupImage, shiftToCenter, boundsFrom1, Bounds.mkDelta,
    Bounds.finish, Bounds.trueCenterI, Bounds.shift, Bounds.centerI, setCenterB, clsI]

/-- `drawImage` does draw whenever exactly one way of choosing a (non-empty) image is used. -/
theorem C31_draws (a : PlaceArgs) (hN : 0 < a.goodN) (hadd : a.addTo = false)
    (hone : (∃ i, a.image = some i ∧ i.defined = true ∧ 0 < i.deltax ∧ 0 < i.deltay ∧ a.bounds = none ∧ a.nx = none ∧ a.ny = none) ∨
      (a.image = none ∧ (∃ i, a.bounds = some i ∧ i.defined = true ∧ 0 < i.deltax ∧ 0 < i.deltay) ∧ a.nx = none ∧ a.ny = none) ∨
      (a.image = none ∧ a.bounds = none ∧ ∃ x y, a.nx = some x ∧ a.ny = some y ∧ 0 < x ∧ 0 < y) ∨
      (a.image = none ∧ a.bounds = none ∧ a.nx = none ∧ a.ny = none)) :
    ∃ r, drawPlaced a = some r := by
  have hdef : ∀ x y : ℤ, 0 < x → 0 < y → (boundsFrom1 x y).defined = true := by
    intro x y hx hy
    have h1 : ¬ x < 1 := by omega
    have h2 : ¬ y < 1 := by omega
    simp [boundsFrom1, Bounds.mkDelta, Bounds.finish, clsI, h1, h2]
  have hcen : ∀ b : Bounds ℤ, b.defined = true → ∃ c, b.centerI = some c := by
    intro b hb; exact ⟨_, by simp [Bounds.centerI, hb]; rfl⟩
  have hsc : ∀ (b : Bounds ℤ) (c : Pos ℤ), b.defined = true → ∃ b', setCenterB b c = some b' := by
    intro b c hb; obtain ⟨o, ho⟩ := hcen b hb; exact ⟨_, by simp [setCenterB, ho]; rfl⟩
  have hshift : ∀ (b : Bounds ℤ) (p : Pos ℤ) q, 0 < b.deltax → 0 < b.deltay → (b.shift clsI p q).defined = true := by
    intro b p q h1 h2
    have h1 : ¬ b.deltax < 1 := by omega
    have h2 : ¬ b.deltay < 1 := by omega
    simp [Bounds.shift, Bounds.finish, clsI, h1, h2]
  have main : ∀ nb b, getNewBounds a = some nb → setupImage a = some b → b.defined = true → ∃ r, drawPlaced a = some r := by
    intro nb b h1 h2 hd
    obtain ⟨c, hc⟩ := hcen b hd
    obtain ⟨b0, hb0⟩ := hsc b ⟨0, 0⟩ hd
    exact ⟨_, by simp only [drawPlaced, h1, h2, hc, hb0, Option.bind_eq_bind, Option.bind_some]; rfl⟩
  have htc : ∀ b : Bounds ℤ, b.defined = true → ∃ t, b.trueCenterI = some t := by
    intro b hb; exact ⟨_, by simp [Bounds.trueCenterI, hb]; rfl⟩
  rcases hone with ⟨i, h1, h2, hx, hy, h3, h4, h5⟩ | ⟨h1, ⟨i, h2, h3, hx, hy⟩, h4, h5⟩ | ⟨h1, h2, x, y, h3, h4, hx, hy⟩ | ⟨h1, h2, h3, h4⟩
  · exact main i i (by simp [getNewBounds, h1, h2]) (by simp [setupImage, h1, h2, h3, h4, h5]) h2
  · exact main i i (by simp [getNewBounds, getNewBounds.rest, h1, h2, h3, h4])
      (by simp [setupImage, h1, h2, h3, h4, h5, hadd]) h3
  · cases hc : a.center with
    | none =>
      exact main _ _ (by simp [getNewBounds, getNewBounds.rest, h1, h3, h4, hc]; rfl)
        (by simp [setupImage, h1, h2, h3, h4, hadd, hc]) (hdef x y hx hy)
    | some c =>
      obtain ⟨t, ht⟩ := htc _ (hdef x y hx hy)
      exact main _ _ (by simp [getNewBounds, getNewBounds.rest, h1, h3, h4, hc, shiftToCenter, ht]; rfl)
        (by simp [setupImage, h1, h2, h3, h4, hadd, hc, shiftToCenter, ht]; rfl) (hshift _ _ _ hx hy)
  · cases hc : a.center with
    | none =>
      exact main _ _ (by simp [getNewBounds, getNewBounds.rest, h1, h2, h3]; rfl)
        (by simp [setupImage, h1, h2, h3, h4, hadd, hc]) (hdef _ _ hN hN)
    | some c =>
      obtain ⟨b', hb'⟩ := hsc (boundsFrom1 a.goodN a.goodN) ⟨⌈c.x⌉, ⌈c.y⌉⟩ (hdef _ _ hN hN)
      refine main _ b' (by simp [getNewBounds, getNewBounds.rest, h1, h2, h3]; rfl)
        (by simp [setupImage, h1, h2, h3, h4, hadd, hc, hb']) ?_
      unfold setCenterB at hb'
      obtain ⟨o, ho⟩ := hcen _ (hdef _ _ hN hN)
      simp only [ho, Option.map_some, Option.some.injEq] at hb'
      subst hb'
      exact hshift _ _ _ hN hN

/-- C31: with `nx`, `ny` and a centre the new image contains the centre within half a pixel of its true centre. -/
theorem C31_centered (nx ny : ℤ) (c : Pos ℝ) (b : Bounds ℤ) (h : shiftToCenter (boundsFrom1 nx ny) c = some b) :
    |c.x - ((b.xmin : ℝ) + (b.xmin + nx - 1 : ℤ)) / 2| ≤ 1 / 2 ∧ |c.y - ((b.ymin : ℝ) + (b.ymin + ny - 1 : ℤ)) / 2| ≤ 1 / 2 := by
  unfold shiftToCenter at h
  cases ht : (boundsFrom1 nx ny).trueCenterI with
  | none => simp [ht] at h
  | some t =>
    simp only [ht, Option.map_some, Option.some.injEq] at h
    have htv : t = ⟨((nx + 1 : ℤ) : ℝ) / 2, ((ny + 1 : ℤ) : ℝ) / 2⟩ := by
      unfold Bounds.trueCenterI at ht
      split at ht
      · cases ht
      · injection ht with ht
        rw [← ht]
        simp [boundsFrom1, Bounds.mkDelta, Bounds.finish, Bounds.xmax, Bounds.ymax, clsI]
    subst h
    have key : ∀ (z : ℝ) (n : ℤ), |z - ((((1 + ⌊z + 1 / 2 - ((n + 1 : ℤ) : ℝ) / 2⌋ : ℤ)) : ℝ) +
        ((1 + ⌊z + 1 / 2 - ((n + 1 : ℤ) : ℝ) / 2⌋ + n - 1 : ℤ) : ℝ)) / 2| ≤ 1 / 2 := by
      intro z n
      have h1 := Int.floor_le (z + 1 / 2 - ((n + 1 : ℤ) : ℝ) / 2)
      have h2 := Int.lt_floor_add_one (z + 1 / 2 - ((n + 1 : ℤ) : ℝ) / 2)
      push_cast at h1 h2 ⊢
      rw [abs_le]; constructor <;> linarith
    simp only [Bounds.shift, Bounds.finish, htv, boundsFrom1, Bounds.mkDelta]
    exact ⟨key c.x nx, key c.y ny⟩

example : ∃ b, shiftToCenter (boundsFrom1 4 5) ⟨3, 7⟩ = some b := by
  simp [shiftToCenter, boundsFrom1, Bounds.mkDelta, Bounds.finish, Bounds.trueCenterI, clsI]

/-- C31: for non-uniform WCSs the local approximation is taken exactly at the requested position of the object. -/
theorem C31_local_wcs (a : PlaceArgs) (p : Pos ℝ) (h : localWcsPos a = some p)
    (b : Bounds ℤ) (sample : ℕ → ℕ → ℝ × ℝ) (hd : drawPlaced a = some (b, sample)) :
    (p.x, p.y) = requestedPos a b := by
  unfold localWcsPos at h
  simp only [Option.bind_eq_some_iff] at h
  obtain ⟨nb, hnb, h⟩ := h
  have hgood : ∀ i, a.image = some i → i.defined = false → a.center = none := by
    intro i hi hdef
    rw [hi] at h; simp [hdef] at h
  unfold drawPlaced at hd
  simp only [Option.bind_eq_bind, Option.bind_eq_some_iff, Option.some.injEq, Prod.mk.injEq] at hd
  obtain ⟨nb', hnb', b1, hb1, oc, hoc, b0, hb0, rfl, rfl⟩ := hd
  obtain rfl : nb = nb' := Option.some_injective _ (hnb.symm.trans hnb')
  obtain ⟨hx, hy, hdx, hdy⟩ := setCenterB_eq hb0
  obtain ⟨-, hoc'⟩ := centerI_eq hoc
  have e1 : (b0.shift clsI oc false).xmin = b1.xmin := by
    simp only [Bounds.shift, Bounds.finish, hx, hoc']; ring
  have e2 : (b0.shift clsI oc false).ymin = b1.ymin := by
    simp only [Bounds.shift, Bounds.finish, hy, hoc']; ring
  have e3 : (b0.shift clsI oc false).deltax = b1.deltax := hdx
  have e4 : (b0.shift clsI oc false).deltay = b1.deltay := hdy
  have hreq : requestedPos a (b0.shift clsI oc false) = requestedPos a b1 := by
    simp only [requestedPos, e1, e2, e3, e4]
  rw [hreq]
  obtain ⟨hrect, hcase⟩ := setup_cases a nb b1 hnb hb1 hgood
  have hfin : ∀ B : Bounds ℤ, B.defined = true → (B.xmin, B.deltax, B.ymin, B.deltay) = (b1.xmin, b1.deltax, b1.ymin, b1.deltay) →
      (∃ oc : Pos ℝ, objCen a B = some oc ∧
        (⟨oc.x + a.offset.x, oc.y + a.offset.y⟩ : Pos ℝ) = p) → (p.x, p.y) = requestedPos a b1 := by
    intro B hB he ⟨o, ho, hp⟩
    unfold objCen at ho
    simp only [Prod.mk.injEq] at he
    obtain ⟨g1, g2, g3, g4⟩ := he
    subst hp
    unfold requestedPos
    cases hc : a.center with
    | some c => simp only [hc, Option.some.injEq] at ho; subst ho; rfl
    | none =>
      simp only [hc] at ho
      cases hu : a.useTrue
      · simp only [hu, Bool.false_eq_true, if_false, Bounds.centerI, hB, Bool.not_true, Option.map_some,
          Option.some.injEq] at ho
        subst ho
        simp only [Bool.false_eq_true, if_false, g1, g2, g3, g4]
        have f1 : (b1.xmin + (b1.xmin + b1.deltax - 1) + 1) / 2 = b1.xmin + b1.deltax / 2 := by omega
        have f2 : (b1.ymin + (b1.ymin + b1.deltay - 1) + 1) / 2 = b1.ymin + b1.deltay / 2 := by omega
        rw [f1, f2]
      · simp only [hu, if_true, Bounds.trueCenterI, hB, Bool.not_true, Bool.false_eq_true, if_false,
          Option.some.injEq] at ho
        subst ho
        simp only [if_true, Bounds.xmax, Bounds.ymax, clsI, g1, g2, g3, g4]
        push_cast
        ext <;> simp only <;> ring
  cases hi : a.image with
  | none =>
    simp only [hi] at h
    split at h
    · cases h
    · rename_i hdd
      have hdd : nb.defined = true := by simpa using hdd
      rcases hcase with e | ⟨e, -⟩
      · exact hfin nb hdd (by rw [e]) (by simpa [Option.map_eq_some_iff] using h)
      · rw [e] at hdd; cases hdd
  | some i =>
    simp only [hi] at h
    split at h
    · cases h
    · rename_i hdd
      have hdd : i.defined = true := by simpa using hdd
      exact hfin i hdd (hrect.1 i hi hdd).symm (by simpa [Option.map_eq_some_iff] using h)

/-- Disagreement: an image with undefined bounds is resized to start at (1,1) even if `center` is given, while the
offset is computed as if it had been centred on `ceil(center)`; the object then lands elsewhere: with an automatic
size of 6 and centre (100, 100) it is drawn at (4, 4). -/
theorem C31_undefined_image_counterexample :
    ∃ b s, drawPlaced ⟨some (Bounds.empty clsI), none, none, none, some ⟨100, 100⟩, ⟨0, 0⟩, true, false, 6⟩ = some (b, s) ∧
      b.xmin = 1 ∧ s 3 3 = (0, 0) := by
  refine ⟨_, _, rfl, ?_, ?_⟩
  · rfl
  · simp only [adjustOffset, Bounds.centerI, Bounds.empty, Bounds.finish, clsI]
    simp [Bounds.shift, Bounds.finish, boundsFrom1, Bounds.mkDelta]

end JG
