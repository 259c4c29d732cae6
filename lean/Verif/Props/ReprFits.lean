import Verif.Model.ReprFits

/-!
C115: the text and the pytree form of a `GSFitsWCS` read back as the same wcs, and equality and hash agree with them.
-/

namespace JG.FitsW

/-! ### Specification -/

/-- The tables of the model that stand for arrays: not empty, nothing outside, and two of them in one array have the same size. -/
def Tab.IsArray (t : Tab) : Prop := 0 < t.n ∧ ∀ i j, t.n ≤ i ∨ t.n ≤ j → t.c i j = 0
def PairOk : Option (Tab × Tab) → Prop
  | none => True
  | some p => p.1.IsArray ∧ p.2.IsArray ∧ p.1.n = p.2.n

/-- A wcs that the constructor can make: the declination of the centre is one. -/
def GS.Valid (w : GS) : Prop :=
  -Real.pi / 2 ≤ w.center.dec ∧ w.center.dec ≤ Real.pi / 2 ∧ PairOk w.pv ∧ PairOk w.ab ∧ PairOk w.abp

/-! ### Lemmas -/

theorem readNums_map (l : List ℝ) : readNums (l.map .num) = some l := by
  induction l with
  | nil => rfl
  | cons x l ih => simp [readNums, ih]

theorem readVec_txt (l : List ℝ) : readVec (vecTxt l) = some l := readNums_map l

theorem readRows_map (l : List (List ℝ)) : readRows (l.map vecTxt) = some l := by
  induction l with
  | nil => rfl
  | cons r l ih => simp [readRows, readVec_txt, ih]

theorem toTab_rows (t : Tab) (h : t.IsArray) : toTab t.rows = some t := by
  obtain ⟨n, c⟩ := t
  have hl : (Tab.rows ⟨n, c⟩).length = n := by simp [Tab.rows]
  unfold toTab
  rw [if_pos, hl]
  · congr 2
    funext i j
    by_cases hi : i < n
    · by_cases hj : j < n
      · simp [Tab.rows, List.getD, hi, hj]
      · have h0 : c i j = 0 := h.2 i j (.inr (not_lt.mp hj))
        rw [h0]
        simp [Tab.rows, List.getD, hi, hj]
    · have h0 : c i j = 0 := h.2 i j (.inl (not_lt.mp hi))
      rw [h0]
      simp [Tab.rows, List.getD, hi]
  · rw [hl]; simp [Tab.rows]

theorem readPair_txt (p : Option (Tab × Tab)) (h : PairOk p) : readPair (pairTxt p) = some p := by
  rcases p with _ | ⟨a, b⟩
  · rfl
  · obtain ⟨h1, h2, h3⟩ := h
    have ha : readTab (tabTxt a) = some a := by simp [readTab, tabTxt, readRows_map, toTab_rows a h1]
    have hb : readTab (tabTxt b) = some b := by simp [readTab, tabTxt, readRows_map, toTab_rows b h2]
    simp only [pairTxt, readPair, ha, hb, Option.bind_some]
    rw [if_pos h3]

theorem ofSuffix_suffix (t : WType) : WType.ofSuffix t.suffix = some t := by cases t <;> rfl

theorem optEq_iff (p q : Option (Tab × Tab)) (hp : PairOk p) (hq : PairOk q) : optEq p q ↔ p = q := by
  constructor
  · intro h
    rcases p with _ | ⟨a, b⟩ <;> rcases q with _ | ⟨a', b'⟩
    · rfl
    · exact h.elim
    · exact h.elim
    · have key : ∀ t t' : Tab, t.IsArray → t'.IsArray → t.n = t'.n → (∀ i < t.n, ∀ j < t.n, t.c i j = t'.c i j) → t = t' := by
        rintro ⟨n, c⟩ ⟨n', c'⟩ h1 h2 h3 h4
        simp only at h3 h4
        subst h3
        congr 1
        funext i j
        by_cases hi : i < n
        · by_cases hj : j < n
          · exact h4 i hi j hj
          · exact (h1.2 i j (.inr (not_lt.mp hj))).trans (h2.2 i j (.inr (not_lt.mp hj))).symm
        · exact (h1.2 i j (.inl (not_lt.mp hi))).trans (h2.2 i j (.inl (not_lt.mp hi))).symm
      obtain ⟨e1, e2, e3, e4⟩ := h
      rw [key a a' hp.1 hq.1 e1 e3, key b b' hp.2.1 hq.2.1 e2 e4]
  · rintro rfl
    rcases p with _ | ⟨a, b⟩
    · trivial
    · exact ⟨rfl, rfl, fun _ _ _ _ => rfl, fun _ _ _ _ => rfl⟩

/-! ### Theorems -/

/-- C115: the text of a `GSFitsWCS` of any projection, with or without the distortions, evaluates to the same wcs. -/
theorem C115_roundtrip (w : GS) (h : w.Valid) : evalRepr w.repr = some w := by
  obtain ⟨h1, h2, h3, h4, h5⟩ := h
  have hc : readCoord (.coord w.center.ra w.center.dec) = some w.center := by
    show Coord.mk? w.center.ra w.center.dec = some w.center
    unfold Coord.mk?
    rw [if_neg]
    push Not
    exact ⟨h1, h2⟩
  simp [evalRepr, GS.repr, readType, ofSuffix_suffix, readVec2, readVec_txt, readMat, hc, readPair_txt _ h3, readPair_txt _ h4,
    readPair_txt _ h5]

/-- C115: two such wcs have the same text, and so the same hash, exactly when they are equal, and exactly when they are the same
wcs (so that they map every pixel to the same point of the sky). -/
theorem C115_eq (w v : GS) (hw : w.Valid) (hv : v.Valid) :
    (w.eq v ↔ w = v) ∧ (w.repr = v.repr ↔ w = v) ∧ (w.hashKey = v.hashKey ↔ w.eq v) ∧
      (w.eq v → ∀ x y, w.radec x y = v.radec x y) := by
  have h1 : w.eq v ↔ w = v := by
    constructor
    · rintro ⟨a, ⟨b1, b2⟩, ⟨c1, c2, c3, c4⟩, ⟨d1, d2⟩, e, f, g⟩
      obtain ⟨-, -, w3, w4, w5⟩ := hw
      obtain ⟨-, -, v3, v4, v5⟩ := hv
      rw [optEq_iff _ _ w3 v3] at e
      rw [optEq_iff _ _ w4 v4] at f
      rw [optEq_iff _ _ w5 v5] at g
      obtain ⟨wt, ⟨p1, p2⟩, ⟨ca, cb, cc, cd⟩, ⟨ra, dec⟩, pv, ab, abp⟩ := w
      obtain ⟨wt', ⟨p1', p2'⟩, ⟨ca', cb', cc', cd'⟩, ⟨ra', dec'⟩, pv', ab', abp'⟩ := v
      simp only at a b1 b2 c1 c2 c3 c4 d1 d2 e f g
      subst a b1 b2 c1 c2 c3 c4 d1 d2 e f g
      rfl
    · rintro rfl
      exact ⟨rfl, ⟨rfl, rfl⟩, ⟨rfl, rfl, rfl, rfl⟩, ⟨rfl, rfl⟩, (optEq_iff _ _ hw.2.2.1 hw.2.2.1).mpr rfl,
        (optEq_iff _ _ hw.2.2.2.1 hw.2.2.2.1).mpr rfl, (optEq_iff _ _ hw.2.2.2.2 hw.2.2.2.2).mpr rfl⟩
  have h2 : w.repr = v.repr ↔ w = v := by
    constructor
    · intro h
      have := C115_roundtrip w hw
      rw [h, C115_roundtrip v hv] at this
      exact (Option.some.inj this).symm
    · rintro rfl; rfl
  refine ⟨h1, h2, by rw [h1]; exact h2, fun h x y => by rw [h1.mp h]⟩

/-- C115: flattening to a pytree and back gives the same wcs. -/
theorem C115_pytree (w : GS) : unflatten w.flatten = some w := by
  simp [unflatten, GS.flatten, ofSuffix_suffix]

/-- A stereographic wcs with a distortion of the second order. -/
example : (⟨.stgSip, (512, 513), ⟨1, 0, 0, -1⟩, ⟨1, Real.pi / 2⟩, none,
    some (⟨3, fun i j => if i + j = 2 then 1 else 0⟩, ⟨3, fun i j => if i = 1 ∧ j = 0 then 2 else 0⟩), none⟩ : GS).Valid := by
  have hp := Real.pi_pos
  refine ⟨by simp only; linarith, le_refl _, trivial, ⟨?_, ?_, rfl⟩, trivial⟩
  · refine ⟨by norm_num, fun i j h => ?_⟩
    have : ¬ i + j = 2 := by simp only at h; omega
    simp [this]
  · refine ⟨by norm_num, fun i j h => ?_⟩
    have : ¬ (i = 1 ∧ j = 0) := by simp only at h; omega
    simp [this]

end JG.FitsW
