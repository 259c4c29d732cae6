import Verif.Model.EqHash
import Mathlib.Tactic.NormNum
import Mathlib.Tactic.Tauto
import Mathlib.Tactic.IntervalCases

/-!
Property C86: profiles are equal exactly when they have the same class, parameters and settings, and equal profiles hash equal.
-/

namespace JG.EqH

/-! ### Specification -/

/-- What a profile is, regardless of how its numbers are represented. -/
inductive Meaning
  | elem (c : ECls) (params : List V) (gs : List ℝ)
  | sum (objs : List Meaning) (gs : List ℝ) (prop : Bool)
  | conv (objs : List Meaning) (realSpace : Bool) (gs : List ℝ) (prop : Bool)
  | deconv (orig : Meaning) (gs : List ℝ) (prop : Bool)
  | trans (orig : Meaning) (jac : List V) (dx dy fluxRatio : V) (gs : List ℝ) (prop : Bool)

/-- The number in a scalar parameter. -/
def Leaf.number : Leaf → V
  | .num _ v => v
  | .arr _ d => d.headD none

mutual
/-- The meaning of a profile with scalar parameters. -/
def Prof.meaning : Prof → Meaning
  | .elem c l g => .elem c (l.map Leaf.number) (g.map Prod.snd)
  | .sum o g pr => .sum (meanings o) (g.map Prod.snd) pr
  | .conv _ o r g pr => .conv (meanings o) r (g.map Prod.snd) pr
  | .deconv o g pr => .deconv o.meaning (g.map Prod.snd) pr
  | .trans o j dx dy f g pr => .trans o.meaning j dx.number dy.number f.number (g.map Prod.snd) pr
def meanings : List Prof → List Meaning
  | [] => []
  | p :: ps => p.meaning :: meanings ps
end

/-- A parameter that is one number, not NaN: a Python or numpy number or an array without dimensions. -/
def Leaf.Scalar : Leaf → Prop
  | .num _ v => v ≠ none
  | .arr s d => s = [] ∧ ∃ x, d = [some x]

/-- The parameters of an elementary profile as the constructors leave them: one for each key; both sides of a `Pixel` are the same. -/
def ElemOk (c : ECls) (l : List Leaf) : Prop :=
  l.length = c.keys.length ∧ (c = .pixel → ∃ w f, l = [w, w, f])

mutual
/-- Profiles with scalar parameters without NaN, built from lists of profiles. -/
def Prof.Plain : Prof → Prop
  | .elem c l _ => ElemOk c l ∧ ∀ x ∈ l, x.Scalar
  | .sum o _ _ => PlainL o
  | .conv t o _ _ _ => t = false ∧ PlainL o
  | .deconv o _ _ => o.Plain
  | .trans o j dx dy f _ _ => o.Plain ∧ (∀ v ∈ j, v ≠ none) ∧ dx.Scalar ∧ dy.Scalar ∧ f.Scalar
def PlainL : List Prof → Prop
  | [] => True
  | p :: ps => p.Plain ∧ PlainL ps
end

/-- A parameter that is not an array of a single number in brackets. -/
def Leaf.Unboxed (l : Leaf) : Prop := l.shape = [] ∨ l.entries.length ≠ 1

/-- Accuracy parameters of the declared types: those shown with `%r` are Python floats. -/
def GSP.Declared (g : GSP) : Prop := ∀ i (h : i < g.length), GSP.isD i = false → (g[i]'h).1 = .pyFloat

mutual
/-- Profiles whose accuracy parameters are of the declared types and whose parameters are not numbers in brackets. -/
def Prof.Tidy : Prof → Prop
  | .elem c l g => ElemOk c l ∧ (∀ x ∈ l, x.Unboxed) ∧ g.Declared
  | .sum o g _ => TidyL o ∧ g.Declared
  | .conv _ o _ g _ => TidyL o ∧ g.Declared
  | .deconv o g _ => o.Tidy ∧ g.Declared
  | .trans o _ dx dy f g _ => o.Tidy ∧ dx.Unboxed ∧ dy.Unboxed ∧ f.Unboxed ∧ g.Declared
def TidyL : List Prof → Prop
  | [] => True
  | p :: ps => p.Tidy ∧ TidyL ps
end

/-! ### Helper lemmas -/

theorem V.eq_iff (a b : V) : V.eq a b = true ↔ a = b ∧ a ≠ none := by
  cases a <;> cases b <;> simp [V.eq]

theorem V.eq_decide (a b : V) (h : a ≠ none) : V.eq a b = decide (a = b) := by
  cases a <;> cases b <;> simp_all [V.eq]

theorem entriesEq_iff (a b : List V) : entriesEq a b = true → a = b := by
  induction a generalizing b with
  | nil => cases b <;> simp [entriesEq]
  | cons x xs ih =>
    cases b with
    | nil => simp [entriesEq]
    | cons y ys =>
      intro h
      simp only [entriesEq, List.length_cons, List.zipWith_cons_cons, List.all_cons, id, Bool.and_eq_true, beq_iff_eq,
        Nat.add_right_cancel_iff] at h
      rw [((V.eq_iff x y).1 h.2.1).1, ih ys (by simp [entriesEq, h.1, h.2.2])]

theorem entriesEq_decide (a b : List V) (h : ∀ v ∈ a, v ≠ none) : entriesEq a b = decide (a = b) := by
  rw [Bool.eq_iff_iff, decide_eq_true_iff]
  refine ⟨entriesEq_iff a b, ?_⟩
  rintro rfl
  induction a with
  | nil => simp [entriesEq]
  | cons x xs ih =>
    have := ih fun v hv => h v (List.mem_cons_of_mem _ hv)
    simp only [entriesEq, beq_self_eq_true, Bool.true_and] at this
    simp only [entriesEq, beq_self_eq_true, Bool.true_and, List.zipWith_cons_cons, List.all_cons, id, this, Bool.and_true]
    exact (V.eq_iff x x).2 ⟨rfl, h x (List.mem_cons_self ..)⟩

theorem Leaf.pyEq_scalar (x y : Leaf) (hx : x.Scalar) (hy : y.Scalar) : x.pyEq y = some (decide (x.number = y.number)) := by
  cases x with
  | num k v =>
    cases y with
    | num k' v' => simp only [Leaf.pyEq, Leaf.entries, Leaf.number]; rw [V.eq_decide _ _ hx]; congr
    | arr s d =>
      obtain ⟨-, y, rfl⟩ := hy
      simp only [Leaf.pyEq, Leaf.entries, Leaf.number]; rw [V.eq_decide _ _ hx]; rfl
  | arr s d =>
    obtain ⟨-, x, rfl⟩ := hx
    cases y with
    | num k' v' => simp only [Leaf.pyEq, Leaf.entries, Leaf.number]; rw [V.eq_decide _ _ (by simp)]; rfl
    | arr s d =>
      obtain ⟨-, y, rfl⟩ := hy
      simp only [Leaf.pyEq, Leaf.entries, Leaf.number]; rw [V.eq_decide _ _ (by simp)]; rfl

theorem Leaf.eq_scalar (x y : Leaf) (hx : x.Scalar) (hy : y.Scalar) : x.eq y = some (decide (x.number = y.number)) := by
  cases x with
  | num k v =>
    cases y with
    | num k' v' => exact Leaf.pyEq_scalar _ _ hx hy
    | arr s d =>
      obtain ⟨rfl, y, rfl⟩ := hy
      simp only [Leaf.eq, Leaf.number]; rw [entriesEq_decide _ _ (by simp only [List.mem_singleton]; rintro _ rfl; exact hx)]; simp
  | arr s d =>
    obtain ⟨rfl, x, rfl⟩ := hx
    cases y with
    | num k' v' => simp only [Leaf.eq, Leaf.number]; rw [entriesEq_decide _ _ (by simp)]; simp
    | arr s d =>
      obtain ⟨rfl, y, rfl⟩ := hy
      simp only [Leaf.eq, Leaf.number]; rw [entriesEq_decide _ _ (by simp)]; simp

theorem leavesEq_scalar (l l' : List Leaf) (h : l.length = l'.length) (hl : ∀ x ∈ l, x.Scalar) (hl' : ∀ x ∈ l', x.Scalar) :
    leavesEq l l' = some (decide (l.map Leaf.number = l'.map Leaf.number)) := by
  induction l generalizing l' with
  | nil => cases l' <;> simp_all [leavesEq]
  | cons x xs ih =>
    cases l' with
    | nil => simp at h
    | cons y ys =>
      rw [leavesEq, Leaf.eq_scalar x y (hl _ (by simp)) (hl' _ (by simp)),
        ih ys (by simpa using h) (fun z hz => hl z (by simp [hz])) fun z hz => hl' z (by simp [hz])]
      by_cases h1 : x.number = y.number <;> by_cases h2 : xs.map Leaf.number = ys.map Leaf.number <;> simp [andP, h1, h2]

theorem elemLeaves_scalar (c : ECls) (l l' : List Leaf) (ho : ElemOk c l) (ho' : ElemOk c l') (hl : ∀ x ∈ l, x.Scalar)
    (hl' : ∀ x ∈ l', x.Scalar) :
    leavesEq (elemLeaves c l) (elemLeaves c l') = some (decide (l.map Leaf.number = l'.map Leaf.number)) := by
  by_cases hc : c = .pixel
  · obtain ⟨w, f, rfl⟩ := ho.2 hc
    obtain ⟨w', f', rfl⟩ := ho'.2 hc
    subst hc
    simp only [elemLeaves]
    rw [leavesEq_scalar [w, f] [w', f'] rfl (by intro x hx; exact hl x (by simp at hx ⊢; tauto))
      (by intro x hx; exact hl' x (by simp at hx ⊢; tauto))]
    simp
  · have e : ∀ l, elemLeaves c l = l := by
      intro l; cases c <;> first | exact absurd rfl hc | rfl
    rw [e, e]
    exact leavesEq_scalar _ _ (by rw [ho.1, ho'.1]) hl hl'

theorem andP_decide (a b : Prop) [Decidable a] [Decidable b] : andP (some (decide a)) (some (decide b)) = some (decide (a ∧ b)) := by
  by_cases ha : a <;> by_cases hb : b <;> simp [andP, ha, hb]

theorem meanings_length (o : List Prof) : (meanings o).length = o.length := by
  induction o with
  | nil => simp [meanings]
  | cons p ps ih => simp [meanings, ih]

theorem eq_same (same : Prof → Prof → Bool) (p q : Prof) (h : same p q = true) : p.eq same q = some true := by
  unfold Prof.eq
  rw [if_pos h]

open Classical in
mutual
theorem eq_meaning (same : Prof → Prof → Bool) (hs : ∀ p q, same p q = true → p = q) (p q : Prof) (hp : p.Plain) (hq : q.Plain) :
    p.eq same q = some (decide (p.meaning = q.meaning)) := by
  by_cases h : same p q = true
  · have := hs p q h
    subst this
    rw [eq_same same p p h]
    simp
  · cases p with
    | elem c l g =>
      cases q with
      | elem c' l' g' =>
        rw [Prof.eq, if_neg h]
        simp only [Prof.Plain] at hp hq
        by_cases hc : c = c'
        · subst hc
          simp only [if_true]
          rw [elemLeaves_scalar c l l' hp.1 hq.1 hp.2 hq.2, GSP.eq, andP_decide]
          simp [Prof.meaning]
        · simp [Prof.meaning, hc]
      | _ => simp [Prof.eq, h, Prof.meaning]
    | sum o g pr =>
      cases q with
      | sum o' g' pr' =>
        rw [Prof.eq, if_neg h]
        simp only [Prof.Plain] at hp hq
        by_cases hl : o.length = o'.length
        · rw [if_pos hl, listEq_meaning same hs o o' hl hp hq]
          simp only [GSP.eq, Prof.meaning, Meaning.sum.injEq]
          rw [show (decide (g.map Prod.snd = g'.map Prod.snd) && (pr == pr')) = decide (g.map Prod.snd = g'.map Prod.snd ∧ pr = pr') by
            simp [Bool.beq_eq_decide_eq], andP_decide]
        · rw [if_neg hl]
          have : meanings o ≠ meanings o' := fun h => hl (by rw [← meanings_length, h, meanings_length])
          simp [andP, Prof.meaning, this]
      | _ => simp [Prof.eq, h, Prof.meaning]
    | conv t o r g pr =>
      cases q with
      | conv t' o' r' g' pr' =>
        rw [Prof.eq, if_neg h]
        simp only [Prof.Plain] at hp hq
        by_cases hl : o.length = o'.length
        · rw [if_pos ⟨by rw [hp.1, hq.1], hl⟩, listEq_meaning same hs o o' hl hp.2 hq.2]
          simp only [GSP.eq, Prof.meaning, Meaning.conv.injEq]
          rw [show ((r == r') && decide (g.map Prod.snd = g'.map Prod.snd) && (pr == pr')) =
            decide (r = r' ∧ g.map Prod.snd = g'.map Prod.snd ∧ pr = pr') by
            simp [Bool.beq_eq_decide_eq, Bool.and_assoc], andP_decide]
        · rw [if_neg (fun h => hl h.2)]
          have : meanings o ≠ meanings o' := fun h => hl (by rw [← meanings_length, h, meanings_length])
          simp [andP, Prof.meaning, this]
      | _ => simp [Prof.eq, h, Prof.meaning]
    | deconv o g pr =>
      cases q with
      | deconv o' g' pr' =>
        rw [Prof.eq, if_neg h]
        simp only [Prof.Plain] at hp hq
        rw [eq_meaning same hs o o' hp hq]
        simp only [GSP.eq, Prof.meaning, Meaning.deconv.injEq]
        rw [show (decide (g.map Prod.snd = g'.map Prod.snd) && (pr == pr')) = decide (g.map Prod.snd = g'.map Prod.snd ∧ pr = pr') by
            simp [Bool.beq_eq_decide_eq], andP_decide]
      | _ => simp [Prof.eq, h, Prof.meaning]
    | trans o j dx dy f g pr =>
      cases q with
      | trans o' j' dx' dy' f' g' pr' =>
        rw [Prof.eq, if_neg h]
        simp only [Prof.Plain] at hp hq
        rw [eq_meaning same hs o o' hp.1 hq.1, entriesEq_decide j j' hp.2.1, Leaf.pyEq_scalar dx dx' hp.2.2.1 hq.2.2.1,
          Leaf.pyEq_scalar dy dy' hp.2.2.2.1 hq.2.2.2.1, Leaf.pyEq_scalar f f' hp.2.2.2.2 hq.2.2.2.2]
        simp only [GSP.eq, Prof.meaning, Meaning.trans.injEq]
        rw [show (decide (g.map Prod.snd = g'.map Prod.snd) && (pr == pr')) = decide (g.map Prod.snd = g'.map Prod.snd ∧ pr = pr') by
            simp [Bool.beq_eq_decide_eq], andP_decide, andP_decide, andP_decide, andP_decide, andP_decide]
      | _ => simp [Prof.eq, h, Prof.meaning]
theorem listEq_meaning (same : Prof → Prof → Bool) (hs : ∀ p q, same p q = true → p = q) (o o' : List Prof)
    (hl : o.length = o'.length) (ho : PlainL o) (ho' : PlainL o') :
    listEq same o o' = some (decide (meanings o = meanings o')) := by
  cases o with
  | nil => cases o' with
    | nil => simp [listEq, meanings]
    | cons _ _ => simp at hl
  | cons p ps => cases o' with
    | nil => simp at hl
    | cons q qs =>
      simp only [PlainL] at ho ho'
      rw [listEq, eq_meaning same hs p q ho.1 ho'.1, listEq_meaning same hs ps qs (by simpa using hl) ho.2 ho'.2]
      simp only [meanings, List.cons.injEq]
      rw [andP_decide]
end

/-! ### C86 -/

open Classical in
/-- C86: `p == q` for profiles with scalar parameters that are not NaN is true exactly if both have the same class, the same parameter
values and the same settings, down to their components, however the numbers are represented; it never raises. -/
theorem C86_equal_partial (same : Prof → Prof → Bool) (hs : ∀ p q, same p q = true → p = q) (p q : Prof) (hp : p.Plain)
    (hq : q.Plain) : p.eq same q = some (decide (p.meaning = q.meaning)) := eq_meaning same hs p q hp hq

/-- C86: equality of these profiles is reflexive, symmetric and transitive. -/
theorem C86_equivalence (same : Prof → Prof → Bool) (hs : ∀ p q, same p q = true → p = q) :
    (∀ p : Prof, p.Plain → p.eq same p = some true) ∧
    (∀ p q : Prof, p.Plain → q.Plain → p.eq same q = q.eq same p) ∧
    (∀ p q r : Prof, p.Plain → q.Plain → r.Plain → p.eq same q = some true → q.eq same r = some true → p.eq same r = some true) := by
  classical
  refine ⟨fun p hp => by rw [eq_meaning same hs p p hp hp]; simp, fun p q hp hq => ?_, fun p q r hp hq hr h1 h2 => ?_⟩
  · rw [eq_meaning same hs p q hp hq, eq_meaning same hs q p hq hp]
    simp [eq_comm]
  · rw [eq_meaning same hs p q hp hq] at h1
    rw [eq_meaning same hs q r hq hr] at h2
    rw [eq_meaning same hs p r hp hr]
    simp only [Option.some.injEq, decide_eq_true_eq] at h1 h2 ⊢
    rw [h1, h2]

theorem andP_true (a b : Option Bool) : andP a b = some true ↔ a = some true ∧ b = some true := by
  rcases a with _ | _ | _ <;> simp [andP]

theorem Leaf.pyEq_hkey (x y : Leaf) (hx : x.Unboxed) (hy : y.Unboxed) (h : x.pyEq y = some true) : x.hkey = y.hkey := by
  cases x with
  | num k v =>
    cases y with
    | num k' v' =>
      simp only [Leaf.pyEq, Leaf.entries, Option.some.injEq] at h
      rw [Leaf.hkey, Leaf.hkey, ((V.eq_iff _ _).1 h).1]
    | arr s d =>
      simp only [Leaf.pyEq, Leaf.entries] at h
      rcases d with _ | ⟨b, _ | ⟨c, d⟩⟩ <;> simp at h
      rcases hy with hy | hy
      · simp only [Leaf.shape] at hy
        subst hy
        simp [Leaf.hkey, nestTuple, ((V.eq_iff _ _).1 h).1]
      · simp [Leaf.entries] at hy
  | arr s d =>
    rcases d with _ | ⟨a, _ | ⟨c, d⟩⟩
    · simp [Leaf.pyEq, Leaf.entries] at h
    · rcases hx with hx | hx
      · simp only [Leaf.shape] at hx
        subst hx
        cases y with
        | num k' v' =>
          simp only [Leaf.pyEq, Leaf.entries, Option.some.injEq] at h
          simp [Leaf.hkey, nestTuple, ((V.eq_iff _ _).1 h).1]
        | arr s d =>
          simp only [Leaf.pyEq, Leaf.entries] at h
          rcases d with _ | ⟨b, _ | ⟨c, d⟩⟩ <;> simp at h
          rcases hy with hy | hy
          · simp only [Leaf.shape] at hy
            subst hy
            simp [Leaf.hkey, nestTuple, ((V.eq_iff _ _).1 h).1]
          · simp [Leaf.entries] at hy
      · simp [Leaf.entries] at hx
    · simp [Leaf.pyEq, Leaf.entries] at h

theorem Leaf.eq_hkey (x y : Leaf) (hx : x.Unboxed) (hy : y.Unboxed) (h : x.eq y = some true) : x.hkey = y.hkey := by
  cases x with
  | num k v =>
    cases y with
    | num k' v' => exact Leaf.pyEq_hkey _ _ hx hy h
    | arr s d =>
      cases s with
      | nil =>
        simp only [Leaf.eq, Option.some.injEq] at h
        have := entriesEq_iff _ _ h
        subst this
        simp [Leaf.hkey, nestTuple]
      | cons n s => exact Leaf.pyEq_hkey _ _ hx hy h
  | arr s d =>
    cases y with
    | num k' v' =>
      cases s with
      | nil =>
        simp only [Leaf.eq, Option.some.injEq] at h
        have := entriesEq_iff _ _ h
        subst this
        simp [Leaf.hkey, nestTuple]
      | cons n s => simp [Leaf.eq] at h
    | arr s' d' =>
      simp only [Leaf.eq, Option.some.injEq, Bool.and_eq_true, beq_iff_eq] at h
      rw [h.1, entriesEq_iff _ _ h.2]

theorem leavesEq_hkey (l l' : List Leaf) (hl : ∀ x ∈ l, x.Unboxed) (hl' : ∀ x ∈ l', x.Unboxed) (h : leavesEq l l' = some true) :
    l.map Leaf.hkey = l'.map Leaf.hkey := by
  induction l generalizing l' with
  | nil => cases l' <;> simp_all [leavesEq]
  | cons x xs ih =>
    cases l' with
    | nil => simp [leavesEq] at h
    | cons y ys =>
      rw [leavesEq, andP_true] at h
      rw [List.map_cons, List.map_cons, Leaf.eq_hkey x y (hl _ (by simp)) (hl' _ (by simp)) h.1,
        ih ys (fun z hz => hl z (by simp [hz])) (fun z hz => hl' z (by simp [hz])) h.2]

theorem elem_hkey (c : ECls) (l l' : List Leaf) (ho : ElemOk c l) (ho' : ElemOk c l') (hl : ∀ x ∈ l, x.Unboxed)
    (hl' : ∀ x ∈ l', x.Unboxed) (h : leavesEq (elemLeaves c l) (elemLeaves c l') = some true) : elemHash c l = elemHash c l' := by
  have key : l.map Leaf.hkey = l'.map Leaf.hkey := by
    by_cases hc : c = .pixel
    · obtain ⟨w, f, rfl⟩ := ho.2 hc
      obtain ⟨w', f', rfl⟩ := ho'.2 hc
      subst hc
      have := leavesEq_hkey [w, f] [w', f'] (by intro x hx; exact hl x (by simp at hx ⊢; tauto))
        (by intro x hx; exact hl' x (by simp at hx ⊢; tauto)) h
      simp at this ⊢
      exact this
    · have e : ∀ l, elemLeaves c l = l := by
        intro l; cases c <;> first | exact absurd rfl hc | rfl
      rw [e, e] at h
      exact leavesEq_hkey l l' hl hl' h
  by_cases hm : c = .moffat
  · subst hm
    obtain ⟨h1, -⟩ := ho
    obtain ⟨h1', -⟩ := ho'
    obtain ⟨a, b, d, rfl⟩ := List.length_eq_three.1 h1
    obtain ⟨a', b', d', rfl⟩ := List.length_eq_three.1 h1'
    simp at key
    simp [elemHash, key]
  · have e : ∀ l, elemHash c l = l.map Leaf.hkey := by
      intro l; cases c <;> first | exact absurd rfl hm | rfl
    rw [e, e, key]

theorem GSP.eq_hkey (a b : GSP) (ha : a.Declared) (hb : b.Declared) (h : a.eq b = true) : a.hkey = b.hkey := by
  simp only [GSP.eq, decide_eq_true_eq] at h
  have hlen : a.length = b.length := by simpa using congrArg List.length h
  simp only [GSP.hkey, HKey.repr.injEq, true_and]
  apply List.ext_getElem
  · simp [hlen]
  · intro i h1 h2
    simp only [List.length_mapIdx] at h1 h2
    have hv : (a[i]).2 = (b[i]).2 := by
      have := congrArg (fun l => l[i]?) h
      simpa [h1, h2] using this
    simp only [List.getElem_mapIdx]
    by_cases hd : GSP.isD i = true
    · rw [if_pos hd, if_pos hd, hv]
    · rw [if_neg hd, if_neg hd, hv, ha i h1 (by simpa using hd), hb i h2 (by simpa using hd)]

mutual
theorem eq_hkey (same : Prof → Prof → Bool) (hs : ∀ p q, same p q = true → p = q) (p q : Prof) (hp : p.Tidy) (hq : q.Tidy)
    (he : p.eq same q = some true) : p.hkey = q.hkey := by
  by_cases h : same p q = true
  · rw [hs p q h]
  · cases p with
    | elem c l g =>
      cases q with
      | elem c' l' g' =>
        rw [Prof.eq, if_neg h] at he
        simp only [Prof.Tidy] at hp hq
        by_cases hc : c = c'
        · subst hc
          simp only [if_true, andP_true, Option.some.injEq] at he
          rw [Prof.hkey, Prof.hkey, elem_hkey c l l' hp.1 hq.1 hp.2.1 hq.2.1 he.1, GSP.eq_hkey g g' hp.2.2 hq.2.2 he.2]
        · simp [hc] at he
      | _ => simp [Prof.eq, h] at he
    | sum o g pr =>
      cases q with
      | sum o' g' pr' =>
        rw [Prof.eq, if_neg h] at he
        simp only [Prof.Tidy] at hp hq
        simp only [andP_true, Option.some.injEq, Bool.and_eq_true, beq_iff_eq] at he
        obtain ⟨h1, h2, rfl⟩ := he
        by_cases hl : o.length = o'.length
        · rw [if_pos hl] at h1
          rw [Prof.hkey, Prof.hkey, listEq_hkey same hs o o' hl hp.1 hq.1 h1, GSP.eq_hkey g g' hp.2 hq.2 h2]
        · rw [if_neg hl] at h1
          simp at h1
      | _ => simp [Prof.eq, h] at he
    | conv t o r g pr =>
      cases q with
      | conv t' o' r' g' pr' =>
        rw [Prof.eq, if_neg h] at he
        simp only [Prof.Tidy] at hp hq
        simp only [andP_true, Option.some.injEq, Bool.and_eq_true, beq_iff_eq] at he
        obtain ⟨h1, ⟨rfl, h2⟩, rfl⟩ := he
        by_cases hl : t = t' ∧ o.length = o'.length
        · rw [if_pos hl] at h1
          rw [Prof.hkey, Prof.hkey, listEq_hkey same hs o o' hl.2 hp.1 hq.1 h1, GSP.eq_hkey g g' hp.2 hq.2 h2]
        · rw [if_neg hl] at h1
          simp at h1
      | _ => simp [Prof.eq, h] at he
    | deconv o g pr =>
      cases q with
      | deconv o' g' pr' =>
        rw [Prof.eq, if_neg h] at he
        simp only [Prof.Tidy] at hp hq
        simp only [andP_true, Option.some.injEq, Bool.and_eq_true, beq_iff_eq] at he
        obtain ⟨h1, h2, rfl⟩ := he
        rw [Prof.hkey, Prof.hkey, eq_hkey same hs o o' hp.1 hq.1 h1, GSP.eq_hkey g g' hp.2 hq.2 h2]
      | _ => simp [Prof.eq, h] at he
    | trans o j dx dy f g pr =>
      cases q with
      | trans o' j' dx' dy' f' g' pr' =>
        rw [Prof.eq, if_neg h] at he
        simp only [Prof.Tidy] at hp hq
        simp only [andP_true, Option.some.injEq, Bool.and_eq_true, beq_iff_eq] at he
        obtain ⟨h1, hj, hx, hy, hf, h2, rfl⟩ := he
        rw [Prof.hkey, Prof.hkey, eq_hkey same hs o o' hp.1 hq.1 h1, entriesEq_iff j j' hj, Leaf.pyEq_hkey dx dx' hp.2.1 hq.2.1 hx,
          Leaf.pyEq_hkey dy dy' hp.2.2.1 hq.2.2.1 hy, Leaf.pyEq_hkey f f' hp.2.2.2.1 hq.2.2.2.1 hf,
          GSP.eq_hkey g g' hp.2.2.2.2 hq.2.2.2.2 h2]
      | _ => simp [Prof.eq, h] at he
theorem listEq_hkey (same : Prof → Prof → Bool) (hs : ∀ p q, same p q = true → p = q) (o o' : List Prof)
    (hl : o.length = o'.length) (ho : TidyL o) (ho' : TidyL o') (he : listEq same o o' = some true) :
    listKeys o = listKeys o' := by
  cases o with
  | nil => cases o' with
    | nil => rfl
    | cons _ _ => simp at hl
  | cons p ps => cases o' with
    | nil => simp at hl
    | cons q qs =>
      simp only [TidyL] at ho ho'
      rw [listEq, andP_true] at he
      rw [listKeys, listKeys, eq_hkey same hs p q ho.1 ho'.1 he.1, listEq_hkey same hs ps qs (by simpa using hl) ho.2 ho'.2 he.2]
end

/-- C86: profiles that compare equal have the same hash (also with array parameters and NaN), if their accuracy parameters have the
declared types and no parameter is a single number in an array with dimensions.  Missing: without this it is false, see below. -/
theorem C86_hash_partial (same : Prof → Prof → Bool) (hs : ∀ p q, same p q = true → p = q) (p q : Prof) (hp : p.Tidy) (hq : q.Tidy)
    (he : p.eq same q = some true) : p.hkey = q.hkey := eq_hkey same hs p q hp hq he

/-! ### Where it fails -/

/-- The default accuracy parameters (gsparams.py:11-23). -/
noncomputable def gsDefault : GSP :=
  [(.pyInt, 128), (.pyInt, 8192), (.pyFloat, 0.005), (.pyFloat, 5), (.pyFloat, 0.001), (.pyFloat, 0.00001), (.pyFloat, 0.00001),
    (.pyInt, 1), (.pyFloat, 0.0001), (.pyFloat, 0.000001), (.pyFloat, 0.000001), (.pyFloat, 0.00000001), (.pyFloat, 0.00001)]

/-- `GSParams(stepk_minimum_hlr=5)`. -/
noncomputable def gsInt : GSP := gsDefault.set 3 (.pyInt, 5)

/-- `Gaussian(sigma=2.0, flux=flux, gsparams=gs)`. -/
noncomputable def gauss (flux : Leaf) (gs : GSP) : Prof := .elem .gaussian [.num .pyFloat (some 2), flux] gs

/-- Disagreement: `GSParams(stepk_minimum_hlr=5)` equals the default `GSParams()` (where it is `5.0`), but its hash is that of a
different `repr`; so do profiles with these parameters. -/
theorem C86_hash_counterexample_gsparams : gsDefault.eq gsInt = true ∧ gsDefault.hkey ≠ gsInt.hkey ∧
    (gauss (.num .pyFloat (some 1)) gsDefault).eq (fun _ _ => false) (gauss (.num .pyFloat (some 1)) gsInt) = some true ∧
    (gauss (.num .pyFloat (some 1)) gsDefault).hkey ≠ (gauss (.num .pyFloat (some 1)) gsInt).hkey := by
  have h1 : gsDefault.eq gsInt = true := by simp [GSP.eq, gsDefault, gsInt]
  have h2 : gsDefault.hkey ≠ gsInt.hkey := by
    intro h
    simp only [GSP.hkey, HKey.repr.injEq, true_and] at h
    have := congrArg (fun l => (l[3]?).map Prod.fst) h
    simp [gsDefault, gsInt, GSP.isD] at this
  refine ⟨h1, h2, ?_, ?_⟩
  · simp [gauss, Prof.eq, elemLeaves, leavesEq, Leaf.eq, Leaf.pyEq, Leaf.entries, V.eq, andP, h1]
  · intro h
    simp only [gauss, Prof.hkey, elemHash, HKey.tup.injEq, List.map_cons, List.map_nil, List.cons_append, List.nil_append,
      List.cons.injEq, and_true, true_and] at h
    exact h2 h

/-- Disagreement: a number and the same number in an array with one entry compare equal from the left and different from the
right, and have different hashes. -/
theorem C86_counterexample_brackets :
    (gauss (.num .pyFloat (some 1)) gsDefault).eq (fun _ _ => false) (gauss (.arr [1] [some 1]) gsDefault) = some true ∧
    (gauss (.arr [1] [some 1]) gsDefault).eq (fun _ _ => false) (gauss (.num .pyFloat (some 1)) gsDefault) = some false ∧
    (gauss (.num .pyFloat (some 1)) gsDefault).hkey ≠ (gauss (.arr [1] [some 1]) gsDefault).hkey := by
  refine ⟨?_, ?_, ?_⟩
  · simp [gauss, Prof.eq, elemLeaves, leavesEq, Leaf.eq, Leaf.pyEq, Leaf.entries, V.eq, andP, GSP.eq]
  · simp [gauss, Prof.eq, elemLeaves, leavesEq, Leaf.eq, Leaf.pyEq, Leaf.entries, V.eq, andP]
  · simp [gauss, Prof.hkey, elemHash, Leaf.hkey, nestTuple, V.hkey]

/-- Disagreement: comparing a profile that has a number with one that has an array of two numbers raises instead of being
`False`; the other way round it is `False`. -/
theorem C86_counterexample_raises :
    (gauss (.num .pyFloat (some 1)) gsDefault).eq (fun _ _ => false) (gauss (.arr [2] [some 1, some 2]) gsDefault) = none ∧
    (gauss (.arr [2] [some 1, some 2]) gsDefault).eq (fun _ _ => false) (gauss (.num .pyFloat (some 1)) gsDefault) = some false := by
  refine ⟨?_, ?_⟩
  · simp [gauss, Prof.eq, elemLeaves, leavesEq, Leaf.eq, Leaf.pyEq, Leaf.entries, V.eq, andP]
  · simp [gauss, Prof.eq, elemLeaves, leavesEq, Leaf.eq, Leaf.pyEq, Leaf.entries, V.eq, andP]

/-- Disagreement: with `propagate_gsparams=False`, `Convolution(a, b)` and `Convolution([a, b])` are the same convolution, but
they compare different, because one keeps a tuple and the other a list. -/
theorem C86_counterexample_tuple (a b : Prof) :
    (Prof.conv true [a, b] false gsDefault false).meaning = (Prof.conv false [a, b] false gsDefault false).meaning ∧
    (Prof.conv true [a, b] false gsDefault false).eq (fun _ _ => false) (Prof.conv false [a, b] false gsDefault false) = some false := by
  refine ⟨rfl, ?_⟩
  simp [Prof.eq, andP]

/-! ### Local WCS -/

/-- A scalar shown as a Python float. -/
def Leaf.Float : Leaf → Prop
  | .num k v => k = .pyFloat ∧ v ≠ none
  | .arr s d => s = [] ∧ ∃ x, d = [some x]

/-- Both numbers of the WCS are floats. -/
def LWcs.Floats : LWcs → Prop
  | .pixelScale s => s.Float
  | .jacobian a b c d => a.Float ∧ b.Float ∧ c.Float ∧ d.Float

theorem Leaf.pyEq_shown (x y : Leaf) (hx : x.Float) (hy : y.Float) (h : x.pyEq y = some true) : x.shown = y.shown := by
  cases x with
  | num k v => cases y with
    | num k' v' =>
      simp only [Leaf.pyEq, Leaf.entries, Option.some.injEq] at h
      rw [Leaf.shown, Leaf.shown, hx.1, hy.1, ((V.eq_iff _ _).1 h).1]
    | arr s d =>
      obtain ⟨-, y, rfl⟩ := hy
      simp only [Leaf.pyEq, Leaf.entries, Option.some.injEq] at h
      rw [Leaf.shown, Leaf.shown, hx.1, ((V.eq_iff _ _).1 h).1]; rfl
  | arr s d =>
    obtain ⟨-, x, rfl⟩ := hx
    cases y with
    | num k' v' =>
      simp only [Leaf.pyEq, Leaf.entries, Option.some.injEq] at h
      rw [Leaf.shown, Leaf.shown, hy.1, ← ((V.eq_iff _ _).1 h).1]; rfl
    | arr s d =>
      obtain ⟨-, y, rfl⟩ := hy
      simp only [Leaf.pyEq, Leaf.entries, Option.some.injEq] at h
      rw [Leaf.shown, Leaf.shown, ((V.eq_iff _ _).1 h).1]

/-- C86: equal `PixelScale`s and `JacobianWCS`s of floats have the same hash.  Missing: for integers it is false, see below. -/
theorem C86_wcs_hash_partial (a b : LWcs) (ha : a.Floats) (hb : b.Floats) (h : a.eq b = some true) : a.hkey = b.hkey := by
  cases a with
  | pixelScale s => cases b with
    | pixelScale s' => rw [LWcs.hkey, LWcs.hkey, Leaf.pyEq_shown s s' ha hb h]
    | jacobian _ _ _ _ => simp [LWcs.eq] at h
  | jacobian p q r t => cases b with
    | pixelScale s' => simp [LWcs.eq] at h
    | jacobian p' q' r' t' =>
      simp only [LWcs.eq, andP_true] at h
      rw [LWcs.hkey, LWcs.hkey, Leaf.pyEq_shown p p' ha.1 hb.1 h.1, Leaf.pyEq_shown q q' ha.2.1 hb.2.1 h.2.1,
        Leaf.pyEq_shown r r' ha.2.2.1 hb.2.2.1 h.2.2.1, Leaf.pyEq_shown t t' ha.2.2.2 hb.2.2.2 h.2.2.2]

/-- Disagreement: `PixelScale(1) == PixelScale(1.0)`, but their hashes are those of different strings. -/
theorem C86_wcs_counterexample_int :
    (LWcs.pixelScale (.num .pyInt (some 1))).eq (.pixelScale (.num .pyFloat (some 1))) = some true ∧
    (LWcs.pixelScale (.num .pyInt (some 1))).hkey ≠ (LWcs.pixelScale (.num .pyFloat (some 1))).hkey := by
  simp [LWcs.eq, Leaf.pyEq, Leaf.entries, V.eq, LWcs.hkey, Leaf.shown]

/-! ### Concrete cases -/

theorem gsDefault_declared : gsDefault.Declared := by
  intro i h hd
  simp only [gsDefault, List.length_cons, List.length_nil] at h
  interval_cases i <;> simp_all [GSP.isD, gsDefault]

/-- A sum of a Gaussian (with an array flux) and a shifted convolution. -/
noncomputable def exProf (flux : Leaf) (ratio : Leaf) : Prof :=
  .sum [gauss flux gsDefault,
    .trans (.conv false [.elem .pixel [.num .pyFloat (some 0.2), .num .pyFloat (some 0.2), .num .pyInt (some 1)] gsDefault,
        .elem .moffat [.num .pyFloat (some 2.5), .num .pyFloat (some 1), flux] gsDefault] false gsDefault true)
      [some 1, some 0.5, some 0, some 1] (.num .pyFloat (some 3)) (.num .pyFloat (some 0)) ratio gsDefault true] gsDefault true

/-- The hypotheses of `C86_equal_partial` and `C86_hash_partial` hold for nested profiles with numbers of different types. -/
example (x : ℝ) : (exProf (.num .pyInt (some x)) (.num .numpy (some 2))).Plain ∧
    (exProf (.arr [] [some x]) (.num .pyFloat (some 2))).Plain ∧ (exProf (.num .pyInt (some x)) (.num .numpy (some 2))).Tidy ∧
    (exProf (.arr [] [some x]) (.num .pyFloat (some 2))).Tidy := by
  refine ⟨?_, ?_, ?_, ?_⟩ <;>
    simp [exProf, gauss, Prof.Plain, PlainL, Prof.Tidy, TidyL, ElemOk, ECls.keys, Leaf.Scalar, Leaf.Unboxed, Leaf.shape, gsDefault_declared]

/-- They are equal and have the same hash. -/
example (x : ℝ) : (exProf (.num .pyInt (some x)) (.num .numpy (some 2))).eq (fun _ _ => false)
    (exProf (.arr [] [some x]) (.num .pyFloat (some 2))) = some true := by
  rw [C86_equal_partial _ (by simp) _ _ (by
    simp [exProf, gauss, Prof.Plain, PlainL, ElemOk, ECls.keys, Leaf.Scalar]) (by
    simp [exProf, gauss, Prof.Plain, PlainL, ElemOk, ECls.keys, Leaf.Scalar])]
  simp [exProf, gauss, Prof.meaning, meanings, Leaf.number]

/-- A different flux makes them different. -/
example : (exProf (.num .pyInt (some 1)) (.num .numpy (some 2))).eq (fun _ _ => false)
    (exProf (.arr [] [some 4]) (.num .pyFloat (some 2))) = some false := by
  rw [C86_equal_partial _ (by simp) _ _ (by
    simp [exProf, gauss, Prof.Plain, PlainL, ElemOk, ECls.keys, Leaf.Scalar]) (by
    simp [exProf, gauss, Prof.Plain, PlainL, ElemOk, ECls.keys, Leaf.Scalar])]
  simp [exProf, gauss, Prof.meaning, meanings, Leaf.number]

example : (LWcs.jacobian (.num .pyFloat (some 0.2)) (.num .pyFloat (some 0)) (.arr [] [some 0]) (.arr [] [some 0.2])).Floats := by
  simp [LWcs.Floats, Leaf.Float]

end JG.EqH
