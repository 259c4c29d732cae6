import Verif.Model.Position
import Mathlib.Tactic.Linarith
import Mathlib.Tactic.Ring
import Mathlib.Tactic.FieldSimp

/-! Property C07: positions. -/

namespace JG

theorem asInt_intCast (n : ℤ) : asInt (n : ℝ) = some n := by simp [asInt]
theorem asInt_some {x : ℝ} {n : ℤ} (h : asInt x = some n) : x = n := by
  unfold asInt at h
  split at h
  · rename_i hx; rw [← Option.some.inj h]; exact hx
  · exact absurd h (by simp)

/-- Specification of the result class: integer only if both are integer. -/
def Position.isI : Position → Bool
  | .I _ _ => true
  | .D _ _ => false

/-- C07: sums, differences and negatives are coordinate-wise, and the result is a `PositionI`
exactly when both operands are. -/
theorem C07_add_sub_neg (a b : Position) :
    (a.add b).val = a.val + b.val ∧ (a.add b).isI = (a.isI && b.isI) ∧
    (a.sub b).val = a.val - b.val ∧ (a.sub b).isI = (a.isI && b.isI) ∧
    a.neg.val = -a.val ∧ a.neg.isI = a.isI := by
  cases a <;> cases b <;> simp [Position.add, Position.sub, Position.neg, Position.val, Position.isI]

/-- Two positions of the same class with the same coordinates are the same. -/
theorem Position.ext_val {a b : Position} (hv : a.val = b.val) (hi : a.isI = b.isI) : a = b := by
  cases a <;> cases b <;> simp_all [Position.val, Position.isI]

/-- C07: abelian-group laws (as equality of the resulting positions, class included). -/
theorem C07_group_laws (a b c : Position) :
    a.add b = b.add a ∧ (a.add b).add c = a.add (b.add c) ∧ a.sub b = a.add b.neg ∧
    (a.add a.neg).val = 0 ∧ (a.add b).sub b = (if b.isI then a else a.toD) ∧ a.neg.neg = a := by
  cases a <;> cases b <;> cases c <;>
    simp [Position.add, Position.sub, Position.neg, Position.val, Position.isI, Position.toD,
      add_comm, add_left_comm, sub_eq_add_neg] <;> (constructor <;> ring)

/-- C07: mixing classes gives the `PositionD` one gets by converting both operands first. -/
theorem C07_mixed (a b : Position) : (a.add b).toD = a.toD.add b.toD ∧
    (a.sub b).toD = a.toD.sub b.toD := by
  cases a <;> cases b <;> simp [Position.add, Position.sub, Position.toD, Position.val]

/-- C07: scaling is coordinate-wise and keeps the class; a `PositionI` can be scaled by an integer
only, a `PositionD` by anything. -/
theorem C07_mul (a : Position) (s : ℝ) :
    (∀ p, a.mul s = some p → p.val = (a.val.1 * s, a.val.2 * s) ∧ p.isI = a.isI) ∧
    ((a.mul s).isSome ↔ (a.isI = true → ∃ n : ℤ, s = n)) := by
  cases a with
  | D x y => simp [Position.mul, Position.val, Position.isI]
  | I x y =>
    constructor
    · intro p hp
      simp only [Position.mul, mkPosI] at hp
      split at hp
      · split at hp
        · rename_i h1 h2
          cases Option.some.inj hp
          simp only [Position.val, Position.isI, and_true]
          rw [← asInt_some h1, ← asInt_some h2]
        · exact absurd hp (by simp)
      · exact absurd hp (by simp)
    · constructor
      · intro h _
        simp only [Position.mul] at h
        split at h
        · rename_i hs
          obtain ⟨n, hn⟩ := Option.isSome_iff_exists.mp hs
          exact ⟨n, asInt_some hn⟩
        · exact absurd h (by simp)
      · intro h
        obtain ⟨n, rfl⟩ := h rfl
        have e1 : asInt ((x : ℝ) * (n : ℝ)) = some (x * n) := by
          rw [← Int.cast_mul]; exact asInt_intCast _
        have e2 : asInt ((y : ℝ) * (n : ℝ)) = some (y * n) := by
          rw [← Int.cast_mul]; exact asInt_intCast _
        simp [Position.mul, mkPosI, asInt_intCast, e1, e2]

/-- C07: scaling by a non-zero number and dividing by it are inverse. -/
theorem C07_mul_div (a p : Position) (s : ℝ) (hs : s ≠ 0) (h : a.mul s = some p) :
    p.div s = some a := by
  cases a with
  | D x y =>
    simp only [Position.mul, Option.some.injEq] at h
    subst h
    simp only [Position.div, hs, ne_eq, not_false_eq_true, if_true]
    congr 2 <;> field_simp
  | I x y =>
    have hI : p.isI = true := (((C07_mul (.I x y) s).1 p h).2).trans rfl
    have hv := ((C07_mul (.I x y) s).1 p h).1
    have hs' : ∃ n : ℤ, s = n := by
      have := (C07_mul (.I x y) s).2.mp (by simp [h])
      exact this rfl
    obtain ⟨n, rfl⟩ := hs'
    cases p with
    | D u v => exact absurd hI (by simp [Position.isI])
    | I u v =>
      simp only [Position.val, Prod.mk.injEq] at hv
      have e1 : (u : ℝ) / (n : ℝ) = x := by rw [hv.1]; field_simp
      have e2 : (v : ℝ) / (n : ℝ) = y := by rw [hv.2]; field_simp
      simp only [Position.div, mkPosI, e1, e2, asInt_intCast]
      simp [hs]

/-- C07: division, when it succeeds, is undone by scaling; it fails on zero and when an integer
position would get non-integer coordinates. -/
theorem C07_div_mul (a p : Position) (s : ℝ) (h : a.div s = some p) :
    s ≠ 0 ∧ p.isI = a.isI ∧ p.mul s = some a := by
  cases a with
  | D x y =>
    simp only [Position.div] at h
    split at h
    · rename_i hs
      cases Option.some.inj h
      refine ⟨hs, rfl, ?_⟩
      simp only [Position.mul]
      congr 2 <;> field_simp
    · exact absurd h (by simp)
  | I x y =>
    simp only [Position.div, mkPosI] at h
    split at h
    · rename_i hs
      obtain ⟨hs1, hs⟩ := hs
      obtain ⟨n, hn⟩ := Option.isSome_iff_exists.mp hs1
      split at h
      · rename_i u v h1 h2
        cases Option.some.inj h
        refine ⟨hs, rfl, ?_⟩
        have q1 := asInt_some h1
        have q2 := asInt_some h2
        have e1 : (u : ℝ) * s = x := by rw [← q1]; field_simp
        have e2 : (v : ℝ) * s = y := by rw [← q2]; field_simp
        simp [Position.mul, mkPosI, e1, e2, asInt_intCast, hn]
      · exact absurd h (by simp)
    · exact absurd h (by simp)

/-- C07: scaling distributes over addition of float positions and multiplies up. -/
theorem C07_module_laws (x y x' y' s t : ℝ) :
    ((Position.D x y).add (.D x' y')).mul s =
      (do let a ← (Position.D x y).mul s; let b ← (Position.D x' y').mul s; pure (a.add b)) ∧
    (do let a ← (Position.D x y).mul s; a.mul t) = (Position.D x y).mul (s * t) ∧
    (Position.D x y).mul (s + t) =
      (do let a ← (Position.D x y).mul s; let b ← (Position.D x y).mul t; pure (a.add b)) ∧
    (Position.D x y).mul 1 = some (.D x y) := by
  refine ⟨?_, ?_, ?_, ?_⟩ <;> simp [Position.mul, Position.add] <;> constructor <;> ring

/-- Rounding to nearest, ties to even. -/
theorem roundHalfEven_spec (x : ℝ) : |(roundHalfEven x : ℝ) - x| ≤ 1/2 ∧
    (|(roundHalfEven x : ℝ) - x| = 1/2 → roundHalfEven x % 2 = 0) := by
  have h0 := Int.floor_add_fract x
  have h1 := Int.fract_nonneg x
  have h2 := Int.fract_lt_one x
  unfold roundHalfEven
  split
  · rename_i h
    have e : ((⌊x⌋ : ℤ) : ℝ) - x = -Int.fract x := by linarith
    rw [e, abs_neg, abs_of_nonneg h1]
    exact ⟨h.le, fun hh => absurd hh h.ne⟩
  · split
    · rename_i h' h
      have e : ((⌊x⌋ + 1 : ℤ) : ℝ) - x = 1 - Int.fract x := by push_cast; linarith
      rw [e, abs_of_nonneg (by linarith)]
      exact ⟨by linarith, fun hh => absurd hh (by intro; linarith)⟩
    · rename_i h h'
      have hf : Int.fract x = 1/2 := le_antisymm (not_lt.mp h') (not_lt.mp h)
      split
      · rename_i he
        have e : ((⌊x⌋ : ℤ) : ℝ) - x = -(1/2) := by linarith
        rw [e, abs_neg]
        exact ⟨by norm_num, fun _ => he⟩
      · rename_i he
        have e : ((⌊x⌋ + 1 : ℤ) : ℝ) - x = 1/2 := by push_cast; linarith
        rw [e]
        refine ⟨by norm_num, fun _ => by omega⟩

/-- C07: `round()` gives an integer position nearest to the input in each coordinate (no integer is
closer), halves go to the even neighbour, and integer positions are unchanged. -/
theorem C07_round (p : Position) : ∃ a b : ℤ, p.round = .I a b ∧
    (∀ n : ℤ, |(a : ℝ) - p.val.1| ≤ |(n : ℝ) - p.val.1|) ∧
    (∀ n : ℤ, |(b : ℝ) - p.val.2| ≤ |(n : ℝ) - p.val.2|) ∧
    (|(a : ℝ) - p.val.1| = 1/2 → a % 2 = 0) ∧ (|(b : ℝ) - p.val.2| = 1/2 → b % 2 = 0) ∧
    (p.isI = true → p.round = p) := by
  have near : ∀ (x : ℝ) (m n : ℤ), |(m : ℝ) - x| ≤ 1/2 → |(m : ℝ) - x| ≤ |(n : ℝ) - x| := by
    intro x m n h
    by_cases hmn : n = m
    · rw [hmn]
    · have h1 : (1 : ℝ) ≤ |((n - m : ℤ) : ℝ)| := by
        rw [← Int.cast_abs]
        exact_mod_cast Int.one_le_abs (sub_ne_zero.mpr hmn)
      have h2 : |((n - m : ℤ) : ℝ)| ≤ |(n : ℝ) - x| + |(m : ℝ) - x| := by
        have := abs_sub (( n : ℝ) - x) ((m : ℝ) - x)
        push_cast
        calc |(n : ℝ) - m| = |((n : ℝ) - x) - ((m : ℝ) - x)| := by congr 1; ring
          _ ≤ _ := this
      linarith
  refine ⟨_, _, rfl, fun n => near _ _ _ (roundHalfEven_spec _).1,
    fun n => near _ _ _ (roundHalfEven_spec _).1, (roundHalfEven_spec _).2,
    (roundHalfEven_spec _).2, ?_⟩
  cases p with
  | D x y => simp [Position.isI]
  | I x y => intro _; simp [Position.round, Position.val, roundHalfEven]

/-- C07: shearing is linear. -/
theorem C07_shear_linear (m : Mat2) (a b : Position) :
    (a.add b).shear m = (a.shear m).add (b.shear m) ∧
    (∀ s p, a.mul s = some p → some (p.shear m) = (a.shear m).mul s) := by
  constructor
  · have h := (C07_add_sub_neg a b).1
    cases a <;> cases b <;> simp only [Position.shear, Mat2.app, Position.add, Position.val] <;>
      congr 1 <;> push_cast <;> ring
  · intro s p hp
    have h := ((C07_mul a s).1 p hp).1
    simp only [Position.shear, Mat2.app, h, Position.mul]
    congr 2 <;> ring

/-- C07: pytree round trip; equality is structural and equal positions hash equal. -/
theorem C07_pytree_eq_hash (a b : Position) : a.flatten.unflatten = a ∧
    (a.eq b ↔ a = b) ∧ (a.eq b → a.hashKey = b.hashKey) := by
  cases a <;> cases b <;> simp [Position.flatten, PosFlat.unflatten, Position.eq, Position.hashKey]

-- instances
example : (Position.I 3 (-4)).mul 2 = some (.I 6 (-8)) := by
  have := (C07_mul (.I 3 (-4)) 2)
  obtain ⟨p, hp⟩ := Option.isSome_iff_exists.mp (this.2.mpr (fun _ => ⟨2, by norm_num⟩))
  rw [hp]
  have h := this.1 p hp
  congr 1
  apply Position.ext_val
  · rw [h.1]; norm_num [Position.val]
  · exact h.2
example : (Position.I 3 (-4)).div 2 = none := by
  have h1 : asInt ((3 : ℤ) / (2 : ℝ)) = none := by
    have hf : ⌊((3 : ℤ) / (2 : ℝ))⌋ = 1 := by rw [Int.floor_eq_iff]; norm_num
    simp only [asInt, hf]; norm_num
  simp only [Position.div, mkPosI, h1]
  split <;> rfl
example : (Position.D 2.5 (-0.7)).round = .I 2 (-1) := by
  have f1 : ⌊(2.5 : ℝ)⌋ = 2 := by rw [Int.floor_eq_iff]; norm_num
  have f2 : ⌊(-0.7 : ℝ)⌋ = -1 := by rw [Int.floor_eq_iff]; norm_num
  simp only [Position.round, Position.val, roundHalfEven, Int.fract, f1, f2]
  norm_num

end JG
