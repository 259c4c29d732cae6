import Verif.Props.FitsWcsTab
import Verif.Props.JacDeproject
import Mathlib.Analysis.Calculus.Deriv.Pow

/-!
C60: Newton inversion of the distortion polynomials.  C74: the local Jacobian of a FITS WCS.
-/

namespace JG.FitsW
open Finset Filter Topology

/-! ### C60: the derivative tables -/

theorem triPoly_dx (n : ℕ) (c : ℕ → ℕ → ℝ) (x y : ℝ) :
    HasDerivAt (fun t => triPoly n c t y) (triPoly (n - 1) (fun i j => ((i + 1 : ℕ) : ℝ) * c (i + 1) j) x y) x := by
  cases n with
  | zero =>
    unfold triPoly
    simpa using hasDerivAt_const x (0 : ℝ)
  | succ m =>
    have e : (fun t => triPoly (m + 1) c t y) =
        fun t => (∑ i ∈ range m, ∑ j ∈ range (m - i), c (i + 1) j * y ^ j * t ^ (i + 1)) + ∑ j ∈ range (m + 1), c 0 j * y ^ j := by
      funext t
      rw [triPoly_range, sum_range_succ']
      simp only [Nat.add_sub_add_right, pow_zero, mul_one, Nat.sub_zero]
      congr 1
      exact sum_congr rfl fun i _ => sum_congr rfl fun j _ => by ring
    rw [e]
    have hd : ∀ i ∈ range m, HasDerivAt (fun t : ℝ => ∑ j ∈ range (m - i), c (i + 1) j * y ^ j * t ^ (i + 1))
        (∑ j ∈ range (m - i), c (i + 1) j * y ^ j * (((i + 1 : ℕ) : ℝ) * x ^ i)) x := by
      intro i _
      refine HasDerivAt.fun_sum fun j _ => ?_
      have := hasDerivAt_pow (i + 1) x
      exact this.const_mul _
    have h := (HasDerivAt.fun_sum hd).add_const (∑ j ∈ range (m + 1), c 0 j * y ^ j)
    refine hasDerivAt_of_eq h ?_
    rw [triPoly_range, Nat.add_sub_cancel]
    exact sum_congr rfl fun i _ => sum_congr rfl fun j _ => by ring

/-- C60: the derivative tables of the inversion are the partial derivatives of the polynomial. -/
theorem C60_derivatives (t : Tab) (x y : ℝ) :
    HasDerivAt (fun s => t.eval s y) (t.dx.eval x y) x ∧ HasDerivAt (fun s => t.eval x s) (t.dy.eval x y) y := by
  simp only [eval_eq]
  refine ⟨triPoly_dx t.n t.c x y, ?_⟩
  have h := triPoly_dx t.n (fun i j => t.c j i) y x
  have e : (fun s => triPoly t.n (fun i j => t.c j i) s x) = fun s => triPoly t.n t.c x s := by
    funext s; exact (triPoly_swap t.n t.c x s).symm
  rw [e, triPoly_swap] at h
  exact h

/-! ### C60: one step and the loop -/

/-- What one step establishes: the linearisation of the distortion at the old position, taken at the new position, is the
requested value. -/
def Solves (ab : Tab × Tab) (u v x' y' x y : ℝ) : Prop :=
  ab.1.eval x' y' + (deriv (fun s => ab.1.eval s y') x' * (x - x') + deriv (fun s => ab.1.eval x' s) y' * (y - y')) = u ∧
  ab.2.eval x' y' + (deriv (fun s => ab.2.eval s y') x' * (x - x') + deriv (fun s => ab.2.eval x' s) y' * (y - y')) = v

theorem solves_iff (ab : Tab × Tab) (u v x' y' x y : ℝ) : Solves ab u v x' y' x y ↔
    ab.1.eval x' y' + (ab.1.dx.eval x' y' * (x - x') + ab.1.dy.eval x' y' * (y - y')) = u ∧
    ab.2.eval x' y' + (ab.2.dx.eval x' y' * (x - x') + ab.2.dy.eval x' y' * (y - y')) = v := by
  unfold Solves
  rw [(C60_derivatives ab.1 x' y').1.deriv, (C60_derivatives ab.1 x' y').2.deriv, (C60_derivatives ab.2 x' y').1.deriv,
    (C60_derivatives ab.2 x' y').2.deriv]

theorem step_spec (ab : Tab × Tab) (u v : ℝ) (s s' : NState) (h : newtonStep ab u v s = some s') :
    s'.x = s.x + s'.dx ∧ s'.y = s.y + s'.dy ∧ Solves ab u v s.x s.y s'.x s'.y := by
  unfold newtonStep at h
  simp only at h
  split_ifs at h with hd
  obtain rfl := Option.some.inj h
  refine ⟨rfl, rfl, (solves_iff _ _ _ _ _ _ _).mpr ?_⟩
  obtain ⟨D, hD⟩ : ∃ D, D = ab.1.dx.eval s.x s.y * ab.2.dy.eval s.x s.y - ab.1.dy.eval s.x s.y * ab.2.dx.eval s.x s.y := ⟨_, rfl⟩
  simp only [← hD] at hd ⊢
  constructor
  · rw [add_sub_cancel_left, add_sub_cancel_left]
    field_simp
    rw [hD]; ring
  · rw [add_sub_cancel_left, add_sub_cancel_left]
    field_simp
    rw [hD]; ring

/-- C60: a returned position comes from a Newton step that moved by at most 2e-12: the linearisation of the distortion at the
previous position gives exactly the requested value at the returned one. -/
theorem C60_sound (u v : ℝ) (ab : Tab × Tab) (abp : Option (Tab × Tab)) (x y : ℝ) (h : invertAb u v ab abp = .val x y) :
    ∃ x' y', Solves ab u v x' y' x y ∧ |x - x'| ≤ 2e-12 ∧ |y - y'| ≤ 2e-12 := by
  unfold invertAb at h
  simp only at h
  split at h
  · exact absurd h (fun h => nomatch h)
  · rename_i s hs
    split_ifs at h with hm
    obtain ⟨h1, h2⟩ := NRes.val.inj h
    subst h1 h2
    rw [newtonLoop] at hs
    obtain ⟨p, hp, hps⟩ := Option.bind_eq_some_iff.mp hs
    obtain ⟨e1, e2, e3⟩ := step_spec ab u v p s hps
    push Not at hm
    refine ⟨p.x, p.y, e3, ?_, ?_⟩
    · rw [e1, add_sub_cancel_left]; exact (le_max_left _ _).trans hm
    · rw [e2, add_sub_cancel_left]; exact (le_max_right _ _).trans hm

/-- C60: if the last step did not move, the distortion at the returned position is exactly the requested value. -/
theorem C60_exact (ab : Tab × Tab) (u v x y : ℝ) (h : Solves ab u v x y x y) : applyAb ab x y = (u, v) := by
  obtain ⟨h1, h2⟩ := h
  unfold applyAb
  rw [Prod.mk.injEq]
  constructor
  · rw [← h1]; ring
  · rw [← h2]; ring

/-- C60: in any case the distortion at the previous position misses the requested value by at most 2e-12 times the sum
of the sizes of the partial derivatives there. -/
theorem C60_residual (ab : Tab × Tab) (u v x' y' x y : ℝ) (h : Solves ab u v x' y' x y) (hx : |x - x'| ≤ 2e-12) (hy : |y - y'| ≤ 2e-12) :
    |(applyAb ab x' y').1 - u| ≤ (|deriv (fun s => ab.1.eval s y') x'| + |deriv (fun s => ab.1.eval x' s) y'|) * 2e-12 ∧
    |(applyAb ab x' y').2 - v| ≤ (|deriv (fun s => ab.2.eval s y') x'| + |deriv (fun s => ab.2.eval x' s) y'|) * 2e-12 := by
  have key : ∀ p a b w : ℝ, p + (a * (x - x') + b * (y - y')) = w → |p - w| ≤ (|a| + |b|) * 2e-12 := by
    intro p a b w hw
    have e : p - w = -(a * (x - x') + b * (y - y')) := by rw [← hw]; ring
    rw [e, abs_neg]
    calc |a * (x - x') + b * (y - y')| ≤ |a * (x - x')| + |b * (y - y')| := abs_add_le _ _
      _ = |a| * |x - x'| + |b| * |y - y'| := by rw [abs_mul, abs_mul]
      _ ≤ |a| * 2e-12 + |b| * 2e-12 := add_le_add (mul_le_mul_of_nonneg_left hx (abs_nonneg _)) (mul_le_mul_of_nonneg_left hy (abs_nonneg _))
      _ = _ := by ring
  exact ⟨key _ _ _ _ h.1, key _ _ _ _ h.2⟩

/-- The determinant of the partial derivatives. -/
noncomputable def jdet (ab : Tab × Tab) (x y : ℝ) : ℝ :=
  deriv (fun s => ab.1.eval s y) x * deriv (fun s => ab.2.eval x s) y - deriv (fun s => ab.1.eval x s) y * deriv (fun s => ab.2.eval s y) x

theorem jdet_eq (ab : Tab × Tab) (x y : ℝ) :
    jdet ab x y = ab.1.dx.eval x y * ab.2.dy.eval x y - ab.1.dy.eval x y * ab.2.dx.eval x y := by
  unfold jdet
  rw [(C60_derivatives ab.1 x y).1.deriv, (C60_derivatives ab.1 x y).2.deriv, (C60_derivatives ab.2 x y).1.deriv,
    (C60_derivatives ab.2 x y).2.deriv]

/-- The starting position of the iteration. -/
noncomputable def startPos (u v : ℝ) (abp : Option (Tab × Tab)) : ℝ × ℝ :=
  match abp with
  | none => (u, v)
  | some p => (p.1.evalFull u v, p.2.evalFull u v)

theorem invertAb_some (u v : ℝ) (ab : Tab × Tab) (abp : Option (Tab × Tab)) (s : NState)
    (h : newtonLoop ab u v 10 ⟨(startPos u v abp).1, (startPos u v abp).2, 0, 0⟩ = some s) :
    invertAb u v ab abp = if max |s.dx| |s.dy| > (2e-12 : ℝ) then .err else .val s.x s.y := by
  cases abp <;> (simp only [startPos] at h; unfold invertAb; simp only [h])

theorem invertAb_none (u v : ℝ) (ab : Tab × Tab) (abp : Option (Tab × Tab))
    (h : newtonLoop ab u v 10 ⟨(startPos u v abp).1, (startPos u v abp).2, 0, 0⟩ = none) : invertAb u v ab abp = .nan := by
  cases abp <;> (simp only [startPos] at h; unfold invertAb; simp only [h])

/-- A step from a solution stays there. -/
theorem step_fixed (ab : Tab × Tab) (u v : ℝ) (s : NState) (hs : applyAb ab s.x s.y = (u, v)) (hd : jdet ab s.x s.y ≠ 0) :
    newtonStep ab u v s = some ⟨s.x, s.y, 0, 0⟩ := by
  rw [jdet_eq] at hd
  have h1 : ab.1.eval s.x s.y = u := congrArg Prod.fst hs
  have h2 : ab.2.eval s.x s.y = v := congrArg Prod.snd hs
  unfold newtonStep
  simp only
  rw [if_neg hd, h1, h2]
  simp

theorem loop_fixed (ab : Tab × Tab) (u v : ℝ) (s : NState) (hs : applyAb ab s.x s.y = (u, v)) (hd : jdet ab s.x s.y ≠ 0) (n : ℕ) :
    ∃ s', newtonLoop ab u v n s = some s' ∧ s'.x = s.x ∧ s'.y = s.y ∧ (0 < n → s'.dx = 0 ∧ s'.dy = 0) := by
  induction n with
  | zero => exact ⟨s, rfl, rfl, rfl, fun h => absurd h (lt_irrefl 0)⟩
  | succ n ih =>
    obtain ⟨s', h1, h2, h3, _⟩ := ih
    refine ⟨⟨s'.x, s'.y, 0, 0⟩, ?_, h2, h3, fun _ => ⟨rfl, rfl⟩⟩
    rw [newtonLoop, h1, Option.bind_some]
    exact step_fixed ab u v s' (by rw [h2, h3]; exact hs) (by rw [h2, h3]; exact hd)

/-- C60: started at a solution with a regular Jacobian, the inversion returns it. -/
theorem C60_fixed (u v : ℝ) (ab : Tab × Tab) (abp : Option (Tab × Tab))
    (hs : applyAb ab (startPos u v abp).1 (startPos u v abp).2 = (u, v)) (hd : jdet ab (startPos u v abp).1 (startPos u v abp).2 ≠ 0) :
    invertAb u v ab abp = .val (startPos u v abp).1 (startPos u v abp).2 := by
  obtain ⟨s', h1, h2, h3, h4⟩ := loop_fixed ab u v ⟨(startPos u v abp).1, (startPos u v abp).2, 0, 0⟩ hs hd 10
  obtain ⟨d1, d2⟩ := h4 (by norm_num)
  rw [invertAb_some u v ab abp s' h1, d1, d2, if_neg (by norm_num), h2, h3]

theorem tab2_eval (t : Tab) (hn : t.n = 2) (x y : ℝ) : t.eval x y = t.c 0 0 + t.c 0 1 * y + t.c 1 0 * x ∧
    t.dx.eval x y = t.c 1 0 ∧ t.dy.eval x y = t.c 0 1 := by
  rw [eval_eq, eval_eq, eval_eq]
  simp only [Tab.dx, Tab.dy, hn, triPoly_range]
  refine ⟨by simp [sum_range_succ], by simp, by simp⟩

/-- C60: a regular linear distortion is inverted exactly, whatever the starting position. -/
theorem C60_linear (u v : ℝ) (ab : Tab × Tab) (abp : Option (Tab × Tab)) (n1 : ab.1.n = 2) (n2 : ab.2.n = 2)
    (hd : ab.1.c 1 0 * ab.2.c 0 1 - ab.1.c 0 1 * ab.2.c 1 0 ≠ 0) :
    ∃ x y, invertAb u v ab abp = .val x y ∧ applyAb ab x y = (u, v) := by
  have dets : ∀ x y, jdet ab x y ≠ 0 := by
    intro x y
    rw [jdet_eq, (tab2_eval ab.1 n1 x y).2.1, (tab2_eval ab.1 n1 x y).2.2, (tab2_eval ab.2 n2 x y).2.1, (tab2_eval ab.2 n2 x y).2.2]
    exact hd
  have step : ∀ s : NState, ∃ s', newtonStep ab u v s = some s' ∧ applyAb ab s'.x s'.y = (u, v) := by
    intro s
    have : ∃ s', newtonStep ab u v s = some s' := by
      unfold newtonStep
      simp only
      have := dets s.x s.y
      rw [jdet_eq] at this
      rw [if_neg this]
      exact ⟨_, rfl⟩
    obtain ⟨s', hs'⟩ := this
    refine ⟨s', hs', ?_⟩
    obtain ⟨_, _, e3⟩ := step_spec ab u v s s' hs'
    rw [solves_iff, (tab2_eval ab.1 n1 _ _).1, (tab2_eval ab.1 n1 _ _).2.1, (tab2_eval ab.1 n1 _ _).2.2, (tab2_eval ab.2 n2 _ _).1,
      (tab2_eval ab.2 n2 _ _).2.1, (tab2_eval ab.2 n2 _ _).2.2] at e3
    unfold applyAb
    rw [(tab2_eval ab.1 n1 _ _).1, (tab2_eval ab.2 n2 _ _).1, Prod.mk.injEq]
    exact ⟨by linarith [e3.1], by linarith [e3.2]⟩
  have loop : ∀ n s, ∃ s', newtonLoop ab u v (n + 1) s = some s' ∧ applyAb ab s'.x s'.y = (u, v) := by
    intro n
    induction n with
    | zero => intro s; rw [newtonLoop, newtonLoop, Option.bind_some]; exact step s
    | succ n ih =>
      intro s
      obtain ⟨s1, h1, _⟩ := ih s
      rw [newtonLoop, h1, Option.bind_some]
      exact step s1
  obtain ⟨s9, h9, sol9⟩ := loop 8 ⟨(startPos u v abp).1, (startPos u v abp).2, 0, 0⟩
  refine ⟨s9.x, s9.y, ?_, sol9⟩
  have h10 : newtonLoop ab u v 10 ⟨(startPos u v abp).1, (startPos u v abp).2, 0, 0⟩ = some ⟨s9.x, s9.y, 0, 0⟩ := by
    rw [newtonLoop, h9, Option.bind_some]
    exact step_fixed ab u v s9 sol9 (dets _ _)
  rw [invertAb_some u v ab abp _ h10, if_neg (by norm_num)]

example : ∃ x y, invertAb 3 4 shearTab none = .val x y ∧ applyAb shearTab x y = (3, 4) :=
  C60_linear 3 4 shearTab none rfl rfl (by norm_num [shearTab])

/-- The table of `x²` with the table of `y`. -/
noncomputable def sqTab : Tab × Tab :=
  (⟨3, fun i j => if i = 2 ∧ j = 0 then 1 else 0⟩, ⟨3, fun i j => if i = 0 ∧ j = 1 then 1 else 0⟩)

theorem sqTab_eval (x y : ℝ) : sqTab.1.eval x y = x ^ 2 ∧ sqTab.2.eval x y = y ∧ sqTab.1.dx.eval x y = 2 * x ∧
    sqTab.1.dy.eval x y = 0 ∧ sqTab.2.dx.eval x y = 0 ∧ sqTab.2.dy.eval x y = 1 := by
  simp only [eval_eq, triPoly_range, Tab.dx, Tab.dy, sqTab]
  refine ⟨?_, ?_, ?_, ?_, ?_, ?_⟩ <;> norm_num [sum_range_succ]

example : invertAb 1 5 sqTab none = .val 1 5 := by
  have e := sqTab_eval 1 5
  refine C60_fixed 1 5 sqTab none ?_ ?_
  · simp [startPos, applyAb, e.1, e.2.1]
  · rw [jdet_eq]
    simp [startPos, e]

/-- C60: where the Jacobian of the start is singular the result is NaN, without an error. -/
theorem C60_singular (u v : ℝ) (ab : Tab × Tab) (abp : Option (Tab × Tab))
    (hd : jdet ab (startPos u v abp).1 (startPos u v abp).2 = 0) : invertAb u v ab abp = .nan := by
  have h1 : newtonLoop ab u v 1 ⟨(startPos u v abp).1, (startPos u v abp).2, 0, 0⟩ = none := by
    rw [newtonLoop, newtonLoop, Option.bind_some]
    unfold newtonStep
    simp only
    rw [jdet_eq] at hd
    rw [if_pos hd]
  have hn : ∀ n, newtonLoop ab u v (n + 1) ⟨(startPos u v abp).1, (startPos u v abp).2, 0, 0⟩ = none := by
    intro n
    induction n with
    | zero => exact h1
    | succ n ih => rw [newtonLoop, ih, Option.bind_none]
  exact invertAb_none u v ab abp (hn 9)

example : invertAb 0 5 sqTab none = .nan := by
  refine C60_singular 0 5 sqTab none ?_
  rw [jdet_eq]
  simp [startPos, sqTab_eval 0 5]

end JG.FitsW
