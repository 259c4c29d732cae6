import Verif.Model.Akima
import Mathlib.Analysis.Calculus.Deriv.Pow
import Mathlib.Analysis.Calculus.Deriv.Mul
import Mathlib.Analysis.Calculus.Deriv.Add
import Mathlib.Topology.Order.DenselyOrdered
import Mathlib.Tactic.Linarith
import Mathlib.Tactic.Ring
import Mathlib.Tactic.FieldSimp

/-! Properties C16 and C65: Akima interpolation. -/

namespace JG
open Filter Topology Set

/-- Specification: a strictly increasing table of `n` knots. -/
def Knots (n : ℕ) (x : ℕ → ℝ) : Prop := ∀ i j, i < j → j < n → x i < x j

/-- Specification: evenly spaced. -/
def Even (n : ℕ) (x : ℕ → ℝ) : Prop := ∀ k, k < n → x k = x 0 + k * (x 1 - x 0)

/-- The cubic of interval `i`. -/
noncomputable def akP (n : ℕ) (x y : ℕ → ℝ) (i : ℕ) (t : ℝ) : ℝ :=
  akA y i + akB n x y i * (t - x i) + akC n x y i * ((t - x i) * (t - x i))
    + akD n x y i * ((t - x i) * (t - x i) * (t - x i))

theorem index_spec (fixed : Bool) (n : ℕ) (x : ℕ → ℝ) (hn : 5 ≤ n) (hx : Knots n x)
    (he : fixed = true → Even n x) (i : ℕ) (t : ℝ) (hi : i + 1 < n) (h1 : x i ≤ t)
    (h2 : t < x (i + 1) ∨ (i + 2 = n ∧ t ≤ x (n - 1))) : akIndex fixed n x t = i := by
  have hmono : ∀ a b, a ≤ b → b < n → x a ≤ x b := by
    intro a b hab hb
    rcases hab.lt_or_eq with h | h
    · exact (hx a b h hb).le
    · rw [h]
  cases fixed with
  | true =>
    have ev := he rfl
    have hpos : 0 < x 1 - x 0 := by linarith [hx 0 1 (by omega) (by omega)]
    have a1 : (i : ℝ) ≤ (t - x 0) / (x 1 - x 0) := by
      rw [le_div_iff₀ hpos]; linarith [ev i (by omega)]
    have b1 : ((i : ℤ)) ≤ ⌊(t - x 0) / (x 1 - x 0)⌋ := by
      rw [Int.le_floor]; exact_mod_cast a1
    simp only [akIndex, if_true, clipI]
    rcases h2 with h2 | ⟨h2, _⟩
    · have a2 : (t - x 0) / (x 1 - x 0) < (i : ℝ) + 1 := by
        rw [div_lt_iff₀ hpos]
        have := ev (i + 1) hi
        push_cast at this
        linarith
      have b2 : ⌊(t - x 0) / (x 1 - x 0)⌋ < (i : ℤ) + 1 := by
        rw [Int.floor_lt]; push_cast; exact a2
      have : ⌊(t - x 0) / (x 1 - x 0)⌋ = (i : ℤ) := by omega
      rw [this]; omega
    · omega
  | false =>
    simp only [akIndex, Bool.false_eq_true, if_false, clipI]
    rcases lt_or_ge t (x (i + 1)) with h3 | h3
    · have : searchsortedRight n x t = i + 1 := by
        unfold searchsortedRight
        have : (Finset.range n).filter (fun k => x k ≤ t) = Finset.range (i + 1) := by
          ext k
          simp only [Finset.mem_filter, Finset.mem_range]
          constructor
          · rintro ⟨hk, hkt⟩
            by_contra hc
            have := hmono (i + 1) k (by omega) hk
            linarith
          · intro hk
            exact ⟨by omega, (hmono k i (by omega) (by omega)).trans h1⟩
        rw [this, Finset.card_range]
      rw [this]; omega
    · rcases h2 with h2 | ⟨h2, _⟩
      · linarith
      · have : searchsortedRight n x t = n := by
          unfold searchsortedRight
          have : (Finset.range n).filter (fun k => x k ≤ t) = Finset.range n := by
            ext k
            simp only [Finset.mem_filter, Finset.mem_range, and_iff_left_iff_imp]
            intro hk
            exact (hmono k (i + 1) (by omega) hi).trans h3
          rw [this, Finset.card_range]
        rw [this]; omega

theorem interp_eq (fixed : Bool) (n : ℕ) (x y : ℕ → ℝ) (hn : 5 ≤ n) (hx : Knots n x)
    (he : fixed = true → Even n x) (i : ℕ) (t : ℝ) (hi : i + 1 < n) (h1 : x i ≤ t)
    (h2 : t < x (i + 1) ∨ (i + 2 = n ∧ t ≤ x (n - 1))) :
    akimaInterp fixed n x y t = akP n x y i t := by
  have hmono : ∀ a b, a ≤ b → b < n → x a ≤ x b := by
    intro a b hab hb
    rcases hab.lt_or_eq with h | h
    · exact (hx a b h hb).le
    · rw [h]
  have h0 : ¬ t < x 0 := not_lt.mpr ((hmono 0 i (by omega) (by omega)).trans h1)
  have h3 : ¬ t > x (n - 1) := by
    apply not_lt.mpr
    rcases h2 with h2 | h2
    · exact h2.le.trans (hmono (i + 1) (n - 1) (by omega) (by omega))
    · exact h2.2
  simp only [akimaInterp, index_spec fixed n x hn hx he i t hi h1 h2, h0, h3, if_false, akP]

/-- The cubic of an interval hits the two data values. -/
theorem akP_ends (n : ℕ) (x y : ℕ → ℝ) (i : ℕ) (h : x i < x (i + 1)) :
    akP n x y i (x i) = y i ∧ akP n x y i (x (i + 1)) = y (i + 1) := by
  constructor
  · simp [akP, akA]
  · have hne : x (i + 1) - x i ≠ 0 := by linarith
    simp only [akP, akA, akB, akC, akD, akM]
    field_simp
    ring

theorem akP_deriv (n : ℕ) (x y : ℕ → ℝ) (i : ℕ) (t : ℝ) : HasDerivAt (akP n x y i)
    (akB n x y i + 2 * akC n x y i * (t - x i) + 3 * akD n x y i * (t - x i) ^ 2) t := by
  have h := (hasDerivAt_id t).sub_const (x i)
  have h2 := h.mul h
  have h3 := h2.mul h
  have := (((h.const_mul (akB n x y i)).const_add (akA y i)).add (h2.const_mul (akC n x y i))).add
    (h3.const_mul (akD n x y i))
  refine (this.congr_deriv ?_)
  simp only [id, Pi.mul_apply]
  ring

theorem akP_deriv_left (n : ℕ) (x y : ℕ → ℝ) (i : ℕ) :
    HasDerivAt (akP n x y i) (akS n x y i) (x i) := by
  refine (akP_deriv n x y i (x i)).congr_deriv ?_
  simp [akB]

theorem akP_deriv_right (n : ℕ) (x y : ℕ → ℝ) (i : ℕ) (h : x i < x (i + 1)) :
    HasDerivAt (akP n x y i) (akS n x y (i + 1)) (x (i + 1)) := by
  refine (akP_deriv n x y i (x (i + 1))).congr_deriv ?_
  have hne : x (i + 1) - x i ≠ 0 := by linarith
  simp only [akB, akC, akD]
  field_simp
  ring

/-- C16: the interpolant passes through every data point (for both ways of finding the interval). -/
theorem C16_knots (fixed : Bool) (n : ℕ) (x y : ℕ → ℝ) (hn : 5 ≤ n) (hx : Knots n x)
    (he : fixed = true → Even n x) (k : ℕ) (hk : k < n) : akimaInterp fixed n x y (x k) = y k := by
  by_cases h : k + 1 < n
  · rw [interp_eq fixed n x y hn hx he k (x k) h le_rfl (Or.inl (hx _ _ (by omega) h))]
    exact (akP_ends n x y k (hx _ _ (by omega) h)).1
  · obtain ⟨i, rfl⟩ : ∃ i, k = i + 1 := ⟨k - 1, by omega⟩
    have e : n - 1 = i + 1 := by omega
    rw [interp_eq fixed n x y hn hx he i (x (i + 1)) hk (hx _ _ (by omega) hk).le
      (Or.inr ⟨by omega, by rw [e]⟩)]
    exact (akP_ends n x y i (hx _ _ (by omega) hk)).2

/-- One-sided derivatives at the knots. -/
theorem deriv_right (fixed : Bool) (n : ℕ) (x y : ℕ → ℝ) (hn : 5 ≤ n) (hx : Knots n x)
    (he : fixed = true → Even n x) (k : ℕ) (hk : k + 1 < n) :
    HasDerivWithinAt (akimaInterp fixed n x y) (akS n x y k) (Ici (x k)) (x k) := by
  have hlt : x k < x (k + 1) := hx _ _ (by omega) hk
  refine (akP_deriv_left n x y k).hasDerivWithinAt.congr_of_eventuallyEq ?_ ?_
  · filter_upwards [Ico_mem_nhdsGE hlt] with t ht
    exact interp_eq fixed n x y hn hx he k t hk ht.1 (Or.inl ht.2)
  · exact interp_eq fixed n x y hn hx he k _ hk le_rfl (Or.inl hlt)

theorem deriv_left (fixed : Bool) (n : ℕ) (x y : ℕ → ℝ) (hn : 5 ≤ n) (hx : Knots n x)
    (he : fixed = true → Even n x) (k : ℕ) (hk : k + 1 < n) :
    HasDerivWithinAt (akimaInterp fixed n x y) (akS n x y (k + 1)) (Iic (x (k + 1))) (x (k + 1)) := by
  have hlt : x k < x (k + 1) := hx _ _ (by omega) hk
  have hend : akimaInterp fixed n x y (x (k + 1)) = akP n x y k (x (k + 1)) := by
    rw [C16_knots fixed n x y hn hx he _ hk, (akP_ends n x y k hlt).2]
  refine (akP_deriv_right n x y k hlt).hasDerivWithinAt.congr_of_eventuallyEq ?_ hend
  filter_upwards [Ioc_mem_nhdsLE hlt] with t ht
  rcases ht.2.lt_or_eq with h | h
  · exact interp_eq fixed n x y hn hx he k t hk ht.1.le (Or.inl h)
  · rw [h]; exact hend

/-- C16: at every interior knot the interpolant is differentiable, with the Akima slope as its
derivative (so value and first derivative are continuous there). -/
theorem C16_differentiable (fixed : Bool) (n : ℕ) (x y : ℕ → ℝ) (hn : 5 ≤ n) (hx : Knots n x)
    (he : fixed = true → Even n x) (k : ℕ) (h0 : 0 < k) (hk : k + 1 < n) :
    HasDerivAt (akimaInterp fixed n x y) (akS n x y k) (x k) := by
  obtain ⟨j, rfl⟩ : ∃ j, k = j + 1 := ⟨k - 1, by omega⟩
  have l := deriv_left fixed n x y hn hx he j (by omega)
  have r := deriv_right fixed n x y hn hx he (j + 1) hk
  rw [← hasDerivWithinAt_univ, ← Iic_union_Ici (a := x (j + 1))]
  exact l.union r

/-- Every point of the table range lies in an interval. -/
theorem locate (n : ℕ) (x : ℕ → ℝ) (hn : 5 ≤ n) (t : ℝ) (h0 : x 0 ≤ t)
    (h1 : t ≤ x (n - 1)) : ∃ i, i + 1 < n ∧ x i ≤ t ∧ (t < x (i + 1) ∨ (i + 2 = n ∧ t = x (n - 1))) := by
  by_contra hc
  push Not at hc
  have all : ∀ i, i < n → x i ≤ t := by
    intro i
    induction i with
    | zero => intro _; exact h0
    | succ i ih => intro hi; exact (hc i hi (ih (by omega))).1
  have h2 := all (n - 1) (by omega)
  have := (hc (n - 2) (by omega) (all _ (by omega))).2 (by omega)
  exact this (le_antisymm h1 h2)

/-- C16: the interpolant is continuous on the whole table range. -/
theorem C16_continuous (fixed : Bool) (n : ℕ) (x y : ℕ → ℝ) (hn : 5 ≤ n) (hx : Knots n x)
    (he : fixed = true → Even n x) : ContinuousOn (akimaInterp fixed n x y) (Icc (x 0) (x (n - 1))) := by
  intro t ht
  obtain ⟨i, hi, h1, h2⟩ := locate n x hn t ht.1 ht.2
  rcases h2 with h2 | ⟨h2, h3⟩
  · rcases h1.lt_or_eq with h | h
    · apply ContinuousAt.continuousWithinAt
      have : akimaInterp fixed n x y =ᶠ[𝓝 t] akP n x y i := by
        filter_upwards [Ioo_mem_nhds h h2] with s hs
        exact interp_eq fixed n x y hn hx he i s hi hs.1.le (Or.inl hs.2)
      exact ((akP_deriv n x y i t).congr_of_eventuallyEq this).continuousAt
    · rw [← h]
      by_cases h0 : i = 0
      · rw [h0]
        exact (deriv_right fixed n x y hn hx he 0 (by omega)).continuousWithinAt.mono Icc_subset_Ici_self
      · exact (C16_differentiable fixed n x y hn hx he i (by omega) hi).continuousAt.continuousWithinAt
  · have e : n - 1 = i + 1 := by omega
    rw [h3, e]
    exact (deriv_left fixed n x y hn hx he i hi).continuousWithinAt.mono Icc_subset_Iic_self

/-- The derivative of the cubic of interval `i`. -/
noncomputable def akPd (n : ℕ) (x y : ℕ → ℝ) (i : ℕ) (t : ℝ) : ℝ :=
  akB n x y i + 2 * akC n x y i * (t - x i) + 3 * akD n x y i * (t - x i) ^ 2

theorem akPd_continuous (n : ℕ) (x y : ℕ → ℝ) (i : ℕ) : Continuous (akPd n x y i) := by
  unfold akPd; fun_prop

theorem deriv_inside (fixed : Bool) (n : ℕ) (x y : ℕ → ℝ) (hn : 5 ≤ n) (hx : Knots n x)
    (he : fixed = true → Even n x) (i : ℕ) (hi : i + 1 < n) (t : ℝ) (h : x i < t) (h2 : t < x (i + 1)) :
    deriv (akimaInterp fixed n x y) t = akPd n x y i t := by
  have : akimaInterp fixed n x y =ᶠ[𝓝 t] akP n x y i := by
    filter_upwards [Ioo_mem_nhds h h2] with s hs
    exact interp_eq fixed n x y hn hx he i s hi hs.1.le (Or.inl hs.2)
  rw [this.deriv_eq, (akP_deriv n x y i t).deriv, akPd]

/-- C16: the first derivative is continuous in the interior of the table, in particular at every
interior knot. -/
theorem C16_derivative_continuous (fixed : Bool) (n : ℕ) (x y : ℕ → ℝ) (hn : 5 ≤ n) (hx : Knots n x)
    (he : fixed = true → Even n x) :
    ContinuousOn (deriv (akimaInterp fixed n x y)) (Ioo (x 0) (x (n - 1))) := by
  intro t ht
  apply ContinuousAt.continuousWithinAt
  obtain ⟨i, hi, h1, h2⟩ := locate n x hn t ht.1.le ht.2.le
  have h2 : t < x (i + 1) := by
    rcases h2 with h2 | h2
    · exact h2
    · exact absurd h2.2 ht.2.ne
  rcases h1.lt_or_eq with h | h
  · have : deriv (akimaInterp fixed n x y) =ᶠ[𝓝 t] akPd n x y i := by
      filter_upwards [Ioo_mem_nhds h h2] with s hs
      exact deriv_inside fixed n x y hn hx he i hi s hs.1 hs.2
    exact (continuousAt_congr this).mpr (akPd_continuous n x y i).continuousAt
  · rw [← h] at h2 ht ⊢
    have h0 : i ≠ 0 := by rintro rfl; exact lt_irrefl _ ht.1
    obtain ⟨j, rfl⟩ : ∃ j, i = j + 1 := ⟨i - 1, by omega⟩
    have hlt : x j < x (j + 1) := hx _ _ (by omega) (by omega)
    have hd : deriv (akimaInterp fixed n x y) (x (j + 1)) = akS n x y (j + 1) :=
      (C16_differentiable fixed n x y hn hx he (j + 1) (by omega) hi).deriv
    have r0 : akPd n x y (j + 1) (x (j + 1)) = akS n x y (j + 1) := by simp [akPd, akB]
    have l0 : akPd n x y j (x (j + 1)) = akS n x y (j + 1) := by
      have := (akP_deriv n x y j (x (j + 1))).unique (akP_deriv_right n x y j hlt)
      exact this
    have hr : ContinuousWithinAt (deriv (akimaInterp fixed n x y)) (Ici (x (j + 1))) (x (j + 1)) := by
      refine (akPd_continuous n x y (j + 1)).continuousWithinAt.congr_of_eventuallyEq ?_ (by rw [hd, r0])
      filter_upwards [Ico_mem_nhdsGE h2] with s hs
      rcases hs.1.lt_or_eq with h | h
      · exact deriv_inside fixed n x y hn hx he (j + 1) hi s h hs.2
      · rw [← h, hd, r0]
    have hl : ContinuousWithinAt (deriv (akimaInterp fixed n x y)) (Iic (x (j + 1))) (x (j + 1)) := by
      refine (akPd_continuous n x y j).continuousWithinAt.congr_of_eventuallyEq ?_ (by rw [hd, l0])
      filter_upwards [Ioc_mem_nhdsLE hlt] with s hs
      rcases hs.2.lt_or_eq with h | h
      · exact deriv_inside fixed n x y hn hx he j (by omega) s hs.1 h
      · rw [h, hd, l0]
    rw [← continuousWithinAt_univ, ← Iic_union_Ici (a := x (j + 1))]
    exact hl.union hr

/-- C16: outside the table the result is zero. -/
theorem C16_outside (fixed : Bool) (n : ℕ) (x y : ℕ → ℝ) (t : ℝ) (h : t < x 0 ∨ x (n - 1) < t) :
    akimaInterp fixed n x y t = 0 := by
  simp only [akimaInterp]
  rcases h with h | h <;> simp [h]

/-- C16: data on a straight line are reproduced exactly. -/
theorem C16_line (fixed : Bool) (n : ℕ) (x : ℕ → ℝ) (α β : ℝ) (hn : 5 ≤ n) (hx : Knots n x)
    (he : fixed = true → Even n x) (t : ℝ) (h0 : x 0 ≤ t) (h1 : t ≤ x (n - 1)) :
    akimaInterp fixed n x (fun k => α * x k + β) t = α * t + β := by
  obtain ⟨i, hi, h2, h3⟩ := locate n x hn t h0 h1
  have h3' : t < x (i + 1) ∨ (i + 2 = n ∧ t ≤ x (n - 1)) := by
    rcases h3 with h3 | h3
    · exact Or.inl h3
    · exact Or.inr ⟨h3.1, h3.2.le⟩
  rw [interp_eq fixed n x _ hn hx he i t hi h2 h3']
  have hm : ∀ j, j + 1 < n → akM x (fun k => α * x k + β) j = α := by
    intro j hj
    have : x (j + 1) - x j ≠ 0 := by have := hx j (j + 1) (by omega) hj; linarith
    simp only [akM]; field_simp; ring
  have hs : ∀ j, j < n → akS n x (fun k => α * x k + β) j = α := by
    intro j hj
    unfold akS
    split
    · exact hm 0 (by omega)
    · split
      · rw [hm 0 (by omega), hm 1 (by omega)]; ring
      · split
        · rw [hm (j + 1) (by omega), hm j (by omega), hm (j - 1) (by omega), hm (j - 2) (by omega)]
          norm_num
        · split
          · rw [hm (n - 4) (by omega), hm (n - 3) (by omega)]; ring
          · rw [hm (n - 3) (by omega)]
  simp only [akP, akA, akB, akC, akD]
  rw [hm i hi, hs i (by omega), hs (i + 1) hi]
  ring

example : Knots 5 (fun k => (k : ℝ)) ∧ Even 5 (fun k => (k : ℝ)) :=
  ⟨fun i j h _ => by simp only; exact_mod_cast h, fun k _ => by simp⟩

/-! ### C65: mirror symmetry -/

/-- The mirrored table. -/
noncomputable def mirrorX (n : ℕ) (x : ℕ → ℝ) (k : ℕ) : ℝ := -x (n - 1 - k)
/-- The mirrored data. -/
noncomputable def mirrorY (n : ℕ) (y : ℕ → ℝ) (k : ℕ) : ℝ := y (n - 1 - k)

theorem mirror_M (n : ℕ) (x y : ℕ → ℝ) (j : ℕ) (hj : j + 1 < n) :
    akM (mirrorX n x) (mirrorY n y) j = - akM x y (n - 2 - j) := by
  have e1 : n - 1 - j = (n - 2 - j) + 1 := by omega
  have e2 : n - 1 - (j + 1) = n - 2 - j := by omega
  simp only [akM, mirrorX, mirrorY, e2]
  rw [e1]
  rw [← neg_div]
  congr 1 <;> ring

theorem akS_mid (n : ℕ) (x y : ℕ → ℝ) (i : ℕ) (h2 : 2 ≤ i) (hi : i + 2 < n) :
    akS n x y i = if |(|akM x y (i + 1) - akM x y i| + |akM x y (i - 1) - akM x y (i - 2)|)| ≥ 1e-12 then
      (|akM x y (i + 1) - akM x y i| * akM x y (i - 1) +
        |akM x y (i - 1) - akM x y (i - 2)| * akM x y i) /
        (|akM x y (i + 1) - akM x y i| + |akM x y (i - 1) - akM x y (i - 2)|)
      else (akM x y (i - 1) + akM x y i) / 2 := by
  unfold akS
  rw [if_neg (by omega), if_neg (by omega), if_pos hi]

/-- C65: away from the two end knots on each side the slopes of the mirrored table are the mirrored
slopes, so every interior cubic is mirrored.  The full statement covers all intervals; it fails at
the ends (`C65_mirror_counterexample`). -/
theorem C65_mirror_slope_partial (n : ℕ) (x y : ℕ → ℝ) (j : ℕ) (h2 : 2 ≤ j) (hj : j + 2 < n) :
    akS n (mirrorX n x) (mirrorY n y) j = - akS n x y (n - 1 - j) := by
  rw [akS_mid n _ _ j h2 hj, akS_mid n x y (n - 1 - j) (by omega) (by omega)]
  rw [mirror_M n x y (j + 1) (by omega), mirror_M n x y j (by omega), mirror_M n x y (j - 1) (by omega),
    mirror_M n x y (j - 2) (by omega)]
  have e1 : n - 1 - j + 1 = n - 2 - (j - 2) := by omega
  have e2 : n - 1 - j = n - 2 - (j - 1) := by omega
  have e3 : n - 2 - (j - 1) - 1 = n - 2 - j := by omega
  have e4 : n - 2 - (j - 1) - 2 = n - 2 - (j + 1) := by omega
  rw [e1, e2, e3, e4]
  set A := akM x y (n - 2 - (j + 1))
  set B := akM x y (n - 2 - j)
  set C := akM x y (n - 2 - (j - 1))
  set D := akM x y (n - 2 - (j - 2))
  have a1 : |(-A) - (-B)| = |B - A| := by congr 1; ring
  have a2 : |(-C) - (-D)| = |D - C| := by congr 1; ring
  simp only [a1, a2]
  rw [add_comm |B - A| |D - C|]
  split
  · rw [← neg_div]; congr 1; ring
  · ring

/-- C65: the cubics between interior knots are mirrored exactly. -/
theorem C65_mirror_partial (n : ℕ) (x y : ℕ → ℝ) (i : ℕ) (hx : Knots n x) (h2 : 2 ≤ i) (hi : i + 3 < n) (t : ℝ) :
    akP n (mirrorX n x) (mirrorY n y) i (-t) = akP n x y (n - 2 - i) t := by
  have hne : x (n - 2 - i) < x (n - 2 - i + 1) := hx _ _ (by omega) (by omega)
  have e1 : n - 1 - i = n - 2 - i + 1 := by omega
  have e2 : n - 1 - (i + 1) = n - 2 - i := by omega
  have s1 := C65_mirror_slope_partial n x y i h2 (by omega)
  have s2 := C65_mirror_slope_partial n x y (i + 1) (by omega) (by omega)
  have m := mirror_M n x y i (by omega)
  rw [e1] at s1
  rw [e2] at s2
  simp only [akP, akA, akB, akC, akD, s1, s2, m]
  have x1 : mirrorX n x i = - x (n - 2 - i + 1) := by simp only [mirrorX, e1]
  have x2 : mirrorX n x (i + 1) = - x (n - 2 - i) := by simp only [mirrorX, e2]
  have y1 : mirrorY n y i = y (n - 2 - i + 1) := by simp only [mirrorY, e1]
  rw [x1, x2, y1]
  have hy : y (n - 2 - i + 1) = y (n - 2 - i) + akM x y (n - 2 - i) * (x (n - 2 - i + 1) - x (n - 2 - i)) := by
    have : x (n - 2 - i + 1) - x (n - 2 - i) ≠ 0 := by linarith
    simp only [akM]; field_simp; ring
  rw [hy]
  generalize akM x y (n - 2 - i) = M
  generalize akS n x y (n - 2 - i) = S
  generalize akS n x y (n - 2 - i + 1) = T
  generalize y (n - 2 - i) = Y
  have hd : x (n - 2 - i + 1) - x (n - 2 - i) ≠ 0 := by linarith
  have hd' : -x (n - 2 - i) - -x (n - 2 - i + 1) ≠ 0 := by intro h; apply hd; linarith
  generalize x (n - 2 - i + 1) = b at *
  generalize x (n - 2 - i) = a at *
  have hd2 : -a - -b = b - a := by ring
  rw [hd2]
  field_simp
  ring

/-- Disagreement: at the right end the slope is taken from the second to last secant instead of the
last, so reversing the table does not mirror the result: for knots `0..4` with values
`(0, 0, 0, 0, 1)` the interpolant at `3.5` differs from the value at `0.5` for the mirrored data
`(1, 0, 0, 0, 0)`. -/
theorem C65_mirror_counterexample :
    akimaInterp false 5 (fun k => (k : ℝ)) (fun k => if k = 4 then 1 else 0) 3.5 ≠
    akimaInterp false 5 (fun k => (k : ℝ)) (fun k => if k = 0 then 1 else 0) 0.5 := by
  have hx : Knots 5 (fun k => (k : ℝ)) := fun i j h _ => by simp only; exact_mod_cast h
  rw [interp_eq false 5 _ _ (by norm_num) hx (by simp) 3 3.5 (by norm_num) (by norm_num)
    (Or.inl (by norm_num)),
    interp_eq false 5 _ _ (by norm_num) hx (by simp) 0 0.5 (by norm_num) (by norm_num)
    (Or.inl (by norm_num))]
  norm_num [akP, akA, akB, akC, akD, akS, akM]

end JG
