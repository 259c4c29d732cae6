import Verif.Lemmas.Quadrature
import Mathlib.Analysis.SpecialFunctions.Integrals.Basic
import Mathlib.Topology.ContinuousMap.Weierstrass
import Mathlib.MeasureTheory.Integral.IntervalIntegral.Basic

/-!
Property C85: the Clenshaw-Curtis quadrature integrates polynomials exactly and converges for continuous functions.
-/

namespace JG.Quad

open Finset Polynomial

/-! ### From Chebyshev polynomials to all polynomials -/

/-- The rule with `n` intervals as a linear functional. -/
noncomputable def rule (n : ℕ) (f : ℝ → ℝ) : ℝ := ∑ k ∈ range (n + 1), wt n k * f (-Real.cos (Real.pi * k / n))

theorem rule_add (n : ℕ) (f g : ℝ → ℝ) : rule n (fun x => f x + g x) = rule n f + rule n g := by
  simp only [rule, mul_add, sum_add_distrib]
theorem rule_smul (n : ℕ) (c : ℝ) (f : ℝ → ℝ) : rule n (fun x => c * f x) = c * rule n f := by
  simp only [rule, mul_sum]
  exact sum_congr rfl fun k _ => by ring

theorem poly_integrable (p : ℝ[X]) (a b : ℝ) : IntervalIntegrable (fun x => p.eval x) MeasureTheory.volume a b :=
  p.continuous.intervalIntegrable _ _

theorem rule_exact (n : ℕ) (hn : 2 ≤ n) (p : ℝ[X]) (hp : p.natDegree ≤ n) :
    rule n (fun x => p.eval x) = ∫ x in (-1 : ℝ)..1, p.eval x := by
  have main : ∀ d, d ≤ n → ∀ p : ℝ[X], p.degree < (d + 1 : ℕ) → rule n (fun x => p.eval x) = ∫ x in (-1 : ℝ)..1, p.eval x := by
    intro d
    induction d with
    | zero =>
      intro _ p hp
      have h0 : p = C (p.coeff 0) := eq_C_of_degree_le_zero (by
        rw [Polynomial.degree_le_iff_coeff_zero]
        intro m hm
        exact Polynomial.coeff_eq_zero_of_degree_lt (lt_of_lt_of_le hp (by exact_mod_cast hm)))
      have hT := exact_T n 0 hn (by omega)
      simp only [Nat.cast_zero, Chebyshev.T_zero, eval_one] at hT
      have h1 : rule n (fun _ => (1 : ℝ)) = ∫ x in (-1 : ℝ)..1, (1 : ℝ) := hT
      rw [h0]
      simp only [eval_C]
      have := rule_smul n (p.coeff 0) (fun _ => 1)
      simp only [mul_one] at this
      rw [this, h1]
      simp [mul_comm]
    | succ d ih =>
      intro hd p hp
      have hdeg : (Chebyshev.T ℝ ((d + 1 : ℕ) : ℤ)).natDegree = d + 1 := by
        rw [Chebyshev.natDegree_T]; rfl
      have hlead : (Chebyshev.T ℝ ((d + 1 : ℕ) : ℤ)).coeff (d + 1) ≠ 0 := by
        have h := Chebyshev.leadingCoeff_T ℝ ((d + 1 : ℕ) : ℤ)
        rw [leadingCoeff, hdeg] at h
        rw [h]; positivity
      obtain ⟨t, ht⟩ : ∃ t, t = Chebyshev.T ℝ ((d + 1 : ℕ) : ℤ) := ⟨_, rfl⟩
      rw [← ht] at hdeg hlead
      obtain ⟨c, hc⟩ : ∃ c, c = p.coeff (d + 1) / t.coeff (d + 1) := ⟨_, rfl⟩
      have hq : (p - C c * t).degree < (d + 1 : ℕ) := by
        rw [Polynomial.degree_lt_iff_coeff_zero]
        intro m hm
        rw [coeff_sub, coeff_C_mul]
        rcases eq_or_lt_of_le hm with h | h
        · rw [← h, hc, div_mul_cancel₀ _ hlead, sub_self]
        · rw [Polynomial.coeff_eq_zero_of_degree_lt (lt_of_lt_of_le hp (by exact_mod_cast h)),
            Polynomial.coeff_eq_zero_of_natDegree_lt (by omega), mul_zero, sub_zero]
      have h1 := ih (by omega) _ hq
      have h2 : rule n (fun x => t.eval x) = ∫ x in (-1 : ℝ)..1, t.eval x := ht ▸ exact_T n (d + 1) hn hd
      have e : ∀ x, p.eval x = (p - C c * t).eval x + c * t.eval x := by
        intro x; simp
      simp only [e]
      rw [rule_add, rule_smul, h1, h2, intervalIntegral.integral_add (poly_integrable _ _ _)
        ((poly_integrable t _ _).const_mul c), intervalIntegral.integral_const_mul]
  exact main n le_rfl p (lt_of_le_of_lt degree_le_natDegree (by exact_mod_cast Nat.lt_succ_of_le hp))

/-- For an even number of intervals the rule is exact for one degree more. -/
theorem rule_exact_succ (n : ℕ) (hn : 2 ≤ n) (he : Even n) (p : ℝ[X]) (hp : p.natDegree ≤ n + 1) :
    rule n (fun x => p.eval x) = ∫ x in (-1 : ℝ)..1, p.eval x := by
  have hn0 : 0 < n := by omega
  have hn' : (n : ℝ) ≠ 0 := by positivity
  have hodd : Odd (n + 1) := he.add_one
  obtain ⟨c, hc⟩ : ∃ c, c = p.coeff (n + 1) := ⟨_, rfl⟩
  have hq : (p - C c * X ^ (n + 1)).natDegree ≤ n := by
    rw [natDegree_le_iff_coeff_eq_zero]
    intro m hm
    rw [coeff_sub, coeff_C_mul, coeff_X_pow]
    rcases eq_or_lt_of_le (Nat.succ_le_of_lt hm) with h | h
    · rw [if_pos (by omega), hc, ← h]; simp
    · rw [if_neg (by omega), Polynomial.coeff_eq_zero_of_natDegree_lt (by omega)]; simp
  have h1 := rule_exact n hn _ hq
  have h2 : rule n (fun x => x ^ (n + 1)) = 0 := by
    have h : rule n (fun x => x ^ (n + 1)) = -rule n (fun x => x ^ (n + 1)) := by
      simp only [rule]
      conv_lhs => rw [← sum_range_reflect]
      rw [← sum_neg_distrib]
      refine sum_congr rfl fun k hk => ?_
      rw [mem_range] at hk
      have e2 : n + 1 - 1 - k = n - k := by omega
      have e : Real.cos (Real.pi * ((n - k : ℕ) : ℝ) / n) = -Real.cos (Real.pi * k / n) := by
        rw [← Real.cos_pi_sub, Nat.cast_sub (by omega)]
        congr 1
        field_simp
      rw [e2, e, wt_symm n k hn0 (by omega), neg_neg, hodd.neg_pow]
      ring
    linarith
  have h3 : ∫ x in (-1 : ℝ)..1, x ^ (n + 1) = 0 := by
    rw [integral_pow]
    have : Even (n + 1 + 1) := hodd.add_one
    rw [this.neg_pow]
    simp
  have e : ∀ x, p.eval x = (p - C c * X ^ (n + 1)).eval x + c * x ^ (n + 1) := by
    intro x; simp
  simp only [e]
  rw [rule_add, rule_smul, h1, h2, intervalIntegral.integral_add (poly_integrable _ _ _)
    ((continuous_pow _).intervalIntegrable _ _ |>.const_mul c), intervalIntegral.integral_const_mul, h3]

/-! ### C85 -/

/-- C85: `abs_weights(n)` fails for fewer than two points; otherwise it returns `n` points, increasing from -1 to 1, and as many
positive weights, and the weighted sum is the integral over `[-1, 1]` for every polynomial of degree less than `n`. -/
theorem C85_weights (n : ℕ) :
    (n < 2 → absWeights n = none) ∧
    (2 ≤ n → ∃ x w, absWeights n = some (x, w) ∧ x.length = n ∧ w.length = n ∧
      (x.head? = some (-1) ∧ x.getLast? = some 1 ∧ x.Pairwise (· < ·)) ∧ (∀ v ∈ w, 0 < v) ∧
      ∀ p : ℝ[X], p.natDegree < n → quadSum x w (fun t => p.eval t) = ∫ t in (-1 : ℝ)..1, p.eval t) := by
  refine ⟨fun h => by simp only [absWeights]; rw [if_neg (by omega)], fun h => ?_⟩
  have hpts : ∀ m : ℕ, 1 ≤ m → ((List.range (m + 1)).map fun (k : ℕ) => -Real.cos (Real.pi * k / m)).head? = some (-1) ∧
      ((List.range (m + 1)).map fun (k : ℕ) => -Real.cos (Real.pi * k / m)).getLast? = some 1 ∧
      ((List.range (m + 1)).map fun (k : ℕ) => -Real.cos (Real.pi * k / m)).Pairwise (· < ·) := by
    intro m hm
    have hm' : (m : ℝ) ≠ 0 := by positivity
    refine ⟨by simp [List.range_succ_eq_map], by simp [List.range_succ, mul_div_assoc, div_self hm'], ?_⟩
    rw [List.pairwise_map]
    refine (List.pairwise_lt_range).imp_of_mem fun {a b} ha hb hab => ?_
    rw [List.mem_range] at ha hb
    have hmp : (0 : ℝ) < m := by positivity
    have hbm : (b : ℝ) ≤ m := by exact_mod_cast Nat.lt_succ_iff.1 hb
    refine neg_lt_neg (Real.cos_lt_cos_of_nonneg_of_le_pi (by positivity) ?_ ?_)
    · rw [div_le_iff₀ hmp]; exact mul_le_mul_of_nonneg_left hbm Real.pi_pos.le
    · rw [div_lt_div_iff_of_pos_right hmp]
      exact mul_lt_mul_of_pos_left (by exact_mod_cast hab) Real.pi_pos
  rcases eq_or_lt_of_le h with h2 | h2
  · subst h2
    have h0 : absWeights 2 = some ((List.range (1 + 1)).map fun (k : ℕ) => -Real.cos (Real.pi * k / (1 : ℕ)), [1, 1]) := by
      simp [absWeights]
    refine ⟨_, _, h0, by simp, by simp, hpts 1 le_rfl, by simp, ?_⟩
    intro p hp
    have e : p = C (p.coeff 1) * X + C (p.coeff 0) := Polynomial.eq_X_add_C_of_natDegree_le_one (by omega)
    rw [e]
    have hi : ∫ t in (-1 : ℝ)..1, (p.coeff 1 * t + p.coeff 0) = 2 * p.coeff 0 := by
      rw [intervalIntegral.integral_add ((Continuous.intervalIntegrable (by fun_prop) _ _))
        (continuous_const.intervalIntegrable _ _), intervalIntegral.integral_const_mul, integral_id]
      norm_num
    simp only [eval_add, eval_mul, eval_C, eval_X]
    rw [hi]
    simp [quadSum, List.range_succ]
    ring
  · obtain ⟨m, rfl⟩ : ∃ m, n = m + 1 := ⟨n - 1, by omega⟩
    refine ⟨_, _, absWeights_eq m (by omega), by simp, by simp, hpts m (by omega), ?_, ?_⟩
    · intro v hv
      obtain ⟨k, -, rfl⟩ := List.mem_map.1 hv
      exact wt_pos m k (by omega)
    · intro p hp
      rw [quadSum_range]
      exact rule_exact m (by omega) p (by omega)

/-- The rule of `ClenshawCurtisQuad.init` in terms of the weights above. -/
theorem init_eq (order : ℕ) (h : 1 ≤ order) : ∃ q, Rule.init order = some q ∧ q.order = 2 * order + 1 ∧
    (∃ x w, absWeights (order + 1) = some (x, w) ∧
      q.errw = subEven ((List.range (2 * order + 1)).map (wt (2 * order))) w) ∧
    (∀ f a b, quadIntegral f a b q =
      (b - a) / 2 * rule (2 * order) fun x => f ((b - a) / 2 * x + (a + b) / 2)) ∧
    q.absc = (List.range (2 * order + 1)).map fun (k : ℕ) => (-Real.cos (Real.pi * k / (2 * order : ℕ)) + 1) / 2 := by
  obtain ⟨x, w, hxw, -⟩ := (C85_weights (order + 1)).2 (by omega)
  have e : (2 * order + 1 + 1) / 2 = order + 1 := by omega
  have hxw2 := hxw
  rw [← e] at hxw2
  refine ⟨_, by simp only [Rule.init, computeWeights, absWeights_eq (2 * order) (by omega), hxw2, Option.bind_some, Option.map_some]; rfl,
    rfl, ⟨x, w, hxw, rfl⟩, ?_, ?_⟩
  · intro f a b
    simp only [quadIntegral, rescaleWeights, List.map_map]
    rw [quadSum_range]
    simp only [rule, Function.comp, mul_sum]
    refine sum_congr rfl fun k _ => ?_
    have e1 : a + (-Real.cos (Real.pi * k / (2 * order : ℕ)) - -1) * 1 / (1 - -1) * (b - a) -
        (-Real.cos (Real.pi * k / (2 * order : ℕ)) - 1) * 0 / (1 - -1) * (b - a) =
        (b - a) / 2 * -Real.cos (Real.pi * k / (2 * order : ℕ)) + (a + b) / 2 := by ring
    have e2 : a + ((-Real.cos (Real.pi * k / (2 * order : ℕ)) - -1) * 1 -
        (-Real.cos (Real.pi * k / (2 * order : ℕ)) - 1) * 0) / (1 - -1) * (b - a) =
        (b - a) / 2 * -Real.cos (Real.pi * k / (2 * order : ℕ)) + (a + b) / 2 := by rw [← e1]; ring
    rw [e2]
    ring
  · simp only [rescaleWeights, List.map_map]
    refine List.map_congr_left fun k _ => ?_
    simp only [Function.comp]
    ring

/-- C85: `quad_integral` with a rule of order `order ≥ 1` integrates every polynomial of degree at most `2 order + 1` exactly over
every interval; order 0 fails. -/
theorem C85_integral (order : ℕ) :
    (order = 0 → Rule.init order = none) ∧
    (1 ≤ order → ∃ q, Rule.init order = some q ∧ q.absc.length = 2 * order + 1 ∧
      ∀ p : ℝ[X], p.natDegree ≤ 2 * order + 1 → ∀ a b : ℝ,
        quadIntegral (fun x => p.eval x) a b q = ∫ x in a..b, p.eval x) := by
  refine ⟨?_, fun h => ?_⟩
  · rintro rfl
    simp [Rule.init, computeWeights, absWeights]
  · obtain ⟨q, hq, -, -, hint, habsc⟩ := init_eq order h
    refine ⟨q, hq, by rw [habsc]; simp, fun p hp a b => ?_⟩
    rw [hint]
    obtain ⟨c, hc⟩ : ∃ c, c = (b - a) / 2 := ⟨_, rfl⟩
    obtain ⟨d, hd⟩ : ∃ d, d = (a + b) / 2 := ⟨_, rfl⟩
    have e : (fun x => p.eval (c * x + d)) = fun x => (p.comp (C c * X + C d)).eval x := by
      funext x; simp
    rw [← hc, ← hd, e, rule_exact_succ (2 * order) (by omega) (by simp) _ (by
      refine natDegree_comp_le.trans ?_
      have : (C c * X + C d).natDegree ≤ 1 := natDegree_linear_le
      calc p.natDegree * (C c * X + C d).natDegree ≤ p.natDegree * 1 := Nat.mul_le_mul_left _ this
        _ ≤ _ := by omega)]
    simp only [← congrFun e]
    have := intervalIntegral.mul_integral_comp_mul_add (a := (-1 : ℝ)) (b := 1) (f := fun x => p.eval x) c d
    rw [this]
    congr 1 <;> rw [hc, hd] <;> ring

/-- C85: how far `quad_integral` can be from the integral: at most twice the length of the interval times the distance of the
function from the polynomials of degree `2 order + 1`. -/
theorem C85_error (order : ℕ) (h : 1 ≤ order) (q : Rule) (hq : Rule.init order = some q) (f : ℝ → ℝ) (a b ε : ℝ)
    (hf : ContinuousOn f (Set.uIcc a b)) (p : ℝ[X]) (hp : p.natDegree ≤ 2 * order + 1)
    (hfp : ∀ x ∈ Set.uIcc a b, |f x - p.eval x| ≤ ε) :
    |quadIntegral f a b q - ∫ x in a..b, f x| ≤ 2 * ε * |b - a| := by
  obtain ⟨q', hq', -, -, hint, -⟩ := init_eq order h
  obtain ⟨q'', hq'', -, hex⟩ := (C85_integral order).2 h
  rw [hq] at hq' hq''
  obtain rfl := Option.some.inj hq'
  obtain rfl := Option.some.inj hq''
  have hmem : ∀ k : ℕ, (b - a) / 2 * -Real.cos (Real.pi * k / (2 * order : ℕ)) + (a + b) / 2 ∈ Set.uIcc a b := by
    intro k
    obtain ⟨c, hc⟩ : ∃ c, c = Real.cos (Real.pi * k / (2 * order : ℕ)) := ⟨_, rfl⟩
    have h1 : c ≤ 1 := hc ▸ Real.cos_le_one _
    have h2 : -1 ≤ c := hc ▸ Real.neg_one_le_cos _
    rw [← hc, Set.mem_uIcc]
    rcases le_total a b with hab | hab
    · left; constructor <;> nlinarith
    · right; constructor <;> nlinarith
  have hone : rule (2 * order) (fun _ => 1) = 2 := by
    have := rule_exact (2 * order) (by omega) 1 (by simp)
    simp only [eval_one] at this
    rw [this]; norm_num
  have hsum : ∑ k ∈ range (2 * order + 1), wt (2 * order) k = 2 := by
    rw [← hone, rule]; simp
  have h1 : |quadIntegral f a b q - quadIntegral (fun x => p.eval x) a b q| ≤ ε * |b - a| := by
    rw [hint, hint, ← mul_sub, rule, rule, ← sum_sub_distrib, abs_mul]
    have : |∑ k ∈ range (2 * order + 1), (wt (2 * order) k * f ((b - a) / 2 * -Real.cos (Real.pi * k / (2 * order : ℕ)) + (a + b) / 2) -
        wt (2 * order) k * p.eval ((b - a) / 2 * -Real.cos (Real.pi * k / (2 * order : ℕ)) + (a + b) / 2))| ≤ 2 * ε := by
      refine (abs_sum_le_sum_abs _ _).trans ?_
      refine le_of_le_of_eq ?_ (show ∑ k ∈ range (2 * order + 1), wt (2 * order) k * ε = 2 * ε by rw [← sum_mul, hsum])
      refine sum_le_sum fun k _ => ?_
      rw [← mul_sub, abs_mul, abs_of_pos (wt_pos _ _ (by omega))]
      exact mul_le_mul_of_nonneg_left (hfp _ (hmem k)) (wt_pos _ _ (by omega)).le
    calc |(b - a) / 2| * _ ≤ |(b - a) / 2| * (2 * ε) := mul_le_mul_of_nonneg_left this (abs_nonneg _)
      _ = ε * |b - a| := by rw [abs_div, abs_two]; ring
  have h2 : |(∫ x in a..b, f x) - ∫ x in a..b, p.eval x| ≤ ε * |b - a| := by
    rw [← intervalIntegral.integral_sub hf.intervalIntegrable (poly_integrable p a b)]
    have := intervalIntegral.norm_integral_le_of_norm_le_const (a := a) (b := b) (C := ε)
      (f := fun x => f x - p.eval x) fun x hx => by
        rw [Real.norm_eq_abs]; exact hfp x (Set.uIoc_subset_uIcc hx)
    simpa [Real.norm_eq_abs] using this
  rw [hex p hp a b] at h1
  have h3 := abs_sub_le (quadIntegral f a b q) (∫ x in a..b, p.eval x) (∫ x in a..b, f x)
  rw [abs_sub_comm (∫ x in a..b, p.eval x)] at h3
  linarith

/-- C85: for every continuous function `quad_integral` converges to the integral as the order grows. -/
theorem C85_converges (f : ℝ → ℝ) (a b : ℝ) (hf : ContinuousOn f (Set.uIcc a b)) (ε : ℝ) (hε : 0 < ε) :
    ∃ N, ∀ order ≥ N, ∃ q, Rule.init order = some q ∧ |quadIntegral f a b q - ∫ x in a..b, f x| < ε := by
  have hpos : 0 < ε / (2 * |b - a| + 1) := by positivity
  obtain ⟨p, hp⟩ := exists_polynomial_near_of_continuousOn (min a b) (max a b) f hf _ hpos
  refine ⟨p.natDegree + 1, fun order ho => ?_⟩
  obtain ⟨q, hq, -⟩ := (C85_integral order).2 (by omega)
  refine ⟨q, hq, ?_⟩
  have := C85_error order (by omega) q hq f a b _ hf p (by omega) fun x hx => by
    rw [abs_sub_comm]; exact (hp x hx).le
  refine this.trans_lt ?_
  rw [mul_assoc, mul_comm (ε / _), ← mul_assoc, mul_div_assoc', div_lt_iff₀ (by positivity)]
  nlinarith [abs_nonneg (b - a)]

theorem even_sum (o : ℕ) (c F : ℕ → ℝ) : ∑ i ∈ range (2 * o + 1), (if i % 2 = 0 then c (i / 2) * F i else 0) =
    ∑ k ∈ range (o + 1), c k * F (2 * k) := by
  induction o with
  | zero => simp
  | succ o ih =>
    rw [show 2 * (o + 1) + 1 = 2 * o + 1 + 1 + 1 by ring, sum_range_succ, sum_range_succ, ih, sum_range_succ _ (o + 1),
      if_neg (by omega), if_pos (by omega), show (2 * o + 1 + 1) / 2 = o + 1 by omega, show 2 * (o + 1) = 2 * o + 1 + 1 by ring]
    ring

theorem subEven_range (o : ℕ) (W : ℕ → ℝ) (w : List ℝ) : subEven ((List.range (2 * o + 1)).map W) w =
    (List.range (2 * o + 1)).map fun i => if i % 2 = 0 then W i - w.getD (i / 2) 0 else W i := by
  apply List.ext_getElem
  · simp [subEven]
  · intro i h1 h2
    simp [subEven]

theorem absWeights_points (n : ℕ) (x w : List ℝ) (h : absWeights (n + 1) = some (x, w)) :
    x = (List.range (n + 1)).map fun (k : ℕ) => -Real.cos (Real.pi * k / n) := by
  simp only [absWeights, Nat.add_sub_cancel] at h
  split_ifs at h <;> simp only [Option.some.injEq, Prod.mk.injEq] at h <;> exact h.1.symm

theorem list_range_getD (w : List ℝ) (n : ℕ) (h : w.length = n) : w = (List.range n).map fun k => w.getD k 0 := by
  apply List.ext_getElem
  · simp [h]
  · intro i h1 h2
    simp [h1]

/-- C85: the error weights are the difference between this rule and the one with every second point, for the interval
`[-1, 1]` (twice that of `[0, 1]`), so that they vanish on polynomials of degree at most `order`. -/
theorem C85_error_weights (order : ℕ) (h : 1 ≤ order) (q : Rule) (hq : Rule.init order = some q) :
    ∃ x w, absWeights (order + 1) = some (x, w) ∧
      (∀ f, quadSum q.absc q.errw f = 2 * quadIntegral f 0 1 q - quadSum (x.map fun t => (t + 1) / 2) w f) ∧
      ∀ p : ℝ[X], p.natDegree ≤ order → quadSum q.absc q.errw (fun t => p.eval t) = 0 := by
  obtain ⟨q', hq', -, ⟨x, w, hxw, herr⟩, hint, habsc⟩ := init_eq order h
  rw [hq] at hq'
  obtain rfl := Option.some.inj hq'
  obtain ⟨x', w', hxw', hlx, hlw, -, -, hex⟩ := (C85_weights (order + 1)).2 (by omega)
  rw [hxw] at hxw'
  obtain ⟨rfl, rfl⟩ : x = x' ∧ w = w' := by simpa using hxw'
  have ho : (order : ℝ) ≠ 0 := by positivity
  have hx := absWeights_points order x w hxw
  have main : ∀ f, quadSum q.absc q.errw f = 2 * quadIntegral f 0 1 q - quadSum (x.map fun t => (t + 1) / 2) w f := by
    intro f
    rw [herr, habsc, subEven_range, quadSum_range, hint, rule]
    have e2 : quadSum (x.map fun t => (t + 1) / 2) w f =
        ∑ k ∈ range (order + 1), w.getD k 0 * f ((-Real.cos (Real.pi * k / order) + 1) / 2) := by
      conv_lhs => rw [list_range_getD w _ hlw, hx, List.map_map]
      rw [quadSum_range]
      rfl
    have e3 := even_sum order (fun k => w.getD k 0) fun i => f ((-Real.cos (Real.pi * i / (2 * order : ℕ)) + 1) / 2)
    have e4 : ∑ k ∈ range (order + 1), w.getD k 0 * f ((-Real.cos (Real.pi * (2 * k : ℕ) / (2 * order : ℕ)) + 1) / 2) =
        ∑ k ∈ range (order + 1), w.getD k 0 * f ((-Real.cos (Real.pi * k / order) + 1) / 2) := by
      refine sum_congr rfl fun k _ => ?_
      have : Real.pi * ((2 * k : ℕ) : ℝ) / ((2 * order : ℕ) : ℝ) = Real.pi * k / order := by
        push_cast; field_simp
      rw [this]
    rw [e2, ← e4, ← e3, mul_sum, mul_sum, ← sum_sub_distrib]
    refine sum_congr rfl fun k _ => ?_
    have e5 : (1 - 0 : ℝ) / 2 * -Real.cos (Real.pi * k / (2 * order : ℕ)) + (0 + 1) / 2 =
        (-Real.cos (Real.pi * k / (2 * order : ℕ)) + 1) / 2 := by ring
    rw [e5]
    split_ifs <;> ring
  refine ⟨x, w, hxw, main, fun p hp => ?_⟩
  obtain ⟨q'', hq'', -, hexq⟩ := (C85_integral order).2 h
  rw [hq] at hq''
  obtain rfl := Option.some.inj hq''
  rw [main, hexq p (by omega)]
  have e : (fun t : ℝ => p.eval ((t + 1) / 2)) = fun t => (p.comp (C (1 / 2) * X + C (1 / 2))).eval t := by
    funext t; simp; congr 1; ring
  have h1 : quadSum (x.map fun t => (t + 1) / 2) w (fun t => p.eval t) = quadSum x w fun t => p.eval ((t + 1) / 2) := by
    simp only [quadSum, List.zipWith_map_right]
  rw [h1, e, hex _ (by
      refine lt_of_le_of_lt natDegree_comp_le ?_
      have : (C (1 / 2 : ℝ) * X + C (1 / 2)).natDegree ≤ 1 := natDegree_linear_le
      calc p.natDegree * (C (1 / 2 : ℝ) * X + C (1 / 2)).natDegree ≤ p.natDegree * 1 := Nat.mul_le_mul_left _ this
        _ < _ := by omega)]
  have := intervalIntegral.mul_integral_comp_mul_add (a := (-1 : ℝ)) (b := 1) (f := fun x => p.eval x) (1 / 2) (1 / 2)
  norm_num at this
  have h2 : ∫ t in (-1 : ℝ)..1, (p.comp (C (1 / 2) * X + C (1 / 2))).eval t = 2 * ∫ x in (0 : ℝ)..1, p.eval x := by
    rw [← this]
    simp
  rw [h2]
  ring

/-! ### Concrete cases -/

/-- Three points give Simpson's rule. -/
example : ∃ w, absWeights 3 = some ([-1, 0, 1], w) ∧ w = [1 / 3, 4 / 3, 1 / 3] := by
  refine ⟨_, by simp [absWeights, List.range_succ]; rfl, ?_⟩
  simp [ihfftRe, List.range_succ, sum_range_succ, v2, gv, v0, ccLen]
  norm_num

/-- The rule of order 1 (three points) integrates `x^3` over `[1, 3]`: the value is 20. -/
example : ∃ q, Rule.init 1 = some q ∧ quadIntegral (fun x => x ^ 3) 1 3 q = 20 := by
  obtain ⟨q, hq, -, h⟩ := (C85_integral 1).2 le_rfl
  refine ⟨q, hq, ?_⟩
  have := h (X ^ 3) (by simp) 1 3
  simp only [eval_pow, eval_X] at this
  rw [this, integral_pow]
  norm_num

/-- The rules of growing order converge for `|x|`, which is no polynomial. -/
example : ∃ N, ∀ order ≥ N, ∃ q, Rule.init order = some q ∧
    |quadIntegral (fun x => |x|) (-1) 2 q - ∫ x in (-1 : ℝ)..2, (|x|)| < 1 / 1000 :=
  C85_converges _ _ _ (continuous_abs.continuousOn) _ (by norm_num)

end JG.Quad
