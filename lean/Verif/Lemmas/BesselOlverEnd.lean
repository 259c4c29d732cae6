import Verif.Lemmas.BesselOlver

/-! # Olver's expansion: the error of the code -/

namespace JG.BesK

open Real Set Filter Topology JG.Elt Polynomial

theorem resid_olSum {nu : ℝ} (hnu : 0 < nu) (c p : ℝ) : resid nu (olSum (-1 / nu) 10 + C c * X) p
    = (-1 / nu) ^ 10 * (derivative (olU 11)).eval p + c * (9 / 8 * p - 21 / 8 * p ^ 3 + nu) := by
  have h := congrArg (eval p) (olSum_eq hnu.ne' 10)
  rw [eval_add, eval_mul, eval_C, eval_mul, eval_C] at h
  rw [resid, olT_add, olT_C_mul, derivative_add, derivative_C_mul, eval_add, eval_add, mul_add]
  have e : (C c * olT X).eval p + nu * (C c * derivative X).eval p = c * (9 / 8 * p - 21 / 8 * p ^ 3 + nu) := by
    have : olT (X : ℝ[X]) = C (1 / 2) * (2 * X - 4 * X ^ 3) + C (1 / 8) * ((1 - 5 * X ^ 2) * X) := by
      rw [olT, show (X : ℝ[X]) ^ 2 * (1 - X ^ 2) * derivative X = X ^ 2 - X ^ 4 by rw [derivative_X]; ring, derivative_sub,
        derivative_X_pow, derivative_X_pow]
      norm_num
      rfl
    rw [this]
    simp
    ring
  linear_combination h + e

/-- A bound on the terms after the first. -/
def tailQ : ℕ → ℚ
  | 0 => 0
  | n + 1 => tailQ n + absQ 1 (olRow (n + 1)) / 50 ^ (n + 1)

theorem inv_pow_bound {nu : ℝ} (hnu : 50 ≤ nu) (k : ℕ) : |(-1 / nu) ^ k| ≤ 1 / 50 ^ k := by
  rw [abs_pow, abs_div, abs_neg, abs_one, abs_of_pos (by linarith : 0 < nu), div_pow, one_pow]
  exact one_div_le_one_div_of_le (by positivity) (pow_le_pow_left₀ (by norm_num) hnu k)

theorem olSum_tail {nu p : ℝ} (hnu : 50 ≤ nu) (hp : |p| ≤ 1) (n : ℕ) :
    |(olSum (-1 / nu) n).eval p - 1| ≤ tailQ n := by
  induction n with
  | zero => simp [olSum, olU, olRow, polyQ, tailQ]
  | succ n ih =>
    have e : olSum (-1 / nu) (n + 1) = olSum (-1 / nu) n + C ((-1 / nu) ^ (n + 1)) * olU (n + 1) := by
      rw [olSum, Finset.sum_range_succ]; rfl
    rw [e, eval_add, eval_mul, eval_C, tailQ, olU, polyQ_eval]
    have h1 := evQ_abs (r := 1) (by simpa using hp) (olRow (n + 1))
    have h2 := inv_pow_bound hnu (n + 1)
    have h3 : |(-1 / nu) ^ (n + 1) * evQ p (olRow (n + 1))| ≤ 1 / 50 ^ (n + 1) * (absQ 1 (olRow (n + 1)) : ℝ) := by
      rw [abs_mul]
      exact mul_le_mul h2 h1 (abs_nonneg _) (by positivity)
    push_cast
    rw [show (olSum (-1 / nu) n).eval p + (-1 / nu) ^ (n + 1) * evQ p (olRow (n + 1)) - 1
      = ((olSum (-1 / nu) n).eval p - 1) + (-1 / nu) ^ (n + 1) * evQ p (olRow (n + 1)) by ring]
    refine (abs_add_le _ _).trans (add_le_add ih (h3.trans (le_of_eq ?_)))
    ring

theorem olSum_near {nu p : ℝ} (hnu : 50 ≤ nu) (hp0 : 0 ≤ p) (hp : p ≤ 1) :
    |(olSum (-1 / nu) 10).eval p - 1| ≤ 1 / 50 := by
  have h := olSum_tail hnu (by rwa [abs_of_nonneg hp0]) 10
  have h2 : tailQ 10 ≤ 1 / 50 := by decide +kernel
  refine h.trans ?_
  have : ((tailQ 10 : ℚ) : ℝ) ≤ ((1 / 50 : ℚ) : ℝ) := by exact_mod_cast h2
  norm_num at this ⊢
  exact this

theorem kv_olver {nu w : ℝ} (hnu : 50 ≤ nu) (hw : 0 < w) :
    |kv nu (nu * w) - sqrt (π / (2 * nu)) * (bigE nu w * (olSum (-1 / nu) 10).eval (ppw w))|
      ≤ sqrt (π / (2 * nu)) * bigE nu w * (216 / 50 ^ 11) := by
  have hn0 : 0 < nu := by linarith
  have hsmall : (216 : ℝ) / nu ^ 11 ≤ 216 / 50 ^ 11 :=
    div_le_div_of_nonneg_left (by norm_num) (by norm_num) (pow_le_pow_left₀ (by norm_num) hnu 11)
  have key : ∀ s : ℝ, s = 1 ∨ s = -1 → 0 ≤ -s * (kv nu (nu * w)
      - sqrt (π / (2 * nu)) * (bigE nu w * (olSum (-1 / nu) 10 + C (s * 216 / nu ^ 11) * X).eval (ppw w))) := by
    intro s hs
    have hs2 : s * s = 1 := by rcases hs with h | h <;> rw [h] <;> norm_num
    refine kv_compare hn0 _ (-s) ?_ ?_ ?_ hw
    · have h : ∀ n, (olSum (-1 / nu) n).eval 0 = 1 := by
        intro n
        induction n with
        | zero => simp [olSum, olU, olRow, polyQ]
        | succ n ih =>
          have e : olSum (-1 / nu) (n + 1) = olSum (-1 / nu) n + C ((-1 / nu) ^ (n + 1)) * olU (n + 1) := by
            rw [olSum, Finset.sum_range_succ]; rfl
          rw [e, eval_add, ih, eval_mul, olU_zero]
          simp
      simp [h 10]
    · intro p h0 h1
      have h2 := abs_le.mp (olSum_near hnu h0.le h1)
      have h3 : |s * 216 / nu ^ 11 * p| ≤ 216 / 50 ^ 11 := by
        have : |s| = 1 := by rcases hs with h | h <;> rw [h] <;> norm_num
        rw [abs_mul, abs_div, abs_mul, this, abs_of_pos (by positivity : 0 < nu ^ 11), abs_of_pos h0]
        norm_num at hsmall ⊢
        have h5 : 0 < 216 / nu ^ 11 := by positivity
        nlinarith
      have h4 := (abs_le.mp h3).1
      rw [eval_add, eval_mul, eval_C, eval_X]
      norm_num at h4
      linarith
    · intro p h0 h1
      rw [resid_olSum hn0]
      have hb := abs_le.mp (olU11_bound h0.le h1)
      obtain ⟨u, hu⟩ : ∃ u, u = (derivative (olU 11)).eval p := ⟨_, rfl⟩
      rw [← hu] at hb ⊢
      have e : -s * ((-1 / nu) ^ 10 * u + s * 216 / nu ^ 11 * (9 / 8 * p - 21 / 8 * p ^ 3 + nu))
          = -(1 / nu ^ 11) * (s * u * nu + (s * s) * 216 * (9 / 8 * p - 21 / 8 * p ^ 3 + nu)) := by
        field_simp
      rw [e, hs2]
      have h5 : 0 ≤ s * u * nu + 1 * 216 * (9 / 8 * p - 21 / 8 * p ^ 3 + nu) := by
        have h6 : -(3 / 2) ≤ 9 / 8 * p - 21 / 8 * p ^ 3 := by nlinarith [mul_nonneg h0.le (sub_nonneg.mpr h1), mul_nonneg (mul_nonneg h0.le h0.le) (sub_nonneg.mpr h1)]
        have h7 : -209 ≤ s * u := by rcases hs with h | h <;> rw [h] <;> linarith [hb.1, hb.2]
        nlinarith
      have : 0 ≤ 1 / nu ^ 11 := by positivity
      nlinarith
  have k1 := key 1 (Or.inl rfl)
  have k2 := key (-1) (Or.inr rfl)
  rw [eval_add, eval_mul, eval_C, eval_X] at k1 k2
  have hE := bigE_pos nu w
  have hL := sqrt_nonneg (π / (2 * nu))
  have hp0 := ppw_pos w
  have hp1 := ppw_le_one w
  have hm : sqrt (π / (2 * nu)) * bigE nu w * (216 / nu ^ 11 * ppw w) ≤ sqrt (π / (2 * nu)) * bigE nu w * (216 / 50 ^ 11) := by
    refine mul_le_mul_of_nonneg_left ?_ (by positivity)
    have h5 : 0 < 216 / nu ^ 11 := by positivity
    exact (mul_le_of_le_one_right h5.le hp1).trans hsmall
  rw [abs_le]
  obtain ⟨M, hM⟩ : ∃ M, M = sqrt (π / (2 * nu)) * bigE nu w * (216 / 50 ^ 11) := ⟨_, rfl⟩
  rw [← hM] at hm ⊢
  have e1 : 1 * 216 / nu ^ 11 = 216 / nu ^ 11 := by ring
  have e2 : -1 * 216 / nu ^ 11 = -(216 / nu ^ 11) := by ring
  rw [e1] at k1
  rw [e2] at k2
  constructor
  · nlinarith
  · nlinarith

/-! ### The sum in the code -/

theorem horner_foldl (t : ℝ) (cs : List ℚ) (acc : ℝ) :
    (cs.map fun c : ℚ => (c : ℝ)).foldl (fun coeff c => coeff * t + c) acc = evQ t cs.reverse + acc * t ^ cs.length := by
  have happ : ∀ (l : List ℚ) (a : ℚ), evQ t (l ++ [a]) = evQ t l + a * t ^ l.length := by
    intro l a
    induction l with
    | nil => simp [evQ]
    | cons b l ih => simp only [List.cons_append, evQ, ih, List.length_cons]; ring
  induction cs generalizing acc with
  | nil => simp [evQ]
  | cons a l ih =>
    simp only [List.map_cons, List.foldl_cons, List.reverse_cons, List.length_cons]
    rw [ih, happ, List.length_reverse]
    ring

theorem horner_eq (t : ℝ) (cs : List ℚ) : horner t (cs.map fun c : ℚ => (c : ℝ)) = evQ t cs.reverse := by
  rw [horner, horner_foldl]; ring

/-- The error of a table. -/
def tableErr : ℕ → List (List ℚ) → ℚ
  | _, [] => 0
  | i, row :: rest => distQ row.reverse (olRow (i + 1)) / 50 ^ (i + 1) + tableErr (i + 1) rest

theorem olverLoop_err {nu t : ℝ} (hnu : 50 ≤ nu) (h0 : 0 ≤ t) (h1 : t ≤ 1) (rows : List (List ℚ)) :
    ∀ (i : ℕ) (acc : ℝ), |olverLoop nu t i (nu ^ (i + 1)) acc (rows.map (List.map fun c : ℚ => (c : ℝ)))
      - acc - ∑ k ∈ Finset.range rows.length, (-1 / nu) ^ (i + 1 + k) * (olU (i + 1 + k)).eval t| ≤ tableErr i rows := by
  have hn0 : 0 < nu := by linarith
  induction rows with
  | nil => intro i acc; simp [olverLoop, tableErr]
  | cons row rest ih =>
    intro i acc
    simp only [List.map_cons, olverLoop, List.length_cons, tableErr]
    rw [horner_eq, ← pow_succ, Finset.sum_range_succ']
    obtain ⟨a2, ha2⟩ : ∃ a2, a2 = acc + (if i % 2 = 1 then evQ t row.reverse / nu ^ (i + 1) else -(evQ t row.reverse / nu ^ (i + 1))) := ⟨_, rfl⟩
    have h := ih (i + 1) a2
    have es : ∑ k ∈ Finset.range rest.length, (-1 / nu) ^ (i + 1 + (k + 1)) * (olU (i + 1 + (k + 1))).eval t
        = ∑ k ∈ Finset.range rest.length, (-1 / nu) ^ (i + 1 + 1 + k) * (olU (i + 1 + 1 + k)).eval t := by
      refine Finset.sum_congr rfl fun k _ => ?_
      rw [show i + 1 + (k + 1) = i + 1 + 1 + k by ring]
    rw [es, add_zero, ← ha2]
    have hterm : a2 - acc = (-1 / nu) ^ (i + 1) * evQ t row.reverse := by
      rw [ha2]
      have : (-1 / nu) ^ (i + 1) = (-1) ^ (i + 1) / nu ^ (i + 1) := div_pow _ _ _
      rw [this]
      rcases Nat.mod_two_eq_zero_or_one i with hi | hi
      · rw [if_neg (by omega)]
        have : Odd (i + 1) := by rw [Nat.odd_iff]; omega
        rw [this.neg_one_pow]
        ring
      · rw [if_pos hi]
        have : Even (i + 1) := by rw [Nat.even_iff]; omega
        rw [this.neg_one_pow]
        ring
    have hd : |(-1 / nu) ^ (i + 1) * evQ t row.reverse - (-1 / nu) ^ (i + 1) * (olU (i + 1)).eval t|
        ≤ (distQ row.reverse (olRow (i + 1)) : ℝ) / 50 ^ (i + 1) := by
      rw [← mul_sub, abs_mul, olU, polyQ_eval]
      have := mul_le_mul (inv_pow_bound hnu (i + 1)) (distQ_le h0 h1 row.reverse (olRow (i + 1))) (abs_nonneg _) (by positivity)
      refine this.trans (le_of_eq ?_)
      ring
    push_cast
    obtain ⟨S, hS⟩ : ∃ S, S = ∑ k ∈ Finset.range rest.length, (-1 / nu) ^ (i + 1 + 1 + k) * (olU (i + 1 + 1 + k)).eval t := ⟨_, rfl⟩
    rw [← hS] at h ⊢
    obtain ⟨O, hO⟩ : ∃ O, O = olverLoop nu t (i + 1) (nu ^ (i + 1 + 1)) a2 (rest.map (List.map fun c : ℚ => (c : ℝ))) := ⟨_, rfl⟩
    rw [← hO] at h ⊢
    rw [show O - acc - (S + (-1 / nu) ^ (i + 1) * (olU (i + 1)).eval t)
      = ((-1 / nu) ^ (i + 1) * evQ t row.reverse - (-1 / nu) ^ (i + 1) * (olU (i + 1)).eval t) + (O - a2 - S) by
        rw [← hterm]; ring]
    exact (abs_add_le _ _).trans (add_le_add hd h)

theorem olver_sum_err {nu t : ℝ} (hnu : 50 ≤ nu) (h0 : 0 ≤ t) (h1 : t ≤ 1) :
    |olverLoop nu t 0 nu 1 olverTable - (olSum (-1 / nu) 10).eval t| ≤ 1 / 10 ^ 17 := by
  have h := olverLoop_err hnu h0 h1 olverTableQ 0 1
  have hlen : olverTableQ.length = 10 := rfl
  rw [hlen, zero_add, pow_one] at h
  have he : tableErr 0 olverTableQ ≤ 1 / 10 ^ 17 := by decide +kernel
  have hs : (olSum (-1 / nu) 10).eval t = 1 + ∑ k ∈ Finset.range 10, (-1 / nu) ^ (1 + k) * (olU (1 + k)).eval t := by
    rw [olSum, Finset.sum_range_succ', eval_add, eval_finsetSum]
    have : (olU 0).eval t = 1 := by simp [olU, olRow, polyQ]
    rw [pow_zero, eval_mul, this, eval_C, add_comm]
    congr 1
    · norm_num
    · refine Finset.sum_congr rfl fun k _ => ?_
      rw [eval_mul, eval_C, add_comm k 1]
  rw [hs, ← sub_sub]
  refine h.trans ?_
  have : ((tableErr 0 olverTableQ : ℚ) : ℝ) ≤ ((1 / 10 ^ 17 : ℚ) : ℝ) := by exact_mod_cast he
  refine this.trans (le_of_eq ?_)
  norm_num

theorem sqrt1px2_eq {eps w : ℝ} (h : |w| * sqrt eps ≤ 1) : sqrt1px2 eps w = sqw w := by
  rw [sqrt1px2, if_pos h, sqw, sqrt_eq_rpow, rpow_def_of_pos (by positivity)]
  congr 1
  rw [show w * w = w ^ 2 by ring]
  norm_num
  ring

theorem olverKve_eq {eps nu z : ℝ} (hnu : 0 < nu) (hz : 0 < z) (he : z * sqrt eps ≤ nu) {table : List (List ℝ)}
    (hS : 0 < olverLoop nu (ppw (z / nu)) 0 nu 1 table) :
    olverKve eps table nu z = sqrt (π / (2 * nu)) * (bigE nu (z / nu) * olverLoop nu (ppw (z / nu)) 0 nu 1 table) * exp z := by
  have hw : 0 < z / nu := by positivity
  have hc : |z / nu| * sqrt eps ≤ 1 := by
    rw [abs_of_pos hw, div_mul_eq_mul_div, div_le_one hnu]
    exact he
  have hs := sqw_pos (z / nu)
  have hp := ppw_pos (z / nu)
  have hs2 := sqw_sq (z / nu)
  simp only [olverKve, abs_of_pos hnu, sqrt1px2_eq hc]
  rw [show 1 / sqw (z / nu) = ppw (z / nu) from rfl, exp_add, exp_log hS, exp_sub]
  have e1 : exp (0.5 * Real.log (π * ppw (z / nu) / (2 * nu))) = sqrt (π / (2 * nu)) * sqrt (ppw (z / nu)) := by
    rw [← sqrt_mul (by positivity), show π / (2 * nu) * ppw (z / nu) = π * ppw (z / nu) / (2 * nu) by ring, sqrt_eq_rpow,
      rpow_def_of_pos (by positivity)]
    norm_num
    ring
  have e2 : 1 / (sqw (z / nu) + z / nu) + Real.log (z / nu) - Real.log (1 + 1 / ppw (z / nu))
      = etaw (z / nu) - z / nu := by
    rw [etaw, Real.log_div hw.ne' (by positivity), show 1 / ppw (z / nu) = sqw (z / nu) by rw [ppw, one_div_one_div]]
    have : 1 / (sqw (z / nu) + z / nu) = sqw (z / nu) - z / nu := by
      rw [div_eq_iff (by positivity)]
      linear_combination -hs2
    rw [this]
    ring
  rw [e1, e2, bigE, show nu * (etaw (z / nu) - z / nu) = -(-nu * etaw (z / nu)) - z by field_simp, exp_sub, exp_neg]
  have := (exp_pos z).ne'
  have := (exp_pos (-nu * etaw (z / nu))).ne'
  field_simp

theorem olver_error {eps nu z : ℝ} (hnu : 50 ≤ nu) (hz : 0 < z) (he : z * sqrt eps ≤ nu) :
    |olverKve eps olverTable nu z - kv nu z * exp z| ≤ 1 / 10 ^ 16 * (kv nu z * exp z) := by
  have hn0 : 0 < nu := by linarith
  have hw : 0 < z / nu := by positivity
  have hp0 := ppw_pos (z / nu)
  have hp1 := ppw_le_one (z / nu)
  have h1 := olver_sum_err hnu hp0.le hp1
  have h2 := olSum_near hnu hp0.le hp1
  have h3 := kv_olver hnu hw
  rw [show nu * (z / nu) = z by field_simp] at h3
  have hS : 0 < olverLoop nu (ppw (z / nu)) 0 nu 1 olverTable := by
    have a := (abs_le.mp h1).1
    have b := (abs_le.mp h2).1
    norm_num at a b
    linarith
  rw [olverKve_eq hn0 hz he hS]
  obtain ⟨L, hL⟩ : ∃ L, L = sqrt (π / (2 * nu)) * bigE nu (z / nu) := ⟨_, rfl⟩
  have hL0 : 0 ≤ L := by rw [hL]; exact mul_nonneg (sqrt_nonneg _) (bigE_pos _ _).le
  rw [← mul_assoc, ← hL] at h3 ⊢
  rw [← sub_mul, abs_mul, abs_of_pos (exp_pos z), ← mul_assoc]
  refine mul_le_mul_of_nonneg_right ?_ (exp_pos z).le
  obtain ⟨S, hSd⟩ : ∃ S, S = (olSum (-1 / nu) 10).eval (ppw (z / nu)) := ⟨_, rfl⟩
  obtain ⟨T, hT⟩ : ∃ S, S = olverLoop nu (ppw (z / nu)) 0 nu 1 olverTable := ⟨_, rfl⟩
  obtain ⟨K, hK⟩ : ∃ S, S = kv nu z := ⟨_, rfl⟩
  rw [← hSd] at h1 h2 h3
  rw [← hT] at h1 ⊢
  rw [← hK] at h3 ⊢
  have a1 := abs_le.mp h1
  have a2 := abs_le.mp h2
  have a3 := abs_le.mp h3
  clear h1 h2 h3 hS hT hK hSd hL hp0 hp1 he
  have b1 : L * T - L * S ≤ L * (1 / 10 ^ 17) := by rw [← mul_sub]; exact mul_le_mul_of_nonneg_left a1.2 hL0
  have b2 : -(L * (1 / 10 ^ 17)) ≤ L * T - L * S := by rw [← mul_sub, ← mul_neg]; exact mul_le_mul_of_nonneg_left a1.1 hL0
  have b3 : L * (49 / 50) ≤ L * S := mul_le_mul_of_nonneg_left (by linarith) hL0
  norm_num at a3 b1 b2 b3 ⊢
  rw [abs_le]
  constructor <;> linarith

end JG.BesK
