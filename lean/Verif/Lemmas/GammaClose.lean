import Verif.Lemmas.GammaTaylor
import Verif.Lemmas.BesselTemme
import Mathlib.Analysis.SpecialFunctions.Gaussian.GaussianIntegral

/-! # The Gamma function between one half and three halves: the error -/

namespace JG.BesK

open Polynomial Real Filter Topology Set

/-- One piece of `posQ`. -/
def posAt (n : ℕ) (l : List ℚ) (i : ℕ) : Bool := match shiftQ ((2 * i + 1 - n) / (2 * n)) l with
    | [] => false
    | a :: t => decide (1 / (2 * n) * absQ (1 / (2 * n)) t < a)

theorem posQ_pieces (n : ℕ) (l : List ℚ) : posQ n l = (List.range n).all (posAt n l) := rfl

set_option maxHeartbeats 4000000 in
theorem loPoly_pos : posQ 16 loPoly = true := by
  have a : ([0, 1, 2, 3] : List ℕ).all (posAt 16 loPoly) = true := by decide +kernel
  have b : ([4, 5, 6, 7] : List ℕ).all (posAt 16 loPoly) = true := by decide +kernel
  have c : ([8, 9, 10, 11] : List ℕ).all (posAt 16 loPoly) = true := by decide +kernel
  have d : ([12, 13, 14, 15] : List ℕ).all (posAt 16 loPoly) = true := by decide +kernel
  rw [posQ_pieces, show List.range 16 = [0, 1, 2, 3] ++ [4, 5, 6, 7] ++ [8, 9, 10, 11] ++ [12, 13, 14, 15] from rfl,
    List.all_append, List.all_append, List.all_append, a, b, c, d]
  rfl

set_option maxHeartbeats 4000000 in
theorem hiPoly_pos : posQ 10 hiPoly = true := by
  have a : ([0, 1, 2, 3] : List ℕ).all (posAt 10 hiPoly) = true := by decide +kernel
  have b : ([4, 5, 6] : List ℕ).all (posAt 10 hiPoly) = true := by decide +kernel
  have c : ([7, 8, 9] : List ℕ).all (posAt 10 hiPoly) = true := by decide +kernel
  rw [posQ_pieces, show List.range 10 = [0, 1, 2, 3] ++ [4, 5, 6] ++ [7, 8, 9] from rfl,
    List.all_append, List.all_append, a, b, c]
  rfl
/-- The second derivative of `log R(v) + log Γ(1+v)` cut after `n` terms. -/
noncomputable def snd2 (n : ℕ) (v : ℝ) : ℝ :=
  evQ v wGam / evQ v rGam ^ 2 + ∑ m ∈ Finset.range (n + 1), 1 / (1 + v + m) ^ 2

theorem snd2_bounds {n : ℕ} (hn : 10 ≤ n) {v : ℝ} (hv : |v| ≤ 1 / 2) :
    -(cGam + 4 / n) ≤ snd2 n v ∧ snd2 n v ≤ cGam + 4 / n := by
  obtain ⟨h0, h1⟩ := abs_le.mp hv
  have hn0 : (0 : ℝ) < n := by exact_mod_cast (by omega : 0 < n)
  have hy : 0 < 11 + v := by linarith
  have hR := rGam_pos hv
  have ey : evQ v [11, 1] = 11 + v := by simp [evQ]
  -- the split sum
  have hsum : ∑ m ∈ Finset.range (n + 1), 1 / (1 + v + m) ^ 2
      = ∑ m ∈ Finset.range 10, 1 / (1 + v + (m : ℝ)) ^ 2 + ∑ i ∈ Finset.range (n - 9), 1 / (11 + v + (i : ℝ)) ^ 2 := by
    rw [show n + 1 = 10 + (n - 9) by omega, Finset.sum_range_add]
    congr 1
    refine Finset.sum_congr rfl fun i _ => ?_
    push_cast
    congr 2
    ring
  obtain ⟨b1, b2⟩ := sq_sum_bounds hy (n - 9)
  have hend : (n : ℝ) ≤ 11 + v + ((n - 9 : ℕ) : ℝ) := by
    rw [Nat.cast_sub (by omega)]; push_cast; linarith
  have hend1 : 1 ≤ 11 + v + ((n - 9 : ℕ) : ℝ) := by
    have : (10 : ℝ) ≤ n := by exact_mod_cast hn
    linarith
  have t1 := tail_abs hend1 loTail
  have t2 := tail_abs hend1 hiTail
  have q1 : absQ 1 loTail ≤ 3 := by decide +kernel
  have q2 : absQ 1 hiTail ≤ 4 := by decide +kernel
  have t3 : |tailR (11 + v + ((n - 9 : ℕ) : ℝ)) loTail| ≤ 4 / n := by
    refine t1.trans ?_
    have : ((absQ 1 loTail : ℚ) : ℝ) ≤ 4 := by
      have : ((absQ 1 loTail : ℚ) : ℝ) ≤ ((3 : ℚ) : ℝ) := by exact_mod_cast q1
      norm_num at this ⊢
      linarith
    exact div_le_div₀ (by norm_num) this hn0 hend
  have t4 : |tailR (11 + v + ((n - 9 : ℕ) : ℝ)) hiTail| ≤ 4 / n := by
    refine t2.trans ?_
    have : ((absQ 1 hiTail : ℚ) : ℝ) ≤ 4 := by exact_mod_cast q2
    exact div_le_div₀ (by norm_num) this hn0 hend
  have c1 := (abs_le.mp t3).2
  have c2 := (abs_le.mp t4).1
  rw [snd2, hsum]
  obtain ⟨H, hH⟩ : ∃ H, H = ∑ m ∈ Finset.range 10, 1 / (1 + v + (m : ℝ)) ^ 2 := ⟨_, rfl⟩
  obtain ⟨W, hW⟩ : ∃ W, W = evQ v wGam := ⟨_, rfl⟩
  constructor
  · obtain ⟨a, b⟩ := tailFr_eq [11, 1] (x := v) (by rw [ey]; exact hy) loTail
    obtain ⟨c, d⟩ := headFr_eq (x := v) (by linarith) a b 10
    have hp := posQ_pos (by norm_num) loPoly_pos hv
    have c : 0 < evQ v loFr.2 := c
    have d : evQ v loFr.1 = _ := d
    have e : evQ v (headFr (tailFr [11, 1] loTail) 10).2 = evQ v loFr.2 := rfl
    rw [loPoly, evQ_add, evQ_mul, evQ_mul, evQ_mul, evQ_add, evQ_sc, d, ey, ← hH, ← hW, e] at hp
    obtain ⟨den, hden⟩ : ∃ W, W = evQ v loFr.2 := ⟨_, rfl⟩
    obtain ⟨T, hT⟩ : ∃ W, W = tailR (11 + v) loTail := ⟨_, rfl⟩
    rw [← hden, ← hT] at hp
    rw [← hden] at c
    rw [← hT] at b1
    rw [← hW, ← hH]
    have hq : 0 < W / evQ v rGam ^ 2 + (T + H) + cGam := by
      have e2 : W * den + evQ v rGam * evQ v rGam * ((T + H) * den + cGam * den)
          = (W / evQ v rGam ^ 2 + (T + H) + cGam) * (den * evQ v rGam ^ 2) := by
        field_simp
        ring
      rw [e2] at hp
      exact (pos_iff_pos_of_mul_pos hp).mpr (by positivity)
    linarith
  · obtain ⟨a, b⟩ := tailFr_eq [11, 1] (x := v) (by rw [ey]; exact hy) hiTail
    obtain ⟨c, d⟩ := headFr_eq (x := v) (by linarith) a b 10
    have hp := posQ_pos (by norm_num) hiPoly_pos hv
    have c : 0 < evQ v hiFr.2 := c
    have d : evQ v hiFr.1 = _ := d
    have e : evQ v (headFr (tailFr [11, 1] hiTail) 10).2 = evQ v hiFr.2 := rfl
    rw [hiPoly, evQ_add, evQ_sc, evQ_mul, evQ_mul, evQ_mul, evQ_add, evQ_sc, evQ_sc, d, ey, ← hH, ← hW, e] at hp
    obtain ⟨den, hden⟩ : ∃ W, W = evQ v hiFr.2 := ⟨_, rfl⟩
    obtain ⟨T, hT⟩ : ∃ W, W = tailR (11 + v) hiTail := ⟨_, rfl⟩
    rw [← hden, ← hT] at hp
    rw [← hden] at c
    rw [← hT] at b2
    rw [← hW, ← hH]
    have hq : 0 < -(W / evQ v rGam ^ 2 + (T + H)) + cGam := by
      have e2 : ((-1 : ℚ) : ℝ) * (W * den) + evQ v rGam * evQ v rGam * (((-1 : ℚ) : ℝ) * ((T + H) * den) + cGam * den)
          = (-(W / evQ v rGam ^ 2 + (T + H)) + cGam) * (den * evQ v rGam ^ 2) := by
        field_simp
        push_cast
        ring
      rw [e2] at hp
      exact (pos_iff_pos_of_mul_pos hp).mpr (by positivity)
    linarith

/-! ### Convexity -/

open BohrMollerup

/-- `log R(v) + log Γ(1+v)` cut after `n` terms. -/
noncomputable def cut (n : ℕ) (v : ℝ) : ℝ := Real.log (evQ v rGam) + logGammaSeq (1 + v) n

noncomputable def cut1 (n : ℕ) (v : ℝ) : ℝ :=
  evQ v (dQ rGam) / evQ v rGam + Real.log n - ∑ m ∈ Finset.range (n + 1), 1 / (1 + v + m)

theorem cut_hasDerivAt (n : ℕ) {v : ℝ} (hv : |v| ≤ 1 / 2) : HasDerivAt (cut n) (cut1 n v) v := by
  obtain ⟨h0, h1⟩ := abs_le.mp hv
  have hR := rGam_pos hv
  have a := (evQ_hasDerivAt rGam v).log hR.ne'
  have hm : ∀ m ∈ Finset.range (n + 1), HasDerivAt (fun v : ℝ => Real.log (1 + v + m)) (1 / (1 + v + m)) v := by
    intro m _
    have hp : 0 < 1 + v + m := by
      have : (0 : ℝ) ≤ m := Nat.cast_nonneg m
      linarith
    exact (((hasDerivAt_id' v).const_add 1).add_const (m : ℝ)).log hp.ne'
  have c := HasDerivAt.fun_sum hm
  have d := ((((hasDerivAt_id' v).const_add 1).mul_const (Real.log n)).add_const (Real.log n.factorial)).fun_sub c
  refine (a.fun_add d).congr_deriv ?_
  rw [cut1]
  ring

theorem cut1_hasDerivAt (n : ℕ) {v : ℝ} (hv : |v| ≤ 1 / 2) : HasDerivAt (cut1 n) (snd2 n v) v := by
  obtain ⟨h0, h1⟩ := abs_le.mp hv
  have hR := rGam_pos hv
  have a := (evQ_hasDerivAt (dQ rGam) v).fun_div (evQ_hasDerivAt rGam v) hR.ne'
  have hm : ∀ m ∈ Finset.range (n + 1), HasDerivAt (fun v : ℝ => 1 / (1 + v + m)) (-(1 / (1 + v + m) ^ 2)) v := by
    intro m _
    have hp : 0 < 1 + v + m := by
      have : (0 : ℝ) ≤ m := Nat.cast_nonneg m
      linarith
    refine ((hasDerivAt_const v (1 : ℝ)).fun_div (((hasDerivAt_id' v).const_add 1).add_const (m : ℝ)) hp.ne').congr_deriv ?_
    simp
    ring
  have c := HasDerivAt.fun_sum hm
  refine ((a.add_const (Real.log n)).fun_sub c).congr_deriv ?_
  rw [snd2, Finset.sum_neg_distrib, sub_neg_eq_add, wGam, evQ_add, evQ_mul, evQ_sc, evQ_mul]
  congr 2
  push_cast
  ring

theorem cut_convex {n : ℕ} (hn : 10 ≤ n) {s : ℝ} (hs : s = 1 ∨ s = -1) :
    ConvexOn ℝ (Icc (-(1 / 2)) (1 / 2)) (fun v => s * cut n v + (cGam + 4 / n) * v ^ 2 / 2) := by
  have mem : ∀ v ∈ Icc (-(1 / 2) : ℝ) (1 / 2), |v| ≤ 1 / 2 := fun v hv => abs_le.mpr hv
  have hd : ∀ v ∈ Icc (-(1 / 2) : ℝ) (1 / 2), HasDerivAt (fun v => s * cut n v + (cGam + 4 / n) * v ^ 2 / 2)
      (s * cut1 n v + (cGam + 4 / n) * v) v := by
    intro v hv
    have h2 := (((hasDerivAt_id' v).fun_pow 2).const_mul ((cGam : ℝ) + 4 / n)).div_const 2
    refine (((cut_hasDerivAt n (mem v hv)).const_mul s).fun_add h2).congr_deriv ?_
    simp
    ring
  have hd2 : ∀ v ∈ Icc (-(1 / 2) : ℝ) (1 / 2), HasDerivAt (fun v => s * cut1 n v + (cGam + 4 / n) * v)
      (s * snd2 n v + (cGam + 4 / n)) v := by
    intro v hv
    have h2 := (hasDerivAt_id' v).const_mul ((cGam : ℝ) + 4 / n)
    refine (((cut1_hasDerivAt n (mem v hv)).const_mul s).fun_add h2).congr_deriv ?_
    simp
  refine convexOn_of_hasDerivWithinAt2_nonneg (convex_Icc _ _) (fun v hv => (hd v hv).continuousAt.continuousWithinAt)
    (fun v hv => (hd v (interior_subset hv)).hasDerivWithinAt)
    (fun v hv => (hd2 v (interior_subset hv)).hasDerivWithinAt) (fun v hv => ?_)
  have hb := snd2_bounds hn (mem v (interior_subset hv))
  rcases hs with h | h <;> rw [h] <;> linarith [hb.1, hb.2]

/-- The logarithm of the quotient. -/
noncomputable def logQ (v : ℝ) : ℝ := Real.log (evQ v rGam) + Real.log (Gamma (1 + v))

theorem cut_tendsto {v : ℝ} (hv : -1 < v) : Tendsto (fun n => cut n v) atTop (𝓝 (logQ v)) :=
  (tendsto_log_gamma (by linarith : 0 < 1 + v)).const_add _

theorem logQ_chord {s : ℝ} (hs : s = 1 ∨ s = -1) {e : ℝ} (he : e = 1 / 2 ∨ e = -(1 / 2)) {t : ℝ} (h0 : 0 ≤ t) (h1 : t ≤ 1) :
    s * logQ (t * e) ≤ (1 - t) * (s * logQ 0) + t * (s * logQ e) + t * (cGam / 8) := by
  have he2 : e * e = 1 / 4 := by rcases he with h | h <;> rw [h] <;> norm_num
  have hem : e ∈ Icc (-(1 / 2) : ℝ) (1 / 2) := by rcases he with h | h <;> rw [h] <;> constructor <;> norm_num
  have h0m : (0 : ℝ) ∈ Icc (-(1 / 2) : ℝ) (1 / 2) := by constructor <;> norm_num
  have hte : -1 < t * e := by rcases he with h | h <;> rw [h] <;> linarith
  have hec : Tendsto (fun n : ℕ => (cGam : ℝ) + 4 / n) atTop (𝓝 (cGam + 0)) :=
    (tendsto_const_div_atTop_nhds_zero_nat 4).const_add _
  have hl := ((cut_tendsto hte).const_mul s).add ((hec.mul_const ((t * e) ^ 2)).div_const 2)
  have hr0 := ((cut_tendsto (by norm_num : (-1 : ℝ) < 0)).const_mul s)
  have hr1 := ((cut_tendsto (by linarith [hem.1] : -1 < e)).const_mul s).add ((hec.mul_const (e ^ 2)).div_const 2)
  have hr := (hr0.const_mul (1 - t)).add (hr1.const_mul t)
  have hle := le_of_tendsto_of_tendsto hl hr ?_
  · have hc : (0 : ℝ) ≤ cGam := by norm_num [cGam]
    have e2 : (t * e) ^ 2 = t ^ 2 / 4 := by rw [mul_pow, pow_two e, he2]; ring
    rw [e2, pow_two e, he2] at hle
    have : 0 ≤ (cGam : ℝ) * t ^ 2 := by positivity
    linarith
  · filter_upwards [eventually_ge_atTop 10] with n hn
    have h := (cut_convex hn hs).2 h0m hem (sub_nonneg.mpr h1) h0 (by ring)
    simp only [smul_eq_mul, mul_zero, zero_add] at h
    norm_num at h ⊢
    linarith

/-! ### The values at the ends -/

/-- The value at a rational point. -/
def evalQ (x : ℚ) : List ℚ → ℚ
  | [] => 0
  | a :: l => a + x * evalQ x l

theorem evalQ_cast (x : ℚ) (l : List ℚ) : evQ (x : ℝ) l = (evalQ x l : ℚ) := by
  induction l with
  | nil => simp [evQ, evalQ]
  | cons a l ih => simp only [evQ, evalQ, ih]; push_cast; ring

theorem logQ_zero : logQ 0 = 0 := by
  have : evQ 0 rGam = 1 := by simp [rGam, evQ]
  rw [logQ, this, add_zero, Gamma_one, log_one, add_zero]

theorem log_small {x d : ℝ} (h1 : 1 - d ≤ x) (h2 : x ≤ 1 + d) (hd : d ≤ 1 / 2) : |Real.log x| ≤ 2 * d := by
  have hx : 0 < x := by linarith
  rw [abs_le]
  constructor
  · have := one_sub_inv_le_log_of_pos hx
    have h3 : x⁻¹ ≤ 1 + 2 * d := by
      rw [inv_le_iff_one_le_mul₀ hx]
      have h4 : 0 ≤ d := by linarith
      nlinarith
    linarith
  · have := log_le_sub_one_of_pos hx
    have h4 : 0 ≤ d := by linarith
    linarith

theorem logQ_end {e q : ℚ} (he : |(e : ℝ)| ≤ 1 / 2) (hq : 0 < q) (hG : Gamma (1 + (e : ℝ)) = q * sqrt π)
    (h1 : 1 - 1 / 10 ^ 19 ≤ (evalQ e rGam * q) ^ 2 * (314159265358979323846 / 10 ^ 20))
    (h2 : (evalQ e rGam * q) ^ 2 * (314159265358979323847 / 10 ^ 20) ≤ 1 + 1 / 10 ^ 19) :
    |logQ e| ≤ 1 / 10 ^ 19 := by
  have hR := rGam_pos he
  have hq' : (0 : ℝ) < q := by exact_mod_cast hq
  have hp : 0 < sqrt π := sqrt_pos.mpr pi_pos
  have h1' : ((1 - 1 / 10 ^ 19 : ℚ) : ℝ) ≤ (((evalQ e rGam * q) ^ 2 * (314159265358979323846 / 10 ^ 20) : ℚ) : ℝ) := by
    exact_mod_cast h1
  have h2' : (((evalQ e rGam * q) ^ 2 * (314159265358979323847 / 10 ^ 20) : ℚ) : ℝ) ≤ ((1 + 1 / 10 ^ 19 : ℚ) : ℝ) := by
    exact_mod_cast h2
  push_cast at h1' h2'
  rw [← evalQ_cast] at h1' h2'
  have p1 := pi_gt_d20
  have p2 := pi_lt_d20
  obtain ⟨r, hr⟩ : ∃ r, r = (evQ (e : ℝ) rGam * q) := ⟨_, rfl⟩
  have hr0 : 0 < r := by rw [hr]; positivity
  rw [← hr] at h1' h2'
  have e1 : logQ e = 1 / 2 * Real.log (r ^ 2 * π) := by
    rw [logQ, hG, ← Real.log_mul hR.ne' (by positivity), ← mul_assoc, ← hr,
      show r ^ 2 * π = (r * sqrt π) ^ 2 by rw [mul_pow, sq_sqrt pi_pos.le], Real.log_pow]
    norm_num
    ring
  have hs := sq_nonneg r
  have a1 : 1 - 1 / 10 ^ 19 ≤ r ^ 2 * π := by
    refine h1'.trans (mul_le_mul_of_nonneg_left ?_ hs)
    norm_num at p1 ⊢
    linarith
  have a2 : r ^ 2 * π ≤ 1 + 1 / 10 ^ 19 := by
    refine le_trans (mul_le_mul_of_nonneg_left ?_ hs) h2'
    norm_num at p2 ⊢
    linarith
  have := log_small a1 a2 (by norm_num)
  rw [e1, abs_mul, abs_of_pos (by norm_num : (0 : ℝ) < 1 / 2)]
  linarith

theorem logQ_ends {e : ℝ} (he : e = 1 / 2 ∨ e = -(1 / 2)) : |logQ e| ≤ 1 / 10 ^ 19 := by
  rcases he with h | h
  · have := logQ_end (e := 1 / 2) (q := 1 / 2) (by norm_num [abs_of_pos]) (by norm_num)
      (by
        have := Gamma_add_one (s := 1 / 2) (by norm_num)
        rw [Gamma_one_half_eq] at this
        push_cast
        rw [add_comm, this])
      (by decide +kernel) (by decide +kernel)
    rw [h]
    push_cast at this
    exact this
  · have := logQ_end (e := -(1 / 2)) (q := 1) (by norm_num [abs_of_pos]) (by norm_num)
      (by push_cast; rw [one_mul, ← Gamma_one_half_eq]; norm_num)
      (by decide +kernel) (by decide +kernel)
    rw [h]
    push_cast at this
    exact this

theorem logQ_bound {v : ℝ} (hv : |v| ≤ 1 / 2) : |logQ v| ≤ 16 / 10 ^ 17 * |v| := by
  obtain ⟨e, he, hve⟩ : ∃ e : ℝ, (e = 1 / 2 ∨ e = -(1 / 2)) ∧ v = 2 * |v| * e := by
    rcases le_or_gt 0 v with h | h
    · exact ⟨1 / 2, Or.inl rfl, by rw [abs_of_nonneg h]; ring⟩
    · exact ⟨-(1 / 2), Or.inr rfl, by rw [abs_of_neg h]; ring⟩
  have a := logQ_chord (s := 1) (Or.inl rfl) he (t := 2 * |v|) (by positivity) (by linarith)
  have b := logQ_chord (s := -1) (Or.inr rfl) he (t := 2 * |v|) (by positivity) (by linarith)
  rw [← hve, logQ_zero] at a b
  have c := abs_le.mp (logQ_ends he)
  have hc : (cGam : ℝ) = 6 / 10 ^ 16 := by norm_num [cGam]
  rw [hc] at a b
  have h0 := abs_nonneg v
  have m1 := mul_le_mul_of_nonneg_left c.1 h0
  have m2 := mul_le_mul_of_nonneg_left c.2 h0
  norm_num at a b m1 m2 ⊢
  rw [abs_le]
  constructor <;> nlinarith

theorem rGam_le {v : ℝ} (hv : |v| ≤ 1 / 2) : evQ v rGam ≤ 8 / 7 := by
  have h := posQ_pos (n := 8) (l := addQ [8 / 7] (scQ (-1) rGam)) (by norm_num) (by decide +kernel) hv
  rw [evQ_add, evQ_sc] at h
  simp only [evQ] at h
  push_cast at h
  linarith

/-- The polynomial agrees with `1/Γ(1+v)`. -/
theorem inv_gamma_close {v : ℝ} (hv : |v| ≤ 1 / 2) : |1 / Gamma (1 + v) - evQ v rGam| ≤ 2 / 10 ^ 16 * |v| := by
  have hR := rGam_pos hv
  have hR2 := rGam_le hv
  have hG : 0 < Gamma (1 + v) := Gamma_pos_of_pos (by linarith [(abs_le.mp hv).1])
  have hl := logQ_bound hv
  have e : 1 / Gamma (1 + v) = evQ v rGam * exp (-logQ v) := by
    rw [logQ, neg_add, exp_add, exp_neg, exp_neg, exp_log hR, exp_log hG]
    field_simp
  have hs : |-logQ v| ≤ 1 := by
    rw [abs_neg]
    refine hl.trans ?_
    norm_num
    linarith
  have hx := Real.abs_exp_sub_one_sub_id_le hs
  rw [e, show evQ v rGam * exp (-logQ v) - evQ v rGam = evQ v rGam * (exp (-logQ v) - 1) by ring, abs_mul, abs_of_pos hR]
  obtain ⟨l, hld⟩ : ∃ l, l = |logQ v| := ⟨_, rfl⟩
  have hx2 : |exp (-logQ v) - 1| ≤ l + l ^ 2 := by
    have := abs_add_le (exp (-logQ v) - 1 - -logQ v) (-logQ v)
    rw [sub_add_cancel, abs_neg] at this
    have e3 : (-logQ v) ^ 2 = l ^ 2 := by rw [hld, sq_abs, neg_sq]
    rw [e3] at hx
    linarith
  rw [← hld] at hl
  have hl0 : 0 ≤ l := by rw [hld]; exact abs_nonneg _
  have h0 := abs_nonneg v
  have hl1 : l ≤ 1 / 10 ^ 16 := by
    refine hl.trans ?_
    norm_num
    linarith
  have h5 : l + l ^ 2 ≤ 17 / 10 ^ 17 * |v| := by
    norm_num at hl hl1 ⊢
    nlinarith
  calc evQ v rGam * |exp (-logQ v) - 1| ≤ 8 / 7 * (17 / 10 ^ 17 * |v|) :=
        mul_le_mul hR2 (hx2.trans h5) (abs_nonneg _) (by norm_num)
    _ ≤ _ := by norm_num; linarith

end JG.BesK
