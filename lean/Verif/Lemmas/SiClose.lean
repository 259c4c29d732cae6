import Verif.Lemmas.SiPoly
import Verif.Lemmas.SiTaylor
import Verif.Lemmas.GammaClose
import Mathlib.Analysis.Complex.ExponentialBounds

/-! # The approximations of the sine integral -/

namespace JG.Si

open Real Set JG.BesK

theorem evQ_range (y : ℝ) (n : ℕ) (c : ℕ → ℚ) :
    evQ y ((List.range n).map c) = ∑ k ∈ Finset.range n, (c k : ℝ) * y ^ k := by
  induction n generalizing c with
  | zero => simp [evQ]
  | succ n ih =>
    rw [List.range_succ_eq_map, List.map_cons, List.map_map, evQ, ih, Finset.sum_range_succ', Finset.mul_sum, add_comm]
    simp only [pow_zero, mul_one, Function.comp]
    congr 1
    refine Finset.sum_congr rfl fun k _ => ?_
    rw [pow_succ]; ring

def siQ : List ℚ := (List.range 18).map fun k : ℕ => (-1) ^ k / ((2 * (k : ℚ) + 1) * ((2 * k + 1).factorial : ℚ))
def sinQ : List ℚ := (List.range 18).map fun k : ℕ => (-1) ^ k / ((2 * k + 1).factorial : ℚ)
def cosQ : List ℚ := (List.range 18).map fun k : ℕ => (-1) ^ k / ((2 * k).factorial : ℚ)

theorem siQ_eq (x : ℝ) : siT 18 x = x * evQ (x * x) siQ := by
  rw [siQ, evQ_range, siT, Finset.mul_sum]
  refine Finset.sum_congr rfl fun k _ => ?_
  push_cast
  rw [← pow_two, ← pow_mul, pow_succ]; ring

theorem sinQ_eq (x : ℝ) : sinT 18 x = x * evQ (x * x) sinQ := by
  rw [sinQ, evQ_range, sinT, Finset.mul_sum]
  refine Finset.sum_congr rfl fun k _ => ?_
  push_cast
  rw [← pow_two, ← pow_mul, pow_succ]; ring

theorem cosQ_eq (x : ℝ) : cosT 18 x = evQ (x * x) cosQ := by
  rw [cosQ, evQ_range, cosT]
  refine Finset.sum_congr rfl fun k _ => ?_
  push_cast
  rw [← pow_two, ← pow_mul]; ring

/-! ### Small arguments -/

theorem sDen_ge {y : ℝ} (hy : 0 ≤ y) : 1 ≤ evQ y sDen := by
  have h : sDen = 1 :: sDen.tail := rfl
  rw [h, evQ]
  have := evQ_nonneg (l := sDen.tail) (by decide +kernel) hy
  push_cast
  nlinarith

theorem s_pos (s : ℚ) (hs : s = 1 ∨ s = -1) :
    posBr 0 [16] (addQ (scQ (3 / 10 ^ 17) sDen) (scQ s (addQ sNum (scQ (-1) (mulQ siQ sDen))))) = true := by
  rcases hs with rfl | rfl <;> decide +kernel

theorem s_bound {y : ℝ} (h0 : 0 ≤ y) (h1 : y ≤ 16) :
    |evQ y sNum / evQ y sDen - evQ y siQ| ≤ 3 / 10 ^ 17 := by
  have p := posBr_pos (s_pos 1 (Or.inl rfl)) (x := y) (by simpa using h0) (b := 16) (by decide +kernel) (by push_cast; linarith)
  have m := posBr_pos (s_pos (-1) (Or.inr rfl)) (x := y) (by simpa using h0) (b := 16) (by decide +kernel) (by push_cast; linarith)
  rw [evQ_add, evQ_sc, evQ_sc, evQ_add, evQ_sc, evQ_mul] at p m
  push_cast at p m
  have hD := sDen_ge h0
  have e : evQ y sNum / evQ y sDen - evQ y siQ = (evQ y sNum - evQ y siQ * evQ y sDen) / evQ y sDen := by
    field_simp
  rw [e, abs_div, abs_of_pos (by linarith : 0 < evQ y sDen), div_le_iff₀ (by linarith), abs_le]
  constructor <;> linarith

/-- Small arguments: relative error. -/
theorem small_close {x : ℝ} (h0 : 0 ≤ x) (h4 : x ≤ 4) : |siSmallPade x (x * x) - sinInt x| ≤ 4 / 10 ^ 17 * x := by
  have hy : x * x ≤ 16 := by nlinarith
  have b := s_bound (mul_self_nonneg x) hy
  have t := sinInt_taylor 17 h0
  rw [show 17 + 1 = 18 by norm_num, siQ_eq] at t
  have r : x ^ (2 * 17 + 3) / ((2 * 17 + 3).factorial : ℝ) ≤ 1 / 10 ^ 20 * x := by
    have e : x ^ (2 * 17 + 3) = x ^ 36 * x := by rw [← pow_succ]
    have h : x ^ 36 ≤ 4 ^ 36 := pow_le_pow_left₀ h0 h4 36
    rw [e, mul_div_right_comm]
    refine mul_le_mul_of_nonneg_right ?_ h0
    rw [div_le_iff₀ (by positivity)]
    refine h.trans ?_
    norm_num [Nat.factorial]
  have e : siSmallPade x (x * x) - sinInt x =
      x * (evQ (x * x) sNum / evQ (x * x) sDen - evQ (x * x) siQ) - (sinInt x - x * evQ (x * x) siQ) := by
    simp only [siSmallPade, nest_eq]; ring
  rw [e]
  refine (abs_sub _ _).trans ?_
  rw [abs_mul, abs_of_nonneg h0]
  have := mul_le_mul_of_nonneg_left b h0
  refine (add_le_add this (t.trans r)).trans ?_
  nlinarith

/-! ### Large arguments -/

theorem fDen_ge {y : ℝ} (hy : 0 ≤ y) : 1 ≤ evQ y fDen := by
  have h : fDen = 1 :: fDen.tail := rfl
  rw [h, evQ]
  have := evQ_nonneg (l := fDen.tail) (by decide +kernel) hy
  push_cast
  nlinarith

theorem gDen_ge {y : ℝ} (hy : 0 ≤ y) : 1 ≤ evQ y gDen := by
  have h : gDen = 1 :: gDen.tail := rfl
  rw [h, evQ]
  have := evQ_nonneg (l := gDen.tail) (by decide +kernel) hy
  push_cast
  nlinarith

theorem fDiff_eq (y : ℝ) : evQ y fNum - evQ y fDen = y * evQ y fDiff := by
  have h : addQ fNum (scQ (-1) fDen) = 0 :: fDiff := by decide +kernel
  have := evQ_add y fNum (scQ (-1) fDen)
  rw [h, evQ_sc, evQ] at this
  push_cast at this
  linarith

/-- The value returned for arguments above 4. -/
noncomputable def big (x : ℝ) : ℝ := π / 2 - fPade x (x * x) * cos x - gPade (x * x) * sin x

/-- The two coefficients of the derivative of the error. -/
noncomputable def resA (x : ℝ) : ℝ := 1 / (x * x) * (evQ (1 / (x * x)) aNum / evQ (1 / (x * x)) aDen)

noncomputable def resB (x : ℝ) : ℝ := 1 / (x * x) * (evQ (1 / (x * x)) bNum / evQ (1 / (x * x)) bDen) / x

theorem big_deriv {x : ℝ} (hx : 0 < x) :
    HasDerivAt (fun x => big x - sinInt x) (-(resA x) * cos x + resB x * sin x) x := by
  have hy : HasDerivAt (fun x : ℝ => 1 / (x * x)) (-2 / x ^ 3) x := by
    have := ((hasDerivAt_id x).fun_mul (hasDerivAt_id x)).fun_inv (by simp [hx.ne'])
    simp only [id, one_mul, mul_one] at this
    simp only [one_div]
    refine this.congr_deriv ?_
    field_simp
    ring
  have hy0 : 0 ≤ 1 / (x * x) := by positivity
  have N := (evQ_hasDerivAt fNum (1 / (x * x))).comp x hy
  have D := (evQ_hasDerivAt fDen (1 / (x * x))).comp x hy
  have P := (evQ_hasDerivAt gNum (1 / (x * x))).comp x hy
  have Q := (evQ_hasDerivAt gDen (1 / (x * x))).comp x hy
  have hD := fDen_ge hy0
  have hQ := gDen_ge hy0
  have F := N.fun_div ((hasDerivAt_id x).fun_mul D) (by simp only [id, Function.comp]; exact (mul_pos hx (by linarith)).ne')
  have G := (hy.fun_mul P).fun_div Q (by simp only [Function.comp]; linarith)
  have T := (((F.fun_mul (hasDerivAt_cos x)).const_sub (π / 2)).fun_sub (G.fun_mul (hasDerivAt_sin x))).fun_sub (sinInt_deriv x)
  have hfun : (fun x => big x - sinInt x) = fun x => π / 2 - (fun x => evQ (1 / (x * x)) fNum) x / (id x * (fun x => evQ (1 / (x * x)) fDen) x) * cos x
      - 1 / (x * x) * (fun x => evQ (1 / (x * x)) gNum) x / (fun x => evQ (1 / (x * x)) gDen) x * sin x - sinInt x := by
    funext t
    simp only [big, fPade, gPade, nest_eq, id]
  rw [hfun]
  refine HasDerivAt.congr_deriv T ?_
  simp only [Function.comp, id, resA, resB, sinc_of_ne_zero hx.ne', aNum, aDen, bNum, bDen, evQ_add, evQ_sc, evQ_mul]
  have e0 : ∀ l, evQ (1 / (x * x)) (0 :: l) = 1 / (x * x) * evQ (1 / (x * x)) l := by intro l; simp [evQ]
  simp only [e0, evQ_add, evQ_sc, evQ_mul]
  have hd := fDiff_eq (1 / (x * x))
  obtain ⟨y, hyd⟩ : ∃ y, y = 1 / (x * x) := ⟨_, rfl⟩
  rw [← hyd] at hd hD hQ ⊢
  obtain ⟨n, hn⟩ : ∃ n, n = evQ y fNum := ⟨_, rfl⟩
  obtain ⟨d, hdd⟩ : ∃ n, n = evQ y fDen := ⟨_, rfl⟩
  obtain ⟨p, hp⟩ : ∃ n, n = evQ y gNum := ⟨_, rfl⟩
  obtain ⟨q, hq⟩ : ∃ n, n = evQ y gDen := ⟨_, rfl⟩
  obtain ⟨n', hn'⟩ : ∃ n, n = evQ y (dQ fNum) := ⟨_, rfl⟩
  obtain ⟨d', hdd'⟩ : ∃ n, n = evQ y (dQ fDen) := ⟨_, rfl⟩
  obtain ⟨p', hp'⟩ : ∃ n, n = evQ y (dQ gNum) := ⟨_, rfl⟩
  obtain ⟨q', hq'⟩ : ∃ n, n = evQ y (dQ gDen) := ⟨_, rfl⟩
  obtain ⟨w, hw⟩ : ∃ n, n = evQ y fDiff := ⟨_, rfl⟩
  rw [← hn, ← hdd, ← hw] at hd
  rw [← hdd] at hD
  rw [← hq] at hQ
  simp only [← hn, ← hdd, ← hp, ← hq, ← hn', ← hdd', ← hp', ← hq', ← hw]
  clear hn hdd hp hq hn' hdd' hp' hq' hw
  have hwv : w = (n - d) * (x * x) := by rw [hd, hyd]; field_simp
  have d0 : d ≠ 0 := by linarith
  have q0 : q ≠ 0 := by linarith
  have x0 : x ≠ 0 := hx.ne'
  subst hyd
  rw [hwv]
  push_cast
  field_simp
  ring

theorem resA_bound {x : ℝ} (hx : 4 ≤ x) : |resA x| ≤ 1 / 10 ^ 14 / x ^ 2 := by
  have hx0 : 0 < x := by linarith
  have h0 : 0 ≤ 1 / (x * x) := by positivity
  have h1 : 1 / (x * x) ≤ 1 / 16 := one_div_le_one_div_of_le (by norm_num) (by nlinarith)
  have b := a_bound h0 h1
  have hD : 0 < evQ (1 / (x * x)) aDen := by
    rw [aDen, evQ_mul, evQ_mul]
    have := fDen_ge h0
    have := gDen_ge h0
    positivity
  rw [resA, abs_mul, abs_of_nonneg h0, abs_div, abs_of_pos hD]
  have : |evQ (1 / (x * x)) aNum| / evQ (1 / (x * x)) aDen ≤ 1 / 10 ^ 14 := by rwa [div_le_iff₀ hD]
  calc _ ≤ 1 / (x * x) * (1 / 10 ^ 14) := mul_le_mul_of_nonneg_left this h0
    _ = _ := by ring

theorem resB_bound {x : ℝ} (hx : 4 ≤ x) : |resB x| ≤ 1 / 10 ^ 15 * (1 / (x * (1 + 1 / 10 ^ 4 * x ^ 2))) := by
  have hx0 : 0 < x := by linarith
  have h0 : 0 ≤ 1 / (x * x) := by positivity
  have h1 : 1 / (x * x) ≤ 1 / 16 := one_div_le_one_div_of_le (by norm_num) (by nlinarith)
  have b := b_bound h0 h1
  have hD : 0 < evQ (1 / (x * x)) bDen := by
    rw [bDen, evQ_mul, evQ_mul]
    have := fDen_ge h0
    have := gDen_ge h0
    positivity
  have hq : 0 < 1 / 10 ^ 4 + 1 / (x * x) := by positivity
  rw [abs_mul, abs_of_pos hq] at b
  have hb : |evQ (1 / (x * x)) bNum / evQ (1 / (x * x)) bDen| ≤ 1 / 10 ^ 15 / (1 / 10 ^ 4 + 1 / (x * x)) := by
    rw [abs_div, abs_of_pos hD, div_le_div_iff₀ hD hq, mul_comm]
    exact b
  rw [resB, abs_div, abs_mul, abs_of_pos hx0, abs_of_nonneg h0, div_le_iff₀ hx0]
  refine (mul_le_mul_of_nonneg_left hb h0).trans (le_of_eq ?_)
  have : 1 + 1 / 10 ^ 4 * x ^ 2 ≠ 0 := by positivity
  have : 1 / 10 ^ 4 + 1 / (x * x) ≠ 0 := hq.ne'
  field_simp
  ring

/-- A function whose derivative bounds that of the error. -/
noncomputable def wB (x : ℝ) : ℝ := 1 / 10 ^ 14 * (1 / 4 - 1 / x) + 1 / 10 ^ 15 * (log x - 1 / 2 * log (1 + 1 / 10 ^ 4 * x ^ 2))

theorem wB_deriv {x : ℝ} (hx : 0 < x) :
    HasDerivAt wB (1 / 10 ^ 14 / x ^ 2 + 1 / 10 ^ 15 * (1 / (x * (1 + 1 / 10 ^ 4 * x ^ 2)))) x := by
  have h1 : 0 < 1 + 1 / 10 ^ 4 * x ^ 2 := by positivity
  have a := ((hasDerivAt_inv hx.ne').const_sub (1 / 4)).const_mul (1 / 10 ^ 14)
  have q := (((hasDerivAt_pow 2 x).const_mul (1 / 10 ^ 4)).const_add 1).log h1.ne'
  have b := ((hasDerivAt_log hx.ne').sub (q.const_mul (1 / 2))).const_mul (1 / 10 ^ 15)
  have c := a.add b
  have e : wB = (fun x : ℝ => 1 / 10 ^ 14 * (1 / 4 - x⁻¹)) + fun x => 1 / 10 ^ 15 * (log x - 1 / 2 * log (1 + 1 / 10 ^ 4 * x ^ 2)) := by
    funext t; simp only [wB, Pi.add_apply, one_div]
  rw [e]
  refine HasDerivAt.congr_deriv c ?_
  field_simp
  ring

theorem wB_range {x : ℝ} (hx : 4 ≤ x) : wB x - wB 4 ≤ 65 / 10 ^ 16 := by
  have hx0 : 0 < x := by linarith
  have h1 : 0 < 1 + 1 / 10 ^ 4 * x ^ 2 := by positivity
  have k1 : log x - 1 / 2 * log (1 + 1 / 10 ^ 4 * x ^ 2) ≤ log 100 := by
    have : log (1 / 10 ^ 4 * x ^ 2) ≤ log (1 + 1 / 10 ^ 4 * x ^ 2) := log_le_log (by positivity) (by linarith)
    have e : log (1 / 10 ^ 4 * x ^ 2) = -(2 * log 100) + 2 * log x := by
      rw [log_mul (by norm_num) (by positivity), log_pow, show (1 : ℝ) / 10 ^ 4 = (100 ^ 2)⁻¹ by norm_num, log_inv, log_pow]
      push_cast; ring
    linarith
  have k2 : 0 ≤ 1 / x := by positivity
  have k3 : log (1 + 1 / 10 ^ 4 * 4 ^ 2) ≤ 1 / 100 := by
    have := log_le_sub_one_of_pos (show (0 : ℝ) < 1 + 1 / 10 ^ 4 * 4 ^ 2 by norm_num)
    refine this.trans ?_
    norm_num
  have k4 : log 100 - log 4 ≤ 35 / 10 := by
    rw [← log_div (by norm_num) (by norm_num)]
    have : log (100 / 4) ≤ log (2 ^ 5) := log_le_log (by norm_num) (by norm_num)
    rw [log_pow] at this
    have := Real.log_two_lt_d9
    push_cast at *
    linarith
  simp only [wB]
  have : log x - 1 / 2 * log (1 + 1 / 10 ^ 4 * x ^ 2) - (log 4 - 1 / 2 * log (1 + 1 / 10 ^ 4 * 4 ^ 2)) ≤ 351 / 100 := by linarith
  nlinarith

/-- The value at 4 by rational arithmetic. -/
def bigQ : ℚ := 3.14159265358979323846 / 2 - evalQ (1 / 16) fNum / (4 * evalQ (1 / 16) fDen) * evalQ 16 cosQ
  - 1 / 16 * evalQ (1 / 16) gNum / evalQ (1 / 16) gDen * (4 * evalQ 16 sinQ) - 4 * evalQ 16 siQ

theorem bigQ_small : |bigQ| ≤ 1 / 10 ^ 17 := by decide +kernel

theorem coefQ : |evalQ (1 / 16) fNum / (4 * evalQ (1 / 16) fDen)| ≤ 1 ∧ |1 / 16 * evalQ (1 / 16) gNum / evalQ (1 / 16) gDen| ≤ 1 := by
  decide +kernel

theorem four_close : |big 4 - sinInt 4| ≤ 1 / 10 ^ 16 := by
  have c := (trig_taylor 17).2 4 (by norm_num)
  have s := (trig_taylor 18).1 4 (by norm_num)
  have t := sinInt_taylor 17 (x := 4) (by norm_num)
  rw [show 17 + 1 = 18 by norm_num] at c t
  rw [cosQ_eq] at c
  rw [sinQ_eq] at s
  rw [siQ_eq] at t
  have r1 : (4 : ℝ) ^ (2 * 17 + 2) / ((2 * 17 + 2).factorial : ℝ) ≤ 1 / 10 ^ 18 := by
    rw [div_le_iff₀ (by positivity)]; norm_num [Nat.factorial]
  have r2 : (4 : ℝ) ^ (2 * 18 + 1) / ((2 * 18 + 1).factorial : ℝ) ≤ 1 / 10 ^ 18 := by
    rw [div_le_iff₀ (by positivity)]; norm_num [Nat.factorial]
  have r3 : (4 : ℝ) ^ (2 * 17 + 3) / ((2 * 17 + 3).factorial : ℝ) ≤ 1 / 10 ^ 18 := by
    rw [div_le_iff₀ (by positivity)]; norm_num [Nat.factorial]
  replace c := c.trans r1
  replace s := s.trans r2
  replace t := t.trans r3
  have e16 : (4 : ℝ) * 4 = ((16 : ℚ) : ℝ) := by norm_num
  have ey : 1 / ((4 : ℝ) * 4) = ((1 / 16 : ℚ) : ℝ) := by norm_num
  have hF : fPade 4 (4 * 4) = ((evalQ (1 / 16) fNum / (4 * evalQ (1 / 16) fDen) : ℚ) : ℝ) := by
    simp only [fPade, nest_eq, ey, evalQ_cast]; push_cast; ring
  have hG : gPade (4 * 4) = ((1 / 16 * evalQ (1 / 16) gNum / evalQ (1 / 16) gDen : ℚ) : ℝ) := by
    simp only [gPade, nest_eq, ey, evalQ_cast]; push_cast; ring
  rw [e16, evalQ_cast] at c s t
  obtain ⟨f, hf⟩ : ∃ f : ℚ, f = evalQ (1 / 16) fNum / (4 * evalQ (1 / 16) fDen) := ⟨_, rfl⟩
  obtain ⟨g, hg⟩ : ∃ f : ℚ, f = 1 / 16 * evalQ (1 / 16) gNum / evalQ (1 / 16) gDen := ⟨_, rfl⟩
  obtain ⟨k1, k2⟩ := coefQ
  have hq := bigQ_small
  simp only [bigQ, ← hf, ← hg] at hq k1 k2 hF hG
  have k1' : |(f : ℝ)| ≤ 1 := by exact_mod_cast k1
  have k2' : |(g : ℝ)| ≤ 1 := by exact_mod_cast k2
  have hq' : |(3.14159265358979323846 / 2 - f * evalQ 16 cosQ - g * (4 * evalQ 16 sinQ) - 4 * evalQ 16 siQ : ℝ)| ≤ 1 / 10 ^ 17 := by
    have h : ((|3.14159265358979323846 / 2 - f * evalQ 16 cosQ - g * (4 * evalQ 16 sinQ) - 4 * evalQ 16 siQ| : ℚ) : ℝ) ≤ ((1 / 10 ^ 17 : ℚ) : ℝ) := by
      exact_mod_cast hq
    push_cast at h
    norm_num at h ⊢
    exact h
  have p1 := pi_gt_d20
  have p2 := pi_lt_d20
  have e : big 4 - sinInt 4 = (3.14159265358979323846 / 2 - f * evalQ 16 cosQ - g * (4 * evalQ 16 sinQ) - 4 * evalQ 16 siQ)
      + ((π - 3.14159265358979323846) / 2) - f * (cos 4 - evalQ 16 cosQ) - g * (sin 4 - 4 * evalQ 16 sinQ)
      - (sinInt 4 - 4 * evalQ 16 siQ) := by
    rw [big, hF, hG]; ring
  rw [e]
  have m1 : |(f : ℝ) * (cos 4 - evalQ 16 cosQ)| ≤ 1 / 10 ^ 18 := by
    rw [abs_mul]
    calc _ ≤ 1 * (1 / 10 ^ 18 : ℝ) := mul_le_mul k1' c (abs_nonneg _) (by norm_num)
      _ = _ := one_mul _
  have m2 : |(g : ℝ) * (sin 4 - 4 * evalQ 16 sinQ)| ≤ 1 / 10 ^ 18 := by
    rw [abs_mul]
    calc _ ≤ 1 * (1 / 10 ^ 18 : ℝ) := mul_le_mul k2' s (abs_nonneg _) (by norm_num)
      _ = _ := one_mul _
  rw [abs_le] at hq' m1 m2 t ⊢
  norm_num at hq' m1 m2 t p1 p2 ⊢
  constructor <;> linarith [hq'.1, hq'.2, m1.1, m1.2, m2.1, m2.2, t.1, t.2]

theorem big_close {x : ℝ} (hx : 4 ≤ x) : |big x - sinInt x| ≤ 7 / 10 ^ 15 := by
  have hpos : ∀ t ∈ Icc 4 x, 0 < t := fun t ht => by linarith [ht.1]
  have hpos' : ∀ t ∈ Ico 4 x, 0 < t := fun t ht => by linarith [ht.1]
  have := image_norm_le_of_norm_deriv_right_le_deriv_boundary' (f := fun x => big x - sinInt x)
    (f' := fun x => -(resA x) * cos x + resB x * sin x) (a := 4) (b := x)
    (fun t ht => (big_deriv (hpos t ht)).continuousAt.continuousWithinAt) (fun t ht => (big_deriv (hpos' t ht)).hasDerivWithinAt)
    (B := fun t => 1 / 10 ^ 16 - wB 4 + wB t) (B' := fun t => 1 / 10 ^ 14 / t ^ 2 + 1 / 10 ^ 15 * (1 / (t * (1 + 1 / 10 ^ 4 * t ^ 2))))
    (by simpa using four_close) (fun t ht => ((wB_deriv (hpos t ht)).const_add _).continuousAt.continuousWithinAt)
    (fun t ht => ((wB_deriv (hpos' t ht)).const_add _).hasDerivWithinAt) ?_ (right_mem_Icc.mpr hx)
  · simp only [norm_eq_abs] at this
    have := wB_range hx
    refine le_trans ‹_› ?_
    norm_num at this ⊢
    linarith
  · intro t ht
    rw [norm_eq_abs]
    refine (abs_add_le _ _).trans (add_le_add ?_ ?_)
    · rw [abs_mul, abs_neg]
      have := mul_le_mul (resA_bound ht.1) (abs_cos_le_one t) (abs_nonneg _) ((abs_nonneg _).trans (resA_bound ht.1))
      rwa [mul_one] at this
    · rw [abs_mul]
      have := mul_le_mul (resB_bound ht.1) (abs_sin_le_one t) (abs_nonneg _) ((abs_nonneg _).trans (resB_bound ht.1))
      rwa [mul_one] at this

end JG.Si
