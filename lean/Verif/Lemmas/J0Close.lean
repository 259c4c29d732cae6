import Verif.Lemmas.J0Poly
import Verif.Lemmas.J0Exact
import Mathlib.Analysis.SpecialFunctions.Sqrt

/-! # The approximations of the Bessel function of order zero -/

namespace JG.J0

open Real Set JG.BesK JG.Si

theorem abs_cast_le {q M : ℚ} (h : |q| ≤ M) : |(q : ℝ)| ≤ (M : ℝ) := by
  rw [← Rat.cast_abs]
  exact Rat.cast_le.mpr h

/-! ### Up to 8 -/

theorem jQ_eq (x : ℝ) : jT 25 x = evQ (x * x) jQ := by
  rw [jQ, evQ_range, jT]
  refine Finset.sum_congr rfl fun k _ => ?_
  push_cast
  rw [← pow_two, ← pow_mul]

theorem rem_le {x : ℝ} (h0 : 0 ≤ x) (h8 : x ≤ 8) : |besJ x - evQ (x * x) jQ| ≤ 1 / 10 ^ 18 := by
  have t := besJ_taylor 24 h0
  rw [show 24 + 1 = 25 by norm_num, jQ_eq] at t
  refine t.trans ?_
  rw [div_le_iff₀ (by positivity)]
  refine (pow_le_pow_left₀ h0 h8 _).trans ?_
  norm_num [Nat.factorial]

theorem t1_close {x : ℝ} (h0 : 0 ≤ x) (h4 : x ≤ 4) : |t1 x - besJ x| ≤ 3 / 10 ^ 18 := by
  have hy0 : 0 ≤ x * x := mul_self_nonneg x
  have hy1 : x * x ≤ 16 := by nlinarith
  have hq := q1_pos hy0
  have b := r1_bound hy0 hy1
  have p := p1_bound hy0 hy1
  have hr := rem_le h0 (h4.trans (by norm_num))
  rw [r1, evQ_add, evQ_mul, evQ_sc, evQ_mul] at b
  have e0 : evQ (x * x) [-(x1 * z1), 1] = x * x - (x1 * z1 : ℚ) := by simp [evQ]; ring
  rw [e0] at b
  have hz : |((x1 - z1 : ℚ) : ℝ)| ≤ 1 / 10 ^ 19 := by
    have := abs_cast_le (show |x1 - z1| ≤ 1 / 10 ^ 19 by decide +kernel)
    refine this.trans (le_of_eq ?_)
    push_cast
    rfl
  have e : t1 x - besJ x = (((x * x - (x1 * z1 : ℚ)) * evQ (x * x) p1 - evQ (x * x) jQ * evQ (x * x) q1) / evQ (x * x) q1)
      + ((x1 - z1 : ℚ) : ℝ) * x * (evQ (x * x) p1 / evQ (x * x) q1) - (besJ x - evQ (x * x) jQ) := by
    simp only [t1, rational_eq, z1]
    generalize evQ (x * x) q1 = q at *
    generalize evQ (x * x) p1 = p at *
    have := hq.ne'
    push_cast
    field_simp
    ring
  have b1 : |((x * x - (x1 * z1 : ℚ)) * evQ (x * x) p1 - evQ (x * x) jQ * evQ (x * x) q1) / evQ (x * x) q1| ≤ 1 / 10 ^ 18 := by
    rw [abs_div, abs_of_pos hq, div_le_iff₀ hq]
    push_cast at b ⊢
    refine le_trans (le_of_eq ?_) b
    congr 1
    ring
  have b2 : |((x1 - z1 : ℚ) : ℝ) * x * (evQ (x * x) p1 / evQ (x * x) q1)| ≤ 1 / 10 ^ 19 * 4 * 1 := by
    rw [abs_mul, abs_mul, abs_of_nonneg h0, abs_div, abs_of_pos hq]
    have : |evQ (x * x) p1| / evQ (x * x) q1 ≤ 1 := by
      rw [div_le_iff₀ hq]; push_cast at p; exact p
    gcongr
  rw [e]
  refine (abs_sub _ _).trans ?_
  refine (add_le_add (abs_add_le _ _) hr).trans ?_
  linarith

theorem t2_close {x : ℝ} (h0 : 4 ≤ x) (h8 : x ≤ 8) : |t2 x - besJ x| ≤ 3 / 10 ^ 18 := by
  obtain ⟨y, hy⟩ : ∃ y, y = 1 - x * x / 64 := ⟨_, rfl⟩
  have hxy : x * x = 64 - 64 * y := by rw [hy]; ring
  have hy0 : 0 ≤ y := by rw [hy]; nlinarith
  have hy1 : y ≤ 3 / 4 := by rw [hy]; nlinarith
  have hq := nq2_pos hy0 hy1
  have b := r2_bound hy0 hy1
  have p := p2_bound hy0 hy1
  have hr := rem_le (by linarith) h8
  have e1 : evQ y [64, -64] = x * x := by rw [hxy]; simp [evQ]; ring
  have e2 : evQ y nq2 = -evQ y q2 := by rw [nq2, evQ_sc]; push_cast; ring
  rw [r2, evQ_add, evQ_mul, evQ_sc, evQ_mul, evQ_comp, evQ_add, e1] at b
  rw [e2] at hq b p
  have e0 : evQ y [-(x2 * z2)] = -(x2 * z2 : ℚ) := by simp [evQ]
  rw [e0] at b
  have hz : |((x2 - z2 : ℚ) : ℝ)| ≤ 1 / 10 ^ 19 := by
    have := abs_cast_le (show |x2 - z2| ≤ 1 / 10 ^ 19 by decide +kernel)
    refine this.trans (le_of_eq ?_)
    push_cast
    rfl
  have hq0 : evQ y q2 ≠ 0 := by linarith
  have hqa : |evQ y q2| = -evQ y q2 := abs_of_neg (by linarith)
  have e : t2 x - besJ x = (((x * x - (x2 * z2 : ℚ)) * evQ y p2 - evQ (x * x) jQ * evQ y q2) / evQ y q2)
      + ((x2 - z2 : ℚ) : ℝ) * x * (evQ y p2 / evQ y q2) - (besJ x - evQ (x * x) jQ) := by
    simp only [t2, rational_eq, z2, ← hy]
    push_cast
    field_simp
    ring
  have b1 : |((x * x - (x2 * z2 : ℚ)) * evQ y p2 - evQ (x * x) jQ * evQ y q2) / evQ y q2| ≤ 1 / 10 ^ 18 := by
    rw [abs_div, hqa, div_le_iff₀ hq]
    push_cast at b ⊢
    refine le_trans (le_of_eq ?_) b
    congr 1
    ring
  have b2 : |((x2 - z2 : ℚ) : ℝ) * x * (evQ y p2 / evQ y q2)| ≤ 1 / 10 ^ 19 * 8 * 1 := by
    rw [abs_mul, abs_mul, abs_of_nonneg (by linarith : 0 ≤ x), abs_div, hqa]
    have : |evQ y p2| / -evQ y q2 ≤ 1 := by
      rw [div_le_iff₀ hq]; push_cast at p; exact p
    gcongr
  rw [e]
  refine (abs_sub _ _).trans ?_
  refine (add_le_add (abs_add_le _ _) hr).trans ?_
  linarith

/-! ### Above 8 -/

/-- The rational functions and their first two derivatives. -/
noncomputable def fa (z : ℝ) : ℝ := evQ z pC / evQ z qC
noncomputable def fa1 (z : ℝ) : ℝ := evQ z (d1 pC qC) / evQ z qC ^ 2
noncomputable def fa2 (z : ℝ) : ℝ := evQ z (d2 pC qC) / evQ z qC ^ 3
noncomputable def fs (z : ℝ) : ℝ := evQ z pS / evQ z qS
noncomputable def fs1 (z : ℝ) : ℝ := evQ z (d1 pS qS) / evQ z qS ^ 2
noncomputable def fs2 (z : ℝ) : ℝ := evQ z (d2 pS qS) / evQ z qS ^ 3

/-- The even and the odd part as functions of the argument, with their first two derivatives. -/
noncomputable def ga (x : ℝ) : ℝ := fa (64 / x ^ 2)
noncomputable def ga1 (x : ℝ) : ℝ := fa1 (64 / x ^ 2) * (-128 / x ^ 3)
noncomputable def ga2 (x : ℝ) : ℝ := fa2 (64 / x ^ 2) * (-128 / x ^ 3) ^ 2 + fa1 (64 / x ^ 2) * (384 / x ^ 4)
noncomputable def gb (x : ℝ) : ℝ := 8 / x * fs (64 / x ^ 2)
noncomputable def gb1 (x : ℝ) : ℝ := -8 / x ^ 2 * fs (64 / x ^ 2) + 8 / x * (fs1 (64 / x ^ 2) * (-128 / x ^ 3))
noncomputable def gb2 (x : ℝ) : ℝ := 16 / x ^ 3 * fs (64 / x ^ 2) + 2 * (-8 / x ^ 2) * (fs1 (64 / x ^ 2) * (-128 / x ^ 3))
  + 8 / x * (fs2 (64 / x ^ 2) * (-128 / x ^ 3) ^ 2 + fs1 (64 / x ^ 2) * (384 / x ^ 4))

theorem inv_deriv {x : ℝ} (hx : 0 < x) (c : ℝ) (n : ℕ) : HasDerivAt (fun x : ℝ => c / x ^ n) (-(n * c) / x ^ (n + 1)) x := by
  have h := (((hasDerivAt_pow n x).fun_inv (pow_ne_zero n hx.ne')).const_mul c)
  have e : (fun x : ℝ => c / x ^ n) = fun x => c * (x ^ n)⁻¹ := by funext t; rw [div_eq_mul_inv]
  rw [e]
  refine h.congr_deriv ?_
  cases n with
  | zero => simp
  | succ m =>
    simp only [Nat.add_sub_cancel]
    have := pow_ne_zero m hx.ne'
    rw [show x ^ (m + 1 + 1) = x ^ m * x * x by ring, show x ^ (m + 1) = x ^ m * x by ring]
    field_simp

theorem comp_deriv {f f1 : ℝ → ℝ} {x : ℝ} (hx : 0 < x) (h : HasDerivAt f (f1 (64 / x ^ 2)) (64 / x ^ 2)) :
    HasDerivAt (fun x => f (64 / x ^ 2)) (f1 (64 / x ^ 2) * (-128 / x ^ 3)) x := by
  have i := inv_deriv hx 64 2
  have := HasDerivAt.comp x h i
  refine this.congr_deriv ?_
  norm_num

theorem g_derivs {x : ℝ} (hx : 0 < x) :
    HasDerivAt ga (ga1 x) x ∧ HasDerivAt ga1 (ga2 x) x ∧ HasDerivAt gb (gb1 x) x ∧ HasDerivAt gb1 (gb2 x) x := by
  have hz : 0 ≤ 64 / x ^ 2 := by positivity
  have c0 := comp_deriv (f := fa) (f1 := fa1) hx (quot_deriv pC qC (qC_pos hz).ne')
  have c1 := comp_deriv (f := fa1) (f1 := fa2) hx (quot_deriv2 pC qC (qC_pos hz).ne')
  have s0 := comp_deriv (f := fs) (f1 := fs1) hx (quot_deriv pS qS (qS_pos hz).ne')
  have s1 := comp_deriv (f := fs1) (f1 := fs2) hx (quot_deriv2 pS qS (qS_pos hz).ne')
  have i3 := inv_deriv hx (-128) 3
  have i1 := inv_deriv hx 8 1
  have i2 := inv_deriv hx (-8) 2
  norm_num at i3 i1 i2
  refine ⟨c0, ?_, ?_, ?_⟩
  · refine (c1.fun_mul i3).congr_deriv ?_
    rw [ga2]; ring
  · exact (i1.fun_mul s0).congr_deriv (by rw [gb1])
  · refine ((i2.fun_mul s0).fun_add (i1.fun_mul (s1.fun_mul i3))).congr_deriv ?_
    rw [gb2]; ring

noncomputable def res1 (x : ℝ) : ℝ := ga2 x - 2 * gb1 x + ga x / (4 * x ^ 2)
noncomputable def res2 (x : ℝ) : ℝ := gb2 x + 2 * ga1 x + gb x / (4 * x ^ 2)

theorem res1_eq {x : ℝ} (hx : 0 < x) : res1 x = 64 / x ^ 2 * (evQ (64 / x ^ 2) n1 / evQ (64 / x ^ 2) den1) := by
  have hz : 0 ≤ 64 / x ^ 2 := by positivity
  have hc := (qC_pos hz).ne'
  have hs := (qS_pos hz).ne'
  have e1 : ∀ z, evQ z [0, 3 / 32] = 3 / 32 * z := by intro z; simp [evQ]; ring
  have e2 : ∀ z, evQ z [0, 0, 2 / 32] = 2 / 32 * z ^ 2 := by intro z; simp [evQ]; ring
  have e3 : ∀ z, evQ z [0, 1 / 2] = 1 / 2 * z := by intro z; simp [evQ]; ring
  simp only [res1, ga2, gb1, ga, fa, fa1, fa2, fs, fs1, n1, den1, evQ_add, evQ_mul, evQ_sc, e1, e2, e3]
  generalize evQ (64 / x ^ 2) qC = q at *
  generalize evQ (64 / x ^ 2) qS = s at *
  generalize evQ (64 / x ^ 2) (d1 pC qC) = b1
  generalize evQ (64 / x ^ 2) (d2 pC qC) = b2
  generalize evQ (64 / x ^ 2) pC = b0
  generalize evQ (64 / x ^ 2) (d1 pS qS) = a1
  generalize evQ (64 / x ^ 2) pS = a0
  have := hx.ne'
  push_cast
  field_simp
  ring

theorem res2_eq {x : ℝ} (hx : 0 < x) : res2 x = 512 / x ^ 3 * (evQ (64 / x ^ 2) n2 / evQ (64 / x ^ 2) den2) := by
  have hz : 0 ≤ 64 / x ^ 2 := by positivity
  have hc := (qC_pos hz).ne'
  have hs := (qS_pos hz).ne'
  have e1 : ∀ z, evQ z [0, 10 / 64] = 10 / 64 * z := by intro z; simp [evQ]; ring
  have e2 : ∀ z, evQ z [0, 0, 4 / 64] = 4 / 64 * z ^ 2 := by intro z; simp [evQ]; ring
  simp only [res2, gb2, ga1, gb, fa1, fs, fs1, fs2, n2, den2, evQ_add, evQ_mul, evQ_sc, e1, e2]
  generalize evQ (64 / x ^ 2) qC = q at *
  generalize evQ (64 / x ^ 2) qS = s at *
  generalize evQ (64 / x ^ 2) (d1 pC qC) = b1
  generalize evQ (64 / x ^ 2) (d1 pS qS) = a1
  generalize evQ (64 / x ^ 2) (d2 pS qS) = a2
  generalize evQ (64 / x ^ 2) pS = a0
  have := hx.ne'
  push_cast
  field_simp
  ring

theorem res1_le {x : ℝ} (hx : 8 ≤ x) : |res1 x| ≤ 32 / 10 ^ 15 / x ^ 2 := by
  have hx0 : 0 < x := by linarith
  have hz : 0 ≤ 64 / x ^ 2 := by positivity
  have hz1 : 64 / x ^ 2 ≤ 1 := by rw [div_le_one (by positivity)]; nlinarith
  have b := n1_bound hz hz1
  have hD : 0 < evQ (64 / x ^ 2) den1 := by
    have := qC_pos hz
    have := qS_pos hz
    simp only [den1, evQ_mul]
    positivity
  rw [res1_eq hx0, abs_mul, abs_of_nonneg hz, abs_div, abs_of_pos hD]
  have : |evQ (64 / x ^ 2) n1| / evQ (64 / x ^ 2) den1 ≤ 5 / 10 ^ 16 := by
    rw [div_le_iff₀ hD]; push_cast at b; exact b
  refine (mul_le_mul_of_nonneg_left this hz).trans (le_of_eq ?_)
  ring

theorem res2_le {x : ℝ} (hx : 8 ≤ x) : |res2 x| ≤ 256 / 10 ^ 15 / x ^ 3 := by
  have hx0 : 0 < x := by linarith
  have hz : 0 ≤ 64 / x ^ 2 := by positivity
  have hz3 : 0 ≤ 512 / x ^ 3 := by positivity
  have hz1 : 64 / x ^ 2 ≤ 1 := by rw [div_le_one (by positivity)]; nlinarith
  have b := n2_bound hz hz1
  have hD : 0 < evQ (64 / x ^ 2) den2 := by
    have := qC_pos hz
    have := qS_pos hz
    simp only [den2, evQ_mul]
    positivity
  rw [res2_eq hx0, abs_mul, abs_of_nonneg hz3, abs_div, abs_of_pos hD]
  have : |evQ (64 / x ^ 2) n2| / evQ (64 / x ^ 2) den2 ≤ 4 / 10 ^ 16 := by
    rw [div_le_iff₀ hD]; push_cast at b; exact b
  refine (mul_le_mul_of_nonneg_left this hz3).trans ?_
  have : 0 ≤ 1 / x ^ 3 := by positivity
  have e1 : 512 / x ^ 3 * (4 / 10 ^ 16) = 2048 / 10 ^ 16 * (1 / x ^ 3) := by ring
  have e2 : 256 / 10 ^ 15 / x ^ 3 = 2560 / 10 ^ 16 * (1 / x ^ 3) := by ring
  rw [e1, e2]
  exact mul_le_mul_of_nonneg_right (by norm_num) this

/-- The error times the square root of the argument, with its derivative. -/
noncomputable def err (x : ℝ) : ℝ := rootPi * (ga x * (cos x + sin x) + gb x * (cos x - sin x)) - √x * besJ x

noncomputable def err1 (x : ℝ) : ℝ :=
  rootPi * ((ga1 x - gb x) * (cos x + sin x) + (ga x + gb1 x) * (cos x - sin x)) - (1 / (2 * √x) * besJ x + √x * besJd x)

noncomputable def res (x : ℝ) : ℝ := rootPi * (res1 x * (cos x + sin x) + res2 x * (cos x - sin x))

theorem err_deriv {x : ℝ} (hx : 0 < x) : HasDerivAt err (err1 x) x := by
  obtain ⟨a0, a1, b0, b1⟩ := g_derivs hx
  have p := (hasDerivAt_cos x).fun_add (hasDerivAt_sin x)
  have m := (hasDerivAt_cos x).fun_sub (hasDerivAt_sin x)
  have s := Real.hasDerivAt_sqrt hx.ne'
  refine ((((a0.fun_mul p).fun_add (b0.fun_mul m)).const_mul (rootPi : ℝ)).fun_sub (s.fun_mul (besJ_deriv x))).congr_deriv ?_
  rw [err1]; ring

theorem err1_deriv {x : ℝ} (hx : 0 < x) : HasDerivAt err1 (res x - (1 + 1 / (4 * x ^ 2)) * err x) x := by
  obtain ⟨a0, a1, b0, b1⟩ := g_derivs hx
  have p := (hasDerivAt_cos x).fun_add (hasDerivAt_sin x)
  have m := (hasDerivAt_cos x).fun_sub (hasDerivAt_sin x)
  have s := Real.hasDerivAt_sqrt hx.ne'
  have hs := Real.sqrt_pos.mpr hx
  have i := (s.const_mul 2).fun_inv (by positivity)
  have hfun : err1 = fun x => rootPi * ((ga1 x - gb x) * (cos x + sin x) + (ga x + gb1 x) * (cos x - sin x)) - ((2 * √x)⁻¹ * besJ x + √x * besJd x) := by
    funext t; rw [err1, one_div]
  rw [hfun]
  refine (((((a1.fun_sub b0).fun_mul p).fun_add ((a0.fun_add b1).fun_mul m)).const_mul (rootPi : ℝ)).fun_sub
    ((i.fun_mul (besJ_deriv x)).fun_add (s.fun_mul (besJd_deriv hx.ne')))).congr_deriv ?_
  rw [res, res1, res2, err]
  have hsq : √x ^ 2 = x := Real.sq_sqrt hx.le
  have key : -(2 * (1 / (2 * √x))) / (2 * √x) ^ 2 * besJ x + (2 * √x)⁻¹ * besJd x + (1 / (2 * √x) * besJd x + √x * (-besJ x - besJd x / x)) =
      -(1 + 1 / (4 * x ^ 2)) * (√x * besJ x) := by
    obtain ⟨r, hr⟩ : ∃ r, r = √x := ⟨_, rfl⟩
    rw [← hr] at hsq hs ⊢
    generalize besJ x = j
    generalize besJd x = d
    subst hsq
    have := hs.ne'
    field_simp
    ring
  linear_combination -key

theorem res_le {x : ℝ} (hx : 8 ≤ x) : |res x| ≤ 32 / 10 ^ 15 / x ^ 2 + 256 / 10 ^ 15 / x ^ 3 := by
  have h1 := res1_le hx
  have h2 := res2_le hx
  have hx0 : 0 < x := by linarith
  have k : ∀ u v : ℝ, |u| ≤ 1 → |v| ≤ 1 → u ^ 2 + v ^ 2 = 1 → |u + v| ≤ 3 / 2 := by
    intro u v _ _ h
    rw [abs_le]
    constructor <;> nlinarith [sq_nonneg (u - v), sq_nonneg (u + v)]
  have c1 : |cos x + sin x| ≤ 3 / 2 := k _ _ (abs_cos_le_one x) (abs_sin_le_one x) (by rw [add_comm]; exact sin_sq_add_cos_sq x)
  have c2 : |cos x - sin x| ≤ 3 / 2 := by
    rw [sub_eq_add_neg]
    exact k _ _ (abs_cos_le_one x) (by rw [abs_neg]; exact abs_sin_le_one x) (by rw [neg_sq, add_comm]; exact sin_sq_add_cos_sq x)
  have hr : |(rootPi : ℝ)| ≤ 6 / 10 := by
    have := abs_cast_le (show |rootPi| ≤ 6 / 10 by decide +kernel)
    refine this.trans (le_of_eq ?_)
    push_cast
    rfl
  rw [res, abs_mul]
  have m1 := mul_le_mul h1 c1 (abs_nonneg _) ((abs_nonneg _).trans h1)
  have m2 := mul_le_mul h2 c2 (abs_nonneg _) ((abs_nonneg _).trans h2)
  rw [← abs_mul] at m1 m2
  have s := (abs_add_le _ _).trans (add_le_add m1 m2)
  have q := mul_le_mul hr s (abs_nonneg _) (by norm_num)
  refine q.trans ?_
  have p1 : 0 ≤ 32 / 10 ^ 15 / x ^ 2 := by positivity
  have p2 : 0 ≤ 256 / 10 ^ 15 / x ^ 3 := by positivity
  linarith

/-- The energy of the error, kept away from zero. -/
noncomputable def energy (x : ℝ) : ℝ := err1 x ^ 2 + (1 + 1 / (4 * x ^ 2)) * err x ^ 2 + (1 / 10 ^ 16) ^ 2

theorem energy_pos {x : ℝ} : 0 < energy x := by
  have : 0 ≤ (1 + 1 / (4 * x ^ 2)) * err x ^ 2 := by positivity
  rw [energy]
  positivity

theorem energy_deriv {x : ℝ} (hx : 0 < x) : HasDerivAt energy (2 * err1 x * res x - 1 / (2 * x ^ 3) * err x ^ 2) x := by
  have i := inv_deriv hx (1 / 4) 2
  have hfun : energy = fun x => err1 x ^ 2 + (1 + 1 / 4 / x ^ 2) * err x ^ 2 + (1 / 10 ^ 16) ^ 2 := by
    funext t; rw [energy, div_div]
  rw [hfun]
  refine ((((err1_deriv hx).fun_pow 2).fun_add ((i.const_add 1).fun_mul ((err_deriv hx).fun_pow 2))).add_const _).congr_deriv ?_
  push_cast
  field_simp
  ring

/-- Bound of the accumulated residual. -/
noncomputable def acc (x : ℝ) : ℝ := 32 / 10 ^ 15 * (1 / 8 - 1 / x) + 128 / 10 ^ 15 * (1 / 64 - 1 / x ^ 2)

theorem acc_deriv {x : ℝ} (hx : 0 < x) : HasDerivAt acc (32 / 10 ^ 15 / x ^ 2 + 256 / 10 ^ 15 / x ^ 3) x := by
  have i1 := inv_deriv hx 1 1
  have i2 := inv_deriv hx 1 2
  simp only [pow_one] at i1
  refine (((i1.const_sub (1 / 8)).const_mul (32 / 10 ^ 15)).fun_add ((i2.const_sub (1 / 64)).const_mul (128 / 10 ^ 15))).congr_deriv ?_
  push_cast
  field_simp
  ring

theorem energy_le {x : ℝ} (hx : 8 ≤ x) : √(energy x) ≤ √(energy 8) + acc x := by
  have hd : ∀ t ∈ Ici (8 : ℝ), HasDerivAt (fun t => √(energy t) - acc t)
      ((2 * err1 t * res t - 1 / (2 * t ^ 3) * err t ^ 2) / (2 * √(energy t)) - (32 / 10 ^ 15 / t ^ 2 + 256 / 10 ^ 15 / t ^ 3)) t := by
    intro t ht
    have ht0 : 0 < t := by have := mem_Ici.mp ht; linarith
    exact ((energy_deriv ht0).sqrt energy_pos.ne').fun_sub (acc_deriv ht0)
  have anti : AntitoneOn (fun t => √(energy t) - acc t) (Ici 8) := by
    refine antitoneOn_of_deriv_nonpos (convex_Ici 8) (fun t ht => (hd t ht).continuousAt.continuousWithinAt)
      (fun t ht => (hd t (interior_subset ht)).differentiableAt.differentiableWithinAt) fun t ht => ?_
    have ht' := interior_subset ht
    have h8 := mem_Ici.mp ht'
    rw [(hd t ht').deriv, sub_nonpos]
    have hp := Real.sqrt_pos.mpr (energy_pos (x := t))
    rw [div_le_iff₀ (by positivity)]
    have l1 : |err1 t| ≤ √(energy t) := by
      refine Real.abs_le_sqrt ?_
      rw [energy]
      have : 0 ≤ (1 + 1 / (4 * t ^ 2)) * err t ^ 2 := by positivity
      have : (0 : ℝ) ≤ (1 / 10 ^ 16) ^ 2 := by positivity
      linarith
    have l2 := res_le h8
    have l3 : 0 ≤ 1 / (2 * t ^ 3) * err t ^ 2 := by
      have : 0 < t := by linarith
      positivity
    have l4 : err1 t * res t ≤ √(energy t) * (32 / 10 ^ 15 / t ^ 2 + 256 / 10 ^ 15 / t ^ 3) := by
      refine (le_abs_self _).trans ?_
      rw [abs_mul]
      exact mul_le_mul l1 l2 (abs_nonneg _) hp.le
    linarith
  have a0 : acc 8 = 0 := by norm_num [acc]
  have := anti (mem_Ici.mpr le_rfl) (mem_Ici.mpr hx) hx
  simp only [a0] at this
  linarith

/-! ### The start at 8 -/

def cosL : List ℚ := (List.range 26).map fun k : ℕ => (-1) ^ k / ((2 * k).factorial : ℚ)
def sinL : List ℚ := (List.range 26).map fun k : ℕ => (-1) ^ k / ((2 * k + 1).factorial : ℚ)
def jdL : List ℚ := (List.range 26).map fun k : ℕ => (-1) ^ (k + 1) / (4 ^ (k + 1) * ((k + 1).factorial : ℚ) ^ 2) * (2 * ((k : ℚ) + 1))

/-- Values at 8 by rational arithmetic. -/
def c8 : ℚ := evalQ 64 cosL
def s8 : ℚ := 8 * evalQ 64 sinL
def j8 : ℚ := evalQ 64 jQ
def jd8 : ℚ := 8 * evalQ 64 jdL
def r8 : ℚ := 2.82842712474619009760
def qa : ℚ := evalQ 1 pC / evalQ 1 qC
def qa1 : ℚ := evalQ 1 (d1 pC qC) / evalQ 1 qC ^ 2 * (-128 / 8 ^ 3)
def qb : ℚ := evalQ 1 pS / evalQ 1 qS
def qb1 : ℚ := -8 / 8 ^ 2 * (evalQ 1 pS / evalQ 1 qS) + evalQ 1 (d1 pS qS) / evalQ 1 qS ^ 2 * (-128 / 8 ^ 3)

theorem cos8 : |cos 8 - (c8 : ℝ)| ≤ 1 / 10 ^ 18 := by
  have h := (trig_taylor 25).2 8 (by norm_num)
  have e : cosT (25 + 1) 8 = (c8 : ℝ) := by
    rw [c8, ← evalQ_cast, cosL, evQ_range, cosT]
    refine Finset.sum_congr rfl fun k _ => ?_
    push_cast
    rw [pow_mul]; norm_num; ring
  rw [e] at h
  refine h.trans ?_
  rw [div_le_iff₀ (by positivity)]; norm_num [Nat.factorial]

theorem sin8 : |sin 8 - (s8 : ℝ)| ≤ 1 / 10 ^ 18 := by
  have h := (trig_taylor 26).1 8 (by norm_num)
  have e : sinT 26 8 = (s8 : ℝ) := by
    rw [s8, Rat.cast_mul, ← evalQ_cast, sinL, evQ_range, sinT, Finset.mul_sum]
    refine Finset.sum_congr rfl fun k _ => ?_
    push_cast
    rw [pow_succ, pow_mul]; norm_num; ring
  rw [e] at h
  refine h.trans ?_
  rw [div_le_iff₀ (by positivity)]; norm_num [Nat.factorial]

theorem besJ8 : |besJ 8 - (j8 : ℝ)| ≤ 1 / 10 ^ 18 := by
  have h := rem_le (x := 8) (by norm_num) (by norm_num)
  have e : evQ (8 * 8) jQ = (j8 : ℝ) := by
    rw [j8, ← evalQ_cast]; norm_num
  rwa [e] at h

theorem besJd8 : |besJd 8 - (jd8 : ℝ)| ≤ 1 / 10 ^ 18 := by
  have h := besJd_taylor 26 (x := 8) (by norm_num)
  have e : jdT 26 8 = (jd8 : ℝ) := by
    rw [jd8, Rat.cast_mul, ← evalQ_cast, jdL, evQ_range, jdT, Finset.mul_sum]
    refine Finset.sum_congr rfl fun k _ => ?_
    push_cast
    rw [pow_succ (8 : ℝ), pow_mul (8 : ℝ)]; norm_num; ring
  rw [e] at h
  refine h.trans ?_
  rw [div_le_iff₀ (by positivity)]; norm_num [Nat.factorial]

theorem sqrt8 : |√8 - (r8 : ℝ)| ≤ 1 / 10 ^ 18 := by
  have h1 : (2.8284271247461900976 : ℝ) ≤ √8 := Real.le_sqrt_of_sq_le (by norm_num)
  have h2 : √8 ≤ 2.8284271247461900977 := Real.sqrt_le_iff.mpr ⟨by norm_num, by norm_num⟩
  rw [r8, abs_le]
  norm_num at h1 h2 ⊢
  constructor <;> linarith

theorem start_bound {u v k : ℚ} {K : ℝ} (hu : |u| ≤ 1) (hv : |v| ≤ 1) (hk : |k| ≤ 1) (hK : |K - k| ≤ 2 / 10 ^ 18)
    (h : |u * c8 + v * s8 - r8 * k| ≤ 5 / 10 ^ 17) : |u * cos 8 + v * sin 8 - √8 * K| ≤ 1 / 10 ^ 16 := by
  have hu' := abs_cast_le hu
  have hv' := abs_cast_le hv
  have hk' := abs_cast_le hk
  have h' := abs_cast_le h
  push_cast at hu' hv' hk' h'
  have hs3 : √8 ≤ 3 := Real.sqrt_le_iff.mpr ⟨by norm_num, by norm_num⟩
  have hs0 := Real.sqrt_nonneg 8
  have e : u * cos 8 + v * sin 8 - √8 * K = (u * c8 + v * s8 - r8 * k) + u * (cos 8 - c8) + v * (sin 8 - s8)
      - (√8 - r8) * k - √8 * (K - k) := by ring
  have m1 : |(u : ℝ) * (cos 8 - c8)| ≤ 1 * (1 / 10 ^ 18) := by rw [abs_mul]; exact mul_le_mul hu' cos8 (abs_nonneg _) (by norm_num)
  have m2 : |(v : ℝ) * (sin 8 - s8)| ≤ 1 * (1 / 10 ^ 18) := by rw [abs_mul]; exact mul_le_mul hv' sin8 (abs_nonneg _) (by norm_num)
  have m3 : |(√8 - r8) * (k : ℝ)| ≤ 1 / 10 ^ 18 * 1 := by rw [abs_mul]; exact mul_le_mul sqrt8 hk' (abs_nonneg _) (by norm_num)
  have m4 : |√8 * (K - k)| ≤ 3 * (2 / 10 ^ 18) := by
    rw [abs_mul, abs_of_nonneg hs0]; exact mul_le_mul hs3 hK (abs_nonneg _) (by norm_num)
  rw [e, abs_le]
  rw [abs_le] at h' m1 m2 m3 m4
  norm_num at h' m1 m2 m3 m4 ⊢
  constructor <;> linarith [h'.1, h'.2, m1.1, m1.2, m2.1, m2.2, m3.1, m3.2, m4.1, m4.2]

theorem g8 : ga 8 = (qa : ℝ) ∧ ga1 8 = (qa1 : ℝ) ∧ gb 8 = (qb : ℝ) ∧ gb1 8 = (qb1 : ℝ) := by
  have e : (64 : ℝ) / 8 ^ 2 = ((1 : ℚ) : ℝ) := by norm_num
  refine ⟨?_, ?_, ?_, ?_⟩
  · rw [ga, fa, e, evalQ_cast, evalQ_cast, qa]; push_cast; rfl
  · rw [ga1, fa1, e, evalQ_cast, evalQ_cast, qa1]; push_cast; rfl
  · rw [gb, fs, e, evalQ_cast, evalQ_cast, qb]; push_cast; ring
  · rw [gb1, fs, fs1, e, evalQ_cast, evalQ_cast, evalQ_cast, qb1]; push_cast; ring

theorem err8 : |err 8| ≤ 1 / 10 ^ 16 := by
  obtain ⟨h1, -, h3, -⟩ := g8
  have b := start_bound (u := rootPi * (qa + qb)) (v := rootPi * (qa - qb)) (k := j8) (K := besJ 8) (by decide +kernel)
    (by decide +kernel) (by decide +kernel) (besJ8.trans (by norm_num)) (by decide +kernel)
  refine le_trans (le_of_eq ?_) b
  rw [err, h1, h3]
  push_cast
  congr 1
  ring

theorem err18 : |err1 8| ≤ 1 / 10 ^ 16 := by
  obtain ⟨h1, h2, h3, h4⟩ := g8
  have hK : |(besJ 8 / 16 + besJd 8) - ((j8 / 16 + jd8 : ℚ) : ℝ)| ≤ 2 / 10 ^ 18 := by
    have a := besJ8
    have b := besJd8
    push_cast
    rw [abs_le] at a b ⊢
    norm_num at a b ⊢
    constructor <;> linarith [a.1, a.2, b.1, b.2]
  have b := start_bound (u := rootPi * (qa1 - qb + qa + qb1)) (v := rootPi * (qa1 - qb - qa - qb1)) (k := j8 / 16 + jd8)
    (K := besJ 8 / 16 + besJd 8) (by decide +kernel) (by decide +kernel) (by decide +kernel) hK (by decide +kernel)
  refine le_trans (le_of_eq ?_) b
  have hs : 1 / (2 * √8) = √8 / 16 := by
    have h8 : √8 * √8 = 8 := Real.mul_self_sqrt (by norm_num)
    have : √8 ≠ 0 := by intro h; rw [h] at h8; norm_num at h8
    field_simp
    linarith
  rw [err1, h1, h2, h3, h4, hs]
  push_cast
  congr 1
  ring

theorem err_le {x : ℝ} (hx : 8 ≤ x) : |err x| ≤ 63 / 10 ^ 16 := by
  have hx0 : 0 < x := by linarith
  have h := energy_le hx
  have l : |err x| ≤ √(energy x) := by
    refine Real.abs_le_sqrt ?_
    rw [energy]
    have : 0 ≤ 1 / (4 * x ^ 2) * err x ^ 2 := by positivity
    have : (0 : ℝ) ≤ (1 / 10 ^ 16) ^ 2 := by positivity
    nlinarith [sq_nonneg (err1 x)]
  have e8 : √(energy 8) ≤ 2 / 10 ^ 16 := by
    refine Real.sqrt_le_iff.mpr ⟨by norm_num, ?_⟩
    have a := sq_le_sq' (by have := abs_le.mp err8; linarith [this.1]) (abs_le.mp err8).2
    have b := sq_le_sq' (by have := abs_le.mp err18; linarith [this.1]) (abs_le.mp err18).2
    rw [energy]
    norm_num at a b ⊢
    linarith
  have ha : acc x ≤ 6 / 10 ^ 15 := by
    have p1 : 0 ≤ x⁻¹ := by positivity
    have p2 : 0 ≤ (x ^ 2)⁻¹ := by positivity
    rw [acc, one_div x, one_div (x ^ 2)]
    norm_num
    linarith
  refine (l.trans h).trans ?_
  norm_num at e8 ha ⊢
  linarith

theorem t3_close {x : ℝ} (hx : 8 ≤ x) : |t3 x - besJ x| ≤ 63 / 10 ^ 16 / √x := by
  have hx0 : 0 < x := by linarith
  have hs := Real.sqrt_pos.mpr hx0
  have e : t3 x - besJ x = err x / √x := by
    have ez : 8 / x * (8 / x) = 64 / x ^ 2 := by ring
    simp only [t3, rational_eq, err, ga, gb, fa, fs, ez]
    generalize evQ (64 / x ^ 2) qC = q
    generalize evQ (64 / x ^ 2) qS = s
    have := hs.ne'
    rw [sub_div, mul_div_cancel_left₀ _ this]
    ring
  rw [e, abs_div, abs_of_pos hs]
  exact div_le_div_of_nonneg_right (err_le hx) hs.le

end JG.J0
