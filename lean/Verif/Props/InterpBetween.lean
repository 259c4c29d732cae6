import Verif.Props.InterpWorldK

/-!
Property C88 between the modes: how far the interpolated Fourier values of an `InterpolatedImage` can be from the Fourier
transform of its brightness.
-/

open MeasureTheory

namespace JG.Interp

open JG.Fft

/-! ### Specification -/

/-- How well a kernel interpolates the wave of `φ` radians per sample: the first power that it does not reproduce. -/
noncomputable def Kernel.waveErr : Kernel → ℝ → ℝ
  | .linear, φ => |φ| ^ 2 / 8
  | .cubic, φ => 3 * |φ| ^ 3 / 32
  | .quintic, φ => |φ| ^ 5 / 24
  | _, _ => 0

/-! ### The Taylor polynomials of a wave -/

/-- The Taylor polynomial of `e^{i t}` with `n` terms. -/
noncomputable def waveT (n : ℕ) (t : ℝ) : ℂ := ∑ m ∈ Finset.range n, (Complex.I * t) ^ m / (m.factorial : ℂ)

theorem waveT_deriv (n : ℕ) (t : ℝ) : HasDerivAt (waveT (n + 1)) (Complex.I * waveT n t) t := by
  have h1 : HasDerivAt (fun t : ℝ => Complex.I * (t:ℂ)) Complex.I t := by
    simpa using (Complex.ofRealCLM.hasDerivAt (x := t)).const_mul Complex.I
  have h : ∀ m ∈ Finset.range (n + 1), HasDerivAt (fun t : ℝ => (Complex.I * (t:ℂ)) ^ m / (m.factorial : ℂ))
      (m * (Complex.I * (t:ℂ)) ^ (m - 1) * Complex.I / (m.factorial : ℂ)) t := fun m _ => (h1.pow m).div_const _
  have := HasDerivAt.fun_sum h
  refine this.congr_deriv ?_
  rw [Finset.sum_range_succ', waveT, Finset.mul_sum]
  simp only [Nat.cast_zero, zero_mul, zero_div, add_zero]
  refine Finset.sum_congr rfl fun m _ => ?_
  have hf : ((m.factorial : ℕ) : ℂ) ≠ 0 := by exact_mod_cast m.factorial_ne_zero
  have hm : ((m:ℂ) + 1) ≠ 0 := by exact_mod_cast m.succ_ne_zero
  rw [Nat.factorial_succ, Nat.add_sub_cancel]
  push_cast
  field_simp

theorem wave_taylor_nonneg (n : ℕ) : ∀ t : ℝ, 0 ≤ t → ‖Complex.exp (Complex.I * t) - waveT n t‖ ≤ t ^ n / (n.factorial : ℝ) := by
  induction n with
  | zero =>
    intro t _
    simp [waveT, mul_comm Complex.I]
  | succ n ih =>
    intro t ht
    have hd : ∀ s : ℝ, HasDerivAt (fun s : ℝ => Complex.exp (Complex.I * s) - waveT (n + 1) s)
        (Complex.I * (Complex.exp (Complex.I * s) - waveT n s)) s := by
      intro s
      have h1 : HasDerivAt (fun t : ℝ => Complex.I * (t:ℂ)) Complex.I s := by
        simpa using (Complex.ofRealCLM.hasDerivAt (x := s)).const_mul Complex.I
      refine (h1.cexp.fun_sub (waveT_deriv n s)).congr_deriv ?_
      ring
    have hB : ∀ s : ℝ, HasDerivAt (fun s : ℝ => s ^ (n + 1) / ((n + 1).factorial : ℝ)) (s ^ n / (n.factorial : ℝ)) s := by
      intro s
      have hf : ((n.factorial : ℕ) : ℝ) ≠ 0 := by exact_mod_cast n.factorial_ne_zero
      have hm : ((n:ℝ) + 1) ≠ 0 := by positivity
      refine ((hasDerivAt_pow (n + 1) s).div_const ((n + 1).factorial : ℝ)).congr_deriv ?_
      rw [Nat.factorial_succ, Nat.add_sub_cancel]
      push_cast
      field_simp
    refine image_norm_le_of_norm_deriv_right_le_deriv_boundary (a := 0) (b := t) (f := fun s : ℝ => Complex.exp (Complex.I * s) - waveT (n + 1) s)
      (f' := fun s => Complex.I * (Complex.exp (Complex.I * s) - waveT n s)) (B := fun s => s ^ (n + 1) / ((n + 1).factorial : ℝ))
      (B' := fun s => s ^ n / (n.factorial : ℝ)) (fun s _ => (hd s).continuousAt.continuousWithinAt)
      (fun s _ => (hd s).hasDerivWithinAt) ?_ hB (fun s hs => ?_) (Set.right_mem_Icc.mpr ht)
    · simp [waveT, Finset.sum_range_succ']
    · rw [norm_mul, Complex.norm_I, one_mul]
      exact ih s hs.1

theorem wave_taylor (n : ℕ) (t : ℝ) : ‖Complex.exp (Complex.I * t) - waveT n t‖ ≤ |t| ^ n / (n.factorial : ℝ) := by
  rcases le_total 0 t with h | h
  · rw [abs_of_nonneg h]; exact wave_taylor_nonneg n t h
  · rw [abs_of_nonpos h]
    have := wave_taylor_nonneg n (-t) (by linarith)
    rw [← Complex.norm_conj] at this
    convert this using 2
    rw [map_sub, ← Complex.exp_conj]
    congr 1
    · congr 1
      rw [map_mul, Complex.conj_I, Complex.conj_ofReal]; push_cast; ring
    · unfold waveT
      rw [map_sum]
      refine Finset.sum_congr rfl fun m _ => ?_
      rw [map_div₀, map_pow, map_mul, Complex.conj_I, Complex.conj_ofReal, Complex.conj_natCast]
      push_cast
      congr 2
      ring

/-! ### A kernel acting on a wave -/

theorem moment_zero {f : ℝ → ℝ} {r : ℝ} {D : ℕ} (h : ∀ d ≤ D, Reproduces f r d) (t : ℝ) (S : Finset ℤ)
    (hS : ∀ j : ℤ, |t - j| < r → j ∈ S) (m : ℕ) (hm : m ≤ D) : ∑ l ∈ S, f (t - l) * (t - l) ^ m = 0 ^ m := by
  have e : ∀ l : ℤ, f (t - l) * (t - l) ^ m = ∑ d ∈ Finset.range (m + 1), t ^ d * (-1) ^ (m - d) * (m.choose d) *
      ((l:ℝ) ^ (m - d) * f (t - l)) := by
    intro l
    rw [show (t - l : ℝ) ^ m = (t + -(l:ℝ)) ^ m by ring_nf, add_pow, Finset.mul_sum]
    refine Finset.sum_congr rfl fun d _ => ?_
    rw [neg_pow (l:ℝ)]; ring
  simp only [e]
  rw [Finset.sum_comm]
  have e2 : ∀ d ∈ Finset.range (m + 1), ∑ l ∈ S, t ^ d * (-1) ^ (m - d) * (m.choose d) * ((l:ℝ) ^ (m - d) * f (t - l)) =
      t ^ d * (-t) ^ (m - d) * (m.choose d) := by
    intro d _
    rw [← Finset.mul_sum, h (m - d) (by omega) t S hS, neg_pow t]; ring
  rw [Finset.sum_congr rfl e2, ← add_pow]
  simp

/-- The error of a kernel that reproduces the powers up to `D`, on a wave. -/
theorem kernel_wave {f : ℝ → ℝ} {r C : ℝ} {D : ℕ} (h : ∀ d ≤ D, Reproduces f r d) (t φ : ℝ) (S : Finset ℤ)
    (hS : ∀ j : ℤ, |t - j| < r → j ∈ S) (hC : ∑ l ∈ S, |t - l| ^ (D + 1) * |f (t - l)| ≤ C) :
    ‖∑ l ∈ S, ((f (t - l) : ℝ) : ℂ) * Complex.exp (-(Complex.I * (φ * l : ℝ))) - Complex.exp (-(Complex.I * (φ * t : ℝ)))‖ ≤
      C * |φ| ^ (D + 1) / ((D + 1).factorial : ℝ) := by
  have hT : ∑ l ∈ S, ((f (t - l) : ℝ) : ℂ) * waveT (D + 1) (φ * (t - l)) = 1 := by
    unfold waveT
    simp only [Finset.mul_sum]
    rw [Finset.sum_comm]
    have e : ∀ m ∈ Finset.range (D + 1), ∑ l ∈ S, ((f (t - l) : ℝ) : ℂ) * ((Complex.I * ((φ * (t - l) : ℝ) : ℂ)) ^ m / (m.factorial : ℂ)) =
        (Complex.I * φ) ^ m / (m.factorial : ℂ) * 0 ^ m := by
      intro m hm
      have := moment_zero h t S hS m (by rw [Finset.mem_range] at hm; omega)
      have hc : ((∑ l ∈ S, f (t - l) * (t - l) ^ m : ℝ) : ℂ) = 0 ^ m := by rw [this]; push_cast; rfl
      rw [← hc]
      push_cast
      rw [Finset.mul_sum]
      refine Finset.sum_congr rfl fun l _ => ?_
      rw [← mul_assoc, mul_pow (Complex.I * (φ:ℂ))]
      ring
    rw [Finset.sum_congr rfl e, Finset.sum_range_succ']
    simp
  have e1 : ∑ l ∈ S, ((f (t - l) : ℝ) : ℂ) * Complex.exp (-(Complex.I * (φ * l : ℝ))) - Complex.exp (-(Complex.I * (φ * t : ℝ))) =
      Complex.exp (-(Complex.I * (φ * t : ℝ))) * ∑ l ∈ S, ((f (t - l) : ℝ) : ℂ) *
        (Complex.exp (Complex.I * (φ * (t - l) : ℝ)) - waveT (D + 1) (φ * (t - l))) := by
    have e2 : ∀ l : ℤ, ((f (t - l) : ℝ) : ℂ) * (Complex.exp (Complex.I * (φ * (t - l) : ℝ)) - waveT (D + 1) (φ * (t - l))) =
        ((f (t - l) : ℝ) : ℂ) * Complex.exp (Complex.I * (φ * (t - l) : ℝ)) - ((f (t - l) : ℝ) : ℂ) * waveT (D + 1) (φ * (t - l)) :=
      fun l => mul_sub _ _ _
    simp only [e2]
    rw [Finset.sum_sub_distrib, hT, mul_sub, mul_one, Finset.mul_sum]
    congr 1
    refine Finset.sum_congr rfl fun l _ => ?_
    rw [show -(Complex.I * ((φ * l : ℝ):ℂ)) = -(Complex.I * (φ * t : ℝ)) + Complex.I * (φ * (t - l) : ℝ) by push_cast; ring, Complex.exp_add]
    ring
  have hn : ∀ s : ℝ, ‖Complex.exp (-(Complex.I * (s : ℂ)))‖ = 1 := by
    intro s
    rw [show -(Complex.I * (s:ℂ)) = ((-s : ℝ):ℂ) * Complex.I by push_cast; ring, Complex.norm_exp_ofReal_mul_I]
  rw [e1, norm_mul, hn, one_mul]
  refine (norm_sum_le _ _).trans ?_
  have hf : (0:ℝ) < ((D + 1).factorial : ℝ) := by exact_mod_cast (D + 1).factorial_pos
  calc _ ≤ ∑ l ∈ S, |φ| ^ (D + 1) / ((D + 1).factorial : ℝ) * (|t - l| ^ (D + 1) * |f (t - l)|) := by
        refine Finset.sum_le_sum fun l _ => ?_
        rw [norm_mul, Complex.norm_real, Real.norm_eq_abs]
        have := mul_le_mul_of_nonneg_left (wave_taylor (D + 1) (φ * (t - l))) (abs_nonneg (f (t - l)))
        refine this.trans (le_of_eq ?_)
        rw [abs_mul, mul_pow]; ring
    _ = |φ| ^ (D + 1) / ((D + 1).factorial : ℝ) * ∑ l ∈ S, |t - l| ^ (D + 1) * |f (t - l)| := by rw [Finset.mul_sum]
    _ ≤ |φ| ^ (D + 1) / ((D + 1).factorial : ℝ) * C := mul_le_mul_of_nonneg_left hC (by positivity)
    _ = _ := by ring

/-! ### The absolute moments of the kernels -/

theorem linear_absMoment (K : ℕ → ℕ → ℝ) (x : ℝ) (S : Finset ℤ) (hS : ∀ j : ℤ, |x - j| < 1 → j ∈ S) :
    ∑ j ∈ S, |x - j| ^ 2 * |Kernel.linear.xval K (x - j)| ≤ 1 / 4 := by
  rw [sum_window (fun t => |Kernel.linear.xval K t|) 1 (fun t h => by rw [linear_zero K t h, abs_zero]) (fun j => |x - j| ^ 2) x S
    (by simpa using hS)]
  obtain ⟨f, hf⟩ : ∃ f, f = x - ⌊x⌋ := ⟨_, rfl⟩
  have h0 : 0 ≤ f := by rw [hf]; linarith [Int.floor_le x]
  have h1 : f < 1 := by rw [hf]; linarith [Int.lt_floor_add_one x]
  rw [show Finset.Icc (1 - ((1:ℕ):ℤ)) ((1:ℕ):ℤ) = {0, 1} by decide]
  rw [Finset.sum_insert (by decide), Finset.sum_singleton]
  have a0 : x - ((⌊x⌋ + 0 : ℤ) : ℝ) = f := by push_cast; rw [hf]; ring
  have a1 : x - ((⌊x⌋ + 1 : ℤ) : ℝ) = -(1 - f) := by push_cast; rw [hf]; ring
  rw [a0, a1]
  simp only [Kernel.xval, abs_neg, abs_of_nonneg h0, abs_of_nonneg (by linarith : 0 ≤ 1 - f)]
  rw [if_neg (by linarith), if_neg (by linarith), abs_of_nonneg (by linarith), abs_of_nonneg (by linarith)]
  nlinarith [sq_nonneg (f - 1 / 2)]

theorem cubic_absMoment (K : ℕ → ℕ → ℝ) (x : ℝ) (S : Finset ℤ) (hS : ∀ j : ℤ, |x - j| < 2 → j ∈ S) :
    ∑ j ∈ S, |x - j| ^ 3 * |Kernel.cubic.xval K (x - j)| ≤ 9 / 16 := by
  rw [sum_window (fun t => |Kernel.cubic.xval K t|) 2 (fun t h => by rw [cubic_zero K t h, abs_zero]) (fun j => |x - j| ^ 3) x S
    (by simpa using hS)]
  obtain ⟨f, hf⟩ : ∃ f, f = x - ⌊x⌋ := ⟨_, rfl⟩
  have h0 : 0 ≤ f := by rw [hf]; linarith [Int.floor_le x]
  have h1 : f < 1 := by rw [hf]; linarith [Int.lt_floor_add_one x]
  have g0 : 0 ≤ 1 - f := by linarith
  rw [show Finset.Icc (1 - ((2:ℕ):ℤ)) ((2:ℕ):ℤ) = {-1, 0, 1, 2} by decide]
  rw [Finset.sum_insert (by decide), Finset.sum_insert (by decide), Finset.sum_insert (by decide), Finset.sum_singleton]
  have a0 : |x - ((⌊x⌋ + -1 : ℤ) : ℝ)| = 1 + f := by
    rw [show x - ((⌊x⌋ + -1 : ℤ) : ℝ) = 1 + f by push_cast; rw [hf]; ring, abs_of_nonneg (by linarith)]
  have a1 : |x - ((⌊x⌋ + 0 : ℤ) : ℝ)| = f := by
    rw [show x - ((⌊x⌋ + 0 : ℤ) : ℝ) = f by push_cast; rw [hf]; ring, abs_of_nonneg (by linarith)]
  have a2 : |x - ((⌊x⌋ + 1 : ℤ) : ℝ)| = 1 - f := by
    rw [show x - ((⌊x⌋ + 1 : ℤ) : ℝ) = -(1 - f) by push_cast; rw [hf]; ring, abs_neg, abs_of_nonneg (by linarith)]
  have a3 : |x - ((⌊x⌋ + 2 : ℤ) : ℝ)| = 2 - f := by
    rw [show x - ((⌊x⌋ + 2 : ℤ) : ℝ) = -(2 - f) by push_cast; rw [hf]; ring, abs_neg, abs_of_nonneg (by linarith)]
  rw [cubic_piece2 K _ (by rw [a0]; linarith) (by rw [a0]; linarith), cubic_piece1 K _ (by rw [a1]; linarith),
    cubic_piece1 K _ (by rw [a2]; linarith), cubic_piece2 K _ (by rw [a3]; linarith) (by rw [a3]; linarith),
    a0, a1, a2, a3]
  have p1 : ∀ y : ℝ, 0 ≤ y → y ≤ 1 → |cubicOne y| = cubicOne y := by
    intro y y0 y1
    refine abs_of_nonneg ?_
    rw [show cubicOne y = (1 - y) * (1 + y * (1 - 1.5 * y)) by unfold cubicOne; ring]
    exact mul_nonneg (by linarith) (by nlinarith)
  have p2 : ∀ y : ℝ, 1 ≤ y → |cubicTwo y| = -cubicTwo y := by
    intro y y0
    refine abs_of_nonpos ?_
    rw [show cubicTwo y = -(0.5 * ((y - 1) * (y - 2) ^ 2)) by unfold cubicTwo; ring, neg_nonpos]
    have : 0 ≤ y - 1 := by linarith
    positivity
  rw [p1 f h0 h1.le, p1 (1 - f) g0 (by linarith), p2 (1 + f) (by linarith), p2 (2 - f) (by linarith)]
  obtain ⟨s, hs⟩ : ∃ s, s = f * (1 - f) := ⟨_, rfl⟩
  have hs0 : 0 ≤ s := by rw [hs]; positivity
  have hs1 : s ≤ 1 / 4 := by rw [hs]; nlinarith [sq_nonneg (f - 1 / 2)]
  have e : (1 + f) ^ 3 * -cubicTwo (1 + f) + (f ^ 3 * cubicOne f + ((1 - f) ^ 3 * cubicOne (1 - f) + (2 - f) ^ 3 * -cubicTwo (2 - f))) =
      s + 6 * s ^ 2 - 4 * s ^ 3 := by
    rw [hs]; unfold cubicOne cubicTwo; ring
  rw [e]
  nlinarith [mul_nonneg hs0 (sub_nonneg.mpr hs1), mul_nonneg hs0 (mul_nonneg hs0 (sub_nonneg.mpr hs1)),
    mul_nonneg hs0 (mul_nonneg (sub_nonneg.mpr hs1) (sub_nonneg.mpr hs1))]

theorem quintic_sgn : (∀ y : ℝ, 0 ≤ y → y ≤ 1 → |quinticOne y| = quinticOne y) ∧
    (∀ y : ℝ, 1 ≤ y → y ≤ 2 → |quinticTwo y| = -quinticTwo y) ∧
    (∀ f : ℝ, 0 ≤ f → f ≤ 1 → |quinticThree (2 + f)| ≤ f * (1 - f) ^ 2 / 8) := by
  refine ⟨fun x h0 h1 => ?_, fun x h0 h1 => ?_, fun f h0 h1 => ?_⟩
  · refine abs_of_nonneg ?_
    have e : quinticOne x = (1 - x) * (1 + x + x ^ 2 + x ^ 3 * (-83 / 12 + 55 / 12 * x)) := by unfold quinticOne; ring
    rw [e]
    apply mul_nonneg (by linarith)
    have : x ^ 3 ≤ x ^ 2 := by nlinarith [sq_nonneg x]
    nlinarith [sq_nonneg x, mul_nonneg (mul_nonneg h0 h0) h0, sq_nonneg (x - 1), mul_nonneg h0 (sq_nonneg (x - 1)),
      mul_nonneg h0 (sub_nonneg.mpr h1), sq_nonneg (x ^ 2 - x)]
  · refine abs_of_nonpos ?_
    have e : quinticTwo x = -((x - 1) * (2 - x) * (-23 / 4 + x * (29 / 2 + x * (-83 / 8 + x * (55 / 24))))) := by unfold quinticTwo; ring
    rw [e, neg_nonpos]
    apply mul_nonneg (mul_nonneg (by linarith) (by linarith))
    nlinarith [mul_nonneg (sub_nonneg.mpr h0) (sub_nonneg.mpr h1), sq_nonneg (x - 19 / 10), mul_nonneg (sub_nonneg.mpr h0) (sq_nonneg (x - 19 / 10)),
      mul_nonneg (sub_nonneg.mpr h1) (sq_nonneg (x - 19 / 10))]
  · have e : quinticThree (2 + f) = f * (1 - f) ^ 2 * (1 / 12 + f / 4 - 11 / 24 * f ^ 2) := by unfold quinticThree; ring
    rw [e, abs_mul, abs_of_nonneg (by positivity), div_eq_mul_one_div (f * (1 - f) ^ 2) 8]
    refine mul_le_mul_of_nonneg_left (abs_le.mpr ⟨?_, ?_⟩) (by positivity)
    · nlinarith
    · nlinarith [sq_nonneg (f - 3 / 11)]

theorem quintic_absMoment (K : ℕ → ℕ → ℝ) (x : ℝ) (S : Finset ℤ) (hS : ∀ j : ℤ, |x - j| < 3 → j ∈ S) :
    ∑ j ∈ S, |x - j| ^ 5 * |Kernel.quintic.xval K (x - j)| ≤ 5 := by
  rw [sum_window (fun t => |Kernel.quintic.xval K t|) 3 (fun t h => by rw [quintic_zero K t h, abs_zero]) (fun j => |x - j| ^ 5) x S
    (by simpa using hS)]
  obtain ⟨f, hf⟩ : ∃ f, f = x - ⌊x⌋ := ⟨_, rfl⟩
  have h0 : 0 ≤ f := by rw [hf]; linarith [Int.floor_le x]
  have h1 : f < 1 := by rw [hf]; linarith [Int.lt_floor_add_one x]
  have g0 : 0 ≤ 1 - f := by linarith
  rw [show Finset.Icc (1 - ((3:ℕ):ℤ)) ((3:ℕ):ℤ) = {-2, -1, 0, 1, 2, 3} by decide]
  rw [Finset.sum_insert (by decide), Finset.sum_insert (by decide), Finset.sum_insert (by decide),
    Finset.sum_insert (by decide), Finset.sum_insert (by decide), Finset.sum_singleton]
  have b0 : |x - ((⌊x⌋ + -2 : ℤ) : ℝ)| = 2 + f := by
    rw [show x - ((⌊x⌋ + -2 : ℤ) : ℝ) = 2 + f by push_cast; rw [hf]; ring, abs_of_nonneg (by linarith)]
  have a0 : |x - ((⌊x⌋ + -1 : ℤ) : ℝ)| = 1 + f := by
    rw [show x - ((⌊x⌋ + -1 : ℤ) : ℝ) = 1 + f by push_cast; rw [hf]; ring, abs_of_nonneg (by linarith)]
  have a1 : |x - ((⌊x⌋ + 0 : ℤ) : ℝ)| = f := by
    rw [show x - ((⌊x⌋ + 0 : ℤ) : ℝ) = f by push_cast; rw [hf]; ring, abs_of_nonneg (by linarith)]
  have a2 : |x - ((⌊x⌋ + 1 : ℤ) : ℝ)| = 1 - f := by
    rw [show x - ((⌊x⌋ + 1 : ℤ) : ℝ) = -(1 - f) by push_cast; rw [hf]; ring, abs_neg, abs_of_nonneg (by linarith)]
  have a3 : |x - ((⌊x⌋ + 2 : ℤ) : ℝ)| = 2 - f := by
    rw [show x - ((⌊x⌋ + 2 : ℤ) : ℝ) = -(2 - f) by push_cast; rw [hf]; ring, abs_neg, abs_of_nonneg (by linarith)]
  have a4 : |x - ((⌊x⌋ + 3 : ℤ) : ℝ)| = 3 - f := by
    rw [show x - ((⌊x⌋ + 3 : ℤ) : ℝ) = -(3 - f) by push_cast; rw [hf]; ring, abs_neg, abs_of_nonneg (by linarith)]
  rw [quintic_piece3 K _ (by rw [b0]; linarith) (by rw [b0]; linarith),
    quintic_piece2 K _ (by rw [a0]; linarith) (by rw [a0]; linarith), quintic_piece1 K _ (by rw [a1]; linarith),
    quintic_piece1 K _ (by rw [a2]; linarith), quintic_piece2 K _ (by rw [a3]; linarith) (by rw [a3]; linarith),
    quintic_piece3 K _ (by rw [a4]; linarith) (by rw [a4]; linarith), b0, a0, a1, a2, a3, a4]
  have sg := quintic_sgn
  rw [sg.1 f h0 h1.le, sg.1 (1 - f) g0 (by linarith), sg.2.1 (1 + f) (by linarith) (by linarith), sg.2.1 (2 - f) (by linarith) (by linarith)]
  have t1 := mul_le_mul_of_nonneg_left (sg.2.2 f h0 h1.le) (by positivity : 0 ≤ (2 + f) ^ 5)
  have t2 := mul_le_mul_of_nonneg_left (sg.2.2 (1 - f) g0 (by linarith)) (pow_nonneg (by linarith) 5 : 0 ≤ (3 - f) ^ 5)
  rw [show 2 + (1 - f) = 3 - f by ring] at t2
  obtain ⟨s, hs⟩ : ∃ s, s = f * (1 - f) := ⟨_, rfl⟩
  have hs0 : 0 ≤ s := by rw [hs]; positivity
  have hs1 : s ≤ 1 / 4 := by rw [hs]; nlinarith [sq_nonneg (f - 1 / 2)]
  have e : (2 + f) ^ 5 * (f * (1 - f) ^ 2 / 8) + ((1 + f) ^ 5 * -quinticTwo (1 + f) + (f ^ 5 * quinticOne f +
      ((1 - f) ^ 5 * quinticOne (1 - f) + ((2 - f) ^ 5 * -quinticTwo (2 - f) + (3 - f) ^ 5 * ((1 - f) * (1 - (1 - f)) ^ 2 / 8))))) =
      8 * s + 173 / 12 * s ^ 2 + 833 / 6 * s ^ 3 - 1049 / 8 * s ^ 4 + 55 / 4 * s ^ 5 := by
    rw [hs]; unfold quinticOne quinticTwo; ring
  have bound : 8 * s + 173 / 12 * s ^ 2 + 833 / 6 * s ^ 3 - 1049 / 8 * s ^ 4 + 55 / 4 * s ^ 5 ≤ 5 := by
    have u2 : s ^ 2 ≤ 1 / 16 := by nlinarith
    have u3 : s ^ 3 * (833 / 6 - 1049 / 8 * s) ≤ 1 / 64 * (833 / 6 - 1049 / 32) := by
      obtain ⟨u, hu⟩ : ∃ u, u = 1 / 4 - s := ⟨_, rfl⟩
      have hu0 : 0 ≤ u := by linarith
      have : s = 1 / 4 - u := by linarith
      have hu1 : u ≤ 1 / 4 := by linarith
      rw [this]
      nlinarith [mul_nonneg hu0 hu0, mul_nonneg hu0 (mul_nonneg hu0 hu0), mul_nonneg hu0 (sub_nonneg.mpr hu1),
        mul_nonneg (mul_nonneg hu0 hu0) (sub_nonneg.mpr hu1), mul_nonneg (mul_nonneg hu0 (mul_nonneg hu0 hu0)) (sub_nonneg.mpr hu1)]
    have u5 : s ^ 5 ≤ 1 / 1024 := by
      calc s ^ 5 ≤ (1 / 4) ^ 5 := pow_le_pow_left₀ hs0 hs1 5
        _ = _ := by norm_num
    nlinarith
  linarith

/-! ### All waves of an image -/

theorem Kernel.waveErr_nonneg (k : Kernel) (φ : ℝ) : 0 ≤ k.waveErr φ := by
  cases k <;> simp only [Kernel.waveErr] <;> positivity

theorem Kernel.waveErr_mono (k : Kernel) {φ ψ : ℝ} (h : |φ| ≤ |ψ|) : k.waveErr φ ≤ k.waveErr ψ := by
  cases k <;> simp only [Kernel.waveErr, le_refl] <;> gcongr

/-- The samples around `t`. -/
noncomputable def around (t : ℝ) : Finset ℤ := Finset.Icc (⌊t⌋ - 4) (⌊t⌋ + 4)

theorem mem_around {t : ℝ} {j : ℤ} (h : |t - j| ≤ 3) : j ∈ around t := by
  have h1 := Int.floor_le t
  have h2 := Int.lt_floor_add_one t
  rw [abs_le] at h
  rw [around, Finset.mem_Icc]
  constructor
  · have : ((⌊t⌋ - 4 : ℤ) : ℝ) ≤ j := by push_cast; linarith
    exact_mod_cast this
  · have : (j:ℝ) ≤ ((⌊t⌋ + 4 : ℤ) : ℝ) := by push_cast; linarith
    exact_mod_cast this

/-- The sum of the wave with the kernel around `t`. -/
noncomputable def waveSum (f : ℝ → ℝ) (t φ : ℝ) : ℂ :=
  ∑ l ∈ around t, ((f (t - l) : ℝ) : ℂ) * Complex.exp (-(Complex.I * (φ * l : ℝ)))

theorem waveSum_near (K : ℕ → ℕ → ℝ) (k : Kernel) (hk : k.Poly) (t φ : ℝ) :
    ‖waveSum (k.xval K) t φ - Complex.exp (-(Complex.I * (φ * t : ℝ)))‖ ≤ k.waveErr φ := by
  rcases hk with rfl | rfl | rfl
  · have hS : ∀ j : ℤ, |t - j| < 1 → j ∈ around t := fun j h => mem_around (by linarith)
    refine (kernel_wave (D := 1) (C53_linear_reproduces K) t φ _ (by simpa [Kernel.xrange] using hS) (linear_absMoment K t _ hS)).trans (le_of_eq ?_)
    simp only [Kernel.waveErr]
    norm_num [Nat.factorial]
    ring
  · have hS : ∀ j : ℤ, |t - j| < 2 → j ∈ around t := fun j h => mem_around (by linarith)
    refine (kernel_wave (D := 2) (C53_cubic_reproduces K) t φ _ (by simpa [Kernel.xrange] using hS) (cubic_absMoment K t _ hS)).trans (le_of_eq ?_)
    simp only [Kernel.waveErr]
    norm_num [Nat.factorial]
    ring
  · have hS : ∀ j : ℤ, |t - j| < 3 → j ∈ around t := fun j h => mem_around (by linarith)
    refine (kernel_wave (D := 4) (C53_quintic_reproduces K) t φ _ (by simpa [Kernel.xrange] using hS) (quintic_absMoment K t _ hS)).trans (le_of_eq ?_)
    simp only [Kernel.waveErr]
    norm_num [Nat.factorial]
    ring

theorem poly_around (K : ℕ → ℕ → ℝ) (k : Kernel) (hk : k.Poly) (t : ℝ) (l : ℤ) (h : k.xval K (t - l) ≠ 0) : l ∈ around t := by
  refine mem_around ?_
  by_contra hc
  refine h ?_
  rcases hk with rfl | rfl | rfl
  · exact linear_zero K _ (by push_cast; linarith)
  · exact cubic_zero K _ (by push_cast; linarith)
  · exact quintic_zero K _ (by push_cast; linarith)

theorem norm_wave (s : ℝ) : ‖Complex.exp (-(Complex.I * (s : ℂ)))‖ = 1 := by
  rw [show -(Complex.I * (s:ℂ)) = ((-s : ℝ):ℂ) * Complex.I by push_cast; ring, Complex.norm_exp_ofReal_mul_I]

theorem near_mul {A B α β : ℂ} {e d : ℝ} (hα : ‖α‖ = 1) (hβ : ‖β‖ = 1) (hA : ‖A - α‖ ≤ e) (hB : ‖B - β‖ ≤ d) :
    ‖A * B - α * β‖ ≤ (1 + e) * (1 + d) - 1 := by
  have he : 0 ≤ e := (norm_nonneg _).trans hA
  rw [show A * B - α * β = (A - α) * (B - β) + ((A - α) * β + α * (B - β)) by ring]
  refine (norm_add_le _ _).trans ?_
  have h1 : ‖(A - α) * (B - β)‖ ≤ e * d := by rw [norm_mul]; exact mul_le_mul hA hB (norm_nonneg _) he
  have h2 : ‖(A - α) * β + α * (B - β)‖ ≤ e + d := by
    refine (norm_add_le _ _).trans ?_
    rw [norm_mul, norm_mul, hα, hβ, mul_one, one_mul]
    exact add_le_add hA hB
  linarith

/-- Interpolation of the transform of an image, as a sum over its pixels. -/
theorem fullSum_pixels (f : ℝ → ℝ) (im : Image) (dk s t : ℝ) (F : ℤ → ℤ → ℂ) (hF : ∀ m l : ℤ, F m l = ftSum im (l * dk) (m * dk)) :
    fullSum f F (around t) (around s) s t =
      ∑ y ∈ Finset.Ico im.bounds.ymin (im.bounds.ymin + im.bounds.deltay),
        ∑ x ∈ Finset.Ico im.bounds.xmin (im.bounds.xmin + im.bounds.deltax),
          (((coordMap im x y).getD 0 : ℝ) : ℂ) * (waveSum f s (dk * x) * waveSum f t (dk * y)) := by
  unfold fullSum waveSum
  simp only [hF, ftSum, Finset.sum_mul]
  have sw : ∀ m ∈ around t, ∑ l ∈ around s, ∑ y ∈ Finset.Ico im.bounds.ymin (im.bounds.ymin + im.bounds.deltay),
        ∑ x ∈ Finset.Ico im.bounds.xmin (im.bounds.xmin + im.bounds.deltax),
          (((coordMap im x y).getD 0 : ℝ) : ℂ) * Complex.exp (-(Complex.I * ((l * dk) * x + (m * dk) * y : ℝ))) * (f (s - l) : ℂ) * (f (t - m) : ℂ) =
      ∑ y ∈ Finset.Ico im.bounds.ymin (im.bounds.ymin + im.bounds.deltay),
        ∑ x ∈ Finset.Ico im.bounds.xmin (im.bounds.xmin + im.bounds.deltax), ∑ l ∈ around s,
          (((coordMap im x y).getD 0 : ℝ) : ℂ) * Complex.exp (-(Complex.I * ((l * dk) * x + (m * dk) * y : ℝ))) * (f (s - l) : ℂ) * (f (t - m) : ℂ) := by
    intro m _
    rw [Finset.sum_comm]
    exact Finset.sum_congr rfl fun y _ => Finset.sum_comm
  rw [Finset.sum_congr rfl sw, Finset.sum_comm]
  refine Finset.sum_congr rfl fun y _ => ?_
  rw [Finset.sum_comm]
  refine Finset.sum_congr rfl fun x _ => ?_
  rw [Finset.sum_comm, Finset.mul_sum]
  refine Finset.sum_congr rfl fun l _ => ?_
  rw [Finset.mul_sum, Finset.mul_sum]
  refine Finset.sum_congr rfl fun m _ => ?_
  rw [show -(Complex.I * (((l * dk) * x + (m * dk) * y : ℝ) : ℂ)) = -(Complex.I * ((dk * x * l : ℝ):ℂ)) + -(Complex.I * ((dk * y * m : ℝ):ℂ)) by
    push_cast; ring, Complex.exp_add]
  ring

/-- The Fourier values of an interpolated image inside the range, against the waves of its pixels. -/
theorem kvalue_near (K : ℕ → ℕ → ℝ) (k : Kernel) (hk : k.Poly) (kval : ℝ → ℝ) (urange : ℝ) (im : Image) (h : im.Live)
    (hi : im.isInt = false) (ox oy : ℝ) (w : ℝ × ℝ) (h1 : |w.1| ≤ 2 * Real.pi * urange) (h2 : |w.2| ≤ 2 * Real.pi * urange) :
    ∃ (z : Arr ℂ) (dk : ℝ), calculateFft im 1 = .ok (z, dk) ∧
      ‖kValueArr kval urange (k.xval K) k.ixrange ⟨z.h, z.w - 1, z.at'⟩ (-fftNo2 im.bounds) dk ox oy w.1 w.2 -
        (kval w.1 * kval w.2 : ℝ) * pixelWave (coordMap im) (ox, oy) w‖ ≤ |kval w.1 * kval w.2| *
          ∑ y ∈ Finset.Ico im.bounds.ymin (im.bounds.ymin + im.bounds.deltay),
            ∑ x ∈ Finset.Ico im.bounds.xmin (im.bounds.xmin + im.bounds.deltax),
              |(coordMap im x y).getD 0| * ((1 + k.waveErr (dk * x)) * (1 + k.waveErr (dk * y)) - 1) := by
  obtain ⟨m', x, hm', hno', hx, hh, hw, hin, hp⟩ := ximage_spec im h hi
  obtain ⟨m, z, dk, hm, hno, hz, zh, zw, hdk, hval⟩ := C72_forward im h hi 1 one_pos
  have : m' = m := by omega
  subst this
  have hmr : (m':ℝ) ≠ 0 := by positivity
  have hpi := Real.pi_pos
  have hdk' : dk = Real.pi / m' := by field_simp; linarith
  have hdk0 : 0 < dk := by rw [hdk']; positivity
  refine ⟨z, dk, hz, ?_⟩
  have hF := boxDft_herm m' hm (fun y x => (coordMap im x y).getD 0)
  have hzn : z.w - 1 = m' := by omega
  have hst : (⟨z.h, z.w - 1, z.at'⟩ : KHalf).Stores (boxDft m' fun y x => (coordMap im x y).getD 0) := by
    refine ⟨?_, ?_⟩
    · simp only; omega
    · intro j i hj hi'
      simp only at hj hi' ⊢
      rw [hval j i (by omega) (by omega), hzn, boxDft_ftSum im h m' hm hin, hdk']
      simp
  have hmode := C55_full_sum_partial K k hk.local ⟨z.h, z.w - 1, z.at'⟩ _ (by simp only; omega) (by simp only; rw [zh]; exact hF) hst
    (w.1 / dk) (w.2 / dk) _ _ (poly_around K k hk (w.2 / dk)) (poly_around K k hk (w.1 / dk))
  simp only [hzn] at hmode
  rw [fullSum_pixels _ im dk _ _ _ (fun a b => by rw [boxDft_ftSum im h m' hm hin, hdk'])] at hmode
  unfold kValueArr
  simp only [hzn, ← hno]
  have e : urange / (1 / (2 * Real.pi)) / dk = 2 * Real.pi * urange / dk := by field_simp
  rw [if_pos (by
    rw [e, abs_div, abs_div, abs_of_pos hdk0]
    exact ⟨div_le_div_of_nonneg_right h1 hdk0.le, div_le_div_of_nonneg_right h2 hdk0.le⟩), hmode, pixelWave_rect]
  have p : (∑ y ∈ Finset.Ico im.bounds.ymin (im.bounds.ymin + im.bounds.deltay),
      ∑ x ∈ Finset.Ico im.bounds.xmin (im.bounds.xmin + im.bounds.deltax), (((coordMap im x y).getD 0 : ℝ) : ℂ) *
        Complex.exp (-Complex.I * ((w.1 * (x - (ox, oy).1) + w.2 * (y - (ox, oy).2) : ℝ) : ℂ))) =
      (∑ y ∈ Finset.Ico im.bounds.ymin (im.bounds.ymin + im.bounds.deltay),
      ∑ x ∈ Finset.Ico im.bounds.xmin (im.bounds.xmin + im.bounds.deltax), (((coordMap im x y).getD 0 : ℝ) : ℂ) *
        (Complex.exp (-(Complex.I * (dk * x * (w.1 / dk) : ℝ))) * Complex.exp (-(Complex.I * (dk * y * (w.2 / dk) : ℝ))))) *
        Complex.exp (Complex.I * (w.1 * ox + w.2 * oy : ℝ)) := by
    rw [Finset.sum_mul]
    refine Finset.sum_congr rfl fun y _ => ?_
    rw [Finset.sum_mul]
    refine Finset.sum_congr rfl fun x _ => ?_
    rw [mul_assoc, ← Complex.exp_add, ← Complex.exp_add]
    congr 2
    have i1 : dk * (x:ℝ) * (w.1 / dk) = x * w.1 := by field_simp
    have i2 : dk * (y:ℝ) * (w.2 / dk) = y * w.2 := by field_simp
    rw [i1, i2]
    push_cast
    ring
  rw [p]
  have pn : ‖Complex.exp (Complex.I * (w.1 * ox + w.2 * oy : ℝ))‖ = 1 := by
    rw [mul_comm, Complex.norm_exp_ofReal_mul_I]
  generalize Complex.exp (Complex.I * (w.1 * ox + w.2 * oy : ℝ)) = q at *
  generalize kval w.1 * kval w.2 = U
  rw [show ∀ A B : ℂ, A * (U:ℂ) * q - (U:ℂ) * (B * q) = (U:ℂ) * q * (A - B) from fun A B => by ring, norm_mul, norm_mul, pn, mul_one,
    Complex.norm_real, Real.norm_eq_abs]
  refine mul_le_mul_of_nonneg_left ?_ (abs_nonneg _)
  rw [← Finset.sum_sub_distrib]
  refine (norm_sum_le _ _).trans (Finset.sum_le_sum fun y _ => ?_)
  rw [← Finset.sum_sub_distrib]
  refine (norm_sum_le _ _).trans (Finset.sum_le_sum fun x _ => ?_)
  rw [← mul_sub, norm_mul, Complex.norm_real, Real.norm_eq_abs]
  refine mul_le_mul_of_nonneg_left ?_ (abs_nonneg _)
  exact near_mul (norm_wave _) (norm_wave _) (waveSum_near K k hk _ _) (waveSum_near K k hk _ _)

/-! ### The padded image -/

theorem pixelSum_point (m : CMap) (q : ℤ × ℤ) : pixelSum m (fun p => if p = q then 1 else 0) = (m q.1 q.2).getD 0 := by
  unfold pixelSum
  rw [finsum_eq_single _ q]
  · simp
  · intro p hp
    simp [hp]

theorem absLight_eq (m : CMap) : absLight m = ∑ᶠ p : ℤ × ℤ, |(m p.1 p.2).getD 0| := by
  rw [absLight, light, pixelSum]
  refine finsum_congr fun p => ?_
  cases m p.1 p.2 <;> simp

/-- The padded image holds the pixels of the given one, moved. -/
theorem padded_px {o : II} (h : o.Good) {r : Image} (hr : PaddedOf r (workImage true o.args.im)) (x y : ℤ) :
    (coordMap r x y).getD 0 = (coordMap o.args.im (x + (o.args.im.bounds.xmin + o.args.im.bounds.deltax / 2))
      (y + (o.args.im.bounds.ymin + o.args.im.bounds.deltay / 2))).getD 0 := by
  have h1 := pixelSum_point (coordMap r) (x, y)
  rw [padded_sum hr, work_sum h] at h1
  have h2 := pixelSum_point (coordMap o.args.im) (x + (o.args.im.bounds.xmin + o.args.im.bounds.deltax / 2),
    y + (o.args.im.bounds.ymin + o.args.im.bounds.deltay / 2))
  rw [← h1, ← h2]
  congr 1
  funext p
  congr 1
  simp only [Prod.ext_iff, eq_iff_iff]
  constructor <;> (rintro ⟨a, b⟩; constructor <;> omega)

theorem padded_abs {o : II} (h : o.Good) {r : Image} (hr : PaddedOf r (workImage true o.args.im)) :
    ∑ y ∈ Finset.Ico r.bounds.ymin (r.bounds.ymin + r.bounds.deltay),
      ∑ x ∈ Finset.Ico r.bounds.xmin (r.bounds.xmin + r.bounds.deltax), |(coordMap r x y).getD 0| = absLight (coordMap o.args.im) := by
  have e1 : absLight (coordMap r) = absLight (coordMap o.args.im) := by
    rw [absLight_eq, absLight_eq]
    simp only [padded_px h hr]
    exact finsum_comp_equiv (f := fun p : ℤ × ℤ => |(coordMap o.args.im p.1 p.2).getD 0|)
      (Equiv.addRight (o.args.im.bounds.xmin + o.args.im.bounds.deltax / 2, o.args.im.bounds.ymin + o.args.im.bounds.deltay / 2))
  rw [← e1, absLight_eq, finsum_eq_sum_of_support_subset (s := Finset.Ico r.bounds.xmin (r.bounds.xmin + r.bounds.deltax) ×ˢ
    Finset.Ico r.bounds.ymin (r.bounds.ymin + r.bounds.deltay)), Finset.sum_comm, ← Finset.sum_product']
  intro p hp
  simp only [Function.mem_support, ne_eq, abs_eq_zero, coordMap] at hp
  by_cases hc : r.bounds.defined = true ∧ inRect r.bounds p.1 p.2
  · simpa [inRect] using hc.2
  · rw [if_neg hc] at hp
    exact absurd rfl hp

/-- C88: between the modes.  For polynomial kernels in both spaces the Fourier value inside the range of the kernel is the
Fourier transform of the brightness up to an error that depends on the phase `dk·N/2` across half the image of `N` pixels,
which `pad_factor` makes small, in the power up to which the kernel of Fourier space reproduces polynomials. -/
theorem C88_between (K : ℕ → ℕ → ℝ) (umax acc : ℝ) (o : II) (h : o.Good) (hx : o.args.kernel.Poly) (hk : o.args.kKernel.Poly)
    (x : ℝ × ℝ → ℝ) (hv : ∀ p, o.xValue K p = .ok (x p)) :
    ∃ (m : ℕ) (dk : ℝ), 0 < m ∧ m * dk = Real.pi ∧
      o.args.padFactor * max (o.args.im.bounds.deltax : ℝ) o.args.im.bounds.deltay ≤ 2 * m + 1 ∧
      ∀ k : ℝ × ℝ, |(fwdT o.jac k).1| ≤ 2 * Real.pi * o.args.kernel.urange umax acc →
        |(fwdT o.jac k).2| ≤ 2 * Real.pi * o.args.kernel.urange umax acc →
        ∃ v, o.kValue K o.args.kernel.polyUval (o.args.kernel.urange umax acc) k = .ok v ∧
          ‖v - brightFT x k‖ ≤ |o.wanted| * (absLight (coordMap o.args.im) / |light (coordMap o.args.im)|) *
            |kvalOf o.args.kernel.polyUval (fwdT o.jac k).1 * kvalOf o.args.kernel.polyUval (fwdT o.jac k).2| *
            ((1 + o.args.kKernel.waveErr (dk * (max (o.args.im.bounds.deltax : ℝ) o.args.im.bounds.deltay / 2))) ^ 2 - 1) := by
  obtain ⟨U, hU⟩ : ∃ U, U = o.args.kernel.polyUval := ⟨_, rfl⟩
  obtain ⟨ur, hur⟩ : ∃ ur, ur = o.args.kernel.urange umax acc := ⟨_, rfl⟩
  obtain ⟨N, hN⟩ : ∃ N, N = max (o.args.im.bounds.deltax : ℝ) o.args.im.bounds.deltay := ⟨_, rfl⟩
  obtain ⟨r, r1, r2, r3, -⟩ := xim_ok h
  have hr := r1
  rw [II.xim, image_eq h] at hr
  simp only [Except.bind] at hr
  have hr' : Interp.xim o.args.padFactor (workImage true o.args.im) = .ok r := by
    cases hq : Interp.xim o.args.padFactor (workImage true o.args.im) with
    | error e => rw [hq] at hr; cases hr
    | ok q => rw [hq] at hr; rw [Except.ok.inj hr]
  obtain ⟨r', q1, -, -, -, -, -, -, q8⟩ := C56_padding_partial o.args.padFactor _ (Good.live h) h.small h.small'
  have e : workImage true { o.args.im with isConst := some false } = workImage true o.args.im := rfl
  rw [e, hr'] at q1
  have := Except.ok.inj q1
  subst this
  obtain ⟨d, d1, d2, d3⟩ := offset_ok h
  obtain ⟨m, z, dk, hm, hno, hz, zh, zw, hdk, -⟩ := C72_forward r r3 (xim_isInt hr') 1 one_pos
  have hm0 : (0:ℝ) < m := by exact_mod_cast hm
  have hdk0 : 0 < dk := by
    by_contra hc
    nlinarith [Real.pi_pos]
  refine ⟨m, dk, hm, by linarith, ?_, ?_⟩
  · have c := fftNo2_cover r3
    have hl := Good.live h
    have e1 := hl.h
    have e2 := hl.w
    simp only at e1 e2
    have q9 : ((max (o.args.im.arr.h : ℤ) o.args.im.arr.w : ℤ) : ℝ) = max (o.args.im.bounds.deltax : ℝ) o.args.im.bounds.deltay := by
      rw [e1, e2, max_comm]; push_cast; rfl
    simp only at q8
    rw [q9] at q8
    have q10 : ((max r.bounds.deltax r.bounds.deltay : ℤ) : ℝ) ≤ 2 * m := by
      rw [← hno] at c
      exact_mod_cast max_le c.2.1 c.2.2
    linarith
  · intro k k1 k2
    rw [← hur] at k1 k2 ⊢
    rw [← hU, ← hN]
    obtain ⟨w, hw⟩ : ∃ w, w = fwdT o.jac k := ⟨_, rfl⟩
    obtain ⟨z', dk', hz', hnear⟩ := kvalue_near K o.args.kKernel hk (kvalOf U) ur r r3 (xim_isInt hr') d.x d.y w (by rw [hw]; exact k1)
      (by rw [hw]; exact k2)
    rw [hz] at hz'
    obtain ⟨rfl, rfl⟩ := Prod.mk.inj (Except.ok.inj hz')
    obtain ⟨u, hu⟩ : ∃ u, u = kValueArr (kvalOf U) ur (o.args.kKernel.xval K) o.args.kKernel.ixrange ⟨z.h, z.w - 1, z.at'⟩
      (-fftNo2 r.bounds) dk d.x d.y w.1 w.2 := ⟨_, rfl⟩
    have hin : o.innerKValue K U ur (fwdT o.jac k) = .ok u := by
      rw [II.innerKValue, d1, r1, ← hw, hu]
      simp only [Except.bind, hz, Except.mapError, Except.map]
    have hwave : pixelWave (coordMap r) (d.x, d.y) w = pixelWave (coordMap o.args.im) o.ref w := by
      unfold pixelWave
      simp only [padded_sum r2, work_sum h]
      rw [← d2, ← d3]
      congr 2
      · funext p; congr 1; push_cast; ring
      · congr 2
        funext p; congr 1; push_cast; ring
    rw [← hu, hwave] at hnear
    refine ⟨_, kValue_eq K U ur o h k _ hin, ?_⟩
    rw [transform_val K o h hx x hv, ← hU, ← hw]
    obtain ⟨G, hG⟩ : ∃ G, G = (1 + o.args.kKernel.waveErr (dk * (N / 2))) ^ 2 - 1 := ⟨_, rfl⟩
    have sum_le : ∑ y ∈ Finset.Ico r.bounds.ymin (r.bounds.ymin + r.bounds.deltay),
        ∑ x ∈ Finset.Ico r.bounds.xmin (r.bounds.xmin + r.bounds.deltax),
          |(coordMap r x y).getD 0| * ((1 + o.args.kKernel.waveErr (dk * x)) * (1 + o.args.kKernel.waveErr (dk * y)) - 1) ≤
        absLight (coordMap o.args.im) * G := by
      rw [← padded_abs h r2, Finset.sum_mul]
      refine Finset.sum_le_sum fun y _ => ?_
      rw [Finset.sum_mul]
      refine Finset.sum_le_sum fun x _ => ?_
      rw [padded_px h r2]
      by_cases hc : o.args.im.bounds.defined = true ∧ inRect o.args.im.bounds (x + (o.args.im.bounds.xmin + o.args.im.bounds.deltax / 2))
          (y + (o.args.im.bounds.ymin + o.args.im.bounds.deltay / 2))
      · refine mul_le_mul_of_nonneg_left ?_ (abs_nonneg _)
        have hb := hc.2
        unfold inRect at hb
        have bx : |((2 * x : ℤ) : ℝ)| ≤ ((o.args.im.bounds.deltax : ℤ) : ℝ) := by
          rw [abs_le]; constructor
          · have : -o.args.im.bounds.deltax ≤ 2 * x := by omega
            exact_mod_cast this
          · have : 2 * x ≤ o.args.im.bounds.deltax := by omega
            exact_mod_cast this
        have by' : |((2 * y : ℤ) : ℝ)| ≤ ((o.args.im.bounds.deltay : ℤ) : ℝ) := by
          rw [abs_le]; constructor
          · have : -o.args.im.bounds.deltay ≤ 2 * y := by omega
            exact_mod_cast this
          · have : 2 * y ≤ o.args.im.bounds.deltay := by omega
            exact_mod_cast this
        have ph : ∀ t : ℤ, |((2 * t : ℤ) : ℝ)| ≤ N → |dk * (t:ℝ)| ≤ |dk * (N / 2)| := by
          intro t ht
          push_cast at ht
          rw [abs_mul, abs_of_pos (two_pos : (0:ℝ) < 2)] at ht
          rw [abs_mul, abs_mul]
          refine mul_le_mul_of_nonneg_left ?_ (abs_nonneg _)
          have := le_abs_self (N / 2)
          linarith
        have ex := o.args.kKernel.waveErr_mono (ph x (bx.trans (by rw [hN]; exact le_max_left _ _)))
        have ey := o.args.kKernel.waveErr_mono (ph y (by'.trans (by rw [hN]; exact le_max_right _ _)))
        have n1 := o.args.kKernel.waveErr_nonneg (dk * x)
        have n2 := o.args.kKernel.waveErr_nonneg (dk * y)
        rw [hG, sq]
        have := mul_le_mul (add_le_add_right ex 1) (add_le_add_right ey 1) (by linarith) (by linarith)
        linarith
      · have : coordMap o.args.im (x + (o.args.im.bounds.xmin + o.args.im.bounds.deltax / 2))
          (y + (o.args.im.bounds.ymin + o.args.im.bounds.deltay / 2)) = none := if_neg hc
        rw [this]
        simp
    rw [← hG]
    have key := hnear.trans (mul_le_mul_of_nonneg_left sum_le (abs_nonneg _))
    have e1 : ((o.wanted / light (coordMap o.args.im) : ℝ) : ℂ) * u -
        ((o.wanted / light (coordMap o.args.im) * (kvalOf U w.1 * kvalOf U w.2) : ℝ) : ℂ) * pixelWave (coordMap o.args.im) o.ref w =
        ((o.wanted / light (coordMap o.args.im) : ℝ) : ℂ) * (u - (kvalOf U w.1 * kvalOf U w.2 : ℝ) * pixelWave (coordMap o.args.im) o.ref w) := by
      push_cast; ring
    rw [e1, norm_mul, Complex.norm_real, Real.norm_eq_abs, abs_div]
    refine (mul_le_mul_of_nonneg_left key (by positivity)).trans (le_of_eq ?_)
    ring

/-- C88: with the default kernel `quintic` of Fourier space and the default pad factor 4 (or more) that is 2.6 per cent of
the flux at most, times the ratio of the absolute to the total light, at every wave vector inside the range. -/
theorem C88_between_default (K : ℕ → ℕ → ℝ) (umax acc : ℝ) (o : II) (h : o.Good) (hx : o.args.kernel.Poly)
    (hk : o.args.kKernel = .quintic) (hp : 4 ≤ o.args.padFactor)
    (x : ℝ × ℝ → ℝ) (hv : ∀ p, o.xValue K p = .ok (x p)) (k : ℝ × ℝ)
    (k1 : |(fwdT o.jac k).1| ≤ 2 * Real.pi * o.args.kernel.urange umax acc)
    (k2 : |(fwdT o.jac k).2| ≤ 2 * Real.pi * o.args.kernel.urange umax acc) :
    ∃ v, o.kValue K o.args.kernel.polyUval (o.args.kernel.urange umax acc) k = .ok v ∧
      ‖v - brightFT x k‖ ≤ 0.026 * |o.wanted| * (absLight (coordMap o.args.im) / |light (coordMap o.args.im)|) *
        |kvalOf o.args.kernel.polyUval (fwdT o.jac k).1 * kvalOf o.args.kernel.polyUval (fwdT o.jac k).2| := by
  obtain ⟨m, dk, m0, mdk, hm, hb⟩ := C88_between K umax acc o h hx (Or.inr (Or.inr hk)) x hv
  obtain ⟨v, hv1, hv2⟩ := hb k k1 k2
  refine ⟨v, hv1, hv2.trans ?_⟩
  obtain ⟨N, hN⟩ : ∃ N : ℤ, N = max o.args.im.bounds.deltax o.args.im.bounds.deltay := ⟨_, rfl⟩
  have hN' : max (o.args.im.bounds.deltax : ℝ) o.args.im.bounds.deltay = N := by rw [hN]; push_cast; rfl
  have hd := (h.ok.1.mp h.defd).1
  have hN0 : 0 < N := by rw [hN]; exact lt_max_of_lt_left hd
  have hN0' : (0:ℝ) < N := by exact_mod_cast hN0
  rw [hN'] at hm ⊢
  have hm0 : (0:ℝ) < m := by exact_mod_cast m0
  have hpi := Real.pi_pos
  have hdk : dk = Real.pi / m := by field_simp; linarith
  have hmN : 2 * N ≤ m := by
    have : (4:ℝ) * N ≤ 2 * m + 1 := (mul_le_mul_of_nonneg_right hp hN0'.le).trans hm
    have : 4 * N ≤ 2 * (m:ℤ) + 1 := by exact_mod_cast this
    omega
  have hmN' : 2 * (N:ℝ) ≤ m := by exact_mod_cast hmN
  have hph : |dk * ((N:ℝ) / 2)| ≤ 0.7854 := by
    rw [abs_of_nonneg (by rw [hdk]; positivity), hdk, div_mul_eq_mul_div, div_le_iff₀ hm0]
    have := Real.pi_lt_d4
    nlinarith
  have hE : o.args.kKernel.waveErr (dk * ((N:ℝ) / 2)) ≤ 0.01246 := by
    rw [hk]
    simp only [Kernel.waveErr]
    have := pow_le_pow_left₀ (abs_nonneg _) hph 5
    norm_num at this ⊢
    linarith
  have hE0 := o.args.kKernel.waveErr_nonneg (dk * ((N:ℝ) / 2))
  have hG : (1 + o.args.kKernel.waveErr (dk * ((N:ℝ) / 2))) ^ 2 - 1 ≤ 0.026 := by nlinarith
  have ha : 0 ≤ absLight (coordMap o.args.im) := by
    rw [absLight_eq]; exact finsum_nonneg fun p => abs_nonneg _
  refine (mul_le_mul_of_nonneg_left hG (by positivity)).trans (le_of_eq ?_)
  ring

/-! ### Non-trivial cases -/

/-- Three pixels, 1, 1 and 5, at a wave vector which is no mode: within 2.6 per cent of the flux 7. -/
example (K : ℕ → ℕ → ℝ) (x : ℝ × ℝ → ℝ)
    (hx : ∀ p, (II.mk (defaultArgs exRow (.pix 2) 4) (.pix 2)).xValue K p = .ok (x p)) :
    ∃ v, (II.mk (defaultArgs exRow (.pix 2) 4) (.pix 2)).kValue K quinticUval (Kernel.quintic.urange 0 0.00001) (0.1, 0.07) = .ok v ∧
      ‖v - brightFT x (0.1, 0.07)‖ ≤ 0.026 * 7 * (absLight (coordMap exRow) / 7) * |kvalOf quinticUval 0.2 * kvalOf quinticUval 0.14| := by
  have g := exRow_good (.pix 2) two_ne_zero 4 le_rfl
  have hur : (1:ℝ) ≤ 2 * Kernel.quintic.urange 0 0.00001 := by
    simp only [Kernel.urange]
    have h5 : (1:ℝ) ≤ √5 := Real.one_le_sqrt.mpr (by norm_num)
    have hb : (8:ℝ) ≤ 25 * √5 / 108 / (0.00001:ℝ) := by norm_num; linarith
    have hc : (2:ℝ) ≤ (25 * √5 / 108 / (0.00001:ℝ)) ^ ((1:ℝ) / 3) := by
      calc (2:ℝ) = (8:ℝ) ^ ((1:ℝ) / 3) := by
            rw [show (8:ℝ) = 2 ^ (3:ℝ) by norm_num, ← Real.rpow_mul (by norm_num)]; norm_num
        _ ≤ _ := Real.rpow_le_rpow (by norm_num) hb (by norm_num)
    have hpi := Real.pi_pos
    have hp4 := Real.pi_le_four
    rw [← mul_div_assoc, le_div_iff₀ hpi]
    linarith
  have hw : fwdT (II.mk (defaultArgs exRow (.pix 2) 4) (.pix 2)).jac (0.1, 0.07) = (0.2, 0.14) := by
    simp only [fwdT, II.jac, LocalWCS.toJac]
    ext <;> norm_num
  have hp3 := Real.pi_gt_three
  have := C88_between_default K 0 0.00001 _ g (Or.inr (Or.inr rfl)) rfl le_rfl x hx (0.1, 0.07)
    (by rw [hw]; simp only [defaultArgs]; rw [abs_of_pos (by norm_num)]; nlinarith)
    (by rw [hw]; simp only [defaultArgs]; rw [abs_of_pos (by norm_num)]; nlinarith)
  rw [hw] at this
  have e : (II.mk (defaultArgs exRow (.pix 2) 4) (.pix 2)).wanted = 7 := by
    simp only [II.wanted, defaultArgs, lower_flux, exRow_light]
    rfl
  rw [e] at this
  simp only [defaultArgs, exRow_light, Kernel.polyUval] at this
  norm_num at this ⊢
  exact this

end JG.Interp
