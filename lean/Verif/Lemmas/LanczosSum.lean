import Verif.Lemmas.SiAsymp
import Mathlib.Analysis.Fourier.PoissonSummation
import Mathlib.Analysis.Real.Pi.Bounds
import Mathlib.Tactic.Positivity

/-! The sum of a Lanczos kernel over the integers, by Poisson summation. -/

namespace JG.Lz
open Real MeasureTheory Set Filter Topology JG.Si FourierTransform

/-- The kernel `sinc x · sinc (x/n)` on `[-n, n]`. -/
noncomputable def shape (n : ℕ) (x : ℝ) : ℝ := if |x| ≤ n then sinc (π * x) * sinc (π * (x / n)) else 0

/-- Its Fourier transform. -/
noncomputable def trans (n : ℕ) (u : ℝ) : ℝ := ∫ x in (-(n : ℝ))..n, sinc (π * x) * sinc (π * (x / n)) * cos (2 * π * u * x)

theorem sinc_pi_int (m : ℤ) : sinc (π * m) = if m = 0 then 1 else 0 := by
  split_ifs with h
  · subst h; simp
  · rw [sinc_of_ne_zero (mul_ne_zero pi_ne_zero (by exact_mod_cast h)), mul_comm, sin_int_mul_pi, zero_div]

theorem shape_int (n : ℕ) (m : ℤ) : shape n m = if m = 0 then 1 else 0 := by
  rw [shape, sinc_pi_int]
  split_ifs with h1 h2 h2
  · subst h2; simp
  · simp
  · subst h2; exact absurd (by simp) h1
  · rfl

theorem shape_neg (n : ℕ) (x : ℝ) : shape n (-x) = shape n x := by
  simp only [shape, abs_neg, mul_neg, neg_div, sinc_neg]

theorem shape_cont {n : ℕ} (hn : 1 ≤ n) : Continuous (shape n) := by
  unfold shape
  have := continuous_sinc
  apply Continuous.if_le (by fun_prop) continuous_const (by fun_prop) continuous_const
  intro x hx
  have h0 : (n : ℤ) ≠ 0 := by omega
  have h1 := sinc_pi_int n
  rw [if_neg h0] at h1
  push_cast at h1
  rcases abs_choice x with h | h
  · rw [← h, hx, h1, zero_mul]
  · rw [show x = -(n : ℝ) by linarith, mul_neg, sinc_neg, h1, zero_mul]

theorem shape_support (n : ℕ) : HasCompactSupport (shape n) := by
  refine HasCompactSupport.intro (isCompact_Icc (a := -(n : ℝ)) (b := n)) fun x hx => ?_
  rw [shape, if_neg]
  intro h
  exact hx (mem_Icc.mpr (abs_le.mp h))

theorem trans_neg (n : ℕ) (u : ℝ) : trans n (-u) = trans n u := by
  simp only [trans, mul_neg, neg_mul, cos_neg]

/-- The transform as a difference of two increments of `y Si(y)`. -/
theorem trans_eq {n : ℕ} (hn : 1 ≤ n) (u : ℝ) :
    trans n u = ((ySi (π * (n * (2 * u + 1) - 1) + 2 * π) - ySi (π * (n * (2 * u + 1) - 1)) - 2 * π * siC)
      - (ySi (π * (n * (2 * u - 1) - 1) + 2 * π) - ySi (π * (n * (2 * u - 1) - 1)) - 2 * π * siC)) / (2 * π ^ 2) := by
  rw [trans, kernel_integral n hn]
  rw [show π * (n * (2 * u + 1) - 1) + 2 * π = π * (n * (2 * u + 1) + 1) by ring,
    show π * (n * (2 * u - 1) - 1) + 2 * π = π * (n * (2 * u - 1) + 1) by ring]
  ring

theorem trans_decay {n : ℕ} (hn : 1 ≤ n) {u : ℝ} (hu : 2 ≤ |u|) : |trans n u| ≤ 4 / u ^ 2 := by
  wlog h : 0 ≤ u with H
  · have := H hn (u := -u) (by rwa [abs_neg]) (by linarith)
    rwa [trans_neg, neg_sq] at this
  rw [abs_of_nonneg h] at hu
  have hn' : (1 : ℝ) ≤ n := by exact_mod_cast hn
  have hp := pi_gt_three
  have hup : 0 < u := by linarith
  have key : ∀ a, u ≤ a → |ySi (a + 2 * π) - ySi a - 2 * π * siC| ≤ 6 * π / u ^ 2 := by
    intro a hau
    have ha : 0 < a := by linarith
    refine (ySi_step ha).trans ?_
    have h1 : |cos a| * (8 * π / a ^ 3) ≤ 1 * (8 * π / (2 * u ^ 2)) := by
      gcongr
      · exact abs_cos_le_one a
      · nlinarith [mul_le_mul hau hau hup.le ha.le, sq_nonneg a]
    have h2 : |sin a| * (2 * π / a ^ 2) ≤ 1 * (2 * π / u ^ 2) := by
      gcongr
      exact abs_sin_le_one a
    refine (add_le_add h1 h2).trans (le_of_eq ?_)
    field_simp
    norm_num
  have e1 : u ≤ n * (2 * u - 1) - 1 := by nlinarith
  have e2 : n * (2 * u - 1) - 1 ≤ n * (2 * u + 1) - 1 := by nlinarith
  have k1 := key (π * (n * (2 * u + 1) - 1)) (by nlinarith)
  have k2 := key (π * (n * (2 * u - 1) - 1)) (by nlinarith)
  rw [trans_eq hn, abs_div, abs_of_pos (show 0 < 2 * π ^ 2 by positivity), div_le_iff₀ (by positivity)]
  refine (abs_sub _ _).trans ((add_le_add k1 k2).trans ?_)
  rw [← add_div, div_mul_eq_mul_div]
  gcongr
  nlinarith

theorem trans_int {n : ℕ} (hn : 2 ≤ n) {m : ℕ} (hm : 1 ≤ m) :
    |trans n m| ≤ 4 / π ^ 4 / (n - 1) ^ 3 * (1 / (2 * m + 1) ^ 3 + 1 / (2 * m - 1) ^ 3) := by
  have hn' : (2 : ℝ) ≤ n := by exact_mod_cast hn
  have hm' : (1 : ℝ) ≤ m := by exact_mod_cast hm
  have hp := pi_pos
  have key : ∀ (j : ℤ) (r : ℝ), 1 ≤ r → (j : ℝ) = n * r - 1 →
      |ySi (π * (n * r - 1) + 2 * π) - ySi (π * (n * r - 1)) - 2 * π * siC| ≤ 8 / π ^ 2 / (n - 1) ^ 3 * (1 / r ^ 3) := by
    intro j r hr hj
    have hpos : 0 < (n : ℝ) * r - 1 := by nlinarith
    have hs : sin (π * (n * r - 1)) = 0 := by rw [← hj, mul_comm, sin_int_mul_pi]
    refine (ySi_step (mul_pos hp hpos)).trans ?_
    rw [hs, abs_zero, zero_mul, add_zero]
    have h1 : r * ((n : ℝ) - 1) ≤ n * r - 1 := by nlinarith
    have h0 : 0 < r * ((n : ℝ) - 1) := mul_pos (by linarith) (by linarith)
    calc |cos (π * (n * r - 1))| * (8 * π / (π * (n * r - 1)) ^ 3) ≤ 1 * (8 * π / (π * (r * (n - 1))) ^ 3) := by
          gcongr
          exact abs_cos_le_one _
      _ = _ := by
          have : (n : ℝ) - 1 ≠ 0 := by linarith
          have : r ≠ 0 := by linarith
          field_simp
  have k1 := key (n * (2 * m + 1) - 1) (2 * m + 1) (by linarith) (by push_cast; ring)
  have k2 := key (n * (2 * m - 1) - 1) (2 * m - 1) (by linarith) (by push_cast; ring)
  rw [trans_eq (by omega), abs_div, abs_of_pos (show 0 < 2 * π ^ 2 by positivity), div_le_iff₀ (by positivity)]
  refine (abs_sub _ _).trans ((add_le_add k1 k2).trans (le_of_eq ?_))
  have : (n : ℝ) - 1 ≠ 0 := by linarith
  have : 2 * (m : ℝ) - 1 ≠ 0 := by linarith
  field_simp
  ring

/-- The transform over the whole line. -/
theorem trans_line {n : ℕ} (hn : 1 ≤ n) (u : ℝ) : ∫ x, shape n x * cos (2 * π * u * x) = trans n u := by
  have hN : -(n : ℝ) ≤ n := by have : (0 : ℝ) ≤ n := Nat.cast_nonneg n; linarith
  rw [trans, intervalIntegral.integral_of_le hN]
  rw [← setIntegral_eq_integral_of_forall_compl_eq_zero (s := Ioc (-(n : ℝ)) n)]
  · refine setIntegral_congr_fun measurableSet_Ioc fun x hx => ?_
    rw [shape, if_pos (abs_le.mpr ⟨hx.1.le, hx.2⟩)]
  · intro x hx
    have : shape n x = 0 := by
      rcases eq_or_ne x (-(n : ℝ)) with h | h
      · have h1 := shape_int n n
        rw [if_neg (by omega)] at h1
        push_cast at h1
        rw [h, shape_neg, h1]
      · rw [shape, if_neg]
        intro hc
        have := abs_le.mp hc
        exact hx ⟨lt_of_le_of_ne this.1 h.symm, this.2⟩
    rw [this, zero_mul]

theorem shape_fourier {n : ℕ} (hn : 1 ≤ n) (u : ℝ) : 𝓕 (fun x => (shape n x : ℂ)) u = (trans n u : ℂ) := by
  rw [fourier_real_eq_integral_exp_smul]
  obtain ⟨g, hg⟩ : ∃ g : ℝ → ℂ, g = fun v => Complex.exp (↑(-2 * π * v * u) * Complex.I) • (shape n v : ℂ) := ⟨_, rfl⟩
  have hgc : Continuous g := by
    rw [hg]
    have h1 := shape_cont hn
    have h2 : Continuous fun v => (shape n v : ℂ) := Complex.continuous_ofReal.comp h1
    fun_prop
  have hgs : HasCompactSupport g := by
    refine HasCompactSupport.intro (isCompact_Icc (a := -(n : ℝ)) (b := n)) fun x hx => ?_
    have : shape n x = 0 := by
      rw [shape, if_neg]
      intro h
      exact hx (mem_Icc.mpr (abs_le.mp h))
    simp only [hg, this, Complex.ofReal_zero, smul_zero]
  have hgi : Integrable g volume := hgc.integrable_of_hasCompactSupport hgs
  rw [← hg]
  have h1 : ∫ v, g (-v) = ∫ v, g v := integral_neg_eq_self g volume
  have h2 : ∫ v, (g v + g (-v)) = ((2 * trans n u : ℝ) : ℂ) := by
    rw [← trans_line hn, ← integral_const_mul]
    refine Eq.trans ?_ integral_complex_ofReal
    congr 1
    ext v
    simp only [hg, shape_neg, smul_eq_mul]
    rw [← add_mul]
    have e : Complex.exp (↑(-2 * π * v * u) * Complex.I) + Complex.exp (↑(-2 * π * -v * u) * Complex.I) =
        ((2 * cos (2 * π * u * v) : ℝ) : ℂ) := by
      rw [Complex.exp_mul_I, Complex.exp_mul_I, show -2 * π * -v * u = 2 * π * u * v by ring,
        show -2 * π * v * u = -(2 * π * u * v) by ring]
      push_cast
      rw [Complex.cos_neg, Complex.sin_neg]
      ring
    rw [e]
    push_cast
    ring
  rw [integral_add hgi hgi.comp_neg, h1, ← two_mul] at h2
  push_cast at h2
  exact mul_left_cancel₀ two_ne_zero h2

theorem trans_summable {n : ℕ} (hn : 1 ≤ n) : Summable fun m : ℤ => |trans n m| := by
  have hO : (fun u : ℝ => |trans n u|) =O[cocompact ℝ] (fun u => |u| ^ (-2 : ℝ)) := by
    refine Asymptotics.IsBigO.of_bound 4 ?_
    have h : ∀ᶠ u : ℝ in cocompact ℝ, 2 ≤ ‖u‖ := tendsto_norm_cocompact_atTop.eventually_ge_atTop 2
    filter_upwards [h] with u hu
    rw [norm_eq_abs] at hu
    rw [norm_eq_abs, abs_abs, norm_eq_abs, abs_of_nonneg (rpow_nonneg (abs_nonneg u) _), rpow_neg (abs_nonneg u),
      show (2 : ℝ) = ((2 : ℕ) : ℝ) by norm_num, rpow_natCast, sq_abs]
    exact trans_decay hn hu
  exact summable_of_isBigO (Real.summable_abs_int_rpow (by norm_num)) (hO.comp_tendsto Int.tendsto_coe_cofinite)

/-- Poisson summation for the kernel. -/
theorem shape_sum {n : ℕ} (hn : 1 ≤ n) (x : ℝ) :
    ∑' m : ℤ, shape n (x + m) = ∑' m : ℤ, trans n m * cos (2 * π * m * x) := by
  have hc : Continuous fun x => (shape n x : ℂ) := Complex.continuous_ofReal.comp (shape_cont hn)
  have hs : HasCompactSupport fun x => (shape n x : ℂ) := (shape_support n).comp_left Complex.ofReal_zero
  have hf : (fun x => (shape n x : ℂ)) =O[cocompact ℝ] (|·| ^ (-2 : ℝ)) := by
    have : (fun x => (shape n x : ℂ)) =ᶠ[cocompact ℝ] 0 := by
      filter_upwards [hs.isCompact.compl_mem_cocompact] with y hy
      exact image_eq_zero_of_notMem_tsupport (f := fun x => (shape n x : ℂ)) hy
    exact this.trans_isBigO (Asymptotics.isBigO_zero _ _)
  have hF : (𝓕 fun x => (shape n x : ℂ)) =O[cocompact ℝ] (|·| ^ (-2 : ℝ)) := by
    refine Asymptotics.IsBigO.of_bound 4 ?_
    have h : ∀ᶠ u : ℝ in cocompact ℝ, 2 ≤ ‖u‖ := tendsto_norm_cocompact_atTop.eventually_ge_atTop 2
    filter_upwards [h] with u hu
    rw [norm_eq_abs] at hu
    rw [shape_fourier hn, Complex.norm_real, norm_eq_abs, norm_eq_abs, abs_of_nonneg (rpow_nonneg (abs_nonneg u) _),
      rpow_neg (abs_nonneg u), show (2 : ℝ) = ((2 : ℕ) : ℝ) by norm_num, rpow_natCast, sq_abs]
    exact trans_decay hn hu
  have P := Real.tsum_eq_tsum_fourier_of_rpow_decay hc (by norm_num) hf hF x
  simp_rw [shape_fourier hn] at P
  have e : ∀ m : ℤ, (trans n m : ℂ) * fourier m (x : UnitAddCircle) = (trans n m : ℂ) * Complex.exp (↑(2 * π * m * x) * Complex.I) := by
    intro m
    rw [fourier_coe_apply]
    congr 2
    push_cast
    ring
  simp_rw [e] at P
  have hsum : Summable fun m : ℤ => (trans n m : ℂ) * Complex.exp (↑(2 * π * m * x) * Complex.I) := by
    refine Summable.of_norm ?_
    refine (trans_summable hn).congr fun m => ?_
    rw [norm_mul, Complex.norm_exp_ofReal_mul_I, mul_one, Complex.norm_real, norm_eq_abs]
  have R := congrArg Complex.re P
  rw [Complex.re_tsum hsum, ← Complex.ofReal_tsum, Complex.ofReal_re] at R
  rw [R]
  congr 1
  ext m
  rw [Complex.re_ofReal_mul, Complex.exp_ofReal_mul_I_re]

/-- How far the sum of the kernel over the integers is from its first eleven Fourier terms. -/
theorem shape_sum_sub {n : ℕ} (hn : 1 ≤ n) (x : ℝ) :
    ∑' m : ℤ, shape n (x + m) - 1 = ∑' m : ℤ, trans n m * (cos (2 * π * m * x) - 1) := by
  have h0 := shape_sum hn 0
  have h1 : ∑' m : ℤ, shape n (0 + m) = 1 := by
    rw [tsum_eq_single 0]
    · rw [zero_add, shape_int, if_pos rfl]
    · intro m hm
      rw [zero_add, shape_int, if_neg hm]
  have s : ∀ x, Summable fun m : ℤ => trans n m * cos (2 * π * m * x) := by
    intro x
    refine Summable.of_norm_bounded (trans_summable hn) fun m => ?_
    rw [norm_mul, norm_eq_abs, norm_eq_abs]
    exact mul_le_of_le_one_right (abs_nonneg _) (abs_cos_le_one _)
  rw [show ∑' m : ℤ, shape n (x + m) - 1 = ∑' m : ℤ, shape n (x + m) - ∑' m : ℤ, shape n (0 + m) by rw [h1], h0, shape_sum hn x, ← (s x).tsum_sub (s 0)]
  congr 1
  ext m
  rw [mul_zero, cos_zero]
  ring

/-- A bound for the terms from the sixth on. -/
theorem tail_sum (M : ℕ) (hM : 2 ≤ M) :
    Summable (fun k : ℕ => 1 / (2 * ((k + M : ℕ) : ℝ) - 1) ^ 3) ∧
    ∑' k : ℕ, 1 / (2 * ((k + M : ℕ) : ℝ) - 1) ^ 3 ≤ 1 / (4 * (2 * (M : ℝ) - 2) ^ 2) := by
  have hM' : (2 : ℝ) ≤ M := by exact_mod_cast hM
  have term : ∀ k : ℕ, 1 / (2 * ((k + M : ℕ) : ℝ) - 1) ^ 3 ≤
      1 / (4 * (2 * ((k + M : ℕ) : ℝ) - 2) ^ 2) - 1 / (4 * (2 * ((k + 1 + M : ℕ) : ℝ) - 2) ^ 2) := by
    intro k
    obtain ⟨z, hz⟩ : ∃ z, z = 2 * ((k + M : ℕ) : ℝ) - 1 := ⟨_, rfl⟩
    have hk : (0 : ℝ) ≤ k := Nat.cast_nonneg k
    have hz1 : 3 ≤ z := by rw [hz]; push_cast; linarith
    rw [show 2 * ((k + M : ℕ) : ℝ) - 2 = z - 1 by rw [hz]; ring,
      show 2 * ((k + 1 + M : ℕ) : ℝ) - 2 = z + 1 by rw [hz]; push_cast; ring, ← hz]
    have a1 : z - 1 ≠ 0 := by linarith
    have a2 : z + 1 ≠ 0 := by linarith
    rw [show 1 / (4 * (z - 1) ^ 2) - 1 / (4 * (z + 1) ^ 2) = z / (z ^ 2 - 1) ^ 2 by
      rw [show z ^ 2 - 1 = (z - 1) * (z + 1) by ring]; field_simp; ring]
    have hq : 0 < z ^ 2 - 1 := by nlinarith
    rw [div_le_div_iff₀ (by positivity) (by positivity)]
    nlinarith [sq_nonneg z]
  have nn : ∀ k : ℕ, 0 ≤ 1 / (2 * ((k + M : ℕ) : ℝ) - 1) ^ 3 := by
    intro k
    have hk : (0 : ℝ) ≤ k := Nat.cast_nonneg k
    have : 0 < 2 * ((k + M : ℕ) : ℝ) - 1 := by push_cast; linarith
    positivity
  have part : ∀ N : ℕ, ∑ k ∈ Finset.range N, 1 / (2 * ((k + M : ℕ) : ℝ) - 1) ^ 3 ≤
      1 / (4 * (2 * (M : ℝ) - 2) ^ 2) - 1 / (4 * (2 * ((N + M : ℕ) : ℝ) - 2) ^ 2) := by
    intro N
    induction N with
    | zero => simp
    | succ N ih =>
      rw [Finset.sum_range_succ]
      linarith [term N]
  have part' : ∀ N : ℕ, ∑ k ∈ Finset.range N, 1 / (2 * ((k + M : ℕ) : ℝ) - 1) ^ 3 ≤ 1 / (4 * (2 * (M : ℝ) - 2) ^ 2) := by
    intro N
    have : 0 ≤ 1 / (4 * (2 * ((N + M : ℕ) : ℝ) - 2) ^ 2) := by positivity
    linarith [part N]
  exact ⟨summable_of_sum_range_le nn part', Real.tsum_le_of_sum_range_le nn part'⟩

/-- The terms of the Fourier series beyond the fifth are small. -/
theorem shape_sum_close {n : ℕ} (hn : 2 ≤ n) (x : ℝ) :
    |∑' m : ℤ, shape n (x + m) - (1 + 2 * ∑ k ∈ Finset.range 5, trans n (k + 1 : ℕ) * (cos (2 * π * (k + 1 : ℕ) * x) - 1))|
      ≤ 1 / 1400 / (n - 1) ^ 3 := by
  have hn1 : 1 ≤ n := by omega
  have hn' : (2 : ℝ) ≤ n := by exact_mod_cast hn
  obtain ⟨c, hc⟩ : ∃ c : ℤ → ℝ, c = fun m : ℤ => trans n m * (cos (2 * π * m * x) - 1) := ⟨_, rfl⟩
  have cneg : ∀ m : ℤ, c (-m) = c m := by
    intro m
    rw [hc]
    simp only [Int.cast_neg, trans_neg]
    rw [show 2 * π * -(m : ℝ) * x = -(2 * π * m * x) by ring, cos_neg]
  have cz : c 0 = 0 := by rw [hc]; simp
  have cle : ∀ m, |c m| ≤ 2 * |trans n m| := by
    intro m
    rw [hc]
    simp only [abs_mul]
    rw [mul_comm]
    gcongr
    rw [abs_le]
    constructor <;> linarith [neg_one_le_cos (2 * π * m * x), cos_le_one (2 * π * m * x)]
  have cs : Summable c := Summable.of_norm_bounded ((trans_summable hn1).mul_left 2) cle
  have h1 := shape_sum_sub hn1 x
  rw [← hc] at h1
  have csn : Summable fun k : ℕ => c (k : ℤ) := cs.comp_injective Nat.cast_injective
  have csn' : Summable fun k : ℕ => c (-((k : ℤ) + 1)) := by
    have : Function.Injective fun k : ℕ => -((k : ℤ) + 1) := by intro a b h; simp only at h; omega
    exact cs.comp_injective this
  have h2 := tsum_of_nat_of_neg_add_one csn csn'
  have h3 : ∑' k : ℕ, c k = ∑' k : ℕ, c (-((k : ℤ) + 1)) := by
    rw [csn.tsum_eq_zero_add]
    simp only [Nat.cast_zero, cz, zero_add, cneg]
    push_cast
    rfl
  have csn1 : Summable fun k : ℕ => c ((k : ℤ) + 1) := by simpa only [cneg] using csn'
  have h4 : ∑' m : ℤ, c m = 2 * ∑' k : ℕ, c ((k : ℤ) + 1) := by
    rw [h2, h3]
    simp only [cneg]
    ring
  have h5 := csn1.sum_add_tsum_nat_add 5
  have h6 : ∑ k ∈ Finset.range 5, trans n (k + 1 : ℕ) * (cos (2 * π * (k + 1 : ℕ) * x) - 1) = ∑ k ∈ Finset.range 5, c ((k : ℤ) + 1) := by
    refine Finset.sum_congr rfl fun k _ => ?_
    rw [hc]
    push_cast
    rfl
  have h7 : ∑' m : ℤ, shape n (x + m) - (1 + 2 * ∑ k ∈ Finset.range 5, trans n (k + 1 : ℕ) * (cos (2 * π * (k + 1 : ℕ) * x) - 1)) =
      2 * ∑' k : ℕ, c (((k + 5 : ℕ) : ℤ) + 1) := by
    rw [h6]
    linarith
  rw [h7, abs_mul, abs_two]
  have t1 := tail_sum 6 (by norm_num)
  have t2 := tail_sum 7 (by norm_num)
  obtain ⟨A, hA⟩ : ∃ A, A = 4 / π ^ 4 / ((n : ℝ) - 1) ^ 3 := ⟨_, rfl⟩
  have bound : ∀ k : ℕ, ‖c (((k + 5 : ℕ) : ℤ) + 1)‖ ≤
      2 * A * (1 / (2 * ((k + 7 : ℕ) : ℝ) - 1) ^ 3 + 1 / (2 * ((k + 6 : ℕ) : ℝ) - 1) ^ 3) := by
    intro k
    rw [norm_eq_abs]
    refine (cle _).trans ?_
    have := trans_int hn (m := k + 6) (by omega)
    rw [← hA] at this
    rw [mul_assoc]
    have e1 : (((k + 5 : ℕ) : ℤ) + 1 : ℤ) = ((k + 6 : ℕ) : ℤ) := by push_cast; ring
    rw [e1, Int.cast_natCast]
    rw [show 2 * ((k + 7 : ℕ) : ℝ) - 1 = 2 * ((k + 6 : ℕ) : ℝ) + 1 by push_cast; ring]
    gcongr
  have hs := ((t2.1.add t1.1).mul_left (2 * A))
  have h8 := tsum_of_norm_bounded hs.hasSum bound
  rw [tsum_mul_left, t2.1.tsum_add t1.1, norm_eq_abs] at h8
  have hA0 : 0 ≤ A := by
    rw [hA]
    have : 0 < (n : ℝ) - 1 := by linarith
    positivity
  have h9 := add_le_add t2.2 t1.2
  rw [show (1 : ℝ) / (4 * (2 * ((7 : ℕ) : ℝ) - 2) ^ 2) + 1 / (4 * (2 * ((6 : ℕ) : ℝ) - 2) ^ 2) = 1 / 576 + 1 / 400 by norm_num] at h9
  have hpi : (97 : ℝ) ≤ π ^ 4 := by
    have : (3.1415 : ℝ) ^ 4 ≤ π ^ 4 := pow_le_pow_left₀ (by norm_num) pi_gt_d4.le 4
    refine le_trans (by norm_num) this
  have hA1 : A ≤ 4 / 97 / ((n : ℝ) - 1) ^ 3 := by
    rw [hA]
    have : 0 < (n : ℝ) - 1 := by linarith
    gcongr
  calc 2 * |∑' k : ℕ, c (((k + 5 : ℕ) : ℤ) + 1)| ≤ 2 * (2 * A * (1 / 576 + 1 / 400)) := by
        gcongr
        exact h8.trans (mul_le_mul_of_nonneg_left h9 (by positivity))
    _ ≤ 2 * (2 * (4 / 97 / ((n : ℝ) - 1) ^ 3) * (1 / 576 + 1 / 400)) := by gcongr
    _ ≤ _ := by
        have : 0 < ((n : ℝ) - 1) ^ 3 := by have : 0 < (n : ℝ) - 1 := by linarith
                                           positivity
        rw [show 2 * (2 * (4 / 97 / ((n : ℝ) - 1) ^ 3) * (1 / 576 + 1 / 400)) = 2 * (2 * (4 / 97) * (1 / 576 + 1 / 400)) / ((n : ℝ) - 1) ^ 3 by ring]
        gcongr
        norm_num

end JG.Lz
