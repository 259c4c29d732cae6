import Verif.Lemmas.Shear
import Verif.Model.Utilities

/-! Properties C10 and C11: shears. -/

namespace JG
open Complex

/-! ### C10 -/

theorem norm_phase (β : Angle) : ‖Shear.phase β‖ = 1 := by
  unfold Shear.phase
  have : (2 * I * (β.rad : ℂ)) = ((2 * β.rad : ℝ) : ℂ) * I := by push_cast; ring
  rw [this, Complex.norm_exp_ofReal_mul_I]

/-- C10: `(g1, g2)` is accepted exactly when `|g| ≤ 1`, and reads back unchanged. -/
theorem C10_g1g2 (g1 g2 : ℝ) :
    (∀ s, Shear.ofG g1 g2 = some s → s.g1 = g1 ∧ s.g2 = g2 ∧ s.absg = Real.sqrt (g1 ^ 2 + g2 ^ 2)) ∧
    ((Shear.ofG g1 g2).isSome ↔ g1 ^ 2 + g2 ^ 2 ≤ 1) := by
  have hn : ‖(⟨g1, g2⟩ : ℂ)‖ = Real.sqrt (g1 ^ 2 + g2 ^ 2) := by
    rw [← Real.sqrt_sq (norm_nonneg _), normsq_re_im]
  constructor
  · intro s hs
    unfold Shear.ofG at hs
    split at hs
    · exact absurd hs (by simp)
    · cases Option.some.inj hs
      exact ⟨rfl, rfl, hn⟩
  · unfold Shear.ofG
    rw [hn]
    split
    · rename_i h
      simp only [Option.isSome_none, Bool.false_eq_true, false_iff, not_le]
      by_contra hc
      push Not at hc
      have := Real.sqrt_le_one.mpr hc
      linarith
    · rename_i h
      simp only [Option.isSome_some, true_iff]
      exact Real.sqrt_le_one.mp (not_lt.mp h)

/-- Common fact: for `e` with `0 ≤ e² ≤ 1` the factor `e2g` turns distortion into shear and back,
exactly above the switch-over and within `e^8` below. -/
theorem g2e_e2g (x : ℝ) (h0 : 0 ≤ x) (h1 : x ≤ 1) :
    (1/10000 < x → Shear.e2g x * Shear.g2e (x * Shear.e2g x ^ 2) = 1) ∧
    |Shear.e2g x * Shear.g2e (x * Shear.e2g x ^ 2) - 1| ≤ x ^ 4 := by
  have exact : 1/10000 < x → Shear.e2g x * Shear.g2e (x * Shear.e2g x ^ 2) = 1 := by
    intro hx
    have hs0 : 0 ≤ Real.sqrt (1 - x) := Real.sqrt_nonneg _
    have hs : Real.sqrt (1 - x) ^ 2 = 1 - x := Real.sq_sqrt (by linarith)
    unfold Shear.e2g Shear.g2e
    rw [if_pos hx]
    set r := Real.sqrt (1 - x)
    have hx' : x = 1 - r ^ 2 := by linarith
    have h2 : (1 + r) ≠ 0 := by positivity
    rw [hx']
    have e : 1 + (1 - r ^ 2) * (1 / (1 + r)) ^ 2 = 2 / (1 + r) := by field_simp; ring
    rw [e]
    field_simp
  refine ⟨exact, ?_⟩
  by_cases hx : 1/10000 < x
  · rw [exact hx]; simp; positivity
  · obtain ⟨b, l, u⟩ := e2g_taylor x h0 (not_lt.mp hx)
    set T := Shear.e2g x
    unfold Shear.g2e
    have hd : 1 ≤ 1 + x * T ^ 2 := by
      have : 0 ≤ x * T ^ 2 := by positivity
      linarith
    have e : T * (2 / (1 + x * T ^ 2)) - 1 = -(x * T ^ 2 - 2 * T + 1) / (1 + x * T ^ 2) := by
      field_simp; ring
    rw [e, abs_div, abs_neg, abs_of_pos (by linarith : 0 < 1 + x * T ^ 2)]
    exact (div_le_self (abs_nonneg _) hd).trans b

/-- C10: `(e1, e2)` reads back: exactly for `|e|² > 1e-4`, and to relative accuracy `|e|^8`
(≤ 1e-16) always. -/
theorem C10_e1e2 (a b : ℝ) (h : a ^ 2 + b ^ 2 ≤ 1) : ∃ s, Shear.ofE a b = some s ∧
    (1/10000 < a ^ 2 + b ^ 2 → s.e1 = a ∧ s.e2 = b) ∧
    |s.e1 - a| ≤ |a| * (a ^ 2 + b ^ 2) ^ 4 ∧ |s.e2 - b| ≤ |b| * (a ^ 2 + b ^ 2) ^ 4 := by
  have h0 : 0 ≤ a ^ 2 + b ^ 2 := by positivity
  refine ⟨_, by unfold Shear.ofE; rw [if_neg (not_lt.mpr h)], ?_⟩
  obtain ⟨ex, ap⟩ := g2e_e2g _ h0 h
  set x := a ^ 2 + b ^ 2 with hx
  have hre : ((⟨a, b⟩ : ℂ) * (Shear.e2g x : ℂ)).re = a * Shear.e2g x := by simp
  have him : ((⟨a, b⟩ : ℂ) * (Shear.e2g x : ℂ)).im = b * Shear.e2g x := by simp
  have habs : ‖((⟨a, b⟩ : ℂ) * (Shear.e2g x : ℂ))‖ ^ 2 = x * Shear.e2g x ^ 2 := by
    rw [normsq_re_im, hre, him, hx]; ring
  simp only [Shear.e1, Shear.e2, Shear.absg]
  rw [habs, hre, him, mul_assoc, mul_assoc]
  set K := Shear.e2g x * Shear.g2e (x * Shear.e2g x ^ 2)
  refine ⟨fun hx => by rw [ex hx]; simp, ?_, ?_⟩
  · have : a * K - a = a * (K - 1) := by ring
    rw [this, abs_mul]
    exact mul_le_mul_of_nonneg_left ap (abs_nonneg _)
  · have : b * K - b = b * (K - 1) := by ring
    rw [this, abs_mul]
    exact mul_le_mul_of_nonneg_left ap (abs_nonneg _)

/-- Common fact for the conformal shear: building and reading back is exact where both conversions
use the closed formula, and accurate to `1e-20` (relative) everywhere. -/
theorem g2eta_eta2g (η : ℝ) (h0 : 0 ≤ η) :
    (1/10000 < Real.tanh (0.5 * η) → Shear.eta2g η * Shear.g2eta (η * Shear.eta2g η) = 1) ∧
    |Shear.eta2g η * Shear.g2eta (η * Shear.eta2g η) - 1| ≤ 1/10^20 := by
  have tanh_le : Real.tanh (0.5 * η) ≤ 0.5 * η := by
    have h := Real.artanh_tanh (0.5 * η)
    have hm := (Real.tanh_bijOn.mapsTo (Set.mem_univ (0.5 * η)))
    by_contra hc
    push Not at hc
    -- sinh z / cosh z ≤ z
    have := Real.tanh_eq_sinh_div_cosh (0.5 * η)
    exact absurd hc (not_lt.mpr (tanh_le_self (by linarith)))
  have exact : 1/10000 < Real.tanh (0.5 * η) →
      Shear.eta2g η * Shear.g2eta (η * Shear.eta2g η) = 1 := by
    intro ht
    have hη : 1/10000 < η := by linarith
    have hη0 : η ≠ 0 := by linarith
    have e1 : Shear.eta2g η = Real.tanh (0.5 * η) / η := by unfold Shear.eta2g; rw [if_pos hη]
    have e2 : η * Shear.eta2g η = Real.tanh (0.5 * η) := by rw [e1]; field_simp
    rw [e2]
    unfold Shear.g2eta
    rw [if_pos ht, Real.artanh_tanh, e1]
    have : Real.tanh (0.5 * η) ≠ 0 := by linarith
    field_simp
    norm_num
  refine ⟨exact, ?_⟩
  by_cases ht : 1/10000 < Real.tanh (0.5 * η)
  · rw [exact ht]; norm_num
  · by_cases hη : η ≤ 1/10000
    · obtain ⟨_, _, b⟩ := eta_taylor η h0 hη
      refine b.trans ?_
      calc η ^ 6 ≤ (1/10000) ^ 6 := pow_le_pow_left₀ h0 hη 6
        _ ≤ 1/10^20 := by norm_num
    · push Not at hη ht
      have hη0 : η ≠ 0 := by linarith
      have e1 : Shear.eta2g η = Real.tanh (0.5 * η) / η := by unfold Shear.eta2g; rw [if_pos hη]
      have e2 : η * Shear.eta2g η = Real.tanh (0.5 * η) := by rw [e1]; field_simp
      have ht0 : 0 ≤ Real.tanh (0.5 * η) := tanh_nonneg (by linarith)
      have hb := artanh_taylor _ ht0 ht
      rw [Real.artanh_tanh] at hb
      rw [e2, e1]
      unfold Shear.g2eta
      rw [if_neg (by linarith)]
      set t := Real.tanh (0.5 * η)
      have e3 : t / η * (2 + t * t * (2 / 3 + t * t * 0.4)) - 1
          = -(2 * (0.5 * η) - t * (2 + t * t * (2 / 3 + t * t * 0.4))) / η := by
        field_simp; ring
      rw [e3, abs_div, abs_neg, abs_of_pos (by linarith : 0 < η), div_le_iff₀ (by linarith)]
      refine hb.trans ?_
      have h6 : t ^ 6 ≤ (1/10000) ^ 6 := pow_le_pow_left₀ ht0 ht 6
      have : 3 * t ^ 7 = 3 * t ^ 6 * t := by ring
      rw [this]
      have h7 : t ≤ η := by linarith
      have h8 : 3 * t ^ 6 * t ≤ 3 * (1/10000)^6 * η := by
        apply mul_le_mul (by linarith) h7 ht0 (by positivity)
      refine h8.trans ?_
      apply mul_le_mul_of_nonneg_right _ (by linarith)
      norm_num

/-- C10: `(eta1, eta2)` is always accepted and reads back: exactly when `|g| > 1e-4`, to relative
accuracy `1e-20` otherwise. -/
theorem C10_eta1eta2 (a b : ℝ) : ∃ s, Shear.ofEta a b = some s ∧
    (1/10000 < Real.tanh (0.5 * ‖(⟨a, b⟩ : ℂ)‖) → s.eta1 = a ∧ s.eta2 = b) ∧
    |s.eta1 - a| ≤ |a| * (1/10^20) ∧ |s.eta2 - b| ≤ |b| * (1/10^20) := by
  refine ⟨_, rfl, ?_⟩
  set η := ‖(⟨a, b⟩ : ℂ)‖ with hη
  obtain ⟨ex, ap⟩ := g2eta_eta2g η (norm_nonneg _)
  have hpos := eta2g_nonneg η (norm_nonneg _)
  have hre : ((⟨a, b⟩ : ℂ) * (Shear.eta2g η : ℂ)).re = a * Shear.eta2g η := by simp
  have him : ((⟨a, b⟩ : ℂ) * (Shear.eta2g η : ℂ)).im = b * Shear.eta2g η := by simp
  have habs : ‖((⟨a, b⟩ : ℂ) * (Shear.eta2g η : ℂ))‖ = η * Shear.eta2g η := by
    rw [norm_mul, Complex.norm_real, Real.norm_eq_abs, abs_of_nonneg hpos]
  simp only [Shear.eta1, Shear.eta2, Shear.absg]
  rw [habs, hre, him, mul_assoc, mul_assoc]
  set K := Shear.eta2g η * Shear.g2eta (η * Shear.eta2g η)
  refine ⟨fun hx => by rw [ex hx]; simp, ?_, ?_⟩
  · have : a * K - a = a * (K - 1) := by ring
    rw [this, abs_mul]
    exact mul_le_mul_of_nonneg_left ap (abs_nonneg _)
  · have : b * K - b = b * (K - 1) := by ring
    rw [this, abs_mul]
    exact mul_le_mul_of_nonneg_left ap (abs_nonneg _)

/-- C10: `(g, beta)` reads back `g`, and `beta` up to half-turns (in `(-π/2, π/2]`). -/
theorem C10_g_beta (g : ℝ) (β : Angle) (h0 : 0 ≤ g) (h1 : g ≤ 1) : ∃ s, Shear.ofGB g β = some s ∧
    s.absg = g ∧ (0 < g → (∃ n : ℤ, s.beta.rad = β.rad + n * Real.pi) ∧
      -(Real.pi / 2) < s.beta.rad ∧ s.beta.rad ≤ Real.pi / 2) := by
  refine ⟨_, by unfold Shear.ofGB; rw [if_neg (by push Not; exact ⟨h1, h0⟩)], ?_, ?_⟩
  · simp only [Shear.absg, norm_mul, norm_phase, Complex.norm_real, Real.norm_eq_abs, mul_one]
    exact abs_of_nonneg h0
  · intro hg
    simp only [Shear.beta]
    have ha : ((g : ℂ) * Shear.phase β).arg = (Shear.phase β).arg := Complex.arg_real_mul _ hg
    rw [ha]
    have hl := Complex.neg_pi_lt_arg (Shear.phase β)
    have hu := Complex.arg_le_pi (Shear.phase β)
    refine ⟨?_, by linarith, by linarith⟩
    have e : Shear.phase β = Complex.exp (((2 * β.rad : ℝ) : ℂ) * I) := by
      unfold Shear.phase; congr 1; push_cast; ring
    have := Complex.arg_exp_mul_I (2 * β.rad)
    rw [e, this]
    obtain ⟨n, hn⟩ : ∃ n : ℤ, toIocMod Real.two_pi_pos (-Real.pi) (2 * β.rad)
        = 2 * β.rad - n * (2 * Real.pi) := by
      refine ⟨toIocDiv Real.two_pi_pos (-Real.pi) (2 * β.rad), ?_⟩
      have := toIocMod_add_toIocDiv_zsmul Real.two_pi_pos (-Real.pi) (2 * β.rad)
      rw [zsmul_eq_mul] at this
      linarith
    refine ⟨-n, ?_⟩
    rw [hn]; push_cast; ring

/-- C10: `(e, beta)`, `(eta, beta)`, `(q, beta)`: accepted on the documented domain; `e` reads back
exactly above the switch-over and within `e^9` otherwise; `eta` within a relative `1e-20`. -/
theorem C10_e_eta_beta (v : ℝ) (β : Angle) :
    (0 ≤ v → v ≤ 1 → ∃ s, Shear.ofEB v β = some s ∧ (1/10000 < v ^ 2 → s.e = v) ∧
      |s.e - v| ≤ v ^ 9) ∧
    (0 ≤ v → ∃ s, Shear.ofEtaB v β = some s ∧
      (1/10000 < Real.tanh (0.5 * v) → s.eta = v) ∧ |s.eta - v| ≤ v * (1/10^20)) := by
  constructor
  · intro h0 h1
    refine ⟨_, by unfold Shear.ofEB; rw [if_neg (by push Not; exact ⟨h1, h0⟩)], ?_⟩
    obtain ⟨ex, ap⟩ := g2e_e2g (v ^ 2) (by positivity) (by nlinarith)
    have hp := e2g_nonneg (v ^ 2) (by positivity)
    have habs : ‖(Shear.e2g (v ^ 2) : ℂ) * v * Shear.phase β‖ = v * Shear.e2g (v ^ 2) := by
      rw [norm_mul, norm_mul, norm_phase, Complex.norm_real, Complex.norm_real, Real.norm_eq_abs,
        Real.norm_eq_abs, abs_of_nonneg hp, abs_of_nonneg h0]; ring
    simp only [Shear.e, Shear.absg]
    rw [habs]
    have e : v * Shear.e2g (v ^ 2) * Shear.g2e ((v * Shear.e2g (v ^ 2)) ^ 2)
        = v * (Shear.e2g (v ^ 2) * Shear.g2e (v ^ 2 * Shear.e2g (v ^ 2) ^ 2)) := by
      rw [mul_pow]; ring
    rw [e]
    refine ⟨fun hx => by rw [ex hx]; simp, ?_⟩
    set K := Shear.e2g (v ^ 2) * Shear.g2e (v ^ 2 * Shear.e2g (v ^ 2) ^ 2)
    have : v * K - v = v * (K - 1) := by ring
    rw [this, abs_mul, abs_of_nonneg h0]
    calc v * |K - 1| ≤ v * (v ^ 2) ^ 4 := mul_le_mul_of_nonneg_left ap h0
      _ = v ^ 9 := by ring
  · intro h0
    refine ⟨_, by unfold Shear.ofEtaB; rw [if_neg (by push Not; exact h0)], ?_⟩
    obtain ⟨ex, ap⟩ := g2eta_eta2g v h0
    have hp := eta2g_nonneg v h0
    have habs : ‖(Shear.eta2g v : ℂ) * v * Shear.phase β‖ = v * Shear.eta2g v := by
      rw [norm_mul, norm_mul, norm_phase, Complex.norm_real, Complex.norm_real, Real.norm_eq_abs,
        Real.norm_eq_abs, abs_of_nonneg hp, abs_of_nonneg h0]; ring
    simp only [Shear.eta, Shear.absg]
    rw [habs, mul_assoc]
    refine ⟨fun hx => by rw [ex hx]; simp, ?_⟩
    set K := Shear.eta2g v * Shear.g2eta (v * Shear.eta2g v)
    have : v * K - v = v * (K - 1) := by ring
    rw [this, abs_mul, abs_of_nonneg h0]
    exact mul_le_mul_of_nonneg_left ap h0

/-- C10: `(q, beta)` reads back `q` exactly unless `q` is within `1e-4` of 1 (in logarithm). -/
theorem C10_q_beta (q : ℝ) (β : Angle) (h0 : 0 < q) (h1 : q ≤ 1) : ∃ s, Shear.ofQB q β = some s ∧
    (1/10000 < -Real.log q → s.q = q) := by
  refine ⟨_, by unfold Shear.ofQB; rw [if_neg (by push Not; exact ⟨h0, h1⟩)], ?_⟩
  intro hq
  set η := -Real.log q with hη
  have hη0 : 0 < η := by linarith
  have hp := eta2g_nonneg η hη0.le
  have habs : ‖(Shear.eta2g η : ℂ) * (η : ℂ) * Shear.phase β‖ = η * Shear.eta2g η := by
    rw [norm_mul, norm_mul, norm_phase, Complex.norm_real, Complex.norm_real, Real.norm_eq_abs,
      Real.norm_eq_abs, abs_of_nonneg hp, abs_of_nonneg hη0.le]; ring
  simp only [Shear.q, Shear.absg]
  rw [habs]
  have e1 : η * Shear.eta2g η = Real.tanh (0.5 * η) := by
    unfold Shear.eta2g; rw [if_pos hq]; field_simp
  rw [e1, Real.tanh_eq]
  have hx1 : Real.exp (0.5 * η) ^ 2 = q⁻¹ := by
    rw [← Real.exp_nat_mul]
    have : ((2:ℕ):ℝ) * (0.5 * η) = -Real.log q := by rw [hη]; push_cast; ring
    rw [this, Real.exp_neg, Real.exp_log h0]
  have hx2 : Real.exp (-(0.5 * η)) = (Real.exp (0.5 * η))⁻¹ := Real.exp_neg _
  rw [hx2]
  set E := Real.exp (0.5 * η) with hE
  have hE0 : 0 < E := Real.exp_pos _
  have hd : 0 < E + E⁻¹ := by positivity
  have : q = (E ^ 2)⁻¹ := by rw [hx1]; simp
  rw [this]
  field_simp
  ring

/-- C10: `|g| < 1` iff `|e| < 1`; and the axis ratio is the ratio of the eigenvalues of the shear
matrix (which are positive). -/
theorem C10_legal_iff (s : Shear) : (s.absg < 1 → s.e < 1) ∧ (s.absg = 1 → s.e = 1) := by
  have h0 := norm_nonneg s.g
  unfold Shear.e Shear.g2e
  constructor
  · intro h
    have hd : 0 < 1 + s.absg ^ 2 := by positivity
    rw [mul_div_assoc', div_lt_one hd]
    nlinarith [sq_nonneg (1 - s.absg), mul_pos (sub_pos.mpr h) (sub_pos.mpr h)]
  · intro h; rw [h]; norm_num

/-- C10: the shear matrix stretches by `√((1+g)/(1-g))` along one axis and by its inverse along the
perpendicular one; `q` is the ratio of the two. -/
theorem C10_q_axis_ratio (s : Shear) (h : s.absg < 1) :
    ∃ lp lm : ℝ, 0 < lm ∧ 0 < lp ∧ lp * lm = s.matrix.det ∧ lp + lm = s.matrix.a + s.matrix.d ∧
      s.q = lm / lp := by
  have h0 := norm_nonneg s.g
  have hn : 0 < 1 - s.absg ^ 2 := by
    have := sq_lt_one_of h0 h
    unfold Shear.absg at *; linarith
  have hr := Real.sqrt_pos.mpr hn
  have hr2 := Real.sq_sqrt hn.le
  have hsq : s.absg ^ 2 = s.g.re ^ 2 + s.g.im ^ 2 := normsq_re_im _
  have h0' : 0 ≤ s.absg := h0
  refine ⟨(1 + s.absg) / Real.sqrt (1 - s.absg ^ 2), (1 - s.absg) / Real.sqrt (1 - s.absg ^ 2),
    div_pos (by linarith) hr, div_pos (by linarith) hr, ?_, ?_, ?_⟩
  · simp only [Shear.matrix, Mat2.det, Shear.g1, Shear.g2]
    field_simp
    nlinarith
  · simp only [Shear.matrix, Shear.g1]
    field_simp
    ring
  · unfold Shear.q
    have : 1 + s.absg ≠ 0 := by linarith
    field_simp

/-- Specification: `s` has position angle `β` (modulo half a turn), reported in `(-π/2, π/2]`. -/
def HasBeta (s : Shear) (β : Angle) : Prop :=
  (∃ n : ℤ, s.beta.rad = β.rad + n * Real.pi) ∧ -(Real.pi / 2) < s.beta.rad ∧ s.beta.rad ≤ Real.pi / 2

theorem hasBeta_of_pos (r : ℝ) (β : Angle) (hr : 0 < r) : HasBeta ⟨(r : ℂ) * Shear.phase β⟩ β := by
  have hl := Complex.neg_pi_lt_arg (Shear.phase β)
  have hu := Complex.arg_le_pi (Shear.phase β)
  have ha : ((r : ℂ) * Shear.phase β).arg = (Shear.phase β).arg := Complex.arg_real_mul _ hr
  unfold HasBeta
  simp only [Shear.beta]
  rw [ha]
  refine ⟨?_, by linarith, by linarith⟩
  have e : Shear.phase β = Complex.exp (((2 * β.rad : ℝ) : ℂ) * I) := by
    unfold Shear.phase; congr 1; push_cast; ring
  rw [e, Complex.arg_exp_mul_I (2 * β.rad)]
  refine ⟨-toIocDiv Real.two_pi_pos (-Real.pi) (2 * β.rad), ?_⟩
  have := toIocMod_add_toIocDiv_zsmul Real.two_pi_pos (-Real.pi) (2 * β.rad)
  rw [zsmul_eq_mul] at this
  push_cast
  linarith

theorem e2g_pos (x : ℝ) (h : 0 ≤ x) : 0 < Shear.e2g x := by
  unfold Shear.e2g
  split
  · have := Real.sqrt_nonneg (1 - x); positivity
  · positivity

theorem eta2g_pos (x : ℝ) (h : 0 < x) : 0 < Shear.eta2g x := by
  unfold Shear.eta2g
  split
  · have : 0 < Real.tanh (0.5 * x) := by
      rw [Real.tanh_eq_sinh_div_cosh]
      exact div_pos (Real.sinh_pos_iff.mpr (by linarith)) (Real.cosh_pos _)
    positivity
  · rename_i hx
    push Not at hx
    have h2 : x * x ≤ 1 := by nlinarith
    have h3 : 0 ≤ x * x := by positivity
    nlinarith

/-- C10: the position angle given with `e`, `eta` or `q` reads back (modulo half a turn). -/
theorem C10_beta (v : ℝ) (β : Angle) :
    (0 < v → v ≤ 1 → ∃ s, Shear.ofEB v β = some s ∧ HasBeta s β) ∧
    (0 < v → ∃ s, Shear.ofEtaB v β = some s ∧ HasBeta s β) ∧
    (0 < v → v < 1 → ∃ s, Shear.ofQB v β = some s ∧ HasBeta s β) := by
  refine ⟨fun h0 h1 => ⟨_, by unfold Shear.ofEB; rw [if_neg (by push Not; exact ⟨h1, h0.le⟩)], ?_⟩,
    fun h0 => ⟨_, by unfold Shear.ofEtaB; rw [if_neg (not_lt.mpr h0.le)], ?_⟩,
    fun h0 h1 => ⟨_, by unfold Shear.ofQB; rw [if_neg (by push Not; exact ⟨h0, h1.le⟩)], ?_⟩⟩
  · rw [← Complex.ofReal_mul]
    exact hasBeta_of_pos _ _ (mul_pos (e2g_pos _ (by positivity)) h0)
  · rw [← Complex.ofReal_mul]
    exact hasBeta_of_pos _ _ (mul_pos (eta2g_pos _ h0) h0)
  · have hl : 0 < -Real.log v := by have := Real.log_neg h0 h1; linarith
    rw [← Complex.ofReal_mul]
    exact hasBeta_of_pos _ _ (mul_pos (eta2g_pos _ hl) hl)

/-- C10: `g1g2_to_e1e2` returns the `(e1, e2)` of the shear with these `(g1, g2)`. -/
theorem C10_g1g2_to_e1e2 (s : Shear) : g1g2ToE1e2 s.g1 s.g2 = (s.e1, s.e2) := by
  have hsq : s.absg ^ 2 = s.g.re ^ 2 + s.g.im ^ 2 := normsq_re_im _
  have h0 : 0 ≤ s.absg := norm_nonneg _
  have hg : s.g1 * s.g1 + s.g2 * s.g2 = s.absg ^ 2 := by rw [hsq, Shear.g1, Shear.g2]; ring
  unfold g1g2ToE1e2
  simp only [hg]
  by_cases hz : s.absg ^ 2 = 0
  · rw [if_pos hz]
    have h1 : s.g.re = 0 := by nlinarith [sq_nonneg s.g.re, sq_nonneg s.g.im]
    have h2 : s.g.im = 0 := by nlinarith [sq_nonneg s.g.re, sq_nonneg s.g.im]
    simp [Shear.e1, Shear.e2, h1, h2]
  · rw [if_neg hz, Real.sqrt_sq h0]
    have hp : s.absg ≠ 0 := fun h => hz (by rw [h]; norm_num)
    have hq : 1 + s.absg ≠ 0 := by linarith
    have e : (1 - (1 - s.absg) / (1 + s.absg) * ((1 - s.absg) / (1 + s.absg))) /
        (1 + (1 - s.absg) / (1 + s.absg) * ((1 - s.absg) / (1 + s.absg))) / s.absg = 2 / (1 + s.absg ^ 2) := by
      have e1 : 1 + (1 - s.absg) / (1 + s.absg) * ((1 - s.absg) / (1 + s.absg)) =
          2 * (1 + s.absg ^ 2) / (1 + s.absg) ^ 2 := by field_simp; ring
      have e2 : 1 - (1 - s.absg) / (1 + s.absg) * ((1 - s.absg) / (1 + s.absg)) =
          4 * s.absg / (1 + s.absg) ^ 2 := by field_simp; ring
      have h1 : 1 + s.absg ^ 2 ≠ 0 := by positivity
      rw [e1, e2]
      field_simp
      ring
    rw [e]
    rfl

/-- C10: the shear matrix stretches by `√((1+g)/(1-g))` along the direction of `beta` and by the inverse across it. -/
theorem C10_matrix_axes (s : Shear) (h : s.absg < 1) :
    s.matrix.app (Real.cos s.beta.rad, Real.sin s.beta.rad) =
      (Real.sqrt ((1 + s.absg) / (1 - s.absg)) * Real.cos s.beta.rad,
       Real.sqrt ((1 + s.absg) / (1 - s.absg)) * Real.sin s.beta.rad) ∧
    s.matrix.app (-Real.sin s.beta.rad, Real.cos s.beta.rad) =
      (-(Real.sqrt ((1 - s.absg) / (1 + s.absg)) * Real.sin s.beta.rad),
       Real.sqrt ((1 - s.absg) / (1 + s.absg)) * Real.cos s.beta.rad) := by
  have h0 : 0 ≤ s.absg := norm_nonneg _
  have hp : 0 < 1 - s.absg := by linarith
  have hq : 0 < 1 + s.absg := by linarith
  have hn : (1 - s.absg ^ 2) = (1 + s.absg) * (1 - s.absg) := by ring
  have hr := Real.sqrt_pos.mpr hp
  have hr' := Real.sqrt_pos.mpr hq
  have q1 := Real.sq_sqrt hp.le
  have q2 := Real.sq_sqrt hq.le
  set a := Real.sqrt (1 - s.absg)
  set b := Real.sqrt (1 + s.absg)
  have hre : s.g.re = s.absg * (Real.cos s.beta.rad ^ 2 - Real.sin s.beta.rad ^ 2) := by
    have := Complex.norm_mul_cos_arg s.g
    rw [← this, ← Real.cos_two_mul', Shear.beta]
    congr 2; ring
  have him : s.g.im = s.absg * (2 * Real.sin s.beta.rad * Real.cos s.beta.rad) := by
    have := Complex.norm_mul_sin_arg s.g
    rw [← this, ← Real.sin_two_mul, Shear.beta]
    congr 2; ring
  have hcs := Real.sin_sq_add_cos_sq s.beta.rad
  set c := Real.cos s.beta.rad
  set d := Real.sin s.beta.rad
  have e1 : Real.sqrt (1 - s.absg ^ 2) = b * a := by rw [hn, Real.sqrt_mul hq.le]
  rw [Real.sqrt_div hq.le, Real.sqrt_div hp.le]
  simp only [Shear.matrix, Mat2.app, Shear.g1, Shear.g2, e1, hre, him, Prod.mk.injEq]
  have ha : a ≠ 0 := hr.ne'
  have hb : b ≠ 0 := hr'.ne'
  have k1 : s.absg = b ^ 2 - 1 := by linarith
  have k2 : a ^ 2 = 2 - b ^ 2 := by linarith
  have k3 : c ^ 2 = 1 - d ^ 2 := by linarith
  refine ⟨⟨?_, ?_⟩, ?_, ?_⟩
  · change (1 + s.absg * (c ^ 2 - d ^ 2)) / (b * a) * c + s.absg * (2 * d * c) / (b * a) * d = b / a * c
    field_simp
    linear_combination c * ((s.absg) * hcs - q2)
  · change s.absg * (2 * d * c) / (b * a) * c + (1 - s.absg * (c ^ 2 - d ^ 2)) / (b * a) * d = b / a * d
    field_simp
    linear_combination d * ((s.absg) * hcs - q2)
  · change (1 + s.absg * (c ^ 2 - d ^ 2)) / (b * a) * -d + s.absg * (2 * d * c) / (b * a) * c = -(a / b * d)
    field_simp
    linear_combination d * ((s.absg) * hcs + q1)
  · change s.absg * (2 * d * c) / (b * a) * -d + (1 - s.absg * (c ^ 2 - d ^ 2)) / (b * a) * c = a / b * c
    field_simp
    linear_combination c * ((-s.absg) * hcs - q1)

/-! ### C11 -/

/-- Specification: matrix of a rotation by an angle. -/
noncomputable def rotMat (a : Angle) : Mat2 :=
  ⟨Real.cos a.rad, -Real.sin a.rad, Real.sin a.rad, Real.cos a.rad⟩

/-- C11: legal shears are closed under addition. -/
theorem C11_closed (s t : Shear) (hs : s.absg < 1) (ht : t.absg < 1) : (s.add t).absg < 1 := by
  have h := one_sub_add s t hs ht
  have h1 : s.g.re ^ 2 + s.g.im ^ 2 < 1 := by
    rw [← normsq_re_im]; exact sq_lt_one_of (norm_nonneg _) hs
  have h2 : t.g.re ^ 2 + t.g.im ^ 2 < 1 := by
    rw [← normsq_re_im]; exact sq_lt_one_of (norm_nonneg _) ht
  have hW := W_pos _ _ _ _ h1 h2
  have p : 0 < 1 - (s.add t).absg ^ 2 := by
    rw [h]
    refine div_pos (mul_pos ?_ ?_) hW
    · have := sq_lt_one_of (norm_nonneg _) hs; unfold Shear.absg; linarith
    · have := sq_lt_one_of (norm_nonneg _) ht; unfold Shear.absg; linarith
  have h0 : 0 ≤ (s.add t).absg := norm_nonneg _
  nlinarith

/-- C11: every legal shear matrix has determinant 1. -/
theorem C11_det (s : Shear) (hs : s.absg < 1) : s.matrix.det = 1 := by
  have hn : 0 < 1 - s.absg ^ 2 := by
    have := sq_lt_one_of (norm_nonneg _) hs; unfold Shear.absg; linarith
  have hr := Real.sqrt_pos.mpr hn
  have hr2 := Real.sq_sqrt hn.le
  have hsq : s.absg ^ 2 = s.g.re ^ 2 + s.g.im ^ 2 := normsq_re_im _
  simp only [Shear.matrix, Mat2.det, Shear.g1, Shear.g2]
  field_simp
  rw [hr2, hsq]; ring

/-- The product of two shear matrices in terms of the sum and an explicit rotation. -/
theorem matrix_mul (s t : Shear) (hs : s.absg < 1) (ht : t.absg < 1) :
    ∃ c d : ℝ, c ^ 2 + d ^ 2 = 1 ∧ s.matrix.mul t.matrix = (s.add t).matrix.mul ⟨c, -d, d, c⟩ := by
  have h := one_sub_add s t hs ht
  have h1 : s.g.re ^ 2 + s.g.im ^ 2 < 1 := by
    rw [← normsq_re_im]; exact sq_lt_one_of (norm_nonneg _) hs
  have h2 : t.g.re ^ 2 + t.g.im ^ 2 < 1 := by
    rw [← normsq_re_im]; exact sq_lt_one_of (norm_nonneg _) ht
  have hW := W_pos _ _ _ _ h1 h2
  obtain ⟨e1, e2⟩ := add_components s t
  set a := s.g.re
  set b := s.g.im
  set c := t.g.re
  set d := t.g.im
  set W1 := 1 + a * c + b * d with hW1
  set W2 := b * c - a * d with hW2
  set W := W1 ^ 2 + W2 ^ 2 with hWd
  have p1 : 0 < 1 - s.absg ^ 2 := by
    have := sq_lt_one_of (norm_nonneg _) hs; unfold Shear.absg; linarith
  have p2 : 0 < 1 - t.absg ^ 2 := by
    have := sq_lt_one_of (norm_nonneg _) ht; unfold Shear.absg; linarith
  have hn3 : Real.sqrt (1 - (s.add t).absg ^ 2)
      = Real.sqrt (1 - s.absg ^ 2) * Real.sqrt (1 - t.absg ^ 2) / Real.sqrt W := by
    rw [h, Real.sqrt_div (mul_pos p1 p2).le, Real.sqrt_mul p1.le]
  have r1 := Real.sqrt_pos.mpr p1
  have r2 := Real.sqrt_pos.mpr p2
  have rW := Real.sqrt_pos.mpr hW
  have rW2 := Real.sq_sqrt hW.le
  set n1 := Real.sqrt (1 - s.absg ^ 2)
  set n2 := Real.sqrt (1 - t.absg ^ 2)
  set w := Real.sqrt W
  refine ⟨W1 / w, W2 / w, ?_, ?_⟩
  · rw [div_pow, div_pow, ← add_div, rW2]; exact div_self hW.ne'
  · have k1 : (s.add t).g.re * W1 + (s.add t).g.im * W2 = a + c := by
      rw [e1, e2]; field_simp; rw [hWd]; ring
    have k2 : (s.add t).g.im * W1 - (s.add t).g.re * W2 = b + d := by
      rw [e1, e2]; field_simp; rw [hWd]; ring
    apply Mat2.ext'
    all_goals
      simp only [Shear.matrix, Mat2.mul, Shear.g1, Shear.g2]
      rw [hn3]
      field_simp
    · linear_combination (n1 * n2) * ((-1) * k1 - hW1)
    · linear_combination (n1 * n2) * ((-1) * k2 + hW2)
    · linear_combination (n1 * n2) * ((-1) * k2 - hW2)
    · linear_combination (n1 * n2) * (k1 - hW1)

/-- C11: `s1 + s2` followed by the reported rotation reproduces the product of the matrices:
`M(s1) M(s2) = M(s1 + s2) R(s1.rotationWith(s2))`. -/
theorem C11_composition (s t : Shear) (hs : s.absg < 1) (ht : t.absg < 1) :
    s.matrix.mul t.matrix = (s.add t).matrix.mul (rotMat (s.rotationWith t)) := by
  obtain ⟨c, d, hcd, hM⟩ := matrix_mul s t hs ht
  have hcl := C11_closed s t hs ht
  have hn : 0 < 1 - (s.add t).absg ^ 2 := by
    have := sq_lt_one_of (norm_nonneg _) hcl; unfold Shear.absg; linarith
  have hr := Real.sqrt_pos.mpr hn
  have hr2 := Real.sq_sqrt hn.le
  have hsq : (s.add t).absg ^ 2 = (s.add t).g.re ^ 2 + (s.add t).g.im ^ 2 := normsq_re_im _
  have hneg : (s.add t).neg.absg = (s.add t).absg := by simp [Shear.absg, Shear.neg]
  -- first column of R
  have hR : ((s.add t).neg).matrix.app (s.matrix.app (t.matrix.a, t.matrix.c)) = (c, d) := by
    have c1 : s.matrix.app (t.matrix.a, t.matrix.c)
        = ((s.matrix.mul t.matrix).a, (s.matrix.mul t.matrix).c) := rfl
    rw [c1, hM]
    simp only [Mat2.app, Mat2.mul, Shear.matrix, hneg, Shear.g1, Shear.g2]
    have f1 : (s.add t).neg.g.re = -(s.add t).g.re := by simp [Shear.neg]
    have f2 : (s.add t).neg.g.im = -(s.add t).g.im := by simp [Shear.neg]
    rw [f1, f2]
    rw [hsq] at hr2
    set n := Real.sqrt (1 - (s.add t).absg ^ 2) with hnn
    have hr2' : n ^ 2 = 1 - ((s.add t).g.re ^ 2 + (s.add t).g.im ^ 2) := by
      rw [hnn, hsq]; exact hr2
    ext
    · simp only
      field_simp
      linear_combination (-c) * hr2'
    · simp only
      field_simp
      linear_combination (-d) * hr2'
  have hθ : (s.rotationWith t).rad = Complex.arg ⟨c, d⟩ := by
    simp only [Shear.rotationWith, hR, arctan2, radians, mul_one]
  have hnorm : ‖(⟨c, d⟩ : ℂ)‖ = 1 := by
    have := normsq_re_im (⟨c, d⟩ : ℂ)
    rw [hcd] at this
    have h0 := norm_nonneg (⟨c, d⟩ : ℂ)
    nlinarith
  have hne : (⟨c, d⟩ : ℂ) ≠ 0 := by
    intro h; rw [h] at hnorm; simp at hnorm
  have hcos : Real.cos (s.rotationWith t).rad = c := by
    rw [hθ, Complex.cos_arg hne, hnorm]; simp
  have hsin : Real.sin (s.rotationWith t).rad = d := by
    rw [hθ, Complex.sin_arg, hnorm]; simp
  rw [hM, rotMat, hcos, hsin]

/-- C11: subtraction undoes the second shear on the right: `S_s` after the inverse of `S_t` is the shear
`s - t` after a rotation. -/
theorem C11_subtraction (s t : Shear) (hs : s.absg < 1) (ht : t.absg < 1) :
    s.matrix.mul t.neg.matrix = (s.sub t).matrix.mul (rotMat (s.rotationWith t.neg)) ∧
      (s.sub t).g = (s.g - t.g) / (1 - (starRingEnd ℂ) s.g * t.g) := by
  have hn : t.neg.absg < 1 := by simpa [Shear.absg, Shear.neg] using ht
  refine ⟨C11_composition s t.neg hs hn, ?_⟩
  simp only [Shear.sub, Shear.add, Shear.neg, mul_neg, ← sub_eq_add_neg]

/-- C11: the zero shear is neutral on both sides, and `-s` is the inverse of `s`. -/
theorem C11_group (s : Shear) (hs : s.absg < 1) :
    s.add ⟨0⟩ = s ∧ Shear.add ⟨0⟩ s = s ∧ s.add s.neg = ⟨0⟩ ∧ s.sub s = ⟨0⟩ ∧
      s.neg.matrix.mul s.matrix = ⟨1, 0, 0, 1⟩ := by
  refine ⟨?_, ?_, ?_, ?_, ?_⟩
  · simp [Shear.add]
  · simp [Shear.add]
  · simp [Shear.add, Shear.neg]
  · simp [Shear.sub, Shear.add, Shear.neg]
  · have hn : 0 < 1 - s.absg ^ 2 := by
      have := sq_lt_one_of (norm_nonneg _) hs; unfold Shear.absg; linarith
    have hr := Real.sqrt_pos.mpr hn
    have hr2 := Real.sq_sqrt hn.le
    have hsq : s.absg ^ 2 = s.g.re ^ 2 + s.g.im ^ 2 := normsq_re_im _
    have hneg : s.neg.absg = s.absg := by simp [Shear.absg, Shear.neg]
    apply Mat2.ext'
    all_goals
      simp only [Shear.matrix, Mat2.mul, Shear.g1, Shear.g2, hneg]
      simp only [Shear.neg, Complex.neg_re, Complex.neg_im]
      field_simp
      try rw [hr2, hsq]
      ring

/-- Disagreement (boundary): `|g| = 1` is accepted, but its matrix divides by zero
(in exact arithmetic with `x/0 = 0` the matrix has determinant 0, in floats it is infinite/nan). -/
theorem C11_boundary_counterexample : ∃ s, Shear.ofG 1 0 = some s ∧
    Real.sqrt (1 - s.absg ^ 2) = 0 := by
  refine ⟨⟨⟨1, 0⟩⟩, ?_, ?_⟩
  · unfold Shear.ofG
    have : ‖(⟨1, 0⟩ : ℂ)‖ = 1 := by
      have : (⟨1, 0⟩ : ℂ) = 1 := rfl
      rw [this]; simp
    rw [this]; simp
  · have : ‖(⟨1, 0⟩ : ℂ)‖ = 1 := by
      have : (⟨1, 0⟩ : ℂ) = 1 := rfl
      rw [this]; simp
    simp [Shear.absg, this]

-- instances of the hypotheses
example : (Shear.mk ⟨0.3, -0.4⟩).absg < 1 := by
  have h := normsq_re_im (⟨0.3, -0.4⟩ : ℂ)
  have h0 := norm_nonneg (⟨0.3, -0.4⟩ : ℂ)
  simp only [Shear.absg]
  nlinarith
example : (0.3:ℝ) ^ 2 + (-0.4) ^ 2 ≤ 1 ∧ (1:ℝ)/10000 < 0.3 ^ 2 + (-0.4) ^ 2 := by norm_num
example : (1:ℝ)/10000 < -Real.log (Real.exp (-1)) := by rw [Real.log_exp]; norm_num

end JG
