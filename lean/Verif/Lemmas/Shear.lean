import Verif.Model.Shear
import Mathlib.Tactic.Linarith
import Mathlib.Tactic.Ring
import Mathlib.Tactic.FieldSimp
import Mathlib.Tactic.LinearCombination
import Mathlib.Analysis.SpecialFunctions.Log.Deriv
import Mathlib.Analysis.SpecialFunctions.Trigonometric.DerivHyp

/-! Helper lemmas for shears. -/

namespace JG
open Complex

theorem normsq_re_im (z : ℂ) : ‖z‖ ^ 2 = z.re ^ 2 + z.im ^ 2 := by
  rw [Complex.sq_norm, Complex.normSq_apply]; ring

theorem Mat2.ext' {m n : Mat2} (h1 : m.a = n.a) (h2 : m.b = n.b) (h3 : m.c = n.c) (h4 : m.d = n.d) :
    m = n := by cases m; cases n; simp_all

/-- Components of the sum of shears. -/
theorem add_components (s t : Shear) :
    let W1 := 1 + s.g.re * t.g.re + s.g.im * t.g.im
    let W2 := s.g.im * t.g.re - s.g.re * t.g.im
    let W := W1 ^ 2 + W2 ^ 2
    (s.add t).g.re = ((s.g.re + t.g.re) * W1 - (s.g.im + t.g.im) * W2) / W ∧
    (s.add t).g.im = ((s.g.re + t.g.re) * W2 + (s.g.im + t.g.im) * W1) / W := by
  intro W1 W2 W
  have hre : (1 + (starRingEnd ℂ) s.g * t.g).re = W1 := by simp [W1]; ring
  have him : (1 + (starRingEnd ℂ) s.g * t.g).im = -W2 := by simp [W2]; ring
  have hns : Complex.normSq (1 + (starRingEnd ℂ) s.g * t.g) = W := by
    rw [Complex.normSq_apply, hre, him]; ring
  simp only [Shear.add]
  rw [Complex.div_re, Complex.div_im, hns, hre, him]
  simp only [Complex.add_re, Complex.add_im]
  constructor <;> ring

theorem W_pos (a b c d : ℝ) (h1 : a ^ 2 + b ^ 2 < 1) (h2 : c ^ 2 + d ^ 2 < 1) :
    0 < (1 + a * c + b * d) ^ 2 + (b * c - a * d) ^ 2 := by
  have e : (1 + a * c + b * d) ^ 2 + (b * c - a * d) ^ 2
      = ((a + c) ^ 2 + (b + d) ^ 2) + (1 - (a ^ 2 + b ^ 2)) * (1 - (c ^ 2 + d ^ 2)) := by ring
  rw [e]
  have := mul_pos (sub_pos.mpr h1) (sub_pos.mpr h2)
  positivity

theorem one_sub_aux (a b c d W1 W2 W : ℝ) (h1 : W1 = 1 + a * c + b * d) (h2 : W2 = b * c - a * d)
    (hW : W = W1 ^ 2 + W2 ^ 2) (h0 : W ≠ 0) :
    1 - ((((a + c) * W1 - (b + d) * W2) / W) ^ 2 + (((a + c) * W2 + (b + d) * W1) / W) ^ 2)
      = (1 - (a ^ 2 + b ^ 2)) * (1 - (c ^ 2 + d ^ 2)) / W := by
  have e1 : (((a + c) * W1 - (b + d) * W2) / W) ^ 2 + (((a + c) * W2 + (b + d) * W1) / W) ^ 2
      = ((a + c) ^ 2 + (b + d) ^ 2) * (W1 ^ 2 + W2 ^ 2) / W ^ 2 := by
    rw [div_pow, div_pow, ← add_div]; congr 1; ring
  rw [e1, ← hW]
  have e2 : (1 - (a ^ 2 + b ^ 2)) * (1 - (c ^ 2 + d ^ 2)) = W - ((a + c) ^ 2 + (b + d) ^ 2) := by
    rw [hW, h1, h2]; ring
  rw [e2]
  field_simp

/-- `1 - |g3|² = (1-|g1|²)(1-|g2|²)/|1+ḡ1 g2|²`. -/
theorem one_sub_add (s t : Shear) (hs : s.absg < 1) (ht : t.absg < 1) :
    1 - (s.add t).absg ^ 2 = (1 - s.absg ^ 2) * (1 - t.absg ^ 2) /
      ((1 + s.g.re * t.g.re + s.g.im * t.g.im) ^ 2 + (s.g.im * t.g.re - s.g.re * t.g.im) ^ 2) := by
  have h1 : s.g.re ^ 2 + s.g.im ^ 2 < 1 := by
    rw [← normsq_re_im]; have := norm_nonneg s.g; unfold Shear.absg at hs; nlinarith
  have h2 : t.g.re ^ 2 + t.g.im ^ 2 < 1 := by
    rw [← normsq_re_im]; have := norm_nonneg t.g; unfold Shear.absg at ht; nlinarith
  have hW := W_pos _ _ _ _ h1 h2
  obtain ⟨e1, e2⟩ := add_components s t
  simp only [Shear.absg, normsq_re_im]
  rw [e1, e2]
  exact one_sub_aux _ _ _ _ _ _ _ rfl rfl rfl hW.ne'

theorem sq_lt_one_of {x : ℝ} (h0 : 0 ≤ x) (h : x < 1) : x ^ 2 < 1 := by nlinarith

/-- Residual bound for the Taylor branch of `_e2g`. -/
theorem e2g_taylor (x : ℝ) (h0 : 0 ≤ x) (h1 : x ≤ 1/10000) :
    |x * Shear.e2g x ^ 2 - 2 * Shear.e2g x + 1| ≤ x ^ 4 ∧ 1/2 ≤ Shear.e2g x ∧ Shear.e2g x ≤ 0.51 := by
  unfold Shear.e2g
  rw [if_neg (by linarith)]
  have e : x * (0.5 + x * (0.125 + x * (0.0625 + x * 0.0390625))) ^ 2
      - 2 * (0.5 + x * (0.125 + x * (0.0625 + x * 0.0390625))) + 1
      = x ^ 4 * (0.0546875 + x * (0.013671875 + x * (0.0048828125 + x * 0.00152587890625))) := by
    ring
  rw [e]
  have hxx : x * x ≤ x := by nlinarith
  have i0 : 0.125 + x * (0.0625 + x * 0.0390625) ≤ 1 := by nlinarith
  have hx2 : x * (0.125 + x * (0.0625 + x * 0.0390625)) ≤ 0.01 := by
    have := mul_le_mul_of_nonneg_left i0 h0
    linarith
  have hx3 : 0 ≤ x * (0.125 + x * (0.0625 + x * 0.0390625)) := by positivity
  have q : 0 ≤ x * (0.013671875 + x * (0.0048828125 + x * 0.00152587890625)) := by positivity
  have q2 : x * (0.013671875 + x * (0.0048828125 + x * 0.00152587890625)) ≤ 0.1 := by
    have i1 : 0.013671875 + x * (0.0048828125 + x * 0.00152587890625) ≤ 1 := by nlinarith
    have := mul_le_mul_of_nonneg_left i1 h0
    linarith
  refine ⟨?_, by linarith, by linarith⟩
  have hx4 : 0 ≤ x ^ 4 := by positivity
  rw [abs_of_nonneg (by positivity)]
  nlinarith

/-- Polynomial identity bound for the two Taylor branches of the eta conversions. -/
theorem eta_taylor (η : ℝ) (h0 : 0 ≤ η) (h1 : η ≤ 1/10000) :
    let g := η * Shear.eta2g η
    0 ≤ g ∧ g ≤ 1/10000 ∧ |Shear.eta2g η * Shear.g2eta g - 1| ≤ η ^ 6 := by
  intro g
  have hy0 : 0 ≤ η * η := by positivity
  have hy1 : η * η ≤ 1/100000000 := by nlinarith
  have hG : Shear.eta2g η = 0.5 + η * η * (-1/24 + η * η * (1/240)) := by
    unfold Shear.eta2g; rw [if_neg (by linarith)]
  have hGl : 0.4 ≤ Shear.eta2g η := by rw [hG]; nlinarith
  have hGu : Shear.eta2g η ≤ 0.6 := by rw [hG]; nlinarith
  have hg0 : 0 ≤ g := mul_nonneg h0 (by linarith)
  have hg1 : g ≤ 1/10000 := by
    have : g ≤ η * 1 := mul_le_mul_of_nonneg_left (by linarith) h0
    linarith
  refine ⟨hg0, hg1, ?_⟩
  have hF : Shear.g2eta g = 2 + g * g * (2/3 + g * g * 0.4) := by
    unfold Shear.g2eta; rw [if_neg (by linarith)]
  rw [hF]
  have hgg : g * g = (η * η) * (Shear.eta2g η) ^ 2 := by simp only [g]; ring
  rw [hgg, hG]
  have e6 : η ^ 6 = (η * η) ^ 3 := by ring
  rw [e6]
  have hy2 : η * η ≤ 1 := by linarith
  generalize η * η = y at *
  have step : ∀ c p B : ℝ, |p| ≤ B → |c + y * p| ≤ |c| + B := by
    intro c p B hp
    refine (abs_add_le _ _).trans ?_
    rw [abs_mul, abs_of_nonneg hy0]
    have : y * |p| ≤ 1 * |p| := mul_le_mul_of_nonneg_right hy2 (abs_nonneg _)
    linarith
  have e : (0.5 + y * (-1 / 24 + y * (1 / 240))) *
      (2 + y * (0.5 + y * (-1 / 24 + y * (1 / 240))) ^ 2 * (2 / 3 + y *
        (0.5 + y * (-1 / 24 + y * (1 / 240))) ^ 2 * 0.4)) - 1
      = y ^ 3 * (-1/720 + y * (103/103680 + y * (-37/172800 + y * (53/1658880 + y * (-1681/497664000
        + y * (277/995328000 + y * (-17/995328000 + y * (1/1244160000 + y * (-1/39813120000
        + y * (1/1990656000000)))))))))) := by ring
  rw [e, abs_mul, abs_of_nonneg (by positivity : 0 ≤ y ^ 3)]
  have hb := step (-1/720) _ _ (step (103/103680) _ _ (step (-37/172800) _ _ (step (53/1658880) _ _
    (step (-1681/497664000) _ _ (step (277/995328000) _ _ (step (-17/995328000) _ _
    (step (1/1244160000) _ _ (step (-1/39813120000) _ _ (le_refl |(1/1990656000000 : ℝ)|)))))))))
  have hc : |(-1/720 : ℝ)| + (|103/103680| + (|-37/172800| + (|53/1658880| + (|-1681/497664000|
    + (|277/995328000| + (|-17/995328000| + (|1/1244160000| + (|-1/39813120000|
    + |(1/1990656000000 : ℝ)|)))))))) ≤ 1 := by
    norm_num [abs_div, abs_of_nonneg]
  have := mul_le_mul_of_nonneg_left (hb.trans hc) (by positivity : 0 ≤ y ^ 3)
  linarith

/-- Series bound used where `_eta2g` is exact and `_g2eta` uses its Taylor branch. -/
theorem artanh_taylor (x : ℝ) (h0 : 0 ≤ x) (h1 : x ≤ 1/10000) :
    |2 * Real.artanh x - x * (2 + x * x * (2/3 + x * x * 0.4))| ≤ 3 * x ^ 7 := by
  have hx : |x| < 1 := by rw [abs_of_nonneg h0]; linarith
  have hx' : |-x| < 1 := by rwa [abs_neg]
  have b1 := Real.abs_log_sub_add_sum_range_le hx 6
  have b2 := Real.abs_log_sub_add_sum_range_le hx' 6
  rw [abs_neg] at b2
  rw [abs_of_nonneg h0] at b1 b2
  have ha : 2 * Real.artanh x = Real.log (1 + x) - Real.log (1 - x) := by
    rw [Real.artanh_eq_half_log ⟨by linarith, by linarith⟩, Real.log_div (by linarith) (by linarith)]
    ring
  rw [ha]
  simp only [Finset.sum_range_succ, Finset.sum_range_zero] at b1 b2
  norm_num at b1 b2
  have hb : x ^ 7 / (1 - x) ≤ 3/2 * x ^ 7 := by
    rw [div_le_iff₀ (by linarith)]
    have : 0 ≤ x ^ 7 := by positivity
    nlinarith
  rw [abs_le] at *
  obtain ⟨c1, c2⟩ := b1
  obtain ⟨c3, c4⟩ := b2
  constructor
  · ring_nf at *; linarith
  · ring_nf at *; linarith

theorem tanh_le_self {z : ℝ} (hz : 0 ≤ z) : Real.tanh z ≤ z := by
  have hd : ∀ x : ℝ, HasDerivAt (fun z => z * Real.cosh z - Real.sinh z) (x * Real.sinh x) x := by
    intro x
    have := ((hasDerivAt_id x).mul (Real.hasDerivAt_cosh x)).sub (Real.hasDerivAt_sinh x)
    refine this.congr_deriv ?_
    simp
  have hmono : MonotoneOn (fun z => z * Real.cosh z - Real.sinh z) (Set.Ici 0) := by
    apply monotoneOn_of_deriv_nonneg (convex_Ici 0)
    · exact fun x _ => (hd x).continuousAt.continuousWithinAt
    · exact fun x _ => (hd x).differentiableAt.differentiableWithinAt
    · intro x hx
      rw [interior_Ici] at hx
      rw [(hd x).deriv]
      exact mul_nonneg (le_of_lt hx) (Real.sinh_nonneg_iff.mpr (le_of_lt hx))
  have := hmono (Set.mem_Ici.mpr le_rfl) (Set.mem_Ici.mpr hz) hz
  simp at this
  rw [Real.tanh_eq_sinh_div_cosh, div_le_iff₀ (Real.cosh_pos z)]
  exact this

theorem tanh_nonneg {z : ℝ} (hz : 0 ≤ z) : 0 ≤ Real.tanh z := by
  rw [Real.tanh_eq_sinh_div_cosh]
  exact div_nonneg (Real.sinh_nonneg_iff.mpr hz) (Real.cosh_pos z).le

theorem eta2g_nonneg (η : ℝ) (h : 0 ≤ η) : 0 ≤ Shear.eta2g η := by
  unfold Shear.eta2g
  split
  · exact div_nonneg (tanh_nonneg (by linarith)) h
  · rename_i h1
    push Not at h1
    have : η * η ≤ 1/100000000 := by nlinarith
    have : 0 ≤ η * η := by positivity
    nlinarith

theorem e2g_nonneg (x : ℝ) (h : 0 ≤ x) : 0 ≤ Shear.e2g x := by
  unfold Shear.e2g
  split
  · positivity
  · positivity

end JG
