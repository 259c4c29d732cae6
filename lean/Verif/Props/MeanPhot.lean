import Verif.Model.MeanPhot
import Verif.Lemmas.Poisson
import Verif.Props.Draw

/-! C109: the number of photons and their flux are right on average. -/

namespace JG

open ProbabilityTheory MeasureTheory
open scoped NNReal

/-- The distribution of the deviate `pd()` of draw.py:369: Poisson with mean `eta² |flux|`. -/
noncomputable def photonLaw (f eta : ℝ) : Measure ℕ := poissonMeasure (Real.toNNReal (eta ^ 2 * |f|))

noncomputable instance (f eta : ℝ) : IsProbabilityMeasure (photonLaw f eta) := by unfold photonLaw; infer_instance

/-- What each photon carries more to save photons: `1 + nu / |max_sb|`, if the number of photons is free and noise is allowed. -/
noncomputable def saved (np nu m : ℝ) : ℝ := if np = 0 ∧ 0 < nu then 1 + nu / |m| else 1

theorem saved_pos (np nu m : ℝ) : 0 < saved np nu m := by
  unfold saved
  split_ifs with h
  · have := div_nonneg h.2.le (abs_nonneg m); linarith
  · exact one_pos

theorem sample_ok {f : ℝ} (hf : f ≠ 0) (eta pd : ℝ) :
    samplePoissonFlux f eta pd = some ((pd - eta * eta * |f| + |f|) / |f|) := by
  unfold samplePoissonFlux
  rw [if_neg (abs_ne_zero.2 hf)]

theorem poisson_count {f : ℝ} (hf : f ≠ 0) (eta m nu pd : ℝ) :
    calcNPhotons ⟨f, eta, some m, 0, nu, true⟩ pd =
      (⌈|f / (eta * eta) * ((pd - eta * eta * |f| + |f|) / |f|)| / saved 0 nu m⌉,
        some ((pd - eta * eta * |f| + |f|) / |f| * saved 0 nu m)) := by
  unfold calcNPhotons nPhotonsNonzero
  simp only [if_neg hf, if_true, sample_ok hf eta pd, saved, true_and, gFactor, gt_iff_lt]
  by_cases h : 0 < nu
  · simp only [if_pos h, Option.map_some]
  · simp only [if_neg h, div_one, mul_one]

theorem poisson_ratio {f : ℝ} (hf : f ≠ 0) (eta m np nu pd : ℝ) :
    (calcNPhotons ⟨f, eta, some m, np, nu, true⟩ pd).2 = some ((pd - eta * eta * |f| + |f|) / |f| * saved np nu m) := by
  by_cases h : np = 0
  · rw [h, poisson_count hf]
  · unfold calcNPhotons
    simp only [if_neg h, if_true, sample_ok hf eta pd, saved]
    rw [if_neg (by simp [h]), mul_one]

theorem rate_coe (f eta : ℝ) : ((Real.toNNReal (eta ^ 2 * |f|) : ℝ≥0) : ℝ) = eta ^ 2 * |f| :=
  Real.coe_toNNReal _ (by positivity)

/-- C109: with `poisson_flux` the flux that is drawn, `flux * g`, is the flux of the profile on average and its variance
is `eta² |flux|`, both times what each photon carries more; so it is for every requested number of photons. -/
theorem C109_flux (f eta m np nu : ℝ) (hf : f ≠ 0) :
    ∃ g : ℕ → ℝ, (∀ n : ℕ, (calcNPhotons ⟨f, eta, some m, np, nu, true⟩ (n : ℝ)).2 = some (g n)) ∧
      Integrable g (photonLaw f eta) ∧
      ∫ n, f * g n ∂(photonLaw f eta) = f * saved np nu m ∧
      ∫ n, (f * g n - f * saved np nu m) ^ 2 ∂(photonLaw f eta) = eta ^ 2 * |f| * saved np nu m ^ 2 := by
  have ha : |f| ≠ 0 := abs_ne_zero.2 hf
  have hs : f ^ 2 = |f| ^ 2 := (sq_abs f).symm
  refine ⟨fun n => ((n : ℝ) - eta * eta * |f| + |f|) / |f| * saved np nu m, fun n => poisson_ratio hf eta m np nu n, ?_, ?_, ?_⟩
  · obtain ⟨h1, -⟩ := po_affine (Real.toNNReal (eta ^ 2 * |f|)) (saved np nu m / |f|) ((-(eta * eta * |f|) + |f|) / |f| * saved np nu m)
    refine h1.congr (ae_of_all _ fun n => ?_)
    simp only; ring
  · obtain ⟨-, h2⟩ := po_affine (Real.toNNReal (eta ^ 2 * |f|)) (f * saved np nu m / |f|)
      (f * ((-(eta * eta * |f|) + |f|) / |f| * saved np nu m))
    have e : (fun n : ℕ => f * (((n : ℝ) - eta * eta * |f| + |f|) / |f| * saved np nu m)) =
        fun n : ℕ => f * saved np nu m / |f| * (n : ℝ) + f * ((-(eta * eta * |f|) + |f|) / |f| * saved np nu m) := by
      funext n; ring
    unfold photonLaw
    rw [e, h2, rate_coe]
    field_simp
    ring
  · have e : (fun n : ℕ => (f * (((n : ℝ) - eta * eta * |f| + |f|) / |f| * saved np nu m) - f * saved np nu m) ^ 2) =
        fun n : ℕ => saved np nu m ^ 2 * ((n : ℝ) - (Real.toNNReal (eta ^ 2 * |f|) : ℝ≥0)) ^ 2 := by
      funext n
      rw [rate_coe]
      have : f * (((n : ℝ) - eta * eta * |f| + |f|) / |f| * saved np nu m) - f * saved np nu m =
          f / |f| * (saved np nu m * ((n : ℝ) - eta ^ 2 * |f|)) := by
        field_simp; ring
      rw [this, mul_pow, div_pow, hs, div_self (pow_ne_zero 2 ha)]
      ring
    unfold photonLaw
    rw [e, integral_const_mul, po_variance, rate_coe]
    ring

/-- C109: with `poisson_flux` the number of photons is `|flux| / eta² / saved` on average, rounded up. -/
theorem C109_count (f eta m nu : ℝ) (hf : f ≠ 0) (he : eta ≠ 0) (h1 : |eta| ≤ 1) :
    Integrable (fun n : ℕ => (((calcNPhotons ⟨f, eta, some m, 0, nu, true⟩ (n : ℝ)).1 : ℤ) : ℝ)) (photonLaw f eta) ∧
    |f| / eta ^ 2 / saved 0 nu m ≤
      ∫ n, (((calcNPhotons ⟨f, eta, some m, 0, nu, true⟩ (n : ℝ)).1 : ℤ) : ℝ) ∂(photonLaw f eta) ∧
    ∫ n, (((calcNPhotons ⟨f, eta, some m, 0, nu, true⟩ (n : ℝ)).1 : ℤ) : ℝ) ∂(photonLaw f eta) <
      |f| / eta ^ 2 / saved 0 nu m + 1 := by
  have hs := saved_pos 0 nu m
  have ha : 0 < |f| := abs_pos.2 hf
  have he2 : 0 < eta ^ 2 := by positivity
  have he1 : eta ^ 2 ≤ 1 := (sq_le_one_iff_abs_le_one eta).2 h1
  obtain ⟨Y, hY⟩ : ∃ Y : ℕ → ℝ, Y = fun n : ℕ => 1 / (eta ^ 2 * saved 0 nu m) * (n : ℝ) +
      (|f| - eta ^ 2 * |f|) / (eta ^ 2 * saved 0 nu m) := ⟨_, rfl⟩
  have hYv : ∀ n : ℕ, |f / (eta * eta) * (((n : ℝ) - eta * eta * |f| + |f|) / |f|)| / saved 0 nu m = Y n := by
    intro n
    have hp : 0 ≤ (n : ℝ) - eta * eta * |f| + |f| := by
      have : (0 : ℝ) ≤ n := Nat.cast_nonneg n
      nlinarith
    rw [abs_mul, abs_div, abs_div, abs_of_nonneg (mul_self_nonneg eta), abs_of_nonneg hp, abs_abs, hY]
    field_simp
    ring
  have hN : (fun n : ℕ => (((calcNPhotons ⟨f, eta, some m, 0, nu, true⟩ (n : ℝ)).1 : ℤ) : ℝ)) = fun n : ℕ => ((⌈Y n⌉ : ℤ) : ℝ) := by
    funext n; rw [poisson_count hf, hYv]
  obtain ⟨i1, i2⟩ := po_affine (Real.toNNReal (eta ^ 2 * |f|)) (1 / (eta ^ 2 * saved 0 nu m))
    ((|f| - eta ^ 2 * |f|) / (eta ^ 2 * saved 0 nu m))
  have hi : Integrable Y (photonLaw f eta) := by rw [hY]; exact i1
  have hm : ∫ n, Y n ∂(photonLaw f eta) = |f| / eta ^ 2 / saved 0 nu m := by
    rw [hY]; unfold photonLaw; rw [i2, rate_coe]; field_simp; ring
  have hd : Integrable (fun n : ℕ => ((⌈Y n⌉ : ℤ) : ℝ) - Y n) (photonLaw f eta) := by
    refine Integrable.of_bound (C := 1) (Measurable.aestronglyMeasurable (measurable_of_countable _)) (ae_of_all _ fun n => ?_)
    rw [Real.norm_eq_abs, abs_le]
    have h1 := Int.le_ceil (Y n)
    have h2 := Int.ceil_lt_add_one (Y n)
    constructor <;> linarith
  have hc : Integrable (fun n : ℕ => ((⌈Y n⌉ : ℤ) : ℝ)) (photonLaw f eta) := by
    refine (hd.add hi).congr (ae_of_all _ fun n => ?_)
    simp
  rw [hN, ← hm]
  refine ⟨hc, integral_mono hi hc fun n => Int.le_ceil (Y n), ?_⟩
  have h3 : 0 < ∫ n, (Y n + 1 - ((⌈Y n⌉ : ℤ) : ℝ)) ∂(photonLaw f eta) := by
    have hpos : ∀ n : ℕ, 0 < Y n + 1 - ((⌈Y n⌉ : ℤ) : ℝ) := fun n => by
      have := Int.ceil_lt_add_one (Y n); linarith
    rw [integral_pos_iff_support_of_nonneg (fun n => (hpos n).le) ((hi.add (integrable_const 1)).sub hc)]
    have : Function.support (fun n : ℕ => Y n + 1 - ((⌈Y n⌉ : ℤ) : ℝ)) = Set.univ :=
      Set.eq_univ_of_forall fun n => (hpos n).ne'
    rw [this]; simp
  have h4 : ∫ n, (Y n + 1 - ((⌈Y n⌉ : ℤ) : ℝ)) ∂(photonLaw f eta) =
      ∫ n, Y n ∂(photonLaw f eta) + 1 - ∫ n, ((⌈Y n⌉ : ℤ) : ℝ) ∂(photonLaw f eta) := by
    have := integral_sub (hi.add (integrable_const (1 : ℝ))) hc
    simp only [Pi.add_apply] at this
    rw [this, integral_add hi (integrable_const 1)]
    simp
  rw [h4] at h3
  linarith

/-- C109: `calculate_mean_n_photons` is the mean number of photons, to less than one photon, for a positive flux, and zero
for a profile without flux.  Missing: negative fluxes (`C109_counterexample_negative`). -/
theorem C109_mean_partial (f eta m : ℝ) :
    meanNPhotons 0 eta (some m) = 0 ∧
    (0 < f → eta ≠ 0 → |eta| ≤ 1 →
      |(meanNPhotons f eta (some m) : ℝ) -
        ∫ n, (((calcNPhotons ⟨f, eta, some m, 0, 0, true⟩ (n : ℝ)).1 : ℤ) : ℝ) ∂(photonLaw f eta)| < 1) := by
  constructor
  · simp [meanNPhotons]
  · intro hf he h1
    obtain ⟨-, a, b⟩ := C109_count f eta m 0 hf.ne' he h1
    have e : meanNPhotons f eta (some m) = ⌈f / eta ^ 2⌉ := by
      simp [meanNPhotons, hf.ne', nPhotonsNonzero, sq]
    have es : saved 0 0 m = 1 := by simp [saved]
    rw [es, div_one, abs_of_pos hf] at a b
    rw [e, abs_lt]
    have c1 := Int.le_ceil (f / eta ^ 2)
    have c2 := Int.ceil_lt_add_one (f / eta ^ 2)
    constructor <;> linarith

/-- Disagreement: for a profile of negative flux `calculate_mean_n_photons` returns a negative number, although as many
photons are shot as for the opposite flux. -/
theorem C109_counterexample_negative (m : ℝ) :
    meanNPhotons (-10) 1 (some m) = -10 ∧
    10 ≤ ∫ n, (((calcNPhotons ⟨-10, 1, some m, 0, 0, true⟩ (n : ℝ)).1 : ℤ) : ℝ) ∂(photonLaw (-10) 1) := by
  constructor
  · have : (-10 : ℝ) ≠ 0 := by norm_num
    simp only [meanNPhotons, if_neg this, nPhotonsNonzero]
    norm_num
  · have := (C109_count (-10) 1 m 0 (by norm_num) one_ne_zero (by simp)).2.1
    simpa [saved] using this

/-- A star of 1000 photons. -/
example (m : ℝ) : |(meanNPhotons 1000 1 (some m) : ℝ) -
    ∫ n, (((calcNPhotons ⟨1000, 1, some m, 0, 0, true⟩ (n : ℝ)).1 : ℤ) : ℝ) ∂(photonLaw 1000 1)| < 1 :=
  (C109_mean_partial 1000 1 m).2 (by norm_num) one_ne_zero (by simp)

/-- Its flux has the variance 1000. -/
example (m : ℝ) : ∃ g : ℕ → ℝ, (∀ n : ℕ, (calcNPhotons ⟨1000, 1, some m, 0, 0, true⟩ (n : ℝ)).2 = some (g n)) ∧
    ∫ n, (1000 * g n - 1000) ^ 2 ∂(photonLaw 1000 1) = 1000 := by
  obtain ⟨g, h1, -, -, h4⟩ := C109_flux 1000 1 m 0 0 (by norm_num)
  exact ⟨g, h1, by simpa [saved] using h4⟩

end JG
