import Verif.Props.SpergelSmall
import Verif.Props.ProfileBand

/-!
# The frequency step of a Spergel profile (C77)
-/

namespace JG.Elt

open Real Set MeasureTheory JG.BesK

/-- Bisection of a function positive at the upper end that does not vanish at any midpoint: the upper end stays positive,
the lower end is the start or negative. -/
theorem bis_signs (f : ℝ → ℝ) (high : ℝ) (h0 : 0 < f high) (hne : ∀ n k : ℕ, f (k * high / 2 ^ n) ≠ 0) (n : ℕ) :
    0 < f (bisRun f 0 high n).high ∧
    (bisRun f 0 high n).high - (bisRun f 0 high n).low = high / 2 ^ n ∧
    ((bisRun f 0 high n).low = 0 ∨ f (bisRun f 0 high n).low < 0) := by
  have key : 0 < f (bisRun f 0 high n).high ∧
      (bisRun f 0 high n).high - (bisRun f 0 high n).low = high / 2 ^ n ∧
      ((bisRun f 0 high n).low = 0 ∨ f (bisRun f 0 high n).low < 0) ∧
      (bisRun f 0 high n).fhigh = f (bisRun f 0 high n).high ∧
      (∃ k : ℕ, (bisRun f 0 high n).low = k * high / 2 ^ n) := by
    induction n with
    | zero => exact ⟨h0, by simp [bisRun], Or.inl rfl, rfl, 0, by simp [bisRun]⟩
    | succ n ih =>
      obtain ⟨h1, h3, h4, h5, k, hk⟩ := ih
      have emid : ((bisRun f 0 high n).low + (bisRun f 0 high n).high) / 2 = ((2 * k + 1 : ℕ) : ℝ) * high / 2 ^ (n + 1) := by
        have : (bisRun f 0 high n).high = (bisRun f 0 high n).low + high / 2 ^ n := by linarith
        rw [this, hk, pow_succ]
        push_cast
        field_simp
        ring
      have hn := hne (n + 1) (2 * k + 1)
      rw [← emid] at hn
      simp only [bisRun, bisStep]
      rw [h5]
      rcases lt_or_gt_of_ne hn with hlt | hgt
      · rw [if_pos (mul_neg_of_neg_of_pos hlt h1)]
        refine ⟨h1, ?_, Or.inr hlt, rfl, 2 * k + 1, emid⟩
        simp only
        rw [pow_succ, ← div_div, ← h3]
        ring
      · rw [if_neg (not_lt.2 (mul_pos hgt h1).le)]
        refine ⟨hgt, ?_, h4, rfl, 2 * k, ?_⟩
        · simp only
          rw [pow_succ, ← div_div, ← h3]
          ring
        · simp only
          rw [hk, pow_succ]
          push_cast
          field_simp
  exact ⟨key.1, key.2.1, key.2.2.1⟩

/-- C77: if the flux of a Spergel profile outside 40 scale radii is below `folding_threshold` (and no midpoint of the
bisection happens to be the root), the flux outside the radius `π / stepk` is at most `folding_threshold` of the total up to
`5e-15 + 2e-20/d`.  Moreover, unless `stepk_minimum_hlr` decides, a radius smaller by `40/2^75` scale radii would leave
more than that outside. -/
theorem C77_spergel_stepk (s : Spergel) (d : ℝ) (hn : -0.85 ≤ s.nu) (hr : 0 < s.r0) (hd : 1e-9 ≤ d) (h : IndexOk s.nu d)
    (h40 : 1 - s.gs .folding_threshold < fluxFraction 40 s.nu 0)
    (hmid : ∀ n k : ℕ, fluxFraction (k * 40 / 2 ^ n) s.nu 0 ≠ 1 - s.gs .folding_threshold) :
    |fluxOutside s.ideal (π / s.stepk)| ≤ (s.gs .folding_threshold + (5e-15 + 2e-20 / d)) * |s.flux| ∧
    (s.gs .stepk_minimum_hlr * s.hlr < π / s.stepk → 40 / 2 ^ 75 * s.r0 < π / s.stepk →
      (s.gs .folding_threshold - (5e-15 + 2e-20 / d)) * |s.flux| ≤ |fluxOutside s.ideal (π / s.stepk - 40 / 2 ^ 75 * s.r0)|) := by
  have hn' : -1 < s.nu := by norm_num at hn; linarith
  have hG := Gamma_pos_of_pos (show 0 < s.nu + 1 by linarith)
  have hpi := Real.pi_pos
  obtain ⟨t, ht⟩ : ∃ t, t = s.gs .folding_threshold := ⟨_, rfl⟩
  obtain ⟨q, hq⟩ : ∃ q, q = 5e-15 + 2e-20 / d := ⟨_, rfl⟩
  rw [← ht, ← hq]
  rw [← ht] at h40 hmid
  obtain ⟨f, hf⟩ : ∃ f : ℝ → ℝ, f = fun z => fluxFraction z s.nu (1 - t) := ⟨_, rfl⟩
  have hfe : ∀ z, f z = fluxFraction z s.nu 0 - (1 - t) := by
    intro z; rw [hf]; simp only [fluxFraction]; ring
  obtain ⟨b1, b2, b3⟩ := bis_signs f 40 (by rw [hfe]; linarith) (fun n k => by rw [hfe]; exact sub_ne_zero.mpr (hmid n k)) 75
  obtain ⟨b4, -, -⟩ := bis_interval f 0 40 (by norm_num) 75
  obtain ⟨Z, hZ⟩ : ∃ Z, Z = fluxRadius (1 - t) s.nu 40 := ⟨_, rfl⟩
  have hZ' : Z = (bisRun f 0 40 75).high := by rw [hZ, hf]; rfl
  rw [← hZ'] at b1 b2
  obtain ⟨l, hl⟩ : ∃ l, l = (bisRun f 0 40 75).low := ⟨_, rfl⟩
  rw [← hl] at b2 b3 b4
  have hZ0 : 0 < Z := by
    have : (0 : ℝ) < 40 / 2 ^ 75 := by positivity
    linarith
  obtain ⟨R, hR⟩ : ∃ R, R = max (Z * s.r0) (s.gs .stepk_minimum_hlr * s.hlr) := ⟨_, rfl⟩
  have hRZ : Z * s.r0 ≤ R := by rw [hR]; exact le_max_left _ _
  have hR0 : 0 < R := lt_of_lt_of_le (mul_pos hZ0 hr) hRZ
  have hstep : π / s.stepk = R := by
    have : s.stepk = π / R := by
      rw [hR, hZ, ht]; rfl
    rw [this]
    field_simp
  rw [hstep]
  -- the flux outside
  obtain ⟨-, -, hint, -⟩ := C76_spergel_partial s hn' hr
  have htot : ∫ p, s.ideal p = s.flux := by
    have := (C76_spergel_partial s hn' hr).2.2.2 0
    have e0 : s.kValue 0 = s.flux := by simp [Spergel.kValue]
    rw [e0] at this
    have e1 : transform s.ideal 0 = ((∫ p, s.ideal p : ℝ) : ℂ) := by
      unfold transform
      rw [← integral_complex_ofReal]
      congr 1
      funext p
      simp
    rw [e1] at this
    exact_mod_cast this
  have out : ∀ x : ℝ, 0 ≤ x → fluxOutside s.ideal (x * s.r0) = s.flux * (kvInt (s.nu + 1) x / Gamma (s.nu + 1)) := by
    intro x hx
    rw [outside_eq hint, htot, spergel_within s hn' hr (mul_nonneg hx hr.le), mul_div_assoc, div_self hr.ne', mul_one]
    ring
  have outabs : ∀ x : ℝ, 0 ≤ x → |fluxOutside s.ideal (x * s.r0)| = kvInt (s.nu + 1) x / Gamma (s.nu + 1) * |s.flux| := by
    intro x hx
    rw [out x hx, abs_mul, abs_of_nonneg (div_nonneg (kvInt_nonneg _ _) hG.le), mul_comm]
  have close : ∀ x : ℝ, 0 ≤ x → |f x - (t - kvInt (s.nu + 1) x / Gamma (s.nu + 1))| ≤ q := by
    intro x hx
    have := flux_all hn hd h hx (1 - t)
    rw [← hq] at this
    rw [hf]
    simp only
    rw [show t - kvInt (s.nu + 1) x / Gamma (s.nu + 1) = 1 - kvInt (s.nu + 1) x / Gamma (s.nu + 1) - (1 - t) by ring]
    exact this
  constructor
  · rw [show R = R / s.r0 * s.r0 by field_simp, outabs _ (by positivity)]
    refine mul_le_mul_of_nonneg_right ?_ (abs_nonneg _)
    have hle : Z ≤ R / s.r0 := by rw [le_div_iff₀ hr]; exact hRZ
    have mono := kvInt_antitone (mu := s.nu + 1) (by linarith) hZ0.le hle
    have : kvInt (s.nu + 1) (R / s.r0) / Gamma (s.nu + 1) ≤ kvInt (s.nu + 1) Z / Gamma (s.nu + 1) :=
      div_le_div_of_nonneg_right mono hG.le
    have := (abs_le.mp (close Z hZ0.le)).2
    linarith
  · intro hmin hbig
    have hRe : R = Z * s.r0 := by
      rw [hR, max_eq_left_iff]
      by_contra hc
      rw [hR, max_eq_right (le_of_lt (not_le.mp hc))] at hmin
      exact lt_irrefl _ hmin
    rw [hRe] at hbig ⊢
    have el : Z * s.r0 - 40 / 2 ^ 75 * s.r0 = l * s.r0 := by rw [← b2]; ring
    have hl0 : 0 < l := by
      have : 40 / 2 ^ 75 < Z := lt_of_mul_lt_mul_right hbig hr.le
      linarith
    rw [el, outabs l hl0.le]
    refine mul_le_mul_of_nonneg_right ?_ (abs_nonneg _)
    rcases b3 with b3 | b3
    · linarith
    · have := (abs_le.mp (close l hl0.le)).1
      linarith

/-- Parameters with folding threshold `exp(-16/3)` (about 0.005). -/
noncomputable def gsFold : GSP := fun _ => Real.exp (-(16 / 3))

/-- Index -1/2 (flux `1 - exp(-r)` within `r`). -/
example : |fluxOutside (Spergel.ideal ⟨-(1 / 2), 3, 7, gsFold⟩) (π / Spergel.stepk ⟨-(1 / 2), 3, 7, gsFold⟩)| ≤
    (Real.exp (-(16 / 3)) + (5e-15 + 2e-20 / (1 / 2))) * |7| := by
  have far : IndexOk (-(1 / 2)) (1 / 2) := Or.inr fun n => by
    rw [le_abs]
    rcases le_or_gt 0 n with h | h
    · right; have : (0 : ℝ) ≤ n := by exact_mod_cast h
      linarith
    · left; have : (n : ℝ) ≤ -1 := by exact_mod_cast Int.le_sub_one_of_lt h
      linarith
  refine (C77_spergel_stepk ⟨-(1 / 2), 3, 7, gsFold⟩ (1 / 2) (by norm_num) (by norm_num) (by norm_num) far ?_ ?_).1
  · show 1 - Real.exp (-(16 / 3)) < fluxFraction 40 (-(1 / 2)) 0
    rw [half_fraction (by norm_num)]
    have : Real.exp (-40) < Real.exp (-(16 / 3)) := Real.exp_lt_exp.2 (by norm_num)
    linarith
  · intro n k
    show fluxFraction (k * 40 / 2 ^ n) (-(1 / 2)) 0 ≠ 1 - Real.exp (-(16 / 3))
    have hz : 0 ≤ (k : ℝ) * 40 / 2 ^ n := by positivity
    by_cases hs : (k : ℝ) * 40 / 2 ^ n ≤ 1e-10
    · have h1 := (abs_le.mp (flux_small (d := 1 / 2) (by norm_num) (by norm_num) far hz hs 0)).2
      have h2 : 1 - kvInt (-(1 / 2) + 1) ((k : ℝ) * 40 / 2 ^ n) / Gamma (-(1 / 2) + 1) ≤ 1e-9 := by
        have hh := kvInt_half hz
        rw [show (-(1 / 2) + 1 : ℝ) = 1 / 2 by norm_num, hh, Gamma_one_half_eq,
          mul_div_cancel_left₀ _ (Real.sqrt_pos.mpr Real.pi_pos).ne']
        have := Real.add_one_le_exp (-((k : ℝ) * 40 / 2 ^ n))
        norm_num at hs ⊢
        linarith
      have h3 : Real.exp (-(16 / 3)) < 1 / 2 := by
        have : Real.exp (-(16 / 3)) ≤ Real.exp (-1) := Real.exp_le_exp.2 (by norm_num)
        have := Real.exp_neg_one_lt_d9
        linarith
      intro hc
      rw [hc] at h1
      norm_num at h1 h2
      linarith
    · rw [half_fraction (not_le.mp hs)]
      intro hc
      have h1 : Real.exp (-((k : ℝ) * 40 / 2 ^ n)) = Real.exp (-(16 / 3)) := by linarith
      have h2 := Real.exp_injective h1
      have h3 : (k : ℝ) * 120 = 16 * 2 ^ n := by
        have h5 : (0 : ℝ) < 2 ^ n := by positivity
        have h6 : (k : ℝ) * 40 / 2 ^ n = 16 / 3 := by linarith
        rw [div_eq_div_iff h5.ne' (by norm_num)] at h6
        linarith
      have h4 : k * 120 = 16 * 2 ^ n := by exact_mod_cast h3
      have h7 : 3 ∣ 16 * 2 ^ n := ⟨k * 40, by omega⟩
      have h8 : 3 ∣ 2 ^ (n + 4) := by rw [pow_add]; convert h7 using 1; ring
      have := Nat.Prime.dvd_of_dvd_pow Nat.prime_three h8
      omega

end JG.Elt
