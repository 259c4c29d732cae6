import Verif.Lemmas.MoffatK
import Verif.Props.ProfileFourier

/-! Property C76 for Moffat profiles: the Fourier values between the tabulated frequencies and beyond the table. -/

namespace JG.Elt

open Real Set JG.BesK

/-- Specification: the leading term of the transform of a Moffat profile of unit flux at large `z = k r₀`. -/
noncomputable def moffatTail (beta z : ℝ) : ℝ :=
  2 / Gamma (beta - 1) * (z / 2) ^ (beta - 1) * (exp (-z) * sqrt (π / 2 / z))

theorem kAsymp_eq (m : Moffat) (h : m.Ok) {k : ℝ} (hk : 0 < k) : m.kAsymp k = m.flux * moffatTail m.beta (k * m.r0) := by
  have hG : 0 < Gamma (m.beta - 1) := Gamma_pos_of_pos (by linarith [h.beta])
  have hr := h.r0
  have hz : 0 < k * m.r0 := by positivity
  simp only [Moffat.kAsymp, Moffat.knormBis, moffatTail]
  rw [abs_of_pos hG, exp_log hG, div_rpow hz.le (by norm_num), rpow_sub_one (by norm_num : (2 : ℝ) ≠ 0)]
  have : (0 : ℝ) < 2 ^ m.beta := by positivity
  field_simp
  norm_num

theorem moffatTail_pos {beta z : ℝ} (hb : 1 < beta) (hz : 0 < z) : 0 < moffatTail beta z := by
  have hG : 0 < Gamma (beta - 1) := Gamma_pos_of_pos (by linarith)
  have hp := pi_pos
  have : 0 < sqrt (π / 2 / z) := sqrt_pos.mpr (by positivity)
  unfold moffatTail
  positivity

theorem kUntrunc_asymp (m : Moffat) (h : m.Ok) {k : ℝ} (hk : 0 < k) :
    m.kUntrunc k = m.kAsymp k * kvE (m.beta - 1) (k * m.r0) := by
  have hr := h.r0
  have hp := pi_pos
  have h0 : sqrt (π / 2 / (k * m.r0)) ≠ 0 := (sqrt_pos.mpr (by positivity)).ne'
  have h1 := (exp_pos (-(k * m.r0))).ne'
  simp only [Moffat.kUntrunc, Moffat.kAsymp, gt_iff_lt, hk, if_true, kvE]
  field_simp

/-- The slope of the derivative of the transform. -/
theorem moffat_smooth (m : Moffat) (h : m.Ok) (hb : 2 < m.beta) (b : ℝ) :
    Smooth m.kUntrunc (fun k => m.flux * m.r0 / Gamma (m.beta - 1) * (-(k * m.r0 / 2) * kvInt (m.beta - 1 - 1) (k * m.r0)))
      (|m.flux| * m.r0 ^ 2 / (2 * (m.beta - 2))) 0 b := by
  have hr := h.r0
  have hG : 0 < Gamma (m.beta - 1) := Gamma_pos_of_pos (by linarith)
  have hG2 : 0 < Gamma (m.beta - 1 - 1) := Gamma_pos_of_pos (by linarith)
  have hGG : Gamma (m.beta - 1) = (m.beta - 2) * Gamma (m.beta - 1 - 1) := by
    have := Gamma_add_one (s := m.beta - 1 - 1) (by linarith)
    rw [sub_add_cancel] at this
    rw [this]
    ring
  refine ⟨(C62_moffat_continuous m h.beta hr).mono Icc_subset_Ici_self, fun t ht => ?_, fun s hs t ht => ?_⟩
  · have h0 : (0 : ℝ) < t := ht.1
    have hl : HasDerivAt (fun k : ℝ => k * m.r0) m.r0 t := by simpa using (hasDerivAt_id' t).mul_const m.r0
    have hk := (kvInt_hasDerivAt (m.beta - 1) (show 0 < t * m.r0 by positivity)).comp t hl
    have hf := (hk.div_const (Gamma (m.beta - 1))).const_mul m.flux
    have ev : m.kUntrunc =ᶠ[nhds t] fun k => m.flux * ((kvInt (m.beta - 1) ∘ fun k => k * m.r0) k / Gamma (m.beta - 1)) := by
      filter_upwards [lt_mem_nhds h0] with y hy
      exact kUntrunc_eq m h.beta hr y hy.le
    refine (hf.congr_of_eventuallyEq ev).congr_deriv ?_
    ring
  · have hs0 : 0 < s * m.r0 := mul_pos hs.1 hr
    have ht0 : 0 < t * m.r0 := mul_pos ht.1 hr
    have l := kvInt_deriv_lip (mu := m.beta - 1) (by linarith) hs0 ht0
    rw [← mul_sub, abs_mul, abs_div, abs_mul, abs_of_pos hG, abs_of_pos hr]
    rw [← sub_mul, abs_mul, abs_of_pos hr] at l
    calc |m.flux| * m.r0 / Gamma (m.beta - 1) *
          |-(s * m.r0 / 2) * kvInt (m.beta - 1 - 1) (s * m.r0) - -(t * m.r0 / 2) * kvInt (m.beta - 1 - 1) (t * m.r0)|
        ≤ |m.flux| * m.r0 / Gamma (m.beta - 1) * (1 / 2 * Gamma (m.beta - 1 - 1) * (|s - t| * m.r0)) := by gcongr
      _ = |m.flux| * m.r0 ^ 2 / (2 * (m.beta - 2)) * |s - t| := by
        rw [hGG]
        have : m.beta - 2 ≠ 0 := by linarith
        field_simp

/-- How much the transform changes over a distance. -/
theorem moffat_modulus (m : Moffat) (h : m.Ok) {a : ℝ} (ha : 0 < a) (ha1 : a ≤ 1) (hab : a < 2 * (m.beta - 1)) {s t : ℝ}
    (hs : 0 ≤ s) (ht : 0 ≤ t) : |m.kUntrunc t - m.kUntrunc s| ≤
      |m.flux| * (Gamma (m.beta - 1 - a / 2) / Gamma (m.beta - 1)) * (m.r0 * |t - s| / 2) ^ a := by
  have hr := h.r0
  have hG : 0 < Gamma (m.beta - 1) := Gamma_pos_of_pos (by linarith [h.beta])
  rw [kUntrunc_eq m h.beta hr t ht, kUntrunc_eq m h.beta hr s hs, ← mul_sub, ← sub_div, abs_mul, abs_div, abs_of_pos hG]
  have l := kvInt_holder (mu := m.beta - 1) ha ha1 (by linarith) (t * m.r0) (s * m.r0)
  rw [← sub_mul, abs_mul, abs_of_pos hr, mul_comm |t - s|] at l
  calc |m.flux| * (|kvInt (m.beta - 1) (t * m.r0) - kvInt (m.beta - 1) (s * m.r0)| / Gamma (m.beta - 1))
      ≤ |m.flux| * (Gamma (m.beta - 1 - a / 2) * (m.r0 * |t - s| / 2) ^ a / Gamma (m.beta - 1)) := by gcongr
    _ = _ := by ring

theorem moffat_nodes (fit : ℝ → ℝ → ℝ) (m : Moffat) :
    m.kNode fit 0 = 0 ∧ m.kNode fit 699 = m.maxk fit ∧ ∀ i, m.kNode fit (i + 1) - m.kNode fit i = m.maxk fit / 699 := by
  refine ⟨by simp [Moffat.kNode, linspace], by simp only [Moffat.kNode, linspace]; norm_num, fun i => ?_⟩
  simp only [Moffat.kNode, linspace]
  push_cast
  norm_num
  ring

theorem moffat_inside (fit : ℝ → ℝ → ℝ) (m : Moffat) (h : m.Ok) {k : ℝ} (hk : 0 ≤ k) (hk1 : k ≤ m.maxk fit) :
    (2 < m.beta → |m.kRadial fit k - m.kUntrunc k| ≤ |m.flux| / (2 * (m.beta - 2)) * (m.r0 * m.maxk fit / 699) ^ 2) ∧
    ∀ a, 0 < a → a ≤ 1 → a < 2 * (m.beta - 1) → |m.kRadial fit k - m.kUntrunc k| ≤
      3 / 2 * |m.flux| * (Gamma (m.beta - 1 - a / 2) / Gamma (m.beta - 1)) * (m.r0 * m.maxk fit / 1398) ^ a := by
  have hr := h.r0
  have hm : 0 < m.maxk fit := div_pos (exp_pos _) hr
  have hkn : Knots 700 (m.kNode fit) := linspace_knots (m.maxk fit) hm 700 (by norm_num)
  have he : Even 700 (m.kNode fit) := linspace_even (m.maxk fit) 700
  obtain ⟨n0, n1, n2⟩ := moffat_nodes fit m
  have e : m.kRadial fit k = akimaInterp true 700 (m.kNode fit) (fun i => m.kUntrunc (m.kNode fit i)) k := by
    simp only [Moffat.kRadial]
    rw [if_neg (by rw [n1]; exact not_lt.mpr hk1)]
  rw [e]
  constructor
  · intro hb
    have := (C97_smooth true 700 (m.kNode fit) (by norm_num) hkn (fun _ => he) m.kUntrunc _ _ (m.maxk fit / 699)
      (by rw [n0]; exact moffat_smooth m h hb _) (fun i _ => (n2 i).le) k (by rw [n0]; exact hk)
      (by rw [show 700 - 1 = 699 by norm_num, n1]; exact hk1)).1
    refine this.trans (le_of_eq ?_)
    ring
  · intro a ha ha1 hab
    have hG : 0 < Gamma (m.beta - 1) := Gamma_pos_of_pos (by linarith [h.beta])
    have hG2 : 0 < Gamma (m.beta - 1 - a / 2) := Gamma_pos_of_pos (by linarith)
    have := C97_modulus true 700 (m.kNode fit) (by norm_num) hkn he m.kUntrunc
      (|m.flux| * (Gamma (m.beta - 1 - a / 2) / Gamma (m.beta - 1)) * (m.r0 * m.maxk fit / 1398) ^ a)
      (fun s t h0 hst _ hd => by
        rw [n0] at h0
        have hd' : t - s ≤ m.maxk fit / 699 := hd.trans (n2 0).le
        refine (moffat_modulus m h ha ha1 hab h0 (h0.trans hst)).trans ?_
        rw [abs_of_nonneg (show 0 ≤ t - s by linarith)]
        have h1 : m.r0 * (t - s) / 2 ≤ m.r0 * m.maxk fit / 1398 := by
          calc m.r0 * (t - s) / 2 ≤ m.r0 * (m.maxk fit / 699) / 2 := by gcongr
            _ = _ := by ring
        have h2 : 0 ≤ m.r0 * (t - s) / 2 := by
          have : 0 ≤ t - s := by linarith
          positivity
        gcongr) k (by rw [n0]; exact hk) (by rw [show 700 - 1 = 699 by norm_num, n1]; exact hk1)
    refine this.trans (le_of_eq ?_)
    ring

theorem moffat_beyond (fit : ℝ → ℝ → ℝ) (m : Moffat) (h : m.Ok) {k : ℝ} (hk : m.maxk fit < k) (n : ℕ) (hn : 1 ≤ n)
    (hb : m.beta ≤ n + 3 / 2) : |m.kRadial fit k - m.kUntrunc k| ≤
      (halfE n (m.maxk fit * m.r0) - 1) * (|m.flux| * moffatTail m.beta (k * m.r0)) := by
  have hr := h.r0
  have hm : 0 < m.maxk fit := div_pos (exp_pos _) hr
  have hk0 : 0 < k := hm.trans hk
  have hnu : 0 < m.beta - 1 := by linarith [h.beta]
  obtain ⟨n0, n1, n2⟩ := moffat_nodes fit m
  have hT := moffatTail_pos h.beta (show 0 < k * m.r0 by positivity)
  have hTm := moffatTail_pos h.beta (show 0 < m.maxk fit * m.r0 by positivity)
  obtain ⟨Em, hEm⟩ : ∃ Em, Em = kvE (m.beta - 1) (m.maxk fit * m.r0) := ⟨_, rfl⟩
  obtain ⟨E, hE⟩ : ∃ E, E = kvE (m.beta - 1) (k * m.r0) := ⟨_, rfl⟩
  have hdev := kvE_dev hnu (show 0 < m.maxk fit * m.r0 by positivity) n hn (by linarith)
  rw [← hEm] at hdev
  have e : m.kRadial fit k - m.kUntrunc k = m.kAsymp k * (1 + (Em - 1) * (m.maxk fit / k) - E) := by
    have e1 : m.kRadial fit k = m.kAsymp k * (1 + m.slp fit / k / m.r0) := by
      simp only [Moffat.kRadial]
      rw [if_pos (by rw [n1]; exact hk), if_pos hk0]
    rw [e1, kUntrunc_asymp m h hk0, ← hE]
    rcases eq_or_ne m.flux 0 with hz | hz
    · rw [kAsymp_eq m h hk0, hz]
      ring
    · have hne : m.kAsymp (m.maxk fit) ≠ 0 := by
        rw [kAsymp_eq m h hm]
        exact mul_ne_zero hz hTm.ne'
      have e2 : m.slp fit = (Em - 1) * m.maxk fit * m.r0 := by
        rw [Moffat.slp, n1, kUntrunc_asymp m h hm, ← hEm, mul_comm (m.kAsymp _), mul_div_assoc, div_self hne, mul_one]
      rw [e2]
      field_simp
  have hq : 0 ≤ m.maxk fit / k := by positivity
  have hq1 : m.maxk fit / k ≤ 1 := (div_le_one hk0).mpr hk.le
  have hmono := kvE_mono hnu (show 0 < m.maxk fit * m.r0 by positivity) (show m.maxk fit * m.r0 ≤ k * m.r0 by gcongr)
  have hone := kvE_one hnu (show 0 < k * m.r0 by positivity)
  rw [← hEm, ← hE] at hmono
  rw [← hE] at hone
  have hb2 : |1 + (Em - 1) * (m.maxk fit / k) - E| ≤ |Em - 1| := by
    rcases le_total (1 / 2) (m.beta - 1) with hc | hc
    · have h1 := hmono.1 hc
      have h2 := hone.1 hc
      rw [abs_of_nonneg (show 0 ≤ Em - 1 by linarith), abs_le]
      constructor <;> nlinarith
    · have h1 := hmono.2 hc
      have h2 := hone.2 hc
      rw [abs_of_nonpos (show Em - 1 ≤ 0 by linarith), abs_le]
      constructor <;> nlinarith
  rw [e, abs_mul, kAsymp_eq m h hk0, abs_mul, abs_of_pos hT, mul_comm]
  exact mul_le_mul_of_nonneg_right (hb2.trans hdev) (by positivity)

/-- C76: the Fourier value of a Moffat profile is the transform of its surface brightness at every frequency, up to the
flux beyond the cutoff (`xvalue_accuracy`) and: within the table (up to `maxk`), for `β > 2` the square of the spacing
of the table in units of `1 / r₀` over `2 (β - 2)`, and for all `β > 1` a power of that spacing; beyond the table, the
leading term of the transform times the difference from 1 of the next terms at `maxk`.  The Bessel function is exact
here (see C93) and the function that gives `maxk` is arbitrary. -/
theorem C76_moffat (fit : ℝ → ℝ → ℝ) (m : Moffat) (h : m.Ok) (ha : 0 < m.gs .xvalue_accuracy)
    (ha1 : m.gs .xvalue_accuracy ≤ 1) (k : ℝ × ℝ) :
    (Real.sqrt (k.1 ^ 2 + k.2 ^ 2) ≤ m.maxk fit → 2 < m.beta → ‖transform m.xValue k - (m.kValue fit k : ℂ)‖ ≤
      |m.flux| * (m.gs .xvalue_accuracy + (m.r0 * m.maxk fit / 699) ^ 2 / (2 * (m.beta - 2)))) ∧
    (Real.sqrt (k.1 ^ 2 + k.2 ^ 2) ≤ m.maxk fit → ∀ a, 0 < a → a ≤ 1 → a < 2 * (m.beta - 1) →
      ‖transform m.xValue k - (m.kValue fit k : ℂ)‖ ≤ |m.flux| * (m.gs .xvalue_accuracy +
        3 / 2 * (Gamma (m.beta - 1 - a / 2) / Gamma (m.beta - 1)) * (m.r0 * m.maxk fit / 1398) ^ a)) ∧
    (m.maxk fit < Real.sqrt (k.1 ^ 2 + k.2 ^ 2) → ∀ n : ℕ, 1 ≤ n → m.beta ≤ n + 3 / 2 →
      ‖transform m.xValue k - (m.kValue fit k : ℂ)‖ ≤ |m.flux| * (m.gs .xvalue_accuracy +
        (halfE n (m.r0 * m.maxk fit) - 1) * moffatTail m.beta (m.r0 * Real.sqrt (k.1 ^ 2 + k.2 ^ 2)))) := by
  have hU := (C76_moffat_table fit m h ha ha1).2.1 k
  obtain ⟨κ, hκ⟩ : ∃ κ, κ = Real.sqrt (k.1 ^ 2 + k.2 ^ 2) := ⟨_, rfl⟩
  have hκ0 : 0 ≤ κ := by rw [hκ]; exact Real.sqrt_nonneg _
  have hs : safeSqrt (k.1 ^ 2 + k.2 ^ 2) = κ := by
    rw [safeSqrt, hκ]
    split_ifs with hpos
    · rfl
    · rw [Real.sqrt_eq_zero_of_nonpos (not_lt.1 hpos)]
  have hv : m.kValue fit k = m.kRadial fit κ := by
    unfold Moffat.kValue
    rw [hs]
  rw [← hκ] at hU ⊢
  have main : ∀ e : ℝ, |m.kRadial fit κ - m.kUntrunc κ| ≤ |m.flux| * e →
      ‖transform m.xValue k - (m.kValue fit k : ℂ)‖ ≤ |m.flux| * (m.gs .xvalue_accuracy + e) := by
    intro e he
    have e1 : transform m.xValue k - (m.kValue fit k : ℂ) = (transform m.xValue k - (m.kUntrunc κ : ℂ)) -
        ((m.kRadial fit κ - m.kUntrunc κ : ℝ) : ℂ) := by
      rw [hv]
      push_cast
      ring
    rw [e1]
    refine (norm_sub_le _ _).trans ?_
    rw [Complex.norm_real, Real.norm_eq_abs]
    linarith
  refine ⟨fun hk hb => main _ ?_, fun hk a h0 h1 h2 => main _ ?_, fun hk n hn hb => main _ ?_⟩
  · refine ((moffat_inside fit m h hκ0 hk).1 hb).trans (le_of_eq (by ring))
  · refine ((moffat_inside fit m h hκ0 hk).2 a h0 h1 h2).trans (le_of_eq (by ring))
  · refine (moffat_beyond fit m h hk n hn hb).trans (le_of_eq ?_)
    rw [mul_comm m.r0, mul_comm m.r0]
    ring

/-- A Moffat profile of index 3 and flux 2 with `maxk r₀ = 7`. -/
noncomputable def moffatEx : Moffat := ⟨3, 1, 2, fun _ => 1e-5⟩

theorem moffatEx_maxk : moffatEx.maxk (fun _ _ => log 7) = 7 := by
  simp only [Moffat.maxk, moffatEx]
  rw [exp_log (by norm_num)]
  norm_num

example : ‖transform moffatEx.xValue (3, 4) - (moffatEx.kValue (fun _ _ => log 7) (3, 4) : ℂ)‖ ≤ 2 * 7e-5 := by
  have hs : Real.sqrt (((3, 4) : ℝ × ℝ).1 ^ 2 + ((3, 4) : ℝ × ℝ).2 ^ 2) = 5 := by
    rw [show (((3, 4) : ℝ × ℝ).1 ^ 2 + ((3, 4) : ℝ × ℝ).2 ^ 2) = 5 ^ 2 by norm_num, Real.sqrt_sq (by norm_num)]
  have := (C76_moffat (fun _ _ => log 7) moffatEx ⟨by norm_num [moffatEx], by norm_num [moffatEx]⟩
    (by norm_num [moffatEx]) (by norm_num [moffatEx]) (3, 4)).1 (by rw [hs, moffatEx_maxk]; norm_num)
    (by norm_num [moffatEx])
  refine this.trans ?_
  rw [moffatEx_maxk]
  norm_num [moffatEx]

end JG.Elt
