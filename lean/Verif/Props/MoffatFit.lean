import Verif.Model.MoffatFit
import Verif.Props.ProfileFourier

/-!
The fit of `maxk` of the Moffat profile, outside the range of `beta` it was made for (C76, C77).  `Moffat.__init__`
accepts every `beta > 1.1`, the fit is for `beta ≤ 100`.
-/

open MeasureTheory Set

namespace JG.Elt.MoffatFit

theorem polyval_cast (c : List ℚ) (x : ℚ) :
    polyval (c.map fun q : ℚ => (q : ℝ)) (x : ℝ) = ((polyval c x : ℚ) : ℝ) := by
  unfold polyval
  have : ∀ (c : List ℚ) (s : ℚ), (c.map fun q : ℚ => (q : ℝ)).foldl (fun s a => s * (x : ℝ) + a) (s : ℝ) =
      ((c.foldl (fun s a => s * x + a) s : ℚ) : ℝ) := by
    intro c
    induction c with
    | nil => intro s; rfl
    | cons a c ih =>
      intro s
      simp only [List.map_cons, List.foldl_cons]
      rw [← ih]
      push_cast
      rfl
  have h := this c 0
  rw [Rat.cast_zero] at h
  exact h

theorem pade_cast (c : List ℚ) (x : ℚ) :
    pade (c.map fun q : ℚ => (q : ℝ)) (x : ℝ) = ((pade c x : ℚ) : ℝ) := by
  simp only [pade, List.length_map, ← List.map_take, ← List.map_drop]
  rw [Rat.cast_div, ← polyval_cast, ← polyval_cast, List.map_append]
  simp

theorem pade2_cast (c : List (List ℚ)) (x y : ℚ) :
    pade2 (c.map fun r => r.map fun q : ℚ => (q : ℝ)) (x : ℝ) (y : ℝ) = ((pade2 c x y : ℚ) : ℝ) := by
  simp only [pade2]
  rw [← pade_cast, List.map_map, List.map_map]
  congr 2
  funext r
  exact pade_cast r x

/-- A slope beyond the range of the fit: half as far above it as the range is wide, in the logarithm. -/
noncomputable def farBeta : ℝ := Real.exp (logBetaMin + 3 / 2 * (logBetaMax - logBetaMin))

theorem logBeta_lt : logBetaMin < logBetaMax := by
  unfold logBetaMin logBetaMax
  exact Real.log_lt_log (by norm_num) (by norm_num)

theorem farBeta_gt : 100 < farBeta := by
  have h := logBeta_lt
  have : Real.exp logBetaMax = 100 := Real.exp_log (by norm_num)
  rw [← this]
  exact Real.exp_lt_exp.2 (by linarith)

theorem fit_far : fit (Real.log farBeta) (Real.log 1e-3) < -1 := by
  have hx : (Real.log farBeta - logBetaMin) / (logBetaMax - logBetaMin) = ((3 / 2 : ℚ) : ℝ) := by
    have h := logBeta_lt
    rw [farBeta, Real.log_exp, div_eq_iff (by linarith)]
    push_cast
    ring
  have hy : (Real.log 1e-3 - logMktsMin) / (logMktsMax - logMktsMin) = ((9 / 11 : ℚ) : ℝ) := by
    have h10 : 0 < Real.log 10 := Real.log_pos (by norm_num)
    have a : Real.log 1e-3 = -(3 * Real.log 10) := by
      rw [show (1e-3 : ℝ) = (10 ^ 3)⁻¹ by norm_num, Real.log_inv, Real.log_pow]; norm_num
    have b : logMktsMin = -(12 * Real.log 10) := by
      rw [logMktsMin, show (1e-12 : ℝ) = (10 ^ 12)⁻¹ by norm_num, Real.log_inv, Real.log_pow]; norm_num
    have c : logMktsMax = -(Real.log 10) := by
      rw [logMktsMax, show (0.1 : ℝ) = (10)⁻¹ by norm_num, Real.log_inv]
    rw [a, b, c, div_eq_iff (by linarith)]
    push_cast
    ring
  unfold fit
  rw [hx, hy, pade2_cast]
  have : pade2 table (3 / 2) (9 / 11) < -1 := by decide +kernel
  exact_mod_cast this

/-- The transform of a Moffat profile falls by at most `(k r0)² / (4 (beta - 2))`. -/
theorem kvInt_ge_sub {mu z : ℝ} (h : 1 < mu) : Real.Gamma mu * (1 - z ^ 2 / (4 * (mu - 1))) ≤ kvInt mu z := by
  have h0 : 0 < mu := by linarith
  have h1 : 0 < mu - 1 := by linarith
  have e : Real.Gamma mu * (1 - z ^ 2 / (4 * (mu - 1))) = Real.Gamma mu - z ^ 2 / 4 * Real.Gamma (mu - 1) := by
    have : Real.Gamma mu = (mu - 1) * Real.Gamma (mu - 1) := by
      rw [← Real.Gamma_add_one h1.ne', sub_add_cancel]
    rw [this]
    field_simp
  have hg : ∀ {m : ℝ}, 0 < m → Real.Gamma m = ∫ t in Ioi (0 : ℝ), t ^ (m - 1) * Real.exp (-t) := by
    intro m hm
    rw [Real.Gamma_eq_integral hm]
    exact integral_congr_ae (Filter.Eventually.of_forall fun t => mul_comm _ _)
  rw [e, hg h0, hg h1, ← integral_const_mul, ← integral_sub (gammaInt_integrable h0) ((gammaInt_integrable h1).const_mul _), kvInt]
  refine setIntegral_mono_on ((gammaInt_integrable h0).sub ((gammaInt_integrable h1).const_mul _))
    (kvInt_integrable_pos z h0) measurableSet_Ioi fun t ht => ?_
  have ht : (0 : ℝ) < t := ht
  have hexp := Real.add_one_le_exp (-(z ^ 2 / (4 * t)))
  have hp : 0 ≤ t ^ (mu - 1) := Real.rpow_nonneg ht.le _
  have hE := Real.exp_pos (-t)
  rw [sub_eq_add_neg (-t), Real.exp_add, Real.rpow_sub_one ht.ne' (mu - 1)]
  have : t ^ (mu - 1) * Real.exp (-t) - z ^ 2 / 4 * (t ^ (mu - 1) / t * Real.exp (-t)) =
      t ^ (mu - 1) * (Real.exp (-t) * (-(z ^ 2 / (4 * t)) + 1)) := by
    field_simp
    ring
  rw [this]
  gcongr

theorem kUntrunc_ge (m : Moffat) (hb : 100 < m.beta) (hr : 0 < m.r0) (hf : 0 < m.flux) {k : ℝ} (hk : 0 ≤ k)
    (hk1 : k ≤ 1 / m.r0) : 0.99 * m.flux ≤ m.kUntrunc k := by
  have hG : 0 < Real.Gamma (m.beta - 1) := Real.Gamma_pos_of_pos (by linarith)
  rw [kUntrunc_eq m (by linarith) hr k hk, mul_comm]
  refine mul_le_mul_of_nonneg_left ?_ hf.le
  rw [le_div_iff₀ hG, mul_comm]
  refine le_trans (mul_le_mul_of_nonneg_left ?_ hG.le) (kvInt_ge_sub (by linarith))
  have h1 : k * m.r0 ≤ 1 := by rwa [le_div_iff₀ hr] at hk1
  have h0 : 0 ≤ k * m.r0 := by positivity
  have h2 : (k * m.r0) ^ 2 / (4 * (m.beta - 1 - 1)) ≤ 1 / 100 := by
    rw [div_le_div_iff₀ (by linarith) (by norm_num)]
    nlinarith
  linarith

theorem far_maxk_pos (m : Moffat) (hr : 0 < m.r0) : 0 < m.maxk fit := div_pos (Real.exp_pos _) hr

theorem far_maxk (m : Moffat) (hb : m.beta = farBeta) (hr : 0 < m.r0) (ht : m.gs .maxk_threshold = 1e-3) :
    m.maxk fit * m.r0 ≤ 1 / 2 := by
  unfold Moffat.maxk
  rw [div_mul_cancel₀ _ hr.ne', hb, ht]
  have h := Real.exp_le_exp.2 fit_far.le
  have h2 := Real.exp_one_gt_d9
  rw [Real.exp_neg] at h
  refine h.trans ?_
  rw [inv_le_comm₀ (Real.exp_pos _) (by norm_num)]
  norm_num
  linarith

theorem kAsymp_pos (m : Moffat) (hr : 0 < m.r0) (hf : 0 < m.flux) {M : ℝ} (hM : 0 < M) :
    0 < m.kAsymp M := by
  have hz : 0 < M * m.r0 := by positivity
  simp only [Moffat.kAsymp, Moffat.knormBis]
  have := Real.pi_pos
  positivity

theorem kAsymp_double (m : Moffat) (hb : 100 < m.beta) (hr : 0 < m.r0) (hf : 0 < m.flux) {M : ℝ} (hM : 0 < M)
    (hMr : M * m.r0 ≤ 1 / 2) : (2 : ℝ) ^ 97 * m.kAsymp M ≤ m.kAsymp (2 * M) := by
  obtain ⟨z, hz⟩ : ∃ z, z = M * m.r0 := ⟨_, rfl⟩
  have hz0 : 0 < z := by rw [hz]; positivity
  have hB : 0 < m.knormBis := by
    simp only [Moffat.knormBis]
    positivity
  simp only [Moffat.kAsymp]
  rw [mul_assoc 2 M, ← hz]
  rw [← hz] at hMr
  have hpi := Real.pi_pos
  have h1 : (2 : ℝ) ^ 99 * z ^ (m.beta - 1) ≤ (2 * z) ^ (m.beta - 1) := by
    rw [Real.mul_rpow (by norm_num) hz0.le]
    have : (2 : ℝ) ^ (99 : ℝ) ≤ 2 ^ (m.beta - 1) := Real.rpow_le_rpow_of_exponent_le (by norm_num) (by linarith)
    have e : (2 : ℝ) ^ (99 : ℝ) = 2 ^ 99 := by
      rw [← Real.rpow_natCast]
      norm_num
    rw [e] at this
    gcongr
  have h2 : 1 / 2 * Real.exp (-z) ≤ Real.exp (-(2 * z)) := by
    rw [show -(2 * z) = -z + -z by ring, Real.exp_add]
    have := Real.add_one_le_exp (-z)
    gcongr
    linarith
  have h3 : 1 / 2 * Real.sqrt (Real.pi / 2 / z) ≤ Real.sqrt (Real.pi / 2 / (2 * z)) := by
    refine Real.le_sqrt_of_sq_le ?_
    rw [mul_pow, Real.sq_sqrt (by positivity), div_mul_eq_div_div_swap]
    have : 0 ≤ Real.pi / 2 / z := by positivity
    nlinarith
  calc (2 : ℝ) ^ 97 * (m.knormBis * z ^ (m.beta - 1) * Real.exp (-z) * Real.sqrt (Real.pi / 2 / z))
      = m.knormBis * ((2 : ℝ) ^ 99 * z ^ (m.beta - 1)) * (1 / 2 * Real.exp (-z)) * (1 / 2 * Real.sqrt (Real.pi / 2 / z)) := by
        ring
    _ ≤ _ := by gcongr

theorem far_value {A A2 U M r f : ℝ} (hM : 0 < M) (hr : 0 < r) (hf : 0 < f) (hA : 0 < A) (hA2 : (2 : ℝ) ^ 97 * A ≤ A2)
    (hU : 0.99 * f ≤ U) : (2 : ℝ) ^ 90 * f ≤ A2 * (1 + (U / A - 1) * M * r / (2 * M) / r) := by
  have e : 1 + (U / A - 1) * M * r / (2 * M) / r = 1 / 2 + U / A / 2 := by
    field_simp
    ring
  have hU0 : 0 < U := by linarith
  have h1 : (2 : ℝ) ^ 97 * A * (U / A / 2) = 2 ^ 96 * U := by
    field_simp
  have h2 : 0 < U / A / 2 := by positivity
  have h3 : (2 : ℝ) ^ 97 * A * (U / A / 2) ≤ A2 * (U / A / 2) := by gcongr
  have h4 : 0 < A2 := lt_of_lt_of_le (by positivity) hA2
  rw [e, mul_add]
  norm_num at h1 h3 ⊢
  linarith

end JG.Elt.MoffatFit

namespace JG.Elt

open MoffatFit

/-- Disagreement: above the range of its fit (`beta ≤ 100`) `Moffat.maxk` is not a band limit.  For every size there is
a slope accepted by the constructor for which the transform of the profile at a frequency beyond `maxk` is still 99% of
the flux, with `maxk_threshold = 1e-3`. -/
theorem C77_counterexample_moffat_maxk (r0 flux : ℝ) (hr : 0 < r0) (hf : 0 < flux) (gs : GSP) (ht : gs .maxk_threshold = 1e-3) :
    ∃ (beta : ℝ) (m : Moffat), 100 < beta ∧ Moffat.init beta (some r0) none none 0 flux gs = some m ∧
      m.flux = flux ∧ Integrable m.ideal ∧
      ∃ k : ℝ × ℝ, 2 * m.maxk fit ≤ Real.sqrt (k.1 ^ 2 + k.2 ^ 2) ∧ 0.99 * flux ≤ (transform m.ideal k).re := by
  have hb := farBeta_gt
  refine ⟨farBeta, ⟨farBeta, r0, flux, gs⟩, hb, ?_, rfl, ?_⟩
  · unfold Moffat.init
    rw [if_neg (by norm_num), if_neg (by norm_num; linarith)]
    simp only [Option.bind_some]
    rw [if_neg]
    rw [ht]
    norm_num
  · obtain ⟨hi, hk⟩ := C76_moffat_untruncated ⟨farBeta, r0, flux, gs⟩ (by show 1 < farBeta; linarith) hr
    have hpos : (0 : ℝ) < 1 / r0 := by positivity
    have hs : Real.sqrt ((1 / r0) ^ 2 + (0 : ℝ) ^ 2) = 1 / r0 := by
      rw [zero_pow two_ne_zero, add_zero, Real.sqrt_sq hpos.le]
    refine ⟨hi, (1 / r0, 0), ?_, ?_⟩
    · have h := far_maxk ⟨farBeta, r0, flux, gs⟩ rfl hr ht
      simp only at h ⊢
      rw [hs, le_div_iff₀ hr]
      linarith
    · rw [hk]
      simp only
      rw [hs, Complex.ofReal_re]
      exact kUntrunc_ge ⟨farBeta, r0, flux, gs⟩ hb hr hf hpos.le le_rfl

/-- Disagreement: above the range of the fit of `maxk` (`beta ≤ 100`) the Fourier values of a Moffat profile are not
bounded by its flux.  The table of Bessel values ends at `maxk`, the asymptotic form used beyond it is far from its
range, and at twice `maxk` the value returned is more than `2 ^ 90` times the flux. -/
theorem C76_counterexample_moffat_beta (r0 flux : ℝ) (hr : 0 < r0) (hf : 0 < flux) (gs : GSP) (ht : gs .maxk_threshold = 1e-3) :
    ∃ (beta : ℝ) (m : Moffat), 100 < beta ∧ Moffat.init beta (some r0) none none 0 flux gs = some m ∧
      m.flux = flux ∧ ∃ k : ℝ × ℝ, (2 : ℝ) ^ 90 * flux ≤ m.kValue fit k ∧ ‖transform m.ideal k‖ ≤ flux := by
  have hb := farBeta_gt
  obtain ⟨m, hm⟩ : ∃ m : Moffat, m = ⟨farBeta, r0, flux, gs⟩ := ⟨_, rfl⟩
  have hmb : m.beta = farBeta := by rw [hm]
  have hmr : m.r0 = r0 := by rw [hm]
  have hmf : m.flux = flux := by rw [hm]
  have hmr' : 0 < m.r0 := hmr ▸ hr
  refine ⟨farBeta, m, hb, ?_, hmf, ?_⟩
  · unfold Moffat.init
    rw [if_neg (by norm_num), if_neg (by norm_num; linarith)]
    simp only [Option.bind_some]
    rw [if_neg, hm]
    rw [ht]
    norm_num
  · obtain ⟨M, hM⟩ : ∃ M, M = m.maxk fit := ⟨_, rfl⟩
    have hM0 : 0 < M := hM ▸ far_maxk_pos m hmr'
    have hMr : M * m.r0 ≤ 1 / 2 := by rw [hM]; exact far_maxk m hmb hmr' (by rw [hm]; exact ht)
    have hnode : m.kNode fit 699 = M := by
      simp only [Moffat.kNode, linspace, ← hM]
      norm_num
    have hU : 0.99 * m.flux ≤ m.kUntrunc M := kUntrunc_ge m (hmb ▸ hb) hmr' (hmf ▸ hf) hM0.le (by
      rw [le_div_iff₀ hmr']; linarith)
    refine ⟨(2 * M, 0), ?_, ?_⟩
    · have hs : safeSqrt ((2 * M) ^ 2 + (0 : ℝ) ^ 2) = 2 * M := by
        rw [safeSqrt, if_pos (by positivity), zero_pow two_ne_zero, add_zero, Real.sqrt_sq (by linarith)]
      have hA := kAsymp_double m (hmb ▸ hb) hmr' (hmf ▸ hf) hM0 hMr
      have hA0 := kAsymp_pos m hmr' (hmf ▸ hf) hM0
      simp only [Moffat.kValue, hs, Moffat.kRadial, hnode]
      rw [if_pos (by linarith), if_pos (by linarith), Moffat.slp, hnode]
      rw [hmf] at hU
      exact far_value hM0 hmr' hf hA0 hA hU
    · have := (C76_moffat_untruncated m (by rw [hmb]; linarith) hmr').2 (2 * M, 0)
      rw [this, Complex.norm_real, Real.norm_eq_abs]
      refine (C62_moffat_bound m (by rw [hmb]; linarith) hmr' _ _ (Real.sqrt_nonneg _) le_rfl).2.trans ?_
      rw [hmf, abs_of_pos hf]

end JG.Elt
