import Verif.Lemmas.GammaClose

/-! # The Chebyshev tables for the Gamma function -/

namespace JG.BesK

open Real Filter Topology

/-- `coeff1Coeffs` as rationals. -/
def coeff1Q : List ℚ :=
  [-1.142022680371168e0, 6.5165112670737e-3, 3.087090173086e-4, -3.4706269649e-6, 6.9437664e-9, 3.67795e-11, -1.356e-13]

/-- `coeff2Coeffs` as rationals. -/
def coeff2Q : List ℚ :=
  [1.843740587300905e0, -7.68528408447867e-2, 1.2719271366546e-3, -4.9717367042e-6, -3.31261198e-8, 2.423096e-10,
    -1.702e-13, -1.49e-15]

theorem coeff1_cast : coeff1Coeffs = coeff1Q.map (fun c : ℚ => (c : ℝ)) := by
  simp only [coeff1Coeffs, coeff1Q, List.map_cons, List.map_nil]
  norm_num

theorem coeff2_cast : coeff2Coeffs = coeff2Q.map (fun c : ℚ => (c : ℝ)) := by
  simp only [coeff2Coeffs, coeff2Q, List.map_cons, List.map_nil]
  norm_num

/-- Clenshaw's recurrence on coefficient lists, at `2x - 1`. -/
def clLoopQ : List ℚ → List ℚ × List ℚ
  | [] => ([], [])
  | c :: cs => (addQ (addQ (mulQ [-2, 4] (clLoopQ cs).1) (scQ (-1) (clLoopQ cs).2)) [c], (clLoopQ cs).1)

theorem clLoopQ_eq (x : ℝ) (cs : List ℚ) :
    clenshawLoop (2 * (2 * x - 1)) (cs.map fun c : ℚ => (c : ℝ)) = (evQ x (clLoopQ cs).1, evQ x (clLoopQ cs).2) := by
  induction cs with
  | nil => simp [clenshawLoop, clLoopQ, evQ]
  | cons c cs ih =>
    simp only [List.map_cons, clenshawLoop, ih, clLoopQ, evQ_add, evQ_mul, evQ_sc]
    refine Prod.ext ?_ rfl
    simp only [evQ]
    push_cast
    ring

def clQ (cs : List ℚ) : List ℚ :=
  addQ (addQ (mulQ [-1, 2] (clLoopQ cs.tail).1) (scQ (-1) (clLoopQ cs.tail).2)) [1 / 2 * cs.headD 0]

theorem clQ_eq (x : ℝ) (cs : List ℚ) : clenshaw (2 * x - 1) (cs.map fun c : ℚ => (c : ℝ)) = evQ x (clQ cs) := by
  have ht : (cs.map fun c : ℚ => (c : ℝ)).tail = cs.tail.map fun c : ℚ => (c : ℝ) := by cases cs <;> rfl
  have hh : (cs.map fun c : ℚ => (c : ℝ)).headD 0 = ((cs.headD 0 : ℚ) : ℝ) := by cases cs <;> simp
  rw [clenshaw, ht, hh, clLoopQ_eq, clQ, evQ_add, evQ_add, evQ_mul, evQ_sc]
  simp only [evQ]
  push_cast
  norm_num
  ring

/-- Every other coefficient, with a power of a quarter. -/
def evensQ (c : ℚ) : List ℚ → List ℚ
  | [] => []
  | [a] => [c * a]
  | a :: _ :: l => (c * a) :: evensQ (c / 4) l

theorem evensQ_eq (v : ℝ) : ∀ (c : ℚ) (l : List ℚ),
    evQ (4 * v ^ 2) (evensQ c l) + v * evQ (4 * v ^ 2) (evensQ c l.tail) = c * evQ v l
  | c, [] => by simp [evensQ, evQ]
  | c, [a] => by simp [evensQ, evQ]
  | c, [a, b] => by simp [evensQ, evQ]; ring
  | c, a :: b :: d :: l => by
    have h := evensQ_eq v (c / 4) (d :: l)
    have e1 : evensQ c (a :: b :: d :: l) = (c * a) :: evensQ (c / 4) (d :: l) := rfl
    have e2 : evensQ c (a :: b :: d :: l).tail = (c * b) :: evensQ (c / 4) (d :: l).tail := rfl
    have e3 : evQ v (a :: b :: d :: l) = a + v * (b + v * evQ v (d :: l)) := rfl
    rw [e1, e2, evQ, evQ, e3]
    push_cast at h ⊢
    linear_combination 4 * v ^ 2 * h

theorem evensQ_parts (v : ℝ) (l : List ℚ) :
    (evQ v l + evQ (-v) l) / 2 = evQ (4 * v ^ 2) (evensQ 1 l) ∧
    (evQ (-v) l - evQ v l) / 2 = -v * evQ (4 * v ^ 2) (evensQ 1 l.tail) := by
  have a := evensQ_eq v 1 l
  have b := evensQ_eq (-v) 1 l
  rw [neg_sq] at b
  push_cast at a b
  constructor <;> linarith

theorem table1 {x : ℝ} (h0 : 0 ≤ x) (h1 : x ≤ 1) :
    |clenshaw (2 * x - 1) coeff1Coeffs + evQ x (evensQ 1 rGam.tail)| ≤ 31 / 10 ^ 17 := by
  have hb : boundQ 8 (addQ (clQ coeff1Q) (evensQ 1 rGam.tail)) (31 / 10 ^ 17) = true := by decide +kernel
  have := boundQ_le (by norm_num) hb h0 h1
  rw [coeff1_cast, clQ_eq, ← evQ_add]
  refine this.trans (le_of_eq ?_)
  norm_num

theorem table2 {x : ℝ} (h0 : 0 ≤ x) (h1 : x ≤ 1) :
    |clenshaw (2 * x - 1) coeff2Coeffs - evQ x (evensQ 1 rGam)| ≤ 31 / 10 ^ 17 := by
  have hb : boundQ 8 (addQ (clQ coeff2Q) (scQ (-1) (evensQ 1 rGam))) (31 / 10 ^ 17) = true := by decide +kernel
  have := boundQ_le (by norm_num) hb h0 h1
  rw [evQ_add, evQ_sc] at this
  rw [coeff2_cast, clQ_eq]
  push_cast at this
  rw [show evQ x (clQ coeff2Q) - evQ x (evensQ 1 rGam) = evQ x (clQ coeff2Q) + -1 * evQ x (evensQ 1 rGam) by ring]
  refine this.trans (le_of_eq ?_)
  norm_num

theorem sq_range {v : ℝ} (hv : |v| ≤ 1 / 2) : 0 ≤ 4 * v ^ 2 ∧ 4 * v ^ 2 ≤ 1 := by
  obtain ⟨a, b⟩ := abs_le.mp hv
  constructor
  · positivity
  · nlinarith

theorem coeff2_close {v : ℝ} (hv : |v| ≤ 1 / 2) : |(evaluateTemmeCoeffs v).coeff2 - gamma2 v| ≤ 6 / 10 ^ 16 := by
  have h := table2 (sq_range hv).1 (sq_range hv).2
  have e : (evaluateTemmeCoeffs v).coeff2 = clenshaw (2 * (4 * v ^ 2) - 1) coeff2Coeffs := by
    rw [show 2 * (4 * v ^ 2) - 1 = 8 * v * v - 1 by ring]; rfl
  have a := inv_gamma_close hv
  have b := inv_gamma_close (v := -v) (by rwa [abs_neg])
  rw [← (evensQ_parts v rGam).1] at h
  rw [e, gamma2]
  rw [abs_neg, ← sub_eq_add_neg] at b
  have a' := abs_le.mp (a.trans (mul_le_mul_of_nonneg_left hv (by norm_num)))
  have b' := abs_le.mp (b.trans (mul_le_mul_of_nonneg_left hv (by norm_num)))
  have h' := abs_le.mp h
  norm_num at a' b' h' ⊢
  rw [abs_le]
  constructor <;> linarith [a'.1, a'.2, b'.1, b'.2, h'.1, h'.2]

theorem coeff1_close_ne {v : ℝ} (hv : |v| ≤ 1 / 2) (h0 : v ≠ 0) : |(evaluateTemmeCoeffs v).coeff1 - gamma1 v| ≤ 6 / 10 ^ 16 := by
  have h := table1 (sq_range hv).1 (sq_range hv).2
  have e : (evaluateTemmeCoeffs v).coeff1 = clenshaw (2 * (4 * v ^ 2) - 1) coeff1Coeffs := by
    rw [show 2 * (4 * v ^ 2) - 1 = 8 * v * v - 1 by ring]; rfl
  have a := inv_gamma_close hv
  have b := inv_gamma_close (v := -v) (by rwa [abs_neg])
  rw [abs_neg, ← sub_eq_add_neg] at b
  have ep := (evensQ_parts v rGam).2
  rw [e, gamma1, if_neg h0]
  obtain ⟨P, hP⟩ : ∃ P, P = evQ (4 * v ^ 2) (evensQ 1 rGam.tail) := ⟨_, rfl⟩
  obtain ⟨K, hK⟩ : ∃ P, P = clenshaw (2 * (4 * v ^ 2) - 1) coeff1Coeffs := ⟨_, rfl⟩
  rw [← hP] at h ep
  rw [← hK] at h ⊢
  have e2 : K - (1 / Gamma (1 - v) - 1 / Gamma (1 + v)) / (2 * v)
      = (K + P) + -(((1 / Gamma (1 - v) - evQ (-v) rGam) - (1 / Gamma (1 + v) - evQ v rGam)) / (2 * v)) := by
    have : P = -((evQ (-v) rGam - evQ v rGam) / (2 * v)) := by
      field_simp
      linarith
    rw [this]
    ring
  rw [e2]
  refine (abs_add_le _ _).trans ?_
  have h3 : |(1 / Gamma (1 - v) - evQ (-v) rGam) - (1 / Gamma (1 + v) - evQ v rGam)| ≤ 4 / 10 ^ 16 * |v| := by
    refine (abs_sub _ _).trans ?_
    linarith
  have h4 : |-(((1 / Gamma (1 - v) - evQ (-v) rGam) - (1 / Gamma (1 + v) - evQ v rGam)) / (2 * v))| ≤ 2 / 10 ^ 16 := by
    rw [abs_neg, abs_div, abs_mul, abs_of_pos (by norm_num : (0 : ℝ) < 2), div_le_iff₀ (by positivity)]
    linarith
  norm_num at h h4 ⊢
  linarith

theorem clenshaw_continuous (cs : List ℝ) : Continuous fun w => clenshaw w cs := by
  have h : ∀ cs : List ℝ, Continuous fun w : ℝ => clenshawLoop (2 * w) cs := by
    intro cs
    induction cs with
    | nil => exact continuous_const
    | cons c cs ih => exact ((((continuous_const.mul continuous_id).mul ih.fst).sub ih.snd).add continuous_const).prodMk ih.fst
  have := h cs.tail
  exact ((continuous_id.mul this.fst).sub this.snd).add continuous_const

theorem coeff1_close {v : ℝ} (hv : |v| ≤ 1 / 2) : |(evaluateTemmeCoeffs v).coeff1 - gamma1 v| ≤ 6 / 10 ^ 16 := by
  by_cases h0 : v = 0
  · have hc : Continuous fun v => (evaluateTemmeCoeffs v).coeff1 :=
      (clenshaw_continuous coeff1Coeffs).comp (by fun_prop : Continuous fun v : ℝ => 8 * v * v - 1)
    have ht : Tendsto (fun v => |(evaluateTemmeCoeffs v).coeff1 - gamma1 v|) (𝓝[≠] 0)
        (𝓝 |(evaluateTemmeCoeffs 0).coeff1 - gamma1 0|) :=
      (((hc.tendsto 0).sub gamma1_tendsto).abs).mono_left nhdsWithin_le_nhds
    rw [h0]
    refine le_of_tendsto ht ?_
    have h1 : ∀ᶠ v : ℝ in 𝓝[≠] 0, |v| ≤ 1 / 2 := by
      refine nhdsWithin_le_nhds ?_
      have : Set.Icc (-(1 / 2) : ℝ) (1 / 2) ∈ 𝓝 (0 : ℝ) := Icc_mem_nhds (by norm_num) (by norm_num)
      filter_upwards [this] with v hv using abs_le.mpr hv
    filter_upwards [h1, self_mem_nhdsWithin] with v hv hv0 using coeff1_close_ne hv hv0
  · exact coeff1_close_ne hv h0

end JG.BesK
