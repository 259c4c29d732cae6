import Verif.Lemmas.Stretch
import Verif.Props.ProfileDraw

/-! Property C67: the band limit `maxk` and the folding radius `pi / stepk` of composed profiles. -/

namespace JG

/-- C67: `_compute_major_minor_from_jacobian` returns the extreme stretch factors of the map. -/
theorem C67_extremes (J : Mat2) :
    IsGreatest {s | ∃ q : ℝ × ℝ, q.1 ^ 2 + q.2 ^ 2 = 1 ∧
      s = Real.sqrt ((J.a * q.1 + J.b * q.2) ^ 2 + (J.c * q.1 + J.d * q.2) ^ 2)} (majorMinor J).1 ∧
    IsLeast {s | ∃ q : ℝ × ℝ, q.1 ^ 2 + q.2 ^ 2 = 1 ∧
      s = Real.sqrt ((J.a * q.1 + J.b * q.2) ^ 2 + (J.c * q.1 + J.d * q.2) ^ 2)} (majorMinor J).2 ∧
    (majorMinor J).1 * (majorMinor J).2 = |J.a * J.d - J.b * J.c| := by
  have h1 : ∀ q : ℝ × ℝ, q.1 ^ 2 + q.2 ^ 2 = 1 → vlen q = 1 := by
    intro q h; unfold vlen; rw [h, Real.sqrt_one]
  obtain ⟨t, ht1, ht2⟩ := attained J
  refine ⟨⟨⟨(Real.cos t, Real.sin t), Real.cos_sq_add_sin_sq t, ht1.symm⟩, ?_⟩,
    ⟨⟨(Real.cos (t + Real.pi / 2), Real.sin (t + Real.pi / 2)), Real.cos_sq_add_sin_sq _, ht2.symm⟩, ?_⟩,
    major_mul_minor J⟩
  · rintro s ⟨q, hq, e⟩
    have := app_le_major J q
    rw [h1 q hq, mul_one] at this
    rw [e]; exact this
  · rintro s ⟨q, hq, e⟩
    have := minor_le_app J q
    rw [h1 q hq, mul_one] at this
    rw [e]; exact this

theorem majorMinor_tr (J : Mat2) : majorMinor J.tr = majorMinor J := by
  simp only [majorMinor, Mat2.tr]
  rw [show (J.c - J.b) ^ 2 = (J.b - J.c) ^ 2 by ring, show J.c + J.b = J.b + J.c by ring]

theorem minor_pos {J : Mat2} (h : J.det ≠ 0) : 0 < (majorMinor J).2 := by
  rcases (minor_nonneg J).lt_or_eq with h' | h'
  · exact h'
  · exfalso
    have := major_mul_minor J
    rw [← h', mul_zero] at this
    exact h (abs_eq_zero.mp this.symm)

theorem major_pos {J : Mat2} (h : J.det ≠ 0) : 0 < (majorMinor J).1 := by
  rcases (major_nonneg J).lt_or_eq with h' | h'
  · exact h'
  · exfalso
    have := major_mul_minor J
    rw [← h', zero_mul] at this
    exact h (abs_eq_zero.mp this.symm)

mutual
/-- Total absolute flux of a tree: an upper bound of all its Fourier values. -/
noncomputable def Prof.absFlux : Prof → ℝ
  | .leaf L => L.pos + L.neg
  | .trans o J _ r => |J.det| * |r| * o.absFlux
  | .sum l => Prof.absFluxSum l
  | .conv l => Prof.absFluxProd l
/-- over a sum -/
noncomputable def Prof.absFluxSum : List Prof → ℝ
  | [] => 0
  | o :: l => o.absFlux + Prof.absFluxSum l
/-- over a convolution -/
noncomputable def Prof.absFluxProd : List Prof → ℝ
  | [] => 1
  | o :: l => o.absFlux * Prof.absFluxProd l
end

mutual
/-- No degenerate transformation, no empty list. -/
def Prof.Regular : Prof → Prop
  | .leaf _ => True
  | .trans o J _ _ => J.det ≠ 0 ∧ o.Regular
  | .sum l => l ≠ [] ∧ Prof.RegularL l
  | .conv l => l ≠ [] ∧ Prof.RegularL l
/-- for lists -/
def Prof.RegularL : List Prof → Prop
  | [] => True
  | o :: l => o.Regular ∧ Prof.RegularL l
end

/-- A concrete profile whose `maxk` is right for accuracy `ε`. -/
def Leaf.BandOK (ε : ℝ) (L : Leaf) : Prop :=
  (∀ k, ‖L.kv k‖ ≤ L.pos + L.neg) ∧ ∀ k, L.maxk < vlen k → ‖L.kv k‖ ≤ ε * (L.pos + L.neg)

theorem norm_kFactor (J : Mat2) (off : ℝ × ℝ) (r : ℝ) (k : ℝ × ℝ) : ‖kFactor J off r k‖ = |J.det| * |r| := by
  unfold kFactor
  rw [norm_mul, show (k.1 : ℂ) * (-Complex.I * off.1) + (k.2 : ℂ) * (-Complex.I * off.2) =
    ((-(k.1 * off.1 + k.2 * off.2) : ℝ) : ℂ) * Complex.I by push_cast; ring, Complex.norm_exp_ofReal_mul_I, mul_one,
    Complex.norm_real, Real.norm_eq_abs, fluxScaling, abs_mul, abs_abs]

mutual
theorem kValue_le : ∀ (o : Prof), o.AllLeaves (fun L => ∀ k, ‖L.kv k‖ ≤ L.pos + L.neg) → ∀ k, ‖o.kValue k‖ ≤ o.absFlux
  | .leaf L, h, k => by simp only [Prof.AllLeaves] at h; simp only [Prof.kValue, Prof.absFlux]; exact h k
  | .trans o J off r, h, k => by
    simp only [Prof.AllLeaves] at h
    simp only [Prof.kValue, Prof.absFlux]
    rw [norm_mul, norm_kFactor, mul_comm]
    exact mul_le_mul_of_nonneg_left (kValue_le o h _) (by positivity)
  | .sum l, h, k => by
    simp only [Prof.AllLeaves] at h; simp only [Prof.kValue, Prof.absFlux]; exact kSum_le l h k
  | .conv l, h, k => by
    simp only [Prof.AllLeaves] at h; simp only [Prof.kValue, Prof.absFlux]; exact kProd_le l h k
theorem kSum_le : ∀ (l : List Prof), Prof.AllLeavesL (fun L => ∀ k, ‖L.kv k‖ ≤ L.pos + L.neg) l →
    ∀ k, ‖Prof.kSum l k‖ ≤ Prof.absFluxSum l
  | [], _, k => by simp [Prof.kSum, Prof.absFluxSum]
  | o :: l, h, k => by
    simp only [Prof.AllLeavesL] at h
    simp only [Prof.kSum, Prof.absFluxSum]
    exact (norm_add_le _ _).trans (add_le_add (kValue_le o h.1 k) (kSum_le l h.2 k))
theorem kProd_le : ∀ (l : List Prof), Prof.AllLeavesL (fun L => ∀ k, ‖L.kv k‖ ≤ L.pos + L.neg) l →
    ∀ k, ‖Prof.kProd l k‖ ≤ Prof.absFluxProd l
  | [], _, k => by simp [Prof.kProd, Prof.absFluxProd]
  | o :: l, h, k => by
    simp only [Prof.AllLeavesL] at h
    simp only [Prof.kProd, Prof.absFluxProd]
    rw [norm_mul]
    exact mul_le_mul (kValue_le o h.1 k) (kProd_le l h.2 k) (norm_nonneg _)
      ((norm_nonneg _).trans (kValue_le o h.1 k))
end

mutual
theorem allLeaves_mono {P Q : Leaf → Prop} (hPQ : ∀ L, P L → Q L) : ∀ o : Prof, o.AllLeaves P → o.AllLeaves Q
  | .leaf L, h => by simp only [Prof.AllLeaves] at h ⊢; exact hPQ L h
  | .trans o _ _ _, h => by simp only [Prof.AllLeaves] at h ⊢; exact allLeaves_mono hPQ o h
  | .sum l, h => by simp only [Prof.AllLeaves] at h ⊢; exact allLeavesL_mono hPQ l h
  | .conv l, h => by simp only [Prof.AllLeaves] at h ⊢; exact allLeavesL_mono hPQ l h
theorem allLeavesL_mono {P Q : Leaf → Prop} (hPQ : ∀ L, P L → Q L) :
    ∀ l : List Prof, Prof.AllLeavesL P l → Prof.AllLeavesL Q l
  | [], h => by simp only [Prof.AllLeavesL]
  | o :: l, h => by
    simp only [Prof.AllLeavesL] at h ⊢; exact ⟨allLeaves_mono hPQ o h.1, allLeavesL_mono hPQ l h.2⟩
end

mutual
theorem band {ε : ℝ} : ∀ (o : Prof), o.AllLeaves (Leaf.BandOK ε) → o.Regular →
    ∀ k, o.maxk < vlen k → ‖o.kValue k‖ ≤ ε * o.absFlux
  | .leaf L, h, _, k, hk => by
    simp only [Prof.AllLeaves] at h; simp only [Prof.kValue, Prof.absFlux]; simp only [Prof.maxk] at hk
    exact h.2 k hk
  | .trans o J off r, h, hr, k, hk => by
    simp only [Prof.AllLeaves] at h
    simp only [Prof.Regular] at hr
    simp only [Prof.kValue, Prof.absFlux]
    simp only [Prof.maxk] at hk
    have hm := minor_pos hr.1
    have h1 := minor_le_app J.tr k
    rw [majorMinor_tr] at h1
    have h2 : o.maxk < vlen (J.tr.app k) := by
      refine lt_of_lt_of_le ?_ h1
      rw [div_lt_iff₀ hm] at hk
      linarith
    have := band o h hr.2 _ h2
    rw [norm_mul, norm_kFactor]
    calc ‖o.kValue (J.tr.app k)‖ * (|J.det| * |r|) ≤ ε * o.absFlux * (|J.det| * |r|) :=
          mul_le_mul_of_nonneg_right this (by positivity)
      _ = _ := by ring
  | .sum l, h, hr, k, hk => by
    simp only [Prof.AllLeaves] at h
    simp only [Prof.Regular] at hr
    simp only [Prof.kValue, Prof.absFlux]
    exact bandSum l h hr.2 k fun o ho => lt_of_le_of_lt ((sum_maxk hr.1).2 ⟨o, ho, rfl⟩) hk
  | .conv l, h, hr, k, hk => by
    simp only [Prof.AllLeaves] at h
    simp only [Prof.Regular] at hr
    simp only [Prof.kValue, Prof.absFlux]
    refine bandProd l h hr.2 k ?_
    cases l with
    | nil => exact absurd rfl hr.1
    | cons o l =>
      simp only [Prof.maxk] at hk
      obtain ⟨h1, _⟩ := maxkMin_spec l o.maxk
      rcases h1 with e | ⟨o', ho', e⟩
      · exact ⟨o, by simp, by rw [← e]; exact hk⟩
      · exact ⟨o', by simp [ho'], by rw [← e]; exact hk⟩
theorem bandSum {ε : ℝ} : ∀ (l : List Prof), Prof.AllLeavesL (Leaf.BandOK ε) l → Prof.RegularL l →
    ∀ k, (∀ o ∈ l, o.maxk < vlen k) → ‖Prof.kSum l k‖ ≤ ε * Prof.absFluxSum l
  | [], _, _, k, _ => by simp [Prof.kSum, Prof.absFluxSum]
  | o :: l, h, hr, k, hk => by
    simp only [Prof.AllLeavesL] at h
    simp only [Prof.RegularL] at hr
    simp only [Prof.kSum, Prof.absFluxSum]
    rw [mul_add]
    exact (norm_add_le _ _).trans (add_le_add (band o h.1 hr.1 k (hk o (by simp)))
      (bandSum l h.2 hr.2 k fun o' ho' => hk o' (by simp [ho'])))
theorem bandProd {ε : ℝ} : ∀ (l : List Prof), Prof.AllLeavesL (Leaf.BandOK ε) l → Prof.RegularL l →
    ∀ k, (∃ o ∈ l, o.maxk < vlen k) → ‖Prof.kProd l k‖ ≤ ε * Prof.absFluxProd l
  | [], _, _, k, hk => by obtain ⟨o, ho, _⟩ := hk; cases ho
  | o :: l, h, hr, k, hk => by
    simp only [Prof.AllLeavesL] at h
    simp only [Prof.RegularL] at hr
    simp only [Prof.kProd, Prof.absFluxProd]
    rw [norm_mul]
    have ho := kValue_le o (allLeaves_mono (fun L hL => hL.1) o h.1) k
    have hl := kProd_le l (allLeavesL_mono (fun L hL => hL.1) l h.2) k
    by_cases h1 : o.maxk < vlen k
    · rw [← mul_assoc]
      have hb := band o h.1 hr.1 k h1
      exact mul_le_mul hb hl (norm_nonneg _) ((norm_nonneg _).trans hb)
    · have h2 : ∃ o' ∈ l, o'.maxk < vlen k := by
        obtain ⟨o', ho', e⟩ := hk
        rcases List.mem_cons.mp ho' with e' | e'
        · rw [e'] at e; exact absurd e h1
        · exact ⟨o', e', e⟩
      rw [mul_left_comm]
      exact mul_le_mul ho (bandProd l h.2 hr.2 k h2) (norm_nonneg _) ((norm_nonneg _).trans ho)
end

/-- C67: if every concrete profile is below the fraction `ε` of its absolute flux beyond its `maxk`, so is every tree of
sums, convolutions and non-degenerate transformations of them beyond the `maxk` the library computes for it. -/
theorem C67_maxk (o : Prof) (ε : ℝ) (h : o.AllLeaves (Leaf.BandOK ε)) (hr : o.Regular) (k : ℝ × ℝ)
    (hk : o.maxk < Real.sqrt (k.1 ^ 2 + k.2 ^ 2)) : ‖o.kValue k‖ ≤ ε * o.absFlux := band o h hr k hk

/-- C67: the radius `pi / stepk` of a transformed profile reaches every image of the points within the radius
`pi / stepk` of the original; it is at most the largest stretch of that radius plus the shift. -/
theorem C67_stepk (o : Prof) (J : Mat2) (off : ℝ × ℝ) (r : ℝ) (hs : 0 < o.stepk) (hJ : J.a * J.d - J.b * J.c ≠ 0) :
    0 < (Prof.trans o J off r).stepk ∧
    (∀ q : ℝ × ℝ, Real.sqrt (q.1 ^ 2 + q.2 ^ 2) ≤ Real.pi / o.stepk →
      Real.sqrt ((J.a * q.1 + J.b * q.2 + off.1) ^ 2 + (J.c * q.1 + J.d * q.2 + off.2) ^ 2) ≤
        Real.pi / (Prof.trans o J off r).stepk) ∧
    Real.pi / (Prof.trans o J off r).stepk =
      (majorMinor J).1 * (Real.pi / o.stepk) + Real.sqrt (off.1 ^ 2 + off.2 ^ 2) := by
  have hm : 0 < (majorMinor J).1 := major_pos (J := J) hJ
  have hp := Real.pi_pos
  have e : Real.pi / (Prof.trans o J off r).stepk =
      (majorMinor J).1 * (Real.pi / o.stepk) + Real.sqrt (off.1 ^ 2 + off.2 ^ 2) := by
    simp only [Prof.stepk, transStepk]
    rw [div_div_eq_mul_div, mul_div_assoc, mul_comm (Real.pi), div_mul_cancel₀ _ hp.ne']
    field_simp
  refine ⟨?_, ?_, e⟩
  · simp only [Prof.stepk, transStepk]
    have := Real.sqrt_nonneg (off.1 ^ 2 + off.2 ^ 2)
    positivity
  · intro q hq
    rw [e]
    refine (vlen_add_le (J.app q) off).trans (add_le_add ?_ le_rfl)
    exact (app_le_major J q).trans (mul_le_mul_of_nonneg_left hq hm.le)

/-- A leaf satisfying the hypotheses of `C67_maxk`: Fourier value 1 up to its `maxk` and 0 beyond. -/
noncomputable def bandLeaf : Leaf := { sampleLeaf with kv := fun k => if vlen k ≤ 3 then 1 else 0 }

example : (mkConv [mkTransform (.leaf bandLeaf) ⟨2, 1, 0, 1⟩ (1, 0) (-3), .leaf bandLeaf]).AllLeaves (Leaf.BandOK 0) ∧
    (mkConv [mkTransform (.leaf bandLeaf) ⟨2, 1, 0, 1⟩ (1, 0) (-3), .leaf bandLeaf]).Regular := by
  have h : Leaf.BandOK 0 bandLeaf := by
    constructor
    · intro k
      simp only [bandLeaf, sampleLeaf]
      split_ifs <;> norm_num
    · intro k hk
      have : ¬ vlen k ≤ 3 := not_le.mpr hk
      simp only [bandLeaf, if_neg this]; norm_num
  constructor
  · simp only [mkConv, mkTransform, Prof.AllLeaves, Prof.AllLeavesL]; exact ⟨h, h, trivial⟩
  · simp only [mkConv, mkTransform, Prof.Regular, Prof.RegularL]
    refine ⟨List.cons_ne_nil _ _, ⟨?_, trivial⟩, trivial, trivial⟩
    norm_num [Mat2.det]

example : 0 < (Prof.leaf sampleLeaf).stepk := by norm_num [Prof.stepk, sampleLeaf]

end JG
