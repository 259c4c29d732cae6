import Verif.Lemmas.Sampling
import Mathlib.MeasureTheory.Integral.IntervalIntegral.Basic
import Mathlib.MeasureTheory.Integral.IntervalIntegral.FundThmCalculus
import Mathlib.MeasureTheory.Integral.Prod
import Mathlib.MeasureTheory.Measure.Lebesgue.Integral

/-!
Means over ideal uniform deviates, as integrals against a density on the line and on the plane.
-/

open MeasureTheory

namespace JG.Interp

/-- `I` is the mean over a random number with the (signed) density `f`, for bounded measurable functions. -/
structure LineLaw (I : (ℝ → ℝ) → ℝ) (f : ℝ → ℝ) : Prop where
  int : Integrable f
  mean : ∀ ψ : ℝ → ℝ, Measurable ψ → ∀ C : ℝ, (∀ x, |ψ x| ≤ C) → I ψ = ∫ x, f x * ψ x

theorem bdd_integrable {α : Type*} [MeasurableSpace α] {μ : Measure α} {f : α → ℝ} (hf : Integrable f μ) {ψ : α → ℝ}
    (hm : Measurable ψ) {C : ℝ} (hC : ∀ x, |ψ x| ≤ C) : Integrable (fun x => f x * ψ x) μ :=
  hf.mul_bdd hm.aestronglyMeasurable (Filter.Eventually.of_forall hC)

/-- Two independent coordinates. -/
theorem LineLaw.plane {I : (ℝ → ℝ) → ℝ} {f : ℝ → ℝ} (h : LineLaw I f) (φ : ℝ × ℝ → ℝ) (hφ : Measurable φ) (C : ℝ)
    (hC : ∀ p, |φ p| ≤ C) : (I fun x => I fun y => φ (x, y)) = ∫ p : ℝ × ℝ, f p.1 * f p.2 * φ p := by
  have e1 : ∀ x, (I fun y => φ (x, y)) = ∫ y, f y * φ (x, y) := fun x =>
    h.mean _ (hφ.comp measurable_prodMk_left) C fun y => hC _
  have hff : Integrable (fun p : ℝ × ℝ => f p.1 * f p.2) := h.int.mul_prod h.int
  have hi : Integrable (fun p : ℝ × ℝ => f p.1 * f p.2 * φ p) := bdd_integrable hff hφ hC
  simp only [e1]
  -- a measurable version of the density
  obtain ⟨g, hg, hfg⟩ := h.int.1
  have e2 : ∀ x, ∫ y, f y * φ (x, y) = ∫ y, g y * φ (x, y) := fun x =>
    integral_congr_ae (hfg.mono fun y hy => by simp only [hy])
  have hgi : Integrable g := h.int.congr hfg
  simp only [e2]
  have hm : Measurable fun x => ∫ y, g y * φ (x, y) := by
    have : StronglyMeasurable (Function.uncurry fun x y => g y * φ (x, y)) :=
      ((hg.measurable.comp measurable_snd).mul hφ).stronglyMeasurable
    exact this.integral_prod_right.measurable
  have hb : ∀ x, |∫ y, g y * φ (x, y)| ≤ ∫ y, |g y| * C := fun x => by
    refine (abs_integral_le_integral_abs).trans (integral_mono_of_nonneg (Filter.Eventually.of_forall fun y => abs_nonneg _)
      (hgi.abs.mul_const C) (Filter.Eventually.of_forall fun y => ?_))
    simp only [abs_mul]
    exact mul_le_mul_of_nonneg_left (hC _) (abs_nonneg _)
  rw [h.mean _ hm _ hb, Measure.volume_eq_prod, integral_prod _ (by rw [← Measure.volume_eq_prod]; exact hi)]
  refine integral_congr_ae (Filter.Eventually.of_forall fun x => ?_)
  simp only [← e2]
  rw [← integral_const_mul]
  refine integral_congr_ae (Filter.Eventually.of_forall fun y => ?_)
  simp only
  ring

/-- The uniform deviate on `[0, 1]` minus 1/2. -/
theorem lineLaw_nearest : LineLaw (fun ψ => ∫ v in (0:ℝ)..1, ψ (v - 0.5)) fun x => if |x| > 0.5 then 0 else 1 := by
  have e : (fun x : ℝ => if |x| > 0.5 then (0:ℝ) else 1) = (Set.Icc (-0.5:ℝ) 0.5).indicator fun _ => 1 := by
    funext x
    by_cases hx : |x| > 0.5
    · rw [if_pos hx, Set.indicator_of_notMem]
      intro hm
      exact absurd (abs_le.mpr hm) (not_le.mpr hx)
    · rw [if_neg hx, Set.indicator_of_mem]
      exact abs_le.mp (not_lt.mp hx)
  constructor
  · rw [e]
    exact (integrable_indicator_iff measurableSet_Icc).mpr (integrableOn_const (by simp))
  · intro ψ hm C hC
    rw [intervalIntegral.integral_comp_sub_right (fun x => ψ x)]
    norm_num only
    rw [intervalIntegral.integral_of_le (by norm_num), ← integral_Icc_eq_integral_Ioc, ← integral_indicator measurableSet_Icc]
    norm_num only at e
    refine integral_congr_ae (Filter.Eventually.of_forall fun x => ?_)
    simp only [Set.indicator]
    have := congrFun e x
    simp only [Set.indicator] at this
    rw [this]
    split_ifs <;> simp

theorem tri_overlap {x : ℝ} (hx : x ∈ Set.Ioc (-1:ℝ) 1) :
    ∫ v in (0:ℝ)..1, (Set.Ico x (x + 1)).indicator (fun _ => (1:ℝ)) v = 1 - |x| := by
  rw [intervalIntegral.integral_of_le zero_le_one, integral_Ioc_eq_integral_Ioo,
    setIntegral_indicator measurableSet_Ico, setIntegral_const, smul_eq_mul, mul_one]
  rcases le_or_gt x 0 with h | h
  · have : Set.Ioo (0:ℝ) 1 ∩ Set.Ico x (x + 1) = Set.Ioo 0 (x + 1) := by
      ext v; simp only [Set.mem_inter_iff, Set.mem_Ioo, Set.mem_Ico]
      constructor
      · rintro ⟨⟨a, b⟩, c, d⟩; exact ⟨a, d⟩
      · rintro ⟨a, b⟩; exact ⟨⟨a, by linarith⟩, by linarith, b⟩
    rw [this, Real.volume_real_Ioo_of_le (by linarith [hx.1]), abs_of_nonpos h]; ring
  · have : Set.Ioo (0:ℝ) 1 ∩ Set.Ico x (x + 1) = Set.Ico x 1 := by
      ext v; simp only [Set.mem_inter_iff, Set.mem_Ioo, Set.mem_Ico]
      constructor
      · rintro ⟨⟨a, b⟩, c, d⟩; exact ⟨c, b⟩
      · rintro ⟨a, b⟩; exact ⟨⟨by linarith, b⟩, a, by linarith⟩
    rw [this, Real.volume_real_Ico_of_le hx.2, abs_of_pos h]

/-- The sum of two uniform deviates on `[0, 1]` minus 1. -/
theorem lineLaw_linear : LineLaw (fun ψ => ∫ v in (0:ℝ)..1, ∫ v' in (0:ℝ)..1, ψ (v + v' - 1))
    fun x => if |x| > 1 then 0 else 1 - |x| := by
  have e : (fun x : ℝ => if |x| > 1 then (0:ℝ) else 1 - |x|) = (Set.Ioc (-1:ℝ) 1).indicator fun x => 1 - |x| := by
    funext x
    by_cases hx : |x| > 1
    · rw [if_pos hx, Set.indicator_of_notMem]
      intro hm
      exact absurd (abs_le.mpr ⟨hm.1.le, hm.2⟩) (not_le.mpr hx)
    · rw [if_neg hx]
      have h := abs_le.mp (not_lt.mp hx)
      by_cases hm : x ∈ Set.Ioc (-1:ℝ) 1
      · rw [Set.indicator_of_mem hm]
      · rw [Set.indicator_of_notMem hm]
        have : x = -1 := by
          by_contra hc
          exact hm ⟨lt_of_le_of_ne h.1 (Ne.symm hc), h.2⟩
        rw [this]; norm_num
  constructor
  · rw [e]
    refine (integrable_indicator_iff measurableSet_Ioc).mpr ?_
    exact ((continuous_const.sub continuous_abs).continuousOn.integrableOn_Icc).mono_set Set.Ioc_subset_Icc_self
  · intro ψ hm C hC
    have e1 : ∀ v ∈ Set.uIcc (0:ℝ) 1, (∫ v' in (0:ℝ)..1, ψ (v + v' - 1)) =
        ∫ x in (-1:ℝ)..1, (Set.Ioc (v - 1) v).indicator (fun _ => (1:ℝ)) x * ψ x := by
      intro v hv
      rw [Set.uIcc_of_le zero_le_one] at hv
      have h1 : (∫ v' in (0:ℝ)..1, ψ (v + v' - 1)) = ∫ x in (v - 1)..v, ψ x := by
        have := intervalIntegral.integral_comp_add_left (a := 0) (b := 1) (fun x => ψ x) (v - 1)
        simp only [add_zero, sub_add_cancel] at this
        rw [← this]
        refine intervalIntegral.integral_congr fun x _ => ?_
        show ψ _ = ψ _
        congr 1; ring
      rw [h1, intervalIntegral.integral_of_le (by linarith), intervalIntegral.integral_of_le (by norm_num)]
      have h2 : (fun x => (Set.Ioc (v - 1) v).indicator (fun _ => (1:ℝ)) x * ψ x) = (Set.Ioc (v - 1) v).indicator ψ := by
        funext x; simp only [Set.indicator]; split_ifs <;> simp
      rw [h2, setIntegral_indicator measurableSet_Ioc]
      congr 2
      refine (Set.inter_eq_right.mpr ?_).symm
      exact Set.Ioc_subset_Ioc (by linarith [hv.1]) hv.2
    rw [intervalIntegral.integral_congr e1]
    have hswap : (∫ v in (0:ℝ)..1, ∫ x in (-1:ℝ)..1, (Set.Ioc (v - 1) v).indicator (fun _ => (1:ℝ)) x * ψ x) =
        ∫ x in (-1:ℝ)..1, ∫ v in (0:ℝ)..1, (Set.Ioc (v - 1) v).indicator (fun _ => (1:ℝ)) x * ψ x := by
      simp only [intervalIntegral.integral_of_le (show (0:ℝ) ≤ 1 by norm_num),
        intervalIntegral.integral_of_le (show (-1:ℝ) ≤ 1 by norm_num)]
      refine integral_integral_swap ?_
      have hset : MeasurableSet {p : ℝ × ℝ | p.1 - 1 < p.2 ∧ p.2 ≤ p.1} :=
        (measurableSet_lt (measurable_fst.sub_const 1) measurable_snd).inter (measurableSet_le measurable_snd measurable_fst)
      have hmeas : Measurable (Function.uncurry fun v x : ℝ => (Set.Ioc (v - 1) v).indicator (fun _ => (1:ℝ)) x * ψ x) := by
        have : (Function.uncurry fun v x : ℝ => (Set.Ioc (v - 1) v).indicator (fun _ => (1:ℝ)) x * ψ x) =
            fun p : ℝ × ℝ => {p : ℝ × ℝ | p.1 - 1 < p.2 ∧ p.2 ≤ p.1}.indicator (fun _ => (1:ℝ)) p * ψ p.2 := by
          funext p
          simp only [Function.uncurry, Set.indicator, Set.mem_Ioc, Set.mem_ofPred_eq]
        rw [this]
        exact (measurable_const.indicator hset).mul (hm.comp measurable_snd)
      refine Integrable.of_bound hmeas.aestronglyMeasurable C (Filter.Eventually.of_forall fun p => ?_)
      simp only [Function.uncurry, Set.indicator, Real.norm_eq_abs]
      split_ifs
      · rw [one_mul]; exact hC _
      · rw [zero_mul, abs_zero]; exact (abs_nonneg _).trans (hC 0)
    rw [hswap, intervalIntegral.integral_of_le (by norm_num)]
    have e3 : ∀ x ∈ Set.Ioc (-1:ℝ) 1, (∫ v in (0:ℝ)..1, (Set.Ioc (v - 1) v).indicator (fun _ => (1:ℝ)) x * ψ x) =
        (1 - |x|) * ψ x := by
      intro x hx
      rw [intervalIntegral.integral_mul_const, ← tri_overlap hx]
      congr 1
      refine intervalIntegral.integral_congr fun v _ => ?_
      simp only [Set.indicator, Set.mem_Ioc, Set.mem_Ico]
      congr 1
      refine propext ⟨fun h => ⟨h.2, by linarith [h.1]⟩, fun h => ⟨by linarith [h.2], h.1⟩⟩
    rw [setIntegral_congr_fun measurableSet_Ioc e3, ← integral_indicator measurableSet_Ioc]
    refine integral_congr_ae (Filter.Eventually.of_forall fun x => ?_)
    have := congrFun e x
    simp only at this ⊢
    rw [this]
    simp only [Set.indicator]
    split_ifs <;> simp

/-! ### Tables -/

/-- `jnp.interp` with a table that need not increase strictly. -/
theorem interp_mono {n : ℕ} {x y : ℕ → ℝ} (hx : ∀ i j, i ≤ j → j < n → x i ≤ x j) {i : ℕ} {t : ℝ} (hi : i + 1 < n)
    (h1 : x i ≤ t) (h2 : t < x (i + 1)) :
    Elt.jnpInterp n x y t = y i + (t - x i) / (x (i + 1) - x i) * (y (i + 1) - y i) := by
  have hs : searchsortedRight n x t = i + 1 := by
    unfold searchsortedRight
    have : (Finset.range n).filter (fun k => x k ≤ t) = Finset.range (i + 1) := by
      ext k
      simp only [Finset.mem_filter, Finset.mem_range]
      constructor
      · rintro ⟨hk, hkt⟩
        by_contra hc
        have := hx (i + 1) k (by omega) hk
        linarith
      · intro hk
        exact ⟨by omega, (hx k i (by omega) (by omega)).trans h1⟩
    rw [this, Finset.card_range]
  have hc : (clipI (searchsortedRight n x t) 1 (n - 1)).toNat = i + 1 := by
    rw [hs]; simp only [clipI]; omega
  have hlo : ¬ t < x 0 := not_lt.2 ((hx 0 i (Nat.zero_le i) (by omega)).trans h1)
  have hhi : ¬ t > x (n - 1) := not_lt.2 (h2.le.trans (hx (i + 1) (n - 1) (by omega) (by omega)))
  have hd : x (i + 1) - x i ≠ 0 := by linarith
  simp only [Elt.jnpInterp, hc, Nat.add_sub_cancel, if_neg hlo, if_neg hhi, if_neg hd]

/-- The density of the numbers drawn with a table: constant between two nodes. -/
noncomputable def tableDens (n : ℕ) (c y : ℕ → ℝ) (x : ℝ) : ℝ :=
  ∑ i ∈ Finset.range (n - 1), (Set.Ioc (y i) (y (i + 1))).indicator (fun _ => (c (i + 1) - c i) / (y (i + 1) - y i)) x

theorem table_integral {n : ℕ} (hn : 2 ≤ n) {c y : ℕ → ℝ} (hc : ∀ i j, i ≤ j → j < n → c i ≤ c j) (hy : ∀ i, i + 1 < n → y i < y (i + 1))
    (h0 : c 0 = 0) (h1 : c (n - 1) = 1) {g : ℝ → ℝ} (hg : Measurable g) {C : ℝ} (hC : ∀ x, |g x| ≤ C) :
    ∫ u in (0:ℝ)..1, g (Elt.jnpInterp n c y u) = ∫ x, tableDens n c y x * g x := by
  have piece : ∀ i, i + 1 < n → IntervalIntegrable (fun u => g (Elt.jnpInterp n c y u)) volume (c i) (c (i + 1)) ∧
      ∫ u in (c i)..(c (i + 1)), g (Elt.jnpInterp n c y u) =
        (c (i + 1) - c i) / (y (i + 1) - y i) * ∫ x in (y i)..(y (i + 1)), g x := by
    intro i hi
    have hle := hc i (i + 1) (by omega) hi
    have hyi := hy i hi
    rcases hle.eq_or_lt with he | hlt
    · rw [← he]; simp
    · obtain ⟨a, ha⟩ : ∃ a, a = (y (i + 1) - y i) / (c (i + 1) - c i) := ⟨_, rfl⟩
      have ha0 : a ≠ 0 := by rw [ha]; exact (div_pos (by linarith) (by linarith)).ne'
      have hd : c (i + 1) - c i ≠ 0 := by linarith
      have hline : Set.EqOn (fun u => g (Elt.jnpInterp n c y u)) (fun u => g (a * u + (y i - a * c i))) (Set.Ioo (c i) (c (i + 1))) := by
        intro u hu
        simp only
        rw [interp_mono hc hi hu.1.le hu.2, ha]
        congr 1
        field_simp
        ring
      have hmeas : Measurable fun u : ℝ => g (a * u + (y i - a * c i)) :=
        hg.comp ((measurable_const_mul a).add_const _)
      have hint : IntegrableOn (fun u : ℝ => g (a * u + (y i - a * c i))) (Set.Ioo (c i) (c (i + 1))) :=
        Measure.integrableOn_of_bounded (M := C) (by simp) hmeas.aestronglyMeasurable
          (Filter.Eventually.of_forall fun u => by rw [Real.norm_eq_abs]; exact hC _)
      constructor
      · rw [intervalIntegrable_iff_integrableOn_Ioo_of_le hle]
        exact hint.congr_fun hline.symm measurableSet_Ioo
      · rw [intervalIntegral.integral_of_le hle, integral_Ioc_eq_integral_Ioo, setIntegral_congr_fun measurableSet_Ioo hline,
          ← integral_Ioc_eq_integral_Ioo, ← intervalIntegral.integral_of_le hle,
          intervalIntegral.integral_comp_mul_add (fun x => g x) ha0, smul_eq_mul]
        congr 1
        · rw [ha, inv_div]
        · congr 1
          · ring
          · rw [ha]; field_simp; ring
  have hsum := intervalIntegral.sum_integral_adjacent_intervals (f := fun u => g (Elt.jnpInterp n c y u)) (μ := volume) (a := c)
    (n := n - 1) (fun k hk => (piece k (by omega)).1)
  rw [h0, h1] at hsum
  rw [← hsum]
  have hyint : ∀ i, i + 1 < n → Integrable fun x =>
      (Set.Ioc (y i) (y (i + 1))).indicator (fun _ => (c (i + 1) - c i) / (y (i + 1) - y i)) x * g x := by
    intro i hi
    refine bdd_integrable ?_ hg hC
    exact (integrable_indicator_iff measurableSet_Ioc).mpr (integrableOn_const (by simp))
  simp only [tableDens, Finset.sum_mul]
  rw [integral_finsetSum _ fun i hi => hyint i (by have := Finset.mem_range.mp hi; omega)]
  refine Finset.sum_congr rfl fun i hi => ?_
  have hi' : i + 1 < n := by have := Finset.mem_range.mp hi; omega
  rw [(piece i hi').2, intervalIntegral.integral_of_le (hy i hi').le, ← integral_const_mul, ← integral_indicator measurableSet_Ioc]
  refine integral_congr_ae (Filter.Eventually.of_forall fun x => ?_)
  simp only [Set.indicator]
  split_ifs <;> simp

theorem tableDens_integrable {n : ℕ} (c y : ℕ → ℝ) : Integrable (tableDens n c y) := by
  unfold tableDens
  refine integrable_finsetSum _ fun i _ => ?_
  exact (integrable_indicator_iff measurableSet_Ioc).mpr (integrableOn_const (by simp))

/-- Numbers drawn with a table and weighted with `w`. -/
theorem lineLaw_table {n : ℕ} (hn : 2 ≤ n) {c y : ℕ → ℝ} (hc : ∀ i j, i ≤ j → j < n → c i ≤ c j)
    (hy : ∀ i, i + 1 < n → y i < y (i + 1)) (h0 : c 0 = 0) (h1 : c (n - 1) = 1) {w : ℝ → ℝ} (hw : Measurable w) {B : ℝ}
    (hB : ∀ x, |w x| ≤ B) :
    LineLaw (fun ψ => ∫ u in (0:ℝ)..1, w (Elt.jnpInterp n c y u) * ψ (Elt.jnpInterp n c y u)) fun x => w x * tableDens n c y x := by
  constructor
  · have := bdd_integrable (tableDens_integrable (n := n) c y) hw hB
    refine this.congr (Filter.Eventually.of_forall fun x => ?_)
    simp only
    ring
  · intro ψ hm C hC
    have := table_integral hn hc hy h0 h1 (g := fun x => w x * ψ x) (hw.mul hm) (C := B * C) fun x => by
      rw [abs_mul]; exact mul_le_mul (hB x) (hC x) (abs_nonneg _) ((abs_nonneg _).trans (hB x))
    show (∫ u in (0:ℝ)..1, _) = _
    rw [this]
    refine integral_congr_ae (Filter.Eventually.of_forall fun x => ?_)
    simp only
    ring

end JG.Interp
