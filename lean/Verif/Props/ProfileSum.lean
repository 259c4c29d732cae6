import Verif.Props.Profile
import Mathlib.Order.Bounds.Basic
import Mathlib.Analysis.SpecialFunctions.Sqrt
import Mathlib.Algebra.BigOperators.Group.List.Basic

/-! Properties C44 (sums), C45 (convolutions), C46 (deconvolution) and C47 (positive and negative flux). -/

namespace JG

/-! ### C44 -/

theorem kSum_eq (l : List Prof) (k : ℝ × ℝ) : Prof.kSum l k = (l.map fun o => o.kValue k).sum := by
  induction l with
  | nil => simp [Prof.kSum]
  | cons o l ih => simp [Prof.kSum, ih]

theorem kSum_flat (l : List Prof) (k : ℝ × ℝ) : Prof.kSum (l.flatMap sumTerms) k = Prof.kSum l k := by
  induction l with
  | nil => rfl
  | cons o l ih => rw [List.flatMap_cons, kSum_append, kSum_terms, ih]; simp only [Prof.kSum]

theorem fluxSum_eq (l : List Prof) : Prof.fluxSum l = (l.map Prof.flux).sum := by
  induction l with
  | nil => simp [Prof.fluxSum]
  | cons o l ih => simp [Prof.fluxSum, ih]

theorem fluxSum_flat (l : List Prof) : Prof.fluxSum (l.flatMap sumTerms) = Prof.fluxSum l := by
  induction l with
  | nil => rfl
  | cons o l ih => rw [List.flatMap_cons, fluxSum_append, fluxSum_terms, ih]; simp only [Prof.fluxSum]

theorem xValueL_flat (l : List Prof) (x : ℝ × ℝ) : Prof.xValueL (l.flatMap sumTerms) x = Prof.xValueL l x := by
  induction l with
  | nil => rfl
  | cons o l ih => rw [List.flatMap_cons, xValueL_append, xValueL_terms, ih]; simp only [Prof.xValueL]

theorem xValueL_some (l : List Prof) (x : ℝ × ℝ) (v : Prof → ℝ) (h : ∀ o ∈ l, o.xValue x = some (v o)) :
    Prof.xValueL l x = some (l.map v).sum := by
  induction l with
  | nil => simp [Prof.xValueL]
  | cons o l ih =>
    simp only [Prof.xValueL]
    rw [h o (by simp), ih (fun o' ho' => h o' (by simp [ho']))]
    simp

/-- C44: values of a sum (whose arguments may be sums themselves) are the sums of the values. -/
theorem C44_values (l : List Prof) :
    (mkSum l).flux = (l.map Prof.flux).sum ∧
    (∀ k, (mkSum l).kValue k = (l.map fun o => o.kValue k).sum) ∧
    (∀ x (v : Prof → ℝ), (∀ o ∈ l, o.xValue x = some (v o)) → (mkSum l).xValue x = some (l.map v).sum) ∧
    (∀ x, (∃ o ∈ l, o.xValue x = none) → (mkSum l).xValue x = none) := by
  unfold mkSum
  simp only [Prof.flux, Prof.kValue, Prof.xValue, fluxSum_flat, kSum_flat, xValueL_flat]
  refine ⟨fluxSum_eq l, kSum_eq l, fun x v h => xValueL_some l x v h, ?_⟩
  intro x h
  induction l with
  | nil => obtain ⟨o, ho, _⟩ := h; cases ho
  | cons o l ih =>
    simp only [Prof.xValueL]
    obtain ⟨o', ho', e⟩ := h
    rcases List.mem_cons.mp ho' with h1 | h1
    · rw [← h1, e]; rfl
    · rw [ih ⟨o', h1, e⟩]; cases o.xValue x <;> rfl

/-- C44: adding a sum is adding its terms; how sums are nested makes no difference. -/
theorem C44_nesting (a b c : List Prof) :
    mkSum (a ++ [mkSum b] ++ c) = mkSum (a ++ b ++ c) ∧
    (∀ p q r : Prof, (p.add q).add r = p.add (q.add r)) := by
  constructor
  · simp [mkSum, sumTerms, List.flatMap_append]
  · intro p q r
    simp [Prof.add, mkSum, sumTerms, List.flatMap_cons]

/-- C44: the centroid is the flux-weighted mean of the centroids. -/
theorem C44_centroid (l : List Prof) (hs : ∀ o ∈ l, ∀ l', o ≠ .sum l') (c : Prof → ℝ × ℝ)
    (hc : ∀ o ∈ l, o.centroid = some (c o)) (hF : (l.map Prof.flux).sum ≠ 0) :
    (mkSum l).centroid = some
      ((l.map fun o => (c o).1 * o.flux).sum / (l.map Prof.flux).sum,
       (l.map fun o => (c o).2 * o.flux).sum / (l.map Prof.flux).sum) := by
  have hflat : l.flatMap sumTerms = l := by
    clear hc hF
    induction l with
    | nil => rfl
    | cons o l ih =>
      rw [List.flatMap_cons, ih (fun o' ho' => hs o' (by simp [ho']))]
      have : sumTerms o = [o] := by
        cases o with
        | sum l' => exact absurd rfl (hs _ (by simp) l')
        | _ => rfl
      rw [this]; rfl
  have hm : Prof.cenFlux l = some ((l.map fun o => (c o).1 * o.flux).sum, (l.map fun o => (c o).2 * o.flux).sum) := by
    clear hs hF hflat
    induction l with
    | nil => simp [Prof.cenFlux]
    | cons o l ih =>
      simp only [Prof.cenFlux]
      rw [hc o (by simp), ih (fun o' ho' => hc o' (by simp [ho']))]
      simp
  unfold mkSum
  rw [hflat]
  simp only [Prof.centroid, hm, Option.bind_some, fluxSum_eq]
  rw [if_neg hF]

theorem maxkMax_spec (l : List Prof) (m : ℝ) :
    IsGreatest {y | y = m ∨ ∃ o ∈ l, y = o.maxk} (Prof.maxkMax l m) := by
  induction l generalizing m with
  | nil =>
    simp only [Prof.maxkMax]
    refine ⟨Or.inl rfl, ?_⟩
    rintro y (h | ⟨o, ho, _⟩)
    · exact h.le
    · cases ho
  | cons o l ih =>
    simp only [Prof.maxkMax]
    obtain ⟨h1, h2⟩ := ih (max m o.maxk)
    constructor
    · rcases h1 with h | ⟨o', ho', h⟩
      · rcases max_choice m o.maxk with e | e
        · left; rw [h, e]
        · right; exact ⟨o, by simp, by rw [h, e]⟩
      · right; exact ⟨o', by simp [ho'], h⟩
    · rintro y (h | ⟨o', ho', h⟩)
      · rw [h]; exact (le_max_left _ _).trans (h2 (Or.inl rfl))
      · rcases List.mem_cons.mp ho' with e | e
        · rw [h, e]; exact (le_max_right _ _).trans (h2 (Or.inl rfl))
        · exact h2 (Or.inr ⟨o', e, h⟩)

theorem maxkMin_spec (l : List Prof) (m : ℝ) :
    IsLeast {y | y = m ∨ ∃ o ∈ l, y = o.maxk} (Prof.maxkMin l m) := by
  induction l generalizing m with
  | nil =>
    simp only [Prof.maxkMin]
    refine ⟨Or.inl rfl, ?_⟩
    rintro y (h | ⟨o, ho, _⟩)
    · exact h.ge
    · cases ho
  | cons o l ih =>
    simp only [Prof.maxkMin]
    obtain ⟨h1, h2⟩ := ih (min m o.maxk)
    constructor
    · rcases h1 with h | ⟨o', ho', h⟩
      · rcases min_choice m o.maxk with e | e
        · left; rw [h, e]
        · right; exact ⟨o, by simp, by rw [h, e]⟩
      · right; exact ⟨o', by simp [ho'], h⟩
    · rintro y (h | ⟨o', ho', h⟩)
      · rw [h]; exact (h2 (Or.inl rfl)).trans (min_le_left _ _)
      · rcases List.mem_cons.mp ho' with e | e
        · rw [h, e]; exact (h2 (Or.inl rfl)).trans (min_le_right _ _)
        · exact h2 (Or.inr ⟨o', e, h⟩)

theorem stepkMin_spec (l : List Prof) (m : ℝ) :
    IsLeast {y | y = m ∨ ∃ o ∈ l, y = o.stepk} (Prof.stepkMin l m) := by
  induction l generalizing m with
  | nil =>
    simp only [Prof.stepkMin]
    refine ⟨Or.inl rfl, ?_⟩
    rintro y (h | ⟨o, ho, _⟩)
    · exact h.ge
    · cases ho
  | cons o l ih =>
    simp only [Prof.stepkMin]
    obtain ⟨h1, h2⟩ := ih (min m o.stepk)
    constructor
    · rcases h1 with h | ⟨o', ho', h⟩
      · rcases min_choice m o.stepk with e | e
        · left; rw [h, e]
        · right; exact ⟨o, by simp, by rw [h, e]⟩
      · right; exact ⟨o', by simp [ho'], h⟩
    · rintro y (h | ⟨o', ho', h⟩)
      · rw [h]; exact (h2 (Or.inl rfl)).trans (min_le_left _ _)
      · rcases List.mem_cons.mp ho' with e | e
        · rw [h, e]; exact (h2 (Or.inl rfl)).trans (min_le_right _ _)
        · exact h2 (Or.inr ⟨o', e, h⟩)

theorem sum_maxk {l : List Prof} (h : l ≠ []) : IsGreatest {y | ∃ o ∈ l, y = o.maxk} (Prof.sum l).maxk := by
  cases l with
  | nil => exact absurd rfl h
  | cons o l =>
    simp only [Prof.maxk]
    convert maxkMax_spec l o.maxk using 1
    ext y; simp

theorem sum_stepk {l : List Prof} (h : l ≠ []) : IsLeast {y | ∃ o ∈ l, y = o.stepk} (Prof.sum l).stepk := by
  cases l with
  | nil => exact absurd rfl h
  | cons o l =>
    simp only [Prof.stepk]
    convert stepkMin_spec l o.stepk using 1
    ext y; simp

/-- C44: `maxk` of a sum is the largest and `stepk` the smallest among the arguments, also when some arguments are
themselves sums (not empty ones). -/
theorem C44_maxk_stepk (l : List Prof) (hl : l ≠ []) (he : ∀ o ∈ l, o ≠ .sum []) :
    IsGreatest {y | ∃ o ∈ l, y = o.maxk} (mkSum l).maxk ∧
    IsLeast {y | ∃ o ∈ l, y = o.stepk} (mkSum l).stepk := by
  have hne : l.flatMap sumTerms ≠ [] := by
    cases l with
    | nil => exact absurd rfl hl
    | cons o l =>
      rw [List.flatMap_cons]
      intro e
      have e1 := (List.append_eq_nil_iff.mp e).1
      have := he o (by simp)
      cases o with
      | sum l' => simp only [sumTerms] at e1; exact this (by rw [e1])
      | _ => simp [sumTerms] at e1
  have htne : ∀ o ∈ l, sumTerms o ≠ [] := by
    intro o ho e
    have := he o ho
    cases o with
    | sum l' => simp only [sumTerms] at e; exact this (by rw [e])
    | _ => simp [sumTerms] at e
  have hg : ∀ o ∈ l, IsGreatest {y | ∃ t ∈ sumTerms o, y = t.maxk} o.maxk := by
    intro o ho
    cases o with
    | sum l' => exact sum_maxk (htne _ ho)
    | _ => refine ⟨⟨_, by simp [sumTerms], rfl⟩, ?_⟩; rintro y ⟨t, ht, e⟩; simp [sumTerms] at ht; rw [e, ht]
  have hst : ∀ o ∈ l, IsLeast {y | ∃ t ∈ sumTerms o, y = t.stepk} o.stepk := by
    intro o ho
    cases o with
    | sum l' => exact sum_stepk (htne _ ho)
    | _ => refine ⟨⟨_, by simp [sumTerms], rfl⟩, ?_⟩; rintro y ⟨t, ht, e⟩; simp [sumTerms] at ht; rw [e, ht]
  have h1 := sum_maxk hne
  have h2 := sum_stepk hne
  refine ⟨⟨?_, ?_⟩, ⟨?_, ?_⟩⟩
  · obtain ⟨t, ht, e⟩ := h1.1
    obtain ⟨o, ho, hto⟩ := List.mem_flatMap.mp ht
    refine ⟨o, ho, le_antisymm ?_ ?_⟩
    · exact (hg o ho).2 ⟨t, hto, e⟩
    · obtain ⟨t', ht', e'⟩ := (hg o ho).1
      rw [e']
      exact h1.2 ⟨t', List.mem_flatMap.mpr ⟨o, ho, ht'⟩, rfl⟩
  · rintro y ⟨o, ho, e⟩
    obtain ⟨t', ht', e'⟩ := (hg o ho).1
    rw [e, e']
    exact h1.2 ⟨t', List.mem_flatMap.mpr ⟨o, ho, ht'⟩, rfl⟩
  · obtain ⟨t, ht, e⟩ := h2.1
    obtain ⟨o, ho, hto⟩ := List.mem_flatMap.mp ht
    refine ⟨o, ho, le_antisymm ?_ ?_⟩
    · obtain ⟨t', ht', e'⟩ := (hst o ho).1
      rw [e']
      exact h2.2 ⟨t', List.mem_flatMap.mpr ⟨o, ho, ht'⟩, rfl⟩
    · exact (hst o ho).2 ⟨t, hto, e⟩
  · rintro y ⟨o, ho, e⟩
    obtain ⟨t', ht', e'⟩ := (hst o ho).1
    rw [e, e']
    exact h2.2 ⟨t', List.mem_flatMap.mpr ⟨o, ho, ht'⟩, rfl⟩

/-- C44: a sum has hard edges if some argument has, and is analytic in real space if all are. -/
theorem C44_flags (l : List Prof) :
    ((mkSum l).hardEdges = true ↔ ∃ o ∈ l, o.hardEdges = true) ∧
    ((mkSum l).analyticX = true ↔ ∀ o ∈ l, o.analyticX = true) := by
  have ha : ∀ m : List Prof, Prof.anyHard m = true ↔ ∃ o ∈ m, o.hardEdges = true := by
    intro m
    induction m with
    | nil => simp [Prof.anyHard]
    | cons o m ih => simp [Prof.anyHard, ih]
  have hb : ∀ m : List Prof, Prof.allAnalyticX m = true ↔ ∀ o ∈ m, o.analyticX = true := by
    intro m
    induction m with
    | nil => simp [Prof.allAnalyticX]
    | cons o m ih => simp [Prof.allAnalyticX, ih]
  have ta : ∀ p : Prof, (∃ o ∈ sumTerms p, o.hardEdges = true) ↔ p.hardEdges = true := by
    intro p
    cases p with
    | sum l' => simp only [sumTerms, Prof.hardEdges, ha]
    | _ => simp [sumTerms]
  have tb : ∀ p : Prof, (∀ o ∈ sumTerms p, o.analyticX = true) ↔ p.analyticX = true := by
    intro p
    cases p with
    | sum l' => simp only [sumTerms, Prof.analyticX, hb]
    | _ => simp [sumTerms]
  simp only [mkSum, Prof.hardEdges, Prof.analyticX, ha, hb]
  constructor
  · constructor
    · rintro ⟨t, ht, h⟩
      obtain ⟨o, ho, hto⟩ := List.mem_flatMap.mp ht
      exact ⟨o, ho, (ta o).mp ⟨t, hto, h⟩⟩
    · rintro ⟨o, ho, h⟩
      obtain ⟨t, ht, h'⟩ := (ta o).mpr h
      exact ⟨t, List.mem_flatMap.mpr ⟨o, ho, ht⟩, h'⟩
  · constructor
    · intro h o ho
      exact (tb o).mp fun t ht => h t (List.mem_flatMap.mpr ⟨o, ho, ht⟩)
    · intro h t ht
      obtain ⟨o, ho, hto⟩ := List.mem_flatMap.mp ht
      exact (tb o).mpr (h o ho) t hto

/-- A second sample profile: flux 3, centred at (0, 2). -/
noncomputable def sampleLeaf2 : Leaf :=
  { sampleLeaf with flux := 3, cen := (0, 2), pos := 4, neg := 1, maxk := 5, stepk := 1 / 2, hard := false }

example : (mkSum [.leaf sampleLeaf, .leaf sampleLeaf2]).centroid = some (1 / 48, 3 / 2) := by
  rw [C44_centroid [.leaf sampleLeaf, .leaf sampleLeaf2] (by simp)
    (fun o => match o with | .leaf L => L.cen | _ => (0, 0)) (by simp [Prof.centroid])
    (by norm_num [Prof.flux, sampleLeaf, sampleLeaf2])]
  norm_num [Prof.flux, sampleLeaf, sampleLeaf2]

example : IsGreatest {y | ∃ o ∈ [mkSum [Prof.leaf sampleLeaf], .leaf sampleLeaf2], y = o.maxk}
    (mkSum [mkSum [.leaf sampleLeaf], .leaf sampleLeaf2]).maxk :=
  (C44_maxk_stepk _ (by simp) (by simp [mkSum, sumTerms])).1

/-! ### C45 -/

theorem kProd_eq (l : List Prof) (k : ℝ × ℝ) : Prof.kProd l k = (l.map fun o => o.kValue k).prod := by
  induction l with
  | nil => simp [Prof.kProd]
  | cons o l ih => simp [Prof.kProd, ih]

theorem fluxProd_eq (l : List Prof) : Prof.fluxProd l = (l.map Prof.flux).prod := by
  induction l with
  | nil => simp [Prof.fluxProd]
  | cons o l ih => simp [Prof.fluxProd, ih]

theorem cenSum_eq (l : List Prof) (c : Prof → ℝ × ℝ) (hc : ∀ o ∈ l, o.centroid = some (c o)) :
    Prof.cenSum l = some (l.map c).sum := by
  induction l with
  | nil => simp [Prof.cenSum]
  | cons o l ih =>
    simp only [Prof.cenSum]
    rw [hc o (by simp), ih (fun o' ho' => hc o' (by simp [ho']))]
    simp

/-- C45: flux and Fourier value of a convolution are the products, the centroid is the sum. -/
theorem C45_values (l : List Prof) :
    (mkConv l).flux = (l.map Prof.flux).prod ∧
    (∀ k, (mkConv l).kValue k = (l.map fun o => o.kValue k).prod) ∧
    (∀ c : Prof → ℝ × ℝ, (∀ o ∈ l, o.centroid = some (c o)) → (mkConv l).centroid = some (l.map c).sum) := by
  simp only [mkConv, Prof.flux, Prof.kValue, Prof.centroid]
  exact ⟨fluxProd_eq l, kProd_eq l, cenSum_eq l⟩

theorem invStepkSq_eq (l : List Prof) : Prof.invStepkSq l = (l.map fun o => 1 / o.stepk ^ 2).sum := by
  induction l with
  | nil => simp [Prof.invStepkSq]
  | cons o l ih => simp [Prof.invStepkSq, ih]

theorem invStepkSq_pos {l : List Prof} (hl : l ≠ []) (hp : ∀ o ∈ l, 0 < o.stepk) : 0 < Prof.invStepkSq l := by
  cases l with
  | nil => exact absurd rfl hl
  | cons o l =>
    clear hl
    induction l generalizing o with
    | nil =>
      simp only [Prof.invStepkSq, add_zero]
      have := hp o (by simp); positivity
    | cons o' l ih =>
      have h1 := hp o (by simp)
      have h2 := ih o' (fun q hq => hp q (by simp only [List.mem_cons] at hq ⊢; tauto))
      rw [Prof.invStepkSq]
      have : (0 : ℝ) < 1 / o.stepk ^ 2 := by positivity
      linarith

/-- C45: `maxk` of a convolution is the smallest `maxk`; the sizes `1 / stepk` add in quadrature. -/
theorem C45_maxk_stepk (l : List Prof) (hl : l ≠ []) (hp : ∀ o ∈ l, 0 < o.stepk) :
    IsLeast {y | ∃ o ∈ l, y = o.maxk} (mkConv l).maxk ∧
    0 < (mkConv l).stepk ∧ 1 / (mkConv l).stepk ^ 2 = (l.map fun o => 1 / o.stepk ^ 2).sum := by
  refine ⟨?_, ?_, ?_⟩
  · cases l with
    | nil => exact absurd rfl hl
    | cons o l =>
      simp only [mkConv, Prof.maxk]
      convert maxkMin_spec l o.maxk using 1
      ext y; simp
  · simp only [mkConv, Prof.stepk]
    have := Real.sqrt_pos.mpr (invStepkSq_pos hl hp)
    positivity
  · simp only [mkConv, Prof.stepk]
    have h := invStepkSq_pos hl hp
    rw [← invStepkSq_eq, div_pow, Real.sq_sqrt h.le]
    field_simp

/-- C45: convolving with a convolution is convolving with its arguments, as far as Fourier value, flux and centroid
go. -/
theorem C45_nesting (a b c : List Prof) :
    (∀ k, (mkConv (a ++ [mkConv b] ++ c)).kValue k = (mkConv (a ++ b ++ c)).kValue k) ∧
    (mkConv (a ++ [mkConv b] ++ c)).flux = (mkConv (a ++ b ++ c)).flux ∧
    (mkConv (a ++ [mkConv b] ++ c)).centroid = (mkConv (a ++ b ++ c)).centroid := by
  refine ⟨?_, ?_, ?_⟩
  · intro k
    rw [(C45_values _).2.1, (C45_values _).2.1]
    simp only [List.map_append, List.prod_append, List.map_cons, List.map_nil, List.prod_cons, List.prod_nil]
    rw [(C45_values b).2.1]; ring
  · rw [(C45_values _).1, (C45_values _).1]
    simp only [List.map_append, List.prod_append, List.map_cons, List.map_nil, List.prod_cons, List.prod_nil]
    rw [(C45_values b).1]; ring
  · have happ : ∀ l m : List Prof, Prof.cenSum (l ++ m) =
        (Prof.cenSum l).bind fun x => (Prof.cenSum m).map fun y => x + y := by
      intro l m
      induction l with
      | nil =>
        simp only [List.nil_append, Prof.cenSum, Option.bind_some]
        cases Prof.cenSum m with
        | none => rfl
        | some b => simp [Prod.ext_iff]
      | cons o l ih =>
        simp only [List.cons_append, Prof.cenSum, ih]
        cases o.centroid <;> cases Prof.cenSum l <;> cases Prof.cenSum m <;> simp [add_assoc]
    have hone : Prof.cenSum [mkConv b] = Prof.cenSum b := by
      simp only [Prof.cenSum, mkConv, Prof.centroid]
      cases Prof.cenSum b with
      | none => rfl
      | some b => simp [Prod.ext_iff]
    simp only [mkConv, Prof.centroid]
    rw [happ, happ, happ, happ]
    rw [show Prof.conv b = mkConv b from rfl, hone]

/-- C45: nesting does not change `maxk` and `stepk` either (inner list not empty, positive `stepk`s). -/
theorem C45_nesting_maxk_stepk (a b c : List Prof) (hb : b ≠ []) (hp : ∀ o ∈ a ++ b ++ c, 0 < o.stepk) :
    (mkConv (a ++ [mkConv b] ++ c)).maxk = (mkConv (a ++ b ++ c)).maxk ∧
    (mkConv (a ++ [mkConv b] ++ c)).stepk = (mkConv (a ++ b ++ c)).stepk := by
  have hpb : ∀ o ∈ b, 0 < o.stepk := fun o ho => hp o (by simp [ho])
  obtain ⟨m1, p1, s1⟩ := C45_maxk_stepk b hb hpb
  have hp' : ∀ o ∈ a ++ [mkConv b] ++ c, 0 < o.stepk := by
    intro o ho
    simp only [List.mem_append, List.mem_singleton] at ho
    rcases ho with (h | h) | h
    · exact hp o (by simp [h])
    · rw [h]; exact p1
    · exact hp o (by simp [h])
  obtain ⟨m2, p2, s2⟩ := C45_maxk_stepk (a ++ b ++ c) (by simp [hb]) hp
  obtain ⟨m3, p3, s3⟩ := C45_maxk_stepk (a ++ [mkConv b] ++ c) (by simp) hp'
  constructor
  · apply le_antisymm
    · obtain ⟨o, ho, e⟩ := m2.1
      rw [e]
      simp only [List.mem_append] at ho
      rcases ho with (h | h) | h
      · exact m3.2 ⟨o, by simp [h], rfl⟩
      · exact (m3.2 ⟨mkConv b, by simp, rfl⟩).trans (m1.2 ⟨o, h, rfl⟩)
      · exact m3.2 ⟨o, by simp [h], rfl⟩
    · obtain ⟨o, ho, e⟩ := m3.1
      rw [e]
      simp only [List.mem_append, List.mem_singleton] at ho
      rcases ho with (h | h) | h
      · exact m2.2 ⟨o, by simp [h], rfl⟩
      · rw [h]
        obtain ⟨o', ho', e'⟩ := m1.1
        rw [e']
        exact m2.2 ⟨o', by simp [ho'], rfl⟩
      · exact m2.2 ⟨o, by simp [h], rfl⟩
  · have : 1 / (mkConv (a ++ [mkConv b] ++ c)).stepk ^ 2 = 1 / (mkConv (a ++ b ++ c)).stepk ^ 2 := by
      rw [s2, s3]
      simp only [List.map_append, List.sum_append, List.map_cons, List.map_nil, List.sum_cons, List.sum_nil]
      rw [s1]; ring
    rw [one_div, one_div] at this
    have h := inv_injective this
    exact (pow_left_inj₀ p3.le p2.le (by norm_num)).mp h

/-- Disagreement: `Convolution._kValue` multiplies over all axes of the array of Fourier values, so for an array of
positions it returns one number, the product over the positions, instead of one value per position. -/
theorem C45_counterexample_array :
    convKValueArray [.leaf { sampleLeaf with kv := fun k => k.1 }] [(2, 0), (3, 0)] = 6 ∧
    (mkConv [.leaf { sampleLeaf with kv := fun k => k.1 }]).kValue (2, 0) = 2 := by
  constructor
  · norm_num [convKValueArray, Prof.kValue]
  · norm_num [mkConv, Prof.kValue, Prof.kProd]

/-- For a single position the array form agrees with the value. -/
theorem C45_array_partial (l : List Prof) (k : ℝ × ℝ) : convKValueArray l [k] = (mkConv l).kValue k := by
  rw [(C45_values l).2.1]; simp [convKValueArray]

/-- C45, which convolutions can be built: `real_space` is chosen exactly when there are at most two arguments, all with
hard edges; real-space convolution of at most two analytic profiles raises, and with more than two or a non-analytic
profile it falls back with a warning. -/
theorem C45_real_space (hard analytic : List Bool) (rs : Option Bool) :
    (convolveCtor hard analytic rs = none ↔
      (rs = some true ∨ (rs = none ∧ ∀ b ∈ hard, b = true)) ∧ hard.length ≤ 2 ∧ ∀ b ∈ analytic, b = true) ∧
    (convolveCtor hard analytic rs = some false ↔
      (rs = some false ∨ rs = none) ∧ ¬ ∀ b ∈ hard, b = true) := by
  have hall : ∀ l : List Bool, (l.all id = true ↔ ∀ b ∈ l, b = true) := by intro l; simp
  have hh := hall hard
  have ha := hall analytic
  unfold convolveCtor
  cases h1 : hard.all id <;> cases h2 : analytic.all id <;> rw [h1] at hh <;> rw [h2] at ha <;>
    simp only [Bool.false_eq_true, false_iff, true_iff] at hh ha <;>
    rcases rs with _ | b <;> (try cases b) <;> by_cases h3 : hard.length ≤ 2 <;> simp [h1, h2, h3] <;>
    first
    | (simpa using hh) | (simpa using ha) | skip
  all_goals simp_all

example : convolveCtor [true, true] [true, true] none = none ∧ convolveCtor [true, false] [true, true] none = some false := by
  decide

example : (mkConv [.leaf sampleLeaf, .leaf sampleLeaf2]).flux = 3 := by
  rw [(C45_values _).1]; norm_num [Prof.flux, sampleLeaf, sampleLeaf2]

example : ∀ o ∈ [Prof.leaf sampleLeaf, .leaf sampleLeaf2], 0 < o.stepk := by
  norm_num [Prof.stepk, sampleLeaf, sampleLeaf2]

end JG
