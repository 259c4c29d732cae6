import Verif.Model.Integ
import Mathlib.MeasureTheory.Integral.IntervalIntegral.Basic
import Mathlib.MeasureTheory.Constructions.BorelSpace.Real
import Mathlib.Analysis.SpecialFunctions.ImproperIntegrals
import Mathlib.Analysis.SpecialFunctions.Integrals.Basic
import Mathlib.Analysis.Real.Pi.Bounds

/-!
# C99: `int1d` gives the integral between its limits

The specification is the Lebesgue integral over the points between the two ends, which may be
infinite, with a minus sign if the ends are in the wrong order.  About the third-party routine
`quadgk` it is assumed only that a call which reports success is as accurate as asked.
-/

namespace JG.Integ

open MeasureTheory Set
open scoped Real

/-- The points above `a` and not above `b`. -/
def region (a b : EReal) : Set ℝ := {x | a < (x : EReal) ∧ (x : EReal) ≤ b}

/-- The integral from `a` to `b`. -/
noncomputable def intE (f : ℝ → ℝ) (a b : EReal) : ℝ :=
  (∫ x in region a b, f x) - ∫ x in region b a, f x

/-- What is assumed of `quadgk`: if it reports success then it is within the absolute or the
relative tolerance. -/
def Accurate (q : Quad) (f : ℝ → ℝ) : Prop :=
  ∀ a b ea er, 0 ≤ ea → ¬(isInf a ∧ isInf b) → (q f a b ea er).status = 0 →
    |(q f a b ea er).val - intE f a b| ≤ max ea (er * |intE f a b|)

/-- The quadrature which is always right, as a test case. -/
noncomputable def exact : Quad := fun f a b _ _ => ⟨intE f a b, 0⟩

theorem exact_accurate (f : ℝ → ℝ) : Accurate exact f := by
  intro a b ea er he _ _
  simp [exact, he]

theorem measurableSet_region (a b : EReal) : MeasurableSet (region a b) := by
  have h := measurable_coe_real_ereal
  exact (measurableSet_lt measurable_const h).inter (measurableSet_le h measurable_const)

theorem region_empty {a b : EReal} (h : b ≤ a) : region a b = ∅ := by
  ext x
  simp only [region, mem_ofPred_eq, mem_empty_iff_false, iff_false, not_and, not_le]
  intro hx
  exact lt_of_le_of_lt h hx

theorem region_union {a b c : EReal} (h : a ≤ b) (h' : b ≤ c) :
    region a c = region a b ∪ region b c := by
  ext x
  simp only [region, mem_ofPred_eq, mem_union]
  constructor
  · rintro ⟨h1, h2⟩
    by_cases hx : (x : EReal) ≤ b
    · exact Or.inl ⟨h1, hx⟩
    · exact Or.inr ⟨not_le.1 hx, h2⟩
  · rintro (⟨h1, h2⟩ | ⟨h1, h2⟩)
    · exact ⟨h1, h2.trans h'⟩
    · exact ⟨lt_of_le_of_lt h h1, h2⟩

theorem region_disjoint (a b c : EReal) : Disjoint (region a b) (region b c) := by
  rw [Set.disjoint_left]
  rintro x ⟨_, h1⟩ ⟨h2, _⟩
  exact absurd h1 (not_le.2 h2)

/-- The integral is a difference of integrals from minus infinity. -/
theorem intE_eq {f : ℝ → ℝ} (hf : Integrable f) (a b : EReal) :
    intE f a b = (∫ x in region ⊥ b, f x) - ∫ x in region ⊥ a, f x := by
  rcases le_total a b with h | h
  · have hu := region_union (bot_le : ⊥ ≤ a) h
    rw [intE, region_empty h, hu, setIntegral_union (region_disjoint _ _ _)
      (measurableSet_region _ _) hf.integrableOn hf.integrableOn]
    simp
  · have hu := region_union (bot_le : ⊥ ≤ b) h
    rw [intE, region_empty h, hu, setIntegral_union (region_disjoint _ _ _)
      (measurableSet_region _ _) hf.integrableOn hf.integrableOn]
    simp

theorem intE_add {f : ℝ → ℝ} (hf : Integrable f) (a b c : EReal) :
    intE f a b + intE f b c = intE f a c := by
  rw [intE_eq hf, intE_eq hf, intE_eq hf]; ring

theorem intE_self (f : ℝ → ℝ) (a : EReal) : intE f a a = 0 := by simp [intE]

/-- Between finite ends the specification is the usual integral. -/
theorem intE_coe (f : ℝ → ℝ) (a b : ℝ) : intE f a b = ∫ x in a..b, f x := by
  have h : ∀ a b : ℝ, region a b = Ioc a b := by
    intro a b; ext x; simp [region, Ioc]
  rw [intE, h, h, intervalIntegral]

/-- Over the whole line it is the integral over the whole line. -/
theorem intE_line (f : ℝ → ℝ) : intE f ⊥ ⊤ = ∫ x, f x := by
  have h : region ⊥ ⊤ = univ := by ext x; simp [region, EReal.bot_lt_coe]
  rw [intE, h, region_empty bot_le]; simp

/-- To plus infinity it is the integral over the half line. -/
theorem intE_ioi (f : ℝ → ℝ) (a : ℝ) : intE f a ⊤ = ∫ x in Ioi a, f x := by
  have h : region a ⊤ = Ioi a := by ext x; simp [region, Ioi]
  rw [intE, h, region_empty le_top]; simp

theorem limit_of_le {cut : ℝ} {a : EReal} (h : ((-cut : ℝ) : EReal) ≤ a) (h' : a ≤ cut) :
    limit cut a = a := by
  rw [limit, if_neg (not_lt.2 h'), if_neg (not_lt.2 h)]

theorem limit_top (cut : ℝ) : limit cut ⊤ = ⊤ := by
  rw [limit, if_pos (EReal.coe_lt_top _)]

theorem limit_bot (cut : ℝ) : limit cut ⊥ = ⊥ := by
  rw [limit, if_neg (not_lt_bot), if_pos (EReal.bot_lt_coe _)]

theorem limit_above {cut : ℝ} {a : EReal} (h : (cut : EReal) < a) : limit cut a = ⊤ := by
  rw [limit, if_pos h]

theorem limit_below {cut : ℝ} (hc : 0 ≤ cut) {a : EReal} (h : a < ((-cut : ℝ) : EReal)) :
    limit cut a = ⊥ := by
  have h2 : ((-cut : ℝ) : EReal) ≤ cut := by exact_mod_cast by linarith
  rw [limit, if_neg (not_lt.2 (h.le.trans h2)), if_pos h]

theorem int1d_some {q : Quad} {f : ℝ → ℝ} {a b : EReal} {er ea cut v : ℝ}
    (h : int1d q f a b er ea cut = some v) :
    (rawInt q f (limit cut a) (limit cut b) ea er).status = 0 ∧
      v = (rawInt q f (limit cut a) (limit cut b) ea er).val := by
  unfold int1d at h
  by_cases hs : (rawInt q f (limit cut a) (limit cut b) ea er).status = 0
  · simp only [hs, ne_eq, not_true_eq_false, if_false, Option.some.injEq] at h
    exact ⟨hs, h.symm⟩
  · simp [hs] at h

/-- C99: with limits inside the cutoff, `int1d` either reports failure, or is within the tolerance
of the integral between its limits (in either order). -/
theorem C99_finite {q : Quad} {f : ℝ → ℝ} (hq : Accurate q f) {a b er ea cut v : ℝ}
    (he : 0 ≤ ea) (ha : |a| ≤ cut) (hb : |b| ≤ cut) (h : int1d q f a b er ea cut = some v) :
    |v - ∫ x in a..b, f x| ≤ max ea (er * |∫ x in a..b, f x|) := by
  obtain ⟨hs, rfl⟩ := int1d_some h
  have la : limit cut (a : EReal) = a :=
    limit_of_le (by exact_mod_cast (abs_le.1 ha).1) (by exact_mod_cast (abs_le.1 ha).2)
  have lb : limit cut (b : EReal) = b :=
    limit_of_le (by exact_mod_cast (abs_le.1 hb).1) (by exact_mod_cast (abs_le.1 hb).2)
  have hi : ¬(isInf (a : EReal) ∧ isInf (b : EReal)) := by simp [isInf]
  rw [la, lb, rawInt, if_neg hi] at hs ⊢
  have := hq a b ea er he hi hs
  rwa [intE_coe] at this

example : int1d exact (fun x => x) (1 : ℝ) (3 : ℝ) 1e-6 1e-12 1e4 = some 4 := by
  have h1 : limit 1e4 ((1 : ℝ) : EReal) = (1 : ℝ) :=
    limit_of_le (by norm_cast; norm_num) (by norm_cast; norm_num)
  have h3 : limit 1e4 ((3 : ℝ) : EReal) = (3 : ℝ) :=
    limit_of_le (by norm_cast; norm_num) (by norm_cast; norm_num)
  have hi : ¬(isInf ((1 : ℝ) : EReal) ∧ isInf ((3 : ℝ) : EReal)) := by
    rintro ⟨h | h, -⟩
    · exact EReal.coe_ne_top _ h
    · exact EReal.coe_ne_bot _ h
  have hr : rawInt exact (fun x => x) ((1 : ℝ) : EReal) ((3 : ℝ) : EReal) 1e-12 1e-6 =
      ⟨intE (fun x => x) (1 : ℝ) (3 : ℝ), 0⟩ := by
    rw [rawInt, if_neg hi]; rfl
  rw [int1d, h1, h3, hr, intE_coe, integral_id]
  norm_num

/-- C99: a failure reported by the quadrature is never hidden: a value is returned only if every
call it is made of succeeded. -/
theorem C99_failure {q : Quad} {f : ℝ → ℝ} {a b : EReal} {er ea cut v : ℝ}
    (h : int1d q f a b er ea cut = some v) :
    (isInf (limit cut a) ∧ isInf (limit cut b) →
      (q f (limit cut a) 0 ea er).status = 0 ∧ (q f 0 (limit cut b) ea er).status = 0) ∧
    (¬(isInf (limit cut a) ∧ isInf (limit cut b)) →
      (q f (limit cut a) (limit cut b) ea er).status = 0) := by
  obtain ⟨hs, -⟩ := int1d_some h
  constructor
  · intro hi
    rw [rawInt, if_pos hi] at hs
    exact Nat.or_eq_zero_iff.1 hs
  · intro hi
    rwa [rawInt, if_neg hi] at hs

example (f : ℝ → ℝ) {v : ℝ} (h : int1d exact f ⊥ ⊤ 1e-6 1e-12 1e4 = some v) :
    (exact f (limit 1e4 ⊥) 0 1e-12 1e-6).status = 0 :=
  ((C99_failure h).1 (by rw [limit_top, limit_bot]; simp [isInf])).1

/-- The other half: `int1d` fails if the part on one side of zero fails. -/
theorem C99_failure_raised {q : Quad} {f : ℝ → ℝ} {er ea cut : ℝ}
    (h : (q f ⊥ 0 ea er).status ≠ 0 ∨ (q f 0 ⊤ ea er).status ≠ 0) :
    int1d q f ⊥ ⊤ er ea cut = none := by
  cases hv : int1d q f ⊥ ⊤ er ea cut with
  | none => rfl
  | some v =>
    have := (C99_failure hv).1 (by rw [limit_top, limit_bot]; simp [isInf])
    rw [limit_top, limit_bot] at this
    rcases h with h | h
    · exact absurd this.1 h
    · exact absurd this.2 h

/-- The quadrature which fails on negative numbers, as a test case. -/
noncomputable def failsLeft : Quad := fun f a b _ _ =>
  ⟨intE f a b, if a = ⊥ then 2 else 0⟩

example (f : ℝ → ℝ) : int1d failsLeft f ⊥ ⊤ 1e-6 1e-12 1e4 = none :=
  C99_failure_raised (Or.inl (by simp [failsLeft]))

/-- C99: from a finite limit to infinity. -/
theorem C99_half {q : Quad} {f : ℝ → ℝ} (hq : Accurate q f) {a er ea cut v : ℝ}
    (he : 0 ≤ ea) (ha : |a| ≤ cut) (h : int1d q f a ⊤ er ea cut = some v) :
    |v - ∫ x in Ioi a, f x| ≤ max ea (er * |∫ x in Ioi a, f x|) := by
  obtain ⟨hs, rfl⟩ := int1d_some h
  have la : limit cut (a : EReal) = a :=
    limit_of_le (by exact_mod_cast (abs_le.1 ha).1) (by exact_mod_cast (abs_le.1 ha).2)
  have hi : ¬(isInf (a : EReal) ∧ isInf (⊤ : EReal)) := by simp [isInf]
  rw [la, limit_top, rawInt, if_neg hi] at hs ⊢
  have := hq a ⊤ ea er he hi hs
  rwa [intE_ioi] at this

/-- The whole line: the parts left and right of zero are each within the tolerance. -/
theorem rawInt_split {q : Quad} {f : ℝ → ℝ} (hq : Accurate q f) {a b : EReal} {er ea : ℝ}
    (he : 0 ≤ ea) (hi : isInf a ∧ isInf b) (hs : (rawInt q f a b ea er).status = 0) :
    |(rawInt q f a b ea er).val - (intE f a 0 + intE f 0 b)| ≤
      max ea (er * |intE f a 0|) + max ea (er * |intE f 0 b|) := by
  have h0 : ¬ isInf (0 : EReal) := by simp [isInf]
  rw [rawInt, if_pos hi] at hs ⊢
  obtain ⟨h1, h2⟩ := Nat.or_eq_zero_iff.1 hs
  have e1 := hq a 0 ea er he (fun h => h0 h.2) h1
  have e2 := hq 0 b ea er he (fun h => h0 h.1) h2
  calc _ = |((q f a 0 ea er).val - intE f a 0) + ((q f 0 b ea er).val - intE f 0 b)| := by
        congr 1; simp only [splitInt]; ring
    _ ≤ _ := (abs_add_le _ _).trans (add_le_add e1 e2)

/-- C99: over the whole line the errors of the two halves add up. -/
theorem C99_line {q : Quad} {f : ℝ → ℝ} (hq : Accurate q f) (hf : Integrable f) {er ea cut v : ℝ}
    (he : 0 ≤ ea) (h : int1d q f ⊥ ⊤ er ea cut = some v) :
    |v - ∫ x, f x| ≤ max ea (er * |∫ x in Iic 0, f x|) + max ea (er * |∫ x in Ioi 0, f x|) := by
  obtain ⟨hs, rfl⟩ := int1d_some h
  rw [limit_bot, limit_top] at hs ⊢
  have := rawInt_split hq he (by simp [isInf]) hs
  have h0 : intE f ⊥ 0 = ∫ x in Iic 0, f x := by
    have h : region ⊥ 0 = Iic 0 := by ext x; simp [region, Iic, EReal.bot_lt_coe]
    rw [intE, h, region_empty bot_le]; simp
  have h1 : intE f 0 ⊤ = ∫ x in Ioi 0, f x := intE_ioi f 0
  rw [intE_add hf, intE_line, h0, h1] at this
  exact this

/-- The integral of `|f|` outside the finite limits which `int1d` takes for infinite. -/
noncomputable def cutTail (f : ℝ → ℝ) (cut a b : ℝ) : ℝ :=
  (if a < -cut then ∫ x in Iic a, |f x| else 0) + (if cut < b then ∫ x in Ioi b, |f x| else 0)

/-- Full statement (false, see the counterexamples): for all finite limits the result is within the
tolerance of the integral between them.  Proved: it is, up to the light in the tails outside those
limits which exceed the cutoff, provided that the lower limit is not above the cutoff and the upper
one not below minus the cutoff.  The tolerance is relative to the integral that is taken. -/
theorem C99_partial {q : Quad} {f : ℝ → ℝ} (hq : Accurate q f) (hf : Integrable f)
    {a b er ea cut v : ℝ} (hc : 0 ≤ cut) (he : 0 ≤ ea) (hr : 0 ≤ er) (ha : a ≤ cut) (hb : -cut ≤ b)
    (h : int1d q f a b er ea cut = some v) :
    |v - ∫ x in a..b, f x| ≤ 2 * ea + er * (∫ x, |f x|) + cutTail f cut a b := by
  obtain ⟨hs, rfl⟩ := int1d_some h
  obtain ⟨A, hA⟩ : ∃ A, A = limit cut (a : EReal) := ⟨_, rfl⟩
  obtain ⟨B, hB⟩ : ∃ B, B = limit cut (b : EReal) := ⟨_, rfl⟩
  rw [← hA, ← hB] at hs ⊢
  have habs : ∀ s : Set ℝ, MeasurableSet s → |∫ x in s, f x| ≤ ∫ x in s, |f x| := fun s _ =>
    abs_integral_le_integral_abs
  -- the tails
  have tA : |intE f A a| ≤ if a < -cut then ∫ x in Iic a, |f x| else 0 := by
    by_cases hlt : a < -cut
    · rw [if_pos hlt, hA, limit_below hc (by exact_mod_cast hlt)]
      have hr : region ⊥ (a : EReal) = Iic a := by ext x; simp [region, Iic, EReal.bot_lt_coe]
      rw [intE, hr, region_empty bot_le]
      simpa using habs (Iic a) measurableSet_Iic
    · rw [if_neg hlt, hA, limit_of_le (by exact_mod_cast not_lt.1 hlt) (by exact_mod_cast ha),
        intE_self, abs_zero]
  have tB : |intE f b B| ≤ if cut < b then ∫ x in Ioi b, |f x| else 0 := by
    by_cases hlt : cut < b
    · rw [if_pos hlt, hB, limit_above (by exact_mod_cast hlt), intE_ioi]
      exact habs (Ioi b) measurableSet_Ioi
    · rw [if_neg hlt, hB, limit_of_le (by exact_mod_cast hb) (by exact_mod_cast not_lt.1 hlt),
        intE_self, abs_zero]
  -- the value taken
  have small : ∀ x y : EReal, |intE f x y| ≤ ∫ t in region x y ∪ region y x, |f t| := by
    intro x y
    rcases le_total x y with h | h
    · rw [intE, region_empty h]
      simpa using habs _ (measurableSet_region x y)
    · rw [intE, region_empty h]
      simpa using habs _ (measurableSet_region y x)
  have whole : ∀ s : Set ℝ, (∫ t in s, |f t|) ≤ ∫ t, |f t| := fun s =>
    setIntegral_le_integral hf.abs (Filter.Eventually.of_forall fun x => abs_nonneg _)
  have key : |(rawInt q f A B ea er).val - intE f A B| ≤ 2 * ea + er * ∫ x, |f x| := by
    by_cases hi : isInf A ∧ isInf B
    · have h1 := rawInt_split hq he hi hs
      rw [intE_add hf] at h1
      have hA' : A = ⊥ := by
        by_contra hne
        rcases hi.1 with ht | ht
        · by_cases hlt : a < -cut
          · rw [hA, limit_below hc (by exact_mod_cast hlt)] at ht
            exact absurd ht bot_ne_top
          · rw [hA, limit_of_le (by exact_mod_cast not_lt.1 hlt) (by exact_mod_cast ha)] at ht
            exact absurd ht (EReal.coe_ne_top _)
        · exact hne ht
      have hB' : B = ⊤ := by
        by_contra hne
        rcases hi.2 with ht | ht
        · exact hne ht
        · by_cases hlt : cut < b
          · rw [hB, limit_above (by exact_mod_cast hlt)] at ht
            exact absurd ht.symm bot_ne_top
          · rw [hB, limit_of_le (by exact_mod_cast hb) (by exact_mod_cast not_lt.1 hlt)] at ht
            exact absurd ht (EReal.coe_ne_bot _)
      have hsum : |intE f A 0| + |intE f 0 B| ≤ ∫ x, |f x| := by
        have e1 : |intE f A 0| ≤ ∫ t in region ⊥ 0, |f t| := by
          rw [hA', intE, region_empty (bot_le : (⊥ : EReal) ≤ 0)]
          simpa using habs _ (measurableSet_region ⊥ 0)
        have e2 : |intE f 0 B| ≤ ∫ t in region 0 ⊤, |f t| := by
          rw [hB', intE, region_empty (le_top : (0 : EReal) ≤ ⊤)]
          simpa using habs _ (measurableSet_region 0 ⊤)
        have e3 := setIntegral_union (μ := volume) (f := fun t => |f t|)
          (region_disjoint ⊥ 0 ⊤) (measurableSet_region _ _) hf.abs.integrableOn hf.abs.integrableOn
        have e4 := whole (region ⊥ 0 ∪ region 0 ⊤)
        linarith
      have m1 : max ea (er * |intE f A 0|) ≤ ea + er * |intE f A 0| :=
        max_le (by have := mul_nonneg hr (abs_nonneg (intE f A 0)); linarith) (by linarith)
      have m2 : max ea (er * |intE f 0 B|) ≤ ea + er * |intE f 0 B| :=
        max_le (by have := mul_nonneg hr (abs_nonneg (intE f 0 B)); linarith) (by linarith)
      have m3 := mul_le_mul_of_nonneg_left hsum hr
      linarith
    · have h1 : |(rawInt q f A B ea er).val - intE f A B| ≤ max ea (er * |intE f A B|) := by
        rw [rawInt, if_neg hi] at hs ⊢
        exact hq A B ea er he hi hs
      have m3 := mul_le_mul_of_nonneg_left ((small A B).trans (whole _)) hr
      have m4 : 0 ≤ er * |intE f A B| := mul_nonneg hr (abs_nonneg _)
      have m1 : max ea (er * |intE f A B|) ≤ ea + er * |intE f A B| :=
        max_le (by linarith) (by linarith)
      linarith
  have hadd : intE f A B = intE f A a + intE f a b + intE f b B := by
    rw [intE_add hf, intE_add hf]
  rw [intE_coe] at hadd
  have : (rawInt q f A B ea er).val - ∫ x in a..b, f x =
      ((rawInt q f A B ea er).val - intE f A B) + (intE f A a + intE f b B) := by
    rw [hadd]; ring
  rw [this, cutTail]
  have t1 := abs_add_le ((rawInt q f A B ea er).val - intE f A B) (intE f A a + intE f b B)
  have t2 := abs_add_le (intE f A a) (intE f b B)
  linarith

/-- The test integrand `1 / (1 + x²)`. -/
noncomputable def lorentz (x : ℝ) : ℝ := (1 + x ^ 2)⁻¹

theorem lorentz_integrable : Integrable lorentz := integrable_inv_one_add_sq

theorem intE_lorentz (a b : ℝ) : intE lorentz a b = Real.arctan b - Real.arctan a := by
  rw [intE_coe]; exact integral_inv_one_add_sq

/-- The light of the test integrand between two positive limits is more than their difference
divided by one plus the square of the upper one. -/
theorem lorentz_lower {a b : ℝ} (ha : 0 ≤ a) (hab : a ≤ b) :
    (b - a) * (1 + b ^ 2)⁻¹ ≤ Real.arctan b - Real.arctan a := by
  rw [← intE_lorentz, intE_coe]
  have hc : IntervalIntegrable lorentz volume a b := lorentz_integrable.intervalIntegrable
  have := intervalIntegral.integral_mono_on hab
    (intervalIntegrable_const (c := (1 + b ^ 2)⁻¹) (μ := volume)) hc (fun x hx => by
      unfold lorentz
      have h0 : 0 ≤ x := ha.trans hx.1
      have h1 : x ^ 2 ≤ b ^ 2 := by have := hx.2; nlinarith
      exact inv_anti₀ (by positivity) (by linarith))
  simpa using this

theorem big (a : ℝ) (h : 1e4 < a) : limit 1e4 (a : EReal) = ⊤ := limit_above (by exact_mod_cast h)

/-- Disagreement: two finite limits on the same side of the cutoff are both taken for infinity, and
the integral from 20000 to 40000 of a positive function comes out as zero.  The quadrature is exact
here. -/
theorem C99_counterexample_both :
    int1dDefault exact lorentz (20000 : ℝ) (40000 : ℝ) = some 0 ∧
      1 / 100000 < ∫ x in (20000 : ℝ)..40000, lorentz x := by
  have hA := big 20000 (by norm_num)
  have hB := big 40000 (by norm_num)
  constructor
  · rw [int1dDefault, int1d, hA, hB]
    have : rawInt exact lorentz ⊤ ⊤ 1e-12 1e-6 = ⟨intE lorentz ⊤ 0 + intE lorentz 0 ⊤, 0 ||| 0⟩ := by
      rw [rawInt, if_pos (by simp [isInf])]; rfl
    rw [this, intE_add lorentz_integrable, intE_self]
    simp
  · rw [← intE_coe, intE_lorentz]
    have := lorentz_lower (a := 20000) (b := 40000) (by norm_num) (by norm_num)
    refine lt_of_lt_of_le ?_ this
    norm_num

/-- Disagreement: an upper limit of 20000 is taken for infinity; the result is then off by more than
twenty times the relative tolerance, although no failure is reported.  The quadrature is exact
here. -/
theorem C99_counterexample_tail :
    int1dDefault exact lorentz (0 : ℝ) (20000 : ℝ) = some (π / 2) ∧
      20 * (1e-6 * |∫ x in (0 : ℝ)..20000, lorentz x| + 1e-12) <
        |π / 2 - ∫ x in (0 : ℝ)..20000, lorentz x| := by
  have hB := big 20000 (by norm_num)
  have hA : limit 1e4 ((0 : ℝ) : EReal) = (0 : ℝ) :=
    limit_of_le (by norm_cast; norm_num) (by norm_cast; norm_num)
  constructor
  · rw [int1dDefault, int1d, hA, hB]
    have hi : ¬(isInf ((0 : ℝ) : EReal) ∧ isInf (⊤ : EReal)) := by simp [isInf]
    have : rawInt exact lorentz ((0 : ℝ) : EReal) ⊤ 1e-12 1e-6 = ⟨intE lorentz (0 : ℝ) ⊤, 0⟩ := by
      rw [rawInt, if_neg hi]; rfl
    rw [this, intE_ioi]
    have h0 : (∫ x in Ioi (0 : ℝ), lorentz x) = π / 2 := by
      simp [lorentz]
    simp [h0]
  · rw [← intE_coe, intE_lorentz, Real.arctan_zero, sub_zero]
    have h1 : Real.arctan 20000 = π / 2 - Real.arctan (20000⁻¹) := by
      rw [Real.arctan_inv_of_pos (by norm_num)]; ring
    have h2 : (1 : ℝ) / 20001 ≤ Real.arctan (20000⁻¹) := by
      have := lorentz_lower (a := 0) (b := 20000⁻¹) le_rfl (by norm_num)
      rw [Real.arctan_zero, sub_zero, sub_zero] at this
      refine le_trans ?_ this
      norm_num
    have h3 : Real.arctan 20000 < 1.6 := by
      have := Real.arctan_lt_pi_div_two 20000
      have := Real.pi_lt_d2
      linarith
    have h4 : 0 < Real.arctan 20000 := Real.arctan_pos.2 (by norm_num)
    rw [abs_of_pos h4, show π / 2 - Real.arctan 20000 = Real.arctan (20000⁻¹) by rw [h1]; ring,
      abs_of_nonneg (le_trans (by norm_num) h2)]
    norm_num at *
    linarith

/-- Half of the line, and the whole line, with the exact quadrature. -/
example {v : ℝ} (h : int1d exact lorentz (0 : ℝ) ⊤ 1e-6 1e-12 1e4 = some v) :
    |v - ∫ x in Ioi 0, lorentz x| ≤ max 1e-12 (1e-6 * |∫ x in Ioi 0, lorentz x|) :=
  C99_half (exact_accurate _) (by norm_num) (by norm_num) h

example : int1d exact lorentz ⊥ ⊤ 1e-6 1e-12 1e4 = some π := by
  have hr : rawInt exact lorentz ⊥ ⊤ 1e-12 1e-6 =
      ⟨intE lorentz ⊥ 0 + intE lorentz 0 ⊤, 0 ||| 0⟩ := by
    rw [rawInt, if_pos (by simp [isInf])]; rfl
  have hp : (∫ x, lorentz x) = π := integral_univ_inv_one_add_sq
  rw [int1d, limit_bot, limit_top, hr, intE_add lorentz_integrable, intE_line, hp]
  simp

/-- The partial theorem applied to that case: the error is at most the tail above 20000. -/
example {v : ℝ} (h : int1d exact lorentz (0 : ℝ) (20000 : ℝ) 1e-6 1e-12 1e4 = some v) :
    |v - ∫ x in (0 : ℝ)..20000, lorentz x| ≤
      2 * 1e-12 + 1e-6 * (∫ x, |lorentz x|) + cutTail lorentz 1e4 0 20000 :=
  C99_partial (exact_accurate _) lorentz_integrable (by norm_num) (by norm_num)
    (by norm_num) (by norm_num) (by norm_num) h

end JG.Integ
