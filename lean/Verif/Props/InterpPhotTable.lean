import Verif.Props.InterpPhot
import Mathlib.Analysis.Calculus.MeanValue

/-!
Property C89, continued: the tables from which the photons of `Cubic` and `Quintic` are drawn are close to the kernels.
Property C71, continued: the fluxes of `Quintic`.
-/

open MeasureTheory

namespace JG.Interp

/-! ### The fluxes of the quintic kernel -/

/-- The point between 2 and 3 where the quintic kernel changes its sign. -/
noncomputable def quinticRoot : ℝ := (25 + √31) / 11

theorem sqrt31 : (5.56776436283002192211 : ℝ) ≤ √31 ∧ √31 ≤ 5.56776436283002192212 := by
  constructor
  · exact Real.le_sqrt_of_sq_le (by norm_num)
  · exact Real.sqrt_le_iff.mpr ⟨by norm_num, by norm_num⟩

theorem quinticRoot_mem : 2.7788 < quinticRoot ∧ quinticRoot < 2.779 := by
  have := sqrt31
  unfold quinticRoot
  constructor <;> linarith [this.1, this.2]

theorem quintic_signs (K : ℕ → ℕ → ℝ) :
    (∀ x, 0 ≤ x → x ≤ 1 → 0 ≤ Kernel.quintic.xval K x) ∧ (∀ x, 1 ≤ x → x ≤ 2 → Kernel.quintic.xval K x ≤ 0) ∧
    (∀ x, 2 ≤ x → x ≤ quinticRoot → 0 ≤ Kernel.quintic.xval K x) ∧
    (∀ x, quinticRoot ≤ x → x ≤ 3 → Kernel.quintic.xval K x ≤ 0) := by
  have hs : √31 ^ 2 = 31 := Real.sq_sqrt (by norm_num)
  have h31 := sqrt31
  have hq := quinticRoot_mem
  have fac : ∀ x : ℝ, poly5 (81/2) (-339/4) (70) (-685/24) (23/4) (-11/24) x =
      11 / 24 * ((x - 2) * (x - 3) ^ 2 * ((quinticRoot - x) * (x - (25 - √31) / 11))) := by
    intro x
    have : (quinticRoot - x) * (x - (25 - √31) / 11) = -x ^ 2 + 50 / 11 * x - 54 / 11 := by
      unfold quinticRoot
      nlinarith [hs]
    rw [this, poly5]
    ring
  refine ⟨fun x h0 h1 => ?_, fun x h0 h1 => ?_, fun x h0 h1 => ?_, fun x h0 h1 => ?_⟩
  · rw [quintic_p1 K x h0 h1, poly5]
    have e : 1 + 0 * x + 0 * x ^ 2 + -95 / 12 * x ^ 3 + 23 / 2 * x ^ 4 + -55 / 12 * x ^ 5 =
        (1 - x) * (1 + x + x ^ 2 + x ^ 3 * (-83 / 12 + 55 / 12 * x)) := by ring
    rw [e]
    apply mul_nonneg (by linarith)
    have : x ^ 3 ≤ x ^ 2 := by nlinarith [sq_nonneg x]
    nlinarith [sq_nonneg x, mul_nonneg (mul_nonneg h0 h0) h0, sq_nonneg (x - 1), mul_nonneg h0 (sq_nonneg (x - 1)),
      mul_nonneg h0 (sub_nonneg.mpr h1), sq_nonneg (x ^ 2 - x)]
  · rw [quintic_p2 K x h0 h1, poly5]
    have e : -23 / 2 + 185 / 4 * x + -70 * x ^ 2 + 1205 / 24 * x ^ 3 + -69 / 4 * x ^ 4 + 55 / 24 * x ^ 5 =
        -((x - 1) * (2 - x) * (-23 / 4 + x * (29 / 2 + x * (-83 / 8 + x * (55 / 24))))) := by ring
    rw [e, neg_nonpos]
    apply mul_nonneg (mul_nonneg (by linarith) (by linarith))
    nlinarith [mul_nonneg (sub_nonneg.mpr h0) (sub_nonneg.mpr h1), sq_nonneg (x - 19 / 10), mul_nonneg (sub_nonneg.mpr h0) (sq_nonneg (x - 19 / 10)),
      mul_nonneg (sub_nonneg.mpr h1) (sq_nonneg (x - 19 / 10))]
  · rw [quintic_p3 K x h0 (by linarith), fac]
    have : 0 ≤ x - (25 - √31) / 11 := by linarith [h31.1]
    have := mul_nonneg (mul_nonneg (sub_nonneg.mpr h0) (sq_nonneg (x - 3))) (mul_nonneg (sub_nonneg.mpr h1) this)
    linarith
  · rw [quintic_p3 K x (by linarith) h1, fac]
    have h2 : 0 ≤ x - (25 - √31) / 11 := by linarith [h31.1]
    have := mul_nonneg (mul_nonneg (show 0 ≤ x - 2 by linarith) (sq_nonneg (x - 3))) (mul_nonneg (sub_nonneg.mpr h0) h2)
    nlinarith

/-- C71: the positive and negative fluxes of `Quintic` are, to 18 digits, the integrals of its positive part and of minus
its negative part. -/
theorem C71_quintic_fluxes (K : ℕ → ℕ → ℝ) (p n : ℝ) (h : Kernel.quintic.fluxes = some (p, n)) :
    |2 * ((∫ x in (0:ℝ)..1, Kernel.quintic.xval K x) + ∫ x in (2:ℝ)..quinticRoot, Kernel.quintic.xval K x) - p| ≤ 1e-18 ∧
    |2 * ((∫ x in (1:ℝ)..2, -Kernel.quintic.xval K x) + ∫ x in quinticRoot..3, -Kernel.quintic.xval K x) - n| ≤ 1e-18 ∧
    (∀ x, 0 ≤ x → x ≤ 1 ∨ 2 ≤ x ∧ x ≤ quinticRoot → 0 ≤ Kernel.quintic.xval K x) ∧
    (∀ x, x ≤ 3 → 1 ≤ x ∧ x ≤ 2 ∨ quinticRoot ≤ x → Kernel.quintic.xval K x ≤ 0) := by
  simp only [Kernel.fluxes, Option.some.injEq, Prod.mk.injEq] at h
  obtain ⟨rfl, rfl⟩ := h
  have hq := quinticRoot_mem
  have hs : √31 ^ 2 = 31 := Real.sq_sqrt (by norm_num)
  obtain ⟨s1, s2, s3, s4⟩ := quintic_signs K
  have h31 := sqrt31
  have e1 := (piece _ _ (poly5_continuous 1 0 0 (-95/12) (23/2) (-55/12)) 0 1 (by norm_num) (quintic_p1 K)).2
  have e2 := (piece _ _ (poly5_continuous (-23/2) (185/4) (-70) (1205/24) (-69/4) (55/24)) 1 2 (by norm_num) (quintic_p2 K)).2
  have e3 := (piece _ _ (poly5_continuous (81/2) (-339/4) (70) (-685/24) (23/4) (-11/24)) 2 quinticRoot (by linarith)
    (fun x h0 h1 => quintic_p3 K x h0 (by linarith))).2
  have e4 := (piece _ _ (poly5_continuous (81/2) (-339/4) (70) (-685/24) (23/4) (-11/24)) quinticRoot 3 (by linarith)
    (fun x h0 h1 => quintic_p3 K x (by linarith) h1)).2
  rw [integral_poly] at e1 e2 e3 e4
  obtain ⟨s, hss⟩ : ∃ s, s = √31 := ⟨_, rfl⟩
  have r1 : quinticRoot = (25 + s) / 11 := by rw [quinticRoot, hss]
  rw [← hss] at hs h31
  have r2 : quinticRoot ^ 2 = (656 + 50 * s) / 121 := by rw [r1]; nlinarith
  have r3 : quinticRoot ^ 3 = (17950 + 1906 * s) / 1331 := by
    rw [show quinticRoot ^ 3 = quinticRoot ^ 2 * quinticRoot by ring, r2, r1]; nlinarith
  have r4 : quinticRoot ^ 4 = (507836 + 65600 * s) / 14641 := by
    rw [show quinticRoot ^ 4 = quinticRoot ^ 2 * quinticRoot ^ 2 by ring, r2]; nlinarith
  have r5 : quinticRoot ^ 5 = (14729500 + 2147836 * s) / 161051 := by
    rw [show quinticRoot ^ 5 = quinticRoot ^ 4 * quinticRoot by ring, r4, r1]; nlinarith
  have r6 : quinticRoot ^ 6 = (434820416 + 68425400 * s) / 1771561 := by
    rw [show quinticRoot ^ 6 = quinticRoot ^ 5 * quinticRoot by ring, r5, r1]; nlinarith
  refine ⟨?_, ?_, fun x h0 h1 => ?_, fun x h0 h1 => ?_⟩
  · rw [e1, e3, r2, r3, r4, r5, r6, r1, abs_le]
    constructor <;> norm_num <;> linarith [h31.1, h31.2]
  · rw [intervalIntegral.integral_neg, intervalIntegral.integral_neg, e2, e4, r2, r3, r4, r5, r6, r1, abs_le]
    constructor <;> norm_num <;> linarith [h31.1, h31.2]
  · rcases h1 with h1 | h1
    · exact s1 x h0 h1
    · exact s3 x h1.1 h1.2
  · rcases h1 with h1 | h1
    · exact s2 x h1.1 h1.2
    · exact s4 x h1 h0

/-! ### Lipschitz bounds -/

/-- `f` changes at most at the rate `L` on `[a, b]`. -/
def LipOn (f : ℝ → ℝ) (L a b : ℝ) : Prop := ∀ x y, a ≤ x → x ≤ b → a ≤ y → y ≤ b → |f x - f y| ≤ L * |x - y|

theorem LipOn.glue {f : ℝ → ℝ} {L a b c : ℝ} (h1 : LipOn f L a b) (h2 : LipOn f L b c) : LipOn f L a c := by
  have key : ∀ x y, a ≤ x → x ≤ b → b ≤ y → y ≤ c → |f x - f y| ≤ L * |x - y| := by
    intro x y hx hxb hy hyc
    have i1 := h1 x b hx hxb (hx.trans hxb) le_rfl
    have i2 := h2 b y le_rfl (hy.trans hyc) hy hyc
    rw [abs_of_nonpos (by linarith : x - b ≤ 0)] at i1
    rw [abs_of_nonpos (by linarith : b - y ≤ 0)] at i2
    rw [abs_of_nonpos (by linarith : x - y ≤ 0)]
    calc |f x - f y| ≤ |f x - f b| + |f b - f y| := abs_sub_le _ _ _
      _ ≤ _ := by linarith
  intro x y hx hxc hy hyc
  rcases le_total x b with hxb | hxb
  · rcases le_total y b with hyb | hyb
    · exact h1 x y hx hxb hy hyb
    · exact key x y hx hxb hyb hyc
  · rcases le_total y b with hyb | hyb
    · rw [abs_sub_comm (f x), abs_sub_comm x]
      exact key y x hy hyb hxb hxc
    · exact h2 x y hxb hxc hyb hyc

theorem lip_poly {f : ℝ → ℝ} {L a b a0 a1 a2 a3 a4 a5 : ℝ} (hf : ∀ x, a ≤ x → x ≤ b → f x = poly5 a0 a1 a2 a3 a4 a5 x)
    (hd : ∀ x, a ≤ x → x ≤ b → |a1 + 2 * a2 * x + 3 * a3 * x ^ 2 + 4 * a4 * x ^ 3 + 5 * a5 * x ^ 4| ≤ L) : LipOn f L a b := by
  intro x y hx hxb hy hyb
  rw [hf x hx hxb, hf y hy hyb]
  have := (convex_Icc a b).norm_image_sub_le_of_norm_hasDerivWithin_le (f := poly5 a0 a1 a2 a3 a4 a5)
    (f' := fun x => a1 + 2 * a2 * x + 3 * a3 * x ^ 2 + 4 * a4 * x ^ 3 + 5 * a5 * x ^ 4) (C := L)
    (fun z _ => ?_) (fun z hz => by rw [Real.norm_eq_abs]; exact hd z hz.1 hz.2) (x := y) (y := x) ⟨hy, hyb⟩ ⟨hx, hxb⟩
  · simpa [Real.norm_eq_abs] using this
  · refine HasDerivAt.hasDerivWithinAt ?_
    have h1 := (hasDerivAt_id z).const_mul a1
    have h2 := (hasDerivAt_pow 2 z).const_mul a2
    have h3 := (hasDerivAt_pow 3 z).const_mul a3
    have h4 := (hasDerivAt_pow 4 z).const_mul a4
    have h5 := (hasDerivAt_pow 5 z).const_mul a5
    have := (((((hasDerivAt_const z a0).add h1).add h2).add h3).add h4).add h5
    refine hasDerivAt_of_eq this ?_
    push_cast
    ring

theorem lip_cubic (K : ℕ → ℕ → ℝ) : LipOn (Kernel.cubic.xval K) 1.5 0 2 := by
  refine LipOn.glue (b := 1) (lip_poly (cubic_p1 K) fun x h0 h1 => ?_) (lip_poly (cubic_p2 K) fun x h0 h1 => ?_) <;>
  · rw [abs_le]
    constructor <;> nlinarith [sq_nonneg (x - 5 / 9), mul_nonneg (sub_nonneg.mpr h0) (sub_nonneg.mpr h1)]

theorem lip_quintic (K : ℕ → ℕ → ℝ) : LipOn (Kernel.quintic.xval K) 2 0 3 := by
  refine LipOn.glue (b := 2) (LipOn.glue (b := 1) (lip_poly (quintic_p1 K) fun x h0 h1 => ?_)
    (lip_poly (quintic_p2 K) fun x h0 h1 => ?_)) (lip_poly (quintic_p3 K) fun x h0 h1 => ?_)
  all_goals
    rw [abs_le]
  · constructor
    · nlinarith [sq_nonneg (x * (x - 0.55)), sq_nonneg (x - 0.55), mul_nonneg (sub_nonneg.mpr h0) (sub_nonneg.mpr h1), sq_nonneg (x ^ 2 - x)]
    · nlinarith [mul_nonneg (sq_nonneg x) (sq_nonneg (x - 1)), sq_nonneg x, sq_nonneg (x * (x - 1))]
  · obtain ⟨t, rfl⟩ : ∃ t, x = 1 + t := ⟨x - 1, by ring⟩
    have t0 : 0 ≤ t := by linarith
    have t1 : 0 ≤ 1 - t := by linarith
    constructor <;> nlinarith [mul_nonneg t0 t1, mul_nonneg (mul_nonneg t0 t0) t1, mul_nonneg (mul_nonneg t0 t1) t1,
      mul_nonneg (mul_nonneg (mul_nonneg t0 t0) t0) t1, sq_nonneg t, sq_nonneg (t * (1 - t))]
  · obtain ⟨t, rfl⟩ : ∃ t, x = 2 + t := ⟨x - 2, by ring⟩
    have t0 : 0 ≤ t := by linarith
    have t1 : 0 ≤ 1 - t := by linarith
    constructor <;> nlinarith [mul_nonneg t0 t1, mul_nonneg (mul_nonneg t0 t0) t1, mul_nonneg (mul_nonneg t0 t1) t1,
      mul_nonneg (mul_nonneg (mul_nonneg t0 t0) t0) t1, sq_nonneg t, sq_nonneg (t * (1 - t))]

theorem bound_cubic (K : ℕ → ℕ → ℝ) (x : ℝ) (h0 : 0 ≤ x) (h2 : x ≤ 2) : |Kernel.cubic.xval K x| ≤ 1 := by
  rcases le_total x 1 with h | h
  · rw [cubic_p1 K x h0 h, poly5, abs_le]
    constructor <;> nlinarith [sq_nonneg x, mul_nonneg (sq_nonneg x) (sub_nonneg.mpr h)]
  · rw [cubic_p2 K x h h2, poly5, abs_le]
    obtain ⟨t, rfl⟩ : ∃ t, x = 1 + t := ⟨x - 1, by ring⟩
    have t0 : 0 ≤ t := by linarith
    have t1 : 0 ≤ 1 - t := by linarith
    constructor <;> nlinarith [mul_nonneg t0 t1, mul_nonneg (mul_nonneg t0 t0) t1, mul_nonneg (mul_nonneg t0 t1) t1]

theorem bound_quintic (K : ℕ → ℕ → ℝ) (x : ℝ) (h0 : 0 ≤ x) (h3 : x ≤ 3) : |Kernel.quintic.xval K x| ≤ 1 := by
  rcases le_total x 1 with h | h
  · have := (quintic_signs K).1 x h0 h
    rw [abs_of_nonneg this, quintic_p1 K x h0 h, poly5]
    have : 0 ≤ x ^ 3 := by positivity
    nlinarith [mul_nonneg this (sq_nonneg (x - 23 / 20 * 55 / 55)), mul_nonneg this (sub_nonneg.mpr h), mul_nonneg this h0,
      mul_nonneg this (sq_nonneg (x - 1)), mul_nonneg this (sq_nonneg (55 * x - 69))]
  · rcases le_total x 2 with h' | h'
    · rw [quintic_p2 K x h h', poly5, abs_le]
      obtain ⟨t, rfl⟩ : ∃ t, x = 1 + t := ⟨x - 1, by ring⟩
      have t0 : 0 ≤ t := by linarith
      have t1 : 0 ≤ 1 - t := by linarith
      constructor <;> nlinarith [mul_nonneg t0 t1, mul_nonneg (mul_nonneg t0 t0) t1, mul_nonneg (mul_nonneg t0 t1) t1,
        mul_nonneg (mul_nonneg (mul_nonneg t0 t0) t0) t1, sq_nonneg t, sq_nonneg (t * (1 - t)),
        mul_nonneg (mul_nonneg (mul_nonneg (mul_nonneg t0 t0) t0) t0) t1]
    · rw [quintic_p3 K x h' h3, poly5, abs_le]
      obtain ⟨t, rfl⟩ : ∃ t, x = 2 + t := ⟨x - 2, by ring⟩
      have t0 : 0 ≤ t := by linarith
      have t1 : 0 ≤ 1 - t := by linarith
      constructor <;> nlinarith [mul_nonneg t0 t1, mul_nonneg (mul_nonneg t0 t0) t1, mul_nonneg (mul_nonneg t0 t1) t1,
        mul_nonneg (mul_nonneg (mul_nonneg t0 t0) t0) t1, sq_nonneg t, sq_nonneg (t * (1 - t)),
        mul_nonneg (mul_nonneg (mul_nonneg (mul_nonneg t0 t0) t0) t0) t1]

/-! ### The tables -/

section
variable {k : Kernel} {K : ℕ → ℕ → ℝ}

/-- The spacing of the table. -/
noncomputable def Kernel.step (k : Kernel) : ℝ := 2 * k.xrange / 9999

theorem cdfX_eq (i : ℕ) : k.cdfX i = -k.xrange + i * k.step := by
  unfold Kernel.cdfX Elt.linspace Kernel.step
  push_cast
  ring

theorem xval_abs (x : ℝ) : k.xval K |x| = k.xval K x := by
  rcases abs_choice x with h | h <;> rw [h]
  exact C53_even K k x

/-- The mean of the absolute values at two nodes. -/
noncomputable def nodeMean (K : ℕ → ℕ → ℝ) (k : Kernel) (i : ℕ) : ℝ := (|k.xval K (k.cdfX (i + 1))| + |k.xval K (k.cdfX i)|) / 2

theorem cdfRaw_eq (n : ℕ) : k.cdfRaw K n = ∑ i ∈ Finset.range n, nodeMean K k i * k.step := by
  unfold Kernel.cdfRaw
  refine Finset.sum_congr rfl fun i _ => ?_
  rw [xval_abs, xval_abs, nodeMean, show k.cdfX 1 - k.cdfX 0 = k.step by rw [cdfX_eq, cdfX_eq]; push_cast; ring]
  ring

theorem lip_even {L : ℝ} (h : LipOn (k.xval K) L 0 k.xrange) (hL : 0 ≤ L) (x y : ℝ) (hx : |x| ≤ k.xrange) (hy : |y| ≤ k.xrange) :
    |k.xval K x - k.xval K y| ≤ L * |x - y| := by
  rw [← xval_abs (x := x), ← xval_abs (x := y)]
  refine (h |x| |y| (abs_nonneg _) hx (abs_nonneg _) hy).trans ?_
  exact mul_le_mul_of_nonneg_left (abs_abs_sub_abs_le_abs_sub x y) hL

theorem node_mem (hr : 0 < k.xrange) {i : ℕ} (hi : i ≤ 9999) : |k.cdfX i| ≤ k.xrange := by
  rw [cdfX_eq, Kernel.step, abs_le]
  have h1 : (i:ℝ) ≤ 9999 := by exact_mod_cast hi
  have h2 : (0:ℝ) ≤ i := by positivity
  constructor
  · have : 0 ≤ (i:ℝ) * (2 * k.xrange / 9999) := by positivity
    linarith
  · have : (i:ℝ) * (2 * k.xrange / 9999) ≤ 9999 * (2 * k.xrange / 9999) := mul_le_mul_of_nonneg_right h1 (by positivity)
    linarith

/-- Between two nodes the absolute value of the kernel is close to the mean at the nodes. -/
theorem node_close {L : ℝ} (h : LipOn (k.xval K) L 0 k.xrange) (hL : 0 ≤ L) (hr : 0 < k.xrange) {i : ℕ} (hi : i < 9999) {x : ℝ}
    (h0 : k.cdfX i ≤ x) (h1 : x ≤ k.cdfX (i + 1)) : abs (|k.xval K x| - nodeMean K k i) ≤ L * k.step / 2 := by
  have m0 := node_mem hr hi.le
  have m1 := node_mem hr (show i + 1 ≤ 9999 by omega)
  have mx : |x| ≤ k.xrange := abs_le.mpr ⟨(abs_le.mp m0).1.trans h0, h1.trans (abs_le.mp m1).2⟩
  have l0 := (abs_abs_sub_abs_le_abs_sub _ _).trans (lip_even h hL x _ mx m0)
  have l1 := (abs_abs_sub_abs_le_abs_sub _ _).trans (lip_even h hL x _ mx m1)
  rw [abs_of_nonneg (by linarith : 0 ≤ x - k.cdfX i)] at l0
  rw [abs_of_nonpos (by linarith : x - k.cdfX (i + 1) ≤ 0)] at l1
  have e : k.cdfX (i + 1) - k.cdfX i = k.step := by rw [cdfX_eq, cdfX_eq]; push_cast; ring
  have e' : L * k.step = L * (k.cdfX (i + 1) - x) + L * (x - k.cdfX i) := by rw [← e]; ring
  rw [abs_le] at l0 l1 ⊢
  unfold nodeMean
  constructor <;> linarith [l0.1, l0.2, l1.1, l1.2]

/-- The total of the table is close to the integral of the absolute value. -/
theorem total_close {L I : ℝ} (h : LipOn (k.xval K) L 0 k.xrange) (hL : 0 ≤ L) (hr : 0 < k.xrange)
    (hI : ∫ x in (-k.xrange)..k.xrange, |k.xval K x| = I) : |k.cdfRaw K 9999 - I| ≤ k.xrange * L * k.step := by
  have hs : 0 < k.step := by unfold Kernel.step; positivity
  have hint : ∀ i < 9999, IntervalIntegrable (fun x => |k.xval K x|) volume (k.cdfX i) (k.cdfX (i + 1)) := by
    intro i hi
    have hle : k.cdfX i ≤ k.cdfX (i + 1) := (Kernel.cdfX_lt hr i).le
    rw [intervalIntegrable_iff_integrableOn_Ioc_of_le hle]
    refine Measure.integrableOn_of_bounded (M := nodeMean K k i + L * k.step / 2) (by simp)
      (measurable_xval K k).abs.aestronglyMeasurable ?_
    refine (ae_restrict_iff' measurableSet_Ioc).mpr (Filter.Eventually.of_forall fun x hx => ?_)
    have := (abs_le.mp (node_close h hL hr hi hx.1.le hx.2)).2
    rw [Real.norm_eq_abs, abs_abs]
    linarith
  have hsum := intervalIntegral.sum_integral_adjacent_intervals (f := fun x => |k.xval K x|) (μ := volume) (a := k.cdfX)
    (n := 9999) hint
  have e0 : k.cdfX 0 = -k.xrange := by rw [cdfX_eq]; simp
  have e1 : k.cdfX 9999 = k.xrange := by rw [cdfX_eq, Kernel.step]; push_cast; ring
  rw [e0, e1, hI] at hsum
  rw [← hsum, cdfRaw_eq, ← Finset.sum_sub_distrib]
  have hone : ∀ i ∈ Finset.range 9999, abs (nodeMean K k i * k.step - ∫ x in (k.cdfX i)..(k.cdfX (i + 1)), |k.xval K x|) ≤
      L * k.step / 2 * k.step := by
    intro i hi
    have hi := Finset.mem_range.mp hi
    have e : k.cdfX (i + 1) - k.cdfX i = k.step := by rw [cdfX_eq, cdfX_eq]; push_cast; ring
    have e2 : nodeMean K k i * k.step = ∫ x in (k.cdfX i)..(k.cdfX (i + 1)), nodeMean K k i := by
      rw [intervalIntegral.integral_const, e, smul_eq_mul, mul_comm]
    rw [e2, ← intervalIntegral.integral_sub intervalIntegrable_const (hint i hi)]
    have := intervalIntegral.norm_integral_le_of_norm_le_const (a := k.cdfX i) (b := k.cdfX (i + 1)) (C := L * k.step / 2)
      (f := fun x => nodeMean K k i - |k.xval K x|) (fun x hx => by
        rw [Set.uIoc_of_le (Kernel.cdfX_lt hr i).le] at hx
        rw [Real.norm_eq_abs, abs_sub_comm]
        exact node_close h hL hr hi hx.1.le hx.2)
    rw [e, abs_of_pos hs] at this
    exact this
  refine (Finset.abs_sum_le_sum_abs _ _).trans ((Finset.sum_le_sum hone).trans ?_)
  rw [Finset.sum_const, Finset.card_range, nsmul_eq_mul]
  have : (9999:ℕ) * (L * k.step / 2 * k.step) = k.xrange * L * k.step := by unfold Kernel.step; push_cast; ring
  rw [this]

theorem dens_in (hr : 0 < k.xrange) {i : ℕ} (hi : i < 9999) {x : ℝ} (h0 : k.cdfX i < x) (h1 : x ≤ k.cdfX (i + 1)) :
    tableDens 10000 (k.cdf K) k.cdfX x = nodeMean K k i / k.cdfRaw K 9999 := by
  have hs : 0 < k.step := by unfold Kernel.step; positivity
  have mono : ∀ a b, a ≤ b → k.cdfX a ≤ k.cdfX b := by
    intro a b hab
    rw [cdfX_eq, cdfX_eq]
    have : (a:ℝ) ≤ b := by exact_mod_cast hab
    nlinarith
  unfold tableDens
  rw [Finset.sum_eq_single i]
  · rw [Set.indicator_of_mem (Set.mem_Ioc.mpr ⟨h0, h1⟩), Kernel.cdf, Kernel.cdf, cdfRaw_eq, cdfRaw_eq, Finset.sum_range_succ,
      ← cdfRaw_eq (n := i), show k.cdfX (i + 1) - k.cdfX i = k.step by rw [cdfX_eq, cdfX_eq]; push_cast; ring,
      ← cdfRaw_eq, div_sub_div_same, add_sub_cancel_left, div_right_comm, mul_div_assoc, div_self hs.ne', mul_one]
  · intro j _ hj
    refine Set.indicator_of_notMem (fun hm => ?_) _
    rcases lt_or_gt_of_ne hj with hj | hj
    · have := mono (j + 1) i hj
      linarith [hm.2]
    · have := mono (i + 1) j hj
      linarith [hm.1]
  · intro hn
    exact absurd (Finset.mem_range.mpr (by omega)) hn

theorem dens_out (hr : 0 < k.xrange) {x : ℝ} (h : x ≤ -k.xrange ∨ k.xrange < x) : tableDens 10000 (k.cdf K) k.cdfX x = 0 := by
  unfold tableDens
  refine Finset.sum_eq_zero fun i hi => Set.indicator_of_notMem (fun hm => ?_) _
  have hi : i < 9999 := Finset.mem_range.mp hi
  have m0 := (abs_le.mp (node_mem (k := k) hr hi.le)).1
  have m1 := (abs_le.mp (node_mem (k := k) hr (show i + 1 ≤ 9999 by omega))).2
  rcases h with h | h
  · linarith [hm.1]
  · linarith [hm.2]

theorem locate {x : ℝ} (h0 : -k.xrange < x) (h1 : x ≤ k.xrange) : ∃ i < 9999, k.cdfX i < x ∧ x ≤ k.cdfX (i + 1) := by
  by_contra hc
  push Not at hc
  have all : ∀ i, i ≤ 9999 → k.cdfX i < x := by
    intro i
    induction i with
    | zero => intro _; rw [cdfX_eq]; simpa using h0
    | succ i ih => exact fun hi => hc i (by omega) (ih (by omega))
  have := all 9999 le_rfl
  rw [cdfX_eq, Kernel.step] at this
  push_cast at this
  have e : -k.xrange + 9999 * (2 * k.xrange / 9999) = k.xrange := by ring
  linarith

/-- The signed density of the photons of a kernel drawn from a table is close to the kernel. -/
theorem table_close {L I P : ℝ} (h : LipOn (k.xval K) L 0 k.xrange) (hL : 0 ≤ L) (hr : 0 < k.xrange)
    (hI : ∫ x in (-k.xrange)..k.xrange, |k.xval K x| = I) (hM : ∀ x, 0 ≤ x → x ≤ k.xrange → |k.xval K x| ≤ 1)
    (h0 : ∀ x, k.xrange ≤ |x| → k.xval K x = 0) (hT : 1 ≤ k.cdfRaw K 9999) (x : ℝ) :
    |P * SignType.sign (k.xval K x) * tableDens 10000 (k.cdf K) k.cdfX x - k.xval K x| ≤
      |P - I| + k.xrange * L * k.step + L * k.step / 2 := by
  have hs : 0 < k.step := by unfold Kernel.step; positivity
  by_cases hx : -k.xrange < x ∧ x ≤ k.xrange
  · obtain ⟨i, hi, i0, i1⟩ := locate hx.1 hx.2
    rw [dens_in hr hi i0 i1]
    have hc := node_close h hL hr hi i0.le i1
    have ht := total_close h hL hr hI
    obtain ⟨T, hTe⟩ : ∃ T, T = k.cdfRaw K 9999 := ⟨_, rfl⟩
    obtain ⟨m, hm⟩ : ∃ m, m = nodeMean K k i := ⟨_, rfl⟩
    have hM' : ∀ y, |y| ≤ k.xrange → |k.xval K y| ≤ 1 := fun y hy => by
      rw [← xval_abs]; exact hM _ (abs_nonneg _) hy
    have hm1 : m ≤ 1 := by
      have a := hM' _ (node_mem hr hi.le)
      have b := hM' _ (node_mem hr (show i + 1 ≤ 9999 by omega))
      rw [hm, nodeMean]; linarith
    have hm0 : 0 ≤ m := by rw [hm, nodeMean]; exact div_nonneg (add_nonneg (abs_nonneg _) (abs_nonneg _)) (by norm_num)
    rw [← hm] at hc ⊢
    rw [← hTe] at hT ht ⊢
    have e : P * SignType.sign (k.xval K x) * (m / T) - k.xval K x = SignType.sign (k.xval K x) * (m * ((P - T) / T) + (m - |k.xval K x|)) := by
      have hT0 : T ≠ 0 := by linarith
      nth_rw 2 [← sign_mul_abs (k.xval K x)]
      field_simp
      ring
    rw [e, abs_mul]
    have b1 : |(P - T) / T| ≤ |P - I| + k.xrange * L * k.step := by
      rw [abs_div, abs_of_pos (show 0 < T by linarith)]
      refine (div_le_self (abs_nonneg _) hT).trans ?_
      have := abs_sub_le P I T
      rw [abs_sub_comm I T] at this
      linarith
    have b2 : |m * ((P - T) / T) + (m - |k.xval K x|)| ≤ |P - I| + k.xrange * L * k.step + L * k.step / 2 := by
      refine (abs_add_le _ _).trans (add_le_add ?_ ?_)
      · rw [abs_mul, abs_of_nonneg hm0]
        calc m * |(P - T) / T| ≤ 1 * |(P - T) / T| := mul_le_mul_of_nonneg_right hm1 (abs_nonneg _)
          _ ≤ _ := by rw [one_mul]; exact b1
      · rw [abs_sub_comm]; exact hc
    calc _ ≤ 1 * |m * ((P - T) / T) + (m - |k.xval K x|)| := mul_le_mul_of_nonneg_right (abs_sign_le _) (abs_nonneg _)
      _ ≤ _ := by rw [one_mul]; exact b2
  · have hx' : x ≤ -k.xrange ∨ k.xrange < x := by
      by_contra hc
      push Not at hc
      exact hx hc
    rw [dens_out hr hx', h0 x (by
      rcases hx' with h | h
      · rw [abs_of_nonpos (by linarith)]; linarith
      · rw [abs_of_pos (by linarith)]; exact h.le)]
    simp only [mul_zero, sub_zero, abs_zero]
    clear hT
    positivity

end

/-! ### The integrals of the absolute values -/

theorem even_abs (k : Kernel) (K : ℕ → ℕ → ℝ) {r : ℝ} (hi : IntervalIntegrable (fun x => |k.xval K x|) volume 0 r) :
    ∫ x in (-r)..r, |k.xval K x| = 2 * ∫ x in (0:ℝ)..r, |k.xval K x| := by
  have h0 := IntervalIntegrable.iff_comp_neg (f := fun x => |k.xval K x|) (a := 0) (b := r)
  simp only [C53_even, neg_zero] at h0
  have h1 : IntervalIntegrable (fun x => |k.xval K x|) volume (-r) 0 := (h0.mp hi).symm
  have h2 := intervalIntegral.integral_comp_neg (a := 0) (b := r) (fun x => |k.xval K x|)
  simp only [C53_even, neg_zero] at h2
  rw [← intervalIntegral.integral_add_adjacent_intervals h1 hi, ← h2]
  ring

theorem abs_piece {f : ℝ → ℝ} {a b σ : ℝ} (hab : a ≤ b) (hi : IntervalIntegrable f volume a b)
    (h : ∀ x, a ≤ x → x ≤ b → |f x| = σ * f x) :
    IntervalIntegrable (fun x => |f x|) volume a b ∧ ∫ x in a..b, |f x| = σ * ∫ x in a..b, f x := by
  refine ⟨hi.abs, ?_⟩
  rw [← intervalIntegral.integral_const_mul]
  refine intervalIntegral.integral_congr fun x hx => ?_
  rw [Set.uIcc_of_le hab] at hx
  exact h x hx.1 hx.2

theorem abs_cubic (K : ℕ → ℕ → ℝ) : ∫ x in (-Kernel.cubic.xrange)..Kernel.cubic.xrange, |Kernel.cubic.xval K x| = 7 / 6 := by
  obtain ⟨f1, f2, f3, f4⟩ := C71_cubic_fluxes K (13 / 12) (1 / 12) rfl
  have a1 := abs_piece (f := Kernel.cubic.xval K) (a := 0) (b := 1) (σ := 1) (by norm_num)
    (piece _ _ (poly5_continuous ..) 0 1 (by norm_num) (cubic_p1 K)).1 fun x h0 h1 => by rw [abs_of_nonneg (f2 x h0 h1), one_mul]
  have a2 := abs_piece (f := Kernel.cubic.xval K) (a := 1) (b := 2) (σ := -1) (by norm_num)
    (piece _ _ (poly5_continuous ..) 1 2 (by norm_num) (cubic_p2 K)).1 fun x h0 h1 => by rw [abs_of_nonpos (f4 x h0 h1)]; ring
  rw [show Kernel.cubic.xrange = 2 by norm_num [Kernel.xrange], even_abs _ _ (a1.1.trans a2.1),
    ← intervalIntegral.integral_add_adjacent_intervals a1.1 a2.1, a1.2, a2.2]
  rw [intervalIntegral.integral_neg] at f3
  linarith

theorem abs_quintic (K : ℕ → ℕ → ℝ) :
    |(∫ x in (-Kernel.quintic.xrange)..Kernel.quintic.xrange, |Kernel.quintic.xval K x|) - 1.258682699856013311| ≤ 2e-18 := by
  obtain ⟨f1, f2, -, -⟩ := C71_quintic_fluxes K _ _ rfl
  obtain ⟨s1, s2, s3, s4⟩ := quintic_signs K
  have hq := quinticRoot_mem
  have a1 := abs_piece (f := Kernel.quintic.xval K) (a := 0) (b := 1) (σ := 1) (by norm_num)
    (piece _ _ (poly5_continuous ..) 0 1 (by norm_num) (quintic_p1 K)).1 fun x h0 h1 => by rw [abs_of_nonneg (s1 x h0 h1), one_mul]
  have a2 := abs_piece (f := Kernel.quintic.xval K) (a := 1) (b := 2) (σ := -1) (by norm_num)
    (piece _ _ (poly5_continuous ..) 1 2 (by norm_num) (quintic_p2 K)).1 fun x h0 h1 => by rw [abs_of_nonpos (s2 x h0 h1)]; ring
  have a3 := abs_piece (f := Kernel.quintic.xval K) (a := 2) (b := quinticRoot) (σ := 1) (by linarith)
    (piece _ _ (poly5_continuous ..) 2 quinticRoot (by linarith) (fun x h0 h1 => quintic_p3 K x h0 (by linarith))).1
    fun x h0 h1 => by rw [abs_of_nonneg (s3 x h0 h1), one_mul]
  have a4 := abs_piece (f := Kernel.quintic.xval K) (a := quinticRoot) (b := 3) (σ := -1) (by linarith)
    (piece _ _ (poly5_continuous ..) quinticRoot 3 (by linarith) (fun x h0 h1 => quintic_p3 K x (by linarith) h1)).1
    fun x h0 h1 => by rw [abs_of_nonpos (s4 x h0 h1)]; ring
  rw [show Kernel.quintic.xrange = 3 by norm_num [Kernel.xrange], even_abs _ _ (((a1.1.trans a2.1).trans a3.1).trans a4.1),
    ← intervalIntegral.integral_add_adjacent_intervals ((a1.1.trans a2.1).trans a3.1) a4.1,
    ← intervalIntegral.integral_add_adjacent_intervals (a1.1.trans a2.1) a3.1,
    ← intervalIntegral.integral_add_adjacent_intervals a1.1 a2.1, a1.2, a2.2, a3.2, a4.2]
  rw [intervalIntegral.integral_neg, intervalIntegral.integral_neg] at f2
  rw [abs_le] at f1 f2 ⊢
  constructor <;> linarith [f1.1, f1.2, f2.1, f2.2]

/-! ### C89 -/

theorem total_cubic (K : ℕ → ℕ → ℝ) : 1 ≤ Kernel.cubic.cdfRaw K 9999 := by
  have h := total_close (k := .cubic) (K := K) (lip_cubic K) (by norm_num) (by norm_num [Kernel.xrange]) (abs_cubic K)
  rw [Kernel.step, show Kernel.cubic.xrange = 2 by norm_num [Kernel.xrange], abs_le] at h
  norm_num at h
  linarith [h.1]

theorem total_quintic (K : ℕ → ℕ → ℝ) : 1 ≤ Kernel.quintic.cdfRaw K 9999 := by
  have h := total_close (k := .quintic) (K := K) (lip_quintic K) (by norm_num) (by norm_num [Kernel.xrange]) rfl
  have h2 := abs_quintic K
  rw [abs_le] at h2
  rw [Kernel.step, abs_le] at h
  generalize (∫ x in (-Kernel.quintic.xrange)..Kernel.quintic.xrange, |Kernel.quintic.xval K x|) = I at *
  rw [show Kernel.quintic.xrange = 3 by norm_num [Kernel.xrange]] at h
  norm_num at h h2
  linarith [h.1, h2.1]

/-- C89: the kernels `Cubic` and `Quintic` have photons. -/
theorem C89_has_photons (K : ℕ → ℕ → ℝ) (k : Kernel) (hk : k.Poly) : k.HasPhotons K := by
  rcases hk with rfl | rfl | rfl
  · trivial
  · exact lt_of_lt_of_le one_pos (total_cubic K)
  · exact lt_of_lt_of_le one_pos (total_quintic K)

/-- C89: the signed density of the photons of `Cubic` is within 0.002 of the kernel everywhere. -/
theorem C89_cubic_partial (K : ℕ → ℕ → ℝ) (fl : ℝ × ℝ) (h : Kernel.cubic.fluxes = some fl) (x : ℝ) :
    |Kernel.cubic.shot K fl x - Kernel.cubic.xval K x| ≤ 0.002 := by
  obtain rfl := Option.some.inj h
  refine (table_close (k := .cubic) (P := 13 / 12 + 1 / 12) (lip_cubic K) (by norm_num) (by norm_num [Kernel.xrange]) (abs_cubic K)
    (bound_cubic K) (fun y hy => ?_) (total_cubic K) x).trans ?_
  · rw [← xval_abs, cubic_p3 K _ hy, poly5]; ring
  · rw [Kernel.step, show Kernel.cubic.xrange = 2 by norm_num [Kernel.xrange]]
    norm_num

/-- C89: the signed density of the photons of `Quintic` is within 0.005 of the kernel everywhere. -/
theorem C89_quintic_partial (K : ℕ → ℕ → ℝ) (fl : ℝ × ℝ) (h : Kernel.quintic.fluxes = some fl) (x : ℝ) :
    |Kernel.quintic.shot K fl x - Kernel.quintic.xval K x| ≤ 0.005 := by
  obtain rfl := Option.some.inj h
  refine (table_close (k := .quintic) (P := 1.1293413499280066555 + 0.1293413499280066555) (lip_quintic K) (by norm_num)
    (by norm_num [Kernel.xrange]) rfl (bound_quintic K) (fun y hy => ?_) (total_quintic K) x).trans ?_
  · rw [← xval_abs, quintic_p4 K _ hy, poly5]; ring
  · have := abs_quintic K
    rw [abs_sub_comm] at this
    norm_num at this ⊢
    rw [Kernel.step]
    generalize |(1258682699856013311 / 1000000000000000000 : ℝ) - _| = D at *
    rw [show Kernel.quintic.xrange = 3 by norm_num [Kernel.xrange]]
    norm_num at this ⊢
    linarith

/-! ### The photons of an image with these kernels -/

theorem l1_close {f g : ℝ → ℝ} {r ε : ℝ} (hr : 0 ≤ r) (hf : Integrable f) (hg : Integrable g) (h : ∀ x, |f x - g x| ≤ ε)
    (h0 : ∀ x, r < |x| → f x = 0 ∧ g x = 0) : ∫ x, |f x - g x| ≤ 2 * r * ε := by
  have h1 : ∀ x, x ∉ Set.Icc (-r) r → |f x - g x| = 0 := by
    intro x hx
    have : r < |x| := by
      by_contra hc
      exact hx (abs_le.mp (not_lt.mp hc))
    rw [(h0 x this).1, (h0 x this).2]; simp
  rw [← setIntegral_eq_integral_of_forall_compl_eq_zero h1]
  have := setIntegral_mono_on (s := Set.Icc (-r) r) (f := fun x => |f x - g x|) (g := fun _ => ε) (hf.sub hg).abs.integrableOn
    (integrableOn_const (by simp)) measurableSet_Icc fun x _ => h x
  refine this.trans ?_
  rw [setIntegral_const, Real.volume_real_Icc_of_le (by linarith), smul_eq_mul]
  linarith

theorem plane_diff {f g : ℝ → ℝ} {δ F G C : ℝ} (hf : Integrable f) (hg : Integrable g) (hd : ∫ x, |f x - g x| ≤ δ)
    (hF : ∫ x, |f x| ≤ F) (hG : ∫ x, |g x| ≤ G) {φ : ℝ × ℝ → ℝ} (hφ : Measurable φ) (hC : ∀ p, |φ p| ≤ C) :
    |(∫ p : ℝ × ℝ, f p.1 * f p.2 * φ p) - ∫ p : ℝ × ℝ, g p.1 * g p.2 * φ p| ≤ δ * (F + G) * C := by
  have iff' : Integrable (fun p : ℝ × ℝ => f p.1 * f p.2) := hf.mul_prod hf
  have igg : Integrable (fun p : ℝ × ℝ => g p.1 * g p.2) := hg.mul_prod hg
  have i1 := bdd_integrable iff' hφ hC
  have i2 := bdd_integrable igg hφ hC
  have hsub : Integrable fun x => |f x - g x| := (hf.sub hg).abs
  have j1 : Integrable (fun p : ℝ × ℝ => |f p.1| * |f p.2 - g p.2|) := hf.abs.mul_prod hsub
  have j2 : Integrable (fun p : ℝ × ℝ => |f p.1 - g p.1| * |g p.2|) := hsub.mul_prod hg.abs
  have hC0 : 0 ≤ C := (abs_nonneg _).trans (hC (0, 0))
  have j3 : Integrable (fun p : ℝ × ℝ => (|f p.1| * |f p.2 - g p.2| + |f p.1 - g p.1| * |g p.2|) * C) := (j1.add j2).mul_const C
  rw [← integral_sub i1 i2]
  have b1 : ∀ p : ℝ × ℝ, |f p.1 * f p.2 * φ p - g p.1 * g p.2 * φ p| ≤
      (|f p.1| * |f p.2 - g p.2| + |f p.1 - g p.1| * |g p.2|) * C := by
    intro p
    have e : f p.1 * f p.2 * φ p - g p.1 * g p.2 * φ p = (f p.1 * (f p.2 - g p.2) + (f p.1 - g p.1) * g p.2) * φ p := by ring
    rw [e, abs_mul]
    refine mul_le_mul ?_ (hC p) (abs_nonneg _) (by positivity)
    refine (abs_add_le _ _).trans ?_
    rw [abs_mul, abs_mul]
  refine abs_integral_le_integral_abs.trans ((integral_mono (i1.sub i2).abs j3 b1).trans ?_)
  have e : ∫ p : ℝ × ℝ, (|f p.1| * |f p.2 - g p.2| + |f p.1 - g p.1| * |g p.2|) * C =
      ((∫ x, |f x|) * (∫ x, |f x - g x|) + (∫ x, |f x - g x|) * ∫ x, |g x|) * C := by
    rw [integral_mul_const, integral_add j1 j2, Measure.volume_eq_prod,
      integral_prod_mul (fun x => |f x|) (fun x => |f x - g x|), integral_prod_mul (fun x => |f x - g x|) (fun x => |g x|)]
  rw [e]
  refine mul_le_mul_of_nonneg_right ?_ hC0
  have n1 : 0 ≤ ∫ x, |f x| := integral_nonneg fun x => abs_nonneg _
  have n2 : 0 ≤ ∫ x, |g x| := integral_nonneg fun x => abs_nonneg _
  have n3 : 0 ≤ ∫ x, |f x - g x| := integral_nonneg fun x => abs_nonneg _
  nlinarith

/-- How far the photons of a kernel are from the kernel along one axis. -/
noncomputable def Kernel.shotError : Kernel → ℝ
  | .linear => 0
  | .cubic => 0.008
  | .quintic => 0.03
  | _ => 0

theorem shot_l1 (K : ℕ → ℕ → ℝ) (fl : ℝ × ℝ) {k : Kernel} (hk : k.Poly) (h : k.fluxes = some fl) :
    ∫ x, |k.shot K fl x - k.xval K x| ≤ k.shotError ∧ ∫ x, |k.xval K x| ≤ 1.26 := by
  have hi := shot_int K fl k (C89_has_photons K k hk) (by rcases hk with rfl | rfl | rfl <;> simp)
  have hK := (kernel_unit K hk).int
  have habs : ∀ (k : Kernel), k.Poly → ∫ x, |k.xval K x| = ∫ x in (-k.xrange)..k.xrange, |k.xval K x| := by
    intro k hk
    have hr : 0 ≤ k.xrange := by rcases hk with rfl | rfl | rfl <;> simp [Kernel.xrange]
    rw [intervalIntegral.integral_of_le (by linarith), ← integral_Icc_eq_integral_Ioc,
      setIntegral_eq_integral_of_forall_compl_eq_zero]
    intro x hx
    rw [C53_support K k (by rcases hk with rfl | rfl | rfl <;> simp) (by rcases hk with rfl | rfl | rfl <;> simp) x (by
      by_contra hc
      exact hx (abs_le.mp (not_lt.mp hc)))]
    simp
  rcases hk with rfl | rfl | rfl
  · constructor
    · simp [Kernel.shot, Kernel.shotError]
    · have e : ∀ x, |Kernel.linear.xval K x| = Kernel.linear.xval K x := by
        intro x
        refine abs_of_nonneg ?_
        simp only [Kernel.xval]
        split_ifs <;> linarith
      simp only [e]
      rw [(kernel_unit K (Or.inl rfl)).one]
      norm_num
  · constructor
    · refine (l1_close (r := 2) (ε := 0.002) (by norm_num) hi hK (C89_cubic_partial K fl h) fun x hx => ?_).trans ?_
      · have hx2 : Kernel.cubic.xrange < |x| := by simpa [Kernel.xrange] using hx
        have hz := C53_support K .cubic (by simp) (by simp) x hx2
        refine ⟨?_, hz⟩
        simp [Kernel.shot, hz]
      · norm_num [Kernel.shotError]
    · rw [habs _ (Or.inr (Or.inl rfl)), abs_cubic]; norm_num
  · constructor
    · refine (l1_close (r := 3) (ε := 0.005) (by norm_num) hi hK (C89_quintic_partial K fl h) fun x hx => ?_).trans ?_
      · have hx2 : Kernel.quintic.xrange < |x| := by simpa [Kernel.xrange] using hx
        have hz := C53_support K .quintic (by simp) (by simp) x hx2
        refine ⟨?_, hz⟩
        simp [Kernel.shot, hz]
      · norm_num [Kernel.shotError]
    · have := abs_quintic K
      rw [abs_le] at this
      rw [habs _ (Or.inr (Or.inr rfl))]
      norm_num at this ⊢
      linarith [this.2]

/-- C89: for an image without negative pixels and the kernels `Linear`, `Cubic` and `Quintic`, the mean of a bounded function
over the photons, weighted with their fluxes, differs from its integral against the brightness by at most 0, 2.1% and 7.7% of
the flux times the bound. -/
theorem C89_near_partial (K : ℕ → ℕ → ℝ) (o : II) (h : o.Good) (hk : o.args.kernel.Poly) (fl : ℝ × ℝ) (hfl : o.args.kernel.fluxes = some fl)
    (hpos : ∀ X Y v, coordMap o.args.im X Y = some v → 0 ≤ v) (x : ℝ × ℝ → ℝ) (hx : ∀ p, o.xValue K p = .ok (x p))
    (φ : ℝ × ℝ → ℝ) (hφ : Measurable φ) (C : ℝ) (hC : ∀ p, |φ p| ≤ C) :
    ∃ v, o.photons K fl (fun p g => g * φ p) = .ok v ∧
      |v - ∫ p : ℝ × ℝ, x p * φ p| ≤ o.args.kernel.shotError * (2.52 + o.args.kernel.shotError) * |o.wanted| * C := by
  obtain ⟨m, hm⟩ : ∃ m, m = coordMap o.args.im := ⟨_, rfl⟩
  have hfin : FinMap m := by rw [hm]; exact finMap_coordMap _
  have hJ := jac_ne h
  have hD : o.wcs.docArea = |o.jac.det| := by rw [docArea_eq]; rfl
  have hA : |o.jac.det| ≠ 0 := abs_ne_zero.mpr hJ
  have hx' : ∀ p, x p = o.shown (o.args.kernel.xval K) p := by
    intro p
    have h1 := C87_light_partial K o h hk.local (o.jac.inv'.app p)
    rw [docMap_jac, Mat2.app_inv' hJ, hx p] at h1
    rw [Except.ok.inj h1, II.shown]
  have habs : absLight m = light m := by
    rw [hm]
    unfold absLight
    congr 1
    funext X Y
    cases hv : coordMap o.args.im X Y with
    | none => rfl
    | some v => simp only [Option.map_some]; rw [abs_of_nonneg (hpos X Y v hv)]
  have hl : light m ≠ 0 := by rw [hm]; exact h.light
  obtain ⟨fp, fn⟩ := fl
  have hf1 := C53_fluxes _ _ _ hfl
  have hph := C89_has_photons K _ hk
  have hn : ∀ n d, o.args.kernel = .lanczos n d → 1 ≤ n := by rcases hk with h | h | h <;> rw [h] <;> simp
  refine ⟨_, C89_mean h K (fp, fn) hf1.1 hf1.2 hph hn φ hφ C hC, ?_⟩
  rw [← hm, habs, div_self hl, one_mul]
  simp only [hx']
  have hmJ : Measurable fun q : ℝ × ℝ => φ (o.jac.app q) := hφ.comp (by unfold Mat2.app; fun_prop)
  have hdi : o.jac.inv'.det ≠ 0 := by rw [Mat2.det_inv' hJ]; exact one_div_ne_zero hJ
  -- the integral against the brightness as a sum over the pixels
  have sum : ∀ f : ℝ → ℝ, Integrable f → ∫ p : ℝ × ℝ, o.shown f p * φ p = o.wanted / light m *
      pixelSum m fun P => ∫ ξ : ℝ × ℝ, f ξ.1 * f ξ.2 * (fun q => φ (o.jac.app q)) (((P.1:ℝ), (P.2:ℝ)) - o.ref + ξ) := by
    intro f hf
    rw [spread_mean m hfin hf o.ref hmJ (C := C) fun p => hC _]
    have e8 : (fun p : ℝ × ℝ => o.shown f p * φ p) = fun p => (fun q : ℝ × ℝ => o.wanted / light m / |o.jac.det| *
        (spread m f (o.ref + q) * φ (o.jac.app q))) (o.jac.inv'.app (p - 0)) := by
      funext p
      simp only [sub_zero, Mat2.app_inv' hJ]
      rw [II.shown, hD, ← hm]
      ring
    rw [e8, Elt.integral_affine o.jac.inv' hdi 0 (fun q : ℝ × ℝ => o.wanted / light m / |o.jac.det| *
        (spread m f (o.ref + q) * φ (o.jac.app q))), integral_const_mul, Mat2.det_inv' hJ, one_div, inv_inv, smul_eq_mul]
    generalize (∫ q : ℝ × ℝ, spread m f (o.ref + q) * φ (o.jac.app q)) = G
    generalize |o.jac.det| = D at *
    field_simp
  have hsi := shot_int K (fp, fn) _ hph hn
  have hKi := (kernel_unit K hk).int
  obtain ⟨l1, l2⟩ := shot_l1 K (fp, fn) hk hfl
  have l3 : ∫ x, |o.args.kernel.shot K (fp, fn) x| ≤ 1.26 + o.args.kernel.shotError := by
    have i1 : Integrable fun x => |o.args.kernel.xval K x| + |o.args.kernel.shot K (fp, fn) x - o.args.kernel.xval K x| :=
      hKi.abs.add (hsi.sub hKi).abs
    refine (integral_mono hsi.abs i1 fun x => ?_).trans ?_
    · have := abs_sub_abs_le_abs_sub (o.args.kernel.shot K (fp, fn) x) (o.args.kernel.xval K x)
      simp only
      linarith
    · have i2 : Integrable fun x => |o.args.kernel.shot K (fp, fn) x - o.args.kernel.xval K x| := (hsi.sub hKi).abs
      rw [integral_add hKi.abs i2]
      linarith
  rw [sum _ hsi, sum _ hKi, ← mul_sub, pixelSum_eq hfin, pixelSum_eq hfin, ← Finset.sum_sub_distrib, abs_mul]
  obtain ⟨E, hE⟩ : ∃ E, E = o.args.kernel.shotError * (2.52 + o.args.kernel.shotError) := ⟨_, rfl⟩
  have hv : ∀ p : ℤ × ℤ, 0 ≤ (m p.1 p.2).getD 0 := by
    intro p
    cases hq : m p.1 p.2 with
    | none => simp
    | some v => simpa using hpos _ _ v (by rw [← hm]; exact hq)
  have hone : ∀ p ∈ hfin.toFinset, |(∫ ξ : ℝ × ℝ, o.args.kernel.shot K (fp, fn) ξ.1 * o.args.kernel.shot K (fp, fn) ξ.2 *
      (fun q => φ (o.jac.app q)) (((p.1:ℝ), (p.2:ℝ)) - o.ref + ξ)) * (m p.1 p.2).getD 0 -
      (∫ ξ : ℝ × ℝ, o.args.kernel.xval K ξ.1 * o.args.kernel.xval K ξ.2 *
      (fun q => φ (o.jac.app q)) (((p.1:ℝ), (p.2:ℝ)) - o.ref + ξ)) * (m p.1 p.2).getD 0| ≤ E * C * (m p.1 p.2).getD 0 := by
    intro p _
    rw [← sub_mul, abs_mul, abs_of_nonneg (hv p)]
    refine mul_le_mul_of_nonneg_right ?_ (hv p)
    have := plane_diff hsi hKi l1 l3 l2 (φ := fun ξ => φ (o.jac.app (((p.1:ℝ), (p.2:ℝ)) - o.ref + ξ))) (C := C)
      (hmJ.comp (measurable_const_add (((p.1:ℝ), (p.2:ℝ)) - o.ref))) fun p => hC _
    refine this.trans (le_of_eq ?_)
    rw [hE]; ring
  have hsum := (Finset.abs_sum_le_sum_abs _ _).trans (Finset.sum_le_sum hone)
  have hlight : ∑ p ∈ hfin.toFinset, E * C * (m p.1 p.2).getD 0 = E * C * light m := by
    rw [← Finset.mul_sum, light, pixelSum_eq hfin]; simp
  have hl0 : 0 < light m := by
    refine lt_of_le_of_ne ?_ (Ne.symm hl)
    rw [light, pixelSum_eq hfin]
    exact Finset.sum_nonneg fun p _ => by rw [one_mul]; exact hv p
  rw [hlight] at hsum
  refine (mul_le_mul_of_nonneg_left hsum (abs_nonneg _)).trans (le_of_eq ?_)
  rw [abs_div, abs_of_pos hl0, ← hE]
  field_simp

/-- C89: the photons of a kernel have unit flux: exactly for `Nearest` and `Linear`, within 0.8% and 3% along each axis for
`Cubic` and `Quintic`. -/
theorem C89_unit_partial (K : ℕ → ℕ → ℝ) (fl : ℝ × ℝ) (k : Kernel) (hk : k = .nearest ∨ k.Poly) (h : k.fluxes = some fl) :
    |(∫ x, k.shot K fl x) - 1| ≤ k.shotError := by
  rcases hk with rfl | hk
  · have e : (fun x => Kernel.nearest.shot K fl x) = (Set.Icc (-(1 / 2) : ℝ) (1 / 2)).indicator fun _ => 1 := by
      funext x
      show (if |x| > 0.5 then (0:ℝ) else 1) = _
      by_cases hx : |x| > 0.5
      · rw [if_pos hx, Set.indicator_of_notMem]
        intro hm
        norm_num at hx
        exact absurd (abs_le.mpr hm) (not_le.mpr hx)
      · rw [if_neg hx, Set.indicator_of_mem]
        norm_num at hx
        exact abs_le.mp hx
    have : (∫ x, Kernel.nearest.shot K fl x) = 1 := by
      rw [e, integral_indicator measurableSet_Icc, setIntegral_const, Real.volume_real_Icc_of_le (by norm_num)]
      norm_num
    rw [this]
    norm_num [Kernel.shotError]
  · have hi := shot_int K fl k (C89_has_photons K k hk) (by rcases hk with rfl | rfl | rfl <;> simp)
    have hK := kernel_unit K hk
    rw [← hK.one, ← integral_sub hi hK.int]
    exact abs_integral_le_integral_abs.trans (shot_l1 K fl hk h).1

/-- Two pixels, 3 and -1. -/
noncomputable def exSign : Image :=
  ⟨⟨1, 2, fun _ j => if j = 1 then -1 else 3⟩, Bounds.mkDelta clsI ⟨1, true⟩ ⟨2, true⟩ ⟨1, true⟩ ⟨1, true⟩, some false, false⟩

theorem exSign_defd : exSign.bounds.defined = true := by simp [exSign, Bounds.mkDelta, Bounds.finish, clsI]

theorem exSign_shape : exSign.ShapeOK := by
  intro _
  simp [exSign, Bounds.mkDelta, Bounds.finish, Bounds.numpyShape, clsI]

theorem exSign_light : light (coordMap exSign) = 2 ∧ absLight (coordMap exSign) = 4 := by
  rw [← arrSum_light exSign exSign_defd exSign_shape, ← absLight_grid exSign exSign_defd exSign_shape]
  constructor <;> norm_num [arrSum, gridSum, exSign, Finset.sum_range_succ]

/-- Default arguments but with the linear kernel. -/
noncomputable def linArgs (im : Image) (w : LocalWCS) : IIArgs := { defaultArgs im w 4 with kernel := .linear }

theorem exSign_good : (II.mk (linArgs exSign (.pix 1)) (.pix 1)).Good where
  ok := by
    show exSign.bounds.OK
    unfold exSign Bounds.OK Bounds.mkDelta Bounds.finish
    simp [clsI]
  shape := exSign_shape
  defd := exSign_defd
  static := rfl
  small := by
    show (4:ℝ) * ((max ((1:ℕ):ℤ) ((2:ℕ):ℤ) : ℤ) : ℝ) ≤ 99999
    norm_num
  small' := by
    show max ((1:ℕ):ℤ) ((2:ℕ):ℤ) ≤ 99999
    norm_num
  plain := rfl
  light := by
    show light (coordMap exSign) ≠ 0
    rw [exSign_light.1]; norm_num
  wcs := by show (1:ℝ) ≠ 0; norm_num

/-- Disagreement: with negative pixels `_shoot` (interpolatedimage.py:876-925) picks the pixels by their absolute values but
gives every photon the absolute flux (pos - neg)/N instead of (pos + neg)/N, so the expected total flux is smaller than the flux
of the object by the ratio of the light to the total of the absolute values: for the pixels 3 and -1 it is 1, not 2.  The factor
by which `drawPhot` multiplies the photons is 1 on average and does not repair this. -/
theorem C89_counterexample_negative : ∃ o : II, II.make o.args = .ok o ∧ o.Good ∧ o.flux = .ok 2 ∧
    ∀ K, o.photons K (1, 0) (fun _ g => g) = .ok 1 := by
  have hg := exSign_good
  have hw : (II.mk (linArgs exSign (.pix 1)) (.pix 1)).wanted = 2 := by
    simp [II.wanted, linArgs, defaultArgs, lower_flux, exSign_light.1]
  refine ⟨_, ?_, hg, ?_, fun K => ?_⟩
  · have hs : arrSum exSign.arr = 2 := by rw [arrSum_light exSign exSign_defd exSign_shape, exSign_light.1]
    show II.make (linArgs exSign (.pix 1)) = _
    have hn : isNormalization "flux" = true := by
      have : lower "flux" = "flux".toList := by decide
      simp only [isNormalization, this, decide_true, Bool.true_or]
    have hi : exSign.isInt = false := rfl
    simp [II.make, II.make.finish, linArgs, defaultArgs, exSign_defd, hs, hn, WCS.localWCS, hi]
  · rw [C87_flux _ hg, hw]
  · have hu := C89_unit_partial K (1, 0) .linear (Or.inr (Or.inl rfl)) rfl
    simp only [Kernel.shotError, abs_nonpos_iff] at hu
    have hk : (II.mk (linArgs exSign (.pix 1)) (.pix 1)).args.kernel = .linear := rfl
    rw [C89_total hg K (1, 0) (by norm_num) (by norm_num) (by rw [hk]; trivial) (by rw [hk]; simp), hw, hk,
      show (∫ x, Kernel.linear.shot K (1, 0) x) = 1 by linarith]
    show Except.ok (2 * (light (coordMap exSign) / absLight (coordMap exSign)) * 1 ^ 2) = _
    rw [exSign_light.1, exSign_light.2]
    norm_num

/-! ### Non-trivial cases -/

/-- The photons of the image of three pixels, 1, 1 and 5, with rotated and stretched pixels and the default kernel. -/
example (K : ℕ → ℕ → ℝ) (x : ℝ × ℝ → ℝ)
    (hx : ∀ p, (II.mk (defaultArgs exRow (.jac ⟨2, 1, 0, 3⟩) 4) (.jac ⟨2, 1, 0, 3⟩)).xValue K p = .ok (x p)) :
    ∃ v, (II.mk (defaultArgs exRow (.jac ⟨2, 1, 0, 3⟩) 4) (.jac ⟨2, 1, 0, 3⟩)).photons K
      (1.1293413499280066555, 0.1293413499280066555) (fun p g => g * if p.1 < 1 then 1 else 0) = .ok v ∧
      |v - ∫ p : ℝ × ℝ, x p * if p.1 < 1 then 1 else 0| ≤ 0.0765 * 7 := by
  have g := exRow_good (.jac ⟨2, 1, 0, 3⟩) (by show (2:ℝ) * 3 - 1 * 0 ≠ 0; norm_num) 4 le_rfl
  have hpos : ∀ X Y v, coordMap exRow X Y = some v → 0 ≤ v := by
    intro X Y v hv
    simp only [coordMap] at hv
    split_ifs at hv
    obtain rfl := Option.some.inj hv
    simp only [exRow]
    split_ifs <;> norm_num
  have hm : Measurable fun p : ℝ × ℝ => if p.1 < 1 then (1:ℝ) else 0 :=
    Measurable.ite (measurableSet_lt measurable_fst measurable_const) measurable_const measurable_const
  obtain ⟨v, h1, h2⟩ := C89_near_partial K _ g (Or.inr (Or.inr rfl)) _ rfl hpos x hx _ hm 1 (fun p => by
    show |if p.1 < 1 then (1:ℝ) else 0| ≤ 1
    split_ifs <;> norm_num)
  refine ⟨v, h1, h2.trans ?_⟩
  have hw : (II.mk (defaultArgs exRow (.jac ⟨2, 1, 0, 3⟩) 4) (.jac ⟨2, 1, 0, 3⟩)).wanted = 7 := by
    simp [II.wanted, defaultArgs, lower_flux, exRow_light]
  rw [hw]
  show Kernel.quintic.shotError * (2.52 + Kernel.quintic.shotError) * |7| * 1 ≤ _
  norm_num [Kernel.shotError]

/-- The positive and negative fluxes for the pixels 3 and -1 with the linear kernel. -/
example : ∃ P N, (II.mk (linArgs exSign (.pix 1)) (.pix 1)).posNeg (1, 0) = .ok (P, N) ∧ P = 3 ∧ N = 1 := by
  obtain ⟨P, N, h1, h2, h3⟩ := C89_fluxes exSign_good (1, 0) (by norm_num)
  have hw : (II.mk (linArgs exSign (.pix 1)) (.pix 1)).wanted = 2 := by
    simp [II.wanted, linArgs, defaultArgs, lower_flux, exSign_light.1]
  rw [C87_flux _ exSign_good, hw] at h2
  have h4 := Except.ok.inj h2
  rw [hw] at h3
  have h5 : P + N = 2 / light (coordMap exSign) * ((1 + 0) ^ 2 * absLight (coordMap exSign)) := h3
  rw [exSign_light.1, exSign_light.2] at h5
  exact ⟨P, N, h1, by linarith, by linarith⟩

end JG.Interp
