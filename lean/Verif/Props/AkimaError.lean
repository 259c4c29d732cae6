import Verif.Props.Akima
import Mathlib.Analysis.Calculus.MeanValue
import Mathlib.Analysis.Calculus.Deriv.MeanValue
import Mathlib.Topology.UniformSpace.HeineCantor
import Mathlib.Tactic.Positivity

/-! Property C97: how far Akima interpolation of a table is from the function that filled the table. -/

namespace JG
open Filter Topology Set

/-- A number between two others. -/
def Between (a b s : ℝ) : Prop := min a b ≤ s ∧ s ≤ max a b

theorem between_avg (a b : ℝ) : Between a b ((a + b) / 2) := by
  rcases le_total a b with h | h
  · rw [Between, min_eq_left h, max_eq_right h]; constructor <;> linarith
  · rw [Between, min_eq_right h, max_eq_left h]; constructor <;> linarith

theorem between_left (a b : ℝ) : Between a b a := ⟨min_le_left _ _, le_max_left _ _⟩

theorem between_weighted (a b u v : ℝ) (hu : 0 ≤ u) (hv : 0 ≤ v) (h : 0 < u + v) :
    Between a b ((u * a + v * b) / (u + v)) := by
  rw [Between, le_div_iff₀ h, div_le_iff₀ h]
  constructor
  · have h1 := mul_le_mul_of_nonneg_left (min_le_left a b) hu
    have h2 := mul_le_mul_of_nonneg_left (min_le_right a b) hv
    nlinarith
  · have h1 := mul_le_mul_of_nonneg_left (le_max_left a b) hu
    have h2 := mul_le_mul_of_nonneg_left (le_max_right a b) hv
    nlinarith

theorem between_dev {a b s m D : ℝ} (h : Between a b s) (ha : |a - m| ≤ D) (hb : |b - m| ≤ D) : |s - m| ≤ D := by
  obtain ⟨h1, h2⟩ := h
  rw [abs_le] at *
  rcases le_total a b with h | h
  · rw [min_eq_left h] at h1; rw [max_eq_right h] at h2
    constructor <;> linarith [ha.1, hb.2]
  · rw [min_eq_right h] at h1; rw [max_eq_left h] at h2
    constructor <;> linarith [ha.2, hb.1]

/-- The slope at a knot lies between the slopes of the two intervals around it, except at the last two knots, where the
intervals are one further to the left. -/
theorem akS_between (n : ℕ) (x y : ℕ → ℝ) (hn : 5 ≤ n) (i : ℕ) (hi : i < n) :
    (i = 0 ∧ akS n x y i = akM x y 0) ∨
    (0 < i ∧ i + 2 < n ∧ Between (akM x y (i - 1)) (akM x y i) (akS n x y i)) ∨
    (n ≤ i + 2 ∧ Between (akM x y (n - 4)) (akM x y (n - 3)) (akS n x y i)) := by
  rcases Nat.eq_zero_or_pos i with h0 | h0
  · left; subst h0; exact ⟨rfl, by simp [akS]⟩
  right
  by_cases h1 : i = 1
  · left
    subst h1
    refine ⟨one_pos, by omega, ?_⟩
    simp only [akS, one_ne_zero, if_false, if_true]
    exact between_avg _ _
  by_cases h2 : i + 2 < n
  · left
    refine ⟨h0, h2, ?_⟩
    simp only [akS]
    rw [if_neg (by omega), if_neg h1, if_pos h2]
    split_ifs with hd
    · apply between_weighted _ _ _ _ (abs_nonneg _) (abs_nonneg _)
      have hnn : 0 ≤ |akM x y (i + 1) - akM x y i| + |akM x y (i - 1) - akM x y (i - 2)| := by positivity
      rw [abs_of_nonneg hnn] at hd
      exact lt_of_lt_of_le (by norm_num) hd
    · exact between_avg _ _
  · right
    refine ⟨by omega, ?_⟩
    simp only [akS]
    rw [if_neg (by omega), if_neg h1, if_neg h2]
    split_ifs
    · exact between_avg _ _
    · have := between_left (akM x y (n - 3)) (akM x y (n - 4))
      rwa [Between, min_comm, max_comm] at this

/-- The chord through the two ends of interval `i`. -/
noncomputable def chord (x y : ℕ → ℝ) (i : ℕ) (t : ℝ) : ℝ := y i + akM x y i * (t - x i)

/-- The cubic stays near the chord when the slopes at both ends are near that of the chord. -/
theorem akP_chord (n : ℕ) (x y : ℕ → ℝ) (i : ℕ) (h : x i < x (i + 1)) {D t : ℝ} (ht : x i ≤ t) (ht' : t ≤ x (i + 1))
    (h1 : |akS n x y i - akM x y i| ≤ D) (h2 : |akS n x y (i + 1) - akM x y i| ≤ D) :
    |akP n x y i t - chord x y i t| ≤ (x (i + 1) - x i) * D / 4 := by
  obtain ⟨H, hH⟩ : ∃ H, H = x (i + 1) - x i := ⟨_, rfl⟩
  have hpos : 0 < H := by rw [hH]; linarith
  obtain ⟨u, hu⟩ : ∃ u, u = (t - x i) / H := ⟨_, rfl⟩
  have htu : t - x i = u * H := by rw [hu]; field_simp
  have hu0 : 0 ≤ u := by rw [hu]; exact div_nonneg (by linarith) hpos.le
  have hu1 : u ≤ 1 := by rw [hu, div_le_one hpos]; linarith
  obtain ⟨a, ha⟩ : ∃ a, a = akS n x y i - akM x y i := ⟨_, rfl⟩
  obtain ⟨b, hb⟩ : ∃ b, b = akS n x y (i + 1) - akM x y i := ⟨_, rfl⟩
  have e : akP n x y i t - chord x y i t = H * (u * (1 - u)) * (a * (1 - u) - b * u) := by
    rw [ha, hb]
    simp only [akP, chord, akA, akB, akC, akD, htu, ← hH]
    field_simp
    ring
  rw [← ha] at h1
  rw [← hb] at h2
  have hab : |a * (1 - u) - b * u| ≤ D := by
    rw [abs_le] at *
    constructor <;> nlinarith
  have hq : u * (1 - u) ≤ 1 / 4 := by nlinarith [sq_nonneg (2 * u - 1)]
  have hq0 : 0 ≤ u * (1 - u) := mul_nonneg hu0 (by linarith)
  rw [e, abs_mul, abs_of_nonneg (by positivity), ← hH]
  have hD : 0 ≤ D := (abs_nonneg _).trans h1
  calc H * (u * (1 - u)) * |a * (1 - u) - b * u| ≤ H * (1 / 4) * D := by gcongr
    _ = _ := by ring

/-- If the slopes of nearby intervals differ by at most `D`, the interpolant is within `h D / 4` of the chord. -/
theorem interp_chord (fixed : Bool) (n : ℕ) (x y : ℕ → ℝ) (hn : 5 ≤ n) (hx : Knots n x)
    (he : fixed = true → Even n x) {h D t : ℝ} (hh : ∀ i, i + 1 < n → x (i + 1) - x i ≤ h) (h0 : x 0 ≤ t) (h1 : t ≤ x (n - 1))
    (hD : ∀ i j, i + 1 < n → j + 1 < n → (j ≤ i + 1 ∧ i ≤ j + 1) ∨ (t ≥ x (n - 2) ∧ j + 2 = i) → |akM x y j - akM x y i| ≤ D) :
    ∃ i, i + 1 < n ∧ x i ≤ t ∧ t ≤ x (i + 1) ∧ |akimaInterp fixed n x y t - chord x y i t| ≤ h * D / 4 := by
  obtain ⟨i, hi, h2, h3⟩ := locate n x hn t h0 h1
  have h3' : t < x (i + 1) ∨ (i + 2 = n ∧ t ≤ x (n - 1)) := by
    rcases h3 with h3 | h3
    · exact Or.inl h3
    · exact Or.inr ⟨h3.1, h3.2.le⟩
  have h4 : t ≤ x (i + 1) := by
    rcases h3' with h | ⟨h, h'⟩
    · exact h.le
    · rwa [show n - 1 = i + 1 by omega] at h'
  refine ⟨i, hi, h2, h4, ?_⟩
  rw [interp_eq fixed n x y hn hx he i t hi h2 h3']
  have hlast : i + 2 = n → t ≥ x (n - 2) := fun h => by rwa [show n - 2 = i by omega]
  have hself : ∀ j, j + 1 < n → |akM x y j - akM x y j| ≤ D := fun j hj => hD j j hj hj (Or.inl ⟨by omega, by omega⟩)
  have hDn : 0 ≤ D := (abs_nonneg _).trans (hself 0 (by omega))
  have s1 : |akS n x y i - akM x y i| ≤ D := by
    rcases akS_between n x y hn i (by omega) with ⟨rfl, hs⟩ | ⟨hp, hq, hs⟩ | ⟨hp, hs⟩
    · rw [hs]; exact hself 0 hi
    · exact between_dev hs (hD i (i - 1) hi (by omega) (Or.inl ⟨by omega, by omega⟩)) (hself i hi)
    · have e : i + 2 = n := by omega
      exact between_dev hs (hD i (n - 4) hi (by omega) (Or.inr ⟨hlast e, by omega⟩))
        (hD i (n - 3) hi (by omega) (Or.inl ⟨by omega, by omega⟩))
  have s2 : |akS n x y (i + 1) - akM x y i| ≤ D := by
    rcases akS_between n x y hn (i + 1) (by omega) with ⟨hp, _⟩ | ⟨hp, hq, hs⟩ | ⟨hp, hs⟩
    · omega
    · exact between_dev hs (hD i (i + 1 - 1) hi (by omega) (Or.inl ⟨by omega, by omega⟩))
        (hD i (i + 1) hi (by omega) (Or.inl ⟨by omega, by omega⟩))
    · rcases Nat.lt_or_ge (i + 2) n with hlt | hge
      · exact between_dev hs (hD i (n - 4) hi (by omega) (Or.inl ⟨by omega, by omega⟩))
          (hD i (n - 3) hi (by omega) (Or.inl ⟨by omega, by omega⟩))
      · exact between_dev hs (hD i (n - 4) hi (by omega) (Or.inr ⟨hlast (by omega), by omega⟩))
          (hD i (n - 3) hi (by omega) (Or.inl ⟨by omega, by omega⟩))
  refine (akP_chord n x y i (hx i (i + 1) (by omega) hi) h2 h4 s1 s2).trans ?_
  have := hh i hi
  gcongr

theorem knots_le {n : ℕ} {x : ℕ → ℝ} (hx : Knots n x) {a b : ℕ} (hab : a ≤ b) (hb : b < n) : x a ≤ x b := by
  rcases hab.lt_or_eq with h | h
  · exact (hx a b h hb).le
  · rw [h]

/-- Specification: `f` is continuous on `[a, b]` and differentiable inside, with a derivative whose slope is at most `M`. -/
structure Smooth (f f' : ℝ → ℝ) (M a b : ℝ) : Prop where
  cont : ContinuousOn f (Icc a b)
  diff : ∀ t ∈ Ioo a b, HasDerivAt f (f' t) t
  lip : ∀ s ∈ Ioo a b, ∀ t ∈ Ioo a b, |f' s - f' t| ≤ M * |s - t|

theorem Smooth.slope {f f' : ℝ → ℝ} {M a b : ℝ} (hf : Smooth f f' M a b) {s t : ℝ} (hs : a ≤ s) (hst : s < t) (ht : t ≤ b) :
    ∃ c ∈ Ioo s t, f' c = (f t - f s) / (t - s) :=
  exists_hasDerivAt_eq_slope f f' hst (hf.cont.mono (Icc_subset_Icc hs ht))
    fun c hc => hf.diff c ⟨hs.trans_lt hc.1, hc.2.trans_le ht⟩

theorem Smooth.nonneg {f f' : ℝ → ℝ} {M a b : ℝ} (hf : Smooth f f' M a b) (hab : a < b) : 0 ≤ M := by
  have h := hf.lip (a + (b - a) / 3) ⟨by linarith, by linarith⟩ (a + 2 * (b - a) / 3) ⟨by linarith, by linarith⟩
  have h2 := (abs_nonneg _).trans h
  by_contra hc
  have : 0 < |a + (b - a) / 3 - (a + 2 * (b - a) / 3)| := abs_pos.mpr (by linarith)
  nlinarith

/-- The distance of a smooth function from its chord. -/
theorem Smooth.chord {f f' : ℝ → ℝ} {M a b : ℝ} (hf : Smooth f f' M a b) {s e t : ℝ} (hs : a ≤ s) (hse : s < e) (he : e ≤ b)
    (h1 : s ≤ t) (h2 : t ≤ e) : |f s + (f e - f s) / (e - s) * (t - s) - f t| ≤ M * (e - s) ^ 2 / 4 := by
  have hM := hf.nonneg (lt_of_le_of_lt hs (hse.trans_le he))
  rcases h1.lt_or_eq with h1 | h1
  · rcases h2.lt_or_eq with h2 | h2
    · obtain ⟨c, hc, ec⟩ := hf.slope hs h1 (h2.le.trans he)
      obtain ⟨d, hd, ed⟩ := hf.slope (hs.trans h1.le) h2 he
      have l1 : f t - f s = f' c * (t - s) := by rw [ec, div_mul_cancel₀]; linarith
      have l2 : f e - f t = f' d * (e - t) := by rw [ed, div_mul_cancel₀]; linarith
      have hcd := hf.lip d ⟨by linarith [hd.1], by linarith [hd.2]⟩ c ⟨by linarith [hc.1], by linarith [hc.2]⟩
      have hlen : |d - c| ≤ e - s := by rw [abs_le]; constructor <;> linarith [hc.1, hc.2, hd.1, hd.2]
      have hp : 0 < e - s := by linarith
      have eq : f s + (f e - f s) / (e - s) * (t - s) - f t = (t - s) * (e - t) / (e - s) * (f' d - f' c) := by
        have : f e - f s = f' d * (e - t) + f' c * (t - s) := by linarith
        rw [this, show f t = f s + f' c * (t - s) by linarith]
        field_simp
        ring
      have hq : (t - s) * (e - t) / (e - s) ≤ (e - s) / 4 := by
        rw [div_le_iff₀ hp]
        nlinarith [sq_nonneg ((t - s) - (e - t))]
      have hq0 : 0 ≤ (t - s) * (e - t) / (e - s) := div_nonneg (mul_nonneg (by linarith) (by linarith)) hp.le
      rw [eq, abs_mul, abs_of_nonneg hq0]
      calc (t - s) * (e - t) / (e - s) * |f' d - f' c| ≤ (e - s) / 4 * (M * (e - s)) := by
            gcongr
            exact hcd.trans (by gcongr)
        _ = _ := by ring
    · subst h2
      rw [div_mul_cancel₀ _ (by linarith : t - s ≠ 0)]
      rw [show f s + (f t - f s) - f t = 0 by ring, abs_zero]
      positivity
  · subst h1
    rw [sub_self, mul_zero, add_zero, sub_self, abs_zero]
    positivity

/-- The slopes of two intervals of the table differ by at most `M` times the range they span. -/
theorem Smooth.slopes {f f' : ℝ → ℝ} {M : ℝ} {n : ℕ} {x : ℕ → ℝ} (hx : Knots n x) (hf : Smooth f f' M (x 0) (x (n - 1)))
    {i j : ℕ} (hij : i ≤ j) (hj : j + 1 < n) :
    |akM x (fun k => f (x k)) i - akM x (fun k => f (x k)) j| ≤ M * (x (j + 1) - x i) := by
  have hM := hf.nonneg (hx 0 (n - 1) (by omega) (by omega))
  obtain ⟨c, hc, ec⟩ := hf.slope (knots_le hx (Nat.zero_le i) (by omega)) (hx i (i + 1) (by omega) (by omega))
    (knots_le hx (show i + 1 ≤ n - 1 by omega) (by omega))
  obtain ⟨d, hd, ed⟩ := hf.slope (knots_le hx (Nat.zero_le j) (by omega)) (hx j (j + 1) (by omega) (by omega))
    (knots_le hx (show j + 1 ≤ n - 1 by omega) (by omega))
  simp only [akM]
  rw [← ec, ← ed]
  have a1 := knots_le hx (Nat.zero_le i) (by omega)
  have a2 := knots_le hx (show j + 1 ≤ n - 1 by omega) (by omega)
  have a3 := knots_le hx (show i + 1 ≤ j + 1 by omega) hj
  have a4 := knots_le hx hij (by omega)
  refine (hf.lip c ⟨by linarith [hc.1], by linarith [hc.2]⟩ d ⟨by linarith [hd.1], by linarith [hd.2]⟩).trans ?_
  gcongr
  rw [abs_le]
  constructor <;> linarith [hc.1, hc.2, hd.1, hd.2]

/-- C97: when a table with spacing at most `h` is filled from a function whose derivative has slope at most `M`, the
interpolated value is nowhere further than `M h²` from the function, and at most `3/4 M h²` before the last interval. -/
theorem C97_smooth (fixed : Bool) (n : ℕ) (x : ℕ → ℝ) (hn : 5 ≤ n) (hx : Knots n x) (he : fixed = true → Even n x)
    (f f' : ℝ → ℝ) (M h : ℝ) (hf : Smooth f f' M (x 0) (x (n - 1))) (hh : ∀ i, i + 1 < n → x (i + 1) - x i ≤ h)
    (t : ℝ) (h0 : x 0 ≤ t) (h1 : t ≤ x (n - 1)) :
    |akimaInterp fixed n x (fun k => f (x k)) t - f t| ≤ M * h ^ 2 ∧
    (t < x (n - 2) → |akimaInterp fixed n x (fun k => f (x k)) t - f t| ≤ 3 / 4 * (M * h ^ 2)) := by
  have hM := hf.nonneg (hx 0 (n - 1) (by omega) (by omega))
  have hhp : 0 ≤ h := by linarith [hh 0 (by omega), hx 0 1 (by omega) (by omega)]
  have step : ∀ a k, a + k < n → x (a + k) - x a ≤ k * h := by
    intro a k
    induction k with
    | zero => intro _; simp
    | succ k ih =>
      intro hk
      have e1 := ih (by omega)
      have e2 := hh (a + k) (by omega)
      rw [← add_assoc]
      push_cast
      linarith
  have adj : ∀ i j, i + 1 < n → j + 1 < n → j ≤ i + 1 ∧ i ≤ j + 1 →
      |akM x (fun k => f (x k)) j - akM x (fun k => f (x k)) i| ≤ 2 * h * M := by
    intro i j hi hj hij
    have key : ∀ a b, a ≤ b → b + 1 < n → b ≤ a + 1 →
        |akM x (fun k => f (x k)) a - akM x (fun k => f (x k)) b| ≤ 2 * h * M := by
      intro a b hab hb hba
      refine (hf.slopes hx hab hb).trans ?_
      have s := step a (b + 1 - a) (by omega)
      rw [show a + (b + 1 - a) = b + 1 by omega] at s
      have : ((b + 1 - a : ℕ) : ℝ) ≤ 2 := by exact_mod_cast (show b + 1 - a ≤ 2 by omega)
      have : x (b + 1) - x a ≤ 2 * h := s.trans (by gcongr)
      rw [mul_comm (2 * h)]
      gcongr
    rcases le_total j i with hc | hc
    · exact key j i hc hi hij.2
    · rw [abs_sub_comm]; exact key i j hc hj hij.1
  have tail : ∀ {D : ℝ} {i : ℕ}, i + 1 < n → x i ≤ t → t ≤ x (i + 1) →
      |akimaInterp fixed n x (fun k => f (x k)) t - chord x (fun k => f (x k)) i t| ≤ h * D / 4 →
      |akimaInterp fixed n x (fun k => f (x k)) t - f t| ≤ M * h ^ 2 / 4 + h * D / 4 := by
    intro D i hi a1 a2 hc
    have c := hf.chord (knots_le hx (Nat.zero_le i) (by omega)) (hx i (i + 1) (by omega) hi)
      (knots_le hx (show i + 1 ≤ n - 1 by omega) (by omega)) a1 a2
    have c' : |chord x (fun k => f (x k)) i t - f t| ≤ M * (x (i + 1) - x i) ^ 2 / 4 := c
    have hw : (x (i + 1) - x i) ^ 2 ≤ h ^ 2 := by
      have := hx i (i + 1) (by omega) hi
      exact pow_le_pow_left₀ (by linarith) (hh i hi) 2
    have hw' : M * (x (i + 1) - x i) ^ 2 ≤ M * h ^ 2 := by gcongr
    have := abs_sub_le (akimaInterp fixed n x (fun k => f (x k)) t) (chord x (fun k => f (x k)) i t) (f t)
    linarith
  constructor
  · obtain ⟨i, hi, a1, a2, hc⟩ := interp_chord fixed n x (fun k => f (x k)) hn hx he (D := 3 * h * M) hh h0 h1
      (by
        intro i j hi hj hij
        rcases hij with hij | ⟨_, hij⟩
        · exact (adj i j hi hj hij).trans (by nlinarith [mul_nonneg hhp hM])
        · refine (hf.slopes hx (by omega) hi).trans ?_
          have s := step j 3 (by omega)
          rw [show j + 3 = i + 1 by omega] at s
          rw [mul_comm (3 * h)]
          push_cast at s
          gcongr)
    exact (tail hi a1 a2 hc).trans (le_of_eq (by ring))
  · intro hlt
    obtain ⟨i, hi, a1, a2, hc⟩ := interp_chord fixed n x (fun k => f (x k)) hn hx he (D := 2 * h * M) hh h0 h1
      (by
        intro i j hi hj hij
        rcases hij with hij | ⟨hge, _⟩
        · exact adj i j hi hj hij
        · exact absurd hge (not_le.mpr hlt))
    exact (tail hi a1 a2 hc).trans (le_of_eq (by ring))

/-- A table of `t²` on `0, 1, .., 9`: nowhere wrong by more than 2. -/
example (t : ℝ) (h0 : 0 ≤ t) (h1 : t ≤ 9) :
    |akimaInterp true 10 (fun k => (k : ℝ)) (fun k => (k : ℝ) ^ 2) t - t ^ 2| ≤ 2 := by
  have := (C97_smooth true 10 (fun k => (k : ℝ)) (by norm_num) (fun i j h _ => by simp only; exact_mod_cast h)
    (fun _ k _ => by simp) (fun t => t ^ 2) (fun t => 2 * t) 2 1
    ⟨by fun_prop, fun t _ => by simpa using hasDerivAt_pow 2 t, fun s _ t _ => by
      rw [← mul_sub, abs_mul]; norm_num⟩ (fun i _ => by simp) t (by simpa using h0) (by norm_num; exact h1)).1
  simpa using this

/-- C97: when the entries of an evenly spaced table are known only to within `ε`, the bound grows by at most `2ε`. -/
theorem C97_rounded (fixed : Bool) (n : ℕ) (x y : ℕ → ℝ) (hn : 5 ≤ n) (hx : Knots n x) (he : Even n x)
    (f f' : ℝ → ℝ) (M ε : ℝ) (hf : Smooth f f' M (x 0) (x (n - 1))) (hy : ∀ k, k < n → |y k - f (x k)| ≤ ε)
    (t : ℝ) (h0 : x 0 ≤ t) (h1 : t ≤ x (n - 1)) :
    |akimaInterp fixed n x y t - f t| ≤ M * (x 1 - x 0) ^ 2 + 2 * ε := by
  obtain ⟨h, hh⟩ : ∃ h, h = x 1 - x 0 := ⟨_, rfl⟩
  have hM := hf.nonneg (hx 0 (n - 1) (by omega) (by omega))
  have hp : 0 < h := by rw [hh]; linarith [hx 0 1 (by omega) (by omega)]
  have hstep : ∀ i, i + 1 < n → x (i + 1) - x i = h := by
    intro i hi
    rw [he i (by omega), he (i + 1) hi, ← hh]
    push_cast
    ring
  have hgap : ∀ a k, a + k < n → x (a + k) - x a = k * h := by
    intro a k hk
    rw [he a (by omega), he (a + k) hk, ← hh]
    push_cast
    ring
  have hm : ∀ i, i + 1 < n → |akM x y i - akM x (fun k => f (x k)) i| ≤ 2 * ε / h := by
    intro i hi
    simp only [akM]
    rw [hstep i hi, ← sub_div, abs_div, abs_of_pos hp]
    have a1 := hy i (by omega)
    have a2 := hy (i + 1) hi
    gcongr
    rw [show y (i + 1) - y i - (f (x (i + 1)) - f (x i)) = (y (i + 1) - f (x (i + 1))) - (y i - f (x i)) by ring]
    exact (abs_sub _ _).trans (by linarith)
  have sl : ∀ i j, i ≤ j → j + 1 < n → j ≤ i + 2 → |akM x y i - akM x y j| ≤ 3 * h * M + 4 * ε / h := by
    intro i j hij hj hji
    have s1 := hf.slopes hx hij hj
    have g := hgap i (j + 1 - i) (by omega)
    rw [show i + (j + 1 - i) = j + 1 by omega] at g
    have c3 : ((j + 1 - i : ℕ) : ℝ) ≤ 3 := by exact_mod_cast (show j + 1 - i ≤ 3 by omega)
    have s2 : M * (x (j + 1) - x i) ≤ 3 * h * M := by
      rw [g, mul_comm M]
      gcongr
    have e1 := abs_le.mp (hm i (by omega))
    have e2 := abs_le.mp (hm j hj)
    have e3 := abs_le.mp s1
    have e4 : 4 * ε / h = 2 * ε / h + 2 * ε / h := by ring
    rw [e4, abs_le]
    constructor <;> linarith [e1.1, e1.2, e2.1, e2.2, e3.1, e3.2]
  obtain ⟨i, hi, a1, a2, hc⟩ := interp_chord fixed n x y hn hx (fun _ => he) (D := 3 * h * M + 4 * ε / h)
    (fun i hi => (hstep i hi).le) h0 h1 (by
      intro i j hi hj hij
      rcases le_total j i with hc | hc
      · exact sl j i hc hi (by omega)
      · rw [abs_sub_comm]; exact sl i j hc hj (by omega))
  have c := hf.chord (knots_le hx (Nat.zero_le i) (by omega)) (hx i (i + 1) (by omega) hi)
    (knots_le hx (show i + 1 ≤ n - 1 by omega) (by omega)) a1 a2
  rw [hstep i hi] at c
  obtain ⟨v, hv⟩ : ∃ v, v = (t - x i) / h := ⟨_, rfl⟩
  have hv0 : 0 ≤ v := by rw [hv]; exact div_nonneg (by linarith) hp.le
  have hv1 : v ≤ 1 := by rw [hv, div_le_one hp]; linarith [hstep i hi]
  have d : |chord x y i t - (f (x i) + (f (x (i + 1)) - f (x i)) / h * (t - x i))| ≤ ε := by
    have e : chord x y i t - (f (x i) + (f (x (i + 1)) - f (x i)) / h * (t - x i)) =
        (1 - v) * (y i - f (x i)) + v * (y (i + 1) - f (x (i + 1))) := by
      simp only [chord, akM]
      rw [hstep i hi, hv]
      field_simp
      ring
    have b1 := abs_le.mp (hy i (by omega))
    have b2 := abs_le.mp (hy (i + 1) hi)
    rw [e, abs_le]
    constructor <;> nlinarith [b1.1, b1.2, b2.1, b2.2]
  have z1 := abs_sub_le (akimaInterp fixed n x y t) (chord x y i t) (f t)
  have z2 := abs_sub_le (chord x y i t) (f (x i) + (f (x (i + 1)) - f (x i)) / h * (t - x i)) (f t)
  have z3 : h * (3 * h * M + 4 * ε / h) / 4 = 3 / 4 * (M * h ^ 2) + ε := by field_simp
  rw [← hh]
  linarith

/-- A table of `t²` on `0, 1, .., 9` with entries rounded to within a tenth. -/
example (y : ℕ → ℝ) (hy : ∀ k, k < 10 → |y k - (k : ℝ) ^ 2| ≤ 1 / 10) (t : ℝ) (h0 : 0 ≤ t) (h1 : t ≤ 9) :
    |akimaInterp true 10 (fun k => (k : ℝ)) y t - t ^ 2| ≤ 2.2 := by
  have := C97_rounded true 10 (fun k => (k : ℝ)) y (by norm_num) (fun i j h _ => by simp only; exact_mod_cast h)
    (fun k _ => by simp) (fun t => t ^ 2) (fun t => 2 * t) 2 (1 / 10)
    ⟨by fun_prop, fun t _ => by simpa using hasDerivAt_pow 2 t, fun s _ t _ => by
      rw [← mul_sub, abs_mul]; norm_num⟩ hy t (by simpa using h0) (by norm_num; exact h1)
  norm_num at this
  norm_num
  linarith

/-- C97: when an evenly spaced table is filled from a function that changes by at most `ω` over one spacing, the
interpolated value is nowhere further than `3/2 ω` from the function. -/
theorem C97_modulus (fixed : Bool) (n : ℕ) (x : ℕ → ℝ) (hn : 5 ≤ n) (hx : Knots n x) (he : Even n x)
    (f : ℝ → ℝ) (ω : ℝ) (hω : ∀ s t, x 0 ≤ s → s ≤ t → t ≤ x (n - 1) → t - s ≤ x 1 - x 0 → |f t - f s| ≤ ω)
    (t : ℝ) (h0 : x 0 ≤ t) (h1 : t ≤ x (n - 1)) :
    |akimaInterp fixed n x (fun k => f (x k)) t - f t| ≤ 3 / 2 * ω := by
  obtain ⟨h, hh⟩ : ∃ h, h = x 1 - x 0 := ⟨_, rfl⟩
  have hp : 0 < h := by rw [hh]; linarith [hx 0 1 (by omega) (by omega)]
  have hstep : ∀ i, i + 1 < n → x (i + 1) - x i = h := by
    intro i hi
    rw [he i (by omega), he (i + 1) hi, ← hh]
    push_cast
    ring
  have hm : ∀ i, i + 1 < n → |akM x (fun k => f (x k)) i| ≤ ω / h := by
    intro i hi
    simp only [akM]
    rw [hstep i hi, abs_div, abs_of_pos hp]
    have := hω (x i) (x (i + 1)) (knots_le hx (Nat.zero_le i) (by omega)) (hx i (i + 1) (by omega) hi).le
      (knots_le hx (show i + 1 ≤ n - 1 by omega) (by omega)) (by rw [hstep i hi, hh])
    gcongr
  obtain ⟨i, hi, a1, a2, hc⟩ := interp_chord fixed n x (fun k => f (x k)) hn hx (fun _ => he) (D := 2 * (ω / h))
    (fun i hi => (hstep i hi).le) h0 h1 (by
      intro i j hi hj _
      exact (abs_sub _ _).trans (by linarith [hm i hi, hm j hj]))
  have e1 : h * (2 * (ω / h)) / 4 = ω / 2 := by field_simp; norm_num [mul_comm]
  rw [e1] at hc
  have hlo : x 0 ≤ x i := knots_le hx (Nat.zero_le i) (by omega)
  have hhi : x (i + 1) ≤ x (n - 1) := knots_le hx (show i + 1 ≤ n - 1 by omega) (by omega)
  have w1 := hω (x i) t hlo a1 (a2.trans hhi) (by rw [← hh, ← hstep i hi]; linarith)
  have w2 := hω t (x (i + 1)) h0 a2 hhi (by rw [← hh, ← hstep i hi]; linarith)
  have hch : |chord x (fun k => f (x k)) i t - f t| ≤ ω := by
    obtain ⟨u, hu⟩ : ∃ u, u = (t - x i) / h := ⟨_, rfl⟩
    have hu0 : 0 ≤ u := by rw [hu]; exact div_nonneg (by linarith) hp.le
    have hu1 : u ≤ 1 := by rw [hu, div_le_one hp, ← hstep i hi]; linarith
    have e : chord x (fun k => f (x k)) i t - f t = u * (f (x (i + 1)) - f t) - (1 - u) * (f t - f (x i)) := by
      simp only [chord, akM]
      rw [hstep i hi, hu]
      field_simp
      ring
    rw [e, abs_le]
    rw [abs_le] at w1 w2
    constructor <;> nlinarith
  have := abs_sub_le (akimaInterp fixed n x (fun k => f (x k)) t) (chord x (fun k => f (x k)) i t) (f t)
  linarith

/-- A table of `|t - 4|` on `0, 1, .., 9`: nowhere wrong by more than 3/2. -/
example (t : ℝ) (h0 : 0 ≤ t) (h1 : t ≤ 9) :
    |akimaInterp true 10 (fun k => (k : ℝ)) (fun k => |(k : ℝ) - 4|) t - abs (t - 4)| ≤ 3 / 2 := by
  have := C97_modulus true 10 (fun k => (k : ℝ)) (by norm_num) (fun i j h _ => by simp only; exact_mod_cast h)
    (fun k _ => by simp) (fun t => |t - 4|) 1 (fun s t _ hst _ h => by
      refine (abs_abs_sub_abs_le _ _).trans ?_
      rw [show t - 4 - (s - 4) = t - s by ring, abs_of_nonneg (by linarith)]
      simpa using h) t (by simpa using h0) (by norm_num; exact h1)
  simpa using this

/-- The even table of `n` knots on `[a, b]`. -/
noncomputable def evenTable (a b : ℝ) (n : ℕ) (i : ℕ) : ℝ := a + i * ((b - a) / (n - 1))

/-- C97: with more and more evenly spaced knots, the interpolation of any continuous function converges to it, at the
same rate everywhere in the range of the table. -/
theorem C97_converges (fixed : Bool) (a b : ℝ) (hab : a < b) (f : ℝ → ℝ) (hf : ContinuousOn f (Icc a b)) (ε : ℝ)
    (hε : 0 < ε) : ∃ N, ∀ n, N ≤ n → ∀ t ∈ Icc a b,
      |akimaInterp fixed n (evenTable a b n) (fun k => f (evenTable a b n k)) t - f t| ≤ ε := by
  have hu := isCompact_Icc.uniformContinuousOn_of_continuous hf
  rw [Metric.uniformContinuousOn_iff] at hu
  obtain ⟨δ, hδ, hu⟩ := hu (ε * (2 / 3)) (by positivity)
  obtain ⟨N, hN⟩ := exists_nat_gt ((b - a) / δ + 5)
  refine ⟨N, fun n hn t ht => ?_⟩
  have hnN : (N : ℝ) ≤ n := by exact_mod_cast hn
  have hq : 0 < (b - a) / δ := div_pos (by linarith) hδ
  have hn5 : 5 ≤ n := by
    have : (5 : ℝ) < n := by linarith
    exact_mod_cast this.le
  have hn1 : (0 : ℝ) < n - 1 := by linarith
  have hs : 0 < (b - a) / (n - 1) := div_pos (by linarith) hn1
  have hsδ : (b - a) / (n - 1) < δ := by
    rw [div_lt_iff₀ hn1]
    have : (b - a) / δ < n - 1 := by linarith
    rwa [div_lt_iff₀ hδ, mul_comm] at this
  have z : evenTable a b n 0 = a := by simp [evenTable]
  have o : evenTable a b n 1 - evenTable a b n 0 = (b - a) / (n - 1) := by simp [evenTable]
  have l : evenTable a b n (n - 1) = b := by
    rw [evenTable, Nat.cast_sub (by omega), Nat.cast_one]
    field_simp
    ring
  have key := C97_modulus fixed n (evenTable a b n) hn5 (fun i j hij _ => by
      simp only [evenTable]
      have : (i : ℝ) < j := by exact_mod_cast hij
      nlinarith) (fun k _ => by rw [o, z]; rfl) f (ε * (2 / 3)) (fun s t h1 h2 h3 h4 => by
      rw [z] at h1
      rw [l] at h3
      rw [o] at h4
      have := hu t ⟨by linarith, h3⟩ s ⟨h1, by linarith⟩ (by
        rw [Real.dist_eq, abs_of_nonneg (by linarith)]
        linarith)
      rw [Real.dist_eq] at this
      exact this.le) t (by rw [z]; exact ht.1) (by rw [l]; exact ht.2)
  linarith

example : ∃ N, ∀ n, N ≤ n → ∀ t ∈ Icc (0 : ℝ) 3,
    |akimaInterp false n (evenTable 0 3 n) (fun k => Real.sqrt (evenTable 0 3 n k)) t - Real.sqrt t| ≤ 0.001 :=
  C97_converges false 0 3 (by norm_num) Real.sqrt Real.continuous_sqrt.continuousOn _ (by norm_num)

/-- C97: away from the first two and last two intervals, an evenly spaced table of a quadratic function is reproduced
exactly. -/
theorem C97_quadratic (fixed : Bool) (n : ℕ) (x : ℕ → ℝ) (α β γ : ℝ) (hn : 5 ≤ n) (hx : Knots n x) (he : Even n x)
    (t : ℝ) (h0 : x 2 ≤ t) (h1 : t < x (n - 3)) :
    akimaInterp fixed n x (fun k => α * x k ^ 2 + β * x k + γ) t = α * t ^ 2 + β * t + γ := by
  obtain ⟨h, hh⟩ : ∃ h, h = x 1 - x 0 := ⟨_, rfl⟩
  have hp : 0 < h := by rw [hh]; linarith [hx 0 1 (by omega) (by omega)]
  have hstep : ∀ i, i + 1 < n → x (i + 1) = x i + h := by
    intro i hi
    rw [he i (by omega), he (i + 1) hi, ← hh]
    push_cast
    ring
  have hm : ∀ i, i + 1 < n → akM x (fun k => α * x k ^ 2 + β * x k + γ) i = α * (2 * x i + h) + β := by
    intro i hi
    simp only [akM]
    rw [hstep i hi, add_sub_cancel_left, div_eq_iff hp.ne']
    ring
  obtain ⟨i, hi, h2, h3⟩ := locate n x hn t ((knots_le hx (Nat.zero_le 2) (by omega)).trans h0)
    (h1.le.trans (knots_le hx (by omega) (by omega)))
  have h3' : t < x (i + 1) ∨ (i + 2 = n ∧ t ≤ x (n - 1)) := by
    rcases h3 with h3 | h3
    · exact Or.inl h3
    · exact Or.inr ⟨h3.1, h3.2.le⟩
  rw [interp_eq fixed n x _ hn hx (fun _ => he) i t hi h2 h3']
  have hi2 : 2 ≤ i := by
    by_contra hc
    have hle := knots_le hx (show i + 1 ≤ 2 by omega) (by omega)
    rcases h3 with h3 | h3
    · linarith
    · omega
  have hi3 : i + 3 < n := by
    by_contra hc
    have := knots_le hx (show n - 3 ≤ i by omega) (by omega)
    linarith
  have hs : ∀ j, 2 ≤ j → j + 2 < n → akS n x (fun k => α * x k ^ 2 + β * x k + γ) j = 2 * α * x j + β := by
    intro j hj2 hjn
    obtain ⟨l, rfl⟩ : ∃ l, j = l + 2 := ⟨j - 2, by omega⟩
    have e1 := hstep l (by omega)
    have e2 := hstep (l + 1) (by omega)
    have e3 := hstep (l + 2) (by omega)
    rw [show l + 1 + 1 = l + 2 by omega] at e2
    rw [akS, if_neg (by omega), if_neg (by omega), if_pos hjn]
    rw [show l + 2 - 1 = l + 1 by omega, show l + 2 - 2 = l by omega]
    simp only [hm (l + 2) (by omega), hm (l + 2 + 1) (by omega), hm (l + 1) (by omega), hm l (by omega)]
    rw [e3, e2, e1]
    have q1 : α * (2 * (x l + h + h + h) + h) + β - (α * (2 * (x l + h + h) + h) + β) = 2 * α * h := by ring
    have q2 : α * (2 * (x l + h) + h) + β - (α * (2 * x l + h) + β) = 2 * α * h := by ring
    rw [q1, q2]
    split_ifs with hd
    · rcases eq_or_ne (|2 * α * h|) 0 with hz | hz
      · rw [hz] at hd
        norm_num at hd
      · field_simp
        ring
    · ring
  have e := hstep i hi
  simp only [akP, akA, akB, akC, akD]
  rw [hm i hi, hs i hi2 (by omega), hs (i + 1) (by omega) (by omega), e, add_sub_cancel_left]
  field_simp
  ring

example (t : ℝ) (h0 : 2 ≤ t) (h1 : t < 7) :
    akimaInterp true 10 (fun k => (k : ℝ)) (fun k => 3 * (k : ℝ) ^ 2 + 2 * (k : ℝ) + 1) t = 3 * t ^ 2 + 2 * t + 1 :=
  C97_quadratic true 10 (fun k => (k : ℝ)) 3 2 1 (by norm_num) (fun i j h _ => by simp only; exact_mod_cast h)
    (fun k _ => by simp) t (by simpa using h0) (by norm_num; exact h1)

end JG
