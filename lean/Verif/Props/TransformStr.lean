import Verif.Model.TransformStr
import Verif.Props.WCSShape
import Mathlib.Analysis.SpecialFunctions.Trigonometric.Bounds

/-! C106: the text of a transformed object. -/

namespace JG

/-! ### Reading the text -/

/-- Whoever reads the text applies the named method of `GSObject` to the object. -/
noncomputable def JacStr.read (o : Prof) : JacStr → Option Prof
  | .empty => some o
  | .rotate t => some (o.rotate ⟨t⟩)
  | .shear s => o.shear s
  | .expand c => some (o.expand c)
  | .transform J => some (o.transform J)

/-- `.shift(..)` if it is there. -/
noncomputable def readShift (p : Prof) : Option (ℝ × ℝ) → Prof
  | none => p
  | some d => p.shift d

/-- `* r` if it is there. -/
noncomputable def readTimes (p : Prof) : Option ℝ → Prof
  | none => p
  | some r => p.withScaledFlux r

/-- The object that the text describes, read from left to right. -/
noncomputable def TransStr.read (t : TransStr) : Option Prof :=
  (t.jac.read t.original).map fun p => readTimes (readShift p t.shift) t.times

/-- Sum of the sizes of the entries. -/
def Mat2.size (m : Mat2) : ℝ := |m.a| + |m.b| + |m.c| + |m.d|

/-- `M` agrees with `J` to three parts in 10^12 of the size of `M`. -/
def Mat2.Close (M J : Mat2) : Prop :=
  |J.a - M.a| ≤ 3 / 10 ^ 12 * M.size ∧ |J.b - M.b| ≤ 3 / 10 ^ 12 * M.size ∧
  |J.c - M.c| ≤ 3 / 10 ^ 12 * M.size ∧ |J.d - M.d| ≤ 3 / 10 ^ 12 * M.size

/-- An object which is not a `Transformation`: what `_original` always is. -/
def Prof.NotTrans : Prof → Prop
  | .trans _ _ _ _ => False
  | _ => True

/-! ### Lemmas -/

theorem Mat2.close_refl (M : Mat2) : M.Close M := by
  have h : 0 ≤ 3 / 10 ^ 12 * M.size := by unfold Mat2.size; positivity
  simp only [Mat2.Close, sub_self, abs_zero]
  exact ⟨h, h, h, h⟩

/-- The matrix differs from the identity by at most `e` in each entry. -/
def Mat2.NearOne (e : ℝ) (m : Mat2) : Prop := |m.a - 1| ≤ e ∧ |m.b| ≤ e ∧ |m.c| ≤ e ∧ |m.d - 1| ≤ e

theorem two_abs {e x y u v : ℝ} (hx : |x| ≤ e) (hy : |y| ≤ e) : |x * u + y * v| ≤ e * (|u| + |v|) := by
  refine (abs_add_le _ _).trans ?_
  rw [abs_mul, abs_mul, mul_add]
  exact add_le_add (mul_le_mul_of_nonneg_right hx (abs_nonneg _)) (mul_le_mul_of_nonneg_right hy (abs_nonneg _))

theorem Mat2.close_left {e : ℝ} (he : e ≤ 3 / 10 ^ 12) {X M : Mat2} (h : X.NearOne e) : M.Close (X.mul M) := by
  obtain ⟨h1, h2, h3, h4⟩ := h
  have e0 : 0 ≤ e := (abs_nonneg _).trans h2
  have hs : ∀ u v : ℝ, |u| + |v| ≤ M.size → e * (|u| + |v|) ≤ 3 / 10 ^ 12 * M.size := fun u v h =>
    mul_le_mul he h (by positivity) (by norm_num)
  have a0 := abs_nonneg M.a; have b0 := abs_nonneg M.b; have c0 := abs_nonneg M.c; have d0 := abs_nonneg M.d
  refine ⟨?_, ?_, ?_, ?_⟩
  · rw [show (X.mul M).a - M.a = (X.a - 1) * M.a + X.b * M.c by simp only [Mat2.mul]; ring]
    exact (two_abs h1 h2).trans (hs _ _ (by unfold Mat2.size; linarith))
  · rw [show (X.mul M).b - M.b = (X.a - 1) * M.b + X.b * M.d by simp only [Mat2.mul]; ring]
    exact (two_abs h1 h2).trans (hs _ _ (by unfold Mat2.size; linarith))
  · rw [show (X.mul M).c - M.c = X.c * M.a + (X.d - 1) * M.c by simp only [Mat2.mul]; ring]
    exact (two_abs h3 h4).trans (hs _ _ (by unfold Mat2.size; linarith))
  · rw [show (X.mul M).d - M.d = X.c * M.b + (X.d - 1) * M.d by simp only [Mat2.mul]; ring]
    exact (two_abs h3 h4).trans (hs _ _ (by unfold Mat2.size; linarith))

theorem Mat2.close_right {e : ℝ} (he : e ≤ 3 / 10 ^ 12) {X M : Mat2} (h : X.NearOne e) : M.Close (M.mul X) := by
  obtain ⟨h1, h2, h3, h4⟩ := h
  have e0 : 0 ≤ e := (abs_nonneg _).trans h2
  have hs : ∀ u v : ℝ, |u| + |v| ≤ M.size → e * (|u| + |v|) ≤ 3 / 10 ^ 12 * M.size := fun u v h =>
    mul_le_mul he h (by positivity) (by norm_num)
  have a0 := abs_nonneg M.a; have b0 := abs_nonneg M.b; have c0 := abs_nonneg M.c; have d0 := abs_nonneg M.d
  refine ⟨?_, ?_, ?_, ?_⟩
  · rw [show (M.mul X).a - M.a = (X.a - 1) * M.a + X.c * M.b by simp only [Mat2.mul]; ring]
    exact (two_abs h1 h3).trans (hs _ _ (by unfold Mat2.size; linarith))
  · rw [show (M.mul X).b - M.b = X.b * M.a + (X.d - 1) * M.b by simp only [Mat2.mul]; ring]
    exact (two_abs h2 h4).trans (hs _ _ (by unfold Mat2.size; linarith))
  · rw [show (M.mul X).c - M.c = (X.a - 1) * M.c + X.c * M.d by simp only [Mat2.mul]; ring]
    exact (two_abs h1 h3).trans (hs _ _ (by unfold Mat2.size; linarith))
  · rw [show (M.mul X).d - M.d = X.b * M.c + (X.d - 1) * M.d by simp only [Mat2.mul]; ring]
    exact (two_abs h2 h4).trans (hs _ _ (by unfold Mat2.size; linarith))

theorem nearOne_rot {t : ℝ} (h : |t| ≤ 1 / 10 ^ 12) : (rot t).NearOne (1 / 10 ^ 12) := by
  have hs : |Real.sin t| ≤ |t| := Real.abs_sin_le_abs
  have hc : |Real.cos t - 1| ≤ 1 / 10 ^ 12 := by
    have h1 := Real.one_sub_sq_div_two_le_cos (x := t)
    have h2 := Real.cos_le_one t
    have h3 : t ^ 2 ≤ (1 / 10 ^ 12) ^ 2 := by rw [← sq_abs]; gcongr
    rw [abs_le]
    constructor
    · norm_num at h3 ⊢; linarith
    · norm_num at h3 ⊢; linarith
  refine ⟨hc, ?_, hs.trans h, hc⟩
  simp only [rot, abs_neg]; exact hs.trans h

theorem nearOne_shear {s : Shear} (h : s.absg ≤ 1 / 10 ^ 12) : s.matrix.NearOne (101 / 10 ^ 14) := by
  have h0 : 0 ≤ s.absg := norm_nonneg _
  have hq := absg_sq s
  have hg : s.absg ^ 2 ≤ (1 / 10 ^ 12) ^ 2 := by gcongr
  have h1 : |s.g1| ≤ 1 / 10 ^ 12 := (Real.sqrt_sq_eq_abs s.g1 ▸ Real.sqrt_le_iff.2 ⟨h0, by nlinarith [sq_nonneg s.g2]⟩ :
    |s.g1| ≤ s.absg).trans h
  have h2 : |s.g2| ≤ 1 / 10 ^ 12 := (Real.sqrt_sq_eq_abs s.g2 ▸ Real.sqrt_le_iff.2 ⟨h0, by nlinarith [sq_nonneg s.g1]⟩ :
    |s.g2| ≤ s.absg).trans h
  obtain ⟨n, hn⟩ : ∃ n, n = Real.sqrt (1 - s.absg ^ 2) := ⟨_, rfl⟩
  have hp : 0 ≤ 1 - s.absg ^ 2 := by norm_num at hg; nlinarith
  have hn1 : n ≤ 1 := by rw [hn]; exact Real.sqrt_le_one.2 (by nlinarith)
  have hn2 : 1 - 1 / 10 ^ 24 ≤ n := by
    rw [hn]
    refine Real.le_sqrt_of_sq_le ?_
    norm_num at hg ⊢; linarith
  have hn0 : 0 < n := lt_of_lt_of_le (by norm_num) hn2
  have hd : ∀ x : ℝ, |x| ≤ 1 / 10 ^ 12 → |(1 + x) / n - 1| ≤ 101 / 10 ^ 14 := by
    intro x hx
    rw [show (1 + x) / n - 1 = (x + (1 - n)) / n by field_simp; ring, abs_div, abs_of_pos hn0, div_le_iff₀ hn0]
    refine (abs_add_le _ _).trans ?_
    rw [abs_of_nonneg (sub_nonneg.2 hn1)]
    norm_num at hx hn2 ⊢; linarith
  have ho : |s.g2 / n| ≤ 101 / 10 ^ 14 := by
    rw [abs_div, abs_of_pos hn0, div_le_iff₀ hn0]
    norm_num at h2 hn2 ⊢; linarith
  refine ⟨?_, ?_, ?_, ?_⟩
  · have := hd s.g1 h1; rw [hn] at this; exact this
  · rw [hn] at ho; exact ho
  · rw [hn] at ho; exact ho
  · have := hd (-s.g1) (by rwa [abs_neg]); rw [hn, ← sub_eq_add_neg] at this; exact this

theorem nearOne_smul {c e : ℝ} {m : Mat2} (hc : |c - 1| ≤ 1 / 10 ^ 12) (hm : m.NearOne e) (he : e ≤ 101 / 10 ^ 14) :
    (m.smul c).NearOne (202 / 10 ^ 14) := by
  obtain ⟨h1, h2, h3, h4⟩ := hm
  rw [abs_le] at hc
  have hc0 : |c| ≤ 1 + 1 / 10 ^ 12 := by rw [abs_le]; norm_num at hc ⊢; constructor <;> linarith
  have hd : ∀ x : ℝ, |x - 1| ≤ e → |c * x - 1| ≤ 202 / 10 ^ 14 := by
    intro x hx
    rw [show c * x - 1 = c * (x - 1) + (c - 1) by ring]
    refine (abs_add_le _ _).trans ?_
    rw [abs_mul]
    have := mul_le_mul hc0 (hx.trans he) (abs_nonneg _) (by norm_num)
    have h5 : |c - 1| ≤ 1 / 10 ^ 12 := abs_le.2 hc
    norm_num at this h5 ⊢; linarith
  have ho : ∀ x : ℝ, |x| ≤ e → |c * x| ≤ 202 / 10 ^ 14 := by
    intro x hx
    rw [abs_mul]
    have := mul_le_mul hc0 (hx.trans he) (abs_nonneg _) (by norm_num)
    norm_num at this ⊢; linarith
  exact ⟨hd _ h1, ho _ h2, ho _ h3, hd _ h4⟩

theorem nearOne_mul {m n : Mat2} (hm : m.NearOne (101 / 10 ^ 14)) (hn : n.NearOne (1 / 10 ^ 12)) :
    (m.mul n).NearOne (202 / 10 ^ 14) := by
  obtain ⟨h1, h2, h3, h4⟩ := hm
  obtain ⟨k1, k2, k3, k4⟩ := hn
  have hp : ∀ x y : ℝ, |x| ≤ 101 / 10 ^ 14 → |y| ≤ 1 / 10 ^ 12 → |x * y| ≤ 1 / 10 ^ 20 := by
    intro x y hx hy
    rw [abs_mul]
    have := mul_le_mul hx hy (abs_nonneg _) (by norm_num)
    norm_num at this ⊢; linarith
  simp only [abs_le] at *
  have p1 := hp _ _ h1 k1; have p2 := hp _ _ h2 k3; have p3 := hp _ _ h1 k2; have p4 := hp _ _ h2 k4
  have p5 := hp _ _ h3 k1; have p6 := hp _ _ h4 k3; have p7 := hp _ _ h3 k2; have p8 := hp _ _ h4 k4
  refine ⟨?_, ?_, ?_, ?_⟩ <;> simp only [Mat2.mul, abs_le] <;> norm_num at * <;> constructor <;> linarith

/-- What the variable holds at the end. -/
theorem strVar_cases (J : Mat2) (f : Bool) (p q t : Prop) [Decidable p] [Decidable q] [Decidable t] (A B C : JacStr) :
    let r := ((((if f then StrVar.zero else StrVar.none).put p A).put q B).put t C).final J
    r = .transform J ∨ (f = false ∧ p ∧ ¬q ∧ ¬t ∧ r = A) ∨ (f = false ∧ ¬p ∧ q ∧ ¬t ∧ r = B) ∨
      (f = false ∧ ¬p ∧ ¬q ∧ t ∧ r = C) := by
  intro r
  cases f <;> by_cases hp : p <;> by_cases hq : q <;> by_cases ht : t <;>
    simp [r, StrVar.put, StrVar.final, hp, hq, ht]

/-! ### The theorems -/

/-- The text of a matrix, for a matrix of non-zero determinant. -/
theorem strFromJac_regular (J : Mat2) (h : J.det ≠ 0) :
    ∃ (j : JacStr) (M : Mat2), strFromJac J = some j ∧ M.Close J ∧
      ((j = .empty ∧ M = .one ∧ J = .one) ∨
        ∀ o : Prof, o.NotTrans → j.read o = some (.trans o M 0 1)) := by
  by_cases h1 : J.a ≠ 1 ∨ J.b ≠ 0 ∨ J.c ≠ 0 ∨ J.d ≠ 1
  swap
  · push Not at h1
    have e : J = .one := Mat2.ext' h1.1 h1.2.1 h1.2.2.1 h1.2.2.2
    refine ⟨.empty, .one, ?_, ?_, Or.inl ⟨rfl, rfl, e⟩⟩
    · unfold strFromJac; rw [if_neg (by push Not; exact h1)]
    · rw [e]; exact Mat2.close_refl _
  obtain ⟨s, hs, hlt, hpos, -, hflip, -, hJ⟩ := C39_decomposition J h
  obtain ⟨D, hD⟩ : ∃ D, D = LocalWCS.decomposition J := ⟨_, rfl⟩
  rw [← hD] at hs hpos hflip hJ
  have hS : strFromJac J = some (((((if D.flip then StrVar.zero else StrVar.none).put (|D.theta| > 1 / 10 ^ 12)
      (.rotate D.theta)).put (s.absg > 1 / 10 ^ 12) (.shear s)).put (|D.scale - 1| > 1 / 10 ^ 12)
      (.expand D.scale)).final J) := by
    unfold strFromJac; rw [if_pos h1, ← hD, hs]; rfl
  have key := strVar_cases J D.flip (|D.theta| > 1 / 10 ^ 12) (s.absg > 1 / 10 ^ 12) (|D.scale - 1| > 1 / 10 ^ 12)
    (.rotate D.theta) (.shear s) (.expand D.scale)
  have hrot : ∀ (t : ℝ) (o : Prof), o.NotTrans → (JacStr.rotate t).read o = some (.trans o (rot t) 0 1) := by
    intro t o ho; cases o <;> first | exact ho.elim | rfl
  have hJ' : D.flip = false → J = ((s.matrix.mul (rot D.theta))).smul D.scale := by
    intro hf
    rw [hf] at hJ
    refine hJ.trans ?_
    simp [flipMat, Mat2.mul, Mat2.smul]
  rcases key with k | ⟨hf, hp, hq, ht, k⟩ | ⟨hf, hp, hq, ht, k⟩ | ⟨hf, hp, hq, ht, k⟩
  · refine ⟨_, J, hS.trans (congrArg some k), Mat2.close_refl _, Or.inr ?_⟩
    intro o ho; cases o <;> first | exact ho.elim | rfl
  · refine ⟨_, rot D.theta, hS.trans (congrArg some k), ?_, Or.inr (hrot _)⟩
    have e : J = (s.matrix.smul D.scale).mul (rot D.theta) := by
      rw [hJ' hf]; simp only [Mat2.mul, Mat2.smul]; refine Mat2.ext' ?_ ?_ ?_ ?_ <;> ring
    rw [e]
    exact Mat2.close_left (by norm_num) (nearOne_smul (not_lt.1 ht) (nearOne_shear (not_lt.1 hq)) le_rfl)
  · refine ⟨_, s.matrix, hS.trans (congrArg some k), ?_, Or.inr ?_⟩
    · have e : J = s.matrix.mul ((rot D.theta).smul D.scale) := by
        rw [hJ' hf]; simp only [Mat2.mul, Mat2.smul]; refine Mat2.ext' ?_ ?_ ?_ ?_ <;> ring
      rw [e]
      exact Mat2.close_right (by norm_num) (nearOne_smul (not_lt.1 ht) (nearOne_rot (not_lt.1 hp)) (by norm_num))
    · intro o ho
      simp only [JacStr.read, Prof.shear, if_pos hlt]
      cases o <;> first | exact ho.elim | rfl
  · refine ⟨_, ⟨D.scale, 0, 0, D.scale⟩, hS.trans (congrArg some k), ?_, Or.inr ?_⟩
    · have e : J = (s.matrix.mul (rot D.theta)).mul ⟨D.scale, 0, 0, D.scale⟩ := by
        rw [hJ' hf]; simp only [Mat2.mul, Mat2.smul]; refine Mat2.ext' ?_ ?_ ?_ ?_ <;> ring
      rw [e]
      exact Mat2.close_left (by norm_num) (nearOne_mul (nearOne_shear (not_lt.1 hq)) (nearOne_rot (not_lt.1 hp)))
    · intro o ho; cases o <;> first | exact ho.elim | rfl

/-- The decomposition of a singular matrix has scale 0 and shear 1, so that the matrix is printed in full. -/
theorem strFromJac_singular (J : Mat2) (h : J.det = 0) (h0 : J ≠ ⟨0, 0, 0, 0⟩) : strFromJac J = some (.transform J) := by
  obtain ⟨a, b, c, d⟩ := J
  have hd : a * d - b * c = 0 := h
  obtain ⟨N, hN⟩ : ∃ N, N = (a + d) * (a + d) + (c - b) * (c - b) := ⟨_, rfl⟩
  have hN2 : N = (a - d) ^ 2 + (b + c) ^ 2 := by rw [hN]; linear_combination 4 * hd
  have hN0 : N ≠ 0 := by
    intro e
    have e1 : (a + d) = 0 := by nlinarith [sq_nonneg (a + d), sq_nonneg (c - b)]
    have e2 : (c - b) = 0 := by nlinarith [sq_nonneg (a + d), sq_nonneg (c - b)]
    have e3 : (a - d) = 0 := by nlinarith [sq_nonneg (a - d), sq_nonneg (b + c)]
    have e4 : (b + c) = 0 := by nlinarith [sq_nonneg (a - d), sq_nonneg (b + c)]
    exact h0 (Mat2.ext' (by simp only; linarith) (by simp only; linarith) (by simp only; linarith) (by simp only; linarith))
  obtain ⟨g1, h1⟩ : ∃ g1, g1 = (a + d) / N * (a - d) - (c - b) / N * (b + c) := ⟨_, rfl⟩
  obtain ⟨g2, h2⟩ : ∃ g2, g2 = (c - b) / N * (a - d) + (a + d) / N * (b + c) := ⟨_, rfl⟩
  have hg : g1 ^ 2 + g2 ^ 2 = 1 := by
    have : g1 ^ 2 + g2 ^ 2 = N * ((a - d) ^ 2 + (b + c) ^ 2) / N ^ 2 := by
      rw [h1, h2]; field_simp; rw [hN]; ring
    rw [this, ← hN2]; field_simp
  have habs : (⟨⟨g1, g2⟩⟩ : Shear).absg = 1 := by
    have e : (⟨⟨g1, g2⟩⟩ : Shear).absg ^ 2 = 1 := (absg_sq _).trans hg
    have h0 : 0 ≤ (⟨⟨g1, g2⟩⟩ : Shear).absg := norm_nonneg _
    nlinarith
  have hof : Shear.ofG g1 g2 = some ⟨⟨g1, g2⟩⟩ := by
    have hle : ¬ ‖(⟨g1, g2⟩ : ℂ)‖ > 1 := not_lt.2 (le_of_eq habs)
    unfold Shear.ofG; rw [if_neg hle]
  have hD : LocalWCS.decomposition ⟨a, b, c, d⟩ = ⟨0, Shear.ofG g1 g2, Complex.arg ⟨a + d, c - b⟩, false⟩ := by
    have hn : ¬ (Mat2.mk a b c d).det < 0 := by rw [h]; norm_num
    simp only [LocalWCS.decomposition, if_neg hn, h1, h2, hN, decide_eq_false hn]
    rw [h, abs_zero, Real.sqrt_zero]
  have hne : a ≠ 1 ∨ b ≠ 0 ∨ c ≠ 0 ∨ d ≠ 1 := by
    by_contra hc
    push Not at hc
    obtain ⟨e1, e2, e3, e4⟩ := hc
    rw [e1, e2, e3, e4] at hd; norm_num at hd
  unfold strFromJac
  rw [if_pos hne, hD, hof]
  simp only [Option.map_some, habs]
  by_cases hp : |Complex.arg ⟨a + d, c - b⟩| > 1 / 10 ^ 12
  · simp only [Bool.false_eq_true, if_false, StrVar.put, if_pos hp]
    norm_num [StrVar.final]
  · simp only [Bool.false_eq_true, if_false, StrVar.put, if_neg hp]
    norm_num [StrVar.final]

/-- C106: the text of every transformed object describes it: whoever applies the methods named in the text to the original
object gets the same original, offset and flux ratio, and the matrix to three parts in 10^12 of its size; if nothing is
named then the transformation does nothing. -/
theorem C106_read (o : Prof) (ho : o.NotTrans) (J : Mat2) (off : ℝ × ℝ) (r : ℝ) (h0 : J ≠ ⟨0, 0, 0, 0⟩) :
    ∃ t p M, transStr o J off r = some t ∧ t.read = some p ∧ M.Close J ∧
      (p = .trans o M off r ∨ p = o ∧ M = ⟨1, 0, 0, 1⟩ ∧ J = ⟨1, 0, 0, 1⟩ ∧ off = 0 ∧ r = 1) := by
  have key : ∃ (j : JacStr) (M : Mat2), strFromJac J = some j ∧ M.Close J ∧
      ((j = .empty ∧ M = .one ∧ J = .one) ∨ ∀ o : Prof, o.NotTrans → j.read o = some (.trans o M 0 1)) := by
    by_cases h : J.det = 0
    · refine ⟨_, J, strFromJac_singular J h h0, Mat2.close_refl _, Or.inr ?_⟩
      intro o ho; cases o <;> first | exact ho.elim | rfl
    · exact strFromJac_regular J h
  obtain ⟨j, M, hj, hM, hr⟩ := key
  have hoff : ∀ p : ℝ × ℝ, ¬ (p.1 ≠ 0 ∨ p.2 ≠ 0) → p = 0 := by
    intro p hp; push Not at hp; exact Prod.ext hp.1 hp.2
  have hT : transStr o J off r = some ⟨o, j, if off.1 ≠ 0 ∨ off.2 ≠ 0 then some off else none,
      if r ≠ 1 then some r else none⟩ := by unfold transStr; rw [hj]; rfl
  have happ : ∀ K : Mat2, K.app 0 = 0 := by intro K; simp [Mat2.app]
  have hmul : ∀ K : Mat2, Mat2.one.mul K = K := by
    intro K; refine Mat2.ext' ?_ ?_ ?_ ?_ <;> simp [Mat2.one, Mat2.mul]
  have happ1 : ∀ v : ℝ × ℝ, Mat2.one.app v = v := by intro v; simp [Mat2.one, Mat2.app]
  have hmk : ∀ v w : ℝ × ℝ, ∀ x y : ℝ, mkTransform (.trans o M v x) .one w y = .trans o M (w + v) (y * x) := by
    intro v w x y; simp only [mkTransform, hmul, happ1]
  have hmk0 : ∀ (w : ℝ × ℝ) (y : ℝ), mkTransform o .one w y = .trans o .one w y := by
    intro w y; cases o <;> first | exact ho.elim | rfl
  rcases hr with ⟨hj0, hM1, hJ1⟩ | hr
  · subst hj0 hM1
    by_cases hs : off.1 ≠ 0 ∨ off.2 ≠ 0
    · by_cases hx : r ≠ 1
      · rw [if_pos hs, if_pos hx] at hT
        refine ⟨_, _, .one, hT, rfl, hM, Or.inl ?_⟩
        simp only [readTimes, readShift, Prof.shift, Prof.withScaledFlux, hmk0, hmk, zero_add, mul_one]
      · rw [if_pos hs, if_neg hx] at hT
        refine ⟨_, _, .one, hT, rfl, hM, Or.inl ?_⟩
        simp only [readTimes, readShift, Prof.shift, hmk0, not_ne_iff.1 hx]
    · by_cases hx : r ≠ 1
      · rw [if_neg hs, if_pos hx] at hT
        refine ⟨_, _, .one, hT, rfl, hM, Or.inl ?_⟩
        simp only [readTimes, readShift, Prof.withScaledFlux, hmk0, hoff _ hs]
      · rw [if_neg hs, if_neg hx] at hT
        exact ⟨_, _, .one, hT, rfl, hM, Or.inr ⟨rfl, rfl, hJ1, hoff _ hs, not_ne_iff.1 hx⟩⟩
  · have hro := hr o ho
    by_cases hs : off.1 ≠ 0 ∨ off.2 ≠ 0
    · by_cases hx : r ≠ 1
      · rw [if_pos hs, if_pos hx] at hT
        refine ⟨_, _, M, hT, by unfold TransStr.read; rw [hro]; rfl, hM, Or.inl ?_⟩
        simp only [readTimes, readShift, Prof.shift, Prof.withScaledFlux, hmk, zero_add, add_zero, mul_one]
      · rw [if_pos hs, if_neg hx] at hT
        refine ⟨_, _, M, hT, by unfold TransStr.read; rw [hro]; rfl, hM, Or.inl ?_⟩
        simp only [readTimes, readShift, Prof.shift, hmk, add_zero, mul_one, not_ne_iff.1 hx]
    · by_cases hx : r ≠ 1
      · rw [if_neg hs, if_pos hx] at hT
        refine ⟨_, _, M, hT, by unfold TransStr.read; rw [hro]; rfl, hM, Or.inl ?_⟩
        simp only [readTimes, readShift, Prof.withScaledFlux, hmk, add_zero, mul_one, hoff _ hs]
      · rw [if_neg hs, if_neg hx] at hT
        refine ⟨_, _, M, hT, by unfold TransStr.read; rw [hro]; rfl, hM, Or.inl ?_⟩
        simp only [readTimes, readShift, hoff _ hs, not_ne_iff.1 hx]

/-- The decomposition of a matrix of positive determinant from its ingredients. -/
theorem decomposition_eq (a b c d sc g1 g2 t : ℝ) (hsc : 0 < sc) (hdet : a * d - b * c = sc ^ 2)
    (h1 : (a + d) / ((a + d) * (a + d) + (c - b) * (c - b)) * (a - d) -
      (c - b) / ((a + d) * (a + d) + (c - b) * (c - b)) * (b + c) = g1)
    (h2 : (c - b) / ((a + d) * (a + d) + (c - b) * (c - b)) * (a - d) +
      (a + d) / ((a + d) * (a + d) + (c - b) * (c - b)) * (b + c) = g2)
    (ht : Complex.arg ⟨a + d, c - b⟩ = t) (hg : g1 ^ 2 + g2 ^ 2 < 1) :
    LocalWCS.decomposition ⟨a, b, c, d⟩ = ⟨sc, some ⟨⟨g1, g2⟩⟩, t, false⟩ := by
  have hD : (Mat2.mk a b c d).det = sc ^ 2 := hdet
  have hn : ¬ (Mat2.mk a b c d).det < 0 := by rw [hD]; exact not_lt.2 (sq_nonneg _)
  have hof : Shear.ofG g1 g2 = some ⟨⟨g1, g2⟩⟩ := by
    have e : (⟨⟨g1, g2⟩⟩ : Shear).absg ^ 2 = g1 ^ 2 + g2 ^ 2 := absg_sq _
    have h0 : 0 ≤ (⟨⟨g1, g2⟩⟩ : Shear).absg := norm_nonneg _
    have h1 : (⟨⟨g1, g2⟩⟩ : Shear).absg < 1 := by nlinarith
    have h2 : ¬ ‖(⟨g1, g2⟩ : ℂ)‖ > 1 := not_lt.mpr (le_of_lt h1)
    unfold Shear.ofG
    rw [if_neg h2]
  simp only [LocalWCS.decomposition, if_neg hn, decide_eq_false hn]
  rw [hD, abs_of_nonneg (sq_nonneg _), Real.sqrt_sq hsc.le, h1, h2, ht, hof]

theorem arg_pos_mul (r t : ℝ) (hr : 0 < r) (ht : t ∈ Set.Ioc (-Real.pi) Real.pi) :
    Complex.arg ⟨r * Real.cos t, r * Real.sin t⟩ = t := by
  refine Eq.trans ?_ (Complex.arg_mul_cos_add_sin_mul_I hr ht)
  congr 1
  apply Complex.ext <;> simp [← Complex.ofReal_cos, ← Complex.ofReal_sin]

/-- C106: a rotation is called a rotation, with its angle. -/
theorem C106_rotate (t : ℝ) (ht : t ∈ Set.Ioc (-Real.pi) Real.pi) (h : 1 / 10 ^ 12 < |t|) :
    strFromJac ⟨Real.cos t, -Real.sin t, Real.sin t, Real.cos t⟩ = some (.rotate t) := by
  have hcs := Real.sin_sq_add_cos_sq t
  have hD : LocalWCS.decomposition ⟨Real.cos t, -Real.sin t, Real.sin t, Real.cos t⟩ = ⟨1, some ⟨⟨0, 0⟩⟩, t, false⟩ := by
    refine decomposition_eq _ _ _ _ _ _ _ _ one_pos (by linarith) (by ring) (by ring) ?_ (by norm_num)
    rw [← two_mul, sub_neg_eq_add, ← two_mul]
    exact arg_pos_mul 2 t two_pos ht
  have hne : Real.cos t ≠ 1 ∨ -Real.sin t ≠ 0 ∨ Real.sin t ≠ 0 ∨ Real.cos t ≠ 1 := by
    by_contra hc
    push Not at hc
    have := (Real.cos_eq_one_iff_of_lt_of_lt (x := t) (by linarith [ht.1, Real.pi_pos]) (by linarith [ht.2, Real.pi_pos])).1 hc.1
    rw [this, abs_zero] at h
    norm_num at h
  unfold strFromJac
  rw [if_pos hne, hD]
  have hz : ¬ (⟨⟨0, 0⟩⟩ : Shear).absg > 1 / 10 ^ 12 := by
    have : (⟨⟨0, 0⟩⟩ : Shear).absg = 0 := norm_zero
    rw [this]; norm_num
  have hs : ¬ |(1 : ℝ) - 1| > 1 / 10 ^ 12 := by norm_num
  simp only [Option.map_some, StrVar.put, Bool.false_eq_true, if_false, if_pos h, if_neg hz, if_neg hs, StrVar.final]

/-- C106: a shear is called a shear, with its components. -/
theorem C106_shear (s : Shear) (h1 : s.absg < 1) (h : 1 / 10 ^ 12 < s.absg) : strFromJac s.matrix = some (.shear s) := by
  have hq := absg_sq s
  have h0 : 0 ≤ s.absg := norm_nonneg _
  have hp : 0 < 1 - s.absg ^ 2 := by nlinarith
  obtain ⟨n, hn⟩ : ∃ n, n = Real.sqrt (1 - s.absg ^ 2) := ⟨_, rfl⟩
  have hn0 : 0 < n := by rw [hn]; exact Real.sqrt_pos.2 hp
  have hnn : n ^ 2 = 1 - (s.g1 ^ 2 + s.g2 ^ 2) := by rw [hn, Real.sq_sqrt hp.le, hq]
  have hm : s.matrix = ⟨(1 + s.g1) / n, s.g2 / n, s.g2 / n, (1 - s.g1) / n⟩ := by rw [hn]; rfl
  have hS : s = ⟨⟨s.g1, s.g2⟩⟩ := rfl
  have hD : LocalWCS.decomposition s.matrix = ⟨1, some s, 0, false⟩ := by
    rw [hm]
    rw [show (some s : Option Shear) = some ⟨⟨s.g1, s.g2⟩⟩ from rfl]
    refine decomposition_eq _ _ _ _ _ s.g1 s.g2 _ one_pos ?_ ?_ ?_ ?_ ?_
    · field_simp; rw [hnn]; ring
    · field_simp; ring
    · field_simp; ring
    · rw [show (1 + s.g1) / n + (1 - s.g1) / n = 2 / n by ring, sub_self]
      exact Complex.arg_ofReal_of_nonneg (x := 2 / n) (by positivity)
    · rw [← hq]; nlinarith
  have hne : s.matrix.a ≠ 1 ∨ s.matrix.b ≠ 0 ∨ s.matrix.c ≠ 0 ∨ s.matrix.d ≠ 1 := by
    by_contra hc
    push Not at hc
    rw [hm] at hc
    obtain ⟨e1, e2, -, e4⟩ := hc
    simp only at e1 e2 e4
    rw [div_eq_iff hn0.ne'] at e1 e4
    rw [div_eq_zero_iff] at e2
    have e5 : s.g2 = 0 := e2.resolve_right hn0.ne'
    have e6 : s.g1 = 0 := by linarith
    rw [e5, e6] at hq
    have : s.absg = 0 := by nlinarith
    rw [this] at h; norm_num at h
  unfold strFromJac
  rw [if_pos hne, hD]
  have hz : ¬ |(0 : ℝ)| > 1 / 10 ^ 12 := by norm_num
  have hs : ¬ |(1 : ℝ) - 1| > 1 / 10 ^ 12 := by norm_num
  simp only [Option.map_some, StrVar.put, Bool.false_eq_true, if_false, if_pos h, if_neg hz, if_neg hs, StrVar.final]

/-- C106: an expansion is called an expansion, with its factor. -/
theorem C106_expand (c : ℝ) (hc : 0 < c) (h : 1 / 10 ^ 12 < |c - 1|) : strFromJac ⟨c, 0, 0, c⟩ = some (.expand c) := by
  have hD : LocalWCS.decomposition ⟨c, 0, 0, c⟩ = ⟨c, some ⟨⟨0, 0⟩⟩, 0, false⟩ := by
    refine decomposition_eq _ _ _ _ _ _ _ _ hc (by ring) (by simp) (by simp) ?_ (by norm_num)
    rw [sub_self]
    exact Complex.arg_ofReal_of_nonneg (x := c + c) (by positivity)
  have hne : c ≠ 1 ∨ (0 : ℝ) ≠ 0 ∨ (0 : ℝ) ≠ 0 ∨ c ≠ 1 := by
    left; intro e; rw [e] at h; norm_num at h
  unfold strFromJac
  rw [if_pos hne, hD]
  have hz : ¬ (⟨⟨0, 0⟩⟩ : Shear).absg > 1 / 10 ^ 12 := by
    have : (⟨⟨0, 0⟩⟩ : Shear).absg = 0 := norm_zero
    rw [this]; norm_num
  have hs : ¬ |(0 : ℝ)| > 1 / 10 ^ 12 := by norm_num
  simp only [Option.map_some, StrVar.put, Bool.false_eq_true, if_false, if_pos h, if_neg hz, if_neg hs, StrVar.final]

/-- C106: a flip, which no single method does, is printed with its matrix in full. -/
theorem C106_flip (J : Mat2) (h : J.a * J.d - J.b * J.c < 0) : strFromJac J = some (.transform J) := by
  obtain ⟨s, hs, -, -, -, hflip, -, -⟩ := C39_decomposition J h.ne
  have hne : J.a ≠ 1 ∨ J.b ≠ 0 ∨ J.c ≠ 0 ∨ J.d ≠ 1 := by
    by_contra hc
    push Not at hc
    obtain ⟨e1, e2, e3, e4⟩ := hc
    rw [e1, e2, e3, e4] at h; norm_num at h
  unfold strFromJac
  rw [if_pos hne, hs, Option.map_some]
  have key := strVar_cases J (LocalWCS.decomposition J).flip (|(LocalWCS.decomposition J).theta| > 1 / 10 ^ 12)
    (s.absg > 1 / 10 ^ 12) (|(LocalWCS.decomposition J).scale - 1| > 1 / 10 ^ 12)
    (.rotate (LocalWCS.decomposition J).theta) (.shear s) (.expand (LocalWCS.decomposition J).scale)
  have hf := hflip.2 h
  rcases key with k | ⟨k, -⟩ | ⟨k, -⟩ | ⟨k, -⟩
  · exact congrArg some k
  all_goals rw [hf] at k; exact absurd k (by decide)

/-- A star expanded by 2, shifted and made three times as bright. -/
example : ∃ t, transStr (.leaf ⟨1, fun _ => none, fun _ => 1, 0, 1, 0, 1, 1, 1, false, false, fun _ => 0⟩) ⟨2, 0, 0, 2⟩ (1, 0) 3
    = some t ∧ t.jac = .expand 2 ∧ t.shift = some (1, 0) ∧ t.times = some 3 := by
  have h := C106_expand 2 (by norm_num) (by norm_num)
  unfold transStr
  rw [h]
  exact ⟨_, rfl, rfl, by simp, by norm_num⟩

/-- A quarter turn. -/
example : strFromJac ⟨Real.cos (Real.pi / 2), -Real.sin (Real.pi / 2), Real.sin (Real.pi / 2), Real.cos (Real.pi / 2)⟩
    = some (.rotate (Real.pi / 2)) := by
  refine C106_rotate _ ⟨by linarith [Real.pi_pos], by linarith [Real.pi_pos]⟩ ?_
  rw [abs_of_pos (by linarith [Real.pi_pos])]
  linarith [Real.two_le_pi]

end JG
