import Verif.Model.Elementary
import Verif.Lemmas.Bessel
import Verif.Props.Akima
import Mathlib.Tactic.Positivity

/-!
C62: the Fourier value at zero is the flux.

The property is stated over trees of sums, convolutions and transformations whose leaves are elementary profiles.  For
each elementary profile the Fourier value is also bounded by the flux, and for the Moffat profile the value written for
`k = 0` is the limit of the formula used elsewhere.
-/

namespace JG.Elt
open MeasureTheory Set Topology

/-! ### Elementary profiles -/

/-- A Moffat profile needs a positive scale radius; the other profiles need nothing. -/
def Elem.Ok : Elem → Prop
  | .moffat _ m => 0 < m.r0
  | _ => True

theorem linspace_knots (b : ℝ) (hb : 0 < b) (n : ℕ) (hn : 2 ≤ n) : Knots n (linspace 0 b n) := by
  have hn' : (0 : ℝ) < n - 1 := by
    have : (2 : ℝ) ≤ n := by exact_mod_cast hn
    linarith
  intro i j hij _
  unfold linspace
  have : (i : ℝ) < j := by exact_mod_cast hij
  have h2 : (i : ℝ) * (b - 0) < j * (b - 0) := by nlinarith
  have := div_lt_div_of_pos_right h2 hn'
  linarith

theorem linspace_even (b : ℝ) (n : ℕ) : Even n (linspace 0 b n) := by
  intro i _
  unfold linspace
  push_cast
  ring

theorem moffat_k_zero (fit : ℝ → ℝ → ℝ) (m : Moffat) (hr : 0 < m.r0) :
    m.kValue fit (0, 0) = m.flux := by
  have hm : 0 < m.maxk fit := div_pos (Real.exp_pos _) hr
  have hk := linspace_knots (m.maxk fit) hm 700 (by norm_num)
  have he := linspace_even (m.maxk fit) 700
  have h := C16_knots true 700 (m.kNode fit) (fun i => m.kUntrunc (m.kNode fit i)) (by norm_num) hk (fun _ => he) 0 (by norm_num)
  have e0 : m.kNode fit 0 = 0 := by simp [Moffat.kNode, linspace]
  rw [e0] at h
  have e1 : ¬ (0 : ℝ) > m.kNode fit 699 := by
    have := hk 0 699 (by norm_num) (by norm_num)
    have e0' : linspace 0 (m.maxk fit) 700 0 = 0 := e0
    rw [e0'] at this
    exact not_lt.mpr this.le
  unfold Moffat.kValue Moffat.kRadial safeSqrt
  simp only [ne_eq, OfNat.ofNat_ne_zero, not_false_eq_true, zero_pow, add_zero, gt_iff_lt, lt_self_iff_false, if_false]
  simp only [gt_iff_lt] at e1
  rw [if_neg e1, h]
  simp [Moffat.kUntrunc, Moffat.knorm]

/-- C62 for the elementary profiles. -/
theorem C62_elementary (e : Elem) (h : e.Ok) : e.leaf.kv (0, 0) = (e.leaf.flux : ℂ) := by
  cases e with
  | gaussian g => simp [Elem.leaf, Gaussian.kValue, Elem.flux]
  | exponential e => simp [Elem.leaf, Exponential.kValue, Elem.flux]
  | box b => simp [Elem.leaf, Box.kValue, Elem.flux, npSinc]
  | delta d => simp [Elem.leaf, Delta.kValue, Elem.flux]
  | moffat fit m => simp only [Elem.leaf, Elem.flux, moffat_k_zero fit m h]
  | spergel s => simp [Elem.leaf, Spergel.kValue, Elem.flux]

example (gs : GSP) : (Elem.moffat (fun _ _ => 0) ⟨2, 1, 3, gs⟩).leaf.kv (0, 0) = ((3 : ℝ) : ℂ) :=
  C62_elementary (Elem.moffat (fun _ _ => 0) ⟨2, 1, 3, gs⟩) (one_pos : (0 : ℝ) < 1)

/-! ### Trees -/

/-- A profile made of elementary ones. -/
inductive Built : Prof → Prop
  | leaf (e : Elem) (h : e.Ok) : Built (.leaf e.leaf)
  | trans (o : Prof) (J : Mat2) (off : ℝ × ℝ) (r : ℝ) (h : Built o) : Built (.trans o J off r)
  | sum (l : List Prof) (h : ∀ o ∈ l, Built o) : Built (.sum l)
  | conv (l : List Prof) (h : ∀ o ∈ l, Built o) : Built (.conv l)

theorem kSum_flux (l : List Prof) (h : ∀ o ∈ l, o.kValue (0, 0) = (o.flux : ℂ)) :
    Prof.kSum l (0, 0) = (Prof.fluxSum l : ℂ) := by
  induction l with
  | nil => simp [Prof.kSum, Prof.fluxSum]
  | cons o l ih =>
    simp only [Prof.kSum, Prof.fluxSum]
    rw [h o (by simp), ih fun p hp => h p (by simp [hp])]
    push_cast
    rfl

theorem kProd_flux (l : List Prof) (h : ∀ o ∈ l, o.kValue (0, 0) = (o.flux : ℂ)) :
    Prof.kProd l (0, 0) = (Prof.fluxProd l : ℂ) := by
  induction l with
  | nil => simp [Prof.kProd, Prof.fluxProd]
  | cons o l ih =>
    simp only [Prof.kProd, Prof.fluxProd]
    rw [h o (by simp), ih fun p hp => h p (by simp [hp])]
    push_cast
    rfl

/-- C62: the Fourier value at zero of any tree of sums, convolutions and transformations is its flux. -/
theorem C62_tree (p : Prof) (h : Built p) : p.kValue (0, 0) = (p.flux : ℂ) := by
  induction h with
  | leaf e h => exact C62_elementary e h
  | trans o J off r h ih =>
    have : J.tr.app (0, 0) = (0, 0) := by simp [Mat2.app]
    simp only [Prof.kValue, Prof.flux, this, ih, kFactor]
    simp [mul_comm]
  | sum l h ih => exact kSum_flux l ih
  | conv l h ih => exact kProd_flux l ih

/-- The constructors and methods stay inside the trees of `C62_tree`. -/
theorem built_mkTransform (p : Prof) (h : Built p) (J : Mat2) (off : ℝ × ℝ) (r : ℝ) : Built (mkTransform p J off r) := by
  cases h with
  | trans o J' off' r' h => exact .trans _ _ _ _ h
  | leaf e h => exact .trans _ _ _ _ (.leaf e h)
  | sum l h => exact .trans _ _ _ _ (.sum l h)
  | conv l h => exact .trans _ _ _ _ (.conv l h)

theorem built_mkSum (l : List Prof) (h : ∀ o ∈ l, Built o) : Built (mkSum l) := by
  refine .sum _ fun o ho => ?_
  obtain ⟨q, hq, hoq⟩ := List.mem_flatMap.1 ho
  have hb := h q hq
  cases hb with
  | sum l' h' => exact h' o hoq
  | leaf e he => simp only [sumTerms, List.mem_singleton] at hoq; rw [hoq]; exact .leaf e he
  | trans o' J off r ho' => simp only [sumTerms, List.mem_singleton] at hoq; rw [hoq]; exact .trans _ _ _ _ ho'
  | conv l' h' => simp only [sumTerms, List.mem_singleton] at hoq; rw [hoq]; exact .conv _ h'

/-- C62 through the public constructors: `Transform(Add([..]), ..)`, `Convolve([..])`. -/
theorem C62_constructors (l : List Prof) (h : ∀ o ∈ l, Built o) (J : Mat2) (off : ℝ × ℝ) (r : ℝ) :
    (mkTransform (mkSum l) J off r).kValue (0, 0) = (|J.det| * r * Prof.fluxSum (l.flatMap sumTerms) : ℝ) ∧
    (mkConv l).kValue (0, 0) = ((l.map Prof.flux).prod : ℝ) := by
  constructor
  · rw [C62_tree _ (built_mkTransform _ (built_mkSum l h) J off r)]
    rfl
  · rw [mkConv, C62_tree _ (.conv l h)]
    congr 1
    clear h
    show Prof.fluxProd l = _
    induction l with
    | nil => rfl
    | cons o l ih => simp [Prof.fluxProd, ih]

example (gs : GSP) :
    (mkTransform (mkSum [.leaf (Elem.gaussian ⟨1, 2, gs⟩).leaf, .leaf (Elem.spergel ⟨0.5, 1, 3, gs⟩).leaf])
      ⟨2, 0, 0, 1⟩ (1, 1) 4).kValue (0, 0) = ((40 : ℝ) : ℂ) := by
  rw [(C62_constructors _ (by
    intro o ho
    simp only [List.mem_cons, List.not_mem_nil, or_false] at ho
    rcases ho with rfl | rfl
    · exact .leaf _ trivial
    · exact .leaf _ trivial) _ _ _).1]
  congr 1
  simp [Mat2.det, Prof.fluxSum, sumTerms, Prof.flux, Elem.leaf, Elem.flux]
  norm_num

/-! ### Bounds -/

/-- The exact transform of a Moffat profile at radius `k`, before it is tabulated, in terms of the Bessel integral. -/
theorem kUntrunc_eq (m : Moffat) (hb : 1 < m.beta) (hr : 0 < m.r0) (k : ℝ) (hk : 0 ≤ k) :
    m.kUntrunc k = m.flux * (kvInt (m.beta - 1) (k * m.r0) / Real.Gamma (m.beta - 1)) := by
  have hG : 0 < Real.Gamma (m.beta - 1) := Real.Gamma_pos_of_pos (by linarith)
  rcases hk.eq_or_lt with rfl | hk
  · simp only [Moffat.kUntrunc, Moffat.knorm, gt_iff_lt, lt_self_iff_false, if_false, zero_mul]
    rw [kvInt_zero (by linarith), div_self hG.ne', mul_one]
  · simp only [Moffat.kUntrunc, gt_iff_lt, hk, if_true, Moffat.knormBis]
    rw [mul_assoc (_ / _), rpow_mul_kv _ (by positivity), abs_of_pos hG, Real.exp_log hG]
    have : (2 : ℝ) ^ m.beta = 4 * 2 ^ (m.beta - 1 - 1) := by
      rw [show m.beta - 1 - 1 = m.beta - 2 by ring, Real.rpow_sub (by norm_num)]
      norm_num
      ring
    rw [this]
    have : (0 : ℝ) < 2 ^ (m.beta - 1 - 1) := by positivity
    field_simp

/-- C62: the special case written for `k = 0` is the limit of the general formula: the exact transform is continuous. -/
theorem C62_moffat_continuous (m : Moffat) (hb : 1 < m.beta) (hr : 0 < m.r0) : ContinuousOn m.kUntrunc (Ici 0) := by
  have : ContinuousOn (fun k => m.flux * (kvInt (m.beta - 1) (k * m.r0) / Real.Gamma (m.beta - 1))) (Ici 0) := by
    apply Continuous.continuousOn
    have := kvInt_continuous (mu := m.beta - 1) (by linarith)
    fun_prop
  exact this.congr fun k hk => kUntrunc_eq m hb hr k hk

/-- C62: the flux bounds the Fourier value at every frequency. -/
theorem C62_bound (g : Gaussian) (e : Exponential) (b : Box) (s : Spergel) (hs : -1 < s.nu) (k : ℝ × ℝ) :
    |g.kValue k| ≤ |g.flux| ∧ |e.kValue k| ≤ |e.flux| ∧ |b.kValue k| ≤ |b.flux| ∧ |s.kValue k| ≤ |s.flux| := by
  refine ⟨?_, ?_, ?_, ?_⟩
  · simp only [Gaussian.kValue, abs_mul, Real.abs_exp]
    refine mul_le_of_le_one_right (abs_nonneg _) (Real.exp_le_one_iff.2 ?_)
    have : 0 ≤ (k.1 ^ 2 + k.2 ^ 2) * g.sigsq := by unfold Gaussian.sigsq; positivity
    norm_num
    linarith
  · simp only [Exponential.kValue, abs_div]
    have h1 : 1 ≤ (k.1 ^ 2 + k.2 ^ 2) * e.r0 ^ 2 + 1 := by
      have : 0 ≤ (k.1 ^ 2 + k.2 ^ 2) * e.r0 ^ 2 := by positivity
      linarith
    have h2 : 1 ≤ ((k.1 ^ 2 + k.2 ^ 2) * e.r0 ^ 2 + 1) * Real.sqrt ((k.1 ^ 2 + k.2 ^ 2) * e.r0 ^ 2 + 1) :=
      one_le_mul_of_one_le_of_one_le h1 (Real.one_le_sqrt.2 h1)
    exact div_le_self (abs_nonneg _) (le_trans h2 (le_abs_self _))
  · simp only [Box.kValue, abs_mul, npSinc, mul_assoc]
    refine mul_le_of_le_one_right (abs_nonneg _) ?_
    exact mul_le_one₀ (Real.abs_sinc_le_one _) (abs_nonneg _) (Real.abs_sinc_le_one _)
  · simp only [Spergel.kValue, abs_mul]
    refine mul_le_of_le_one_right (abs_nonneg _) ?_
    have h1 : 1 ≤ 1 + (k.1 ^ 2 + k.2 ^ 2) * (s.r0 * s.r0) := by
      have : 0 ≤ (k.1 ^ 2 + k.2 ^ 2) * (s.r0 * s.r0) := mul_nonneg (by positivity) (mul_self_nonneg _)
      linarith
    rw [abs_of_nonneg (by positivity)]
    exact Real.rpow_le_one_of_one_le_of_nonpos h1 (by linarith)

/-- C62: the exact transform of a Moffat profile is bounded by the flux, and its absolute value does not increase with
the frequency. -/
theorem C62_moffat_bound (m : Moffat) (hb : 1 < m.beta) (hr : 0 < m.r0) (k k' : ℝ) (hk : 0 ≤ k) (hkk : k ≤ k') :
    |m.kUntrunc k'| ≤ |m.kUntrunc k| ∧ |m.kUntrunc k| ≤ |m.flux| := by
  have hG : 0 < Real.Gamma (m.beta - 1) := Real.Gamma_pos_of_pos (by linarith)
  rw [kUntrunc_eq m hb hr k hk, kUntrunc_eq m hb hr k' (by linarith), abs_mul, abs_mul]
  have a1 := kvInt_antitone (mu := m.beta - 1) (by linarith) (z := k * m.r0) (w := k' * m.r0) (by positivity) (by gcongr)
  have a2 := kvInt_antitone (mu := m.beta - 1) (by linarith) (z := 0) (w := k * m.r0) le_rfl (by positivity)
  rw [kvInt_zero (by linarith)] at a2
  have n1 := kvInt_nonneg (m.beta - 1) (k * m.r0)
  have n2 := kvInt_nonneg (m.beta - 1) (k' * m.r0)
  rw [abs_of_nonneg (div_nonneg n1 hG.le), abs_of_nonneg (div_nonneg n2 hG.le)]
  constructor
  · gcongr
  · exact mul_le_of_le_one_right (abs_nonneg _) ((div_le_one hG).2 a2)

example (gs : GSP) : |(Moffat.mk 2 1 3 gs).kUntrunc 5| ≤ |3| := (C62_moffat_bound ⟨2, 1, 3, gs⟩ (by norm_num) (by norm_num) 5 5 (by norm_num) le_rfl).2

end JG.Elt
