import Verif.Props.FitsWcs
import Verif.Props.WCS

/-!
C58: `TanWCS`.  C59: SIP and TNX tables, examples.
-/

namespace JG.FitsW
open Finset

/-! ### C59: examples and failures of the TPV reader -/

/-- The header `PV1_1 = PV2_1 = 1`, `PV1_6 = 1`: the square of the other coordinate. -/
def quadPv2 (a k : ℕ) : Option ℝ := if k = 1 then some 1 else if a = 1 ∧ k = 6 then some 1 else none

example : ∃ T, readTpv (pvHdr quadPv2) = .ok T ∧ T.1.n = 3 ∧ ∀ x y, applyAb T x y = (x + y ^ 2, y) := by
  obtain ⟨T, h1, h2, _, h3⟩ := C59_tpv_read_partial (pvHdr quadPv2) (by
      refine ⟨?_, ?_⟩
      · rintro a ha k hk
        simp only [oddIdx, List.mem_cons, List.not_mem_nil, or_false] at hk
        rcases hk with rfl | rfl | rfl | rfl <;> simp [pvHdr, quadPv2]
      · rintro a ha
        exact ⟨(1, 1, 0), by decide, by simp [pvHdr, quadPv2]⟩) 2 (by
      intro e he hlt
      have hk : ∀ e ∈ tpvTerms, 2 < e.2.1 + e.2.2 → e.1 ≠ 1 ∧ e.1 ≠ 6 := by decide
      obtain ⟨a, b⟩ := hk e he hlt
      simp [pvHdr, quadPv2, a, b]) ⟨(6, 0, 2), by decide, rfl, by norm_num, Or.inl (by simp [pvHdr, quadPv2])⟩
  refine ⟨T, h1, h2, fun x y => ?_⟩
  rw [h3]
  unfold tpvPoly
  simp only [tpvTerms, List.map_cons, List.map_nil, List.sum_cons, List.sum_nil]
  norm_num [pvHdr, quadPv2]

/-- The table of `x + y` and the table of `y`. -/
noncomputable def shearTab : Tab × Tab :=
  (⟨2, fun i j => if i + j = 1 then 1 else 0⟩, ⟨2, fun i j => if i = 0 ∧ j = 1 then 1 else 0⟩)

example : ∃ T, readTpv (pvHdr (writePv shearTab)) = .ok T ∧ ∀ x y, applyAb T x y = applyAb shearTab x y :=
  C59_tpv_roundtrip_partial shearTab (by norm_num [shearTab]) (by norm_num [shearTab]) rfl 1
    ⟨1, 0, by norm_num [shearTab], by norm_num [shearTab]⟩ ⟨0, 1, by norm_num [shearTab], by norm_num [shearTab]⟩
    (by intro i j h1 h2; simp only [shearTab] at h2; omega)
    ⟨1, 0, rfl, by norm_num [shearTab], by norm_num, Or.inl (by norm_num [shearTab])⟩ _ rfl

/-- Disagreement: a distortion whose second component vanishes (or a header without `PV2` keys) cannot be read:
`np.nonzero(pv2)[0][-1]` raises `IndexError`. -/
theorem C59_counterexample_tpv_zero (h : Hdr) (odd : ∀ a, a = 1 ∨ a = 2 → ∀ k ∈ oddIdx, (h.pv a k).getD 0 = 0)
    (hz : ∀ e ∈ tpvTerms, (h.pv 2 e.1).getD 0 = 0) : readTpv h = .error .indexError := by
  have none2 : lastNonzero (pvList h 2) = none := by
    by_contra hne
    obtain ⟨k, hk⟩ := Option.ne_none_iff_exists'.mp hne
    have s := ((lastNonzero_spec _ _).mp hk).1
    refine s ?_
    rw [pvList_eq, List.getD_eq_getElem?_getD, List.getElem?_map]
    cases he : tpvTerms[k]? with
    | none => rfl
    | some e => simp only [Option.map_some, Option.getD_some]; exact hz e (List.mem_of_getElem? he)
  unfold readTpv
  rw [if_neg]
  · simp only [none2]
    cases lastNonzero (pvList h 1) <;> rfl
  · rintro ⟨a, ha, k, hk, hne⟩
    exact hne (odd a (by simpa using ha) k hk)

example : readTpv (pvHdr fun a k => if a = 1 ∧ k = 1 then some 1 else none) = .error .indexError :=
  C59_counterexample_tpv_zero _ (by
    rintro a ha k hk
    simp only [oddIdx, List.mem_cons, List.not_mem_nil, or_false] at hk
    rcases hk with rfl | rfl | rfl | rfl <;> simp [pvHdr]) (by intro e _; simp [pvHdr])

/-! ### C59: SIP -/

theorem evalFull_eq (t : Tab) (x y : ℝ) : t.evalFull x y = ∑ i ∈ range t.n, ∑ j ∈ range t.n, t.c i j * x ^ i * y ^ j := by
  unfold Tab.evalFull
  rw [C12_horner2d, Option.getD_some]
  unfold polySum2
  have hl : t.rows.length = t.n := by simp [Tab.rows]
  rw [hl]
  refine sum_congr rfl fun i hi => ?_
  rw [mem_range] at hi
  have hr : (t.rows.getD i []).length = t.n := by simp [Tab.rows, List.getD, hi]
  rw [hr]
  refine sum_congr rfl fun j hj => ?_
  rw [mem_range] at hj
  rw [rows_getD t i j hi hj]

/-- A table without entries beyond its triangle: both evaluations agree. -/
theorem evalFull_tri (t : Tab) (hz : ∀ i j, i < t.n → j < t.n → t.n ≤ i + j → t.c i j = 0) (x y : ℝ) :
    t.evalFull x y = t.eval x y := by
  rw [evalFull_eq, eval_eq]
  unfold triPoly
  refine sum_congr rfl fun i hi => ?_
  rw [sum_filter]
  refine sum_congr rfl fun j hj => ?_
  rw [mem_range] at hi hj
  split_ifs with h
  · rfl
  · rw [hz i j hi hj (by omega)]; ring

/-- Specification: the SIP correction `Σ A_p_q u^p v^q` over `p + q ≤ order`. -/
noncomputable def sipPoly (order : ℕ) (c : ℕ → ℕ → Option ℝ) (u v : ℝ) : ℝ :=
  ∑ p ∈ range (order + 1), ∑ q ∈ range (order + 1 - p), (c p q).getD 0 * u ^ p * v ^ q

theorem triPoly_range (n : ℕ) (c : ℕ → ℕ → ℝ) (x y : ℝ) :
    triPoly n c x y = ∑ i ∈ range n, ∑ j ∈ range (n - i), c i j * x ^ i * y ^ j := by
  unfold triPoly
  refine sum_congr rfl fun i hi => ?_
  congr 1
  ext j
  rw [mem_range] at hi
  rw [mem_filter, mem_range, mem_range]
  omega

theorem triPoly_add (n : ℕ) (c d : ℕ → ℕ → ℝ) (x y : ℝ) :
    triPoly n (fun i j => c i j + d i j) x y = triPoly n c x y + triPoly n d x y := by
  unfold triPoly
  simp only [← sum_add_distrib]
  refine sum_congr rfl fun i _ => sum_congr rfl fun j _ => ?_
  ring

theorem triPoly_single (n i0 j0 : ℕ) (h : i0 + j0 < n) (x y : ℝ) :
    triPoly n (fun i j => if i = i0 ∧ j = j0 then 1 else 0) x y = x ^ i0 * y ^ j0 := by
  unfold triPoly
  rw [sum_eq_single i0, sum_eq_single j0]
  · simp
  · intro j _ hj; simp [hj]
  · intro hn; rw [mem_filter, mem_range] at hn; exact absurd ⟨by omega, h⟩ hn
  · intro i _ hi; simp [hi]
  · intro hn; exact absurd (mem_range.mpr (by omega)) hn

theorem sip_eval (order o : ℕ) (ho : o ≤ order) (h0 : 0 < order) (c : ℕ → ℕ → Option ℝ) (hc : ∀ p q, o < p + q → c p q = none)
    (i0 j0 : ℕ) (h1 : i0 + j0 = 1) (u v : ℝ) : (sipTab order c i0 j0).eval u v = u ^ i0 * v ^ j0 + sipPoly o c u v := by
  rw [eval_eq]
  unfold sipTab
  simp only
  rw [triPoly_add, triPoly_single _ _ _ (by omega), triPoly_trim (o + 1) (order + 1) (by omega) (fun i j => (c i j).getD 0)
    (fun i j h _ => by rw [hc i j (by omega)]; rfl), triPoly_range]
  unfold sipPoly
  ring

/-- C59: reading a SIP header gives `u + Σ A_p_q u^p v^q`, `v + Σ B_p_q u^p v^q`, whatever the two orders. -/
theorem C59_sip_read (h : Hdr) (ao bo : ℕ) (ha : h.aOrder = some ao) (hb : h.bOrder = some bo) (h0 : 0 < max ao bo)
    (za : ∀ p q, ao < p + q → h.a p q = none) (zb : ∀ p q, bo < p + q → h.b p q = none) (hap : h.apOrder = none) :
    ∃ ab, readSip h = .ok (ab, none) ∧ ∀ u v, applyAb ab u v = (u + sipPoly ao h.a u v, v + sipPoly bo h.b u v) := by
  refine ⟨(sipTab (max ao bo) h.a 1 0, sipTab (max ao bo) h.b 0 1), ?_, fun u v => ?_⟩
  · unfold readSip
    simp only [ha, hb, hap, if_neg h0.ne']
  · unfold applyAb
    simp only
    rw [sip_eval _ ao (le_max_left _ _) h0 h.a za 1 0 rfl, sip_eval _ bo (le_max_right _ _) h0 h.b zb 0 1 rfl]
    simp

/-- C59: the reverse SIP tables, used as the start of the inversion, are read likewise. -/
theorem C59_sip_read_reverse (h : Hdr) (ao bo apo bpo : ℕ) (ha : h.aOrder = some ao) (hb : h.bOrder = some bo) (h0 : 0 < max ao bo)
    (hap : h.apOrder = some apo) (hbp : h.bpOrder = some bpo) (h0p : 0 < max apo bpo)
    (za : ∀ p q, ao < p + q → h.a p q = none) (zb : ∀ p q, bo < p + q → h.b p q = none)
    (zap : ∀ p q, apo < p + q → h.ap p q = none) (zbp : ∀ p q, bpo < p + q → h.bp p q = none) :
    ∃ ab abp, readSip h = .ok (ab, some abp) ∧ (∀ u v, applyAb ab u v = (u + sipPoly ao h.a u v, v + sipPoly bo h.b u v)) ∧
      ∀ u v, (abp.1.evalFull u v, abp.2.evalFull u v) = (u + sipPoly apo h.ap u v, v + sipPoly bpo h.bp u v) := by
  refine ⟨(sipTab (max ao bo) h.a 1 0, sipTab (max ao bo) h.b 0 1), (sipTab (max apo bpo) h.ap 1 0, sipTab (max apo bpo) h.bp 0 1),
    ?_, fun u v => ?_, fun u v => ?_⟩
  · unfold readSip
    simp only [ha, hb, hap, hbp, if_neg h0.ne', if_neg h0p.ne']
  · unfold applyAb
    simp only
    rw [sip_eval _ ao (le_max_left _ _) h0 h.a za 1 0 rfl, sip_eval _ bo (le_max_right _ _) h0 h.b zb 0 1 rfl]
    simp
  · have tri : ∀ order o (c : ℕ → ℕ → Option ℝ) i0 j0, o ≤ order → 0 < order → i0 + j0 = 1 → (∀ p q, o < p + q → c p q = none) →
        (sipTab order c i0 j0).evalFull u v = (sipTab order c i0 j0).eval u v := by
      intro order o c i0 j0 ho h0 h1 hc
      refine evalFull_tri _ (fun i j _ _ hij => ?_) u v
      simp only [sipTab] at hij ⊢
      rw [hc i j (by omega), if_neg (by omega)]
      simp
    simp only
    rw [tri _ apo _ 1 0 (le_max_left _ _) h0p rfl zap, tri _ bpo _ 0 1 (le_max_right _ _) h0p rfl zbp,
      sip_eval _ apo (le_max_left _ _) h0p h.ap zap 1 0 rfl, sip_eval _ bpo (le_max_right _ _) h0p h.bp zbp 0 1 rfl]
    simp

/-- A SIP header with orders 2 and 3: `A_2_0 = 5`, `B_1_2 = 7`. -/
def sipHdr : Hdr :=
  { pvHdr (fun _ _ => none) with
    aOrder := some 2, bOrder := some 3, a := fun p q => if p = 2 ∧ q = 0 then some 5 else none,
    b := fun p q => if p = 1 ∧ q = 2 then some 7 else none }

example : ∃ ab, readSip sipHdr = .ok (ab, none) ∧ ∀ u v, applyAb ab u v = (u + 5 * u ^ 2, v + 7 * u * v ^ 2) := by
  obtain ⟨ab, h1, h2⟩ := C59_sip_read sipHdr 2 3 rfl rfl (by norm_num)
    (by intro p q h; simp only [sipHdr]; rw [if_neg (by omega)]) (by intro p q h; simp only [sipHdr]; rw [if_neg (by omega)]) rfl
  refine ⟨ab, h1, fun u v => ?_⟩
  rw [h2]
  simp [sipPoly, sum_range_succ, sipHdr]

theorem sip_roundtrip (t : Tab) (hn : 0 < t.n) (i0 j0 i j : ℕ) (hi : i < t.n) (hj : j < t.n) :
    (sipTab (t.n - 1) (writeSip t i0 j0) i0 j0).n = t.n ∧ (sipTab (t.n - 1) (writeSip t i0 j0) i0 j0).c i j = t.c i j := by
  refine ⟨by simp only [sipTab]; omega, ?_⟩
  simp only [sipTab, writeSip]
  rw [if_pos ⟨hi, hj⟩]
  by_cases h : i = i0 ∧ j = j0
  · simp only [if_pos h]
    split_ifs with hc
    · simp
    · have : t.c i j = 1 := by push Not at hc; linarith
      simp [this]
  · simp only [if_neg h]
    split_ifs with hc
    · simp
    · simp only [ne_eq, not_not] at hc
      simp [hc]

/-- C59: SIP tables are the same after a write and a read, forward and reverse. -/
theorem C59_sip_roundtrip (w : GS) (ab : Tab × Tab) (hw : w.ab = some ab) (hn : 2 ≤ ab.1.n) (hsq : ab.2.n = ab.1.n)
    (hp : ∀ abp, w.abp = some abp → 2 ≤ abp.1.n ∧ abp.2.n = abp.1.n) :
    ∃ T, readSip w.writeHeader = .ok T ∧ (T.1.1.n = ab.1.n ∧ T.1.2.n = ab.1.n ∧ ∀ i j, i < ab.1.n → j < ab.1.n →
        T.1.1.c i j = ab.1.c i j ∧ T.1.2.c i j = ab.2.c i j) ∧ (w.abp = none → T.2 = none) ∧
      ∀ abp, w.abp = some abp → ∃ T2, T.2 = some T2 ∧ T2.1.n = abp.1.n ∧ T2.2.n = abp.1.n ∧
        ∀ i j, i < abp.1.n → j < abp.1.n → T2.1.c i j = abp.1.c i j ∧ T2.2.c i j = abp.2.c i j := by
  have fwd : ∀ t : Tab × Tab, 2 ≤ t.1.n → t.2.n = t.1.n →
      (sipTab (t.1.n - 1) (writeSip t.1 1 0) 1 0).n = t.1.n ∧ (sipTab (t.1.n - 1) (writeSip t.2 0 1) 0 1).n = t.1.n ∧
      ∀ i j, i < t.1.n → j < t.1.n → (sipTab (t.1.n - 1) (writeSip t.1 1 0) 1 0).c i j = t.1.c i j ∧
        (sipTab (t.1.n - 1) (writeSip t.2 0 1) 0 1).c i j = t.2.c i j := by
    intro t h2 hs
    refine ⟨by simp only [sipTab]; omega, by simp only [sipTab]; omega, fun i j hi hj => ?_⟩
    refine ⟨(sip_roundtrip t.1 (by omega) 1 0 i j hi hj).2, ?_⟩
    have := (sip_roundtrip t.2 (by omega) 0 1 i j (by omega) (by omega)).2
    rwa [hs] at this
  cases hwp : w.abp with
  | none =>
    refine ⟨((sipTab (ab.1.n - 1) (writeSip ab.1 1 0) 1 0, sipTab (ab.1.n - 1) (writeSip ab.2 0 1) 0 1), none), ?_, ?_,
      fun _ => rfl, fun _ h => nomatch h⟩
    · unfold readSip GS.writeHeader
      simp only [hw, hwp, Option.map_some, Option.map_none, max_self, if_neg (show ¬ ab.1.n - 1 = 0 by omega)]
    · exact fwd ab hn hsq
  | some abp =>
    obtain ⟨p1, p2⟩ := hp abp hwp
    refine ⟨((sipTab (ab.1.n - 1) (writeSip ab.1 1 0) 1 0, sipTab (ab.1.n - 1) (writeSip ab.2 0 1) 0 1),
      some (sipTab (abp.1.n - 1) (writeSip abp.1 1 0) 1 0, sipTab (abp.1.n - 1) (writeSip abp.2 0 1) 0 1)), ?_, ?_,
      (fun h => nomatch h), ?_⟩
    · unfold readSip GS.writeHeader
      simp only [hw, hwp, Option.map_some, max_self, if_neg (show ¬ ab.1.n - 1 = 0 by omega),
        if_neg (show ¬ abp.1.n - 1 = 0 by omega)]
    · exact fwd ab hn hsq
    · rintro t ht
      obtain rfl := Option.some.inj ht
      exact ⟨_, rfl, fwd abp p1 p2⟩

/-! ### C59: TNX -/

/-- Specification: the functions of a TNX surface: Chebyshev (1) and Legendre polynomials. -/
noncomputable def tnxFun (code : ℤ) (m : ℕ) (t : ℝ) : ℝ :=
  match m with
  | 0 => 1
  | 1 => t
  | 2 => if code = 1 then 2 * t ^ 2 - 1 else (3 * t ^ 2 - 1) / 2
  | _ => if code = 1 then 4 * t ^ 3 - 3 * t else (5 * t ^ 3 - 3 * t) / 2

/-- Specification: a cubic TNX surface with half cross terms, the `x` index running fastest, in the coordinates
scaled from `[min, max]` to `[-1, 1]`. -/
noncomputable def tnxSurface (t : Tnx) (x y : ℝ) : ℝ :=
  let x' := (2 * x - (t.xmax + t.xmin)) / (t.xmax - t.xmin)
  let y' := (2 * y - (t.ymax + t.ymin)) / (t.ymax - t.ymin)
  let f := fun k m n => t.coefs.getD k 0 * tnxFun t.code m x' * tnxFun t.code n y'
  f 0 0 0 + f 1 1 0 + f 2 2 0 + f 3 3 0 + f 4 0 1 + f 5 1 1 + f 6 2 1 + f 7 0 2 + f 8 1 2 + f 9 0 3

/-- A TNX attribute that the code accepts. -/
structure TnxOk (t : Tnx) : Prop where
  code : t.code = 1 ∨ t.code = 2
  order : t.xorder = 4 ∧ t.yorder = 4 ∧ t.cross = 2
  len : t.coefs.length = 10
  xne : t.xmax ≠ t.xmin
  yne : t.ymax ≠ t.ymin

theorem cheb_sum (a b x : ℝ) (p : ℕ) (hp : p < 4) :
    ∑ k ∈ range 4, chebRow a b p k * x ^ k = tnxFun 1 p (a + b * x) := by
  interval_cases p <;> simp [sum_range_succ, chebRow, tnxFun] <;> ring

theorem leg_sum (a b x : ℝ) (p : ℕ) (hp : p < 4) :
    ∑ k ∈ range 4, legRow a b p k * x ^ k = tnxFun 2 p (a + b * x) := by
  interval_cases p <;> simp [sum_range_succ, legRow, tnxFun] <;> ring

theorem cheb_zero (a b : ℝ) (p i : ℕ) (h : p < i) : chebRow a b p i = 0 := by
  induction p using Nat.strong_induction_on generalizing i with
  | _ p ih =>
    match p with
    | 0 => simp [chebRow]; omega
    | 1 => simp only [chebRow]; rw [if_neg (by omega), if_neg (by omega)]
    | m + 2 =>
      rw [chebRow]
      simp only
      rw [ih (m + 1) (by omega) i (by omega), ih m (by omega) i (by omega), if_neg (by omega),
        ih (m + 1) (by omega) (i - 1) (by omega)]
      ring

theorem leg_zero (a b : ℝ) (p i : ℕ) (h : p < i) : legRow a b p i = 0 := by
  induction p using Nat.strong_induction_on generalizing i with
  | _ p ih =>
    match p with
    | 0 => simp [legRow]; omega
    | 1 => simp only [legRow]; rw [if_neg (by omega), if_neg (by omega)]
    | m + 2 =>
      rw [legRow]
      simp only
      rw [ih (m + 1) (by omega) i (by omega), ih m (by omega) i (by omega), if_neg (by omega),
        ih (m + 1) (by omega) (i - 1) (by omega)]
      ring

theorem tnxPv_zero (l : List ℝ) (p q : ℕ) (hp : p < 4) (hq : q < 4) (h : 3 < p + q) : tnxPv l p q = 0 := by
  interval_cases p <;> interval_cases q <;> first | omega | rfl

/-- The conversion of a table in the products of functions to a table in powers. -/
theorem convert_eval (l : List ℝ) (xm ym : ℕ → ℕ → ℝ) (hx : ∀ p i, p < i → xm p i = 0) (hy : ∀ p i, p < i → ym p i = 0) (x y : ℝ) :
    (⟨4, fun i j => ∑ p ∈ range 4, xm p i * ∑ q ∈ range 4, tnxPv l p q * ym q j⟩ : Tab).eval x y =
      ∑ p ∈ range 4, ∑ q ∈ range 4, tnxPv l p q * (∑ i ∈ range 4, xm p i * x ^ i) * ∑ j ∈ range 4, ym q j * y ^ j := by
  rw [← evalFull_tri, evalFull_eq]
  · simp only [sum_range_succ, sum_range_zero]
    ring
  · intro i j hi hj hij
    simp only at hi hj hij ⊢
    refine sum_eq_zero fun p hp => ?_
    rw [mem_range] at hp
    by_cases hpi : p < i
    · rw [hx p i hpi]; ring
    · have : ∑ q ∈ range 4, tnxPv l p q * ym q j = 0 := by
        refine sum_eq_zero fun q hq => ?_
        rw [mem_range] at hq
        by_cases hqj : q < j
        · rw [hy q j hqj]; ring
        · rw [tnxPv_zero l p q hp hq (by omega)]; ring
      rw [this]; ring

theorem parseTnx_eval (t : Tnx) (ht : TnxOk t) : ∃ T, parseTnx t = .ok (some T) ∧ T.n = 4 ∧ ∀ x y, T.eval x y = tnxSurface t x y := by
  obtain ⟨hcode, ⟨ho1, ho2, ho3⟩, hlen, hx, hy⟩ := ht
  have hx' := sub_ne_zero.mpr hx
  have hy' := sub_ne_zero.mpr hy
  unfold parseTnx
  rw [if_neg (by simp [ho3]), if_neg (by simp [ho1, ho2]), if_neg (by simp [hlen]), if_pos (by omega)]
  refine ⟨_, rfl, rfl, fun x y => ?_⟩
  have ex : -(t.xmax + t.xmin) / (t.xmax - t.xmin) + 2 / (t.xmax - t.xmin) * x =
      (2 * x - (t.xmax + t.xmin)) / (t.xmax - t.xmin) := by field_simp; ring
  have ey : -(t.ymax + t.ymin) / (t.ymax - t.ymin) + 2 / (t.ymax - t.ymin) * y =
      (2 * y - (t.ymax + t.ymin)) / (t.ymax - t.ymin) := by field_simp; ring
  have fin : ∀ f : ℕ → ℝ → ℝ, (∑ p ∈ range 4, ∑ q ∈ range 4, tnxPv t.coefs p q * f p ((2 * x - (t.xmax + t.xmin)) / (t.xmax - t.xmin)) *
      f q ((2 * y - (t.ymax + t.ymin)) / (t.ymax - t.ymin))) =
      (let x' := (2 * x - (t.xmax + t.xmin)) / (t.xmax - t.xmin)
       let y' := (2 * y - (t.ymax + t.ymin)) / (t.ymax - t.ymin)
       let g := fun k m n => t.coefs.getD k 0 * f m x' * f n y'
       g 0 0 0 + g 1 1 0 + g 2 2 0 + g 3 3 0 + g 4 0 1 + g 5 1 1 + g 6 2 1 + g 7 0 2 + g 8 1 2 + g 9 0 3) := by
    intro f
    simp only [sum_range_succ, sum_range_zero, tnxPv, List.getD_cons_zero, List.getD_cons_succ]
    ring
  rcases hcode with hc | hc
  · simp only [hc, if_true]
    rw [convert_eval _ _ _ (cheb_zero _ _) (cheb_zero _ _)]
    unfold tnxSurface
    simp only [hc]
    rw [← fin (tnxFun 1)]
    refine sum_congr rfl fun p hp => sum_congr rfl fun q hq => ?_
    rw [cheb_sum _ _ _ p (mem_range.mp hp), cheb_sum _ _ _ q (mem_range.mp hq), ex, ey]
  · have h21 : ¬ (2 : ℤ) = 1 := by norm_num
    simp only [hc, if_neg h21]
    rw [convert_eval _ _ _ (leg_zero _ _) (leg_zero _ _)]
    unfold tnxSurface
    simp only [hc]
    rw [← fin (tnxFun 2)]
    refine sum_congr rfl fun p hp => sum_congr rfl fun q hq => ?_
    rw [leg_sum _ _ _ p (mem_range.mp hp), leg_sum _ _ _ q (mem_range.mp hq), ex, ey]

theorem bump_eval (t : Tab) (i0 j0 : ℕ) (h : i0 + j0 < t.n) (x y : ℝ) : (t.bump i0 j0).eval x y = t.eval x y + x ^ i0 * y ^ j0 := by
  rw [eval_eq, eval_eq]
  unfold Tab.bump
  simp only
  rw [triPoly_add, triPoly_single _ _ _ h]

/-- C59 (partial): a TNX header with Chebyshev or Legendre surfaces is read as the coordinates plus the surfaces it denotes.
Missing: plain polynomial surfaces, see `C59_counterexample_tnx_polynomial`. -/
theorem C59_tnx_read_partial (h : Hdr) (t1 t2 : Tnx) (h1 : h.wat1 = some t1) (h2 : h.wat2 = some t2) (ok1 : TnxOk t1) (ok2 : TnxOk t2) :
    ∃ T, readTnx h = .ok T ∧ ∀ x y, applyAb T x y = (x + tnxSurface t1 x y, y + tnxSurface t2 x y) := by
  obtain ⟨T1, e1, n1, v1⟩ := parseTnx_eval t1 ok1
  obtain ⟨T2, e2, n2, v2⟩ := parseTnx_eval t2 ok2
  refine ⟨(T1.bump 1 0, T2.bump 0 1), ?_, fun x y => ?_⟩
  · unfold readTnx
    rw [h1, h2]
    simp only [e1, e2]
    rfl
  · unfold applyAb
    simp only
    rw [bump_eval _ _ _ (by rw [n1]; norm_num), bump_eval _ _ _ (by rw [n2]; norm_num), v1, v2]
    simp only [pow_zero, pow_one, mul_one, one_mul]
    rw [Prod.mk.injEq]
    constructor <;> ring

/-- Disagreement: a TNX header with plain polynomial surfaces (code 3) makes `_parse_tnx_data` return `None`, and
`_read_tnx` fails with a `TypeError`. -/
theorem C59_counterexample_tnx_polynomial (h : Hdr) (t1 t2 : Tnx) (h1 : h.wat1 = some t1) (h2 : h.wat2 = some t2)
    (c1 : t1.code = 3) (o1 : t1.xorder = 4 ∧ t1.yorder = 4 ∧ t1.cross = 2) (l1 : t1.coefs.length = 10)
    (c2 : t2.code = 3) (o2 : t2.xorder = 4 ∧ t2.yorder = 4 ∧ t2.cross = 2) (l2 : t2.coefs.length = 10) :
    readTnx h = .error .typeError := by
  have p : ∀ t : Tnx, t.code = 3 → t.xorder = 4 ∧ t.yorder = 4 ∧ t.cross = 2 → t.coefs.length = 10 → parseTnx t = .ok none := by
    intro t c o l
    unfold parseTnx
    rw [if_neg (by simp [o.2.2]), if_neg (by simp [o.1, o.2.1]), if_neg (by simp [l]), if_neg (by omega)]
  unfold readTnx
  rw [h1, h2]
  simp only [p t1 c1 o1 l1, p t2 c2 o2 l2]
  rfl

/-- A TNX attribute with the given code and only the coefficient of `P_2(x')`. -/
noncomputable def tnxEx (code : ℤ) : Tnx := ⟨code, 4, 4, 2, -1, 1, -1, 1, [0, 0, 1, 0, 0, 0, 0, 0, 0, 0]⟩

example : TnxOk (tnxEx 1) ∧ TnxOk (tnxEx 2) :=
  ⟨⟨Or.inl rfl, ⟨rfl, rfl, rfl⟩, rfl, by norm_num [tnxEx], by norm_num [tnxEx]⟩,
    ⟨Or.inr rfl, ⟨rfl, rfl, rfl⟩, rfl, by norm_num [tnxEx], by norm_num [tnxEx]⟩⟩

example (x y : ℝ) : tnxSurface (tnxEx 1) x y = 2 * x ^ 2 - 1 := by
  simp [tnxSurface, tnxEx, tnxFun]; ring

example : readTnx { pvHdr (fun _ _ => none) with wat1 := some (tnxEx 3), wat2 := some (tnxEx 3) } = .error .typeError :=
  C59_counterexample_tnx_polynomial _ _ _ rfl rfl rfl ⟨rfl, rfl, rfl⟩ rfl rfl ⟨rfl, rfl, rfl⟩ rfl

/-! ### C58 -/

/-- The tangent plane position of `TanWCS`, in radians. -/
theorem tan_uv (J : Mat2) (hJ : J.a * J.d - J.b * J.c ≠ 0) (o uo : ℝ × ℝ) (f : ℝ) (hf : f ≠ 0) (c : Coord) (x y : ℝ) :
    (tanWCS J o uo f c).uv x y =
      (f * degRad * (((WCS.off (.jac J) o uo).toWorld (x, y)).1 - 2 * uo.1),
        f * degRad * ((WCS.off (.jac J) o uo).toWorld (x, y)).2) := by
  have hd : -(J.a * f) * (J.d * f) - -(J.b * f) * (J.c * f) ≠ 0 := by
    have : -(J.a * f) * (J.d * f) - -(J.b * f) * (J.c * f) = -(f ^ 2 * (J.a * J.d - J.b * J.c)) := by ring
    rw [this]
    exact neg_ne_zero.mpr (mul_ne_zero (pow_ne_zero 2 hf) hJ)
  simp only [GS.uv, tanWCS, applyOpt, minv, WCS.toWorld, LocalWCS.uv, Prod.fst_add, Prod.snd_add, Prod.fst_sub, Prod.snd_sub]
  obtain ⟨D, hD⟩ : ∃ D, D = -(J.a * f) * (J.d * f) - -(J.b * f) * (J.c * f) := ⟨_, rfl⟩
  rw [← hD] at hd ⊢
  rw [Prod.mk.injEq]
  constructor
  · field_simp
    rw [hD]; ring
  · field_simp
    rw [hD]; ring

/-- C58 (partial): for an affine transformation without a horizontal world origin, `TanWCS` maps an image position to the
deprojection of the affine transformation's world position.  Missing: a non-zero `u` component of the world origin, see
`C58_counterexample`. -/
theorem C58_tan_partial (J : Mat2) (hJ : J.a * J.d - J.b * J.c ≠ 0) (o uo : ℝ × ℝ) (hu : uo.1 = 0) (f : ℝ) (hf : f ≠ 0)
    (c : Coord) (x y : ℝ) :
    (tanWCS J o uo f c).radec x y =
      c.deprojectP (f * degRad * ((WCS.off (.jac J) o uo).docMap (x, y)).1)
        (f * degRad * ((WCS.off (.jac J) o uo).docMap (x, y)).2) .gnomonic := by
  rw [← (C37_map _ _).1]
  unfold GS.radec
  rw [tan_uv J hJ o uo f hf c x y, hu]
  simp only [mul_zero, sub_zero]
  rfl

example (c : Coord) (x y : ℝ) : (tanWCS ⟨0, 2, -3, 0⟩ (5, 6) (0, 7) (1 / 3600) c).radec x y =
    c.deprojectP (1 / 3600 * degRad * (2 * (y - 6))) (1 / 3600 * degRad * (-3 * (x - 5) + 7)) .gnomonic := by
  rw [C58_tan_partial _ (by norm_num) _ _ rfl _ (by norm_num)]
  simp [WCS.docMap, WCS.localWCS, LocalWCS.docMatrix, WCS.origin, WCS.worldOrigin]

/-- Disagreement: `TanWCS` moves the reference pixel by the inverse of a matrix whose first row has the opposite sign, so a
world origin `u0 ≠ 0` is applied as `-u0`: the tangent plane position is wrong at every image position. -/
theorem C58_counterexample (J : Mat2) (hJ : J.a * J.d - J.b * J.c ≠ 0) (o uo : ℝ × ℝ) (hu : uo.1 ≠ 0) (f : ℝ) (hf : f ≠ 0)
    (c : Coord) (x y : ℝ) :
    (tanWCS J o uo f c).uv x y ≠
      (f * degRad * ((WCS.off (.jac J) o uo).docMap (x, y)).1, f * degRad * ((WCS.off (.jac J) o uo).docMap (x, y)).2) := by
  rw [← (C37_map _ _).1, tan_uv J hJ o uo f hf c x y]
  intro h
  have h1 := (Prod.mk.inj h).1
  have hp : f * degRad ≠ 0 := mul_ne_zero hf (by unfold degRad; positivity)
  have := mul_left_cancel₀ hp h1
  apply hu
  linarith

end JG.FitsW
