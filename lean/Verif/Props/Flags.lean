import Verif.Model.Flags
import Verif.Props.WCSShape

/-! C107: the flags `is_axisymmetric` and `is_analytic_x` tell the truth. -/

namespace JG

/-- A function of the plane that is the same at equal distances from the origin. -/
def Radial {α : Type*} (f : ℝ × ℝ → α) : Prop :=
  ∀ p q : ℝ × ℝ, p.1 ^ 2 + p.2 ^ 2 = q.1 ^ 2 + q.2 ^ 2 → f p = f q

theorem elem_radial (e : Elt.Elem) (h : e.axi = true) : Radial e.leaf.xv ∧ Radial e.leaf.kv := by
  have h0 : ∀ p q : ℝ × ℝ, p.1 ^ 2 + p.2 ^ 2 = q.1 ^ 2 + q.2 ^ 2 → (p.1 = 0 ∧ p.2 = 0) → q.1 = 0 ∧ q.2 = 0 := by
    rintro p q hpq ⟨h1, h2⟩
    rw [h1, h2] at hpq
    constructor <;> nlinarith [sq_nonneg q.1, sq_nonneg q.2]
  cases e with
  | gaussian g =>
    exact ⟨fun p q hpq => by simp only [Elt.Elem.leaf, Elt.Gaussian.xValue, hpq],
      fun p q hpq => by simp only [Elt.Elem.leaf, Elt.Gaussian.kValue, hpq]⟩
  | exponential g =>
    exact ⟨fun p q hpq => by simp only [Elt.Elem.leaf, Elt.Exponential.xValue, hpq],
      fun p q hpq => by simp only [Elt.Elem.leaf, Elt.Exponential.kValue, hpq]⟩
  | box b => exact absurd h (by simp [Elt.Elem.axi])
  | delta d =>
    refine ⟨fun p q hpq => ?_, fun p q hpq => ?_⟩
    · have : (p.1 = 0 ∧ p.2 = 0) ↔ (q.1 = 0 ∧ q.2 = 0) := ⟨h0 p q hpq, h0 q p hpq.symm⟩
      simp only [Elt.Elem.leaf, Elt.Delta.xValue, this]
    · simp [Elt.Elem.leaf, Elt.Delta.kValue]
  | moffat fit m =>
    exact ⟨fun p q hpq => by simp only [Elt.Elem.leaf, Elt.Moffat.xValue, hpq],
      fun p q hpq => by simp only [Elt.Elem.leaf, Elt.Moffat.kValue, hpq]⟩
  | spergel s =>
    exact ⟨fun p q hpq => by simp only [Elt.Elem.leaf, Elt.Spergel.xValue, hpq],
      fun p q hpq => by simp only [Elt.Elem.leaf, Elt.Spergel.kValue, hpq]⟩

/-- A rotation and expansion keeps equal distances equal. -/
theorem app_dist {J : Mat2} (h1 : J.a = J.d) (h2 : J.b = -J.c) (p : ℝ × ℝ) :
    (J.app p).1 ^ 2 + (J.app p).2 ^ 2 = (J.a ^ 2 + J.c ^ 2) * (p.1 ^ 2 + p.2 ^ 2) := by
  simp only [Mat2.app, ← h1, h2]; ring

mutual
/-- C107: a profile that says it is axisymmetric has the same surface brightness at equal distances from the origin (also
where it raises), and the same Fourier value at equal wave numbers. -/
theorem C107_axisymmetric : ∀ o : FObj, o.axi = true → Radial o.prof.xValue ∧ Radial o.prof.kValue
  | .elem e, h => by
    have hr := elem_radial e h
    exact ⟨fun p q hpq => by simp only [FObj.prof, Prof.xValue]; exact hr.1 p q hpq,
      fun p q hpq => by simp only [FObj.prof, Prof.kValue]; exact hr.2 p q hpq⟩
  | .image _, h => absurd h (by simp [FObj.axi])
  | .trans o J off r, h => by
    simp only [FObj.axi, Bool.and_eq_true, decide_eq_true_eq] at h
    obtain ⟨⟨⟨h0, h1⟩, h2⟩, h3⟩ := h
    obtain ⟨ix, ik⟩ := C107_axisymmetric o h0
    refine ⟨fun p q hpq => ?_, fun p q hpq => ?_⟩
    · simp only [FObj.prof, Prof.xValue]
      cases hJ : J.inv with
      | none => rfl
      | some Ji =>
        simp only [Option.bind_some]
        have hd : Ji.a = Ji.d ∧ Ji.b = -Ji.c := by
          unfold Mat2.inv at hJ
          split_ifs at hJ
          rw [← Option.some.inj hJ]
          exact ⟨by simp only [h1], by simp only [h2]; ring⟩
        rw [ix (Ji.app (p - off)) (Ji.app (q - off)) (by rw [app_dist hd.1 hd.2, app_dist hd.1 hd.2, h3]; simp only [Prod.fst_sub, Prod.snd_sub, sub_zero, hpq])]
    · simp only [FObj.prof, Prof.kValue, kFactor, h3]
      have hd : J.tr.a = J.tr.d ∧ J.tr.b = -J.tr.c := ⟨h1, by simp only [Mat2.tr, h2, neg_neg]⟩
      rw [ik (J.tr.app p) (J.tr.app q) (by rw [app_dist hd.1 hd.2, app_dist hd.1 hd.2, hpq])]
      simp
  | .sum l, h => by
    simp only [FObj.axi] at h
    obtain ⟨ix, ik, -⟩ := axi_list l h
    exact ⟨fun p q hpq => by simp only [FObj.prof, Prof.xValue]; exact ix p q hpq,
      fun p q hpq => by simp only [FObj.prof, Prof.kValue]; exact ik p q hpq⟩
  | .conv l, h => by
    simp only [FObj.axi] at h
    obtain ⟨-, -, ik⟩ := axi_list l h
    exact ⟨fun p q hpq => by simp only [FObj.prof, Prof.xValue],
      fun p q hpq => by simp only [FObj.prof, Prof.kValue]; exact ik p q hpq⟩
theorem axi_list : ∀ l : List FObj, FObj.allAxi l = true →
    Radial (Prof.xValueL (FObj.profL l)) ∧ Radial (Prof.kSum (FObj.profL l)) ∧ Radial (Prof.kProd (FObj.profL l))
  | [], _ => ⟨fun p q _ => by simp only [FObj.profL, Prof.xValueL], fun p q _ => by simp only [FObj.profL, Prof.kSum],
      fun p q _ => by simp only [FObj.profL, Prof.kProd]⟩
  | o :: l, h => by
    simp only [FObj.allAxi, Bool.and_eq_true] at h
    obtain ⟨ix, ik⟩ := C107_axisymmetric o h.1
    obtain ⟨lx, ls, lp⟩ := axi_list l h.2
    exact ⟨fun p q hpq => by simp only [FObj.profL, Prof.xValueL, ix p q hpq, lx p q hpq],
      fun p q hpq => by simp only [FObj.profL, Prof.kSum, ik p q hpq, ls p q hpq],
      fun p q hpq => by simp only [FObj.profL, Prof.kProd, ik p q hpq, lp p q hpq]⟩
end

/-- C107: the same for a deconvolution. -/
theorem C107_deconvolution (o : FObj) (acc : ℝ) (h : o.deconvAxi = true) : Radial (deconvKValue o.prof acc) := by
  intro p q hpq
  simp only [deconvKValue, (C107_axisymmetric o h).2 p q hpq]

mutual
/-- C107: the centroid of a profile that says it is axisymmetric, if it has one, is the origin. -/
theorem C107_centroid : ∀ (o : FObj) (c : ℝ × ℝ), o.axi = true → o.prof.centroid = some c → c = (0, 0)
  | .elem e, c, _, hc => by
    simp only [FObj.prof, Prof.centroid] at hc
    exact (Option.some.inj hc).symm
  | .image _, _, h, _ => absurd h (by simp [FObj.axi])
  | .trans o J off r, c, h, hc => by
    simp only [FObj.axi, Bool.and_eq_true, decide_eq_true_eq] at h
    simp only [FObj.prof, Prof.centroid, Option.map_eq_some_iff] at hc
    obtain ⟨c', hc', e⟩ := hc
    rw [← e, C107_centroid o c' h.1.1.1 hc', h.2]
    simp [Mat2.app]
  | .sum l, c, h, hc => by
    simp only [FObj.axi] at h
    simp only [FObj.prof, Prof.centroid, Option.bind_eq_some_iff] at hc
    obtain ⟨m, hm, e⟩ := hc
    split_ifs at e
    rw [← Option.some.inj e, (axi_cen l h).1 m hm]
    simp
  | .conv l, c, h, hc => by
    simp only [FObj.axi] at h
    simp only [FObj.prof, Prof.centroid] at hc
    exact (axi_cen l h).2 c hc
theorem axi_cen : ∀ l : List FObj, FObj.allAxi l = true →
    (∀ m, Prof.cenFlux (FObj.profL l) = some m → m = (0, 0)) ∧ (∀ m, Prof.cenSum (FObj.profL l) = some m → m = (0, 0))
  | [], _ => ⟨fun m h => by simp only [FObj.profL, Prof.cenFlux] at h; exact (Option.some.inj h).symm,
      fun m h => by simp only [FObj.profL, Prof.cenSum] at h; exact (Option.some.inj h).symm⟩
  | o :: l, h => by
    simp only [FObj.allAxi, Bool.and_eq_true] at h
    obtain ⟨l1, l2⟩ := axi_cen l h.2
    constructor
    · intro m hm
      simp only [FObj.profL, Prof.cenFlux, Option.bind_eq_some_iff, Option.map_eq_some_iff] at hm
      obtain ⟨c, hc, m', hm', e⟩ := hm
      rw [← e, C107_centroid o c h.1 hc, l1 m' hm']
      simp
    · intro m hm
      simp only [FObj.profL, Prof.cenSum, Option.bind_eq_some_iff, Option.map_eq_some_iff] at hm
      obtain ⟨c, hc, m', hm', e⟩ := hm
      rw [← e, C107_centroid o c h.1 hc, l2 m' hm']
      simp
end

/-- C107: the transformations that keep the flag are exactly the rotations and expansions about the origin. -/
theorem C107_kept (o : FObj) (J : Mat2) (off : ℝ × ℝ) (r : ℝ) :
    (FObj.trans o J off r).axi = true ↔
      o.axi = true ∧ off = (0, 0) ∧ ∃ s t : ℝ, 0 ≤ s ∧
        J = ⟨s * Real.cos t, -(s * Real.sin t), s * Real.sin t, s * Real.cos t⟩ := by
  simp only [FObj.axi, Bool.and_eq_true, decide_eq_true_eq]
  constructor
  · rintro ⟨⟨⟨h0, h1⟩, h2⟩, h3⟩
    refine ⟨h0, h3, ‖(⟨J.a, J.c⟩ : ℂ)‖, Complex.arg ⟨J.a, J.c⟩, norm_nonneg _, ?_⟩
    have hc : ‖(⟨J.a, J.c⟩ : ℂ)‖ * Real.cos (Complex.arg ⟨J.a, J.c⟩) = J.a := Complex.norm_mul_cos_arg _
    have hs : ‖(⟨J.a, J.c⟩ : ℂ)‖ * Real.sin (Complex.arg ⟨J.a, J.c⟩) = J.c := Complex.norm_mul_sin_arg _
    rw [hc, hs]
    exact Mat2.ext' rfl h2 rfl h1.symm
  · rintro ⟨h0, h3, s, t, -, e⟩
    rw [e]
    exact ⟨⟨⟨h0, rfl⟩, rfl⟩, h3⟩

/-- The profile holds no convolution, its matrices are invertible, and the profiles in it that are analytic in real space
have a value everywhere. -/
inductive Prof.Everywhere : Prof → Prop
  | leaf (L : Leaf) (h : L.analyticX = true → ∀ p, ∃ v, L.xv p = some v) : Everywhere (.leaf L)
  | trans (o : Prof) (J : Mat2) (off : ℝ × ℝ) (r : ℝ) (ho : Everywhere o) (hJ : J.a * J.d - J.b * J.c ≠ 0) :
      Everywhere (.trans o J off r)
  | sum (l : List Prof) (h : ∀ o ∈ l, Everywhere o) : Everywhere (.sum l)

theorem allAnalyticX_iff (l : List Prof) : Prof.allAnalyticX l = true ↔ ∀ o ∈ l, o.analyticX = true := by
  induction l with
  | nil => simp [Prof.allAnalyticX]
  | cons a l ih => simp [Prof.allAnalyticX, ih]

/-- C107: a profile without convolutions that says it is analytic in real space has a surface brightness everywhere.
Missing: convolutions (`C107_counterexample_single`). -/
theorem C107_analytic_x_partial (o : Prof) (he : o.Everywhere) (h : o.analyticX = true) (p : ℝ × ℝ) :
    ∃ v, o.xValue p = some v := by
  induction he generalizing p with
  | leaf L hL => simp only [Prof.xValue]; exact hL (by simpa [Prof.analyticX] using h) p
  | trans o J off r ho hJ ih =>
    have hi : ∃ Ji, J.inv = some Ji := by
      unfold Mat2.inv; exact ⟨_, if_neg hJ⟩
    obtain ⟨Ji, hi⟩ := hi
    obtain ⟨v, hv⟩ := ih (by simpa [Prof.analyticX] using h) (Ji.app (p - off))
    exact ⟨v * r, by simp only [Prof.xValue, hi, Option.bind_some, hv, Option.map_some]⟩
  | sum l _ ih =>
    simp only [Prof.analyticX] at h
    rw [allAnalyticX_iff] at h
    simp only [Prof.xValue]
    induction l with
    | nil => exact ⟨0, by simp only [Prof.xValueL]⟩
    | cons a l il =>
      obtain ⟨v, hv⟩ := ih a List.mem_cons_self (h a List.mem_cons_self) p
      obtain ⟨w, hw⟩ := il (fun o ho => by rename_i hh; exact hh o (List.mem_cons_of_mem _ ho))
        (fun o ho => ih o (List.mem_cons_of_mem _ ho)) (fun o ho => h o (List.mem_cons_of_mem _ ho))
      exact ⟨v + w, by simp only [Prof.xValueL, hv, hw, Option.bind_some, Option.map_some]⟩

/-- Disagreement: the convolution of a single profile, which the constructor accepts without a warning, says that it is
analytic in real space if the profile is, but its surface brightness raises `NotImplementedError` everywhere. -/
theorem C107_counterexample_single (g : Elt.Gaussian) :
    convolveCtor [(Prof.leaf (Elt.Elem.leaf (.gaussian g))).hardEdges] [(Prof.leaf (Elt.Elem.leaf (.gaussian g))).analyticX] none
      = some false ∧
    (mkConv [.leaf (Elt.Elem.leaf (.gaussian g))]).analyticX = true ∧
    ∀ p, (mkConv [.leaf (Elt.Elem.leaf (.gaussian g))]).xValue p = none := by
  refine ⟨?_, ?_, ?_⟩
  · simp [convolveCtor, Prof.hardEdges, Elt.Elem.leaf]
  · simp [mkConv, Prof.analyticX, Elt.Elem.leaf]
  · intro p; simp [mkConv, Prof.xValue]

/-- A Gaussian turned by a right angle and doubled in size, plus a Gaussian convolved with an exponential. -/
noncomputable example (g : Elt.Gaussian) (e : Elt.Exponential) :
    (FObj.sum [.trans (.elem (.gaussian g)) ⟨0, -2, 2, 0⟩ (0, 0) 3,
      .conv [.elem (.gaussian g), .elem (.exponential e)]]).axi = true := by
  simp [FObj.axi, FObj.allAxi, Elt.Elem.axi]

/-- A sheared Gaussian and a shifted one do not have the flag. -/
example (g : Elt.Gaussian) : (FObj.trans (.elem (.gaussian g)) ⟨1, 1, 1, 1⟩ (0, 0) 1).axi = false ∧
    (FObj.trans (.elem (.gaussian g)) ⟨1, 0, 0, 1⟩ (0, 1) 1).axi = false := by
  constructor
  · simp [FObj.axi, Elt.Elem.axi]; norm_num
  · simp [FObj.axi, Elt.Elem.axi]

end JG
