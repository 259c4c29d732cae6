import Verif.Lemmas.Profile

/-!
Properties C42 (nested transformations), C43 (flux rules) and C48 (drawing by sampling).

The specification is an expression of operations as the user wrote them (`Expr`), with a meaning defined operation by
operation; `Expr.build` runs the library's constructors, which collapse nested transformations and nested sums.
-/

namespace JG

/-- What the user wrote. -/
inductive Expr
  | leaf (L : Leaf)
  /-- apply `x ↦ J x + off` to the plane and multiply the brightness by `r` -/
  | tr (e : Expr) (J : Mat2) (off : ℝ × ℝ) (r : ℝ)
  | add (e : Expr) (es : List Expr)
  | conv (e : Expr) (es : List Expr)

mutual
/-- The object the library builds. -/
noncomputable def Expr.build : Expr → Prof
  | .leaf L => .leaf L
  | .tr e J off r => mkTransform e.build J off r
  | .add e es => mkSum (e.build :: Expr.buildL es)
  | .conv e es => mkConv (e.build :: Expr.buildL es)
noncomputable def Expr.buildL : List Expr → List Prof
  | [] => []
  | e :: es => e.build :: Expr.buildL es
end

/-! ### Meaning of an expression -/

mutual
/-- Surface brightness (`none`: not available). -/
noncomputable def Expr.sb : Expr → ℝ × ℝ → Option ℝ
  | .leaf L, x => L.xv x
  | .tr e J off r, x =>
    let D := J.a * J.d - J.b * J.c
    if D = 0 then none
    else (e.sb ((J.d * (x.1 - off.1) - J.b * (x.2 - off.2)) / D,
      (J.a * (x.2 - off.2) - J.c * (x.1 - off.1)) / D)).map fun v => r * v
  | .add e es, x => (e.sb x).bind fun a => (Expr.sbL es x).map fun b => a + b
  | .conv _ _, _ => none
noncomputable def Expr.sbL : List Expr → ℝ × ℝ → Option ℝ
  | [], _ => some 0
  | e :: es, x => (e.sb x).bind fun a => (Expr.sbL es x).map fun b => a + b
end

mutual
/-- Fourier value. -/
noncomputable def Expr.ft : Expr → ℝ × ℝ → ℂ
  | .leaf L, k => L.kv k
  | .tr e J off r, k =>
    (r * |J.a * J.d - J.b * J.c| : ℝ) * Complex.exp (-Complex.I * ((k.1 * off.1 + k.2 * off.2 : ℝ) : ℂ)) *
      e.ft (J.a * k.1 + J.c * k.2, J.b * k.1 + J.d * k.2)
  | .add e es, k => e.ft k + Expr.ftSum es k
  | .conv e es, k => e.ft k * Expr.ftProd es k
noncomputable def Expr.ftSum : List Expr → ℝ × ℝ → ℂ
  | [], _ => 0
  | e :: es, k => e.ft k + Expr.ftSum es k
noncomputable def Expr.ftProd : List Expr → ℝ × ℝ → ℂ
  | [], _ => 1
  | e :: es, k => e.ft k * Expr.ftProd es k
end

mutual
/-- Total flux. -/
noncomputable def Expr.total : Expr → ℝ
  | .leaf L => L.flux
  | .tr e J _ r => r * |J.a * J.d - J.b * J.c| * e.total
  | .add e es => e.total + Expr.totalSum es
  | .conv e es => e.total * Expr.totalProd es
noncomputable def Expr.totalSum : List Expr → ℝ
  | [] => 0
  | e :: es => e.total + Expr.totalSum es
noncomputable def Expr.totalProd : List Expr → ℝ
  | [] => 1
  | e :: es => e.total * Expr.totalProd es
end

mutual
/-- First moment `∫ x I(x) dx`: flux times centroid. -/
noncomputable def Expr.moment : Expr → ℝ × ℝ
  | .leaf L => (L.cen.1 * L.flux, L.cen.2 * L.flux)
  | .tr e J off r =>
    let w := r * |J.a * J.d - J.b * J.c|
    (w * (J.a * e.moment.1 + J.b * e.moment.2 + off.1 * e.total),
     w * (J.c * e.moment.1 + J.d * e.moment.2 + off.2 * e.total))
  | .add e es => e.moment + Expr.momentSum es
  | .conv e es => Expr.totalProd es • e.moment + e.total • Expr.momentProd es
noncomputable def Expr.momentSum : List Expr → ℝ × ℝ
  | [] => 0
  | e :: es => e.moment + Expr.momentSum es
noncomputable def Expr.momentProd : List Expr → ℝ × ℝ
  | [] => 0
  | e :: es => Expr.totalProd es • e.moment + e.total • Expr.momentProd es
end

/-! ### C42 -/

theorem mkSum_cons (p : Prof) (l : List Prof) : mkSum (p :: l) = .sum (sumTerms p ++ l.flatMap sumTerms) := rfl

theorem sumTerms_sum (l : List Prof) : sumTerms (.sum l) = l := rfl

mutual
theorem build_xValue : ∀ (e : Expr) (x : ℝ × ℝ), e.build.xValue x = e.sb x
  | .leaf L, x => by simp only [Expr.build, Prof.xValue, Expr.sb]
  | .tr e J off r, x => by
    simp only [Expr.build, xValue_mk, Expr.sb]
    by_cases h : J.det = 0
    · have h' : J.a * J.d - J.b * J.c = 0 := h
      rw [Mat2.inv_none h, if_pos h']; rfl
    · have h' : ¬ J.a * J.d - J.b * J.c = 0 := h
      rw [Mat2.inv_some h, if_neg h', Option.bind_some, build_xValue e]
      congr 1
      · funext v; ring
      · congr 1
        ext <;> simp only [Mat2.inv', Mat2.app, Prod.fst_sub, Prod.snd_sub, Mat2.det] <;> ring
  | .add e es, x => by
    simp only [Expr.build, mkSum_cons, Prof.xValue, Expr.sb, xValueL_append, xValueL_terms]
    rw [build_xValue e, build_xValueL es]
  | .conv e es, x => by simp only [Expr.build, mkConv, Prof.xValue, Expr.sb]
theorem build_xValueL : ∀ (es : List Expr) (x : ℝ × ℝ),
    Prof.xValueL ((Expr.buildL es).flatMap sumTerms) x = Expr.sbL es x
  | [], x => by simp only [Expr.buildL, List.flatMap_nil, Prof.xValueL, Expr.sbL]
  | e :: es, x => by
    simp only [Expr.buildL, List.flatMap_cons, xValueL_append, xValueL_terms, Expr.sbL]
    rw [build_xValue e, build_xValueL es]
end

/-- C42: the surface brightness of the collapsed object is that of the operations applied one after the other. -/
theorem C42_xValue (e : Expr) (x : ℝ × ℝ) : e.build.xValue x = e.sb x := build_xValue e x

theorem kFactor_eq (J : Mat2) (off : ℝ × ℝ) (r : ℝ) (k : ℝ × ℝ) :
    kFactor J off r k = (r * |J.a * J.d - J.b * J.c| : ℝ) *
      Complex.exp (-Complex.I * ((k.1 * off.1 + k.2 * off.2 : ℝ) : ℂ)) := by
  unfold kFactor fluxScaling Mat2.det
  congr 1
  · push_cast; ring
  · congr 1; push_cast; ring

mutual
theorem build_kValue : ∀ (e : Expr) (k : ℝ × ℝ), e.build.kValue k = e.ft k
  | .leaf L, k => by simp only [Expr.build, Prof.kValue, Expr.ft]
  | .tr e J off r, k => by
    simp only [Expr.build, kValue_mk, Expr.ft]
    rw [build_kValue e, kFactor_eq, mul_comm]; rfl
  | .add e es, k => by
    simp only [Expr.build, mkSum_cons, Prof.kValue, Expr.ft, kSum_append, kSum_terms]
    rw [build_kValue e, build_kSum es]
  | .conv e es, k => by
    simp only [Expr.build, mkConv, Prof.kValue, Expr.ft, Prof.kProd]
    rw [build_kValue e, build_kProd es]
theorem build_kSum : ∀ (es : List Expr) (k : ℝ × ℝ),
    Prof.kSum ((Expr.buildL es).flatMap sumTerms) k = Expr.ftSum es k
  | [], k => by simp only [Expr.buildL, List.flatMap_nil, Prof.kSum, Expr.ftSum]
  | e :: es, k => by
    simp only [Expr.buildL, List.flatMap_cons, kSum_append, kSum_terms, Expr.ftSum]
    rw [build_kValue e, build_kSum es]
theorem build_kProd : ∀ (es : List Expr) (k : ℝ × ℝ), Prof.kProd (Expr.buildL es) k = Expr.ftProd es k
  | [], k => by simp only [Expr.buildL, Prof.kProd, Expr.ftProd]
  | e :: es, k => by
    simp only [Expr.buildL, Prof.kProd, Expr.ftProd]
    rw [build_kValue e, build_kProd es]
end

/-- C42: so is the Fourier value. -/
theorem C42_kValue (e : Expr) (k : ℝ × ℝ) : e.build.kValue k = e.ft k := build_kValue e k

mutual
theorem build_flux : ∀ (e : Expr), e.build.flux = e.total
  | .leaf L => by simp only [Expr.build, Prof.flux, Expr.total]
  | .tr e J off r => by
    simp only [Expr.build, flux_mk, Expr.total, Mat2.det]
    rw [build_flux e]; ring
  | .add e es => by
    simp only [Expr.build, mkSum_cons, Prof.flux, Expr.total, fluxSum_append, fluxSum_terms]
    rw [build_flux e, build_fluxSum es]
  | .conv e es => by
    simp only [Expr.build, mkConv, Prof.flux, Expr.total, Prof.fluxProd]
    rw [build_flux e, build_fluxProd es]
theorem build_fluxSum : ∀ (es : List Expr), Prof.fluxSum ((Expr.buildL es).flatMap sumTerms) = Expr.totalSum es
  | [] => by simp only [Expr.buildL, List.flatMap_nil, Prof.fluxSum, Expr.totalSum]
  | e :: es => by
    simp only [Expr.buildL, List.flatMap_cons, fluxSum_append, fluxSum_terms, Expr.totalSum]
    rw [build_flux e, build_fluxSum es]
theorem build_fluxProd : ∀ (es : List Expr), Prof.fluxProd (Expr.buildL es) = Expr.totalProd es
  | [] => by simp only [Expr.buildL, Prof.fluxProd, Expr.totalProd]
  | e :: es => by
    simp only [Expr.buildL, Prof.fluxProd, Expr.totalProd]
    rw [build_flux e, build_fluxProd es]
end

/-- C42: and the flux. -/
theorem C42_flux (e : Expr) : e.build.flux = e.total := build_flux e

/-! centroid -/

/-- Flux-weighted sum of the centroids of a list (of a sum's terms), if they exist. -/
theorem cenFlux_append (l m : List Prof) : Prof.cenFlux (l ++ m) =
    (Prof.cenFlux l).bind fun a => (Prof.cenFlux m).map fun b => a + b := by
  induction l with
  | nil =>
    simp only [List.nil_append, Prof.cenFlux, Option.bind_some]
    cases Prof.cenFlux m with
    | none => rfl
    | some b => simp [Prod.ext_iff]
  | cons o l ih =>
    simp only [List.cons_append, Prof.cenFlux, ih]
    cases o.centroid <;> cases Prof.cenFlux l <;> cases Prof.cenFlux m <;> simp [add_assoc, Prod.ext_iff]

theorem cenFlux_terms {p : Prof} {c m : ℝ × ℝ} (h : p.centroid = some c) (hm : Prof.cenFlux (sumTerms p) = some m) :
    m = (c.1 * p.flux, c.2 * p.flux) := by
  cases p with
  | sum l =>
    simp only [sumTerms] at hm
    simp only [Prof.centroid, hm, Option.bind_some] at h
    split at h
    · cases h
    · rename_i hf
      cases h
      simp only [Prof.flux]
      ext <;> field_simp
  | _ =>
    simp only [sumTerms, Prof.cenFlux] at hm
    rw [h] at hm
    simp at hm
    rw [← hm]

mutual
/-- the flux-weighted centroid terms of the built object add up to the moment -/
theorem build_cenFlux : ∀ (e : Expr) (m : ℝ × ℝ), Prof.cenFlux (sumTerms e.build) = some m → m = e.moment
  | .leaf L, m, h => by
    simp only [Expr.build, sumTerms, Prof.cenFlux, Prof.centroid] at h
    simp at h
    simp only [Expr.moment, ← h]
    rfl
  | .tr e J off r, m, h => by
    have hs : sumTerms (mkTransform e.build J off r) = [mkTransform e.build J off r] := by
      cases e.build <;> rfl
    simp only [Expr.build, hs, Prof.cenFlux, centroid_mk] at h
    cases hc : e.build.centroid with
    | none => rw [hc] at h; simp at h
    | some c =>
      rw [hc] at h
      simp only [Option.map_some, Option.bind_some, Option.some.injEq, flux_mk] at h
      have hm := build_centroid e c hc
      rw [build_flux] at h hm
      rw [← h]
      simp only [Expr.moment, ← hm]
      ext <;> simp only [Mat2.app, Prod.fst_add, Prod.snd_add, Mat2.det, add_zero] <;> ring
  | .add e es, m, h => by
    simp only [Expr.build, mkSum_cons, sumTerms_sum, cenFlux_append] at h
    cases h1 : Prof.cenFlux (sumTerms e.build) with
    | none => rw [h1] at h; simp at h
    | some a =>
      cases h2 : Prof.cenFlux ((Expr.buildL es).flatMap sumTerms) with
      | none => rw [h1, h2] at h; simp at h
      | some b =>
        rw [h1, h2] at h
        simp only [Option.bind_some, Option.map_some, Option.some.injEq] at h
        simp only [Expr.moment, ← h]
        rw [build_cenFlux e a h1, build_cenFluxL es b h2]
  | .conv e es, m, h => by
    have hs : sumTerms (Expr.conv e es).build = [(Expr.conv e es).build] := rfl
    rw [hs] at h
    simp only [Prof.cenFlux] at h
    cases hc : (Expr.conv e es).build.centroid with
    | none => rw [hc] at h; simp at h
    | some c =>
      rw [hc] at h
      simp only [Option.map_some, Option.bind_some, Option.some.injEq, add_zero] at h
      have hm := build_centroid (.conv e es) c hc
      rw [← h]; exact hm
theorem build_cenFluxL : ∀ (es : List Expr) (m : ℝ × ℝ),
    Prof.cenFlux ((Expr.buildL es).flatMap sumTerms) = some m → m = Expr.momentSum es
  | [], m, h => by
    simp only [Expr.buildL, List.flatMap_nil, Prof.cenFlux, Option.some.injEq] at h
    simp only [Expr.momentSum, ← h]; rfl
  | e :: es, m, h => by
    simp only [Expr.buildL, List.flatMap_cons, cenFlux_append] at h
    cases h1 : Prof.cenFlux (sumTerms e.build) with
    | none => rw [h1] at h; simp at h
    | some a =>
      cases h2 : Prof.cenFlux ((Expr.buildL es).flatMap sumTerms) with
      | none => rw [h1, h2] at h; simp at h
      | some b =>
        rw [h1, h2] at h
        simp only [Option.bind_some, Option.map_some, Option.some.injEq] at h
        simp only [Expr.momentSum, ← h]
        rw [build_cenFlux e a h1, build_cenFluxL es b h2]
theorem build_cenSum : ∀ (es : List Expr) (c : ℝ × ℝ), Prof.cenSum (Expr.buildL es) = some c →
    (c.1 * Expr.totalProd es, c.2 * Expr.totalProd es) = Expr.momentProd es
  | [], c, h => by
    simp only [Expr.buildL, Prof.cenSum, Option.some.injEq] at h
    simp only [Expr.momentProd, ← h]; simp
  | e :: es, c, h => by
    simp only [Expr.buildL, Prof.cenSum] at h
    cases h1 : e.build.centroid with
    | none => rw [h1] at h; simp at h
    | some a =>
      cases h2 : Prof.cenSum (Expr.buildL es) with
      | none => rw [h1, h2] at h; simp at h
      | some b =>
        rw [h1, h2] at h
        simp only [Option.bind_some, Option.map_some, Option.some.injEq] at h
        have i1 := build_centroid e a h1
        have i2 := build_cenSum es b h2
        rw [build_flux] at i1
        simp only [Expr.momentProd, Expr.totalProd, ← h, ← i1, ← i2]
        ext <;> simp <;> ring
theorem build_centroid : ∀ (e : Expr) (c : ℝ × ℝ), e.build.centroid = some c →
    (c.1 * e.build.flux, c.2 * e.build.flux) = e.moment
  | .leaf L, c, h => by
    simp only [Expr.build, Prof.centroid, Option.some.injEq] at h
    simp only [Expr.moment, Expr.build, Prof.flux, h]
  | .tr e J off r, c, h => by
    simp only [Expr.build, centroid_mk] at h
    cases hc : e.build.centroid with
    | none => rw [hc] at h; simp at h
    | some c' =>
      rw [hc] at h
      simp only [Option.map_some, Option.some.injEq] at h
      have hm := build_centroid e c' hc
      rw [build_flux] at hm
      simp only [Expr.build, flux_mk, build_flux]
      simp only [Expr.moment, ← hm, ← h]
      ext <;> simp only [Mat2.app, Prod.fst_add, Prod.snd_add, Mat2.det] <;> ring
  | .add e es, c, h => by
    cases hm : Prof.cenFlux (sumTerms (Expr.add e es).build) with
    | none =>
      simp only [Expr.build, mkSum_cons, sumTerms_sum] at hm h
      simp only [Prof.centroid, hm] at h; simp at h
    | some m =>
      have i := cenFlux_terms h hm
      simp only [Expr.build, mkSum_cons, sumTerms_sum, cenFlux_append] at hm
      cases h1 : Prof.cenFlux (sumTerms e.build) with
      | none => rw [h1] at hm; simp at hm
      | some a =>
        cases h2 : Prof.cenFlux ((Expr.buildL es).flatMap sumTerms) with
        | none => rw [h1, h2] at hm; simp at hm
        | some b =>
          rw [h1, h2] at hm
          simp only [Option.bind_some, Option.map_some, Option.some.injEq] at hm
          simp only [Expr.moment]
          rw [← i, ← hm, build_cenFlux e a h1, build_cenFluxL es b h2]
  | .conv e es, c, h => by
    simp only [Expr.build, mkConv, Prof.centroid, Prof.cenSum] at h
    cases h1 : e.build.centroid with
    | none => rw [h1] at h; simp at h
    | some a =>
      cases h2 : Prof.cenSum (Expr.buildL es) with
      | none => rw [h1, h2] at h; simp at h
      | some b =>
        rw [h1, h2] at h
        simp only [Option.bind_some, Option.map_some, Option.some.injEq] at h
        have i1 := build_centroid e a h1
        have i2 := build_cenSum es b h2
        rw [build_flux] at i1
        rw [build_flux]
        simp only [Expr.moment, Expr.total, ← h, ← i1, ← i2]
        ext <;> simp <;> ring
end

/-- C42: whenever the library reports a centroid, centroid times flux is the first moment of the operations applied one
after the other. -/
theorem C42_centroid (e : Expr) (c : ℝ × ℝ) (h : e.build.centroid = some c) :
    (c.1 * e.total, c.2 * e.total) = e.moment := by
  rw [← build_flux]; exact build_centroid e c h

/-- A centroid is reported for every expression without sums. -/
theorem C42_centroid_exists (L : Leaf) (ops : List (Mat2 × (ℝ × ℝ) × ℝ)) :
    ((ops.foldl (fun e t => Expr.tr e t.1 t.2.1 t.2.2) (.leaf L)).build.centroid).isSome = true := by
  have : ∀ (e : Expr), e.build.centroid.isSome = true →
      ((ops.foldl (fun e t => Expr.tr e t.1 t.2.1 t.2.2) e).build.centroid).isSome = true := by
    induction ops with
    | nil => intro e h; exact h
    | cons t ops ih =>
      intro e h
      simp only [List.foldl_cons]
      apply ih
      simp only [Expr.build, centroid_mk, Option.isSome_map, h]
  apply this
  simp [Expr.build, Prof.centroid]

/-- C42, point by point: what a transformation (of anything, also of a transformation) does to the brightness. -/
theorem C42_point (p : Prof) (J : Mat2) (off : ℝ × ℝ) (r : ℝ) (hJ : J.a * J.d - J.b * J.c ≠ 0) (q : ℝ × ℝ) :
    (mkTransform p J off r).xValue (J.a * q.1 + J.b * q.2 + off.1, J.c * q.1 + J.d * q.2 + off.2) =
      (p.xValue q).map fun v => r * v := by
  have hd : J.det ≠ 0 := hJ
  rw [xValue_mk, Mat2.inv_some hd, Option.bind_some]
  rw [show ((J.a * q.1 + J.b * q.2 + off.1, J.c * q.1 + J.d * q.2 + off.2) - off : ℝ × ℝ) = J.app q by
    ext <;> simp [Mat2.app], Mat2.inv'_app hd]
  congr 1; funext v; ring

/-- No transformation directly inside a transformation, no sum directly inside a sum, and no empty sum. -/
inductive Flat : Prof → Prop
  | leaf (L : Leaf) : Flat (.leaf L)
  | trans (o : Prof) (J : Mat2) (off : ℝ × ℝ) (r : ℝ) (ho : Flat o) (hn : ∀ o' J' off' r', o ≠ .trans o' J' off' r') :
      Flat (.trans o J off r)
  | sum (l : List Prof) (hl : ∀ o ∈ l, Flat o) (hn : ∀ o ∈ l, ∀ l', o ≠ .sum l') (he : l ≠ []) : Flat (.sum l)
  | conv (l : List Prof) (hl : ∀ o ∈ l, Flat o) : Flat (.conv l)

theorem flat_mkTransform {p : Prof} (h : Flat p) (J : Mat2) (off : ℝ × ℝ) (r : ℝ) : Flat (mkTransform p J off r) := by
  cases h with
  | trans o J2 o2 r2 ho hn => exact .trans _ _ _ _ ho hn
  | leaf L => exact .trans _ _ _ _ (.leaf L) (by intros; simp)
  | sum l hl hn he => exact .trans _ _ _ _ (.sum l hl hn he) (by intros; simp)
  | conv l hl => exact .trans _ _ _ _ (.conv l hl) (by intros; simp)

theorem flat_terms {p : Prof} (h : Flat p) :
    (∀ o ∈ sumTerms p, Flat o) ∧ (∀ o ∈ sumTerms p, ∀ l', o ≠ .sum l') ∧ sumTerms p ≠ [] := by
  cases h with
  | sum l hl hn he => exact ⟨hl, hn, he⟩
  | leaf L => simp [sumTerms, Flat.leaf]
  | trans o J2 o2 r2 ho hn => simp [sumTerms, Flat.trans o J2 o2 r2 ho hn]
  | conv l hl => simp [sumTerms, Flat.conv l hl]

theorem flat_mkSum {l : List Prof} (h : ∀ o ∈ l, Flat o) (hne : l ≠ []) : Flat (mkSum l) := by
  refine .sum _ ?_ ?_ ?_
  · intro o ho
    obtain ⟨p, hp, hop⟩ := List.mem_flatMap.mp ho
    exact (flat_terms (h p hp)).1 o hop
  · intro o ho
    obtain ⟨p, hp, hop⟩ := List.mem_flatMap.mp ho
    exact (flat_terms (h p hp)).2.1 o hop
  · cases l with
    | nil => exact absurd rfl hne
    | cons p l =>
      rw [List.flatMap_cons]
      intro e
      exact (flat_terms (h p (by simp))).2.2 (List.append_eq_nil_iff.mp e).1

mutual
theorem build_flat : ∀ e : Expr, Flat e.build
  | .leaf L => by simp only [Expr.build]; exact .leaf L
  | .tr e J off r => by simp only [Expr.build]; exact flat_mkTransform (build_flat e) J off r
  | .add e es => by
    simp only [Expr.build]
    exact flat_mkSum (by
      intro o ho
      rcases List.mem_cons.mp ho with h | h
      · rw [h]; exact build_flat e
      · exact build_flatL es o h) (by simp)
  | .conv e es => by
    simp only [Expr.build]
    exact .conv _ (by
      intro o ho
      rcases List.mem_cons.mp ho with h | h
      · rw [h]; exact build_flat e
      · exact build_flatL es o h)
theorem build_flatL : ∀ es : List Expr, ∀ o ∈ Expr.buildL es, Flat o
  | [], o, h => by simp only [Expr.buildL] at h; cases h
  | e :: es, o, h => by
    simp only [Expr.buildL] at h
    rcases List.mem_cons.mp h with h | h
    · rw [h]; exact build_flat e
    · exact build_flatL es o h
end

/-- C42: whatever was written, nested transformations and nested sums have been collapsed. -/
theorem C42_flat (e : Expr) : Flat e.build := build_flat e

/-- A sequence of transformations of one profile becomes a single transformation of it. -/
theorem C42_single (L : Leaf) (t : Mat2 × (ℝ × ℝ) × ℝ) (ops : List (Mat2 × (ℝ × ℝ) × ℝ)) :
    ∃ J off r, ((t :: ops).foldl (fun e t => Expr.tr e t.1 t.2.1 t.2.2) (.leaf L)).build = .trans (.leaf L) J off r := by
  have : ∀ (e : Expr), (∃ J off r, e.build = .trans (.leaf L) J off r) →
      ∃ J off r, (ops.foldl (fun e t => Expr.tr e t.1 t.2.1 t.2.2) e).build = .trans (.leaf L) J off r := by
    induction ops with
    | nil => intro e h; exact h
    | cons t ops ih =>
      intro e ⟨J, off, r, h⟩
      simp only [List.foldl_cons]
      apply ih
      simp only [Expr.build, h, mkTransform]
      exact ⟨_, _, _, rfl⟩
  simp only [List.foldl_cons]
  apply this
  exact ⟨_, _, _, by simp only [Expr.build, mkTransform]; rfl⟩

/-- The sample profile of the examples: brightness `1 + x` inside the unit square, 0 outside. -/
noncomputable def sampleLeaf : Leaf where
  flux := 1
  xv x := some (if |x.1| ≤ 1 / 2 ∧ |x.2| ≤ 1 / 2 then 1 + x.1 else 0)
  kv _ := 1
  cen := (1 / 12, 0)
  pos := 1
  neg := 0
  maxk := 3
  stepk := 1
  maxSb := 3 / 2
  hard := true
  analyticX := true

/-- shear-like map, then a rotation by 90 degrees with a shift and flux scaling 3 -/
example : ((Expr.tr (.tr (.leaf sampleLeaf) ⟨2, 0, 0, 1⟩ 0 1) ⟨0, -1, 1, 0⟩ (5, 0) 3).build.xValue (5, 1 / 2)) =
    some (3 * (1 + 1 / 4)) := by
  rw [C42_xValue]
  norm_num [Expr.sb, sampleLeaf]

example : (Expr.add (.tr (.leaf sampleLeaf) ⟨2, 0, 0, 1⟩ (1, 0) 3) [.leaf sampleLeaf]).build.flux = 7 := by
  rw [C42_flux]
  norm_num [Expr.total, Expr.totalSum, sampleLeaf]

example : (Expr.tr (.tr (.leaf sampleLeaf) ⟨2, 0, 0, 1⟩ (1, 0) 3) ⟨0, -1, 1, 0⟩ (5, 0) 1).build.centroid =
    some (5, 7 / 6) := by
  simp only [Expr.build, centroid_mk, Prof.centroid]
  norm_num [Mat2.app, sampleLeaf]

end JG
