import Verif.Props.FitsWcsJac

/-!
C74: examples.  C75: round trips of FITS world coordinate systems and their headers.
-/

namespace JG.FitsW
open Finset Real

/-! ### C74: examples, and tables beyond the triangle -/

/-- A TPV system at the origin of the sky with the distortion of `shearTab`. -/
noncomputable def exW : GS := ⟨.tpv, (1, 2), ⟨3, 0, 0, 4⟩, ⟨0, 0⟩, some shearTab, none, none⟩

theorem shearTab_tri : shearTab.1.Tri ∧ shearTab.2.Tri := by
  constructor
  · intro i j hi hj hij
    simp only [shearTab] at hij ⊢
    rw [if_neg (by omega)]
  · intro i j hi hj hij
    simp only [shearTab] at hij ⊢
    rw [if_neg (by omega)]

example : exW.Tri := by
  refine ⟨fun p h => (nomatch h), fun p h => ?_⟩
  obtain rfl := Option.some.inj h
  exact shearTab_tri

example : exW.wtype.proj.PlaneDom (exW.uv 1 2).1 (exW.uv 1 2).2 ∧ cos (exW.radec 1 2).dec ≠ 0 := by
  refine ⟨trivial, ?_⟩
  have : exW.uv 1 2 = (0, 0) := by
    simp [GS.uv, exW, applyOpt, applyAb, eval_eq, triPoly_range, shearTab, sum_range_succ]
  unfold GS.radec
  rw [this]
  simp [exW, Coord.deprojectP]

/-- The square table of `x y`, of size 2. -/
noncomputable def cornerTab : Tab × Tab :=
  (⟨2, fun i j => if i = j then 1 else 0⟩, ⟨2, fun i j => if i = 0 ∧ j = 1 then 1 else 0⟩)

/-- Outside the conventions (a SIP coefficient `A_p_q` with `p + q` above the order) the two methods disagree: `_uv` drops the
coefficient, `_local` keeps it. -/
theorem C74_square_tables : ∃ w : GS, (w.localUv 1 1).1 ≠ w.uv 1 1 := by
  refine ⟨⟨.tanSip, (0, 0), ⟨1, 0, 0, 1⟩, ⟨0, 0⟩, none, some cornerTab, none⟩, fun h => ?_⟩
  have h1 := congrArg Prod.fst h
  simp only [GS.localUv, GS.uv, applyOpt, applyAb, distort, Tab.dot, eval_eq, triPoly_range, cornerTab, sub_zero] at h1
  rw [show (2:ℕ) = 1 + 1 from rfl] at h1
  simp only [sum_range_succ, sum_range_zero] at h1
  norm_num [sum_range_succ, degRad] at h1

/-! ### C75: pixels to the sky and back -/

/-- C75: without distortions, image position to sky and back is the identity, for every projection. -/
theorem C75_roundtrip (w : GS) (hpv : w.pv = none) (hab : w.ab = none) (hd : w.cd.a * w.cd.d - w.cd.b * w.cd.c ≠ 0) (x y : ℝ)
    (hdom : w.wtype.proj.PlaneDom (w.uv x y).1 (w.uv x y).2) : w.xy (w.radec x y) = .val x y := by
  have hp := (C50_project_deproject w.wtype.proj w.center (w.uv x y).1 (w.uv x y).2 hdom).1
  unfold GS.xy GS.radec
  rw [hp]
  have hr : degRad ≠ 0 := by unfold degRad; positivity
  simp only [GS.xyOfUv, GS.uv, hpv, hab, invertOpt, applyOpt, minv]
  obtain ⟨D, hD⟩ : ∃ D, D = w.cd.a * w.cd.d - w.cd.b * w.cd.c := ⟨_, rfl⟩
  rw [← hD] at hd ⊢
  congr 1
  · field_simp
    rw [hD]; ring
  · field_simp
    rw [hD]; ring

/-- C75: without distortions, sky to image position and back gives the same point of the sky. -/
theorem C75_sky_roundtrip (w : GS) (hpv : w.pv = none) (hab : w.ab = none) (hd : w.cd.a * w.cd.d - w.cd.b * w.cd.c ≠ 0) (q : Coord)
    (hq : q.Valid) (hdom : w.wtype.proj.Dom (cosSep w.center q)) :
    ∃ x y, w.xy q = .val x y ∧ SamePoint (w.radec x y) q := by
  have hr : degRad ≠ 0 := by unfold degRad; positivity
  have hback := C50_deproject_project w.wtype.proj w.center q hq hdom
  obtain ⟨u, hu⟩ : ∃ u, u = (w.center.projectP q w.wtype.proj).1 := ⟨_, rfl⟩
  obtain ⟨v, hv⟩ : ∃ v, v = (w.center.projectP q w.wtype.proj).2 := ⟨_, rfl⟩
  rw [← hu, ← hv] at hback
  refine ⟨(minv w.cd).a * (u * (-(1 / degRad))) + (minv w.cd).b * (v * (1 / degRad)) + w.crpix.1,
    (minv w.cd).c * (u * (-(1 / degRad))) + (minv w.cd).d * (v * (1 / degRad)) + w.crpix.2, ?_, ?_⟩
  · unfold GS.xy
    rw [← hu, ← hv]
    simp only [GS.xyOfUv, hpv, hab, invertOpt]
  · have : w.uv ((minv w.cd).a * (u * (-(1 / degRad))) + (minv w.cd).b * (v * (1 / degRad)) + w.crpix.1)
        ((minv w.cd).c * (u * (-(1 / degRad))) + (minv w.cd).d * (v * (1 / degRad)) + w.crpix.2) = (u, v) := by
      simp only [GS.uv, hpv, hab, applyOpt, minv, add_sub_cancel_right]
      obtain ⟨D, hD⟩ : ∃ D, D = w.cd.a * w.cd.d - w.cd.b * w.cd.c := ⟨_, rfl⟩
      rw [← hD] at hd ⊢
      rw [Prod.mk.injEq]
      constructor
      · field_simp
        rw [hD]; ring
      · field_simp
        rw [hD]; ring
    unfold GS.radec
    rw [this]
    exact hback

example (x y : ℝ) : GS.xy ⟨.stg, (1, 2), ⟨0, 3, 4, 5⟩, ⟨1, 1⟩, none, none, none⟩
    (GS.radec ⟨.stg, (1, 2), ⟨0, 3, 4, 5⟩, ⟨1, 1⟩, none, none, none⟩ x y) = .val x y :=
  C75_roundtrip _ rfl rfl (by norm_num) x y trivial

/-- C75: shifting the origin moves the image positions, for positions, local Jacobians and inverses. -/
theorem C75_newOrigin (w : GS) (o : ℝ × ℝ) (x y : ℝ) :
    (w.newOrigin o).radec (x + o.1) (y + o.2) = w.radec x y ∧ (w.newOrigin o).localJac (x + o.1) (y + o.2) = w.localJac x y := by
  have e1 : x + o.1 - (w.crpix.1 + o.1) = x - w.crpix.1 := by ring
  have e2 : y + o.2 - (w.crpix.2 + o.2) = y - w.crpix.2 := by ring
  constructor
  · simp only [GS.radec, GS.uv, GS.newOrigin, e1, e2]
  · simp only [GS.localJac, GS.localUv, GS.newOrigin, e1, e2]

/-- C75: shifting the origin shifts the inverse by the same amount. -/
theorem C75_newOrigin_inverse (w : GS) (o : ℝ × ℝ) (q : Coord) :
    (w.newOrigin o).xy q = match w.xy q with | .val x y => .val (x + o.1) (y + o.2) | r => r := by
  unfold GS.xy GS.xyOfUv GS.newOrigin
  simp only
  generalize invertOpt w.pv none _ = r
  cases r with
  | val u v =>
    simp only
    generalize invertOpt w.ab w.abp _ = r2
    cases r2 with
    | val a b => simp only; congr 1 <;> ring
    | nan => rfl
    | err => rfl
  | nan => rfl
  | err => rfl

/-! ### C75: reading linear headers -/

/-- Specification: the matrix of the FITS standard: `CDi_j`, or `CDELTi · PCi_j` with the defaults 1 and the identity. -/
noncomputable def stdCd (h : Hdr) : Mat2 :=
  match h.cd with
  | some m => m
  | none => ⟨(h.cdelt.getD (1, 1)).1 * (h.pc.getD ⟨1, 0, 0, 1⟩).a, (h.cdelt.getD (1, 1)).1 * (h.pc.getD ⟨1, 0, 0, 1⟩).b,
      (h.cdelt.getD (1, 1)).2 * (h.pc.getD ⟨1, 0, 0, 1⟩).c, (h.cdelt.getD (1, 1)).2 * (h.pc.getD ⟨1, 0, 0, 1⟩).d⟩

/-- Specification: the units of the two axes in radians. -/
noncomputable def stdUnits (h : Hdr) : ℝ × ℝ := h.cunit.getD (π / 180, π / 180)

/-- Specification: the intermediate world coordinates of the two axes, in radians. -/
noncomputable def stdAxes (h : Hdr) (x y : ℝ) : ℝ × ℝ :=
  (((stdCd h).a * (x - h.crpix1) + (stdCd h).b * (y - h.crpix2)) * (stdUnits h).1,
    ((stdCd h).c * (x - h.crpix1) + (stdCd h).d * (y - h.crpix2)) * (stdUnits h).2)

/-- Specification: the longitude and latitude parts of a pair, by the axis types. -/
def lonLat (h : Hdr) (p : ℝ × ℝ) : ℝ × ℝ := if h.ctype1.1 = .ra then p else (p.2, p.1)

/-- The reference point of the header. -/
noncomputable def stdCenter (h : Hdr) : ℝ × ℝ := lonLat h (h.crval1 * (stdUnits h).1, h.crval2 * (stdUnits h).2)

/-- A celestial header: one right ascension axis, one declination axis, the same known type, a declination in range, and not
`PC` keys without `CDELT` keys. -/
structure CelHdr (h : Hdr) (t : WType) : Prop where
  axes : (h.ctype1.1 = .ra ∧ h.ctype2.1 = .dec) ∨ (h.ctype1.1 = .dec ∧ h.ctype2.1 = .ra)
  suf : h.ctype1.2 = t.suffix ∧ h.ctype2.2 = t.suffix
  dec : -(π / 2) ≤ (stdCenter h).2 ∧ (stdCenter h).2 ≤ π / 2
  pc : h.cd = none → h.cdelt = none → h.pc = none

theorem ofSuffix_suffix (t : WType) : WType.ofSuffix t.suffix = some t := by cases t <;> rfl

theorem readCd_std (h : Hdr) (pc : h.cd = none → h.cdelt = none → h.pc = none) : readCd h = stdCd h := by
  unfold readCd stdCd
  cases hcd : h.cd with
  | some m => rfl
  | none =>
    cases hde : h.cdelt with
    | some d =>
      cases hpc : h.pc with
      | some p => simp only [Option.getD_some, Mat2.mk.injEq]; exact ⟨mul_comm _ _, mul_comm _ _, mul_comm _ _, mul_comm _ _⟩
      | none => simp
    | none => simp [pc hcd hde]

/-- The linear part of reading: whatever the distortion, the result has the centre, reference pixel and scaled matrix of the
standard. -/
theorem readHeader_eq (h : Hdr) (t : WType) (hh : CelHdr h t) :
    readHeader h = match readDistortion h (if t = .tan ∧ (h.pv 1 1).isSome then .tpv else t) with
      | .error e => .error e
      | .ok (t', pv, ab, abp) => .ok ⟨t', (h.crpix1, h.crpix2),
          (if h.ctype1.1 = .ra then ⟨(stdCd h).a * ((stdUnits h).1 / degRad), (stdCd h).b * ((stdUnits h).1 / degRad),
            (stdCd h).c * ((stdUnits h).2 / degRad), (stdCd h).d * ((stdUnits h).2 / degRad)⟩
           else ⟨(stdCd h).c * ((stdUnits h).2 / degRad), (stdCd h).d * ((stdUnits h).2 / degRad),
            (stdCd h).a * ((stdUnits h).1 / degRad), (stdCd h).b * ((stdUnits h).1 / degRad)⟩),
          ⟨(stdCenter h).1, (stdCenter h).2⟩, pv, ab, abp⟩ := by
  obtain ⟨axes, ⟨s1, s2⟩, dec, pc⟩ := hh
  have hu : h.cunit.getD (degRad, degRad) = stdUnits h := rfl
  have mk : ∀ a d, -(π / 2) ≤ d ∧ d ≤ π / 2 → Coord.mk? a d = some ⟨a, d⟩ := by
    intro a d hd
    unfold Coord.mk?
    rw [if_neg]
    rintro (h | h)
    · have : -π / 2 = -(π / 2) := by ring
      linarith [hd.1]
    · linarith [hd.2]
  unfold readHeader
  rcases axes with ⟨a1, a2⟩ | ⟨a1, a2⟩
  · have hf : readFlip h = some false := by unfold readFlip; simp [a1, a2]
    have hc : stdCenter h = (h.crval1 * (stdUnits h).1, h.crval2 * (stdUnits h).2) := by
      unfold stdCenter lonLat; rw [if_pos a1]
    rw [hc] at dec
    rw [hf]
    simp only [s1, s2, ne_eq, not_true_eq_false, if_false, ofSuffix_suffix, hu, readCd_std h pc, Bool.false_eq_true, mk _ _ dec,
      hc, if_pos a1]
    cases readDistortion h (if t = .tan ∧ (h.pv 1 1).isSome then .tpv else t) with
    | error e => rfl
    | ok p => rfl
  · have hf : readFlip h = some true := by unfold readFlip; simp [a1, a2]
    have hne : ¬ h.ctype1.1 = .ra := by rw [a1]; exact fun h => nomatch h
    have hc : stdCenter h = (h.crval2 * (stdUnits h).2, h.crval1 * (stdUnits h).1) := by
      unfold stdCenter lonLat; rw [if_neg hne]
    rw [hc] at dec
    rw [hf]
    simp only [s1, s2, ne_eq, not_true_eq_false, if_false, ofSuffix_suffix, hu, readCd_std h pc, if_true, mk _ _ dec,
      hc, if_neg hne]
    cases readDistortion h (if t = .tan ∧ (h.pv 1 1).isSome then .tpv else t) with
    | error e => rfl
    | ok p => rfl

/-- C75 (partial): a header without distortions is read as the FITS standard says: the reference point, the projection, and
the tangent plane coordinates (longitude to the west, latitude) in radians, for either order of the axes, `CD` or `CDELT` with
or without `PC`, and any units.  Missing: `PC` keys without `CDELT` keys, see `C75_counterexample_pc`. -/
theorem C75_read_partial (h : Hdr) (t : WType) (hh : CelHdr h t) (ht : t = .tan ∨ t = .stg ∨ t = .zea ∨ t = .arc)
    (hpv : t = .tan → h.pv 1 1 = none) :
    ∃ w, readHeader h = .ok w ∧ w.wtype = t ∧ w.center = ⟨(stdCenter h).1, (stdCenter h).2⟩ ∧
      ∀ x y, w.uv x y = (-(lonLat h (stdAxes h x y)).1, (lonLat h (stdAxes h x y)).2) := by
  have hr : degRad ≠ 0 := by unfold degRad; positivity
  have hnot : ¬ (t = .tan ∧ (h.pv 1 1).isSome = true) := by
    rintro ⟨h1, h2⟩
    rw [hpv h1] at h2
    exact absurd h2 (by simp)
  have hdist : readDistortion h t = .ok (t, none, none, none) := by
    rcases ht with rfl | rfl | rfl | rfl <;> rfl
  rw [readHeader_eq h t hh, if_neg hnot, hdist]
  refine ⟨_, rfl, rfl, rfl, fun x y => ?_⟩
  by_cases ha : h.ctype1.1 = .ra
  · simp only [GS.uv, applyOpt, if_pos ha, lonLat, stdAxes]
    rw [Prod.mk.injEq]
    constructor
    · field_simp
    · field_simp
  · simp only [GS.uv, applyOpt, if_neg ha, lonLat, stdAxes]
    rw [Prod.mk.injEq]
    constructor
    · field_simp
    · field_simp

/-- A header with the declination on the first axis, `CDELT` and `PC` keys, and axes in arcseconds. -/
noncomputable def flipHdr : Hdr :=
  { pvHdr (fun _ _ => none) with
    ctype1 := (.dec, "STG"), ctype2 := (.ra, "STG"), cd := none, cdelt := some (2, 3), pc := some ⟨0, 1, 1, 0⟩,
    cunit := some (π / 648000, π / 648000) }

example : ∃ w, readHeader flipHdr = .ok w ∧ ∀ x y, w.uv x y = (-(3 * x * (π / 648000)), 2 * y * (π / 648000)) := by
  have hne : ¬ Axis.dec = Axis.ra := fun h => nomatch h
  obtain ⟨w, h1, _, _, h4⟩ := C75_read_partial flipHdr .stg
    ⟨Or.inr ⟨rfl, rfl⟩, ⟨rfl, rfl⟩, by simp [stdCenter, lonLat, flipHdr, pvHdr]; positivity, by simp [flipHdr]⟩ (by simp) (by simp)
  refine ⟨w, h1, fun x y => ?_⟩
  rw [h4]
  simp [lonLat, stdAxes, stdCd, stdUnits, flipHdr, pvHdr]

/-- Disagreement: `PC` keys without `CDELT` keys (which then default to 1) are ignored: the matrix becomes the identity. -/
theorem C75_counterexample_pc : ∃ h w, h.cd = none ∧ h.cdelt = none ∧ readHeader h = .ok w ∧
    w.uv 1 0 ≠ (-(lonLat h (stdAxes h 1 0)).1, (lonLat h (stdAxes h 1 0)).2) := by
  have hr : degRad ≠ 0 := by unfold degRad; positivity
  have hm : Coord.mk? (0 * degRad) (0 * degRad) = some ⟨0 * degRad, 0 * degRad⟩ := by
    unfold Coord.mk?
    rw [if_neg]
    rw [zero_mul]
    rintro (h | h) <;> linarith [Real.pi_pos]
  refine ⟨{ pvHdr (fun _ _ => none) with ctype1 := (.ra, "STG"), ctype2 := (.dec, "STG"), cd := none, pc := some ⟨0, 1, 1, 0⟩ },
    ⟨.stg, (0, 0), ⟨1 * (degRad / degRad), 0 * (degRad / degRad), 0 * (degRad / degRad), 1 * (degRad / degRad)⟩,
      ⟨0 * degRad, 0 * degRad⟩, none, none, none⟩, rfl, rfl, ?_, ?_⟩
  · simp only [readHeader, readFlip, pvHdr, readCd, WType.ofSuffix, readDistortion]
    simp [zero_mul] at hm ⊢
    simp [hm]
    rfl
  · intro h
    have h1 := congrArg Prod.fst h
    simp [GS.uv, applyOpt, lonLat, stdAxes, stdCd, stdUnits, pvHdr, hr] at h1

/-! ### C75: writing and reading -/

/-- The same map from pixels to the sky. -/
def SameMap (w w' : GS) : Prop := w'.wtype.proj = w.wtype.proj ∧ w'.center = w.center ∧ w'.crpix = w.crpix ∧ w'.cd = w.cd ∧
  ∀ x y, w'.uv x y = w.uv x y

theorem sameMap_radec (w w' : GS) (h : SameMap w w') (x y : ℝ) : w'.radec x y = w.radec x y := by
  obtain ⟨h1, h2, _, _, h5⟩ := h
  unfold GS.radec
  rw [h1, h2, h5]

theorem write_cel (w : GS) (hc : w.center.Valid) : CelHdr w.writeHeader w.wtype := by
  have hr : degRad ≠ 0 := by unfold degRad; positivity
  refine ⟨Or.inl ⟨rfl, rfl⟩, ⟨rfl, rfl⟩, ?_, fun h => nomatch h⟩
  have : (stdCenter w.writeHeader).2 = w.center.dec := by
    simp only [stdCenter, lonLat, stdUnits, GS.writeHeader, Option.getD_some, if_true]
    exact div_mul_cancel₀ _ hr
  rw [this]
  exact hc

theorem write_parts (w : GS) : (stdCd w.writeHeader) = w.cd ∧ stdUnits w.writeHeader = (degRad, degRad) ∧
    stdCenter w.writeHeader = (w.center.ra, w.center.dec) := by
  have hr : degRad ≠ 0 := by unfold degRad; positivity
  refine ⟨rfl, rfl, ?_⟩
  simp only [stdCenter, lonLat, stdUnits, GS.writeHeader, Option.getD_some, if_true]
  rw [div_mul_cancel₀ _ hr, div_mul_cancel₀ _ hr]

/-- What reading a written header gives, from the distortions that are read. -/
theorem read_write (w : GS) (hc : w.center.Valid) (t' : WType) (pv ab abp : Option (Tab × Tab))
    (ht : ¬ (w.wtype = .tan ∧ (w.writeHeader.pv 1 1).isSome = true)) (hd : readDistortion w.writeHeader w.wtype = .ok (t', pv, ab, abp)) :
    readHeader w.writeHeader = .ok ⟨t', w.crpix, w.cd, w.center, pv, ab, abp⟩ := by
  have hr : degRad ≠ 0 := by unfold degRad; positivity
  obtain ⟨p1, p2, p3⟩ := write_parts w
  rw [readHeader_eq _ _ (write_cel w hc), if_neg ht, hd, p1, p2, p3]
  simp only [div_self hr, mul_one]
  rw [if_pos (show w.writeHeader.ctype1.1 = .ra from rfl)]
  rfl

/-- C75: systems without distortions are read back from their headers unchanged. -/
theorem C75_write_plain (w : GS) (hc : w.center.Valid) (ht : w.wtype = .tan ∨ w.wtype = .stg ∨ w.wtype = .zea ∨ w.wtype = .arc)
    (hpv : w.pv = none) (hab : w.ab = none) (habp : w.abp = none) : readHeader w.writeHeader = .ok w := by
  have hd : readDistortion w.writeHeader w.wtype = .ok (w.wtype, none, none, none) := by
    rcases ht with h | h | h | h <;> rw [h] <;> rfl
  rw [read_write w hc _ _ _ _ (by simp [GS.writeHeader, hpv]) hd, ← hpv]
  congr 1
  obtain ⟨a, b, c, d, e, f, g⟩ := w
  simp only at hpv hab habp
  subst hpv hab habp
  rfl

/-- C75: SIP systems are read back from their headers as the same map. -/
theorem C75_write_sip (w : GS) (hc : w.center.Valid)
    (ht : w.wtype = .tanSip ∨ w.wtype = .stgSip ∨ w.wtype = .zeaSip ∨ w.wtype = .arcSip) (hpv : w.pv = none) (ab : Tab × Tab)
    (hab : w.ab = some ab) (hn : 2 ≤ ab.1.n) (hsq : ab.2.n = ab.1.n)
    (hp : ∀ abp, w.abp = some abp → 2 ≤ abp.1.n ∧ abp.2.n = abp.1.n) :
    ∃ w', readHeader w.writeHeader = .ok w' ∧ SameMap w w' := by
  obtain ⟨T, hT, ⟨n1, n2, hval⟩, _, _⟩ := C59_sip_roundtrip w ab hab hn hsq hp
  have hd : readDistortion w.writeHeader w.wtype = .ok (w.wtype, none, some T.1, T.2) := by
    rcases ht with h | h | h | h <;> rw [h] <;> simp only [readDistortion, hT] <;> rfl
  refine ⟨_, read_write w hc _ _ _ _ (by rcases ht with h | h | h | h <;> simp [h]) hd, rfl, rfl, rfl, rfl, fun x y => ?_⟩
  have hev : ∀ p : ℝ × ℝ, applyOpt (some T.1) p = applyOpt (some ab) p := by
    intro p
    simp only [applyOpt, applyAb]
    rw [eval_eq, eval_eq, eval_eq, eval_eq, n1, n2, hsq]
    rw [Prod.mk.injEq]
    exact ⟨triPoly_congr _ _ _ (fun i j hij => (hval i j (by omega) (by omega)).1) _ _,
      triPoly_congr _ _ _ (fun i j hij => (hval i j (by omega) (by omega)).2) _ _⟩
  simp only [GS.uv, hab, hpv, hev]

/-- C75 (partial): TPV systems are read back from their headers as the same map, under the condition on the terms of highest
degree.  Missing: other tables, see `C59_counterexample_tpv` and `C59_counterexample_tpv_zero`. -/
theorem C75_write_tpv_partial (w : GS) (hc : w.center.Valid) (ht : w.wtype = .tpv) (hab : w.ab = none) (pv : Tab × Tab) (hpv : w.pv = some pv)
    (hn : 0 < pv.1.n) (h8 : pv.1.n ≤ 8) (hsq : pv.2.n = pv.1.n) (d : ℕ)
    (nz1 : ∃ i j, i + j < pv.1.n ∧ pv.1.c i j ≠ 0) (nz2 : ∃ i j, i + j < pv.1.n ∧ pv.2.c i j ≠ 0)
    (top : ∀ i j, d < i + j → i + j < pv.1.n → pv.1.c i j = 0 ∧ pv.2.c j i = 0)
    (upper : ∃ i j, i + j = d ∧ d < pv.1.n ∧ d ≤ 2 * j + 1 ∧ (pv.1.c i j ≠ 0 ∨ pv.2.c j i ≠ 0)) :
    ∃ w', readHeader w.writeHeader = .ok w' ∧ SameMap w w' := by
  obtain ⟨T, hT, hev⟩ := C59_tpv_roundtrip_partial pv hn h8 hsq d nz1 nz2 top upper w.writeHeader (by simp only [GS.writeHeader, hpv])
  have hd : readDistortion w.writeHeader w.wtype = .ok (.tpv, some T, none, none) := by
    rw [ht]; simp only [readDistortion, hT]; rfl
  refine ⟨_, read_write w hc _ _ _ _ (by simp [ht]) hd, by rw [ht], rfl, rfl, rfl, fun x y => ?_⟩
  simp only [GS.uv, hab, hpv, applyOpt, hev]

example : ∃ w', readHeader exW.writeHeader = .ok w' ∧ SameMap exW w' :=
  C75_write_tpv_partial exW (by simp [exW, Coord.Valid]; positivity) rfl rfl shearTab rfl (by norm_num [shearTab])
    (by norm_num [shearTab]) rfl 1 ⟨1, 0, by norm_num [shearTab], by norm_num [shearTab]⟩
    ⟨0, 1, by norm_num [shearTab], by norm_num [shearTab]⟩ (by intro i j h1 h2; simp only [shearTab] at h2; omega)
    ⟨1, 0, rfl, by norm_num [shearTab], by norm_num, Or.inl (by norm_num [shearTab])⟩

example : ∃ w', readHeader (GS.writeHeader ⟨.arcSip, (1, 2), ⟨1, 2, 3, 4⟩, ⟨1, 1⟩, none, some shearTab, none⟩) = .ok w' ∧
    SameMap ⟨.arcSip, (1, 2), ⟨1, 2, 3, 4⟩, ⟨1, 1⟩, none, some shearTab, none⟩ w' :=
  C75_write_sip _ (by simp only [Coord.Valid]; constructor <;> linarith [Real.pi_gt_three]) (by simp) rfl shearTab rfl (by norm_num [shearTab]) rfl
    (fun _ h => nomatch h)

/-! ### C75: linear headers -/

/-- C75: the simplification of a linear WCS keeps the map from image to world. -/
theorem C75_simplify (J : Mat2) (o u : ℝ × ℝ) (p : ℝ × ℝ) : (simplifyLinear J o u).toWorld p = (WCS.off (.jac J) o u).toWorld p := by
  unfold simplifyLinear
  split_ifs with h1 h2
  · obtain ⟨a, b, c⟩ := h1
    obtain ⟨d, e, f, g⟩ := h2
    have hb : J.b = 0 := b.trans c
    have ho : o = (0, 0) := Prod.ext (by rw [d, e, f, g]) (by rw [e, f, g])
    have hu : u = (0, 0) := Prod.ext (by rw [f, g]) g
    subst ho hu
    simp [WCS.toWorld, LocalWCS.uv, hb, c, ← a, mul_comm]
  · obtain ⟨a, b, c⟩ := h1
    have hb : J.b = 0 := b.trans c
    simp [WCS.toWorld, LocalWCS.uv, hb, c, ← a, mul_comm]
  · rfl

example : simplifyLinear ⟨2, 0, 0, 2⟩ (0, 0) (0, 0) = .loc (.pix 2) := by
  unfold simplifyLinear; simp

/-- The radial laws of the zenithal projections in the FITS standard (Calabretta and Greisen 2002), by the code in
`CTYPE`: the distance from the reference point in the plane of a point at angular distance `θ`. -/
noncomputable def fitsRadial (code : String) (θ : ℝ) : ℝ :=
  if code ∈ ["TAN", "TPV", "TNX", "TAN-SIP"] then Real.tan θ
  else if code ∈ ["STG", "STG-SIP"] then 2 * Real.tan (θ / 2)
  else if code ∈ ["ZEA", "ZEA-SIP"] then 2 * Real.sin (θ / 2)
  else θ

/-- C75: the sky position of a WCS read with a given `CTYPE` code obeys the radial law of that code. -/
theorem C75_projection (w : GS) (code : String) (hc : WType.ofSuffix code = some w.wtype) (x y : ℝ)
    (hd : w.wtype.proj.PlaneDom (w.uv x y).1 (w.uv x y).2) :
    Real.sqrt ((w.uv x y).1 ^ 2 + (w.uv x y).2 ^ 2) = fitsRadial code (w.center.distanceTo (w.radec x y)) := by
  obtain ⟨h1, _, h3⟩ := C50_project_deproject w.wtype.proj w.center _ _ hd
  have h := (C50_textbook w.wtype.proj w.center (w.radec x y) h3).1
  unfold GS.radec at h ⊢
  rw [h1] at h
  simp only at h
  rw [h]
  unfold WType.ofSuffix at hc
  split at hc <;> first
    | (simp only [Option.some.injEq] at hc
       rw [← hc]
       simp [fitsRadial, WType.proj, Proj.radius])
    | exact nomatch hc

example (x : ℝ) (h0 : 0 ≤ x) (h1 : x < 1) :
    let w : GS := ⟨.arc, (0, 0), ⟨-(180 / Real.pi), 0, 0, 180 / Real.pi⟩, ⟨0, 0⟩, none, none, none⟩
    Coord.distanceTo ⟨0, 0⟩ (w.radec x 0) = x := by
  intro w
  have hu : w.uv x 0 = (x, 0) := by
    simp only [w, GS.uv, applyOpt, degRad]
    have := Real.pi_pos
    ext <;> simp
    field_simp
  have h := C75_projection w "ARC" rfl x 0 (by
    rw [hu]
    show _ < _
    simp
    have := Real.pi_gt_three
    nlinarith [Real.sqrt_sq h0])
  rw [hu] at h
  simp [fitsRadial] at h
  rw [Real.sqrt_sq h0] at h
  exact h.symm

end JG.FitsW
