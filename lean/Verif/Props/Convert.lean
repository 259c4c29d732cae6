import Verif.Model.Convert
import Mathlib.Tactic.Linarith
import Mathlib.Analysis.SpecialFunctions.Trigonometric.Basic
import Mathlib.Tactic.NormNum

/-!
# C100: conversion from and to the objects of the reference package keeps their meaning

The specification of a converted object is what it means: the points that bounds include, the map of
a coordinate system, the values of the pixels.
-/

namespace JG.Conv

set_option autoImplicit false

open JG.FitsW

/-! ## Bounds -/

section
variable {α : Type} [CommRing α] [LinearOrder α] [IsStrictOrderedRing α]

/-- The points inside bounds of galsim. -/
def GBounds.Has : GBounds α → Pos α → Prop
  | .undef, _ => False
  | .rect x x' y y', p => (x ≤ p.x ∧ p.x ≤ x') ∧ y ≤ p.y ∧ p.y ≤ y'

/-- What the constructors of galsim guarantee. -/
def GBounds.Ordered : GBounds α → Prop
  | .undef => True
  | .rect x x' y y' => x ≤ x' ∧ y ≤ y'

theorem boundsFrom_rect (c : Cls α) {x x' y y' : α} (hx : x ≤ x') (hy : y ≤ y') :
    (boundsFrom c (.rect x x' y y')).defined = true ∧
      (boundsFrom c (.rect x x' y y')).xmin = x ∧ (boundsFrom c (.rect x x' y y')).ymin = y ∧
      (boundsFrom c (.rect x x' y y')).xmax c = x' ∧ (boundsFrom c (.rect x x' y y')).ymax c = y' ∧
      (boundsFrom c (.rect x x' y y')).deltax = x' - x + c.ext ∧
      (boundsFrom c (.rect x x' y y')).deltay = y' - y + c.ext := by
  have h1 : ¬ (x' - x + c.ext < c.ext) := by linarith
  have h2 : ¬ (y' - y + c.ext < c.ext) := by linarith
  have h3 : x + (x' - x + c.ext) - c.ext = x' := by ring
  have h4 : y + (y' - y + c.ext) - c.ext = y' := by ring
  simp [boundsFrom, Bounds.mk4, Bounds.finish, h1, h2, Bounds.xmax, Bounds.ymax, h3, h4]

/-- C100: bounds made from bounds of galsim include the same points. -/
theorem C100_bounds_from (c : Cls α) {g : GBounds α} (hg : g.Ordered) (p : Pos α) :
    (boundsFrom c g).includesP c p = true ↔ g.Has p := by
  cases g with
  | undef => simp [boundsFrom, Bounds.empty, Bounds.finish, Bounds.includesP, GBounds.Has]
  | rect x x' y y' =>
    obtain ⟨h1, h2, h3, h4, h5, -, -⟩ := boundsFrom_rect c hg.1 hg.2
    simp only [Bounds.includesP, h1, h2, h3, h4, h5, GBounds.Has, Bool.true_and, Bool.and_eq_true,
      decide_eq_true_eq]
    tauto

omit [IsStrictOrderedRing α] in
/-- C100: bounds of galsim made from any bounds include the same points, also when the bounds are
marked as defined although they are not in order (which happens with traced numbers). -/
theorem C100_bounds_to (c : Cls α) (b : Bounds α) (p : Pos α) :
    (boundsTo c b).Has p ↔ b.includesP c p = true := by
  unfold boundsTo
  by_cases hd : b.defined
  · simp only [hd, if_true, Bounds.includesP, Bool.true_and, Bool.and_eq_true, decide_eq_true_eq,
      GBounds.make]
    by_cases ho : b.xmin ≤ b.xmax c ∧ b.ymin ≤ b.ymax c
    · rw [if_pos ho]; simp only [GBounds.Has]; tauto
    · rw [if_neg ho]
      simp only [GBounds.Has, false_iff]
      rintro ⟨⟨⟨h1, h2⟩, h3⟩, h4⟩
      exact ho ⟨h1.trans h3, h2.trans h4⟩
  · simp [hd, Bounds.includesP, GBounds.Has]

/-- C100: there and back gives the same bounds of galsim. -/
theorem C100_bounds_round (c : Cls α) {g : GBounds α} (hg : g.Ordered) :
    boundsTo c (boundsFrom c g) = g := by
  cases g with
  | undef => simp [boundsTo, boundsFrom, Bounds.empty, Bounds.finish]
  | rect x x' y y' =>
    obtain ⟨h1, h2, h3, h4, h5, -, -⟩ := boundsFrom_rect c hg.1 hg.2
    rw [boundsTo, if_pos h1, h2, h3, h4, h5, GBounds.make]
    exact if_pos hg

/-- C100: and starting from bounds of jax_galsim, the same points are included in the end. -/
theorem C100_bounds_back (c : Cls α) (b : Bounds α) (p : Pos α) :
    (boundsFrom c (boundsTo c b)).includesP c p = true ↔ b.includesP c p = true := by
  rw [C100_bounds_from c ?_ p, C100_bounds_to]
  unfold boundsTo GBounds.make
  by_cases hd : b.defined <;> by_cases ho : b.xmin ≤ b.xmax c ∧ b.ymin ≤ b.ymax c <;>
    simp [hd, ho, GBounds.Ordered]

end

example : (boundsFrom clsI (.rect 3 7 (-2) 5)).includesP clsI ⟨7, -2⟩ = true :=
  (C100_bounds_from clsI (g := .rect 3 7 (-2) 5) ⟨by norm_num, by norm_num⟩ _).2
    ⟨⟨by norm_num, by norm_num⟩, by norm_num, by norm_num⟩

example : boundsTo clsI (boundsFrom clsI (.rect 3 7 (-2) 5)) = .rect 3 7 (-2) 5 :=
  C100_bounds_round clsI ⟨by norm_num, by norm_num⟩

/-- Traced bounds out of order, marked as defined: no point is inside. -/
example (p : Pos ℤ) : ¬ (boundsTo clsI ⟨3, 2, -4, 5, false, false, true⟩).Has p := by
  rw [C100_bounds_to]
  simp only [Bounds.includesP, Bounds.xmax, clsI, Bool.and_eq_true, decide_eq_true_eq]
  rintro ⟨⟨⟨⟨-, h1⟩, -⟩, h2⟩, -⟩
  have h3 : (3 : ℤ) ≤ 3 + -4 - 1 := le_trans h1 (of_decide_eq_true h2)
  omega

/-! ## Positions, shears, parameters, coordinates -/

/-- C100: positions keep their class and their coordinates, both ways. -/
theorem C100_position (g : GPosition) (p : Position) :
    positionTo (positionFrom g) = g ∧ positionFrom (positionTo p) = p ∧
      ((positionFrom g).val = match g with
        | .I x y => ((x : ℝ), (y : ℝ))
        | .D x y => (x, y)) := by
  refine ⟨?_, ?_, ?_⟩
  · cases g <;> rfl
  · cases p <;> rfl
  · cases g <;> rfl

example : (positionFrom (.I 3 (-4))).val = (3, -4) := by simp [positionFrom, Position.val]

theorem norm_le_one_iff (a b : ℝ) : ‖(⟨a, b⟩ : ℂ)‖ > 1 ↔ a ^ 2 + b ^ 2 > 1 := by
  have h : ‖(⟨a, b⟩ : ℂ)‖ ^ 2 = a ^ 2 + b ^ 2 := by
    rw [Complex.sq_norm, Complex.normSq_mk]; ring
  have h0 := norm_nonneg (⟨a, b⟩ : ℂ)
  constructor <;> intro h1 <;> nlinarith

/-- C100: a shear of galsim has a counterpart with the same components, and comes back. -/
theorem C100_shear_from (s : GShear) (hs : s.g1 ^ 2 + s.g2 ^ 2 ≤ 1) :
    ∃ t, shearFrom s = some t ∧ t.g1 = s.g1 ∧ t.g2 = s.g2 ∧ shearTo t = some s := by
  refine ⟨⟨⟨s.g1, s.g2⟩⟩, ?_, rfl, rfl, ?_⟩
  · rw [shearFrom, Shear.ofG, if_neg]
    rw [norm_le_one_iff]; linarith
  · exact if_neg (not_lt.2 hs)

/-- C100: a shear of jax_galsim converts exactly if it is at most one, and comes back. -/
theorem C100_shear_to (t : Shear) :
    (‖t.g‖ ≤ 1 → ∃ s, shearTo t = some s ∧ s.g1 = t.g.re ∧ s.g2 = t.g.im ∧ shearFrom s = some t) ∧
      (1 < ‖t.g‖ → shearTo t = none) := by
  obtain ⟨⟨a, b⟩⟩ := t
  constructor
  · intro h
    have h1 : ¬ (a ^ 2 + b ^ 2 > 1) := by rw [← norm_le_one_iff]; exact not_lt.2 h
    refine ⟨⟨a, b⟩, ?_, rfl, rfl, ?_⟩
    · simp [shearTo, GShear.make, Shear.g1, Shear.g2, not_lt.1 h1]
    · rw [shearFrom, Shear.ofG, if_neg (not_lt.2 h)]
  · intro h
    have h1 : a ^ 2 + b ^ 2 > 1 := (norm_le_one_iff a b).1 h
    simp [shearTo, GShear.make, Shear.g1, Shear.g2, h1]

example : ∃ t, shearFrom ⟨0.3, -0.4⟩ = some t ∧ t.g1 = 0.3 ∧ t.g2 = -0.4 ∧
    shearTo t = some ⟨0.3, -0.4⟩ := C100_shear_from _ (by norm_num)

/-- C100: every field of a `GSParams` arrives under its own name, both ways. -/
theorem C100_gsparams (g : GGSParams) (p : GSP) :
    gspTo (gspFrom g) = g ∧ gspFrom (gspTo p) = p := by
  constructor
  · cases g; rfl
  · funext f; cases f <;> rfl

example (g : GGSParams) : gspFrom g .shoot_accuracy = g.shoot_accuracy ∧
    gspFrom g .maxk_threshold = g.maxk_threshold := ⟨rfl, rfl⟩

/-- C100: celestial coordinates. -/
theorem C100_coord (g : GCoord) (hg : |g.dec| ≤ Real.pi / 2) (c : Coord) :
    (coordFrom g).ra = g.ra ∧ (coordFrom g).dec = g.dec ∧ coordTo (coordFrom g) = some g ∧
      (∀ h, coordTo c = some h → coordFrom h = c) ∧
      (coordTo c = none ↔ Real.pi / 2 < |c.dec|) := by
  have key : ∀ d : ℝ, (d < -Real.pi / 2 ∨ Real.pi / 2 < d) ↔ Real.pi / 2 < |d| := by
    intro d
    rw [lt_abs]
    constructor
    · rintro (h | h)
      · right; linarith
      · left; exact h
    · rintro (h | h)
      · right; exact h
      · left; linarith
  refine ⟨rfl, rfl, ?_, ?_, ?_⟩
  · rw [coordTo, GCoord.make, if_neg]
    · rfl
    · rw [key]; exact not_lt.2 hg
  · intro h hh
    rw [coordTo, GCoord.make] at hh
    split_ifs at hh
    cases hh; rfl
  · rw [coordTo, GCoord.make, ← key]
    split_ifs with h <;> simp [h]

example : coordTo (coordFrom ⟨1, -1⟩) = some ⟨1, -1⟩ :=
  (C100_coord ⟨1, -1⟩ (by rw [abs_neg, abs_one]; linarith [Real.two_le_pi]) ⟨0, 0⟩).2.2.1

/-! ## Coordinate systems -/

/-- What the constructors of galsim guarantee. -/
def GWCS.Valid : GWCS → Prop
  | .shear _ s | .offsetShear _ s _ _ => s.g1 ^ 2 + s.g2 ^ 2 ≤ 1
  | .fits f => |f.center.dec| ≤ Real.pi / 2 ∧ (WType.ofSuffix f.wcs_type).isSome
  | _ => True

/-- The class of a coordinate system of galsim. -/
def GWCS.className : GWCS → String
  | .pix _ => "PixelScale"
  | .shear _ _ => "ShearWCS"
  | .jac _ _ _ _ => "JacobianWCS"
  | .offset _ _ _ => "OffsetWCS"
  | .offsetShear _ _ _ _ => "OffsetShearWCS"
  | .affine _ _ _ _ _ _ => "AffineTransform"
  | .fits _ => "GSFitsWCS"

theorem shearFromE_ok (s : GShear) (hs : s.g1 ^ 2 + s.g2 ^ 2 ≤ 1) :
    ∃ t, shearFromE s = .ok t ∧ t.g1 = s.g1 ∧ t.g2 = s.g2 ∧ shearToE t = .ok s := by
  obtain ⟨t, h1, h2, h3, h4⟩ := C100_shear_from s hs
  exact ⟨t, by rw [shearFromE, h1], h2, h3, by rw [shearToE, h4]⟩

theorem suffix_ofSuffix (n : String) (t : WType) (h : WType.ofSuffix n = some t) : t.suffix = n := by
  unfold WType.ofSuffix at h
  split at h <;> first | (cases h; rfl) | exact absurd h (by simp)

theorem fitsFrom_ok (f : GFits) (hd : |f.center.dec| ≤ Real.pi / 2)
    (ht : (WType.ofSuffix f.wcs_type).isSome) :
    ∃ g, fitsFrom f = .ok g ∧ g.crpix = f.crpix ∧ g.cd = f.cd ∧ g.center = coordFrom f.center ∧
      g.pv = f.pv ∧ g.ab = f.ab ∧ g.abp = f.abp ∧ g.wtype.suffix = f.wcs_type := by
  obtain ⟨t, ht⟩ := Option.isSome_iff_exists.1 ht
  have hm : Coord.mk? f.center.ra f.center.dec = some ⟨f.center.ra, f.center.dec⟩ := by
    rw [Coord.mk?, if_neg]
    rintro (h | h)
    · have := (abs_le.1 hd).1; linarith
    · have := (abs_le.1 hd).2; linarith
  refine ⟨⟨t, f.crpix, f.cd, ⟨f.center.ra, f.center.dec⟩, f.pv, f.ab, f.abp⟩, ?_, rfl, rfl, rfl, rfl,
    rfl, rfl, suffix_ofSuffix _ _ ht⟩
  rw [fitsFrom, ht, hm]

/-- C100: a coordinate system of galsim converts to one of the same class, and comes back as it
was. -/
theorem C100_wcs_round (g : GWCS) (hg : g.Valid) :
    ∃ j, wcsFrom (.gal g.className (some g)) = .ok (some j) ∧ j.name = g.className ∧
      wcsTo j = .ok g := by
  have known : g.className ∈ knownNames := by cases g <;> simp [GWCS.className, knownNames]
  have step : ∀ j, kindFrom g = .ok j →
      wcsFrom (.gal g.className (some g)) = .ok (some j) := by
    intro j hj
    simp only [wcsFrom, not_not.2 known, if_false, hj]
    rfl
  cases g with
  | pix c => exact ⟨_, step _ rfl, rfl, rfl⟩
  | shear c s =>
    obtain ⟨t, h1, -, -, h4⟩ := shearFromE_ok s hg
    refine ⟨.plane (.loc (.shear c t)), step _ (by rw [kindFrom, h1]; rfl), rfl, ?_⟩
    rw [wcsTo, h4]; rfl
  | jac a b c d => exact ⟨_, step _ rfl, rfl, rfl⟩
  | offset c o w => exact ⟨_, step _ rfl, rfl, rfl⟩
  | offsetShear c s o w =>
    obtain ⟨t, h1, -, -, h4⟩ := shearFromE_ok s hg
    refine ⟨.plane (.off (.shear c t) o w), step _ (by rw [kindFrom, h1]; rfl), rfl, ?_⟩
    rw [wcsTo, h4]; rfl
  | affine a b c d o w => exact ⟨_, step _ rfl, rfl, rfl⟩
  | fits f =>
    obtain ⟨t, h1, h2, h3, h4, h5, h6, h7, h8⟩ := fitsFrom_ok f hg.1 hg.2
    refine ⟨.fits t, step _ (by rw [kindFrom, h1]; rfl), rfl, ?_⟩
    have hc := (C100_coord f.center hg.1 ⟨0, 0⟩).2.2.1
    rw [wcsTo, h4, hc]
    simp only [h2, h3, h5, h6, h7, h8]

example : ∃ j, wcsFrom (.gal "OffsetShearWCS" (some (.offsetShear 0.2 ⟨0.1, 0.3⟩ (3, 4) (5, 6)))) =
    .ok (some j) ∧ j.name = "OffsetShearWCS" ∧
      wcsTo j = .ok (.offsetShear 0.2 ⟨0.1, 0.3⟩ (3, 4) (5, 6)) :=
  C100_wcs_round (.offsetShear 0.2 ⟨0.1, 0.3⟩ (3, 4) (5, 6)) (by norm_num [GWCS.Valid])

/-- C100: whatever converts to galsim comes back as it was. -/
theorem C100_wcs_back (j : JWCS) (g : GWCS) (h : wcsTo j = .ok g) : kindFrom g = .ok j := by
  have sh : ∀ (t : Shear) (s : GShear), shearToE t = .ok s → shearFromE s = .ok t := by
    intro t s hs
    rw [shearToE] at hs
    by_cases hn : ‖t.g‖ ≤ 1
    · obtain ⟨s', h1, -, -, h4⟩ := (C100_shear_to t).1 hn
      rw [h1] at hs
      cases hs
      rw [shearFromE, h4]
    · rw [(C100_shear_to t).2 (not_le.1 hn)] at hs
      cases hs
  match j with
  | .plane (.loc (.pix c)) => cases h; rfl
  | .plane (.loc (.jac J)) => cases h; rfl
  | .plane (.off (.pix c) o w) => cases h; rfl
  | .plane (.off (.jac J) o w) => cases h; rfl
  | .plane (.loc (.shear c t)) =>
    rw [wcsTo] at h
    cases hs : shearToE t with
    | error e => rw [hs] at h; cases h
    | ok s =>
      rw [hs] at h; cases h
      rw [kindFrom, sh t s hs]; rfl
  | .plane (.off (.shear c t) o w) =>
    rw [wcsTo] at h
    cases hs : shearToE t with
    | error e => rw [hs] at h; cases h
    | ok s =>
      rw [hs] at h; cases h
      rw [kindFrom, sh t s hs]; rfl
  | .fits f =>
    rw [wcsTo] at h
    cases hc : coordTo f.center with
    | none => rw [hc] at h; cases h
    | some c =>
      rw [hc] at h; cases h
      have hd : ¬ (Real.pi / 2 < |f.center.dec|) := by
        rw [← (C100_coord ⟨0, 0⟩ (by simpa using Real.pi_div_two_pos.le) f.center).2.2.2.2, hc]; simp
      have he := (C100_coord ⟨0, 0⟩ (by simpa using Real.pi_div_two_pos.le) f.center).2.2.2.1 c hc
      have hcd : coordFrom c = f.center := he
      have h1 : c.ra = f.center.ra := by rw [← hcd]; rfl
      have h2 : c.dec = f.center.dec := by rw [← hcd]; rfl
      have ht : WType.ofSuffix f.wtype.suffix = some f.wtype := by
        cases hw : f.wtype <;> rfl
      obtain ⟨g, e1, e2, e3, e4, e5, e6, e7, e8⟩ := fitsFrom_ok
        ⟨f.wtype.suffix, f.crpix, f.cd, c, f.pv, f.ab, f.abp⟩ (by rw [h2]; exact not_lt.1 hd)
        (by simp [ht])
      rw [kindFrom, e1]
      have hw : g.wtype = f.wtype := by
        have : WType.ofSuffix g.wtype.suffix = some g.wtype := by cases hw : g.wtype <;> rfl
        rw [e8, ht] at this
        exact (Option.some.inj this).symm
      have : g = f := by
        cases g; cases f
        simp only at *
        rw [hcd] at e4
        simp [e2, e3, e4, e5, e6, e7, hw]
      rw [this]; rfl

example : kindFrom (.affine 1 2 3 4 (5, 6) (7, 8)) =
    .ok (.plane (.off (.jac ⟨1, 2, 3, 4⟩) (5, 6) (7, 8))) := C100_wcs_back _ _ rfl

/-- The map of a plane coordinate system of galsim, as documented there: for the shear systems, the
point which the shear takes to the scaled pixel position. -/
def GWCS.Maps : GWCS → ℝ × ℝ → ℝ × ℝ → Prop
  | .pix c, p, q => q = (c * p.1, c * p.2)
  | .shear c s, p, q => shears s q (c * p.1, c * p.2)
  | .jac a b c d, p, q => q = (a * p.1 + b * p.2, c * p.1 + d * p.2)
  | .offset c o w, p, q => q = (c * (p.1 - o.1) + w.1, c * (p.2 - o.2) + w.2)
  | .offsetShear c s o w, p, q =>
    shears s (q.1 - w.1, q.2 - w.2) (c * (p.1 - o.1), c * (p.2 - o.2))
  | .affine a b c d o w, p, q =>
    q = (a * (p.1 - o.1) + b * (p.2 - o.2) + w.1, c * (p.1 - o.1) + d * (p.2 - o.2) + w.2)
  | .fits _, _, _ => False
where
  /-- The area preserving shear with components `s` takes `q` to `p`. -/
  shears (s : GShear) (q p : ℝ × ℝ) : Prop :=
    (1 + s.g1) * q.1 + s.g2 * q.2 = Real.sqrt (1 - (s.g1 ^ 2 + s.g2 ^ 2)) * p.1 ∧
      s.g2 * q.1 + (1 - s.g1) * q.2 = Real.sqrt (1 - (s.g1 ^ 2 + s.g2 ^ 2)) * p.2

/-- Shears below one. -/
def GWCS.Regular : GWCS → Prop
  | .shear _ s | .offsetShear _ s _ _ => s.g1 ^ 2 + s.g2 ^ 2 < 1
  | .fits _ => False
  | _ => True

theorem shears_uv (c : ℝ) (s : GShear) (t : Shear) (h1 : t.g1 = s.g1) (h2 : t.g2 = s.g2)
    (hs : s.g1 ^ 2 + s.g2 ^ 2 < 1) (p : ℝ × ℝ) :
    GWCS.Maps.shears s ((LocalWCS.shear c t).uv p) (c * p.1, c * p.2) := by
  have hpos : 0 < 1 - (s.g1 ^ 2 + s.g2 ^ 2) := by linarith
  obtain ⟨r, hr⟩ : ∃ r, r = Real.sqrt (1 - (s.g1 ^ 2 + s.g2 ^ 2)) := ⟨_, rfl⟩
  have hr0 : r ≠ 0 := by rw [hr]; exact (Real.sqrt_pos.2 hpos).ne'
  have hr2 : r * r = 1 - (s.g1 ^ 2 + s.g2 ^ 2) := by rw [hr]; exact Real.mul_self_sqrt hpos.le
  simp only [GWCS.Maps.shears, LocalWCS.uv, LocalWCS.gfactor, h1, h2, ← hr]
  constructor
  · field_simp
    linear_combination (-(c * p.1)) * hr2
  · field_simp
    linear_combination (-(c * p.2)) * hr2

/-- C100: the converted coordinate system has the map of the original. -/
theorem C100_wcs_map (g : GWCS) (hg : g.Regular) :
    ∃ w, kindFrom g = .ok (.plane w) ∧ ∀ p, g.Maps p (w.toWorld p) := by
  cases g with
  | pix c => exact ⟨_, rfl, fun p => by simp [GWCS.Maps, WCS.toWorld, LocalWCS.uv, mul_comm]⟩
  | jac a b c d => exact ⟨_, rfl, fun p => by simp [GWCS.Maps, WCS.toWorld, LocalWCS.uv]⟩
  | offset c o w =>
    exact ⟨_, rfl, fun p => by
      ext <;> simp [WCS.toWorld, LocalWCS.uv, mul_comm]⟩
  | affine a b c d o w =>
    exact ⟨_, rfl, fun p => by ext <;> simp [WCS.toWorld, LocalWCS.uv]⟩
  | shear c s =>
    obtain ⟨t, h1, h2, h3, -⟩ := shearFromE_ok s (le_of_lt hg)
    refine ⟨.loc (.shear c t), by rw [kindFrom, h1]; rfl, fun p => ?_⟩
    have := shears_uv c s t h2 h3 hg p
    simpa [GWCS.Maps, WCS.toWorld] using this
  | offsetShear c s o w =>
    obtain ⟨t, h1, h2, h3, -⟩ := shearFromE_ok s (le_of_lt hg)
    refine ⟨.off (.shear c t) o w, by rw [kindFrom, h1]; rfl, fun p => ?_⟩
    have := shears_uv c s t h2 h3 hg (p - o)
    simpa [GWCS.Maps, WCS.toWorld] using this
  | fits f => exact absurd hg id

example : ∃ w, kindFrom (.offset 0.5 (10, 20) (1, 2)) = .ok (.plane w) ∧ w.toWorld (12, 22) = (2, 3) := by
  obtain ⟨w, h1, h2⟩ := C100_wcs_map (.offset 0.5 (10, 20) (1, 2)) trivial
  refine ⟨w, h1, ?_⟩
  have := h2 (12, 22)
  rw [GWCS.Maps] at this
  rw [this]; norm_num

/-- C100: arguments which are no coordinate systems are refused, and so are the classes of galsim
without a counterpart. -/
theorem C100_refused (name : String) (w : Option GWCS) :
    wcsFrom .other = .error .typeError ∧
      (name ∉ knownNames → wcsFrom (.gal name w) = .error .notImplemented) :=
  ⟨rfl, fun h => by cases w <;> exact if_pos h⟩

example : wcsFrom (.gal "UVFunction" none) = .error .notImplemented :=
  (C100_refused "UVFunction" none).2 (by simp [knownNames])

/-- Disagreement: a galsim object of a class of its own that has a known name but is none of the seven
classes (such as a subclass of a base class called `UniformWCS`) gives `None` instead of an exception. -/
theorem C100_counterexample_unmatched (name : String) :
    wcsFrom (.gal name none) = .ok none ↔ name ∈ knownNames := by
  by_cases h : name ∈ knownNames <;> simp [wcsFrom, h]

/-- Disagreement: a coordinate system of jax_galsim itself is neither refused nor returned by
`from_galsim`; the result is `None`, because its class derives from `galsim.BaseWCS`, its name is
known, and no `isinstance` test matches. -/
theorem C100_counterexample_none (j : JWCS) : wcsFrom (.jax j) = .ok none := by
  have : j.name ∈ knownNames := by
    match j with
    | .plane (.loc (.pix _)) => simp [JWCS.name, knownNames]
    | .plane (.loc (.shear _ _)) => simp [JWCS.name, knownNames]
    | .plane (.loc (.jac _)) => simp [JWCS.name, knownNames]
    | .plane (.off (.pix _) _ _) => simp [JWCS.name, knownNames]
    | .plane (.off (.shear _ _) _ _) => simp [JWCS.name, knownNames]
    | .plane (.off (.jac _) _ _) => simp [JWCS.name, knownNames]
    | .fits _ => simp [JWCS.name, knownNames]
  rw [wcsFrom, if_neg (not_not.2 this)]

/-! ## Images -/

/-- What the constructors of galsim guarantee about an image with defined bounds: the array has the
shape of the bounds, and an integer image has integers. -/
def GImage.Valid (g : GImage) : Prop :=
  (match g.bounds with
    | .undef => True
    | .rect x x' y y' => x ≤ x' ∧ y ≤ y' ∧ (g.arr.w : ℤ) = x' - x + 1 ∧ (g.arr.h : ℤ) = y' - y + 1) ∧
  (match g.wcs with
    | none => True
    | some w => w.Valid) ∧
  (g.isInt = true → ∀ i j, ∃ n : ℤ, g.arr.at' i j = n)

/-- The value of the pixel of a galsim image at a position. -/
def GImage.Pixel (g : GImage) (p : Pos ℤ) (v : ℝ) : Prop :=
  match g.bounds with
    | .undef => False
    | .rect x x' y y' => (x ≤ p.x ∧ p.x ≤ x') ∧ (y ≤ p.y ∧ p.y ≤ y') ∧
      ∃ i j : ℕ, p.y = y + i ∧ p.x = x + j ∧ v = g.arr.at' i j

theorem roundEven_int (n : ℤ) : roundEven (n : ℝ) = n := by
  simp [roundEven]

theorem optWcs_ok (o : Option GWCS) (h : match o with | none => True | some w => w.Valid) :
    ∃ w, optWcsFrom o = .ok w ∧ optWcsTo w = .ok o := by
  cases o with
  | none => exact ⟨none, rfl, rfl⟩
  | some g =>
    obtain ⟨j, h1, -, h3⟩ := C100_wcs_round g h
    have hk : kindFrom g = .ok j := C100_wcs_back j g h3
    exact ⟨some j, by rw [optWcsFrom, hk], by rw [optWcsTo, h3]⟩

theorem safeCast_eq (g : GImage) (hg : g.Valid) (i j : ℕ) :
    safeCast g.isInt (g.arr.at' i j) = g.arr.at' i j := by
  unfold safeCast
  split_ifs with h
  · obtain ⟨n, hn⟩ := hg.2.2 h i j
    rw [hn, roundEven_int]
  · rfl

/-- What becomes of an image with defined bounds. -/
theorem imageFrom_ok (g : GImage) (hg : g.Valid) {x x' y y' : ℤ} (hb : g.bounds = .rect x x' y y') :
    ∃ w, optWcsFrom g.wcs = .ok w ∧ optWcsTo w = .ok g.wcs ∧
      imageFrom g = .ok ⟨⟨g.arr, boundsFrom clsI (.rect x x' y y'), some false, g.isInt⟩, w,
        g.header⟩ := by
  obtain ⟨w, hw, hw2⟩ := optWcs_ok g.wcs hg.2.1
  refine ⟨w, hw, hw2, ?_⟩
  have hv := hg.1
  rw [hb] at hv
  obtain ⟨hx, hy, hw', hh'⟩ := hv
  obtain ⟨h1, h2, h3, -, -, h6, h7⟩ := boundsFrom_rect clsI hx hy
  have ha : (g.arr.mapIdx fun _ _ v => safeCast g.isInt v) = g.arr := by
    unfold Arr.mapIdx
    cases hga : g.arr with
    | mk h w at' =>
      congr 1
      funext i j
      have := safeCast_eq g hg i j
      rwa [hga] at this
  have hne : ¬((boundsFrom clsI (.rect x x' y y')).deltax ≠ g.arr.w ∨
      (boundsFrom clsI (.rect x x' y y')).deltay ≠ g.arr.h) := by
    rw [h6, h7, hw', hh']; simp [clsI]
  have hmk : Bounds.mkDelta clsI ⟨(boundsFrom clsI (.rect x x' y y')).xmin,
      (boundsFrom clsI (.rect x x' y y')).posPy⟩ ⟨(g.arr.w : ℤ), true⟩
      ⟨(boundsFrom clsI (.rect x x' y y')).ymin, (boundsFrom clsI (.rect x x' y y')).posPy⟩
      ⟨(g.arr.h : ℤ), true⟩ = boundsFrom clsI (.rect x x' y y') := by
    rw [h2, h3, hw', hh']
    simp [boundsFrom, Bounds.mk4, Bounds.mkDelta, Bounds.finish, clsI]
  rw [imageFrom, hw, hb]
  simp only [Image.make, ha, Image.ofArrayBounds, h1, if_true, if_neg hne, hmk]

/-- C100: an image of galsim keeps its pixels, at their positions, and its coordinate system and
header. -/
theorem C100_image (g : GImage) (hg : g.Valid) (hd : g.bounds ≠ .undef) :
    ∃ j, imageFrom g = .ok j ∧ j.header = g.header ∧ j.im.isInt = g.isInt ∧
      (∃ w, optWcsFrom g.wcs = .ok w ∧ j.wcs = w) ∧
      ∀ p v, j.im.getValue p = .ok v ↔ g.Pixel p v := by
  cases hb : g.bounds with
  | undef => exact absurd hb hd
  | rect x x' y y' =>
    obtain ⟨w, hw, -, hi⟩ := imageFrom_ok g hg hb
    refine ⟨_, hi, rfl, rfl, ⟨w, hw, rfl⟩, fun p v => ?_⟩
    have hv := hg.1
    rw [hb] at hv
    obtain ⟨hx, hy, hw', hh'⟩ := hv
    obtain ⟨h1, h2, h3, -, -, -, -⟩ := boundsFrom_rect clsI hx hy
    have hin := C100_bounds_from clsI (g := .rect x x' y y') ⟨hx, hy⟩ p
    simp only [Image.getValue, h1, Bool.not_true, Bool.false_eq_true, if_false, h2, h3]
    rw [GImage.Pixel, hb]
    simp only
    by_cases hp : (boundsFrom clsI (.rect x x' y y')).includesP clsI p = true
    · obtain ⟨⟨a1, a2⟩, a3, a4⟩ := hin.1 hp
      simp only [hp, Bool.not_true, Bool.false_eq_true, if_false, Except.ok.injEq]
      have e1 : p.y - y = ((p.y - y).toNat : ℤ) := by omega
      have e2 : p.x - x = ((p.x - x).toNat : ℤ) := by omega
      have hget : g.arr.get (p.y - y) (p.x - x) = g.arr.at' (p.y - y).toNat (p.x - x).toNat := by
        have n1 : normIdx (p.y - y) g.arr.h = p.y - y := by rw [normIdx, if_neg (by omega)]
        have n2 : normIdx (p.x - x) g.arr.w = p.x - x := by rw [normIdx, if_neg (by omega)]
        unfold Arr.get
        simp only [n1, n2]
        congr 1 <;> omega
      rw [hget]
      constructor
      · intro h
        exact ⟨⟨a1, a2⟩, ⟨a3, a4⟩, _, _, by omega, by omega, h.symm⟩
      · rintro ⟨-, -, i, j, hi, hj, rfl⟩
        rw [show (p.y - y).toNat = i by omega, show (p.x - x).toNat = j by omega]
    · simp only [Bool.not_eq_true] at hp
      simp only [hp, Bool.not_false, if_true, reduceCtorEq, false_iff]
      rintro ⟨ha, hb', -⟩
      have := hin.2 ⟨ha, hb'⟩
      rw [hp] at this
      exact absurd this (by simp)

/-- C100: an image of galsim with undefined bounds becomes an image with undefined bounds: no pixel
can be read. -/
theorem C100_image_undefined (g : GImage) (hg : g.Valid) (hd : g.bounds = .undef) (p : Pos ℤ) :
    ∃ j, imageFrom g = .ok j ∧ j.im.getValue p = .error .undefinedBounds := by
  obtain ⟨w, hw, -⟩ := optWcs_ok g.wcs hg.2.1
  refine ⟨⟨⟨⟨1, 1, fun _ _ => 0⟩, Bounds.empty clsI, some false, g.isInt⟩, w, g.header⟩, ?_, ?_⟩
  · rw [imageFrom, hw, hd]
    simp [Image.make, Image.ofArrayBounds, boundsFrom, Bounds.empty, Bounds.finish]
  · simp [Image.getValue, Bounds.empty, Bounds.finish]

/-- A test image: two by one pixels at (5, 7), constant, with a header. -/
def demo : GImage :=
  ⟨⟨1, 2, fun _ j => 3 + j⟩, .rect 5 6 7 7, some (.pix 0.2), some "EXPTIME", true, true⟩

theorem demo_valid : demo.Valid := by
  refine ⟨?_, ?_, ?_⟩
  · simp [demo]
  · simp [demo, GWCS.Valid]
  · intro _ i j
    exact ⟨3 + j, by simp [demo]⟩

example : ∃ j, imageFrom demo = .ok j ∧ j.im.getValue ⟨6, 7⟩ = .ok 4 := by
  obtain ⟨j, h1, -, -, -, h5⟩ := C100_image demo demo_valid (by simp [demo])
  refine ⟨j, h1, (h5 _ _).2 ?_⟩
  rw [GImage.Pixel]
  refine ⟨⟨by norm_num, by norm_num⟩, ⟨by norm_num, by norm_num⟩, 0, 1, by norm_num, by norm_num, ?_⟩
  norm_num [demo]

/-- Full statement (false, see the counterexample): converting an image to jax_galsim and back gives
the same image.  Proved: it does apart from the header and from being constant. -/
theorem C100_image_round_partial (g : GImage) (hg : g.Valid) (hd : g.bounds ≠ .undef) :
    ∃ j, imageFrom g = .ok j ∧ imageTo j = .ok { g with header := none, isConst := false } := by
  cases hb : g.bounds with
  | undef => exact absurd hb hd
  | rect x x' y y' =>
    obtain ⟨w, -, hw, hi⟩ := imageFrom_ok g hg hb
    have hv := hg.1
    rw [hb] at hv
    refine ⟨_, hi, ?_⟩
    rw [imageTo, hw]
    simp only
    rw [C100_bounds_round clsI (g := .rect x x' y y') ⟨hv.1, hv.2.1⟩]

example : ∃ j, imageFrom demo = .ok j ∧
    imageTo j = .ok { demo with header := none, isConst := false } :=
  C100_image_round_partial demo demo_valid (by simp [demo])

/-- Disagreement: a constant image of galsim becomes an image which may be modified, and on the way
back to galsim the header is lost. -/
theorem C100_counterexample_image :
    demo.isConst = true ∧ demo.header = some "EXPTIME" ∧
      ∃ j k, imageFrom demo = .ok j ∧ j.im.isConst = some false ∧ j.header = some "EXPTIME" ∧
        imageTo j = .ok k ∧ k.header = none := by
  obtain ⟨w, -, -, hi⟩ := imageFrom_ok demo demo_valid (x := 5) (x' := 6) (y := 7) (y' := 7) rfl
  obtain ⟨j, h1, h2⟩ := C100_image_round_partial demo demo_valid (by simp [demo])
  refine ⟨rfl, rfl, j, _, h1, ?_, ?_, h2, rfl⟩
  · rw [hi] at h1; cases h1; rfl
  · rw [hi] at h1; cases h1; rfl

end JG.Conv
