import Verif.Model.FitsFactory
import Verif.Props.FitsWcsRound
import Verif.Props.WCSHeader

/-! C120: the function `FitsWCS` gives the coordinate system that the header describes. -/

namespace JG.FitsF

open JG.WCS

variable {G : Type}

/-- The map that the FITS linear keywords stand for: `CRVAL + CD (pixel - CRPIX)`. -/
def linearMap (cd11 cd12 cd21 cd22 x0 y0 u0 v0 : ℝ) (p : ℝ × ℝ) : ℝ × ℝ :=
  (u0 + cd11 * (p.1 - x0) + cd12 * (p.2 - y0), v0 + cd21 * (p.1 - x0) + cd22 * (p.2 - y0))

/-- A header is linear: it says so, or has `CDELT1` and no `CTYPE1` at all. -/
def IsLinear (h : Header) : Prop :=
  h "CTYPE1" = some (.str "LINEAR") ∨ (h "CTYPE1" = none ∧ (h "CDELT1").isSome)

theorem ofHeader_linear (gs : Header → Option G) (s : Bool) (h : Header) (hl : IsLinear h) :
    ∃ w, ofHeader gs s h = .uniform w false ∧ ∀ p, w.toWorld p = (readAffine h).toWorld p := by
  have h1 : ¬((h "CTYPE1").isNone ∧ (h "CDELT1").isNone) := by
    rcases hl with e | ⟨e, e'⟩
    · simp [e]
    · intro hh; rw [Option.isNone_iff_eq_none] at hh
      have := hh.2
      rw [Option.isNone_iff_eq_none] at this
      simp [this] at e'
  have h2 : (h "CTYPE1").getD (.str "LINEAR") = .str "LINEAR" := by
    rcases hl with e | ⟨e, _⟩ <;> simp [e]
  unfold ofHeader
  rw [if_neg h1, if_pos h2]
  refine ⟨_, rfl, fun p => ?_⟩
  exact FitsW.C75_simplify _ _ _ p

/-- C120: the call raises exactly if a file and a header are both given, neither is given, or the file cannot be read. -/
theorem C120_args (gs : Header → Option G) (read : String → Option Header) (f : Option String) (h : Option Header)
    (s : Bool) :
    (∃ r, fitsWCS gs read f h s = .ok r) ↔
      (∃ h', f = none ∧ h = some h') ∨ (∃ n h', f = some n ∧ h = none ∧ read n = some h') := by
  rcases f with _ | f <;> rcases h with _ | h
  · simp [fitsWCS]
  · simp [fitsWCS]
  · unfold fitsWCS
    cases hr : read f <;> simp [hr]
  · simp [fitsWCS]

/-- C120: naming a file is the same as giving the header that is in the file. -/
theorem C120_file (gs : Header → Option G) (read : String → Option Header) (n : String) (h : Header) (s : Bool)
    (hr : read n = some h) : fitsWCS gs read (some n) none s = fitsWCS gs read none (some h) s := by
  simp [fitsWCS, hr]

/-- C120: a linear header with a `CD` matrix gives, without a warning, a system with the map that the keywords stand
for, whatever class is chosen for it. -/
theorem C120_linear_cd (gs : Header → Option G) (read : String → Option Header) (s : Bool) (h : Header)
    (hl : IsLinear h) (a b c d x0 y0 u0 v0 : ℝ)
    (ha : h "CD1_1" = some (.num a)) (hb : h "CD1_2" = some (.num b)) (hc : h "CD2_1" = some (.num c))
    (hd : h "CD2_2" = some (.num d)) (hx : h "CRPIX1" = some (.num x0)) (hy : h "CRPIX2" = some (.num y0))
    (hu : h "CRVAL1" = some (.num u0)) (hv : h "CRVAL2" = some (.num v0)) :
    ∃ w, fitsWCS gs read none (some h) s = .ok (.uniform w false) ∧
      ∀ p, w.toWorld p = linearMap a b c d x0 y0 u0 v0 p := by
  obtain ⟨w, e, hw⟩ := ofHeader_linear gs s h hl
  refine ⟨w, by simp [fitsWCS, e], fun p => ?_⟩
  rw [hw]
  simp only [readAffine, Header.getNum, Header.num, ha, hb, hc, hd, hx, hy, hu, hv, Option.isSome_some, if_true,
    Option.getD_some, WCS.toWorld, LocalWCS.uv, linearMap]
  ext <;> simp <;> ring

/-- C120: a linear header with `CDELT` and neither a `CD` nor a `PC` matrix gives the diagonal map; missing `CRPIX` and
`CRVAL` are 0. -/
theorem C120_linear_cdelt (gs : Header → Option G) (read : String → Option Header) (s : Bool) (h : Header)
    (hl : IsLinear h) (a d : ℝ) (hcd : h "CD1_1" = none)
    (ha : h "CDELT1" = some (.num a)) (hd : h "CDELT2" = some (.num d)) :
    ∃ w, fitsWCS gs read none (some h) s = .ok (.uniform w false) ∧
      ∀ p, w.toWorld p = linearMap a 0 0 d ((h.num "CRPIX1").getD 0) ((h.num "CRPIX2").getD 0)
        ((h.num "CRVAL1").getD 0) ((h.num "CRVAL2").getD 0) p := by
  obtain ⟨w, e, hw⟩ := ofHeader_linear gs s h hl
  refine ⟨w, by simp [fitsWCS, e], fun p => ?_⟩
  rw [hw]
  simp only [readAffine, Header.getNum, hcd, Option.isSome_none, Bool.false_eq_true, if_false,
    WCS.toWorld, LocalWCS.uv, linearMap]
  have e1 : h.num "CDELT1" = some a := by simp [Header.num, ha]
  have e2 : h.num "CDELT2" = some d := by simp [Header.num, hd]
  rw [e1, e2]
  ext <;> simp <;> ring

/-- C120: the header that any uniform system writes, also one of the two shear classes, is read by `FitsWCS` as a system
with the same map. -/
theorem C120_written (gs : Header → Option G) (read : String → Option Header) (s b : Bool) (h : Header) (w : WCS) :
    ∃ v, fitsWCS gs read none (some (w.writeHeader b h)) s = .ok (.uniform v false) ∧
      ∀ p, v.toWorld p = w.toWorld p := by
  have hl : IsLinear (w.writeHeader b h) := by
    left
    rcases w with (c | ⟨c, s⟩ | J) | ⟨(c | ⟨c, s⟩ | J), o, u⟩ <;>
      simp [WCS.writeHeader, WCS.writeAffine, writeLinear, Header.set]
  obtain ⟨v, e, hv⟩ := ofHeader_linear gs s _ hl
  exact ⟨v, by simp [fitsWCS, e], fun p => by rw [hv, C41_linear_keys]⟩

/-- C120: a header whose `CTYPE1` is not linear gives the celestial system if that can be read, and otherwise the linear
part with a warning that can be suppressed. -/
theorem C120_celestial (gs : Header → Option G) (read : String → Option Header) (s : Bool) (h : Header) (t : HVal)
    (ht : h "CTYPE1" = some t) (hn : t ≠ .str "LINEAR") :
    fitsWCS gs read none (some h) s = .ok (match gs h with
      | some g => .celestial g
      | none => .uniform (readAffine h) (!s)) := by
  have h1 : ¬((h "CTYPE1").isNone ∧ (h "CDELT1").isNone) := by simp [ht]
  have h2 : (h "CTYPE1").getD (.str "LINEAR") ≠ .str "LINEAR" := by simpa [ht] using hn
  unfold fitsWCS ofHeader
  simp only
  rw [if_neg h1, if_neg h2]
  cases gs h <;> rfl

/-- C120: unless warnings are suppressed, a call without a warning returns the celestial system that the header
describes or one with the map of the linear keywords of a linear header. -/
theorem C120_no_warning (gs : Header → Option G) (read : String → Option Header) (h : Header) (r : Res G)
    (hr : fitsWCS gs read none (some h) false = .ok r) (hw : ∀ w, r ≠ .uniform w true) :
    (∃ g, gs h = some g ∧ r = .celestial g) ∨
      (IsLinear h ∧ ∃ w, r = .uniform w false ∧ ∀ p, w.toWorld p = (readAffine h).toWorld p) := by
  have hr' : ofHeader gs false h = r := by simpa [fitsWCS] using hr
  by_cases hl : IsLinear h
  · obtain ⟨w, e, hp⟩ := ofHeader_linear gs false h hl
    exact Or.inr ⟨hl, w, by rw [← hr', e], hp⟩
  · left
    cases hc : h "CTYPE1" with
    | none =>
      have hd : h "CDELT1" = none := by
        by_contra hne
        exact hl (Or.inr ⟨hc, Option.isSome_iff_ne_none.2 hne⟩)
      refine absurd ?_ (hw (.loc (.pix 1)))
      rw [← hr']; unfold ofHeader
      rw [if_pos (by simp [hc, hd])]; rfl
    | some t =>
      have hn : t ≠ .str "LINEAR" := fun e => hl (Or.inl (by rw [hc, e]))
      have e := C120_celestial gs read false h t hc hn
      rw [hr] at e
      cases hg : gs h with
      | some g => rw [hg] at e; exact ⟨g, rfl, by simpa using e⟩
      | none =>
        rw [hg] at e
        exact absurd (by simpa using e) (hw (readAffine h))

/-- C120: a linear header without `GS_WCS` that says the lower left pixel is `(xmin, ymin)` is read as the map of its
keywords with the pixels counted from there instead of from (1, 1). -/
theorem C120_image_origin (gs : Header → Option G) (s b : Bool) (h : Header) (hl : IsLinear h) (x y : ℝ)
    (hx : h "GS_XMIN" = some (.num x)) (hy : h "GS_YMIN" = some (.num y))
    (hb : ∀ w k, ofHeader gs s h = .uniform w k → w.FlagOK b) :
    ∃ v, readUnnamed gs b s h = some (v, (x, y)) ∧
      ∀ p, v.toWorld p = (readAffine h).toWorld (p.1 - (x - 1), p.2 - (y - 1)) := by
  obtain ⟨w, e, hw⟩ := ofHeader_linear gs s h hl
  have ex : h.getNum "GS_XMIN" 1 = x := by simp [Header.getNum, Header.num, hx]
  have ey : h.getNum "GS_YMIN" 1 = y := by simp [Header.getNum, Header.num, hy]
  unfold readUnnamed
  simp only [fitsWCS, e, ex, ey]
  refine ⟨_, rfl, fun p => ?_⟩
  rw [← hw]
  split_ifs with hne
  · have := C38_shift w b (hb w false e) (x - 1, y - 1) (p - (x - 1, y - 1))
    rw [sub_add_cancel] at this
    rw [this]; rfl
  · push Not at hne
    rw [hne.1, hne.2]; simp

/-- Disagreement: a header with a `CD` matrix but with neither `CTYPE1` nor `CDELT1` (both are optional, and a missing
`CTYPE` means a linear axis) is taken to have no coordinate system: the result is `PixelScale(1.0)`, whatever the
matrix, although `AffineTransform._readHeader` reads it. -/
theorem C120_counterexample_cd (gs : Header → Option G) (read : String → Option Header) (s : Bool) (J : Mat2)
    (h : Header) (hc : h "CTYPE1" = none) (hd : h "CDELT1" = none) (ha : h "CD1_1" = some (.num J.a))
    (hb : h "CD1_2" = some (.num J.b)) (hc' : h "CD2_1" = some (.num J.c)) (hd' : h "CD2_2" = some (.num J.d)) :
    fitsWCS gs read none (some h) s = .ok (.uniform (.loc (.pix 1)) (!s)) ∧
      (readAffine h).localWCS = .jac J := by
  constructor
  · unfold fitsWCS ofHeader
    simp [hc, hd]
  · simp [readAffine, WCS.localWCS, Header.getNum, Header.num, ha, hb, hc', hd']

/-- Disagreement: for a linear header the matrix `PC` of the FITS standard is ignored, silently: a header that has it
next to `CDELT` is read as if the matrix were the identity.  (For celestial headers it is used.) -/
theorem C120_counterexample_pc (gs : Header → Option G) (read : String → Option Header) (s : Bool) (h : Header)
    (hl : IsLinear h) (hcd : h "CD1_1" = none) (k : String) (m : HVal)
    (hk : k = "PC1_1" ∨ k = "PC1_2" ∨ k = "PC2_1" ∨ k = "PC2_2") :
    fitsWCS gs read none (some (h.set k m)) s = fitsWCS gs read none (some h) s := by
  have hne : ∀ j, j ≠ k → h.set k m j = h j := fun j hj => by simp [Header.set, hj]
  have e1 := hne "CTYPE1" (by rcases hk with e | e | e | e <;> subst e <;> decide)
  have e2 := hne "CDELT1" (by rcases hk with e | e | e | e <;> subst e <;> decide)
  have e3 := hne "CDELT2" (by rcases hk with e | e | e | e <;> subst e <;> decide)
  have e4 := hne "CD1_1" (by rcases hk with e | e | e | e <;> subst e <;> decide)
  have e5 := hne "CRPIX1" (by rcases hk with e | e | e | e <;> subst e <;> decide)
  have e6 := hne "CRPIX2" (by rcases hk with e | e | e | e <;> subst e <;> decide)
  have e7 := hne "CRVAL1" (by rcases hk with e | e | e | e <;> subst e <;> decide)
  have e8 := hne "CRVAL2" (by rcases hk with e | e | e | e <;> subst e <;> decide)
  have hr : readAffine (h.set k m) = readAffine h := by
    simp only [readAffine, Header.getNum, Header.num, e2, e3, e4, e5, e6, e7, e8, hcd, Option.isSome_none,
      Bool.false_eq_true, if_false]
  have h2 : (h "CTYPE1").getD (.str "LINEAR") = .str "LINEAR" := by
    rcases hl with e | ⟨e, _⟩ <;> simp [e]
  have h1 : ¬((h "CTYPE1").isNone ∧ (h "CDELT1").isNone) := by
    rcases hl with e | ⟨e, e'⟩
    · simp [e]
    · intro hh
      rw [Option.isNone_iff_eq_none.1 hh.2] at e'
      simp at e'
  have key : ofHeader gs s (h.set k m) = ofHeader gs s h := by
    unfold ofHeader
    rw [if_neg h1, if_pos h2, if_neg (by rw [e1, e2]; exact h1), if_pos (by rw [e1]; exact h2), hr]
  simp only [fitsWCS, key]

/-- A header with `CDELT1 = CDELT2 = 2` alone. -/
example (gs : Header → Option G) (read : String → Option Header) :
    ∃ w, fitsWCS gs read none (some fun k => if k = "CDELT1" ∨ k = "CDELT2" then some (.num 2) else none) false =
      .ok (.uniform w false) ∧ w.toWorld (3, 5) = (6, 10) := by
  obtain ⟨w, e, hw⟩ := C120_linear_cdelt gs read false
    (fun k => if k = "CDELT1" ∨ k = "CDELT2" then some (.num 2) else none) (Or.inr (by simp)) 2 2 (by simp) (by simp)
    (by simp)
  refine ⟨w, e, ?_⟩
  rw [hw]; simp [linearMap, Header.num]; norm_num

end JG.FitsF
