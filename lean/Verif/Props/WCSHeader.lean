import Verif.Props.WCS

/-! C41: equality, pytrees and FITS headers of the uniform coordinate systems. -/

namespace JG

open WCS

/-- C41: two systems are equal exactly if they are of the same class with the same parameters; so `==` is an equivalence
and equal systems have the same mapping. -/
theorem C41_eq (w v : WCS) : w.eq v ↔ w = v := by
  have hs : ∀ s t : Shear, s.g = t.g ↔ s = t := by
    intro s t; cases s; cases t; simp
  have hm : ∀ m n : Mat2, (m.a = n.a ∧ m.b = n.b ∧ m.c = n.c ∧ m.d = n.d) ↔ m = n :=
    fun m n => ⟨fun h => Mat2.ext' h.1 h.2.1 h.2.2.1 h.2.2.2, fun h => by subst h; simp⟩
  rcases w with (c | ⟨c, s⟩ | J) | ⟨(c | ⟨c, s⟩ | J), o, u⟩ <;>
  rcases v with (c' | ⟨c', s'⟩ | J') | ⟨(c' | ⟨c', s'⟩ | J'), o', u'⟩ <;>
  simp [WCS.eq, hs, hm]

/-- C41: flattening and unflattening gives the same system. -/
theorem C41_pytree (w : WCS) : unflatten w.cls w.flatten = some w := by
  rcases w with (c | ⟨c, s⟩ | J) | ⟨(c | ⟨c, s⟩ | J), o, u⟩ <;>
  simp [WCS.cls, WCS.flatten, WCS.unflatten, argNum, argPos, argShear, List.lookup]

theorem affine_loc (b : Bool) (w : WCS) :
    w.affine b = .off (.jac w.localWCS.toJac) (0, 0) (w.toWorld (0, 0)) := by
  unfold WCS.affine
  cases b <;>
  simp only [WCS.shiftOrigin, WCS.newOrigin, WCS.localWCS, WCS.origin, WCS.worldOrigin, WCS.toWorld, Option.getD_some,
    if_true, if_false, Bool.false_eq_true, uv_zero, sub_self]
  have : ((0, 0) : ℝ × ℝ) = 0 := rfl
  rw [this, add_zero]

/-- C41: `affine()` has the same mapping. -/
theorem C41_affine (b : Bool) (w : WCS) (p : ℝ × ℝ) : (w.affine b).toWorld p = w.toWorld p := by
  rw [affine_loc]
  have h0 : ((0, 0) : ℝ × ℝ) = 0 := rfl
  cases w with
  | loc l =>
    have hz : l.uv 0 = 0 := uv_zero l
    simp only [WCS.toWorld, WCS.localWCS, h0, hz, sub_zero, add_zero]
    rw [uv_eq, uv_eq]; rfl
  | off l o u =>
    simp only [WCS.toWorld, WCS.localWCS, h0, sub_zero]
    rw [uv_eq, uv_eq, uv_eq, Mat2.app_sub, Mat2.app_sub]
    have : l.toJac.app 0 = 0 := by ext <;> simp [Mat2.app]
    rw [this, show (LocalWCS.jac l.toJac).toJac = l.toJac from rfl]; abel

theorem readAffine_linear (h : Header) (J : Mat2) (o u : ℝ × ℝ) :
    readAffine (writeLinear h J o u) = .off (.jac J) o u := by
  simp [readAffine, writeLinear, Header.set, Header.getNum, Header.num]

/-- C41, headers: whatever the class, the linear keywords written are read as an affine system with the same mapping. -/
theorem C41_linear_keys (b : Bool) (h : Header) (w : WCS) (p : ℝ × ℝ) :
    (readAffine (w.writeHeader b h)).toWorld p = w.toWorld p := by
  have key : ∀ h', (readAffine (w.writeAffine b h')).toWorld p = w.toWorld p := by
    intro h'
    unfold WCS.writeAffine
    rw [readAffine_linear, affine_loc, ← C41_affine b w p, affine_loc]
    rfl
  rcases w with (c | ⟨c, s⟩ | J) | ⟨(c | ⟨c, s⟩ | J), o, u⟩
  case off.jac => simp only [WCS.writeHeader]; rw [readAffine_linear]
  all_goals exact key _

/-- The classes that define `_readHeader`. -/
def WCS.HasReader (w : WCS) : Prop := w.cls ≠ .ShearWCS ∧ w.cls ≠ .OffsetShearWCS

/-- C41, headers: for the classes with a reader, writing and reading gives the same object.  Missing: the two shear
classes, which cannot be read back. -/
theorem C41_header_partial (b : Bool) (h : Header) (w : WCS) (hr : w.HasReader) :
    readHeader (w.writeHeader b h) = some w := by
  rcases w with (c | ⟨c, s⟩ | J) | ⟨(c | ⟨c, s⟩ | J), o, u⟩
  · simp [WCS.writeHeader, WCS.writeAffine, writeLinear, readHeader, Header.set, Header.num]
  · exact absurd rfl hr.1
  · simp [WCS.writeHeader, WCS.writeAffine, writeLinear, readHeader, Header.set, Header.num, Header.getNum,
      WCS.localWCS, LocalWCS.toJac]
  · simp [WCS.writeHeader, WCS.writeAffine, writeLinear, readHeader, Header.set, Header.num]
  · exact absurd rfl hr.2
  · have e : (WCS.off (.jac J) o u).writeHeader b h = writeLinear (h.set "GS_WCS" (.str "AffineTransform")) J o u := rfl
    have e2 : (WCS.off (.jac J) o u).writeHeader b h "GS_WCS" = some (.str "AffineTransform") := by
      simp [WCS.writeHeader, writeLinear, Header.set]
    unfold readHeader
    rw [e2]
    simp only [e, readAffine_linear]

/-- Disagreement: `ShearWCS` and `OffsetShearWCS` write their name into the header but define no `_readHeader`, so
reading the header back fails. -/
theorem C41_counterexample_shear (b : Bool) (h : Header) (c : ℝ) (s : Shear) (o u : ℝ × ℝ) :
    readHeader ((WCS.loc (.shear c s)).writeHeader b h) = none ∧
    readHeader ((WCS.off (.shear c s) o u).writeHeader b h) = none := by
  constructor <;> simp [WCS.writeHeader, WCS.writeAffine, writeLinear, readHeader, Header.set]

/-- C41, image origin: a header written (as the reference `writeToFitsHeader` does) for the system shifted to the origin
(1, 1), with the true origin in `GS_XMIN`, `GS_YMIN`, is read as a system with the original mapping. -/
theorem C41_image_origin (b b' b'' : Bool) (h : Header) (w : WCS) (x y : ℤ) (hb : w.FlagOK b)
    (hr : (w.shiftOrigin b (1 - (x : ℝ), 1 - (y : ℝ)) none).HasReader)
    (hb' : (w.shiftOrigin b (1 - (x : ℝ), 1 - (y : ℝ)) none).FlagOK b'') :
    ∃ v, readFromFitsHeader b'' ((((w.shiftOrigin b (1 - (x : ℝ), 1 - (y : ℝ)) none).writeHeader b' h).set
        "GS_XMIN" (.num x)).set "GS_YMIN" (.num y)) = some (v, ((x : ℝ), (y : ℝ))) ∧
      ∀ p, v.toWorld p = w.toWorld p := by
  set w1 := w.shiftOrigin b (1 - (x : ℝ), 1 - (y : ℝ)) none with hw1
  have hread : readHeader (((w1.writeHeader b' h).set "GS_XMIN" (.num x)).set "GS_YMIN" (.num y)) = some w1 := by
    rw [← C41_header_partial b' h w1 hr]
    simp [readHeader, readAffine, Header.set, Header.num, Header.getNum]
  have hs : ∀ p, w1.toWorld p = w.toWorld (p - (1 - (x : ℝ), 1 - (y : ℝ))) := by
    intro p
    have := C38_shift w b hb (1 - (x : ℝ), 1 - (y : ℝ)) (p - (1 - (x : ℝ), 1 - (y : ℝ)))
    rwa [sub_add_cancel] at this
  unfold readFromFitsHeader
  rw [hread]
  have ex : Header.getNum (((w1.writeHeader b' h).set "GS_XMIN" (.num x)).set "GS_YMIN" (.num y)) "GS_XMIN" 1 = x := by
    simp [Header.getNum, Header.num, Header.set]
  have ey : Header.getNum (((w1.writeHeader b' h).set "GS_XMIN" (.num x)).set "GS_YMIN" (.num y)) "GS_YMIN" 1 = y := by
    simp [Header.getNum, Header.num, Header.set]
  simp only [ex, ey, Option.map_some]
  refine ⟨_, rfl, ?_⟩
  intro p
  split_ifs with hne
  · have := C38_shift w1 b'' hb' ((x : ℝ) - 1, (y : ℝ) - 1) (p - ((x : ℝ) - 1, (y : ℝ) - 1))
    rw [sub_add_cancel] at this
    rw [this, hs]
    congr 1; ext <;> simp only [Prod.fst_sub, Prod.snd_sub] <;> ring
  · push Not at hne
    rw [hs, hne.1, hne.2]
    congr 1; ext <;> simp

example : readHeader ((WCS.off (.pix 2) (1, 3) (5, 7)).writeHeader false (fun _ => none)) =
    some (.off (.pix 2) (1, 3) (5, 7)) :=
  C41_header_partial false _ _ ⟨by simp [WCS.cls], by simp [WCS.cls]⟩

/-- C41: `compatible` on uniform systems holds exactly if the mappings differ by a constant. -/
theorem C41_compatible (w v : WCS) : w.compatible v ↔
    ∀ p q, w.toWorld p - w.toWorld q = v.toWorld p - v.toWorld q := by
  have hd : ∀ (w : WCS) (p q : ℝ × ℝ), w.toWorld p - w.toWorld q = w.localWCS.toJac.app (p - q) := by
    intro w p q
    cases w with
    | loc l => simp only [WCS.toWorld, WCS.localWCS, uv_eq, Mat2.app_sub]
    | off l o u => simp only [WCS.toWorld, WCS.localWCS, uv_eq, Mat2.app_sub]; abel
  simp only [hd]
  unfold WCS.compatible
  rw [C41_eq]
  constructor
  · intro h p q
    have h' : w.localWCS.toJac = v.localWCS.toJac := by simpa using h
    rw [h']
  · intro h
    have h1 := h (1, 0) (0, 0)
    have h2 := h (0, 1) (0, 0)
    simp only [Mat2.app, Prod.mk.injEq, Prod.mk_sub_mk, sub_zero, mul_one, mul_zero, add_zero, zero_add] at h1 h2
    have : w.localWCS.toJac = v.localWCS.toJac := Mat2.ext' h1.1 h2.1 h1.2 h2.2
    rw [this]

end JG
