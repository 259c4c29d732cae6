import Verif.Model.ReprGeom
import Mathlib.Analysis.Real.Pi.Bounds

/-!
Property C113: the text of a position, bounds, angle, shear, sky coordinate or wcs reads back as the object, and tells objects apart.
-/

namespace JG.Rg

/-- Specification: objects that can exist: the declination of a sky coordinate is in its range (celestial.py:79-87) and the deltas of
bounds are those of numbers known when they were made, or large enough. -/
def Obj.Sound : Obj → Prop
  | .coord _ dec => |dec| ≤ Real.pi / 2
  | .bI b => b.defined = true → 1 ≤ b.deltax ∧ 1 ≤ b.deltay
  | .bD b => b.defined = true → 0 ≤ b.deltax ∧ 0 ≤ b.deltay
  | _ => True

/-- Specification: the object read back is the same one; bounds are the same rectangle. -/
def Obj.Same : Obj → Obj → Prop
  | .bI b, .bI c => b.defined = c.defined ∧
      (b.defined = true → c.xmin = b.xmin ∧ c.ymin = b.ymin ∧ c.deltax = b.deltax ∧ c.deltay = b.deltay)
  | .bD b, .bD c => b.defined = c.defined ∧
      (b.defined = true → c.xmin = b.xmin ∧ c.ymin = b.ymin ∧ c.deltax = b.deltax ∧ c.deltay = b.deltay)
  | u, v => u = v

theorem eval_pos (p : P) : p.repr.eval = some (.pos p) := by
  cases p with
  | I x y =>
    simp [P.repr, Ex.eval, Ex.evalArgs, callFn, callPos, posArgs, kwArgs, getNum, get, Num.toInt]
  | D x y =>
    simp [P.repr, Ex.eval, Ex.evalArgs, callFn, callPos, posArgs, kwArgs, getNum, get, Num.val]

theorem eval_shear (g : ℂ) : (shearRepr g).eval = some (.shear g) := by
  simp [shearRepr, Ex.eval, Ex.evalArgs, callFn, callShear, posArgs, kwArgs]

theorem eval_angle (r : ℝ) : (angleRepr r).eval = some (.angle r) := by
  simp [angleRepr, Ex.eval, Ex.evalArgs, callFn, callAngle, bindArgs, get, unitValue, Num.val]

theorem eval_unit (v : ℝ) : (unitRepr v).eval = some (.unit v) := by
  unfold unitRepr
  split_ifs with h1 h2 h3 h4 h5
  · simp [Ex.eval, unitValue, h1]
  · simp [Ex.eval, unitValue, h2]
  · simp [Ex.eval, unitValue, h3]
  · simp [Ex.eval, unitValue, h4]
  · simp [Ex.eval, unitValue, h5]
  · simp [Ex.eval, Ex.evalArgs, callFn, callUnit, bindArgs, getNum, get, Num.val]

/-- A part of an expression that is not a keyword. -/
theorem evalArgs_cons {e : Ex} {v : Obj} (h : e.eval = some v) (l : List Ex) :
    Ex.evalArgs (e :: l) = (Ex.evalArgs l).map fun l' => (none, v) :: l' := by
  cases e with
  | kw n e => simp [Ex.eval] at h
  | num n => rw [Ex.evalArgs, h]; rfl; simp
  | cplx n => rw [Ex.evalArgs, h]; rfl; simp
  | name n => rw [Ex.evalArgs, h]; rfl; simp
  | call f a => rw [Ex.evalArgs, h]; rfl; simp

theorem evalArgs_kw {e : Ex} {v : Obj} (n : String) (h : e.eval = some v) (l : List Ex) :
    Ex.evalArgs (.kw n e :: l) = (Ex.evalArgs l).map fun l' => (some n, v) :: l' := by
  rw [Ex.evalArgs, h]; rfl

theorem eval_num (n : Num) : (Ex.num n).eval = some (.num n) := by simp [Ex.eval]

/-! The calls by name. -/

theorem call_pix (args : Args) : callFn "galsim.PixelScale" args =
    (bindArgs ["scale"] args).bind fun b => (getNum b "scale").map fun s => .wcs (.pix s) := by
  simp [callFn, callWcs]

theorem call_shear (args : Args) : callFn "galsim.ShearWCS" args =
    (bindArgs ["scale", "shear"] args).bind fun b => (getNum b "scale").bind fun s =>
      (getShear b).map fun g => .wcs (.shear s g) := by
  simp [callFn, callWcs]

theorem call_jac (args : Args) : callFn "galsim.JacobianWCS" args =
    (bindArgs ["dudx", "dudy", "dvdx", "dvdy"] args).bind fun b =>
      (getJac b).map fun j => .wcs (.jac j.1 j.2.1 j.2.2.1 j.2.2.2) := by
  simp [callFn, callWcs]

theorem call_off (args : Args) : callFn "galsim.OffsetWCS" args =
    (bindArgs ["scale", "origin", "world_origin"] args).bind fun b => (getNum b "scale").bind fun s =>
      (getOrigin b "origin").bind fun o => (getOrigin b "world_origin").map fun w => .wcs (.off s o w) := by
  simp [callFn, callWcs]

theorem call_offShear (args : Args) : callFn "galsim.OffsetShearWCS" args =
    (bindArgs ["scale", "shear", "origin", "world_origin"] args).bind fun b => (getNum b "scale").bind fun s =>
      (getShear b).bind fun g => (getOrigin b "origin").bind fun o => (getOrigin b "world_origin").map fun w =>
        .wcs (.offShear s g o w) := by
  simp [callFn, callWcs]

theorem call_aff (args : Args) : callFn "galsim.AffineTransform" args =
    (bindArgs ["dudx", "dudy", "dvdx", "dvdy", "origin", "world_origin"] args).bind fun b =>
      (getJac b).bind fun j => (getOrigin b "origin").bind fun o => (getOrigin b "world_origin").map fun w =>
        .wcs (.aff j.1 j.2.1 j.2.2.1 j.2.2.2 o w) := by
  simp [callFn, callWcs]

theorem call_coord (args : Args) : callFn "galsim.CelestialCoord" args = callCoord args := by
  simp [callFn]

theorem call_boundsI (args : Args) : callFn "galsim.BoundsI" args = callBoundsI args := by
  simp [callFn]

theorem call_boundsD (args : Args) : callFn "galsim.BoundsD" args = callBoundsD args := by
  simp [callFn]

theorem get_cons (k n : String) (v : Obj) (b : List (String × Obj)) :
    get ((k, v) :: b) n = if k = n then some v else get b n := by
  unfold get
  by_cases h : k = n <;> simp [h]

theorem get_nil (n : String) : get [] n = none := rfl

theorem eval_wcs (w : W) : w.repr.eval = some (.wcs w) := by
  cases w with
  | pix s =>
    rw [W.repr, Ex.eval, evalArgs_cons (eval_num _), Ex.evalArgs, Option.map_some, Option.bind_some, call_pix]
    simp [bindArgs, getNum, get_cons]
  | shear s g =>
    rw [W.repr, Ex.eval, evalArgs_cons (eval_num _), evalArgs_cons (eval_shear _), Ex.evalArgs]
    simp only [Option.map_some, Option.bind_some]
    rw [call_shear]
    simp [bindArgs, getNum, get_cons, getShear]
  | jac a b c d =>
    rw [W.repr, Ex.eval, evalArgs_cons (eval_num _), evalArgs_cons (eval_num _), evalArgs_cons (eval_num _),
      evalArgs_cons (eval_num _), Ex.evalArgs]
    simp only [Option.map_some, Option.bind_some]
    rw [call_jac]
    simp [bindArgs, getNum, get_cons, getJac]
  | off s o w =>
    rw [W.repr, Ex.eval, evalArgs_cons (eval_num _), evalArgs_cons (eval_pos _), evalArgs_cons (eval_pos _), Ex.evalArgs]
    simp only [Option.map_some, Option.bind_some]
    rw [call_off]
    simp [bindArgs, getNum, get_cons, getOrigin]
  | offShear s g o w =>
    rw [W.repr, Ex.eval, evalArgs_cons (eval_num _), evalArgs_cons (eval_shear _), evalArgs_cons (eval_pos _),
      evalArgs_cons (eval_pos _), Ex.evalArgs]
    simp only [Option.map_some, Option.bind_some]
    rw [call_offShear]
    simp [bindArgs, getNum, get_cons, getOrigin, getShear]
  | aff a b c d o w =>
    rw [W.repr, Ex.eval, evalArgs_cons (eval_num _), evalArgs_cons (eval_num _), evalArgs_cons (eval_num _),
      evalArgs_cons (eval_num _), evalArgs_kw _ (eval_pos _), evalArgs_kw _ (eval_pos _), Ex.evalArgs]
    simp only [Option.map_some, Option.bind_some]
    rw [call_aff]
    simp [bindArgs, getNum, get_cons, getOrigin, getJac]

theorem eval_coord (ra dec : ℝ) (h : |dec| ≤ Real.pi / 2) : (Obj.coord ra dec).repr.eval = some (.coord ra dec) := by
  have hd := abs_le.mp h
  have hn : ¬ (dec < -(Real.pi / 2) ∨ Real.pi / 2 < dec) := by
    rintro (h | h) <;> linarith [hd.1, hd.2]
  rw [Obj.repr, Ex.eval, evalArgs_cons (eval_angle _), evalArgs_cons (eval_angle _), Ex.evalArgs]
  simp only [Option.map_some, Option.bind_some]
  rw [call_coord, callCoord]
  simp only [bindArgs, Option.map_some, Option.bind_some, get_cons]
  simp only [if_true, String.reduceEq, if_false, hn]

theorem eval_boundsI (b : Bounds ℤ) : (boundsIRepr b).eval = some (.bI (if b.defined then
    Bounds.mkDelta clsI ⟨b.xmin, true⟩ ⟨b.deltax, true⟩ ⟨b.ymin, true⟩ ⟨b.deltay, true⟩ else Bounds.empty clsI)) := by
  unfold boundsIRepr
  cases hb : b.defined with
  | false =>
    simp only [Bool.false_eq_true, if_false]
    rw [Ex.eval, Ex.evalArgs, Option.bind_some, call_boundsI]
    rfl
  | true =>
    simp only [if_true]
    rw [Ex.eval, evalArgs_kw _ (eval_num _), evalArgs_kw _ (eval_num _), evalArgs_kw _ (eval_num _), evalArgs_kw _ (eval_num _),
      Ex.evalArgs]
    simp only [Option.map_some, Option.bind_some]
    rw [call_boundsI, callBoundsI]
    simp only [posArgs, kwArgs]
    simp [getNum, get_cons, get_nil, Num.toInt]

theorem eval_boundsD (b : Bounds ℝ) : (boundsDRepr b).eval = some (.bD (if b.defined then
    Bounds.mk4 clsD ⟨b.xmin, true⟩ ⟨b.xmax clsD, true⟩ ⟨b.ymin, true⟩ ⟨b.ymax clsD, true⟩ else Bounds.empty clsD)) := by
  unfold boundsDRepr
  cases hb : b.defined with
  | false =>
    simp only [Bool.false_eq_true, if_false]
    rw [Ex.eval, Ex.evalArgs, Option.bind_some, call_boundsD]
    rfl
  | true =>
    simp only [if_true]
    rw [Ex.eval, evalArgs_cons (eval_num _), evalArgs_cons (eval_num _), evalArgs_cons (eval_num _), evalArgs_cons (eval_num _),
      Ex.evalArgs]
    simp only [Option.map_some, Option.bind_some]
    rw [call_boundsD, callBoundsD]
    simp only [posArgs, kwArgs, Num.val]

/-- C113: the text of an object evaluates to the same object, with the same kinds of numbers in a wcs.  Missing: bounds that count as
defined although they are empty, see `C113_counterexample_bounds`. -/
theorem C113_roundtrip_partial (v : Obj) (h : v.Sound) : ∃ u, v.repr.eval = some u ∧ v.Same u := by
  cases v with
  | num n => exact ⟨_, eval_num n, rfl⟩
  | cplx z => exact ⟨.cplx z, by simp [Obj.repr, Ex.eval], rfl⟩
  | pos p => exact ⟨_, eval_pos p, rfl⟩
  | unit u => exact ⟨_, eval_unit u, rfl⟩
  | angle r => exact ⟨_, eval_angle r, rfl⟩
  | shear g => exact ⟨_, eval_shear g, rfl⟩
  | wcs w => exact ⟨_, eval_wcs w, rfl⟩
  | coord ra dec => exact ⟨.coord ra dec, eval_coord ra dec h, rfl⟩
  | bI b =>
    refine ⟨_, eval_boundsI b, ?_⟩
    cases hb : b.defined with
    | false => simp [Obj.Same, hb, Bounds.empty, Bounds.finish]
    | true =>
      obtain ⟨hx, hy⟩ := h hb
      have h1 : ¬ b.deltax < 1 := by omega
      have h2 : ¬ b.deltay < 1 := by omega
      simp [Obj.Same, hb, Bounds.mkDelta, Bounds.finish, clsI, h1, h2]
  | bD b =>
    refine ⟨_, eval_boundsD b, ?_⟩
    cases hb : b.defined with
    | false => simp [Obj.Same, hb, Bounds.empty, Bounds.finish]
    | true =>
      obtain ⟨hx, hy⟩ := h hb
      have h1 : ¬ b.deltax < 0 := not_lt.mpr hx
      have h2 : ¬ b.deltay < 0 := not_lt.mpr hy
      simp [Obj.Same, hb, Bounds.mk4, Bounds.finish, clsD, Bounds.xmax, Bounds.ymax, h1, h2]

theorem same_join {u v w : Obj} (h1 : u.Same w) (h2 : v.Same w) : u.Same v := by
  cases u <;> cases w <;> simp only [Obj.Same, reduceCtorEq] at h1 <;> cases v <;> simp only [Obj.Same, reduceCtorEq] at h2 <;>
    simp_all [Obj.Same]
  all_goals
    intro h
    obtain ⟨a1, a2, a3, a4⟩ := h1.2 (h1.1.trans h)
    obtain ⟨b1, b2, b3, b4⟩ := h2.2 (h2.1.trans h)
    exact ⟨b1.symm.trans a1, b2.symm.trans a2, b3.symm.trans a3, b4.symm.trans a4⟩

/-- C113: two objects have the same text exactly when they are the same. -/
theorem C113_injective_partial (u v : Obj) (hu : u.Sound) (hv : v.Sound) : u.repr = v.repr ↔ u.Same v := by
  constructor
  · intro h
    obtain ⟨a, ha, hsa⟩ := C113_roundtrip_partial u hu
    obtain ⟨b, hb, hsb⟩ := C113_roundtrip_partial v hv
    rw [h, hb] at ha
    obtain rfl := Option.some.inj ha
    exact same_join hsa hsb
  · intro h
    cases u with
    | bI b =>
      cases v with
      | bI c =>
        simp only [Obj.repr, boundsIRepr]
        obtain ⟨h1, h2⟩ := h
        cases hb : b.defined with
        | false => rw [← h1, hb]; simp
        | true =>
          obtain ⟨e1, e2, e3, e4⟩ := h2 hb
          rw [← h1, hb, e1, e2, e3, e4]
      | _ => simp [Obj.Same] at h
    | bD b =>
      cases v with
      | bD c =>
        simp only [Obj.repr, boundsDRepr, Bounds.xmax, Bounds.ymax]
        obtain ⟨h1, h2⟩ := h
        cases hb : b.defined with
        | false => rw [← h1, hb]; simp
        | true =>
          obtain ⟨e1, e2, e3, e4⟩ := h2 hb
          rw [← h1, hb, e1, e2, e3, e4]
      | _ => simp [Obj.Same] at h
    | _ =>
      cases v <;> simp only [Obj.Same, reduceCtorEq] at h <;> rw [h]

theorem P.eq_iff (p q : P) : p.eq q ↔ p = q := by
  cases p <;> cases q <;> simp [P.eq]

/-- Specification: the numbers stored in a wcs. -/
def W.scalars : W → List Num
  | .pix s => [s]
  | .shear s _ => [s]
  | .jac a b c d => [a, b, c, d]
  | .off s _ _ => [s]
  | .offShear s _ _ _ => [s]
  | .aff a b c d _ _ => [a, b, c, d]

theorem num_ext {a b : Num} (h : a.val = b.val) (hk : a.isInt = b.isInt) : a = b := by
  cases a <;> cases b <;> simp_all [Num.val, Num.isInt]

/-- C113: two wcs with the same text, so with the same hash key, are equal and print alike; equal wcs whose numbers are of the same
kinds hash alike.  Missing: numbers of different kinds, see `C113_counterexample_hash`. -/
theorem C113_hash_partial (w v : W) :
    (w.hashKey = v.hashKey ↔ w = v) ∧
    (w.hashKey = v.hashKey → w.eq v) ∧
    (w.eq v → w.scalars.map Num.isInt = v.scalars.map Num.isInt → w.hashKey = v.hashKey) := by
  have inj : w.hashKey = v.hashKey → w = v := by
    intro h
    have h1 := eval_wcs w
    have h2 := eval_wcs v
    unfold W.hashKey at h
    rw [h, h2] at h1
    simpa using h1.symm
  refine ⟨⟨inj, fun h => by rw [h]⟩, fun h => ?_, fun h hk => ?_⟩
  · have := inj h
    subst this
    cases w <;> simp [W.eq, P.eq_iff]
  · have : w = v := by
      cases w <;> cases v <;> simp only [W.eq, P.eq_iff, W.scalars, List.map_cons, List.map_nil, List.cons.injEq, and_true] at h hk
      · rw [num_ext h hk]
      · rw [num_ext h.1 hk, h.2]
      · rw [num_ext h.1 hk.1, num_ext h.2.1 hk.2.1, num_ext h.2.2.1 hk.2.2.1, num_ext h.2.2.2 hk.2.2.2]
      · rw [num_ext h.1 hk, h.2.1, h.2.2]
      · rw [num_ext h.1.1 hk, h.1.2, h.2.1, h.2.2]
      · rw [num_ext h.1.1 hk.1, num_ext h.1.2.1 hk.2.1, num_ext h.1.2.2.1 hk.2.2.1, num_ext h.1.2.2.2 hk.2.2.2, h.2.1, h.2.2]
    rw [this]

/-- Disagreement: `PixelScale(2) == PixelScale(2.0)`, but the hashes are of the different texts `galsim.PixelScale(2)` and
`galsim.PixelScale(2.0)`; the same holds for every kind of wcs. -/
theorem C113_counterexample_hash (n : ℤ) (g : ℂ) (o p : P) (a b c : Num) :
    ∀ q ∈ [((W.pix (.int n)), W.pix (.flt n)), (.shear (.int n) g, .shear (.flt n) g), (.jac (.int n) a b c, .jac (.flt n) a b c),
      (.off (.int n) o p, .off (.flt n) o p), (.offShear (.int n) g o p, .offShear (.flt n) g o p),
      (.aff (.int n) a b c o p, .aff (.flt n) a b c o p)], q.1.eq q.2 ∧ q.1.hashKey ≠ q.2.hashKey := by
  intro q hq
  have hn : ∀ w v : W, w ≠ v → w.hashKey ≠ v.hashKey := fun w v h h' => h ((C113_hash_partial w v).1.mp h')
  simp only [List.mem_cons, List.not_mem_nil, or_false] at hq
  rcases hq with rfl | rfl | rfl | rfl | rfl | rfl <;> refine ⟨?_, hn _ _ (by simp)⟩ <;> simp [W.eq, Num.val, P.eq_iff]

/-- Disagreement: `BoundsI` with a jax `deltax` of 0 and a positive jax `deltay` counts as defined (the deltas are only checked
together if they are jax numbers), and its text reads back as undefined bounds, which are not equal to it. -/
theorem C113_counterexample_bounds (x y : ℤ) (dy : ℤ) (hdy : 1 ≤ dy) :
    ∃ b c : Bounds ℤ, b = Bounds.mkDelta clsI ⟨x, false⟩ ⟨0, false⟩ ⟨y, false⟩ ⟨dy, false⟩ ∧ b.defined = true ∧
      (Obj.bI b).repr.eval = some (.bI c) ∧ c.defined = false ∧ b.eq clsI c = false := by
  have h1 : ¬ dy < 1 := by omega
  have hb : (Bounds.mkDelta clsI (⟨x, false⟩ : Scal ℤ) ⟨0, false⟩ ⟨y, false⟩ ⟨dy, false⟩).defined = true := by
    simp [Bounds.mkDelta, Bounds.finish, clsI, h1]
  refine ⟨_, Bounds.mkDelta clsI ⟨x, true⟩ ⟨0, true⟩ ⟨y, true⟩ ⟨dy, true⟩, rfl, hb, ?_, ?_, ?_⟩
  · rw [Obj.repr, eval_boundsI, if_pos hb]; rfl
  · simp [Bounds.mkDelta, Bounds.finish, clsI]
  · simp [Bounds.eq, Bounds.initargs, Bounds.mkDelta, Bounds.finish, clsI, h1]

/-- An affine wcs with an integer coefficient and an integer origin, a coordinate and a unit without a name. -/
example : (Obj.wcs (.aff (.int 1) (.flt (1 / 10)) (.flt 0) (.flt 2) (.I 5 (-3)) (.D (1 / 2) 0))).repr.eval =
    some (.wcs (.aff (.int 1) (.flt (1 / 10)) (.flt 0) (.flt 2) (.I 5 (-3)) (.D (1 / 2) 0))) := by
  rw [Obj.repr]; exact eval_wcs _

example : (Obj.coord 7 (-1)).Sound := by
  simp only [Obj.Sound, abs_neg, abs_one]
  linarith [Real.pi_gt_three]

example : (Obj.bI (Bounds.mk4 clsI ⟨3, true⟩ ⟨7, true⟩ ⟨-2, true⟩ ⟨-2, true⟩)).Sound := by
  intro _; decide

end JG.Rg
