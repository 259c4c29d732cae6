import Verif.Props.Image

/-!
Properties C20 (pixel reads and writes) and C21 (sub-images).
-/

namespace JG

/-- An image seen from outside: a partial map from coordinates to values. -/
abbrev CMap := ℤ → ℤ → Option ℝ

/-- `(x, y)` is one of the pixels of the rectangle. -/
def inRect (b : Bounds ℤ) (x y : ℤ) : Prop :=
  (b.xmin ≤ x ∧ x < b.xmin + b.deltax) ∧ b.ymin ≤ y ∧ y < b.ymin + b.deltay

instance (b : Bounds ℤ) (x y : ℤ) : Decidable (inRect b x y) := by unfold inRect; infer_instance

/-- The map of an image: row `y - ymin`, column `x - xmin` of the array. -/
def coordMap (im : Image) : CMap := fun x y =>
  if im.bounds.defined = true ∧ inRect im.bounds x y then
    some (im.arr.at' (y - im.bounds.ymin).toNat (x - im.bounds.xmin).toNat)
  else none

/-- The pixels of `m` are those of `r` moved by `t`. -/
def SameShape (m r : CMap) (t : Pos ℤ) : Prop := ∀ x y, (m x y).isSome = (r (x - t.x) (y - t.y)).isSome

/-- `o` and `u` are the lower left and upper right pixel of `m`. -/
def Corners (m : CMap) (o u : Pos ℤ) : Prop :=
  ∀ x y, (m x y).isSome = true ↔ (o.x ≤ x ∧ x ≤ u.x) ∧ o.y ≤ y ∧ y ≤ u.y

/-- Combine two values present at the same place. -/
def comb (f : ℝ → ℝ → ℝ) : Option ℝ → Option ℝ → Option ℝ
  | some a, some b => some (f a b)
  | _, _ => none

open Classical in
/-- What each call should do to the map, and whether it should raise.  `rawCast`/`safeCast` are the
conversions to the image's dtype (identity for floating images). -/
noncomputable def specStep (isInt : Bool) (m : CMap) : Op → CMap × Bool
  | .setValue p v =>
    match m p.x p.y with
    | none => (m, true)
    | some _ => (fun x y => if x = p.x ∧ y = p.y then some (rawCast isInt v) else m x y, false)
  | .addValue p v =>
    match m p.x p.y with
    | none => (m, true)
    | some u => (fun x y => if x = p.x ∧ y = p.y then some (u + rawCast isInt v) else m x y, false)
  | .fill v => (fun x y => (m x y).map fun _ => rawCast isInt v, false)
  | .setZero => (fun x y => (m x y).map fun _ => 0, false)
  | .invertSelf => (fun x y => (m x y).map fun u => safeCast isInt (if u = 0 then 0 else 1 / u), false)
  | .replaceNegative v => (fun x y => (m x y).map fun u => if u < 0 then rawCast isInt v else u, false)
  | .shift d _ => (fun x y => m (x - d.x) (y - d.y), false)
  | .setSubImage b rhs =>
    if (∃ x y, inRect b x y) ∧ (∀ x y, inRect b x y → (m x y).isSome = true) ∧
        rhs.bounds.deltax = b.deltax ∧ rhs.bounds.deltay = b.deltay then
      (fun x y => if inRect b x y then
          (coordMap rhs (x - b.xmin + rhs.bounds.xmin) (y - b.ymin + rhs.bounds.ymin)).map
            (safeCast isInt)
        else m x y, false)
    else (m, true)
  | .copyFrom rhs =>
    if h : ∃ t, SameShape m (coordMap rhs) t then
      (fun x y => (coordMap rhs (x - h.choose.x) (y - h.choose.y)).map (safeCast isInt), false)
    else (m, true)
  | .inplace f intOnly direct rhs =>
    if intOnly = true ∧ isInt = false then (m, true)
    else match rhs with
      | .scalar v => (fun x y => (m x y).map fun u => if direct then f u v else safeCast isInt (f u v), false)
      | .array _ => (m, false)
      | .image r =>
        if intOnly = true ∧ r.isInt = false then (m, true)
        else if h : ∃ t, SameShape m (coordMap r) t then
          (fun x y => comb (fun u v => if direct then f u v else safeCast isInt (f u v)) (m x y)
            (coordMap r (x - h.choose.x) (y - h.choose.y)), false)
        else (m, true)
  | .setOrigin p _ =>
    if h : ∃ c : Pos ℤ × Pos ℤ, Corners m c.1 c.2 then
      (fun x y => m (x - p.x + h.choose.1.x) (y - p.y + h.choose.1.y), false)
    else (m, true)
  | .setCenter p _ =>
    if h : ∃ c : Pos ℤ × Pos ℤ, Corners m c.1 c.2 then
      (fun x y => m (x - p.x + (h.choose.1.x + (h.choose.2.x - h.choose.1.x + 1) / 2))
        (y - p.y + (h.choose.1.y + (h.choose.2.y - h.choose.1.y + 1) / 2)), false)
    else (m, true)
  | .resize b => (fun x y => if inRect b x y then some 0 else none, false)
  | _ => (m, false)

/-- The calls covered by `specStep`; bounds and shifts are python numbers ("static"), images given as
arguments are well formed. -/
def Op.Covered : Op → Prop
  | .setValue _ _ | .addValue _ _ | .fill _ | .setZero | .invertSelf | .replaceNegative _ => True
  | .shift _ py => py = true
  | .setOrigin _ py | .setCenter _ py => py = true
  | .setSubImage b rhs => b.OK ∧ b.posPy = true ∧ rhs.bounds.OK ∧ rhs.ShapeOK
  | .copyFrom rhs => rhs.bounds.OK ∧ rhs.ShapeOK ∧ rhs.bounds.defined = true
  | .inplace _ _ _ (.scalar _) => True
  | .inplace _ _ _ (.image r) => r.bounds.OK ∧ r.ShapeOK ∧ r.bounds.defined = true
  | .resize b => b.OK ∧ b.posPy = true ∧ b.defined = true
  | _ => False

/-- A usable image: defined, not constant, python coordinates, consistent shape. -/
structure Image.Live (im : Image) : Prop where
  ok : im.bounds.OK
  shape : im.ShapeOK
  defd : im.bounds.defined = true
  mutbl : im.isConst = some false
  static : im.bounds.posPy = true

theorem Image.Live.h {im : Image} (h : im.Live) : (im.arr.h : ℤ) = im.bounds.deltay := by
  have := h.shape h.defd
  simp only [Bounds.numpyShape, h.defd, if_true, Prod.mk.injEq] at this
  exact this.1
theorem Image.Live.w {im : Image} (h : im.Live) : (im.arr.w : ℤ) = im.bounds.deltax := by
  have := h.shape h.defd
  simp only [Bounds.numpyShape, h.defd, if_true, Prod.mk.injEq] at this
  exact this.2

theorem guarded_mut {im : Image} (h : im.isConst = some false) (b : Image × Option ImErr) :
    im.guarded b = b := by
  unfold Image.guarded; rw [h]

theorem xmaxI (b : Bounds ℤ) : b.xmax clsI = b.xmin + b.deltax - 1 := rfl
theorem ymaxI (b : Bounds ℤ) : b.ymax clsI = b.ymin + b.deltay - 1 := rfl

theorem includesP_iff_rect (b : Bounds ℤ) (p : Pos ℤ) :
    b.includesP clsI p = true ↔ b.defined = true ∧ inRect b p.x p.y := by
  simp only [Bounds.includesP, Bool.and_eq_true, decide_eq_true_eq, inRect]
  rw [xmaxI, ymaxI]
  constructor
  · rintro ⟨⟨⟨⟨h1, h2⟩, h3⟩, h4⟩, h5⟩; exact ⟨h1, ⟨h2, by omega⟩, h3, by omega⟩
  · rintro ⟨h1, ⟨h2, h4⟩, h3, h5⟩; exact ⟨⟨⟨⟨h1, h2⟩, h3⟩, by omega⟩, by omega⟩

/-- Reading index arithmetic: inside the rectangle neither wrapping nor clamping happens. -/
theorem get_in (a : Arr ℝ) (i j : ℤ) (hi : 0 ≤ i) (hi' : i < a.h) (hj : 0 ≤ j) (hj' : j < a.w) :
    a.get i j = a.at' i.toNat j.toNat := by
  unfold Arr.get normIdx
  rw [if_neg (by omega), if_neg (by omega), min_eq_left (by omega), min_eq_left (by omega),
    max_eq_left hi, max_eq_left hj]

theorem getValue_eq {im : Image} (hd : im.bounds.defined = true) (hs : im.ShapeOK) (p : Pos ℤ) :
    im.getValue p = match coordMap im p.x p.y with
      | some v => .ok v
      | none => .error .outOfBounds := by
  have hsh := hs hd
  simp only [Bounds.numpyShape, hd, if_true, Prod.mk.injEq] at hsh
  unfold Image.getValue coordMap
  rw [if_neg (by simp [hd])]
  by_cases hin : inRect im.bounds p.x p.y
  · have h1 : im.bounds.includesP clsI p = true := (includesP_iff_rect _ _).mpr ⟨hd, hin⟩
    rw [if_neg (by simp [h1]), if_pos ⟨hd, hin⟩]
    obtain ⟨⟨a1, a2⟩, a3, a4⟩ := hin
    rw [get_in _ _ _ (by omega) (by omega) (by omega) (by omega)]
  · have h1 : ¬ im.bounds.includesP clsI p = true := fun h => hin ((includesP_iff_rect _ _).mp h).2
    rw [if_pos (by simpa using h1), if_neg (fun h => hin h.2)]

theorem Live.update {im : Image} (h : im.Live) (a : Arr ℝ) (hh : a.h = im.arr.h)
    (hw : a.w = im.arr.w) : Image.Live { im with arr := a } :=
  ⟨h.ok, fun hd => by simp only [hh, hw]; exact h.shape hd, h.defd, h.mutbl, h.static⟩

theorem coordMap_mapIdx {im : Image} (f : ℕ → ℕ → ℝ → ℝ) (x y : ℤ) :
    coordMap { im with arr := im.arr.mapIdx f } x y =
      (coordMap im x y).map (f (y - im.bounds.ymin).toNat (x - im.bounds.xmin).toNat) := by
  unfold coordMap
  simp only
  split_ifs <;> rfl

theorem coordMap_updAt {im : Image} (h : im.Live) (p : Pos ℤ) (hp : inRect im.bounds p.x p.y)
    (f : ℝ → ℝ) (x y : ℤ) :
    coordMap { im with arr := im.arr.updAt (p.y - im.bounds.ymin) (p.x - im.bounds.xmin) f } x y =
      if x = p.x ∧ y = p.y then (coordMap im x y).map f else coordMap im x y := by
  have hh := h.h
  have hw := h.w
  obtain ⟨⟨a1, a2⟩, a3, a4⟩ := hp
  unfold coordMap
  simp only
  by_cases hin : im.bounds.defined = true ∧ inRect im.bounds x y
  · rw [if_pos hin, if_pos hin]
    obtain ⟨-, ⟨b1, b2⟩, b3, b4⟩ := hin
    have n1 : normIdx (p.y - im.bounds.ymin) im.arr.h = p.y - im.bounds.ymin := if_neg (by omega)
    have n2 : normIdx (p.x - im.bounds.xmin) im.arr.w = p.x - im.bounds.xmin := if_neg (by omega)
    simp only [Arr.updAt, n1, n2]
    by_cases he : x = p.x ∧ y = p.y
    · rw [if_pos (by omega), if_pos he]; rfl
    · rw [if_neg (by omega), if_neg he]
  · rw [if_neg hin, if_neg hin]; simp

theorem updPixel_spec {im : Image} (h : im.Live) (p : Pos ℤ) (f : ℝ → ℝ) :
    (im.updPixel p f).1.Live ∧
    (match coordMap im p.x p.y with
      | none => coordMap (im.updPixel p f).1 = coordMap im ∧ (im.updPixel p f).2 = some .outOfBounds
      | some u => coordMap (im.updPixel p f).1 =
          (fun x y => if x = p.x ∧ y = p.y then some (f u) else coordMap im x y) ∧
          (im.updPixel p f).2 = none) := by
  unfold Image.updPixel
  rw [if_neg (by simp [h.defd])]
  by_cases hin : inRect im.bounds p.x p.y
  · have h1 : im.bounds.includesP clsI p = true := (includesP_iff_rect _ _).mpr ⟨h.defd, hin⟩
    rw [if_neg (by simp [h1])]
    have hc : coordMap im p.x p.y =
        some (im.arr.at' (p.y - im.bounds.ymin).toNat (p.x - im.bounds.xmin).toNat) := by
      unfold coordMap; rw [if_pos ⟨h.defd, hin⟩]
    refine ⟨Live.update h _ rfl rfl, ?_⟩
    rw [hc]
    refine ⟨?_, rfl⟩
    funext x y
    rw [coordMap_updAt h p hin]
    by_cases he : x = p.x ∧ y = p.y
    · obtain ⟨rfl, rfl⟩ := he
      rw [if_pos ⟨rfl, rfl⟩, if_pos ⟨rfl, rfl⟩, hc]; rfl
    · rw [if_neg he, if_neg he]
  · have h1 : ¬ im.bounds.includesP clsI p = true := fun h => hin ((includesP_iff_rect _ _).mp h).2
    have hc : coordMap im p.x p.y = none := by
      unfold coordMap; rw [if_neg (fun h => hin h.2)]
    rw [if_pos (by simpa using h1), hc]
    exact ⟨h, rfl, rfl⟩

theorem includesB_iff_rect {a b : Bounds ℤ} (hb : b.OK) :
    a.includesB clsI b = true ↔
      (∃ x y, inRect b x y) ∧ ∀ x y, inRect b x y → a.defined = true ∧ inRect a x y := by
  simp only [Bounds.includesB, Bool.and_eq_true, decide_eq_true_eq, inRect]
  rw [xmaxI, ymaxI, xmaxI, ymaxI]
  constructor
  · rintro ⟨⟨⟨⟨⟨h1, h2⟩, h3⟩, h4⟩, h5⟩, h6⟩
    have := hb.1.mp h2
    refine ⟨⟨b.xmin, b.ymin, ⟨le_refl _, by omega⟩, le_refl _, by omega⟩, ?_⟩
    rintro x y ⟨⟨h7, h8⟩, h9, h10⟩
    exact ⟨h1, ⟨by omega, by omega⟩, by omega, by omega⟩
  · rintro ⟨⟨x, y, ⟨h1, h2⟩, h3, h4⟩, hall⟩
    have hd : b.defined = true := hb.1.mpr ⟨by omega, by omega⟩
    have e1 := hall b.xmin b.ymin ⟨⟨le_refl _, by omega⟩, le_refl _, by omega⟩
    have e2 := hall (b.xmin + b.deltax - 1) (b.ymin + b.deltay - 1)
      ⟨⟨by omega, by omega⟩, by omega, by omega⟩
    refine ⟨⟨⟨⟨⟨e1.1, hd⟩, ?_⟩, ?_⟩, ?_⟩, ?_⟩ <;> omega

theorem isSome_coordMap {im : Image} (x y : ℤ) :
    (coordMap im x y).isSome = true ↔ im.bounds.defined = true ∧ inRect im.bounds x y := by
  unfold coordMap; split_ifs with h <;> simp [h]

theorem numpyShape_eq_iff {a b : Bounds ℤ} (hb : b.OK) (hd : b.defined = true) (ha : a.OK) :
    b.numpyShape = a.numpyShape ↔ a.deltax = b.deltax ∧ a.deltay = b.deltay := by
  have h1 := hb.1.mp hd
  unfold Bounds.numpyShape
  rw [if_pos hd]
  by_cases h2 : a.defined = true
  · rw [if_pos h2, Prod.mk.injEq]; constructor <;> rintro ⟨h3, h4⟩ <;> constructor <;> omega
  · rw [if_neg h2, Prod.mk.injEq]
    constructor
    · rintro ⟨h3, h4⟩; omega
    · rintro ⟨h3, h4⟩; exact absurd (ha.1.mpr ⟨by omega, by omega⟩) h2

theorem bcast_same (a : Arr ℝ) {h w : ℕ} (h1 : a.h = h) (h2 : a.w = w) : a.bcast h w = some a.at' := by
  unfold Arr.bcast
  rw [if_pos ⟨Or.inl h1, Or.inl h2⟩]
  congr 1
  funext i j
  rw [if_pos h1, if_pos h2]

/-- `setSubImage` for an included rectangle of the right shape, static or not. -/
theorem setSub_included {im rhs : Image} (hs : im.ShapeOK) {b : Bounds ℤ}
    (hb : b.OK) (hin : im.bounds.includesB clsI b = true) (hr : rhs.bounds.OK) (hrs : rhs.ShapeOK)
    (hx : rhs.bounds.deltax = b.deltax) (hy : rhs.bounds.deltay = b.deltay) :
    ∃ a, im.setSub b rhs = ({ im with arr := a }, none) ∧ a.h = im.arr.h ∧ a.w = im.arr.w ∧
      coordMap { im with arr := a } = fun x y => if inRect b x y then
        (coordMap rhs (x - b.xmin + rhs.bounds.xmin) (y - b.ymin + rhs.bounds.ymin)).map
          (safeCast im.isInt) else coordMap im x y := by
  have hin' := hin
  simp only [Bounds.includesB, Bool.and_eq_true, decide_eq_true_eq] at hin'
  rw [xmaxI, ymaxI, xmaxI, ymaxI] at hin'
  obtain ⟨⟨⟨⟨⟨d1, d2⟩, x1⟩, x2⟩, y1⟩, y2⟩ := hin'
  have hge := hb.1.mp d2
  have d3 : rhs.bounds.defined = true := hr.1.mpr ⟨by omega, by omega⟩
  have s1 := hs d1
  have s2 := hrs d3
  simp only [Bounds.numpyShape, d1, d3, if_true, Prod.mk.injEq] at s1 s2
  have hshape : b.numpyShape = rhs.bounds.numpyShape := (numpyShape_eq_iff hb d2 hr).mpr ⟨hx, hy⟩
  set v := rhs.arr.mapIdx fun _ _ x => safeCast im.isInt x with hv
  have vh : (v.h : ℤ) = b.deltay := by show ((rhs.arr.h : ℕ) : ℤ) = _; omega
  have vw : (v.w : ℤ) = b.deltax := by show ((rhs.arr.w : ℕ) : ℤ) = _; omega
  -- the value written at an index of the rectangle
  have key : ∀ (g : ℕ → ℕ → ℝ),
      (∀ i j : ℕ, g i j = if b.ymin - im.bounds.ymin ≤ (i : ℤ) ∧
          (i : ℤ) < b.ymin - im.bounds.ymin + b.deltay ∧ b.xmin - im.bounds.xmin ≤ (j : ℤ) ∧
          (j : ℤ) < b.xmin - im.bounds.xmin + b.deltax then
            safeCast im.isInt (rhs.arr.at' (i - (b.ymin - im.bounds.ymin).toNat)
              (j - (b.xmin - im.bounds.xmin).toNat))
          else im.arr.at' i j) →
      coordMap { im with arr := ⟨im.arr.h, im.arr.w, g⟩ } = fun x y => if inRect b x y then
        (coordMap rhs (x - b.xmin + rhs.bounds.xmin) (y - b.ymin + rhs.bounds.ymin)).map
          (safeCast im.isInt) else coordMap im x y := by
    intro g hg
    funext x y
    by_cases hbx : inRect b x y
    · rw [if_pos hbx]
      obtain ⟨⟨c1, c2⟩, c3, c4⟩ := hbx
      unfold coordMap
      simp only
      rw [if_pos ⟨d1, ⟨by omega, by omega⟩, by omega, by omega⟩,
        if_pos ⟨d3, ⟨by omega, by omega⟩, by omega, by omega⟩, hg,
        if_pos ⟨by omega, by omega, by omega, by omega⟩, Option.map_some]
      congr 3 <;> omega
    · rw [if_neg hbx]
      unfold coordMap
      simp only
      by_cases hi : im.bounds.defined = true ∧ inRect im.bounds x y
      · rw [if_pos hi, if_pos hi, hg, if_neg]
        obtain ⟨-, ⟨c1, c2⟩, c3, c4⟩ := hi
        intro hc
        exact hbx ⟨⟨by omega, by omega⟩, by omega, by omega⟩
      · rw [if_neg hi, if_neg hi]
  unfold Image.setSub
  rw [if_neg (by simp [d1]), if_neg (by simp [hin]), if_neg (not_not.mpr hshape)]
  simp only [← hv]
  by_cases hst : (im.bounds.posPy && b.posPy) = true
  · rw [if_pos hst]
    have e1 : (min (b.ymax clsI - im.bounds.ymin + 1) (im.arr.h : ℤ) -
        (b.ymin - im.bounds.ymin)).toNat = v.h := by
      simp only [ymaxI]; omega
    have e2 : (min (b.xmax clsI - im.bounds.xmin + 1) (im.arr.w : ℤ) -
        (b.xmin - im.bounds.xmin)).toNat = v.w := by
      simp only [xmaxI]; omega
    have e3 := bcast_same v e1.symm e2.symm
    unfold Arr.setSlice
    rw [e3]
    refine ⟨_, rfl, rfl, rfl, key _ ?_⟩
    intro i j
    simp only [xmaxI, ymaxI, hv, Arr.mapIdx]
    by_cases hc : b.ymin - im.bounds.ymin ≤ (i : ℤ) ∧
          (i : ℤ) < b.ymin - im.bounds.ymin + b.deltay ∧ b.xmin - im.bounds.xmin ≤ (j : ℤ) ∧
          (j : ℤ) < b.xmin - im.bounds.xmin + b.deltax
    · rw [if_pos hc, if_pos (by omega)]
    · rw [if_neg hc, if_neg (by omega)]
  · rw [if_neg hst]
    unfold Arr.dynUpdate?
    rw [if_pos ⟨by omega, by omega⟩]
    refine ⟨_, rfl, rfl, rfl, key _ ?_⟩
    have st1 : dusStart (b.ymin - im.bounds.ymin) im.arr.h v.h = (b.ymin - im.bounds.ymin).toNat := by
      unfold dusStart
      rw [if_neg (by omega)]; omega
    have st2 : dusStart (b.xmin - im.bounds.xmin) im.arr.w v.w = (b.xmin - im.bounds.xmin).toNat := by
      unfold dusStart
      rw [if_neg (by omega)]; omega
    intro i j
    simp only [st1, st2]
    by_cases hc : b.ymin - im.bounds.ymin ≤ (i : ℤ) ∧
          (i : ℤ) < b.ymin - im.bounds.ymin + b.deltay ∧ b.xmin - im.bounds.xmin ≤ (j : ℤ) ∧
          (j : ℤ) < b.xmin - im.bounds.xmin + b.deltax
    · rw [if_pos hc, if_pos (by omega)]
      simp only [hv, Arr.mapIdx]
    · rw [if_neg hc, if_neg (by omega)]

theorem shiftBy_live {im : Image} (h : im.Live) (d : Pos ℤ) (py : Bool) (hpy : py = true) :
    (im.shiftBy d py).Live ∧ coordMap (im.shiftBy d py) = fun x y => coordMap im (x - d.x) (y - d.y) := by
  have hd := shift_defined h.ok d py
  refine ⟨⟨shift_ok h.ok d py, ?_, by rw [← h.defd]; exact hd, h.mutbl, ?_⟩, ?_⟩
  · intro _
    have := h.shape h.defd
    show _ = (im.bounds.shift clsI d py).numpyShape
    unfold Bounds.numpyShape at this ⊢
    rw [hd, h.defd, if_pos rfl]
    rw [h.defd, if_pos rfl] at this
    exact this
  · show (im.bounds.posPy && py) = true
    rw [h.static, hpy]; rfl
  · funext x y
    unfold coordMap
    have e : ((im.shiftBy d py).bounds.defined = true ∧ inRect (im.shiftBy d py).bounds x y) ↔
        (im.bounds.defined = true ∧ inRect im.bounds (x - d.x) (y - d.y)) := by
      show ((im.bounds.shift clsI d py).defined = true ∧ _) ↔ _
      rw [hd]
      refine and_congr_right fun _ => ?_
      show ((im.bounds.xmin + d.x ≤ x ∧ x < im.bounds.xmin + d.x + im.bounds.deltax) ∧
        im.bounds.ymin + d.y ≤ y ∧ y < im.bounds.ymin + d.y + im.bounds.deltay) ↔
        ((im.bounds.xmin ≤ x - d.x ∧ x - d.x < im.bounds.xmin + im.bounds.deltax) ∧
        im.bounds.ymin ≤ y - d.y ∧ y - d.y < im.bounds.ymin + im.bounds.deltay)
      omega
    by_cases hc : im.bounds.defined = true ∧ inRect im.bounds (x - d.x) (y - d.y)
    · rw [if_pos hc, if_pos (e.mpr hc)]
      show some (im.arr.at' (y - (im.bounds.ymin + d.y)).toNat (x - (im.bounds.xmin + d.x)).toNat) = _
      congr 3 <;> omega
    · rw [if_neg hc, if_neg (fun hh => hc (e.mp hh))]

theorem corners_iff {im : Image} (h : im.Live) (o u : Pos ℤ) : Corners (coordMap im) o u ↔
    o = ⟨im.bounds.xmin, im.bounds.ymin⟩ ∧
    u = ⟨im.bounds.xmin + im.bounds.deltax - 1, im.bounds.ymin + im.bounds.deltay - 1⟩ := by
  have h1 := h.ok.1.mp h.defd
  unfold Corners
  simp only [isSome_coordMap, h.defd, true_and, inRect]
  obtain ⟨ox, oy⟩ := o
  obtain ⟨ux, uy⟩ := u
  simp only [Pos.mk.injEq]
  constructor
  · intro hc
    have c1 := hc im.bounds.xmin im.bounds.ymin
    have c2 := hc (im.bounds.xmin + im.bounds.deltax - 1) (im.bounds.ymin + im.bounds.deltay - 1)
    have c3 := hc ox oy
    have c4 := hc ux uy
    omega
  · rintro ⟨⟨rfl, rfl⟩, rfl, rfl⟩ x y
    omega

theorem sameShape_iff {im r : Image} (h : im.Live) (hr : r.bounds.OK) (hd : r.bounds.defined = true) (t : Pos ℤ) :
    SameShape (coordMap im) (coordMap r) t ↔ r.bounds.deltax = im.bounds.deltax ∧
      r.bounds.deltay = im.bounds.deltay ∧ t = ⟨im.bounds.xmin - r.bounds.xmin, im.bounds.ymin - r.bounds.ymin⟩ := by
  have h1 := h.ok.1.mp h.defd
  have h2 := hr.1.mp hd
  have key : SameShape (coordMap im) (coordMap r) t ↔
      ∀ x y, (inRect im.bounds x y ↔ inRect r.bounds (x - t.x) (y - t.y)) := by
    unfold SameShape
    refine forall_congr' fun x => forall_congr' fun y => ?_
    rw [Bool.eq_iff_iff, isSome_coordMap, isSome_coordMap]
    simp only [h.defd, hd, true_and]
  rw [key]
  unfold inRect
  obtain ⟨tx, ty⟩ := t
  simp only [Pos.mk.injEq]
  constructor
  · intro hc
    have c1 := hc im.bounds.xmin im.bounds.ymin
    have c2 := hc (im.bounds.xmin + im.bounds.deltax - 1) (im.bounds.ymin + im.bounds.deltay - 1)
    have c3 := hc (r.bounds.xmin + tx) (r.bounds.ymin + ty)
    have c4 := hc (r.bounds.xmin + r.bounds.deltax - 1 + tx) (r.bounds.ymin + r.bounds.deltay - 1 + ty)
    omega
  · rintro ⟨e1, e2, rfl, rfl⟩ x y
    omega

theorem shape_hw {r : Image} (hs : r.ShapeOK) (hd : r.bounds.defined = true) :
    (r.arr.h : ℤ) = r.bounds.deltay ∧ (r.arr.w : ℤ) = r.bounds.deltax := by
  have := hs hd
  simp only [Bounds.numpyShape, hd, if_true, Prod.mk.injEq] at this
  exact this

theorem bcast_of_shape {im r : Image} (h : im.Live) (hs : r.ShapeOK) (hd : r.bounds.defined = true)
    (e1 : r.bounds.deltax = im.bounds.deltax) (e2 : r.bounds.deltay = im.bounds.deltay) :
    ∃ g, r.arr.bcast im.arr.h im.arr.w = some g ∧ ∀ i j, g i j = r.arr.at' i j := by
  have h1 := h.h
  have h2 := h.w
  have h3 := shape_hw hs hd
  have a1 : r.arr.h = im.arr.h := by omega
  have a2 : r.arr.w = im.arr.w := by omega
  refine ⟨fun i j => r.arr.at' (if r.arr.h = im.arr.h then i else 0) (if r.arr.w = im.arr.w then j else 0), ?_, ?_⟩
  · unfold Arr.bcast; rw [if_pos ⟨Or.inl a1, Or.inl a2⟩]
  · intro i j; simp only [a1, a2, if_true]

theorem coordMap_rel {im r : Image} (h : im.Live) (hd : r.bounds.defined = true)
    (e1 : r.bounds.deltax = im.bounds.deltax) (e2 : r.bounds.deltay = im.bounds.deltay) (x y : ℤ) :
    coordMap r (x - (im.bounds.xmin - r.bounds.xmin)) (y - (im.bounds.ymin - r.bounds.ymin)) =
      if im.bounds.defined = true ∧ inRect im.bounds x y then
        some (r.arr.at' (y - im.bounds.ymin).toNat (x - im.bounds.xmin).toNat) else none := by
  unfold coordMap inRect
  by_cases hin : im.bounds.defined = true ∧
      (im.bounds.xmin ≤ x ∧ x < im.bounds.xmin + im.bounds.deltax) ∧
        im.bounds.ymin ≤ y ∧ y < im.bounds.ymin + im.bounds.deltay
  · rw [if_pos hin, if_pos ⟨hd, by omega⟩]
    congr 3 <;> omega
  · rw [if_neg hin, if_neg]
    rintro ⟨-, hh⟩
    exact hin ⟨h.defd, by omega⟩

/-- One call: the image follows the specification and raises exactly when it says so. -/
theorem step_refines {im : Image} (h : im.Live) {o : Op} (ho : o.Covered) :
    (im.step o).1.Live ∧ (im.step o).1.isInt = im.isInt ∧
    coordMap (im.step o).1 = (specStep im.isInt (coordMap im) o).1 ∧
    ((im.step o).2.isSome = true ↔ (specStep im.isInt (coordMap im) o).2 = true) := by
  cases o with
  | setValue p v =>
    have hu := updPixel_spec h p fun _ => rawCast im.isInt v
    simp only [Image.step, guarded_mut h.mutbl, specStep]
    refine ⟨hu.1, ?_, ?_⟩
    · unfold Image.updPixel; split_ifs <;> rfl
    · have := hu.2
      cases hc : coordMap im p.x p.y with
      | none => rw [hc] at this; simp only at this ⊢; rw [this.1, this.2]; simp
      | some u => rw [hc] at this; simp only at this ⊢; rw [this.1, this.2]; simp
  | addValue p v =>
    have hu := updPixel_spec h p fun x => x + rawCast im.isInt v
    simp only [Image.step, guarded_mut h.mutbl, specStep]
    refine ⟨hu.1, ?_, ?_⟩
    · unfold Image.updPixel; split_ifs <;> rfl
    · have := hu.2
      cases hc : coordMap im p.x p.y with
      | none => rw [hc] at this; simp only at this ⊢; rw [this.1, this.2]; simp
      | some u => rw [hc] at this; simp only at this ⊢; rw [this.1, this.2]; simp
  | fill v =>
    simp only [Image.step, guarded_mut h.mutbl, specStep, h.defd, Bool.not_true, Bool.false_eq_true,
      if_false]
    refine ⟨Live.update h _ rfl rfl, trivial, ?_, by simp⟩
    funext x y
    rw [coordMap_mapIdx]
  | setZero =>
    simp only [Image.step, guarded_mut h.mutbl, specStep]
    refine ⟨Live.update h _ rfl rfl, trivial, ?_, by simp⟩
    funext x y
    rw [coordMap_mapIdx]
  | invertSelf =>
    simp only [Image.step, guarded_mut h.mutbl, specStep, h.defd, Bool.not_true, Bool.false_eq_true,
      if_false]
    refine ⟨Live.update h _ rfl rfl, trivial, ?_, by simp⟩
    funext x y
    rw [coordMap_mapIdx]
    congr 1
    funext u
    unfold invPixel
    by_cases hu : u = 0
    · rw [if_pos hu, if_pos hu]
    · rw [if_neg hu, if_neg hu, if_neg hu]
  | replaceNegative v =>
    simp only [Image.step, guarded_mut h.mutbl, specStep]
    refine ⟨Live.update h _ rfl rfl, trivial, ?_, by simp⟩
    funext x y
    rw [coordMap_mapIdx]
  | shift d py =>
    obtain ⟨e1, e2⟩ := shiftBy_live h d py ho
    exact ⟨e1, rfl, e2, by simp [Image.step, specStep]⟩
  | setOrigin p py =>
    have hpy : py = true := ho
    obtain ⟨e1, e2⟩ := shiftBy_live h ⟨p.x - im.bounds.xmin, p.y - im.bounds.ymin⟩ (py && im.bounds.posPy)
      (by rw [h.static, hpy]; rfl)
    have hex : ∃ c : Pos ℤ × Pos ℤ, Corners (coordMap im) c.1 c.2 :=
      ⟨(_, _), (corners_iff h _ _).mpr ⟨rfl, rfl⟩⟩
    have hc := ((corners_iff h _ _).mp hex.choose_spec).1
    refine ⟨e1, rfl, ?_, by simp [Image.step, specStep, hex]⟩
    simp only [Image.step, specStep]
    rw [dif_pos hex, e2]
    funext x y
    simp only [hc]
    congr 1 <;> ring
  | setCenter p py =>
    have hpy : py = true := ho
    have hcen : im.bounds.centerI =
        some ⟨im.bounds.xmin + im.bounds.deltax / 2, im.bounds.ymin + im.bounds.deltay / 2⟩ := by
      unfold Bounds.centerI; rw [if_neg (by simp [h.defd])]
    obtain ⟨e1, e2⟩ := shiftBy_live h ⟨p.x - (im.bounds.xmin + im.bounds.deltax / 2),
      p.y - (im.bounds.ymin + im.bounds.deltay / 2)⟩ (py && im.bounds.posPy) (by rw [h.static, hpy]; rfl)
    have hex : ∃ c : Pos ℤ × Pos ℤ, Corners (coordMap im) c.1 c.2 :=
      ⟨(_, _), (corners_iff h _ _).mpr ⟨rfl, rfl⟩⟩
    have hc := (corners_iff h _ _).mp hex.choose_spec
    simp only [Image.step, hcen]
    refine ⟨e1, rfl, ?_, by simp [specStep, hex]⟩
    simp only [specStep]
    rw [dif_pos hex, e2]
    funext x y
    simp only [hc.1, hc.2]
    rw [show im.bounds.xmin + im.bounds.deltax - 1 - im.bounds.xmin + 1 = im.bounds.deltax by ring,
      show im.bounds.ymin + im.bounds.deltay - 1 - im.bounds.ymin + 1 = im.bounds.deltay by ring]
    congr 1 <;> ring
  | resize b =>
    obtain ⟨hb, hs, hd⟩ := ho
    have h1 := hb.1.mp hd
    have hne : b.deltay * b.deltax ≠ 0 := mul_ne_zero (by omega) (by omega)
    have hm : makeEmpty b.numpyShape = some ⟨b.deltay.toNat, b.deltax.toNat, fun _ _ => 0⟩ := by
      unfold makeEmpty Bounds.numpyShape
      rw [if_pos hd, if_neg hne, if_neg (by simp only; omega)]
    simp only [Image.step, guarded_mut h.mutbl, specStep, hm]
    refine ⟨⟨hb, fun _ => ?_, hd, h.mutbl, hs⟩, trivial, ?_, by simp⟩
    · simp only [Bounds.numpyShape, hd, if_true, Prod.mk.injEq]; omega
    · funext x y
      unfold coordMap
      simp only [hd, true_and]
  | copyFrom rhs =>
    obtain ⟨hr, hrs, hrd⟩ := ho
    simp only [Image.step, guarded_mut h.mutbl, specStep]
    by_cases hsz : rhs.bounds.deltax = im.bounds.deltax ∧ rhs.bounds.deltay = im.bounds.deltay
    · have hsh : im.bounds.numpyShape = rhs.bounds.numpyShape := (numpyShape_eq_iff h.ok h.defd hr).mpr hsz
      have hex : ∃ t, SameShape (coordMap im) (coordMap rhs) t :=
        ⟨_, (sameShape_iff h hr hrd _).mpr ⟨hsz.1, hsz.2, rfl⟩⟩
      have ht := ((sameShape_iff h hr hrd _).mp hex.choose_spec).2.2
      obtain ⟨g, hg, hg'⟩ := bcast_of_shape h hrs hrd hsz.1 hsz.2
      rw [if_neg (by simp [hsh]), dif_pos hex, hg]
      refine ⟨Live.update h _ rfl rfl, rfl, ?_, by simp⟩
      funext x y
      rw [coordMap_mapIdx, ht]
      simp only
      rw [coordMap_rel h hrd hsz.1 hsz.2]
      unfold coordMap
      split_ifs with hin
      · simp only [Option.map_some, hg']
      · rfl
    · have hne : im.bounds.numpyShape ≠ rhs.bounds.numpyShape := fun he =>
        hsz ((numpyShape_eq_iff h.ok h.defd hr).mp he)
      have hnex : ¬ ∃ t, SameShape (coordMap im) (coordMap rhs) t := by
        rintro ⟨t, ht⟩
        have := (sameShape_iff h hr hrd _).mp ht
        exact hsz ⟨this.1, this.2.1⟩
      rw [if_pos hne, dif_neg hnex]
      exact ⟨h, rfl, rfl, by simp⟩
  | inplace f intOnly direct rhs =>
    cases rhs with
    | array a => exact absurd ho (by simp [Op.Covered])
    | scalar v =>
      simp only [Image.step, specStep, Operand.values]
      by_cases hi : intOnly = true ∧ im.isInt = false
      · have hb : (intOnly && intRejected im.isInt (.scalar v)) = true := by simp [intRejected, hi.1, hi.2]
        rw [if_pos hb, if_pos hi]
        exact ⟨h, rfl, rfl, by simp⟩
      · have hb : ¬ (intOnly && intRejected im.isInt (.scalar v)) = true := by simpa [intRejected] using hi
        rw [if_neg hb, if_neg hi]
        refine ⟨Live.update h _ rfl rfl, rfl, ?_, by simp⟩
        funext x y
        rw [coordMap_mapIdx]
        cases direct <;> rfl
    | image r =>
      obtain ⟨hr, hrs, hrd⟩ := ho
      simp only [Image.step, specStep, Operand.values]
      by_cases hi : intOnly = true ∧ im.isInt = false
      · have hb : (intOnly && intRejected im.isInt (.image r)) = true := by simp [intRejected, hi.1, hi.2]
        rw [if_pos hb, if_pos hi]
        exact ⟨h, rfl, rfl, by simp⟩
      by_cases hi2 : intOnly = true ∧ r.isInt = false
      · have hb : (intOnly && intRejected im.isInt (.image r)) = true := by simp [intRejected, hi2.1, hi2.2]
        rw [if_pos hb, if_neg hi, if_pos hi2]
        exact ⟨h, rfl, rfl, by simp⟩
      have hb : ¬ (intOnly && intRejected im.isInt (.image r)) = true := by
        simp only [intRejected, Bool.and_eq_true, Bool.or_eq_true, Bool.not_eq_true']
        rintro ⟨a1, a2 | a2⟩
        · exact hi ⟨a1, a2⟩
        · exact hi2 ⟨a1, a2⟩
      rw [if_neg hb, if_neg hi, if_neg hi2]
      have hrh := shape_hw hrs hrd
      by_cases hsz : r.bounds.deltax = im.bounds.deltax ∧ r.bounds.deltay = im.bounds.deltay
      · have hex : ∃ t, SameShape (coordMap im) (coordMap r) t :=
          ⟨_, (sameShape_iff h hr hrd _).mpr ⟨hsz.1, hsz.2, rfl⟩⟩
        have ht := ((sameShape_iff h hr hrd _).mp hex.choose_spec).2.2
        have hb : ¬ (r.arr.h ≠ im.arr.h ∨ r.arr.w ≠ im.arr.w) := by have := h.h; have := h.w; omega
        rw [if_neg hb, dif_pos hex]
        refine ⟨Live.update h _ rfl rfl, rfl, ?_, by simp⟩
        funext x y
        rw [coordMap_mapIdx, ht]
        simp only
        rw [coordMap_rel h hrd hsz.1 hsz.2]
        unfold coordMap
        by_cases hin : im.bounds.defined = true ∧ inRect im.bounds x y
        · rw [if_pos hin]
          rw [if_pos hin]
          cases direct <;> rfl
        · rw [if_neg hin]
          cases direct <;> rfl
      · have hnex : ¬ ∃ t, SameShape (coordMap im) (coordMap r) t := by
          rintro ⟨t, ht⟩
          have := (sameShape_iff h hr hrd _).mp ht
          exact hsz ⟨this.1, this.2.1⟩
        have hb : r.arr.h ≠ im.arr.h ∨ r.arr.w ≠ im.arr.w := by have := h.h; have := h.w; omega
        rw [if_pos hb, dif_neg hnex]
        exact ⟨h, rfl, rfl, by simp⟩
  | setSubImage b rhs =>
    obtain ⟨hb, hbs, hr, hrs⟩ := ho
    simp only [Image.step, guarded_mut h.mutbl, specStep]
    have hinc := includesB_iff_rect (a := im.bounds) hb
    by_cases hin : im.bounds.includesB clsI b = true
    · have hr2 := hinc.mp hin
      have d2 : b.defined = true := by
        simp only [Bounds.includesB, Bool.and_eq_true] at hin
        exact hin.1.1.1.1.2
      by_cases hsz : rhs.bounds.deltax = b.deltax ∧ rhs.bounds.deltay = b.deltay
      · obtain ⟨a, e1, e2, e3, e4⟩ := setSub_included h.shape hb hin hr hrs hsz.1 hsz.2
        rw [if_pos ⟨hr2.1, fun x y hxy => (isSome_coordMap x y).mpr (hr2.2 x y hxy), hsz⟩, e1]
        refine ⟨Live.update h _ e2 e3, rfl, e4, by simp⟩
      · rw [if_neg (fun hh => hsz hh.2.2)]
        have hne : b.numpyShape ≠ rhs.bounds.numpyShape := fun he =>
          hsz ((numpyShape_eq_iff hb d2 hr).mp he)
        unfold Image.setSub
        rw [if_neg (by simp [h.defd]), if_neg (by simp [hin]), if_pos hne]
        exact ⟨h, rfl, rfl, by simp⟩
    · rw [if_neg]
      · unfold Image.setSub
        rw [if_neg (by simp [h.defd]), if_pos (by simp [h.static, hbs, hin])]
        exact ⟨h, rfl, rfl, by simp⟩
      · rintro ⟨h1, h2, -⟩
        exact hin (hinc.mpr ⟨h1, fun x y hxy => (isSome_coordMap x y).mp (h2 x y hxy)⟩)
  | _ => exact absurd ho (by simp [Op.Covered])

/-- The specification run on a list of calls. -/
noncomputable def specRun (isInt : Bool) (m : CMap) (ops : List Op) : CMap :=
  ops.foldl (fun m o => (specStep isInt m o).1) m

/-- C20: after any sequence of calls, every pixel read returns what the coordinate map updated by
the same calls holds; outside the map the read raises. -/
theorem C20_reads_latest_write (im : Image) (h : im.Live) (ops : List Op)
    (ho : ∀ o ∈ ops, o.Covered) (p : Pos ℤ) :
    (im.run ops).getValue p = match specRun im.isInt (coordMap im) ops p.x p.y with
      | some v => .ok v
      | none => .error .outOfBounds := by
  have : (im.run ops).Live ∧ coordMap (im.run ops) = specRun im.isInt (coordMap im) ops := by
    induction ops generalizing im with
    | nil => exact ⟨h, rfl⟩
    | cons o ops ih =>
      have hs := step_refines h (ho o (by simp))
      have := ih (im.step o).1 hs.1 (fun o' h' => ho o' (by simp [h']))
      rw [hs.2.1, hs.2.2.1] at this
      exact this
  rw [getValue_eq this.1.defd this.1.shape, this.2]

/-- C20: a call raises exactly when the specification says so, and then changes nothing. -/
theorem C20_raises_iff (im : Image) (h : im.Live) (o : Op) (ho : o.Covered) :
    ((im.step o).2.isSome = true ↔ (specStep im.isInt (coordMap im) o).2 = true) ∧
    ((im.step o).2.isSome = true → (im.step o).1 = im) := by
  refine ⟨(step_refines h ho).2.2.2, fun hr => ?_⟩
  obtain ⟨e, he⟩ := Option.isSome_iff_exists.mp hr
  refine C19_raise_unchanged_partial im h.shape h.ok o e he ?_
  rintro mode b rfl
  exact absurd ho (by simp [Op.Covered])

/-- C20: `setOrigin`/`setCenter` relabel: the new lower left pixel / central pixel has the requested
coordinates and the values do not change. -/
theorem C20_relabel (im : Image) (h : im.Live) (p : Pos ℤ) :
    (coordMap (im.step (.setOrigin p true)).1 =
      fun x y => coordMap im (x - p.x + im.bounds.xmin) (y - p.y + im.bounds.ymin)) ∧
    (im.step (.setOrigin p true)).1.bounds.xmin = p.x ∧
    (im.step (.setOrigin p true)).1.bounds.ymin = p.y ∧
    (im.step (.setCenter p true)).1.bounds.centerI = some p ∧
    (coordMap (im.step (.setCenter p true)).1 = fun x y =>
      coordMap im (x - p.x + im.bounds.xmin + im.bounds.deltax / 2)
        (y - p.y + im.bounds.ymin + im.bounds.deltay / 2)) := by
  have hc : im.bounds.centerI =
      some ⟨im.bounds.xmin + im.bounds.deltax / 2, im.bounds.ymin + im.bounds.deltay / 2⟩ := by
    unfold Bounds.centerI; rw [if_neg (by simp [h.defd])]
  have hsh : ∀ d : Pos ℤ, coordMap (im.shiftBy d true) = fun x y => coordMap im (x - d.x) (y - d.y) :=
    fun d => (step_refines h (o := .shift d true) rfl).2.2.1
  simp only [Image.step, hc, h.static, Bool.and_self]
  refine ⟨?_, ?_, ?_, ?_, ?_⟩
  · rw [hsh]; funext x y; congr 1 <;> simp only <;> ring
  · show im.bounds.xmin + (p.x - im.bounds.xmin) = p.x; ring
  · show im.bounds.ymin + (p.y - im.bounds.ymin) = p.y; ring
  · unfold Bounds.centerI
    rw [if_neg]
    · congr 1
      show Pos.mk (im.bounds.xmin + (p.x - (im.bounds.xmin + im.bounds.deltax / 2)) +
          im.bounds.deltax / 2) (im.bounds.ymin + (p.y - (im.bounds.ymin + im.bounds.deltay / 2)) +
          im.bounds.deltay / 2) = p
      cases p; simp only [Pos.mk.injEq]; constructor <;> ring
    · have := shift_defined h.ok ⟨p.x - (im.bounds.xmin + im.bounds.deltax / 2),
        p.y - (im.bounds.ymin + im.bounds.deltay / 2)⟩ true
      have h2 : (im.shiftBy ⟨p.x - (im.bounds.xmin + im.bounds.deltax / 2),
        p.y - (im.bounds.ymin + im.bounds.deltay / 2)⟩ true).bounds.defined = true := by
        rw [← h.defd]; exact this
      simp [h2]
  · rw [hsh]; funext x y; congr 1 <;> simp only <;> ring

/-- The image used in the examples: 3 columns, 2 rows, origin `(10, -1)`, pixel `(row, col) = 10*row + col`. -/
def exIm (isInt : Bool) : Image :=
  ⟨⟨2, 3, fun i j => ((10 * i + j : ℕ) : ℝ)⟩, pyB 10 12 (-1) 0, some false, isInt⟩

theorem exIm_live (k : Bool) : (exIm k).Live :=
  ⟨mk4_ok 10 12 (-1) 0, fun _ => rfl, rfl, rfl, rfl⟩

/-- A run covered by C20: write a pixel, shift, add to it, write a sub-image, fail outside. -/
example : (exIm false).Live ∧ ∀ o ∈ [Op.setValue ⟨11, 0⟩ 7, .shift ⟨1, 1⟩ true, .addValue ⟨12, 1⟩ 2,
    .setSubImage (pyB 11 12 0 1) ((⟨⟨2, 2, fun _ _ => 3⟩, pyB 1 2 1 2, some false, false⟩ : Image)),
    .setValue ⟨0, 0⟩ 1], o.Covered := by
  refine ⟨exIm_live false, ?_⟩
  intro o ho
  simp only [List.mem_cons, List.not_mem_nil, or_false] at ho
  rcases ho with rfl | rfl | rfl | rfl | rfl
  · trivial
  · rfl
  · trivial
  · exact ⟨mk4_ok _ _ _ _, rfl, mk4_ok _ _ _ _, fun _ => rfl⟩
  · trivial

/-- Another run covered by C20: in-place arithmetic, `copyFrom`, re-centring and `resize`. -/
example : ∀ o ∈ [Op.inplace (fun u v => u - v) false false (.image (exIm false)), .copyFrom (exIm false),
    .setCenter ⟨3, 4⟩ true, .inplace (fun u v => u * v) false true (.scalar 2), .resize (pyB 1 4 2 7)],
    o.Covered := by
  intro o ho
  simp only [List.mem_cons, List.not_mem_nil, or_false] at ho
  have h := exIm_live false
  rcases ho with rfl | rfl | rfl | rfl | rfl
  · exact ⟨h.ok, h.shape, rfl⟩
  · exact ⟨h.ok, h.shape, rfl⟩
  · rfl
  · trivial
  · exact ⟨mk4_ok _ _ _ _, rfl, rfl⟩

/-- The specification itself is not degenerate: a pixel reads back what was last put there. -/
example (m : CMap) (h : m 3 4 = some 1) :
    specRun false m [.setValue ⟨3, 4⟩ 5, .addValue ⟨3, 4⟩ 2, .shift ⟨1, 0⟩ true] 4 4 = some 7 := by
  simp [specRun, specStep, h, rawCast]
  norm_num

/-- Disagreement: with jax-array coordinates (e.g. bounds made by `b1 & b2`) writing a sub-image
outside the image neither raises nor leaves the image unchanged: it overwrites other pixels
(`BoundsI(100, 100, 5, 5)` in a 3x2 image overwrites its last pixel). -/
theorem C20_nonstatic_counterexample :
    let b := Bounds.mk4 clsI ⟨100, false⟩ ⟨100, true⟩ ⟨5, false⟩ ⟨5, true⟩
    let rhs : Image := ⟨⟨1, 1, fun _ _ => 42⟩, pyB 1 1 1 1, some false, false⟩
    let r := (exIm false).step (.setSubImage b rhs)
    (exIm false).bounds.includesB clsI b = false ∧ r.2 = none ∧
      coordMap (exIm false) 12 0 = some 12 ∧ coordMap r.1 12 0 = some 42 := by
  intro b rhs r
  have hr : r = (Image.mk ((exIm false).arr.dynamicUpdate
      (rhs.arr.mapIdx fun _ _ x => safeCast false x) 6 90) (pyB 10 12 (-1) 0) (some false) false, none) := rfl
  rw [hr]
  refine ⟨rfl, rfl, ?_, ?_⟩
  · have : coordMap (exIm false) 12 0 = some (((10 * 1 + 2 : ℕ) : ℝ)) := rfl
    rw [this]; norm_num
  · have : coordMap (Image.mk ((exIm false).arr.dynamicUpdate
      (rhs.arr.mapIdx fun _ _ x => safeCast false x) 6 90) (pyB 10 12 (-1) 0) (some false) false) 12 0 = some (safeCast false 42) := rfl
    rw [this]; rfl

/-! ### C21 -/

theorem roundEven_int (n : ℤ) : roundEven (n : ℝ) = n := by
  unfold roundEven
  rw [Int.floor_intCast, if_pos (by norm_num)]

/-- Integer images hold integers. -/
def Image.IntOK (im : Image) : Prop :=
  im.isInt = true → ∀ x y v, coordMap im x y = some v → ∃ n : ℤ, v = n

/-- C21: for bounds inside the image (python or jax coordinates), `subImage(b)` succeeds, has bounds
`b`, and holds exactly the image's pixels on `b`. -/
theorem C21_subImage (im : Image) (hs : im.ShapeOK) (b : Bounds ℤ) (hb : b.OK)
    (hin : im.bounds.includesB clsI b = true) :
    ∃ s, im.subImage b = .ok s ∧ s.bounds.eq clsI b = true ∧ s.bounds.OK ∧ s.ShapeOK ∧
      s.isInt = im.isInt ∧
      coordMap s = fun x y => if inRect b x y then coordMap im x y else none := by
  have hin' := hin
  simp only [Bounds.includesB, Bool.and_eq_true, decide_eq_true_eq] at hin'
  rw [xmaxI, ymaxI, xmaxI, ymaxI] at hin'
  obtain ⟨⟨⟨⟨⟨d1, d2⟩, x1⟩, x2⟩, y1⟩, y2⟩ := hin'
  have hge := hb.1.mp d2
  have s1 := hs d1
  simp only [Bounds.numpyShape, d1, if_true, Prod.mk.injEq] at s1
  have key : ∀ a : Arr ℝ, (a.h : ℤ) = b.deltay → (a.w : ℤ) = b.deltax →
      (∀ i j : ℕ, a.at' i j = im.arr.at' ((b.ymin - im.bounds.ymin).toNat + i)
        ((b.xmin - im.bounds.xmin).toNat + j)) →
      ∃ s, Image.ofArrayBounds a b im.isInt false = .ok s ∧ s.bounds.eq clsI b = true ∧
        s.bounds.OK ∧ s.ShapeOK ∧ s.isInt = im.isInt ∧
        coordMap s = fun x y => if inRect b x y then coordMap im x y else none := by
    intro a ha hw hat
    have hex : ∃ s, Image.ofArrayBounds a b im.isInt false = .ok s ∧ s.arr = a ∧
        s.bounds = Bounds.mkDelta clsI ⟨b.xmin, b.posPy⟩ ⟨a.w, true⟩ ⟨b.ymin, b.posPy⟩ ⟨a.h, true⟩ ∧
        s.isInt = im.isInt := by
      unfold Image.ofArrayBounds
      rw [if_pos d2, if_neg (by push Not; exact ⟨hw.symm, ha.symm⟩)]
      exact ⟨_, rfl, rfl, rfl, rfl⟩
    obtain ⟨s, e1, e2, e3, e4⟩ := hex
    have hok := ofArrayBounds_ok e1
    have e5 : s.bounds.xmin = b.xmin := by rw [e3]; rfl
    have e6 : s.bounds.ymin = b.ymin := by rw [e3]; rfl
    have e7 : s.bounds.deltax = b.deltax := by rw [e3, ← hw]; rfl
    have e8 : s.bounds.deltay = b.deltay := by rw [e3, ← ha]; rfl
    have hd : s.bounds.defined = true := hok.1.1.mpr (by omega)
    refine ⟨s, e1, ?_, hok.1, hok.2, e4, ?_⟩
    · simp [Bounds.eq, Bounds.initargs, hd, d2, e5, e6, e7, e8, clsI]
    · funext x y
      unfold coordMap
      have hiff : inRect s.bounds x y ↔ inRect b x y := by
        unfold inRect; rw [e5, e6, e7, e8]
      by_cases hxy : inRect b x y
      · have hxy2 := hxy
        obtain ⟨⟨c1, c2⟩, c3, c4⟩ := hxy2
        rw [if_pos ⟨hd, hiff.mpr hxy⟩, if_pos hxy,
          if_pos ⟨d1, ⟨by omega, by omega⟩, by omega, by omega⟩, e2, hat, e5, e6]
        congr 2 <;> omega
      · rw [if_neg (fun h => hxy (hiff.mp h.2)), if_neg hxy]
  unfold Image.subImage
  rw [if_neg (by simp [d1])]
  by_cases hst : (im.bounds.posPy && b.posPy) = true
  · rw [if_pos hst, if_neg (by simp [hin])]
    refine key _ ?_ ?_ ?_
    · simp only [Arr.slice, ymaxI]; omega
    · simp only [Arr.slice, xmaxI]; omega
    · intro i j; rfl
  · rw [if_neg hst]
    have hsl : im.arr.dynSlice (b.ymin - im.bounds.ymin) (b.xmin - im.bounds.xmin) b.numpyShape.1
        b.numpyShape.2 = some ⟨b.deltay.toNat, b.deltax.toNat, fun k l =>
          im.arr.at' (dusStart (b.ymin - im.bounds.ymin) im.arr.h b.deltay.toNat + k)
            (dusStart (b.xmin - im.bounds.xmin) im.arr.w b.deltax.toNat + l)⟩ := by
      unfold Arr.dynSlice
      have : b.numpyShape = (b.deltay, b.deltax) := by unfold Bounds.numpyShape; rw [if_pos d2]
      rw [this, if_pos ⟨by omega, by omega, by omega, by omega⟩]
    rw [hsl]
    simp only
    refine key _ ?_ ?_ ?_
    · simp only; omega
    · simp only; omega
    · have st1 : dusStart (b.ymin - im.bounds.ymin) im.arr.h b.deltay.toNat =
          (b.ymin - im.bounds.ymin).toNat := by
        unfold dusStart
        rw [if_neg (by omega)]; omega
      have st2 : dusStart (b.xmin - im.bounds.xmin) im.arr.w b.deltax.toNat =
          (b.xmin - im.bounds.xmin).toNat := by
        unfold dusStart
        rw [if_neg (by omega)]; omega
      intro i j
      simp only [st1, st2]

/-- C21: writing an image of the right size to `b` and reading `b` back gives what was written
(converted to the dtype), the other pixels stay. -/
theorem C21_write_then_read (im : Image) (hs : im.ShapeOK) (hc : im.isConst = some false)
    (b : Bounds ℤ) (hb : b.OK) (hin : im.bounds.includesB clsI b = true) (rhs : Image)
    (hr : rhs.bounds.OK) (hrs : rhs.ShapeOK) (hx : rhs.bounds.deltax = b.deltax)
    (hy : rhs.bounds.deltay = b.deltay) :
    ∃ im' s, im.step (.setSubImage b rhs) = (im', none) ∧ im'.subImage b = .ok s ∧
      (∀ x y, inRect b x y → coordMap s x y =
        (coordMap rhs (x - b.xmin + rhs.bounds.xmin) (y - b.ymin + rhs.bounds.ymin)).map
          (safeCast im.isInt)) ∧
      (∀ x y, ¬ inRect b x y → coordMap im' x y = coordMap im x y) := by
  obtain ⟨a, e1, e2, e3, e4⟩ := setSub_included hs hb hin hr hrs hx hy
  have hs' : Image.ShapeOK { im with arr := a } := fun hd => by
    simp only [e2, e3]; exact hs hd
  obtain ⟨s, f1, -, -, -, -, f5⟩ := C21_subImage { im with arr := a } hs' b hb hin
  refine ⟨{ im with arr := a }, s, ?_, f1, ?_, ?_⟩
  · simp only [Image.step, guarded_mut hc, e1]
  · intro x y hxy
    rw [f5]; simp only [if_pos hxy]
    rw [e4]; simp only [if_pos hxy]
  · intro x y hxy
    rw [e4]; simp only [if_neg hxy]

/-- C21: writing a sub-image back where it came from changes nothing. -/
theorem C21_writeback_identity (im : Image) (hs : im.ShapeOK) (hi : im.IntOK)
    (hc : im.isConst = some false) (b : Bounds ℤ) (hb : b.OK)
    (hin : im.bounds.includesB clsI b = true) :
    ∃ s im', im.subImage b = .ok s ∧ im.step (.setSubImage b s) = (im', none) ∧
      im'.bounds = im.bounds ∧ coordMap im' = coordMap im := by
  obtain ⟨s, f1, f2, f3, f4, f5, f6⟩ := C21_subImage im hs b hb hin
  have d2 : b.defined = true := by
    simp only [Bounds.includesB, Bool.and_eq_true] at hin
    exact hin.1.1.1.1.2
  have hd : s.bounds.defined = true := by
    by_contra hd
    rw [Bool.not_eq_true] at hd
    simp [Bounds.eq, Bounds.initargs, hd, d2, clsI] at f2
  simp [Bounds.eq, Bounds.initargs, hd, d2, clsI] at f2
  obtain ⟨g1, g2, g3, g4⟩ := f2
  obtain ⟨a, e1, e2, e3, e4⟩ := setSub_included hs hb hin f3 f4 g2 g4
  refine ⟨s, { im with arr := a }, f1, ?_, rfl, ?_⟩
  · simp only [Image.step, guarded_mut hc, e1]
  · rw [e4]
    funext x y
    by_cases hxy : inRect b x y
    · rw [if_pos hxy, g1, g3, f6]
      have e5 : x - b.xmin + b.xmin = x := by ring
      have e6 : y - b.ymin + b.ymin = y := by ring
      rw [e5, e6]; simp only [if_pos hxy]
      cases hm : coordMap im x y with
      | none => rfl
      | some v =>
        rw [Option.map_some]
        unfold safeCast
        by_cases hint : im.isInt = true
        · obtain ⟨n, rfl⟩ := hi hint x y v hm
          rw [if_pos hint, roundEven_int]
        · rw [if_neg hint]
    · rw [if_neg hxy]

/-- C21: `copy()` of a defined image has equal bounds and pixels, whatever `make_const` is. -/
theorem C21_copy (im : Image) (hs : im.ShapeOK) (hb : im.bounds.OK)
    (hd : im.bounds.defined = true) (const : Bool) :
    ∃ s, im.copy const = .ok s ∧ s.bounds.eq clsI im.bounds = true ∧ coordMap s = coordMap im ∧
      s.isConst = some const := by
  have s1 := hs hd
  simp only [Bounds.numpyShape, hd, if_true, Prod.mk.injEq] at s1
  unfold Image.copy Image.ofArrayBounds
  rw [if_neg (by simp [hd]), if_pos hd, if_neg (by push Not; exact ⟨s1.2.symm, s1.1.symm⟩)]
  have hge := hb.1.mp hd
  have hdef := (mkDelta_ok im.bounds.xmin im.bounds.ymin im.arr.w im.arr.h im.bounds.posPy).1.mpr
    ⟨by show (1 : ℤ) ≤ (im.arr.w : ℤ); omega, by show (1 : ℤ) ≤ (im.arr.h : ℤ); omega⟩
  refine ⟨_, rfl, ?_, ?_, rfl⟩
  · simp [Bounds.eq, Bounds.initargs, hd, clsI]
    simp [Bounds.mkDelta, Bounds.finish, s1]
    omega
  · funext x y
    unfold coordMap
    simp only [hdef, hd]
    simp only [inRect, Bounds.mkDelta, Bounds.finish, s1]
    congr

/-- A sub-image of the example image. -/
example : (exIm true).ShapeOK ∧ (exIm true).IntOK ∧ (pyB 11 12 0 0).OK ∧
    (exIm true).bounds.includesB clsI (pyB 11 12 0 0) = true ∧
    coordMap (exIm true) 11 0 = some ((11 : ℕ) : ℝ) := by
  refine ⟨fun _ => rfl, ?_, mk4_ok _ _ _ _, rfl, rfl⟩
  intro _ x y v h
  unfold coordMap at h
  split_ifs at h
  cases h
  exact ⟨((10 * (y - (exIm true).bounds.ymin).toNat + (x - (exIm true).bounds.xmin).toNat : ℕ) : ℤ),
    (Int.cast_natCast _).symm⟩

/-! ### Conversion to integer pixels -/

/-- `n` is the integer nearest to `x`; halfway between two integers it is the even one. -/
def NearestEven (x : ℝ) (n : ℤ) : Prop := |x - n| ≤ 1 / 2 ∧ (|x - n| = 1 / 2 → Even n)

/-- C21: values stored in integer images by arithmetic are rounded to the nearest integer, ties to even; this
determines the stored value. -/
theorem C21_rounding (x : ℝ) : ∃ n : ℤ, safeCast true x = n ∧ NearestEven x n ∧ ∀ m, NearestEven x m → m = n := by
  have h1 := Int.floor_le x
  have h2 := Int.lt_floor_add_one x
  have hn : NearestEven x (roundEven x) := by
    unfold roundEven NearestEven
    split_ifs with a b c
    · refine ⟨?_, fun h => ?_⟩
      · rw [abs_of_nonneg (by linarith)]; linarith
      · rw [abs_of_nonneg (by linarith)] at h; linarith
    · refine ⟨by rw [b]; norm_num, fun _ => Int.even_iff.mpr c⟩
    · push_cast
      have e : x - (⌊x⌋ + 1) = -(1 / 2) := by linarith
      refine ⟨by rw [e]; norm_num, fun _ => ?_⟩
      rw [Int.even_iff]; omega
    · push_cast
      have e : x - (⌊x⌋ + 1) < 0 := by linarith
      have hb : 1 / 2 < x - ⌊x⌋ := lt_of_le_of_ne (not_lt.mp a) (Ne.symm b)
      refine ⟨by rw [abs_of_neg e]; linarith, fun h => ?_⟩
      rw [abs_of_neg e] at h; linarith
  refine ⟨roundEven x, rfl, hn, fun m hm => ?_⟩
  set n := roundEven x
  have hd : |((m - n : ℤ) : ℝ)| ≤ 1 := by
    push_cast
    have : (m : ℝ) - n = (x - n) - (x - m) := by ring
    rw [this]
    have := abs_sub (x - n) (x - m)
    linarith [hn.1, hm.1]
  have hd' : |m - n| ≤ 1 := by exact_mod_cast hd
  rcases abs_le.mp hd' with ⟨l, u⟩
  by_contra hne
  have hcase : m = n + 1 ∨ m = n - 1 := by omega
  have a1 := abs_le.mp hn.1
  have a2 := abs_le.mp hm.1
  have hev : Even n ∧ Even m := by
    rcases hcase with e | e
    · have em : (m : ℝ) = n + 1 := by exact_mod_cast e
      have ex : x - n = 1 / 2 := by linarith [a1.2, a2.1]
      have ex' : x - m = -(1 / 2) := by rw [em]; linarith
      exact ⟨hn.2 (by rw [ex]; norm_num), hm.2 (by rw [ex']; norm_num)⟩
    · have em : (m : ℝ) = n - 1 := by exact_mod_cast e
      have ex : x - n = -(1 / 2) := by linarith [a1.1, a2.2]
      have ex' : x - m = 1 / 2 := by rw [em]; linarith
      exact ⟨hn.2 (by rw [ex]; norm_num), hm.2 (by rw [ex']; norm_num)⟩
  have := Int.even_iff.mp hev.1
  have := Int.even_iff.mp hev.2
  omega

example : NearestEven (5 / 2) 2 ∧ ¬ NearestEven (5 / 2) 3 := by
  refine ⟨⟨by norm_num [abs_le], fun _ => by decide⟩, fun h => ?_⟩
  have := h.2 (by norm_num [abs_of_neg])
  exact absurd this (by decide)

end JG
