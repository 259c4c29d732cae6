import Verif.Model.InterpImage
import Verif.Props.ImagePix
import Verif.Props.FftSize
import Mathlib.Algebra.BigOperators.Intervals

/-!
C56: the zero-padded working image of an interpolated image.
-/

namespace JG.Interp

/-- Specification: the sum of the pixels. -/
noncomputable def total (im : Image) : ℝ := ∑ i ∈ Finset.range im.arr.h, ∑ j ∈ Finset.range im.arr.w, im.arr.at' i j

/-- Specification of C56: `r` shows the pixels of `im` at their coordinates and zeros around them. -/
structure PaddedOf (r im : Image) : Prop where
  keeps : ∀ x y v, coordMap im x y = some v → coordMap r x y = some v
  zeros : ∀ x y v, coordMap im x y = none → coordMap r x y = some v → v = 0
  flux : total r = total im

theorem sum_pad (n h : ℕ) (f : ℕ → ℝ) :
    ∑ i ∈ Finset.range (h + 2 * n), (if n ≤ i ∧ i < n + h then f (i - n) else 0) = ∑ i ∈ Finset.range h, f i := by
  rw [show h + 2 * n = n + h + n by ring, Finset.sum_range_add, Finset.sum_range_add]
  have h1 : ∑ i ∈ Finset.range n, (if n ≤ i ∧ i < n + h then f (i - n) else 0) = 0 :=
    Finset.sum_eq_zero fun i hi => by rw [Finset.mem_range] at hi; rw [if_neg]; omega
  have h2 : ∑ i ∈ Finset.range h, (if n ≤ n + i ∧ n + i < n + h then f (n + i - n) else 0) = ∑ i ∈ Finset.range h, f i :=
    Finset.sum_congr rfl fun i hi => by
      rw [Finset.mem_range] at hi; rw [if_pos (by omega), Nat.add_sub_cancel_left]
  have h3 : ∑ i ∈ Finset.range n, (if n ≤ n + h + i ∧ n + h + i < n + h then f (n + h + i - n) else 0) = 0 :=
    Finset.sum_eq_zero fun i hi => by rw [if_neg]; omega
  rw [h1, h2, h3]; ring

/-- The array of a live image in terms of its pixel map. -/
theorem at_of_coordMap {im : Image} (h : im.Live) (i j : ℕ) (hi : i < im.arr.h) (hj : j < im.arr.w) :
    coordMap im (im.bounds.xmin + j) (im.bounds.ymin + i) = some (im.arr.at' i j) := by
  have e1 := h.h
  have e2 := h.w
  unfold coordMap
  rw [if_pos ⟨h.defd, by unfold inRect; omega⟩]
  congr 2 <;> omega

theorem setCenter_bounds (im : Image) (h : im.Live) (p : Pos ℤ) :
    (im.step (.setCenter p true)).1.Live ∧
    (im.step (.setCenter p true)).1.bounds.xmin = p.x - im.bounds.deltax / 2 ∧
    (im.step (.setCenter p true)).1.bounds.ymin = p.y - im.bounds.deltay / 2 ∧
    (im.step (.setCenter p true)).1.bounds.deltax = im.bounds.deltax ∧
    (im.step (.setCenter p true)).1.bounds.deltay = im.bounds.deltay ∧
    (im.step (.setCenter p true)).1.arr = im.arr ∧ (im.step (.setCenter p true)).1.isInt = im.isInt := by
  have hc : im.bounds.centerI =
      some ⟨im.bounds.xmin + im.bounds.deltax / 2, im.bounds.ymin + im.bounds.deltay / 2⟩ := by
    unfold Bounds.centerI; rw [if_neg (by simp [h.defd])]
  simp only [Image.step, hc, h.static, Bool.and_self]
  refine ⟨(shiftBy_live h _ true rfl).1, ?_, ?_, rfl, rfl, rfl, rfl⟩
  · show im.bounds.xmin + (p.x - (im.bounds.xmin + im.bounds.deltax / 2)) = _; ring
  · show im.bounds.ymin + (p.y - (im.bounds.ymin + im.bounds.deltay / 2)) = _; ring

/-- The copy made by `_image` is a live float image with the pixels and shape of the original. -/
theorem workImage_live (im : Image) (h : im.Live) (rc : Bool) :
    (workImage rc im).Live ∧ (workImage rc im).arr = im.arr ∧ (workImage rc im).isInt = false ∧
    (workImage rc im).bounds.deltax = im.bounds.deltax ∧ (workImage rc im).bounds.deltay = im.bounds.deltay ∧
    (rc = true → (workImage rc im).bounds.xmin = -(im.bounds.deltax / 2) ∧
      (workImage rc im).bounds.ymin = -(im.bounds.deltay / 2)) ∧
    (rc = false → (workImage rc im).bounds = im.bounds) := by
  have hl : ({ im with isConst := some false, isInt := false } : Image).Live :=
    ⟨h.ok, h.shape, h.defd, rfl, h.static⟩
  cases rc with
  | false => exact ⟨hl, rfl, rfl, rfl, rfl, fun e => (nomatch e), fun _ => rfl⟩
  | true =>
    obtain ⟨h1, h2, h3, h4, h5, h6, h7⟩ := setCenter_bounds _ hl ⟨0, 0⟩
    exact ⟨h1, h6, h7, h4, h5, fun _ => ⟨h2.trans (zero_sub _), h3.trans (zero_sub _)⟩, fun e => (nomatch e)⟩

/-- The general form: the image lies centred on `(0, 0)` and the pad width is not negative. -/
theorem xim_padded (pf : ℝ) (im : Image) (h : im.Live) (hi : im.isInt = false)
    (hcx : im.bounds.xmin = -(im.bounds.deltax / 2)) (hcy : im.bounds.ymin = -(im.bounds.deltay / 2))
    (P : ℤ) (hP : padSize pf im.arr.h im.arr.w = some P) (hge : max (im.arr.h:ℤ) im.arr.w ≤ P) :
    ∃ r, xim pf im = .ok r ∧ PaddedOf r im ∧ r.Live ∧
      r.bounds.deltax = im.bounds.deltax + 2 * ((P - max (im.arr.h:ℤ) im.arr.w) / 2) ∧
      r.bounds.deltay = im.bounds.deltay + 2 * ((P - max (im.arr.h:ℤ) im.arr.w) / 2) ∧
      r.bounds.centerI = some ⟨0, 0⟩ := by
  obtain ⟨n, hn⟩ : ∃ n : ℕ, (n:ℤ) = (P - max (im.arr.h:ℤ) im.arr.w) / 2 :=
    ⟨((P - max (im.arr.h:ℤ) im.arr.w) / 2).toNat, by omega⟩
  have eh := h.h
  have ew := h.w
  have hdx : 0 < im.bounds.deltax := (h.ok.1.mp h.defd).1
  have hdy : 0 < im.bounds.deltay := (h.ok.1.mp h.defd).2
  unfold xim
  rw [hP]
  simp only
  rw [← hn]
  unfold zeroPad
  rw [if_neg (by omega)]
  simp only [Int.toNat_natCast]
  unfold Image.make
  simp only
  rw [if_neg (by omega)]
  simp only
  obtain ⟨a, ha⟩ : ∃ a : Arr ℝ, a = (⟨im.arr.h + 2 * n, im.arr.w + 2 * n, fun i j =>
    if (n ≤ i ∧ i < n + im.arr.h) ∧ n ≤ j ∧ j < n + im.arr.w then im.arr.at' (i - n) (j - n) else 0⟩ : Arr ℝ).mapIdx
      fun _ _ x => safeCast false x := ⟨_, rfl⟩
  rw [← ha]
  obtain ⟨x, hx⟩ : ∃ x : Image, x = ⟨a, Bounds.mkDelta clsI ⟨1, true⟩ ⟨((im.arr.w + 2 * n : ℕ) : ℤ), true⟩ ⟨1, true⟩
    ⟨((im.arr.h + 2 * n : ℕ) : ℤ), true⟩, some false, false⟩ := ⟨_, rfl⟩
  rw [← hx]
  have hxl : x.Live := by
    rw [hx]
    refine ⟨?_, ?_, ?_, rfl, rfl⟩
    · unfold Bounds.OK Bounds.mkDelta Bounds.finish
      simp [clsI]
      omega
    · intro _
      rw [ha]
      simp [Arr.mapIdx, Bounds.mkDelta, Bounds.finish, Bounds.numpyShape, clsI]
      omega
    · simp [Bounds.mkDelta, Bounds.finish, clsI]
      omega
  have xdx : x.bounds.deltax = im.bounds.deltax + 2 * n := by
    rw [hx]; show ((im.arr.w + 2 * n : ℕ) : ℤ) = _; push_cast; omega
  have xdy : x.bounds.deltay = im.bounds.deltay + 2 * n := by
    rw [hx]; show ((im.arr.h + 2 * n : ℕ) : ℤ) = _; push_cast; omega
  have xa : x.arr = a := by rw [hx]
  have xi : x.isInt = false := by rw [hx]
  obtain ⟨c1, c2, c3, c4, c5, c6, c7⟩ := setCenter_bounds x hxl ⟨0, 0⟩
  have cc := (C20_relabel x hxl ⟨0, 0⟩).2.2.2.1
  generalize (x.step (.setCenter ⟨0, 0⟩ true)).1 = x1 at *
  simp only [xdx, xdy, xa, xi] at c2 c3 c4 c5 c6 c7
  have hin : x1.bounds.includesB clsI im.bounds = true := by
    rw [includesB_iff_rect h.ok]
    refine ⟨⟨im.bounds.xmin, im.bounds.ymin, by unfold inRect; omega⟩, fun u v hr => ⟨c1.defd, ?_⟩⟩
    unfold inRect at hr ⊢
    rw [c2, c3, c4, c5]
    omega
  obtain ⟨b, e1, e2, e3, e4⟩ := setSub_included c1.shape h.ok hin h.ok h.shape rfl rfl
  have hstep : x1.step (.setSubImage im.bounds im) = ({ x1 with arr := b }, none) := by
    show x1.guarded _ = _
    rw [guarded_mut c1.mutbl, e1]
  rw [hstep]
  have rl : ({ x1 with arr := b } : Image).Live := by
    refine ⟨c1.ok, ?_, c1.defd, c1.mutbl, c1.static⟩
    intro hd
    have := c1.shape hd
    show ((b.h:ℤ), (b.w:ℤ)) = _
    rw [e2, e3]; exact this
  have cm : coordMap { x1 with arr := b } = fun x y => if inRect im.bounds x y then coordMap im x y else
      if inRect x1.bounds x y then some 0 else none := by
    rw [e4]
    funext u v
    by_cases hr : inRect im.bounds u v
    · simp only [if_pos hr, c7, sub_add_cancel]
      cases coordMap im u v <;> rfl
    · simp only [if_neg hr]
      unfold coordMap
      by_cases hr1 : inRect x1.bounds u v
      · rw [if_pos ⟨c1.defd, hr1⟩, if_pos hr1, c6, ha]
        simp only [Arr.mapIdx]
        rw [if_neg]
        · rfl
        · unfold inRect at hr hr1
          rw [c2, c3, c4, c5] at hr1
          rw [c2, c3]
          intro hc
          apply hr
          omega
      · rw [if_neg (fun hh => hr1 hh.2), if_neg hr1]
  have imr : ∀ u v, (∃ w, coordMap im u v = some w) ↔ inRect im.bounds u v := by
    intro u v
    unfold coordMap
    constructor
    · rintro ⟨w, hw⟩
      by_contra hc
      rw [if_neg (fun hh => hc hh.2)] at hw
      cases hw
    · intro hr; exact ⟨_, if_pos ⟨h.defd, hr⟩⟩
  refine ⟨_, rfl, ⟨?_, ?_, ?_⟩, rl, c4, c5, cc⟩
  · intro u v w hw
    rw [cm]
    show (if inRect im.bounds u v then coordMap im u v else _) = _
    rw [if_pos ((imr u v).mp ⟨w, hw⟩), hw]
  · intro u v w hw hr
    rw [cm] at hr
    have : ¬ inRect im.bounds u v := by
      intro hc; obtain ⟨w', hw'⟩ := (imr u v).mpr hc; rw [hw] at hw'; cases hw'
    simp only [if_neg this] at hr
    split_ifs at hr
    exact (Option.some.inj hr).symm
  · unfold total
    have hb : ∀ i j : ℕ, i < im.arr.h + 2 * n → j < im.arr.w + 2 * n →
        b.at' i j = if n ≤ i ∧ i < n + im.arr.h then
          (if n ≤ j ∧ j < n + im.arr.w then im.arr.at' (i - n) (j - n) else 0) else 0 := by
      intro i j hi' hj'
      have h1 : i < b.h := by rw [e2, c6, ha]; exact hi'
      have h2 : j < b.w := by rw [e3, c6, ha]; exact hj'
      have := at_of_coordMap rl i j h1 h2
      rw [cm] at this
      simp only [c2, c3] at this
      by_cases hr : (n ≤ i ∧ i < n + im.arr.h) ∧ n ≤ j ∧ j < n + im.arr.w
      · rw [if_pos hr.1, if_pos hr.2]
        rw [if_pos (by unfold inRect; omega)] at this
        have h3 := at_of_coordMap h (i - n) (j - n) (by omega) (by omega)
        rw [show im.bounds.xmin + ((j - n : ℕ) : ℤ) = 0 - (im.bounds.deltax + 2 * (n:ℤ)) / 2 + j by omega,
          show im.bounds.ymin + ((i - n : ℕ) : ℤ) = 0 - (im.bounds.deltay + 2 * (n:ℤ)) / 2 + i by omega] at h3
        rw [this] at h3
        exact Option.some.inj h3
      · rw [if_neg (by unfold inRect; omega), if_pos (by unfold inRect; rw [c2, c3, c4, c5]; omega)] at this
        rw [← Option.some.inj this]
        split_ifs with h3 h4
        · exact absurd ⟨h3, h4⟩ hr
        · rfl
        · rfl
    have eh' : b.h = im.arr.h + 2 * n := by rw [e2, c6, ha]; rfl
    have ew' : b.w = im.arr.w + 2 * n := by rw [e3, c6, ha]; rfl
    show ∑ i ∈ Finset.range b.h, ∑ j ∈ Finset.range b.w, b.at' i j = _
    rw [eh', ew', ← sum_pad n im.arr.h]
    refine Finset.sum_congr rfl fun i hi' => ?_
    rw [Finset.mem_range] at hi'
    rw [Finset.sum_congr rfl fun j hj => hb i j hi' (Finset.mem_range.mp hj)]
    split_ifs with hc
    · exact sum_pad n im.arr.w _
    · exact Finset.sum_const_zero

/-- C56: with recentring (the default), a square or rectangular image of fewer than 100000 padded pixels a
side is placed in the padded image with every pixel at the coordinates it has in `_image`, zeros around it
and the same total; the padding is the same on both sides and the centre stays at `(0, 0)`.  Missing for the
full claim: no recentring, and sizes of 100000 or more (counterexamples). -/
theorem C56_padding_partial (pf : ℝ) (im : Image) (h : im.Live)
    (hsmall : pf * max (im.arr.h:ℤ) im.arr.w ≤ 99999) (hsmall' : max (im.arr.h:ℤ) im.arr.w ≤ 99999) :
    ∃ r, xim pf (workImage true im) = .ok r ∧ PaddedOf r (workImage true im) ∧ r.Live ∧
      r.bounds.centerI = some ⟨0, 0⟩ ∧ total r = total im ∧
      (im.bounds.deltax ≤ r.bounds.deltax ∧ im.bounds.deltay ≤ r.bounds.deltay) ∧
      r.bounds.deltax - im.bounds.deltax = r.bounds.deltay - im.bounds.deltay ∧
      (pf * max (im.arr.h:ℤ) im.arr.w : ℝ) ≤ max r.bounds.deltax r.bounds.deltay + 1 := by
  obtain ⟨h1, h2, h3, h4, h5, h6, -⟩ := workImage_live im h true
  have eh := h.h
  have ew := h.w
  have hdx : 0 < im.bounds.deltax := (h.ok.1.mp h.defd).1
  obtain ⟨m, hm⟩ : ∃ m : ℤ, m = max (im.arr.h:ℤ) im.arr.w := ⟨_, rfl⟩
  have hm0 : 0 < m := by omega
  obtain ⟨s, hs⟩ : ∃ s : ℤ, s = if pf > 1 then ⌈pf * m⌉ else m := ⟨_, rfl⟩
  have hms : m ≤ s := by
    rw [hs]
    split_ifs with hc
    · have : (m:ℝ) ≤ pf * m := by
        have : (0:ℝ) < m := by exact_mod_cast hm0
        nlinarith
      exact_mod_cast this.trans (Int.le_ceil _)
    · exact le_refl _
  have hs1 : s < 100000 := by
    rw [hs]
    split_ifs with hc
    · have : ⌈pf * m⌉ ≤ 99999 := by
        rw [Int.ceil_le, hm]; exact_mod_cast hsmall
      omega
    · omega
  have hsp : pf * m ≤ s := by
    rw [hs]
    split_ifs with hc
    · exact Int.le_ceil _
    · have : (0:ℝ) < m := by exact_mod_cast hm0
      nlinarith
  obtain ⟨P, hP, -, -⟩ := C32_good_fft_size s (by omega)
  have hsP := C32_good_fft_size_ge_partial s P hs1 hP
  have hpad : padSize pf (workImage true im).arr.h (workImage true im).arr.w = some P := by
    rw [h2]; unfold padSize; simp only; rw [← hm, ← hs]; exact hP
  obtain ⟨r, r1, r2, r3, r4, r5, r6⟩ := xim_padded pf (workImage true im) h1 h3
    (by rw [h4]; exact (h6 rfl).1) (by rw [h5]; exact (h6 rfl).2) P hpad (by rw [h2, ← hm]; omega)
  rw [h2, ← hm] at r4 r5
  rw [h4] at r4
  rw [h5] at r5
  refine ⟨r, r1, r2, r3, r6, ?_, ⟨by omega, by omega⟩, by omega, ?_⟩
  · rw [r2.flux]; unfold total; rw [h2]
  · rw [← hm]
    have : s ≤ max r.bounds.deltax r.bounds.deltay + 1 := by omega
    have h9 : (s:ℝ) ≤ ((max r.bounds.deltax r.bounds.deltay + 1 : ℤ) : ℝ) := by exact_mod_cast this
    push_cast at h9
    push_cast
    linarith

/-- Disagreement: without recentring (`_recenter_image=False`, always passed by `_InterpolatedImage`) an
image with the usual origin `(1, 1)` does not fit in the unpadded working image, which is centred on
`(0, 0)`: the assignment raises. -/
theorem C56_counterexample_not_recentred :
    xim 1 (workImage false ⟨⟨2, 2, fun _ _ => 1⟩, pyB 1 2 1 2, some false, false⟩) = .error .outOfBounds := by
  obtain ⟨m, e, h1, h2, h3⟩ := C32_good_fft_size 2 (by norm_num)
  have hm : m = 2 := by
    have hle : m ≤ 2 := h3 2 ⟨0, Or.inl (by norm_num)⟩ (by norm_num)
    have hge : (1 : ℝ) < m := by norm_num at h2; linarith
    have hge : (1 : ℤ) < m := by exact_mod_cast hge
    omega
  subst hm
  unfold xim padSize workImage
  simp only [Nat.cast_ofNat, max_self, gt_iff_lt, lt_irrefl, if_false, Bool.false_eq_true, e]
  unfold zeroPad
  simp only [sub_self]
  rw [if_neg (by norm_num)]
  rfl

/-- Disagreement: a side of 131073 pixels is "padded" to 131072, a negative amount, which raises. -/
theorem C56_counterexample_large (im : Image) (h1 : im.arr.h = 131073) (h2 : im.arr.w = 131073) :
    xim 1 im = .error .valueError := by
  unfold xim padSize
  rw [h1, h2]
  simp only [Nat.cast_ofNat, max_self, gt_iff_lt, lt_irrefl, if_false]
  rw [C32_good_fft_size_counterexample]
  simp only
  unfold zeroPad
  rw [if_pos (by norm_num)]

/-- Non-vacuity of `C56_padding_partial`. -/
example : (exIm false).Live ∧ (4:ℝ) * max ((exIm false).arr.h:ℤ) (exIm false).arr.w ≤ 99999 := by
  refine ⟨exIm_live false, ?_⟩
  norm_num [exIm]

end JG.Interp
