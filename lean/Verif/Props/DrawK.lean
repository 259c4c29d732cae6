import Verif.Model.DrawImage
import Verif.Props.Place
import Verif.Props.FftSize
import Verif.Props.ProfileDraw
import Verif.Props.Stretch

/-!
Property C80: `drawKImage` samples the Fourier values on a grid that reaches `maxk`.
-/

namespace JG

/-- Specification: the step in Fourier space that is asked for - the argument `scale`, or the pixel scale of the given
image, or (if there is none, or it is not positive) the `stepk` of the profile. -/
def StepRequested (o : Prof) (a : KArgs) (dk : ℝ) : Prop :=
  (∀ s, a.scale = some s → 0 < s → dk = s) ∧ (∀ s, a.scale = some s → s ≤ 0 → dk = o.stepk) ∧
  (∀ im c, a.scale = none → a.image = some im → im.wcs = some (.loc (.pix c)) → 0 < c → dk = c) ∧
  (∀ im, a.scale = none → a.image = some im → im.wcs = none → dk = o.stepk) ∧
  (a.scale = none → a.image = none → dk = o.stepk)

theorem drawKFinish_ok {o : Prof} {a : KArgs} {im r : KImg} {dk : ℝ} {x : Option KImg}
    (h : drawKFinish o a im dk = (x, .ok r)) (hs : a.setupOnly = false) :
    x = a.image.map (fun _ => r) ∧ r.wcs = some (.loc (.pix dk)) ∧
    (r.bounds.deltax = im.bounds.deltax ∧ r.bounds.deltay = im.bounds.deltay) ∧
    (a.recenter = false → r.bounds = im.bounds) ∧
    (a.recenter = true → r.bounds.xmin = -(im.bounds.deltax / 2) ∧ r.bounds.ymin = -(im.bounds.deltay / 2)) ∧
    ∀ i j : ℕ, r.arr i j = (if a.addTo then im.arr i j else 0) +
      o.kValue (((r.bounds.xmin + j : ℤ) : ℝ) * dk, ((r.bounds.ymin + i : ℤ) : ℝ) * dk) := by
  have hk : ∀ x y : ℝ, o.drawK dk (x, y) none = o.kValue (x * dk, y * dk) := by
    intro x y
    rw [drawK_eq, Option.getD_none, show Mat2.one.tr = Mat2.one from rfl, Mat2.one_app]
  unfold drawKFinish at h
  simp only [hs, Bool.false_eq_true, if_false] at h
  cases hr : a.recenter with
  | false =>
    simp only [hr, Bool.false_eq_true, if_false] at h
    split at h
    · simp at h
    · simp only [Prod.mk.injEq, Except.ok.injEq] at h
      obtain ⟨rfl, rfl⟩ := h
      refine ⟨rfl, rfl, ⟨rfl, rfl⟩, fun _ => rfl, fun h => by simp at h, fun i j => ?_⟩
      simp only [hk]
      cases a.addTo <;> simp
  | true =>
    simp only [hr, if_true] at h
    cases hc : im.bounds.centerI with
    | none => simp [hc] at h
    | some c =>
      obtain ⟨-, rfl⟩ := centerI_eq hc
      simp only [hc] at h
      split at h
      · simp at h
      · split at h
        · simp at h
        · simp only [Prod.mk.injEq, Except.ok.injEq] at h
          obtain ⟨rfl, rfl⟩ := h
          refine ⟨rfl, rfl, by simp [Bounds.shift, Bounds.finish], fun h => by simp at h,
            fun _ => by simp [Bounds.shift, Bounds.finish], fun i j => ?_⟩
          simp only [hk]
          cases a.addTo <;> simp

theorem kStep_spec (o : Prof) (a : KArgs) (scale : Option ℝ)
    (h : (match a.image, a.scale with
      | some im, none => imageScale im.wcs
      | _, s => .ok s) = Except.ok scale) : StepRequested o a (kStep o scale) := by
  refine ⟨fun s e hp => ?_, fun s e hp => ?_, fun im c e e2 e3 hp => ?_, fun im e e2 e3 => ?_, fun e e2 => ?_⟩
  · cases hi : a.image <;> simp only [hi, e, Except.ok.injEq] at h <;> subst h <;> simp [kStep, not_le.mpr hp]
  · cases hi : a.image <;> simp only [hi, e, Except.ok.injEq] at h <;> subst h <;> simp [kStep, hp]
  · simp only [e, e2, e3, imageScale, WCS.localWCS, Except.ok.injEq] at h
    subst h; simp [kStep, not_le.mpr hp]
  · simp only [e, e2, e3, imageScale, Except.ok.injEq] at h
    subst h; rfl
  · simp only [e, e2, Except.ok.injEq] at h
    subst h; rfl

theorem setup_size {a : PlaceArgs} {b : Bounds ℤ} (hb : setupImage a = some b) (hc : a.center = none)
    (hun : ∀ i, a.image = some i → i.defined = false) :
    (∀ nx ny, a.nx = some nx → a.ny = some ny → b.deltax = nx ∧ b.deltay = ny) ∧
    (∀ c, a.bounds = some c → b.deltax = c.deltax ∧ b.deltay = c.deltay) ∧ a.addTo = false ∧
    (a.nx = none → a.ny = none → a.bounds = none → b = boundsFrom1 a.goodN a.goodN) := by
  obtain ⟨image, nx, ny, bounds, center, offset, useTrue, addTo, goodN⟩ := a
  simp only at hc
  subst hc
  cases image with
  | some i =>
    have := hun i rfl
    clear hun
    cases bounds <;> cases nx <;> cases ny <;> cases addTo <;> simp [setupImage, this] at hb ⊢
    exact hb.symm
  | none =>
    clear hun
    cases bounds <;> cases nx <;> cases ny <;> cases addTo <;> simp [setupImage] at hb ⊢
    · exact hb.symm
    · subst hb; simp [boundsFrom1, Bounds.mkDelta, Bounds.finish]
    · obtain ⟨-, rfl⟩ := hb; simp

/-- A k-image is drawn into the given image, or into a new or resized one. -/
theorem drawK_cases (o : Prof) (a : KArgs) (x : Option KImg) (im : KImg) (h : drawKImage o a = (x, .ok im)) :
    ∃ scale im0, StepRequested o a (kStep o scale) ∧ drawKFinish o a im0 (kStep o scale) = (x, .ok im) ∧
      ((a.image = some im0 ∧ im0.bounds.defined = true ∧ a.bounds = none ∧ a.nx = none ∧ a.ny = none) ∨
       ((∀ i, a.image = some i → i.bounds.defined = false) ∧ (∀ i j, im0.arr i j = 0) ∧
        (a.image = none → im0.wcs = none) ∧
        ∃ p, LocalWCS.profileToImage (.pix (kDx o scale)) o 1 (0, 0) = some p ∧
          setupImage ⟨a.image.map (·.bounds), a.nx, a.ny, a.bounds, none, ⟨0, 0⟩, true, a.addTo,
            goodImageSize p.stepk 1 + 1⟩ = some im0.bounds)) := by
  unfold drawKImage at h
  split at h
  · simp at h
  split at h
  · simp at h
  rename_i scale hsc
  have hstep := kStep_spec o a scale hsc
  clear hsc
  simp only at h
  have hfresh : (∀ i, a.image = some i → i.bounds.defined = false) →
      drawKImage.fresh o a scale (kStep o scale) = (x, .ok im) → ∃ im0,
        drawKFinish o a im0 (kStep o scale) = (x, .ok im) ∧ (∀ i j, im0.arr i j = 0) ∧
        (a.image = none → im0.wcs = none) ∧
        ∃ p, LocalWCS.profileToImage (.pix (kDx o scale)) o 1 (0, 0) = some p ∧
          setupImage ⟨a.image.map (·.bounds), a.nx, a.ny, a.bounds, none, ⟨0, 0⟩, true, a.addTo,
            goodImageSize p.stepk 1 + 1⟩ = some im0.bounds := by
    intro hun h
    unfold drawKImage.fresh at h
    split at h
    · simp at h
    rename_i p hp
    split at h
    · simp at h
    rename_i b hb
    split at h
    · rename_i i hi
      exact ⟨_, h, fun _ _ => rfl, (fun h => by rw [hi] at h; cases h), p, hp, hb⟩
    · exact ⟨_, h, fun _ _ => rfl, fun _ => rfl, p, hp, hb⟩
  split at h
  · rename_i im0 hi
    split_ifs at h with h1 h2 h3
    · simp at h
    · simp at h
    · simp only [Bool.or_eq_true, not_or, Bool.not_eq_true, Option.isSome_eq_false_iff,
        Option.isNone_iff_eq_none] at h3
      exact ⟨scale, im0, hstep, h, .inl ⟨hi, h1, h3.1.1, h3.1.2, h3.2⟩⟩
    · have hun : ∀ i, a.image = some i → i.bounds.defined = false := by
        intro i e
        rw [hi] at e
        obtain rfl := Option.some.inj e
        simpa using h1
      obtain ⟨i0, e1, e2, e3, e4⟩ := hfresh hun h
      exact ⟨scale, i0, hstep, e1, .inr ⟨hun, e2, e3, e4⟩⟩
  · rename_i hi
    have hun : ∀ i, a.image = some i → i.bounds.defined = false := by
      intro i e; rw [hi] at e; cases e
    obtain ⟨i0, e1, e2, e3, e4⟩ := hfresh hun h
    exact ⟨scale, i0, hstep, e1, .inr ⟨hun, e2, e3, e4⟩⟩

/-- C80: whatever the arguments, a k-image that is returned holds at every pixel the Fourier value of the profile at
`dk` times the pixel coordinates (added to the old pixel with `add_to_image`), its wcs is the requested step, it has the
requested size, and it is centred on the origin unless `recenter=False`; an image passed in is the image returned. -/
theorem C80_pixels (o : Prof) (a : KArgs) (x : Option KImg) (im : KImg) (h : drawKImage o a = (x, .ok im))
    (hs : a.setupOnly = false) :
    ∃ dk, StepRequested o a dk ∧ im.wcs = some (.loc (.pix dk)) ∧ x = a.image.map (fun _ => im) ∧
      (∀ i, a.image = some i → i.bounds.defined = true →
        im.bounds.deltax = i.bounds.deltax ∧ im.bounds.deltay = i.bounds.deltay ∧
        (a.recenter = false → im.bounds = i.bounds)) ∧
      (∀ nx ny, a.nx = some nx → a.ny = some ny → im.bounds.deltax = nx ∧ im.bounds.deltay = ny) ∧
      (∀ b, a.bounds = some b → im.bounds.deltax = b.deltax ∧ im.bounds.deltay = b.deltay) ∧
      (a.recenter = true → im.bounds.xmin = -(im.bounds.deltax / 2) ∧ im.bounds.ymin = -(im.bounds.deltay / 2)) ∧
      (a.addTo = true → a.image.isSome = true) ∧
      ∀ i j : ℕ, im.arr i j = (match a.image with
          | some i0 => if a.addTo then i0.arr i j else 0
          | none => 0) +
        o.kValue (((im.bounds.xmin + j : ℤ) : ℝ) * dk, ((im.bounds.ymin + i : ℤ) : ℝ) * dk) := by
  obtain ⟨scale, im0, hstep, hf, hc⟩ := drawK_cases o a x im h
  obtain ⟨h1, h2, ⟨h3, h3'⟩, h4, h5, h6⟩ := drawKFinish_ok hf hs
  refine ⟨_, hstep, h2, h1, ?_⟩
  rcases hc with ⟨hi, hd, hb, hx, hy⟩ | ⟨hun, hz, -, p, hp, hset⟩
  · refine ⟨?_, ?_, ?_, ?_, ?_, ?_⟩
    · intro i e hdi
      rw [hi] at e
      obtain rfl := Option.some.inj e
      exact ⟨h3, h3', h4⟩
    · intro nx ny e; rw [hx] at e; cases e
    · intro b e; rw [hb] at e; cases e
    · intro hr; rw [h3, h3']; exact h5 hr
    · intro _; simp [hi]
    · intro i j; rw [h6, hi]
  · obtain ⟨s1, s2, s3, -⟩ := setup_size hset rfl (by
      intro i e
      simp only [Option.map_eq_some_iff] at e
      obtain ⟨k, hk, rfl⟩ := e
      exact hun k hk)
    simp only at s1 s2 s3
    refine ⟨?_, ?_, ?_, ?_, ?_, ?_⟩
    · intro i e hdi
      rw [hun i e] at hdi; cases hdi
    · intro nx ny e e'; rw [h3, h3']; exact s1 nx ny e e'
    · intro b e; rw [h3, h3']; exact s2 b e
    · intro hr; rw [h3, h3']; exact h5 hr
    · intro e; rw [s3] at e; cases e
    · intro i j; rw [h6, s3]
      cases a.image <;> simp

/-! ### The automatic size -/

theorem major_scale (c : ℝ) (hc : 0 < c) (J : Mat2) : (majorMinor ((⟨c, 0, 0, c⟩ : Mat2).mul J)).1 = c * (majorMinor J).1 := by
  simp only [majorMinor, Mat2.mul, zero_mul, add_zero, zero_add]
  have e1 : (c * J.a + c * J.d) ^ 2 + (c * J.b - c * J.c) ^ 2 = c ^ 2 * ((J.a + J.d) ^ 2 + (J.b - J.c) ^ 2) := by ring
  have e2 : (c * J.a - c * J.d) ^ 2 + (c * J.b + c * J.c) ^ 2 = c ^ 2 * ((J.a - J.d) ^ 2 + (J.b + J.c) ^ 2) := by ring
  rw [e1, e2, Real.sqrt_mul (by positivity), Real.sqrt_mul (by positivity), Real.sqrt_sq hc.le, ← mul_add, abs_mul,
    abs_of_pos hc]
  ring

/-- In pixels of size `dx`, the folding step is `dx` times as large. -/
theorem stepk_scaled (o : Prof) (hs : 0 < o.stepk) (dx : ℝ) (hdx : 0 < dx) (r : ℝ) :
    (mkTransform o ⟨1 / dx, 0, 0, 1 / dx⟩ (0, 0) r).stepk = dx * o.stepk := by
  have hc : 0 < 1 / dx := by positivity
  cases o with
  | trans o J off r2 =>
    simp only [mkTransform, Prof.stepk, transStepk] at hs ⊢
    rw [major_scale _ hc]
    have e : ((0, 0) + (⟨1 / dx, 0, 0, 1 / dx⟩ : Mat2).app off : ℝ × ℝ) = (1 / dx * off.1, 1 / dx * off.2) := by
      ext <;> simp [Mat2.app]
    rw [e]
    simp only
    rw [show (1 / dx * off.1) ^ 2 + (1 / dx * off.2) ^ 2 = (1 / dx) ^ 2 * (off.1 ^ 2 + off.2 ^ 2) by ring,
      Real.sqrt_mul (by positivity), Real.sqrt_sq hc.le]
    generalize Real.sqrt (off.1 ^ 2 + off.2 ^ 2) = q at *
    generalize (majorMinor J).1 = m at *
    generalize o.stepk = s at *
    rw [show s / (1 / dx * m) = dx * (s / m) by field_simp]
    generalize s / m = t at *
    rw [show Real.pi / (dx * t) = 1 / dx * (Real.pi / t) by rw [one_div, div_mul_eq_div_div_swap]; ring, ← mul_add]
    rw [div_mul_eq_div_div_swap]
    field_simp
  | leaf L => exact base _ hdx
  | sum l => exact base _ hdx
  | conv l => exact base _ hdx
where
  base (s : ℝ) (hdx : 0 < dx) : transStepk ⟨1 / dx, 0, 0, 1 / dx⟩ (0, 0) s = dx * s := by
    have hc : 0 < 1 / dx := by positivity
    have h := major_scale (1 / dx) hc .one
    have e1 : (⟨1 / dx, 0, 0, 1 / dx⟩ : Mat2).mul .one = ⟨1 / dx, 0, 0, 1 / dx⟩ := by simp [Mat2.mul, Mat2.one]
    have e2 : (majorMinor .one).1 = 1 := by
      simp only [majorMinor, Mat2.one]
      norm_num
      rw [show (4 : ℝ) = 2 ^ 2 by norm_num, Real.sqrt_sq (by norm_num)]
      norm_num
    rw [e1, e2] at h
    unfold transStepk
    rw [h]
    have hpi := Real.pi_ne_zero
    simp
    by_cases hs : s = 0
    · simp [hs]
    · field_simp

/-- C80: a k-image made without a size is a square of odd size, centred on the origin, that reaches `maxk` in every
direction along the axes (up to the rounding slop of the size formula), whatever step is asked for. -/
theorem C80_covers (o : Prof) (hs : 0 < o.stepk) (hm : 0 < o.maxk) (scale : Option ℝ) :
    ∃ (im : KImg) (n : ℕ) (dk : ℝ), drawKImage o { scale := scale } = (none, .ok im) ∧
      StepRequested o { scale := scale } dk ∧ im.wcs = some (.loc (.pix dk)) ∧
      im.bounds.xmin = -n ∧ im.bounds.ymin = -n ∧ im.bounds.deltax = 2 * n + 1 ∧ im.bounds.deltay = 2 * n + 1 ∧
      (1 - 1 / 10 ^ 12) * o.maxk ≤ n * dk := by
  obtain ⟨dk, hdk⟩ : ∃ dk, dk = kStep o scale := ⟨_, rfl⟩
  have hdkp : 0 < dk := by
    rw [hdk]
    cases scale with
    | none => exact hs
    | some s => simp only [kStep]; split_ifs with h; exacts [hs, not_le.mp h]
  have hdx : kDx o scale = Real.pi / o.maxk * dk / o.stepk := by
    rw [hdk]
    cases scale with
    | none => simp only [kDx, kStep]; field_simp
    | some s => simp only [kDx, kStep]; split_ifs with h; · field_simp
                · rfl
  have hdxp : 0 < kDx o scale := by rw [hdx]; have := Real.pi_pos; positivity
  obtain ⟨p, hp⟩ : ∃ p, p = mkTransform o ⟨1 / kDx o scale, 0, 0, 1 / kDx o scale⟩ (0, 0) (kDx o scale ^ 2 * 1) := ⟨_, rfl⟩
  have hps : p.stepk = Real.pi / o.maxk * dk := by
    rw [hp, stepk_scaled o hs _ hdxp, hdx]; field_simp
  obtain ⟨he, hg⟩ := C32_good_image_size p.stepk 1
  obtain ⟨G, hG⟩ : ∃ G, G = goodImageSize p.stepk 1 := ⟨_, rfl⟩
  rw [← hG, hps] at hg
  rw [← hG] at he
  have hpi := Real.pi_pos
  have hg' : 2 * (o.maxk / dk) * (1 - 1 / 10 ^ 12) ≤ G := by
    refine le_trans (le_of_eq ?_) hg
    field_simp
  have hGp : 0 < G := by
    have : (0 : ℝ) < G := lt_of_lt_of_le (by norm_num; positivity) hg'
    exact_mod_cast this
  obtain ⟨n, rfl⟩ : ∃ n : ℕ, G = 2 * n := ⟨(G / 2).toNat, by omega⟩
  have hst : StepRequested o { scale := scale } dk := by rw [hdk]; exact kStep_spec o _ scale rfl
  have hb : (boundsFrom1 (2 * n + 1) (2 * n + 1)).centerI = some ⟨1 + n, 1 + n⟩ := by
    have h1 : ¬ (2 * (n : ℤ) + 1 < 1) := by omega
    have h2 : (2 * (n : ℤ) + 1) / 2 = n := by omega
    simp [boundsFrom1, Bounds.mkDelta, Bounds.finish, Bounds.centerI, clsI, h1, h2]
  obtain ⟨im, him⟩ : ∃ im, drawKFinish o { scale := scale } ⟨boundsFrom1 (2 * n + 1) (2 * n + 1), none, fun _ _ => 0, true⟩ dk
      = (none, .ok im) := by
    unfold drawKFinish
    simp [hb]
  obtain ⟨-, h2, ⟨h3, h3'⟩, -, h5, -⟩ := drawKFinish_ok him rfl
  have h5 := h5 rfl
  have hx : (boundsFrom1 (2 * n + 1) (2 * n + 1)).deltax = 2 * (n : ℤ) + 1 := rfl
  have hy : (boundsFrom1 (2 * n + 1) (2 * n + 1)).deltay = 2 * (n : ℤ) + 1 := rfl
  refine ⟨im, n, dk, ?_, hst, h2, ?_, ?_, h3.trans hx, h3'.trans hy, ?_⟩
  · unfold drawKImage drawKImage.fresh
    simp only [LocalWCS.profileToImage, if_neg hdxp.ne', ← hp, ← hG, ← hdk, setupImage]
    simpa using him
  · rw [h5.1, hx]; omega
  · rw [h5.2, hy]; omega
  · push_cast at hg'
    have : o.maxk / dk * (1 - 1 / 10 ^ 12) ≤ n := by linarith
    calc (1 - 1 / 10 ^ 12) * o.maxk = o.maxk / dk * (1 - 1 / 10 ^ 12) * dk := by field_simp
      _ ≤ n * dk := by gcongr

/-! ### Images that are rejected -/

/-- C80: when `drawKImage` raises, the pixels of the image passed in are as before.  Missing: that the rest of the image
is as before, which is false, see `C80_error_counterexample`. -/
theorem C80_error_partial (o : Prof) (a : KArgs) (i : KImg) (hi : a.image = some i) (hd : i.bounds.defined = true)
    (x : Option KImg) (e : DrawErr) (h : drawKImage o a = (x, .error e)) :
    ∃ i', x = some i' ∧ i'.arr = i.arr ∧ i'.bounds.deltax = i.bounds.deltax ∧ i'.bounds.deltay = i.bounds.deltay ∧
      (a.recenter = false → i' = i) := by
  have hfin : ∀ dk, drawKFinish o a i dk = (x, .error e) →
      ∃ i', x = some i' ∧ i'.arr = i.arr ∧ i'.bounds.deltax = i.bounds.deltax ∧ i'.bounds.deltay = i.bounds.deltay ∧
        (a.recenter = false → i' = i) := by
    intro dk h
    unfold drawKFinish at h
    simp only [hi, Option.map_some] at h
    split at h
    · rename_i hr
      split at h
      · simp only [Prod.mk.injEq] at h
        exact ⟨i, h.1.symm, rfl, rfl, rfl, fun _ => rfl⟩
      · split at h
        · simp only [Prod.mk.injEq] at h
          exact ⟨i, h.1.symm, rfl, rfl, rfl, fun _ => rfl⟩
        · split at h
          · simp only [Prod.mk.injEq] at h
            exact ⟨_, h.1.symm, rfl, rfl, rfl, fun h => by rw [hr] at h; cases h⟩
          · split at h <;> simp at h
    · split at h
      · simp only [Prod.mk.injEq] at h
        exact ⟨i, h.1.symm, rfl, rfl, rfl, fun _ => rfl⟩
      · split at h <;> simp at h
  have hsame : ∀ e', (a.image, (Except.error e' : Except DrawErr KImg)) = (x, .error e) →
      ∃ i', x = some i' ∧ i'.arr = i.arr ∧ i'.bounds.deltax = i.bounds.deltax ∧ i'.bounds.deltay = i.bounds.deltay ∧
        (a.recenter = false → i' = i) := by
    intro e' h
    simp only [Prod.mk.injEq] at h
    exact ⟨i, by rw [← h.1, hi], rfl, rfl, rfl, fun _ => rfl⟩
  unfold drawKImage at h
  split at h
  · exact hsame _ h
  split at h
  · exact hsame _ h
  simp only [hi, hd, if_true] at h
  rw [← hi] at h
  split_ifs at h
  · exact hsame _ h
  · exact hsame _ h
  · exact hfin _ h

/-- Disagreement: `drawKImage` reads the scale of an image with a `ShearWCS` and recentres the image, but then cannot set
the scale; the call fails and leaves the image moved. -/
theorem C80_error_counterexample (o : Prof) (s : Shear) (v : ℕ → ℕ → ℂ) :
    ∃ i', drawKImage o { image := some ⟨boundsFrom1 3 3, some (.loc (.shear 1 s)), v, true⟩ } =
      (some i', .error .typeError) ∧ i'.bounds ≠ boundsFrom1 3 3 := by
  have hb : (boundsFrom1 3 3).centerI = some ⟨2, 2⟩ := by decide
  have hd : (boundsFrom1 3 3).defined = true := by decide
  have hn : max (boundsFrom1 3 3).numpyShape.1 (boundsFrom1 3 3).numpyShape.2 / 2 ≠ 0 := by decide
  refine ⟨⟨(boundsFrom1 3 3).shift clsI ⟨-2, -2⟩ false, some (.off (.shear 1 s) (-2, -2) (0, 0)), v, true⟩, ?_,
    show (boundsFrom1 3 3).shift clsI ⟨-2, -2⟩ false ≠ boundsFrom1 3 3 by decide⟩
  unfold drawKImage drawKFinish
  simp [imageScale, WCS.localWCS, hd, hn, hb, isPixelScale, WCS.shiftOrigin, WCS.newOrigin]

/-- Disagreement: a k-image of a single pixel with a python scale, whose only pixel would be the flux, cannot be drawn:
`np.pi / (max(image.array.shape) // 2 * dk)` divides by zero, though its value is not used. -/
theorem C80_single_pixel_counterexample (o : Prof) (v : ℕ → ℕ → ℂ) (dk : ℝ) (hk : 0 < dk) :
    drawKImage o { image := some ⟨boundsFrom1 1 1, some (.loc (.pix dk)), v, true⟩ } =
      (some ⟨boundsFrom1 1 1, some (.loc (.pix dk)), v, true⟩, .error .zeroDivision) := by
  have hd : (boundsFrom1 1 1).defined = true := by decide
  have hn : max (boundsFrom1 1 1).numpyShape.1 (boundsFrom1 1 1).numpyShape.2 / 2 = 0 := by decide
  unfold drawKImage
  simp [imageScale, WCS.localWCS, hd, hn, hk]

/-- A 3×3 image with step 2 and old pixels 5, added to without recentring: the pixel at (1, 2) gets the Fourier value at
(2, 4) on top of 5. -/
example (o : Prof) : ∃ im, drawKImage o
      { image := some ⟨boundsFrom1 3 3, some (.loc (.pix 2)), fun _ _ => 5, true⟩, addTo := true, recenter := false } =
      (some im, .ok im) ∧ im.arr 1 0 = 5 + o.kValue (2, 4) := by
  have hd : (boundsFrom1 3 3).defined = true := by decide
  have hn : max (boundsFrom1 3 3).numpyShape.1 (boundsFrom1 3 3).numpyShape.2 / 2 ≠ 0 := by decide
  obtain ⟨im, him⟩ : ∃ im, drawKImage o
      { image := some ⟨boundsFrom1 3 3, some (.loc (.pix 2)), fun _ _ => 5, true⟩, addTo := true, recenter := false } =
      (some im, .ok im) := by
    unfold drawKImage drawKFinish
    simp [imageScale, WCS.localWCS, hd, hn, isPixelScale]
  obtain ⟨dk, h1, -, -, h2, -, -, -, -, h3⟩ := C80_pixels o _ _ _ him rfl
  refine ⟨im, him, ?_⟩
  have hk : dk = 2 := h1.2.2.1 _ 2 rfl rfl rfl (by norm_num)
  have hb := (h2 _ rfl hd).2.2 rfl
  rw [h3, hb, hk]
  norm_num [boundsFrom1, Bounds.mkDelta, Bounds.finish]

end JG
