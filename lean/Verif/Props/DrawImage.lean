import Verif.Model.DrawImage
import Verif.Props.Place
import Verif.Props.WCS
import Verif.Props.Fft
import Verif.Props.FftSize
import Verif.Props.ProfileDraw
import Verif.Props.ProfileSum

/-!
Properties C81 and C82: `drawImage` as a whole - the values of the pixels, and what is left when it raises.
-/

namespace JG

/-- Specification: the wcs asked for by the arguments, if any. -/
def DrawArgs.askedWcs (a : DrawArgs) : Option WCS :=
  match a.wcs, a.scale with
  | some w, _ => some w
  | none, some s => some (.loc (.pix s))
  | none, none => a.image.bind (·.wcs)

/-- Specification: the wcs the image has to have - the one asked for, or pixels of the Nyquist scale if none, or a pixel
scale that is not positive, is asked for. -/
def WcsRequested (o : Prof) (a : DrawArgs) (w : WCS) : Prop :=
  (∀ v, a.askedWcs = some v → (∀ s, v = .loc (.pix s) → 0 < s) → w = v) ∧
  (∀ s, a.askedWcs = some (.loc (.pix s)) → s ≤ 0 → w = .loc (.pix (Real.pi / o.maxk))) ∧
  (a.askedWcs = none → w = .loc (.pix (Real.pi / o.maxk)))

/-- Specification: the pixel the drawn light is added to. -/
def DrawArgs.oldPixel (a : DrawArgs) (i j : ℕ) : ℝ :=
  match a.addTo, a.image with
  | true, some im => im.arr i j
  | _, _ => 0

theorem positiveScale_spec (n : ℝ) (v : WCS) :
    ((∀ s, v = .loc (.pix s) → 0 < s) → positiveScale n v = v) ∧
    (∀ s, v = .loc (.pix s) → s ≤ 0 → positiveScale n v = .loc (.pix n)) := by
  constructor
  · intro h
    unfold positiveScale
    split
    · rename_i c
      rw [if_neg (not_le.mpr (h c rfl))]
    · rfl
  · rintro s rfl hs
    simp [positiveScale, hs]

theorem determineWcs_spec (o : Prof) (a : DrawArgs) (w : WCS)
    (h : determineWcs (Real.pi / o.maxk) a.scale a.wcs (a.image.bind (·.wcs)) = .ok w) : WcsRequested o a w := by
  have hn : positiveScale (Real.pi / o.maxk) (.loc (.pix (Real.pi / o.maxk))) = .loc (.pix (Real.pi / o.maxk)) := by
    simp [positiveScale]
  have key : ∀ v, a.askedWcs = some v → w = positiveScale (Real.pi / o.maxk) v → WcsRequested o a w := by
    intro v hv hw
    refine ⟨?_, ?_, ?_⟩
    · intro v' h1 h2
      rw [hv] at h1
      obtain rfl := Option.some.inj h1
      rw [hw]; exact (positiveScale_spec _ _).1 h2
    · intro s h1 h2
      rw [hv] at h1
      rw [hw]; exact (positiveScale_spec _ _).2 s (Option.some.inj h1) h2
    · intro h1; rw [hv] at h1; cases h1
  unfold determineWcs at h
  split at h
  · rename_i v hv
    split at h
    · simp at h
    · exact key v (by simp [DrawArgs.askedWcs, hv]) (by simpa using h.symm)
  · rename_i hw
    split at h
    · rename_i s hs
      exact key (.loc (.pix s)) (by simp [DrawArgs.askedWcs, hw, hs]) (by simpa using h.symm)
    · rename_i hs
      split at h
      · rename_i v hv
        exact key v (by simp [DrawArgs.askedWcs, hw, hs, hv]) (by simpa using h.symm)
      · rename_i hv
        have ha : a.askedWcs = none := by simp [DrawArgs.askedWcs, hw, hs, hv]
        refine ⟨(fun v h1 => by rw [ha] at h1; cases h1), (fun v h1 => by rw [ha] at h1; cases h1), fun _ => ?_⟩
        rw [hn] at h
        simpa using h.symm

/-- The steps of a successful call. -/
structure Drawn (g : DrawGS) (phot : PhotDraw) (o : Prof) (a : DrawArgs) (x : Option DrawImg) (im : DrawImg)
    (w : WCS) (off : ℝ × ℝ) (p q : Prof) (c : Pos ℤ) (im0 : DrawImg) (added : ℝ) : Prop where
  check : a.check = none
  wcs : WcsRequested o a w
  prof : w.profileToImage o (fluxScale a w.localWCS) off = some p
  pixel : convolvePixel g a.method p = some q
  step : drawStep g phot a q im0 = (im.arr, .ok added)
  flux : im.addedFlux = some (added / fluxScale a w.localWCS)
  imwcs : im.wcs = some w
  same : x = a.image.map fun _ => im
  rect : requestedRect (a.place 0) im.bounds
  xmin : im0.bounds.xmin = im.bounds.xmin - c.x
  ymin : im0.bounds.ymin = im.bounds.ymin - c.y
  deltax : im0.bounds.deltax = im.bounds.deltax
  deltay : im0.bounds.deltay = im.bounds.deltay
  pos : ((c.x : ℝ) + off.1, (c.y : ℝ) + off.2) = requestedPos (a.place 0) im.bounds
  old : ∀ i j, (if a.addTo then im0.arr i j else 0) = a.oldPixel i j

theorem setup_addTo {p : PlaceArgs} {b : Bounds ℤ} (h : setupImage p = some b) (ha : p.addTo = true) :
    ∃ i, p.image = some i ∧ i.defined = true ∧ b = i := by
  unfold setupImage at h
  split at h
  · rename_i i hi
    split_ifs at h with h1 h2
    · exact ⟨i, hi, h2, (Option.some.inj h).symm⟩
  · simp [ha] at h

/-- The steps of a successful call, as they are whatever draws the photons. -/
theorem drawImage_shared {g : DrawGS} {phot : PhotDraw} {o : Prof} {a : DrawArgs} {x : Option DrawImg} {im : DrawImg}
    (h : drawImage g phot o a = (x, .ok im)) (hs : a.setupOnly = false)
    (hgood : ∀ i, a.image = some i → i.bounds.defined = false → a.center = none) :
    ∃ w off p q c im0 b, ∀ phot' x' im', drawImage g phot' o a = (x', .ok im') →
      im'.bounds = b ∧ im0.wcs = some (.loc (.pix 1)) ∧
      ∃ added, Drawn g phot' o a x' im' w off p q c im0 added := by
  unfold drawImage at h
  split at h
  · simp at h
  rename_i hcheck
  split at h
  · simp at h
  rename_i w hw
  simp only at h
  split at h
  · simp at h
  rename_i nb hnb
  split at h
  · simp at h
  rename_i p hp
  split at h
  · simp at h
  rename_i q hq
  unfold drawFinish at h
  split at h
  · simp at h
  rename_i b hb
  simp only [hs, Bool.false_eq_true, if_false] at h
  split at h
  swap
  · simp at h
  rename_i oc b0 hoc hb0
  clear h
  refine ⟨w, ((adjustOffset nb (a.place 0)).x, (adjustOffset nb (a.place 0)).y), p, q, oc, { setupImg (a.image.map (clearWcs a.scale a.wcs)) b w with bounds := b0, wcs := some (.loc (.pix 1)) },
    b0.shift clsI oc false, fun phot' x' im' h => ?_⟩
  unfold drawImage at h
  rw [hcheck] at h
  simp only at h
  rw [hw] at h
  simp only at h
  rw [hnb] at h
  simp only at h
  rw [hp] at h
  simp only at h
  rw [hq] at h
  simp only at h
  unfold drawFinish at h
  rw [hb] at h
  simp only [hs, Bool.false_eq_true, if_false] at h
  rw [hoc, hb0] at h
  simp only at h
  split at h
  · simp at h
  rename_i arr added hst
  simp only [Prod.mk.injEq, Except.ok.injEq] at h
  obtain ⟨h1, h2⟩ := h
  subst h2
  refine ⟨rfl, rfl, added, ?_⟩
  obtain ⟨G, hG⟩ : ∃ G, G = goodImageSize q.stepk 1 := ⟨_, rfl⟩
  have hev : G % 2 = 0 := hG ▸ (C32_good_image_size q.stepk 1).1
  rw [← hG] at hb
  have hnb' : getNewBounds (a.place G) = some nb := hnb
  have hgood' : ∀ i, (a.place G).image = some i → i.defined = false → (a.place G).center = none := by
    intro i hi
    simp only [DrawArgs.place, Option.map_eq_some_iff] at hi
    obtain ⟨i', hi', rfl⟩ := hi
    exact hgood i' hi'
  have hpl : drawPlaced (a.place G) = some (b0.shift clsI oc false, fun i j : ℕ =>
      (((b0.xmin + i : ℤ) : ℝ) - (adjustOffset nb (a.place G)).x, ((b0.ymin + j : ℤ) : ℝ) - (adjustOffset nb (a.place G)).y)) := by
    simp only [drawPlaced, hnb', hb, hoc, hb0, Option.bind_eq_bind, Option.bind_some]
  obtain ⟨hrect, hsam⟩ := C31_place_partial (a.place G) hev hgood' _ _ hpl
  have h00 := hsam 0 0
  simp only [Nat.cast_zero, add_zero, Prod.mk.injEq] at h00
  refine ⟨hcheck, determineWcs_spec o a w hw, hp, hq, hst, rfl, rfl, ?_, hrect, ?_, ?_, rfl, rfl, ?_, ?_⟩
  · rw [← h1]; simp [Option.map_map, Function.comp_def]
  · simp [Bounds.shift, Bounds.finish]
  · simp [Bounds.shift, Bounds.finish]
  · have e1 : ((b0.shift clsI oc false).xmin : ℝ) = b0.xmin + oc.x := by simp [Bounds.shift, Bounds.finish]
    have e2 : ((b0.shift clsI oc false).ymin : ℝ) = b0.ymin + oc.y := by simp [Bounds.shift, Bounds.finish]
    rw [e1, e2] at h00
    have hr : requestedPos (a.place 0) (b0.shift clsI oc false) = requestedPos (a.place G) (b0.shift clsI oc false) := rfl
    rw [hr]
    have hof : adjustOffset nb (a.place 0) = adjustOffset nb (a.place G) := rfl
    rw [hof]
    ext <;> simp only <;> linarith [h00.1, h00.2]
  · intro i j
    cases had : a.addTo with
    | false => simp [DrawArgs.oldPixel, had]
    | true =>
      obtain ⟨b', hb1, hb2, rfl⟩ := setup_addTo hb (show (a.place G).addTo = true from had)
      simp only [DrawArgs.place, Option.map_eq_some_iff] at hb1
      obtain ⟨i', hi', rfl⟩ := hb1
      simp only [DrawArgs.oldPixel, had, hi', Option.map_some, setupImg, clearWcs]
      by_cases hc : (a.wcs.isSome || a.scale.isSome) = true <;> simp [hc, hb2]

theorem drawImage_ok {g : DrawGS} {phot : PhotDraw} {o : Prof} {a : DrawArgs} {x : Option DrawImg} {im : DrawImg}
    (h : drawImage g phot o a = (x, .ok im)) (hs : a.setupOnly = false)
    (hgood : ∀ i, a.image = some i → i.bounds.defined = false → a.center = none) :
    ∃ w off p q c im0 added, Drawn g phot o a x im w off p q c im0 added := by
  obtain ⟨w, off, p, q, c, im0, b, hd⟩ := drawImage_shared h hs hgood
  obtain ⟨_, _, added, d⟩ := hd phot x im h
  exact ⟨w, off, p, q, c, im0, added, d⟩

/-- Specification: the number of counts per unit of flux of the object. -/
noncomputable def DrawArgs.counts (a : DrawArgs) : ℝ := a.area * a.exptime / a.gain

theorem check_pos {a : DrawArgs} (h : a.check = none) : 0 < a.gain ∧ 0 < a.area ∧ 0 < a.exptime := by
  unfold DrawArgs.check at h
  split at h
  · cases h
  rename_i h1
  split at h
  · cases h
  rename_i h2
  split at h
  · cases h
  rename_i h3
  exact ⟨not_le.mp h1, not_le.mp h2, not_le.mp h3⟩

theorem fluxScale_eq {a : DrawArgs} (hm : a.method ≠ .phot) (hs : a.sensor = false) (l : LocalWCS) :
    fluxScale a l = a.counts / (if a.method = .sb then l.pixelArea else 1) := by
  unfold fluxScale DrawArgs.counts
  simp only [ne_eq, hm, not_false_eq_true, hs, Bool.not_false, and_self, if_true]
  split_ifs
  · rw [div_right_comm]
  · rw [div_one]

theorem analyticX_mk (p : Prof) (J : Mat2) (off : ℝ × ℝ) (r : ℝ) : (mkTransform p J off r).analyticX = p.analyticX := by
  cases p <;> rfl

/-- The world position relative to the object. -/
theorem docMap_sub (w : WCS) (p q : ℝ × ℝ) : (WCS.loc w.localWCS).docMap (p - q) = w.docMap p - w.docMap q := by
  cases w <;> ext <;> simp only [WCS.docMap, WCS.localWCS, Prod.fst_sub, Prod.snd_sub] <;> ring

theorem drawStep_ok {g : DrawGS} {phot : PhotDraw} {a : DrawArgs} {q : Prof} {im0 : DrawImg} {arr : ℕ → ℕ → ℝ} {added : ℝ}
    (h : drawStep g phot a q im0 = (arr, .ok added)) (hm : a.method ≠ .phot) :
    a.sensor = false ∧ ∃ v, (if q.analyticX then drawRealArr q im0.bounds else drawFFTArr g q im0.bounds) = .ok v ∧
      (∀ i j, arr i j = (if a.addTo then im0.arr i j else 0) + v i j) ∧ added = arrSum im0.bounds v := by
  unfold drawStep at h
  rw [if_neg hm] at h
  split at h
  · simp at h
  rename_i hsen
  simp only [Bool.or_eq_true, not_or, Bool.not_eq_true] at hsen
  split at h
  · simp at h
  rename_i v hv
  simp only [Prod.mk.injEq, Except.ok.injEq] at h
  refine ⟨hsen.1, v, hv, ?_, h.2.symm⟩
  intro i j
  rw [← h.1]
  unfold storeArr
  split_ifs <;> simp

/-- C81, drawing in real space: when `drawImage` returns an image, the image has the requested wcs and rectangle, is the
image passed in, and every pixel holds the surface brightness of the object at the world position of the pixel relative
to the world position of the object, times the pixel area (not for method `sb`) and the counts per flux, added to the old
pixel with `add_to_image`; `added_flux` is the sum of what was added, in the units of the flux. -/
theorem C81_real_partial (g : DrawGS) (phot : PhotDraw) (e : Expr) (a : DrawArgs) (x : Option DrawImg) (im : DrawImg)
    (h : drawImage g phot e.build a = (x, .ok im)) (hs : a.setupOnly = false)
    (hgood : ∀ i, a.image = some i → i.bounds.defined = false → a.center = none)
    (hm : a.method = .noPixel ∨ a.method = .sb) (ha : e.build.analyticX = true) :
    ∃ w, WcsRequested e.build a w ∧ im.wcs = some w ∧ x = a.image.map (fun _ => im) ∧
      requestedRect (a.place 0) im.bounds ∧
      (w.Nondeg →
        (∀ i j : ℕ, (i : ℤ) < im.bounds.deltay → (j : ℤ) < im.bounds.deltax → ∃ v,
          e.sb (w.docMap (((im.bounds.xmin + j : ℤ) : ℝ), ((im.bounds.ymin + i : ℤ) : ℝ)) -
            w.docMap (requestedPos (a.place 0) im.bounds)) = some v ∧
          im.arr i j = a.oldPixel i j + a.counts * (if a.method = .sb then 1 else w.localWCS.docArea) * v) ∧
        ∃ f, im.addedFlux = some f ∧ f * a.counts / (if a.method = .sb then w.localWCS.docArea else 1) =
          ∑ i ∈ Finset.range im.bounds.deltay.toNat, ∑ j ∈ Finset.range im.bounds.deltax.toNat,
            (im.arr i j - a.oldPixel i j)) := by
  obtain ⟨w, off, p, q, c, im0, added, d⟩ := drawImage_ok h hs hgood
  have hph : a.method ≠ .phot := by rcases hm with h | h <;> rw [h] <;> simp
  obtain ⟨hsen, v, hv, harr, hadd⟩ := drawStep_ok d.step hph
  refine ⟨w, d.wcs, d.imwcs, d.same, d.rect, fun hw => ?_⟩
  have hfs := fluxScale_eq hph hsen w.localWCS
  rw [C40_area _ hw] at hfs
  have hJ : 0 < w.localWCS.docArea := by rw [docArea_eq]; exact abs_pos.mpr (det_toJac hw)
  have hqp : q = p := by
    have := d.pixel
    unfold convolvePixel at this
    rcases hm with h | h <;> simp [h] at this <;> exact this.symm
  subst hqp
  have hp := d.prof
  unfold WCS.profileToImage at hp
  rw [profileToImage_eq hw] at hp
  have hp := (Option.some.inj hp).symm
  have hq : q = (Expr.tr e w.localWCS.toJac.inv' off (fluxScale a w.localWCS * |w.localWCS.toJac.det|)).build := hp
  have hqa : q.analyticX = true := by rw [hp, analyticX_mk, ha]
  rw [if_pos hqa] at hv
  unfold drawRealArr at hv
  simp only at hv
  split at hv
  swap
  · simp at hv
  rename_i hall
  simp only [Except.ok.injEq] at hv
  obtain ⟨hgain, harea, hexp⟩ := check_pos d.check
  have hcp : 0 < a.counts := by unfold DrawArgs.counts; positivity
  have hfsp : 0 < fluxScale a w.localWCS := by rw [hfs]; split_ifs <;> positivity
  refine ⟨?_, ?_⟩
  · intro i j hi hj
    have hi0 := hall i j (by rw [d.deltay]; exact hi) (by rw [d.deltax]; exact hj)
    obtain ⟨p', hp', -, hval⟩ := C40_toImage w hw e.build (fluxScale a w.localWCS) off
    rw [d.prof] at hp'
    obtain rfl := Option.some.inj hp'
    have hdr : q.drawReal 1 (((im0.bounds.xmin + j : ℤ) : ℝ), ((im0.bounds.ymin + i : ℤ) : ℝ)) none 0 1 =
        (e.sb (w.docMap (((im.bounds.xmin + j : ℤ) : ℝ), ((im.bounds.ymin + i : ℤ) : ℝ)) -
            w.docMap (requestedPos (a.place 0) im.bounds))).map fun v => fluxScale a w.localWCS * v * w.localWCS.docArea := by
      rw [hq, C48_drawReal_plain, ← C42_xValue, ← hq, ← C42_xValue, ← docMap_sub, ← hval]
      simp only [mul_one, one_pow, Option.map_id']
      congr 1
      rw [← d.pos, d.xmin, d.ymin]
      ext <;> simp only [Prod.fst_add, Prod.snd_add, Prod.fst_sub, Prod.snd_sub] <;> push_cast <;> ring
    rw [hdr, Option.isSome_map] at hi0
    obtain ⟨v', hv'⟩ := Option.isSome_iff_exists.mp hi0
    refine ⟨v', hv', ?_⟩
    rw [harr, d.old, ← hv]
    simp only [hdr, hv', Option.map_some, Option.getD_some]
    rw [hfs]
    split_ifs
    · field_simp
    · ring
  · refine ⟨_, d.flux, ?_⟩
    have : (added / fluxScale a w.localWCS) * a.counts / (if a.method = .sb then w.localWCS.docArea else 1) = added := by
      rw [mul_div_assoc, ← hfs, div_mul_cancel₀ _ hfsp.ne']
    rw [this, hadd]
    unfold arrSum
    rw [d.deltax, d.deltay]
    refine Finset.sum_congr rfl fun i _ => Finset.sum_congr rfl fun j _ => ?_
    rw [harr, d.old]; ring

/-! ### Drawing by FFT -/

theorem makeKSizes_le {mn mx : ℤ} {stepk maxk scale : ℝ} {b : Bounds ℤ} {N Nk : ℤ} {dk : ℝ} (hsc : scale = 1)
    (h : makeKSizes mn mx stepk maxk scale b = some (N, Nk, dk)) (hN : 0 < N) :
    dk = 2 * Real.pi / N ∧ N ≤ Nk ∧ (mx ≠ mn → maxk ≤ Nk / 2 * dk ∧ Nk ≤ mx) := by
  subst hsc
  unfold makeKSizes at h
  split_ifs at h with h1
  · simp only [Option.some.injEq, Prod.mk.injEq, mul_one] at h
    obtain ⟨rfl, rfl, rfl⟩ := h
    exact ⟨rfl, le_rfl, fun h => absurd h1 h⟩
  · simp only [Option.bind_eq_bind, Option.bind_eq_some_iff, mul_one] at h
    obtain ⟨n, -, h⟩ := h
    generalize max n mn = N' at *
    obtain ⟨K, hK⟩ : ∃ K, K = if (N' : ℝ) * (2 * Real.pi / N') / 2 > maxk then N'
      else ⌈maxk / (2 * Real.pi / N')⌉ * 2 := ⟨_, rfl⟩
    rw [← hK] at h
    split at h
    · simp at h
    rename_i hlt
    simp only [Option.some.injEq, Prod.mk.injEq] at h
    obtain ⟨rfl, rfl, rfl⟩ := h
    rw [hK] at hlt ⊢
    have hNr : (0 : ℝ) < N' := by exact_mod_cast hN
    have hd : 0 < 2 * Real.pi / (N' : ℝ) := by have := Real.pi_pos; positivity
    refine ⟨rfl, ?_, fun _ => ⟨?_, not_lt.mp hlt⟩⟩
    · split_ifs with h2
      · exact le_rfl
      · have h3 : (N' : ℝ) ≤ 2 * (maxk / (2 * Real.pi / N')) := by
          rw [← mul_div_assoc, le_div_iff₀ hd]; linarith
        have h4 := Int.le_ceil (maxk / (2 * Real.pi / (N' : ℝ)))
        have h5 : (N' : ℝ) ≤ ((⌈maxk / (2 * Real.pi / (N' : ℝ))⌉ * 2 : ℤ) : ℝ) := by push_cast; linarith
        exact_mod_cast h5
    · split_ifs with h2
      · linarith
      · have h4 := Int.le_ceil (maxk / (2 * Real.pi / (N' : ℝ)))
        rw [div_le_iff₀ hd] at h4
        push_cast
        linarith

/-- The pixels of `drawFFT`. -/
theorem fftArr_ok {g : DrawGS} {q : Prof} {b : Bounds ℤ} {v : ℕ → ℕ → ℝ} (h : drawFFTArr g q b = .ok v)
    (hh : ∀ k, q.kValue (-k) = star (q.kValue k)) :
    ∃ m n : ℕ, 0 < m ∧ m ≤ n ∧ (g.maxFFT ≠ g.minFFT → q.maxk ≤ n * (Real.pi / m) ∧ 2 * (n : ℤ) ≤ g.maxFFT) ∧
      (-(m : ℤ) ≤ b.xmin ∧ b.xmin + b.deltax ≤ m ∧ -(m : ℤ) ≤ b.ymin ∧ b.ymin + b.deltay ≤ m) ∧
      ∀ i j : ℕ, ((v i j : ℝ) : ℂ) = (∑ Y ∈ Finset.Icc (-(n : ℤ)) n, ∑ X ∈ Finset.Icc (-(n : ℤ)) n,
        q.kValue (X * (Real.pi / m), Y * (Real.pi / m)) *
          Complex.exp (Complex.I * (Real.pi / m * (X * (b.xmin + j : ℤ) + Y * (b.ymin + i : ℤ)) : ℝ))) / (2 * m : ℕ) ^ 2 := by
  unfold drawFFTArr at h
  split at h
  · simp at h
  rename_i N Nk dk hs
  split at h
  · simp at h
  rename_i hpar
  push Not at hpar
  obtain ⟨hp1, hp2, hp3⟩ := hpar
  obtain ⟨hdk, hle, hmax⟩ := makeKSizes_le rfl hs hp3
  obtain ⟨m, rfl⟩ : ∃ m : ℕ, N = 2 * m := ⟨(N / 2).toNat, by omega⟩
  obtain ⟨n, rfl⟩ : ∃ n : ℕ, Nk = 2 * n := ⟨(Nk / 2).toNat, by omega⟩
  have hm : 0 < m := by omega
  have hmn : m ≤ n := by omega
  have hdk' : dk = Real.pi / m := by
    rw [hdk]; push_cast
    have : (m : ℝ) ≠ 0 := by exact_mod_cast hm.ne'
    field_simp
  simp only at h
  split at h
  swap
  · simp at h
  rename_i hinc
  simp only [Bounds.includesB, Bool.and_eq_true, decide_eq_true_eq, and_assoc] at hinc
  obtain ⟨-, -, i1, i2, i3, i4⟩ := hinc
  have r1 : (realBounds (2 * m)).xmin = -m := by simp [realBounds, Bounds.mkDelta, Bounds.finish]; omega
  have r2 : (realBounds (2 * m)).ymin = -m := by simp [realBounds, Bounds.mkDelta, Bounds.finish]; omega
  have r3 : (realBounds (2 * m)).deltax = 2 * m := by simp [realBounds, Bounds.mkDelta, Bounds.finish]
  have r4 : (realBounds (2 * m)).deltay = 2 * m := by simp [realBounds, Bounds.mkDelta, Bounds.finish]
  simp only [Bounds.xmax, Bounds.ymax, clsI, r1, r2, r3, r4] at i1 i2 i3 i4
  refine ⟨m, n, hm, hmn, ?_, ⟨i1, by omega, i3, by omega⟩, ?_⟩
  · intro hne
    obtain ⟨h1, h2⟩ := hmax hne
    refine ⟨?_, h2⟩
    rw [hdk'] at h1
    push_cast at h1
    linarith
  intro i j
  simp only [Except.ok.injEq] at h
  have kx : (kBounds (2 * n)).xmin = 0 := rfl
  have ky : (kBounds (2 * n)).ymin = -n := by simp [kBounds, Bounds.mkDelta, Bounds.finish]; omega
  have kdx : (kBounds (2 * n)).deltax.toNat = n + 1 := by simp [kBounds, Bounds.mkDelta, Bounds.finish]
  have kdy : (kBounds (2 * n)).deltay.toNat = 2 * n + 1 := by simp [kBounds, Bounds.mkDelta, Bounds.finish]; omega
  have hn2 : (2 * (n : ℤ) / 2).toNat = n := by omega
  have hm2 : (2 * (m : ℤ) / 2).toNat = m := by omega
  have hk1 : ∀ x y : ℝ, q.drawK dk (x, y) none = q.kValue (x * dk, y * dk) := by
    intro x y
    rw [drawK_eq, Option.getD_none, show Mat2.one.tr = Mat2.one from rfl, Mat2.one_app]
  rw [← h]
  simp only [hn2, hm2]
  have key := (Fft.C73_mode_sum (fun X Y => q.kValue (X * dk, Y * dk)) (by
      intro X Y
      rw [← hh]
      congr 1
      ext <;> simp) n m hm hmn
    ⟨(kBounds (2 * n)).deltay.toNat, (kBounds (2 * n)).deltax.toNat,
        fun i j => q.drawK dk ((((kBounds (2 * n)).xmin + j : ℤ) : ℝ), (((kBounds (2 * n)).ymin + i : ℤ) : ℝ)) none⟩
    kdy kdx (by
      intro X Y hX hX2 hY hY2
      simp only [hk1, kx, ky]
      congr 3
      · congr 1; omega
      · congr 1; omega)
    (b.ymin - (realBounds (2 * m)).ymin + i).toNat (b.xmin - (realBounds (2 * m)).xmin + j).toNat).2.2
  rw [key, r1, r2, hdk']
  congr 1
  refine Finset.sum_congr rfl fun Y _ => Finset.sum_congr rfl fun X _ => ?_
  congr 4
  have e1 : (((b.xmin - -(m : ℤ) + j).toNat : ℕ) : ℤ) - m = b.xmin + j := by omega
  have e2 : (((b.ymin - -(m : ℤ) + i).toNat : ℕ) : ℤ) - m = b.ymin + i := by omega
  rw [e1, e2]
  push_cast; ring

/-- Specification: whether the method integrates over the pixel. -/
def Method.overPixel : Method → Bool
  | .auto | .fft | .realSpace => true
  | _ => false

/-- Specification: the Fourier transform of a pixel of side 1 (or of a point). -/
noncomputable def pixelWindow (m : Method) (k : ℝ × ℝ) : ℝ :=
  if m.overPixel then Real.sinc (k.1 / 2) * Real.sinc (k.2 / 2) else 1

/-- The pixel as a profile. -/
theorem pixel_kValue (gs : GSP) (k : ℝ × ℝ) :
    (Prof.leaf (Elt.Elem.leaf (.box (Elt.Box.pixel 1 1 gs)))).kValue k =
      ((Real.sinc (k.1 / 2) * Real.sinc (k.2 / 2) : ℝ) : ℂ) := by
  have hpi := Real.pi_ne_zero
  simp only [Prof.kValue, Elt.Elem.leaf, Elt.Box.kValue, Elt.Box.pixel, Elt.npSinc]
  rw [show Real.pi * (k.1 * (1 / (2 * Real.pi))) = k.1 / 2 by field_simp,
    show Real.pi * (k.2 * (1 / (2 * Real.pi))) = k.2 / 2 by field_simp, one_mul]

theorem convolvePixel_ok {g : DrawGS} {m : Method} {p q : Prof} (h : convolvePixel g m p = some q) :
    (∀ k, q.kValue k = p.kValue k * (pixelWindow m k : ℂ)) ∧
    (m.overPixel = true → q.analyticX = false ∧ q.maxk = min p.maxk (2 / g.gs .maxk_threshold)) ∧
    (m.overPixel = false → q = p) := by
  have hc : ∀ r, (convolveCtor [p.hardEdges, (Prof.leaf (Elt.Elem.leaf (.box (Elt.Box.pixel 1 1 g.gs)))).hardEdges]
        [p.analyticX, (Prof.leaf (Elt.Elem.leaf (.box (Elt.Box.pixel 1 1 g.gs)))).analyticX] r).map
          (fun _ => mkConv [p, .leaf (Elt.Elem.leaf (.box (Elt.Box.pixel 1 1 g.gs)))]) = some q →
      m.overPixel = true →
      (∀ k, q.kValue k = p.kValue k * (pixelWindow m k : ℂ)) ∧
      (m.overPixel = true → q.analyticX = false ∧ q.maxk = min p.maxk (2 / g.gs .maxk_threshold)) ∧
      (m.overPixel = false → q = p) := by
    intro r h hm
    rw [Option.map_eq_some_iff] at h
    obtain ⟨-, -, rfl⟩ := h
    refine ⟨fun k => ?_, fun _ => ⟨rfl, ?_⟩, fun h => by rw [hm] at h; cases h⟩
    · rw [(C45_values _).2.1]
      simp only [List.map_cons, List.map_nil, List.prod_cons, List.prod_nil, mul_one, pixelWindow, hm, if_true]
      rw [pixel_kValue]
    · simp only [mkConv, Prof.maxk, Prof.maxkMin]
      simp [Elt.Elem.leaf, Elt.Box.maxk, Elt.Box.pixel]
  unfold convolvePixel at h
  cases m <;> simp only at h
  · exact hc _ h rfl
  · exact hc _ h rfl
  · exact hc _ h rfl
  all_goals
    obtain rfl := Option.some.inj h
    exact ⟨fun k => by simp [pixelWindow, Method.overPixel], (fun h => by cases h), fun _ => rfl⟩

/-- Solving for the wave vector in world coordinates. -/
theorem inv_tr_solve (J : Mat2) (hd : J.det ≠ 0) (k κ : ℝ × ℝ) :
    J.inv'.tr.app k = κ ↔ J.a * κ.1 + J.c * κ.2 = k.1 ∧ J.b * κ.1 + J.d * κ.2 = k.2 := by
  have e : J.inv'.tr.app k = ((J.d * k.1 - J.c * k.2) / J.det, (J.a * k.2 - J.b * k.1) / J.det) := by
    ext <;> simp only [Mat2.app, Mat2.tr, Mat2.inv'] <;> ring
  have hD : J.det = J.a * J.d - J.b * J.c := rfl
  rw [e, Prod.ext_iff]
  simp only [div_eq_iff hd]
  constructor
  · rintro ⟨h1, h2⟩
    constructor
    · apply mul_right_cancel₀ hd; rw [hD] at *; linear_combination -J.a * h1 - J.c * h2
    · apply mul_right_cancel₀ hd; rw [hD] at *; linear_combination -J.b * h1 - J.d * h2
  · rintro ⟨h1, h2⟩
    rw [hD]
    constructor
    · linear_combination -J.d * h1 + J.c * h2
    · linear_combination J.b * h1 - J.a * h2

theorem toImage_kValue (w : WCS) (hw : w.Nondeg) (o : Prof) (fs : ℝ) (off : ℝ × ℝ) (p : Prof)
    (hp : w.profileToImage o fs off = some p) (k κ : ℝ × ℝ)
    (h1 : w.localWCS.docMatrix.1.1 * κ.1 + w.localWCS.docMatrix.2.1 * κ.2 = k.1)
    (h2 : w.localWCS.docMatrix.1.2 * κ.1 + w.localWCS.docMatrix.2.2 * κ.2 = k.2) :
    p.kValue k = fs * Complex.exp (-Complex.I * ((k.1 * off.1 + k.2 * off.2 : ℝ) : ℂ)) * o.kValue κ := by
  unfold WCS.profileToImage at hp
  rw [profileToImage_eq hw] at hp
  obtain rfl := Option.some.inj hp
  have hd := det_toJac hw
  have hda : |w.localWCS.toJac.det| ≠ 0 := abs_ne_zero.mpr hd
  rw [kValue_mk, kFactor_eq]
  have e1 : fs * |w.localWCS.toJac.det| * |w.localWCS.toJac.inv'.a * w.localWCS.toJac.inv'.d -
      w.localWCS.toJac.inv'.b * w.localWCS.toJac.inv'.c| = fs := by
    rw [show w.localWCS.toJac.inv'.a * w.localWCS.toJac.inv'.d - w.localWCS.toJac.inv'.b * w.localWCS.toJac.inv'.c =
      w.localWCS.toJac.inv'.det from rfl, Mat2.det_inv' hd, abs_div, abs_one]
    field_simp
  rw [e1]
  have hmat : w.localWCS.docMatrix = ((w.localWCS.toJac.a, w.localWCS.toJac.b), (w.localWCS.toJac.c, w.localWCS.toJac.d)) := by
    cases w.localWCS with
    | pix c => rfl
    | shear c s =>
      simp only [LocalWCS.docMatrix, LocalWCS.toJac, LocalWCS.gfactor, absg_sq]
      ext <;> simp <;> ring
    | jac J => rfl
  rw [hmat] at h1 h2
  simp only at h1 h2
  have e2 : w.localWCS.toJac.inv'.tr.app k = κ := (inv_tr_solve _ hd k κ).mpr ⟨h1, h2⟩
  rw [e2]
  ring

/-- C81, drawing by FFT: when `drawImage` returns an image, every pixel is the inverse Fourier sum (over all modes of a
grid that covers the image in real space and reaches `maxk` unless a fixed FFT size is configured) of the Fourier values
of the object, times those of the pixel for the methods that integrate over the pixel, at the position of the pixel
relative to that of the object. -/
theorem C81_fft_partial (g : DrawGS) (phot : PhotDraw) (e : Expr) (a : DrawArgs) (x : Option DrawImg) (im : DrawImg)
    (h : drawImage g phot e.build a = (x, .ok im)) (hs : a.setupOnly = false)
    (hgood : ∀ i, a.image = some i → i.bounds.defined = false → a.center = none)
    (hm : a.method ≠ .phot) (ha : a.method.overPixel = false → e.build.analyticX = false)
    (hh : ∀ k, e.ft (-k) = star (e.ft k)) :
    ∃ w, WcsRequested e.build a w ∧ im.wcs = some w ∧ x = a.image.map (fun _ => im) ∧
      requestedRect (a.place 0) im.bounds ∧
      (w.Nondeg → ∃ m n : ℕ, 0 < m ∧ m ≤ n ∧ im.bounds.deltax ≤ 2 * m ∧ im.bounds.deltay ≤ 2 * m ∧
        (g.maxFFT ≠ g.minFFT → 2 * (n : ℤ) ≤ g.maxFFT ∧ ∃ p, w.profileToImage e.build 1 (0, 0) = some p ∧
          (if a.method.overPixel then min p.maxk (2 / g.gs .maxk_threshold) else p.maxk) ≤ n * (Real.pi / m)) ∧
        (∀ κ : ℤ → ℤ → ℝ × ℝ,
          (∀ X Y : ℤ, w.localWCS.docMatrix.1.1 * (κ X Y).1 + w.localWCS.docMatrix.2.1 * (κ X Y).2 = X * (Real.pi / m) ∧
            w.localWCS.docMatrix.1.2 * (κ X Y).1 + w.localWCS.docMatrix.2.2 * (κ X Y).2 = Y * (Real.pi / m)) →
          ∀ i j : ℕ, (((im.arr i j - a.oldPixel i j : ℝ)) : ℂ) =
            (a.counts / (if a.method = .sb then w.localWCS.docArea else 1) : ℝ) / (2 * m : ℕ) ^ 2 *
              ∑ Y ∈ Finset.Icc (-(n : ℤ)) n, ∑ X ∈ Finset.Icc (-(n : ℤ)) n,
                e.ft (κ X Y) * pixelWindow a.method (X * (Real.pi / m), Y * (Real.pi / m)) *
                Complex.exp (Complex.I * (Real.pi / m *
                  (X * ((im.bounds.xmin + j : ℤ) - (requestedPos (a.place 0) im.bounds).1) +
                   Y * ((im.bounds.ymin + i : ℤ) - (requestedPos (a.place 0) im.bounds).2)) : ℝ))) ∧
        ∃ f, im.addedFlux = some f ∧ f * a.counts / (if a.method = .sb then w.localWCS.docArea else 1) =
          ∑ i ∈ Finset.range im.bounds.deltay.toNat, ∑ j ∈ Finset.range im.bounds.deltax.toNat,
            (im.arr i j - a.oldPixel i j)) := by
  obtain ⟨w, off, p, q, c, im0, added, d⟩ := drawImage_ok h hs hgood
  obtain ⟨hsen, v, hv, harr, hadd⟩ := drawStep_ok d.step hm
  refine ⟨w, d.wcs, d.imwcs, d.same, d.rect, fun hw => ?_⟩
  have hfs := fluxScale_eq hm hsen w.localWCS
  rw [C40_area _ hw] at hfs
  have hJ : 0 < w.localWCS.docArea := by rw [docArea_eq]; exact abs_pos.mpr (det_toJac hw)
  obtain ⟨hgain, harea, hexp⟩ := check_pos d.check
  have hcp : 0 < a.counts := by unfold DrawArgs.counts; positivity
  have hfsp : 0 < fluxScale a w.localWCS := by rw [hfs]; split_ifs <;> positivity
  obtain ⟨hqk, hq1, hq2⟩ := convolvePixel_ok d.pixel
  have hpm : p = mkTransform e.build w.localWCS.toJac.inv' off (fluxScale a w.localWCS * |w.localWCS.toJac.det|) := by
    have hp := d.prof
    unfold WCS.profileToImage at hp
    rw [profileToImage_eq hw] at hp
    exact (Option.some.inj hp).symm
  have hqa : q.analyticX = false := by
    cases ho : a.method.overPixel with
    | true => exact (hq1 ho).1
    | false => rw [hq2 ho, hpm, analyticX_mk, ha ho]
  rw [hqa, if_neg (by simp)] at hv
  have hd := det_toJac hw
  have hmat : w.localWCS.docMatrix = ((w.localWCS.toJac.a, w.localWCS.toJac.b), (w.localWCS.toJac.c, w.localWCS.toJac.d)) := by
    cases w.localWCS with
    | pix c => rfl
    | shear c s =>
      simp only [LocalWCS.docMatrix, LocalWCS.toJac, LocalWCS.gfactor, absg_sq]
      ext <;> simp <;> ring
    | jac J => rfl
  have hpk : ∀ k, p.kValue k = fluxScale a w.localWCS * Complex.exp (-Complex.I * ((k.1 * off.1 + k.2 * off.2 : ℝ) : ℂ)) *
      e.build.kValue (w.localWCS.toJac.inv'.tr.app k) := by
    intro k
    have hs := (inv_tr_solve w.localWCS.toJac hd k _).mp rfl
    exact toImage_kValue w hw e.build _ off p d.prof k _ (by rw [hmat]; exact hs.1) (by rw [hmat]; exact hs.2)
  have hherm : ∀ k, q.kValue (-k) = star (q.kValue k) := by
    intro k
    rw [hqk, hqk, hpk, hpk, C42_kValue, C42_kValue]
    have e1 : w.localWCS.toJac.inv'.tr.app (-k) = -(w.localWCS.toJac.inv'.tr.app k) := by
      ext <;> simp [Mat2.app] <;> ring
    have e2 : pixelWindow a.method (-k) = pixelWindow a.method k := by
      simp [pixelWindow, neg_div, Real.sinc_neg]
    rw [e1, hh, e2]
    simp only [star_mul', Complex.star_def, Complex.conj_ofReal, ← Complex.exp_conj, map_mul, map_neg, Complex.conj_I]
    congr 4
    simp only [Prod.fst_neg, Prod.snd_neg]
    push_cast; ring
  obtain ⟨m, n, hm0, hmn, hmax, ⟨b1, b2, b3, b4⟩, hval⟩ := fftArr_ok hv hherm
  refine ⟨m, n, hm0, hmn, by have := d.deltax; omega, by have := d.deltay; omega, ?_, ?_, ?_⟩
  · intro hne
    obtain ⟨m1, m2⟩ := hmax hne
    refine ⟨m2, _, profileToImage_eq hw _ _ _, ?_⟩
    have hpmax : p.maxk = (mkTransform e.build w.localWCS.toJac.inv' (0, 0) (1 * |w.localWCS.toJac.det|)).maxk := by
      rw [hpm]
      cases e.build <;> rfl
    cases ho : a.method.overPixel with
    | true => rw [if_pos rfl, ← hpmax, ← (hq1 ho).2]; exact m1
    | false => rw [if_neg (by simp), ← hpmax, ← hq2 ho]; exact m1
  · intro κ hκ i j
    rw [harr, d.old, add_sub_cancel_left, hval, ← hfs, div_mul_eq_mul_div]
    congr 1
    rw [Finset.mul_sum]
    refine Finset.sum_congr rfl fun Y _ => ?_
    rw [Finset.mul_sum]
    refine Finset.sum_congr rfl fun X _ => ?_
    rw [hqk, toImage_kValue w hw e.build _ off p d.prof _ (κ X Y) (hκ X Y).1 (hκ X Y).2, C42_kValue, ← d.pos]
    have : Complex.exp (Complex.I * (Real.pi / m *
          (X * ((im.bounds.xmin + j : ℤ) - (c.x + off.1)) + Y * ((im.bounds.ymin + i : ℤ) - (c.y + off.2))) : ℝ)) =
        Complex.exp (-Complex.I * ((X * (Real.pi / m) * off.1 + Y * (Real.pi / m) * off.2 : ℝ) : ℂ)) *
        Complex.exp (Complex.I * (Real.pi / m * (X * (im0.bounds.xmin + j : ℤ) + Y * (im0.bounds.ymin + i : ℤ)) : ℝ)) := by
      rw [← Complex.exp_add, d.xmin, d.ymin]
      congr 1
      push_cast; ring
    simp only [this]
    ring
  · refine ⟨_, d.flux, ?_⟩
    have : (added / fluxScale a w.localWCS) * a.counts / (if a.method = .sb then w.localWCS.docArea else 1) = added := by
      rw [mul_div_assoc, ← hfs, div_mul_cancel₀ _ hfsp.ne']
    rw [this, hadd]
    unfold arrSum
    rw [d.deltax, d.deltay]
    refine Finset.sum_congr rfl fun i _ => Finset.sum_congr rfl fun j _ => ?_
    rw [harr, d.old]; ring

/-! ### Calls that succeed -/

theorem boundsFrom1_center {nx ny : ℤ} (hx : 0 < nx) (hy : 0 < ny) :
    (boundsFrom1 nx ny).centerI = some ⟨1 + nx / 2, 1 + ny / 2⟩ ∧
    ∃ b0, setCenterB (boundsFrom1 nx ny) ⟨0, 0⟩ = some b0 ∧ b0.defined = true ∧ b0.xmin = -(nx / 2) ∧ b0.ymin = -(ny / 2) ∧
      b0.deltax = nx ∧ b0.deltay = ny := by
  have h1 : ¬ nx < 1 := by omega
  have h2 : ¬ ny < 1 := by omega
  have hc : (boundsFrom1 nx ny).centerI = some ⟨1 + nx / 2, 1 + ny / 2⟩ := by
    simp [boundsFrom1, Bounds.mkDelta, Bounds.finish, Bounds.centerI, clsI, h1, h2]
  refine ⟨hc, _, by rw [setCenterB, hc]; rfl, ?_, ?_, ?_, rfl, rfl⟩
  · simp [boundsFrom1, Bounds.mkDelta, Bounds.finish, Bounds.shift, clsI, h1, h2]
  · simp [boundsFrom1, Bounds.mkDelta, Bounds.finish, Bounds.shift]
  · simp [boundsFrom1, Bounds.mkDelta, Bounds.finish, Bounds.shift]

/-- C81: an object with a surface brightness everywhere can be drawn without the pixel on an image of any size and scale. -/
theorem C81_draws_real (g : DrawGS) (phot : PhotDraw) (e : Expr) (ha : e.build.analyticX = true)
    (hv : ∀ y, (e.sb y).isSome = true) (nx ny : ℤ) (hx : 0 < nx) (hy : 0 < ny) (s : ℝ) (hs : 0 < s) :
    ∃ im, drawImage g phot e.build { nx := some nx, ny := some ny, scale := some s, method := .noPixel } = (none, .ok im) := by
  obtain ⟨hc, b0, hb0, -⟩ := boundsFrom1_center hx hy
  have hn : getNewBounds (({ nx := some nx, ny := some ny, scale := some s, method := .noPixel } : DrawArgs).place 0) =
      some (boundsFrom1 nx ny) := rfl
  have hst : ∀ G, setupImage (({ nx := some nx, ny := some ny, scale := some s, method := .noPixel } : DrawArgs).place G) =
      some (boundsFrom1 nx ny) := fun G => by simp [DrawArgs.place, setupImage]
  have hck : ({ nx := some nx, ny := some ny, scale := some s, method := .noPixel } : DrawArgs).check = none := by
    have h1 : ¬ ((1 : ℝ) ≤ 0) := by norm_num
    simp [DrawArgs.check, h1]
  unfold drawImage
  rw [hck]
  simp only [determineWcs, positiveScale, if_neg (not_le.mpr hs), hn, WCS.profileToImage, WCS.localWCS,
    LocalWCS.profileToImage, if_neg hs.ne', convolvePixel]
  obtain ⟨off, hoff⟩ : ∃ off, off = adjustOffset (boundsFrom1 nx ny)
    (({ nx := some nx, ny := some ny, scale := some s, method := .noPixel } : DrawArgs).place 0) := ⟨_, rfl⟩
  rw [← hoff]
  generalize fluxScale _ (LocalWCS.pix s) = fs
  unfold drawFinish
  rw [hst]
  simp only [hc, hb0, Bool.false_eq_true, if_false]
  unfold drawStep
  have hq : mkTransform e.build ⟨1 / s, 0, 0, 1 / s⟩ (off.x, off.y) (s ^ 2 * fs) =
    (Expr.tr e ⟨1 / s, 0, 0, 1 / s⟩ (off.x, off.y) (s ^ 2 * fs)).build := rfl
  have hreal : ∃ v, drawRealArr (mkTransform e.build ⟨1 / s, 0, 0, 1 / s⟩ (off.x, off.y) (s ^ 2 * fs)) b0 = .ok v := by
    unfold drawRealArr
    rw [if_pos]
    · exact ⟨_, rfl⟩
    intro i j _ _
    rw [hq]
    simp only
    rw [C48_drawReal_plain]
    simp only [Option.isSome_map, Expr.sb]
    rw [if_neg (by simp [hs.ne'])]
    simp [hv]
  obtain ⟨v, hv'⟩ := hreal
  have hqa : (mkTransform e.build ⟨1 / s, 0, 0, 1 / s⟩ (off.x, off.y) (s ^ 2 * fs)).analyticX = true := by
    rw [analyticX_mk, ha]
  rw [if_neg (by simp), if_neg (by simp), if_pos hqa, hv']
  exact ⟨_, rfl⟩

/-- C81: every object without hard edges can be drawn by FFT (method `auto`, fixed FFT size) on an image within that size. -/
theorem C81_draws_fft (g : DrawGS) (phot : PhotDraw) (o : Prof) (ho : o.hardEdges = false) (m : ℕ)
    (hg : g.minFFT = 2 * m ∧ g.maxFFT = 2 * m) (nx ny : ℤ) (hx : 0 < nx) (hy : 0 < ny) (hxm : nx ≤ 2 * m) (hym : ny ≤ 2 * m)
    (s : ℝ) (hs : 0 < s) :
    ∃ im, drawImage g phot o { nx := some nx, ny := some ny, scale := some s } = (none, .ok im) := by
  obtain ⟨hc, b0, hb0, h0d, h0x, h0y, h0w, h0h⟩ := boundsFrom1_center hx hy
  have hn : getNewBounds (({ nx := some nx, ny := some ny, scale := some s } : DrawArgs).place 0) =
      some (boundsFrom1 nx ny) := rfl
  have hst : ∀ G, setupImage (({ nx := some nx, ny := some ny, scale := some s } : DrawArgs).place G) =
      some (boundsFrom1 nx ny) := fun G => by simp [DrawArgs.place, setupImage]
  have hck : ({ nx := some nx, ny := some ny, scale := some s } : DrawArgs).check = none := by
    have h1 : ¬ ((1 : ℝ) ≤ 0) := by norm_num
    simp [DrawArgs.check, h1]
  unfold drawImage
  rw [hck]
  obtain ⟨off, hoff⟩ : ∃ off, off = adjustOffset (boundsFrom1 nx ny)
    (({ nx := some nx, ny := some ny, scale := some s } : DrawArgs).place 0) := ⟨_, rfl⟩
  simp only [determineWcs, positiveScale, if_neg (not_le.mpr hs), hn, WCS.profileToImage, WCS.localWCS,
    LocalWCS.profileToImage, if_neg hs.ne', ← hoff]
  generalize fluxScale _ (LocalWCS.pix s) = fs
  have hhard : (mkTransform o ⟨1 / s, 0, 0, 1 / s⟩ (off.x, off.y) (s ^ 2 * fs)).hardEdges = false := by
    rw [← ho]; cases o <;> rfl
  generalize mkTransform o ⟨1 / s, 0, 0, 1 / s⟩ (off.x, off.y) (s ^ 2 * fs) = p at *
  have hcp : convolvePixel g .auto p = some (mkConv [p, .leaf (Elt.Elem.leaf (.box (Elt.Box.pixel 1 1 g.gs)))]) := by
    simp [convolvePixel, convolveCtor, hhard]
  rw [hcp]
  simp only
  unfold drawFinish
  rw [hst]
  simp only [hc, hb0, Bool.false_eq_true, if_false]
  unfold drawStep
  have hm0 : 0 < m := by omega
  have hfft : ∃ v, drawFFTArr g (mkConv [p, .leaf (Elt.Elem.leaf (.box (Elt.Box.pixel 1 1 g.gs)))]) b0 = .ok v := by
    unfold drawFFTArr makeKSizes
    rw [hg.1, hg.2]
    simp only [if_true]
    rw [if_neg (by omega), if_pos]
    · exact ⟨_, rfl⟩
    have d1 : ¬ (2 * ((2 * (m : ℤ)) / 2) < 1) := by omega
    simp only [Bounds.includesB, Bool.and_eq_true, decide_eq_true_eq, Bounds.xmax, Bounds.ymax, h0d, h0x, h0y, h0w, h0h,
      realBounds, Bounds.mkDelta, Bounds.finish, clsI, d1]
    refine ⟨⟨⟨⟨⟨by simp, trivial⟩, ?_⟩, ?_⟩, ?_⟩, ?_⟩ <;> omega
  obtain ⟨v, hv'⟩ := hfft
  have hna : (mkConv [p, .leaf (Elt.Elem.leaf (.box (Elt.Box.pixel 1 1 g.gs)))]).analyticX = false := rfl
  simp [hna, hv']

/-! ### C82: calls that fail -/

/-- Specification: the arguments make sense together. -/
def ArgsOK (a : DrawArgs) : Prop :=
  (0 < a.gain ∧ 0 < a.area ∧ 0 < a.exptime) ∧ a.method ≠ .other ∧
  (a.method = .phot → ¬ (a.savePhotons = true ∧ a.maxN = true)) ∧
  (a.method ≠ .phot → a.nPhotons = false ∧ a.maxExtraNoise = false ∧ a.poissonFlux = false) ∧
  (a.method ≠ .phot → a.sensor = false → a.rng = false ∧ a.maxN = false ∧ a.savePhotons = false)

/-- C82: the arguments are checked completely. -/
theorem C82_check (a : DrawArgs) : a.check = none ↔ ArgsOK a := by
  obtain ⟨image, nx, ny, bounds, scale, wcs, method, area, exptime, gain, addTo, center, offset, useTrue, nPhotons, rng,
    maxExtraNoise, poissonFlux, sensor, photonOps, maxN, savePhotons, setupOnly⟩ := a
  by_cases h1 : gain ≤ 0
  · simp [DrawArgs.check, ArgsOK, h1, not_lt.mpr h1]
  by_cases h2 : area ≤ 0
  · simp [DrawArgs.check, ArgsOK, h1, h2, not_lt.mpr h2]
  by_cases h3 : exptime ≤ 0
  · simp [DrawArgs.check, ArgsOK, h1, h2, h3, not_lt.mpr h3]
  simp only [DrawArgs.check, ArgsOK, h1, h2, h3, not_le.mp h1, not_le.mp h2, not_le.mp h3, if_false, and_self, true_and]
  cases method <;> cases nPhotons <;> cases maxExtraNoise <;> cases poissonFlux <;> cases sensor <;> cases rng <;>
    cases maxN <;> cases savePhotons <;> simp

/-- C82: arguments that do not make sense together (or both a scale and a wcs) are rejected, without a change to the
image passed in. -/
theorem C82_rejected (g : DrawGS) (phot : PhotDraw) (o : Prof) (a : DrawArgs)
    (h : ¬ ArgsOK a ∨ (a.wcs.isSome = true ∧ a.scale.isSome = true)) :
    ∃ e, drawImage g phot o a = (a.image, .error e) := by
  unfold drawImage
  cases hc : a.check with
  | some e => exact ⟨e, rfl⟩
  | none =>
    rcases h with h | ⟨h1, h2⟩
    · exact absurd ((C82_check a).mp hc) h
    · obtain ⟨w, hw⟩ := Option.isSome_iff_exists.mp h1
      simp only [determineWcs, hw, h2, if_true]
      exact ⟨_, rfl⟩

/-- C82: when `drawImage` raises (not by photon shooting), the pixels of the image passed in and its size are as before.
Missing: that its origin and wcs are as before, which is false, see the counterexamples. -/
theorem C82_error_partial (g : DrawGS) (phot : PhotDraw) (o : Prof) (a : DrawArgs) (i : DrawImg) (hi : a.image = some i)
    (hd : i.bounds.defined = true) (hm : a.method ≠ .phot) (x : Option DrawImg) (e : DrawErr)
    (h : drawImage g phot o a = (x, .error e)) :
    ∃ i', x = some i' ∧ i'.arr = i.arr ∧ i'.bounds.deltax = i.bounds.deltax ∧ i'.bounds.deltay = i.bounds.deltay ∧
      i'.addedFlux = i.addedFlux := by
  have hcl : ∀ e', ((a.image.map (clearWcs a.scale a.wcs)), (Except.error e' : Except DrawErr DrawImg)) = (x, .error e) →
      ∃ i', x = some i' ∧ i'.arr = i.arr ∧ i'.bounds.deltax = i.bounds.deltax ∧ i'.bounds.deltay = i.bounds.deltay ∧
      i'.addedFlux = i.addedFlux := by
    intro e' h
    simp only [hi, Option.map_some, Prod.mk.injEq] at h
    refine ⟨_, h.1.symm, ?_⟩
    unfold clearWcs
    split_ifs <;> exact ⟨rfl, rfl, rfl, rfl⟩
  have hid : ∀ e', (a.image, (Except.error e' : Except DrawErr DrawImg)) = (x, .error e) →
      ∃ i', x = some i' ∧ i'.arr = i.arr ∧ i'.bounds.deltax = i.bounds.deltax ∧ i'.bounds.deltay = i.bounds.deltay ∧
      i'.addedFlux = i.addedFlux := by
    intro e' h
    simp only [hi, Prod.mk.injEq] at h
    exact ⟨_, h.1.symm, rfl, rfl, rfl, rfl⟩
  unfold drawImage at h
  split at h
  · exact hid _ h
  split at h
  · exact hid _ h
  rename_i w hw
  simp only at h
  split at h
  · exact hcl _ h
  rename_i nb hnb
  split at h
  · exact hcl _ h
  rename_i p hp
  split at h
  · exact hcl _ h
  rename_i q hq
  unfold drawFinish at h
  split at h
  · exact hcl _ h
  rename_i b hb
  have hbb : b = i.bounds := by
    unfold setupImage at hb
    simp only [DrawArgs.place, hi, Option.map_some, hd, if_true] at hb
    split_ifs at hb
    exact (Option.some.inj hb).symm
  subst hbb
  have hsi : ∃ k, setupImg (a.image.map (clearWcs a.scale a.wcs)) i.bounds w = ⟨i.bounds, k, i.arr, i.addedFlux⟩ := by
    simp only [hi, Option.map_some, setupImg, clearWcs]
    split_ifs <;> simp_all
  obtain ⟨k, hk⟩ := hsi
  simp only [hi, Option.map_some] at h hk
  rw [hk] at h
  split at h
  · simp at h
  split at h
  · rename_i oc b0 hoc hb0
    split at h
    · rename_i arr e' hst
      simp only [Prod.mk.injEq] at h
      obtain ⟨-, -, hw0, hh0⟩ := setCenterB_eq hb0
      refine ⟨_, h.1.symm, ?_, hw0, hh0, rfl⟩
      unfold drawStep at hst
      rw [if_neg hm] at hst
      split at hst
      · simp only [Prod.mk.injEq] at hst
        exact hst.1.symm
      · split at hst
        · simp only [Prod.mk.injEq] at hst
          exact hst.1.symm
        · simp at hst
    · simp at h
  · simp only [Prod.mk.injEq] at h
    exact ⟨_, h.1.symm, rfl, rfl, rfl, rfl⟩

/-- A call with an image and `nx`. -/
noncomputable def callLost (v : ℕ → ℕ → ℝ) : DrawArgs :=
  { image := some ⟨boundsFrom1 3 3, some (.loc (.pix 1)), v, none⟩
    nx := some 3
    scale := some 2
    method := .noPixel }

/-- A call with a sensor. -/
noncomputable def callMoved (v : ℕ → ℕ → ℝ) : DrawArgs :=
  { image := some ⟨boundsFrom1 3 3, some (.loc (.pix 2)), v, none⟩
    method := .noPixel
    sensor := true }

/-- Disagreement: `drawImage` with a scale (or wcs) clears the wcs of the image before the other arguments are checked;
here the call is rejected because `nx` is given with an image, and the image has lost its wcs. -/
theorem C82_wcs_lost_counterexample (g : DrawGS) (phot : PhotDraw) (o : Prof) (v : ℕ → ℕ → ℝ) :
    ∃ i' e, drawImage g phot o (callLost v) = (some i', .error e) ∧ i'.wcs = none := by
  have h1 : ¬ ((1 : ℝ) ≤ 0) := by norm_num
  have h2 : ¬ ((2 : ℝ) ≤ 0) := by norm_num
  have hd : (boundsFrom1 3 3).defined = true := by decide
  have hn : getNewBounds ((callLost v).place 0) = some (boundsFrom1 3 3) := by
    simp [callLost, getNewBounds, DrawArgs.place, hd]
  have hs : ∀ G, setupImage ((callLost v).place G) = none := by
    intro G; simp [callLost, setupImage, DrawArgs.place]
  have hc : (callLost v).check = none := by simp [callLost, DrawArgs.check, h1]
  refine ⟨⟨boundsFrom1 3 3, none, v, none⟩, .incompatible, ?_, rfl⟩
  have f1 : (callLost v).wcs = none := rfl
  have f2 : (callLost v).scale = some 2 := rfl
  have f3 : (callLost v).method = .noPixel := rfl
  have f4 : (callLost v).image = some ⟨boundsFrom1 3 3, some (.loc (.pix 1)), v, none⟩ := rfl
  unfold drawImage
  rw [hc]
  simp only [f1, f2, f3, f4, determineWcs, positiveScale, if_neg h2, hn, WCS.profileToImage, WCS.localWCS, LocalWCS.profileToImage,
    if_neg (show ¬ ((2 : ℝ) = 0) by norm_num), convolvePixel, drawFinish, hs]
  simp [clearWcs]

/-- Disagreement: despite the comment in the code no view of the image is made: when the drawing step raises (here
because a sensor is not supported without photon shooting; an FFT that is too large does the same), the image is left
recentred at (0, 0), with pixels of size 1 as its wcs. -/
theorem C82_moved_counterexample (g : DrawGS) (phot : PhotDraw) (o : Prof) (v : ℕ → ℕ → ℝ) :
    ∃ i', drawImage g phot o (callMoved v) = (some i', .error .notImplemented) ∧ i'.bounds.xmin = -1 ∧ i'.wcs = some (.loc (.pix 1)) := by
  have h1 : ¬ ((1 : ℝ) ≤ 0) := by norm_num
  have h2 : ¬ ((2 : ℝ) ≤ 0) := by norm_num
  have hd : (boundsFrom1 3 3).defined = true := by decide
  have hn : getNewBounds ((callMoved v).place 0) = some (boundsFrom1 3 3) := by
    simp [callMoved, getNewBounds, DrawArgs.place, hd]
  have hs : ∀ G, setupImage ((callMoved v).place G) = some (boundsFrom1 3 3) := by
    intro G; simp [callMoved, setupImage, DrawArgs.place, hd]
  have hc : (callMoved v).check = none := by simp [callMoved, DrawArgs.check, h1]
  obtain ⟨hcen, b0, hb0, -, hx, -⟩ := boundsFrom1_center (nx := 3) (ny := 3) (by norm_num) (by norm_num)
  refine ⟨⟨b0, some (.loc (.pix 1)), v, none⟩, ?_, by rw [hx]; rfl, rfl⟩
  have f1 : (callMoved v).wcs = none := rfl
  have f2 : (callMoved v).scale = none := rfl
  have f3 : (callMoved v).method = .noPixel := rfl
  have f4 : (callMoved v).image = some ⟨boundsFrom1 3 3, some (.loc (.pix 2)), v, none⟩ := rfl
  have f5 : (callMoved v).setupOnly = false := rfl
  have f6 : (callMoved v).sensor = true := rfl
  unfold drawImage
  rw [hc]
  simp only [f1, f2, f3, f4, determineWcs, positiveScale, if_neg h2, hn, WCS.profileToImage, WCS.localWCS, LocalWCS.profileToImage,
    if_neg (show ¬ ((2 : ℝ) = 0) by norm_num), convolvePixel, drawFinish, hs, Option.bind_some]
  simp [clearWcs, hcen, hb0, drawStep, setupImg, hd, f3, f5, f6]

/-- Disagreement: a hard-edged profile with a brightness formula, such as a box, cannot be drawn with the default method:
its convolution with the pixel would have to be done in real space, which is not implemented.  (The image, if given,
loses its wcs as above.) -/
theorem C82_hard_edge_counterexample (g : DrawGS) (phot : PhotDraw) (b : Elt.Box) (s : ℝ) (hs : 0 < s) (nx ny : ℤ) :
    drawImage g phot (.leaf (Elt.Elem.leaf (.box b))) { nx := some nx, ny := some ny, scale := some s } =
      (none, .error .notImplemented) := by
  have h1 : ¬ ((1 : ℝ) ≤ 0) := by norm_num
  have hn : getNewBounds (({ nx := some nx, ny := some ny, scale := some s } : DrawArgs).place 0) =
      some (boundsFrom1 nx ny) := rfl
  have hck : ({ nx := some nx, ny := some ny, scale := some s } : DrawArgs).check = none := by
    simp [DrawArgs.check, h1]
  unfold drawImage
  rw [hck]
  simp only [determineWcs, positiveScale, if_neg (not_le.mpr hs), hn, WCS.profileToImage, WCS.localWCS,
    LocalWCS.profileToImage, if_neg hs.ne']
  simp [convolvePixel, convolveCtor, mkTransform, Prof.hardEdges, Prof.analyticX, Elt.Elem.leaf]

end JG
