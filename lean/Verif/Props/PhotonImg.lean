import Verif.Props.Photon
import Verif.Props.ImageConst

/-!
Properties C28 (adding photons to an image) and C66 (photons made from an image), and the `addTo` case of C22.
-/

namespace JG
variable {N : ℕ}

/-- Photon position `(x, y)` lies in the unit square of pixel `(X, Y)`. -/
def inPixel (x y : ℝ) (X Y : ℤ) : Prop :=
  (X : ℝ) - 1 / 2 ≤ x ∧ x < X + 1 / 2 ∧ (Y : ℝ) - 1 / 2 ≤ y ∧ y < Y + 1 / 2

theorem floor_pix (x : ℝ) (m X : ℤ) : ⌊x - m + 1 / 2⌋ = X - m ↔ (X : ℝ) - 1 / 2 ≤ x ∧ x < X + 1 / 2 := by
  rw [Int.floor_eq_iff]; push_cast
  constructor <;> rintro ⟨h1, h2⟩ <;> constructor <;> linarith

theorem inPixel_iff (x y : ℝ) (mx my X Y : ℤ) :
    inPixel x y X Y ↔ ⌊x - mx + 1 / 2⌋ = X - mx ∧ ⌊y - my + 1 / 2⌋ = Y - my := by
  rw [floor_pix, floor_pix]; unfold inPixel; tauto

/-- C28 (core): the array returned by `_add_photons_to_image` for a float image: pixel `(X, Y)` gains the fluxes of
exactly the photons in its unit square. -/
theorem addPhotons_pixel (x y f : Fin N → ℝ) (xmin ymin : ℤ) (a : Arr ℝ) (k l : ℕ) (hk : k < a.h) (hl : l < a.w) :
    open Classical in
    (addPhotons x y f xmin ymin false a).1.at' k l = a.at' k l +
      ∑ i ∈ Finset.univ.filter (fun i => inPixel (x i) (y i) (xmin + l) (ymin + k)), f i := by
  classical
  simp only [addPhotons, Arr.mapIdx, safeCast, Bool.false_eq_true, if_false]
  congr 1
  rw [Finset.sum_filter]
  apply Finset.sum_congr rfl
  intro i _
  have hiff := inPixel_iff (x i) (y i) xmin ymin (xmin + l) (ymin + k)
  have e1 : (xmin + (l : ℤ)) - xmin = l := by ring
  have e2 : (ymin + (k : ℤ)) - ymin = k := by ring
  rw [e1, e2] at hiff
  by_cases hin : inPixel (x i) (y i) (xmin + l) (ymin + k)
  · obtain ⟨h1, h2⟩ := hiff.mp hin
    rw [if_pos hin]
    have n1 : normIdx (k : ℤ) a.h = k := by unfold normIdx; rw [if_neg (by omega)]
    have n2 : normIdx (l : ℤ) a.w = l := by unfold normIdx; rw [if_neg (by omega)]
    rw [if_pos (by rw [h1, h2, n1, n2]; exact ⟨rfl, rfl⟩), if_pos (by rw [h1, h2]; omega)]
  · rw [if_neg hin]
    split_ifs with h3 h4
    · exfalso
      apply hin; rw [hiff]
      obtain ⟨g1, g2, g3, g4⟩ := h4
      unfold normIdx at h3
      rw [if_neg (by omega), if_neg (by omega)] at h3
      exact ⟨h3.2.symm, h3.1.symm⟩
    · rfl
    · rfl

/-- C28 (core): the flux reported is the sum over photons inside the bounds. -/
theorem addPhotons_sum (x y f : Fin N → ℝ) (xmin ymin : ℤ) (isInt : Bool) (a : Arr ℝ) :
    open Classical in
    (addPhotons x y f xmin ymin isInt a).2 = ∑ i ∈ Finset.univ.filter (fun i => ∃ X Y : ℤ, inPixel (x i) (y i) X Y ∧
      xmin ≤ X ∧ X < xmin + a.w ∧ ymin ≤ Y ∧ Y < ymin + a.h), f i := by
  classical
  simp only [addPhotons]
  rw [Finset.sum_filter]
  apply Finset.sum_congr rfl
  intro i _
  congr 1
  apply propext
  constructor
  · rintro ⟨h1, h2, h3, h4⟩
    refine ⟨xmin + ⌊x i - xmin + 1 / 2⌋, ymin + ⌊y i - ymin + 1 / 2⌋, ?_, by omega, by omega, by omega, by omega⟩
    rw [inPixel_iff _ _ xmin ymin]; constructor <;> ring
  · rintro ⟨X, Y, h, h1, h2, h3, h4⟩
    rw [inPixel_iff _ _ xmin ymin] at h
    rw [h.1, h.2]; omega

/-- Sum of all pixels of an array. -/
def Arr.total (a : Arr ℝ) : ℝ := ∑ k ∈ Finset.range a.h, ∑ l ∈ Finset.range a.w, a.at' k l

/-- C28 for floating point images: `addTo` on an image with defined bounds adds to pixel `(X, Y)` exactly the
reported fluxes of the photons inside that pixel's unit square, leaves shape, bounds and dtype alone, and the flux
it reports is the flux of the photons inside the bounds, which is the total gained by the image.  Missing: integer
images (rounding, see below). -/
theorem C28_addTo_partial (p : PhotonArray N) (hp : 0 < p.numKeep) (fp : Fin N → ℝ) (hfp : p.flux = some fp)
    (im : Image) (hd : im.bounds.defined = true) (hi : im.isInt = false) :
    open Classical in
    ∃ im' tot, p.addTo im = .ok (im', tot) ∧ im'.bounds = im.bounds ∧ im'.arr.h = im.arr.h ∧ im'.arr.w = im.arr.w ∧
      (∀ k l : ℕ, k < im.arr.h → l < im.arr.w → im'.arr.at' k l = im.arr.at' k l +
        ∑ i ∈ Finset.univ.filter (fun i =>
          inPixel (p.ph i).x (p.ph i).y (im.bounds.xmin + l) (im.bounds.ymin + k)), fp i) ∧
      tot = ∑ i ∈ Finset.univ.filter (fun i => ∃ X Y : ℤ, inPixel (p.ph i).x (p.ph i).y X Y ∧
        im.bounds.xmin ≤ X ∧ X < im.bounds.xmin + im.arr.w ∧ im.bounds.ymin ≤ Y ∧ Y < im.bounds.ymin + im.arr.h), fp i ∧
      im'.arr.total = im.arr.total + tot := by
  classical
  have hf : (fun i => p.masked i * N / p.numKeep) = fp := by
    rw [flux_eq p hp] at hfp; injection hfp with hfp
    rw [← hfp]; funext i; unfold PhotonArray.masked
    by_cases hb : (p.ph i).nokeep = true
    · simp [hb]
    · simp only [hb]; simp; ring
  unfold PhotonArray.addTo
  rw [hd, if_neg (by simp), if_neg (by omega)]
  simp only [hf, hi]
  refine ⟨_, _, rfl, rfl, rfl, rfl, ?_, ?_, ?_⟩
  · intro k l hk hl
    rw [addPhotons_pixel _ _ _ _ _ _ _ _ hk hl]
  · rw [addPhotons_sum]
  · unfold Arr.total
    have hh : (addPhotons (fun i => (p.ph i).x) (fun i => (p.ph i).y) fp im.bounds.xmin im.bounds.ymin false
        im.arr).1.h = im.arr.h := rfl
    have hw : (addPhotons (fun i => (p.ph i).x) (fun i => (p.ph i).y) fp im.bounds.xmin im.bounds.ymin false
        im.arr).1.w = im.arr.w := rfl
    simp only [hh, hw]
    have : ∀ k ∈ Finset.range im.arr.h, ∀ l ∈ Finset.range im.arr.w,
        (addPhotons (fun i => (p.ph i).x) (fun i => (p.ph i).y) fp im.bounds.xmin im.bounds.ymin false
          im.arr).1.at' k l = im.arr.at' k l + ∑ i, if inPixel (p.ph i).x (p.ph i).y (im.bounds.xmin + l)
            (im.bounds.ymin + k) then fp i else 0 := by
      intro k hk l hl
      rw [addPhotons_pixel _ _ _ _ _ _ _ _ (Finset.mem_range.mp hk) (Finset.mem_range.mp hl), Finset.sum_filter]
    rw [Finset.sum_congr rfl (fun k hk => Finset.sum_congr rfl (this k hk))]
    simp only [Finset.sum_add_distrib]
    congr 1
    rw [Finset.sum_congr rfl (fun k _ => Finset.sum_comm), Finset.sum_comm, addPhotons_sum, Finset.sum_filter]
    apply Finset.sum_congr rfl
    intro i _
    -- the photon lies in at most one pixel of the grid
    by_cases h : ∃ X Y : ℤ, inPixel (p.ph i).x (p.ph i).y X Y ∧ im.bounds.xmin ≤ X ∧ X < im.bounds.xmin + im.arr.w ∧
        im.bounds.ymin ≤ Y ∧ Y < im.bounds.ymin + im.arr.h
    · rw [if_pos h]
      obtain ⟨X, Y, hin, h1, h2, h3, h4⟩ := h
      have key : ∀ k l : ℕ, inPixel (p.ph i).x (p.ph i).y (im.bounds.xmin + l) (im.bounds.ymin + k) ↔
          k = (Y - im.bounds.ymin).toNat ∧ l = (X - im.bounds.xmin).toNat := by
        intro k l
        rw [inPixel_iff _ _ im.bounds.xmin im.bounds.ymin] at hin ⊢
        rw [hin.1, hin.2]; omega
      simp only [key]
      rw [Finset.sum_eq_single (Y - im.bounds.ymin).toNat, Finset.sum_eq_single (X - im.bounds.xmin).toNat]
      · simp
      · intro l _ hl; rw [if_neg (by tauto)]
      · intro hl; exfalso; apply hl; rw [Finset.mem_range]; omega
      · intro k _ hk; apply Finset.sum_eq_zero; intro l _; rw [if_neg (by tauto)]
      · intro hk; exfalso; apply hk; rw [Finset.mem_range]; omega
    · rw [if_neg h]
      apply Finset.sum_eq_zero; intro k hk; apply Finset.sum_eq_zero; intro l hl
      rw [if_neg]
      intro hin; apply h
      rw [Finset.mem_range] at hk hl
      exact ⟨_, _, hin, by omega, by omega, by omega, by omega⟩

/-- C28: `addTo` refuses images with undefined bounds. -/
theorem C28_undefined (p : PhotonArray N) (im : Image) (hd : im.bounds.defined = false) :
    p.addTo im = .error .undefinedBounds := by
  unfold PhotonArray.addTo; rw [hd]; rfl

/-- One kept photon of flux 2/5 in the single pixel of `onePix`. -/
noncomputable def exOne : PhotonArray 1 := ⟨fun _ => ⟨1, 1, 2 / 5, false, none, none, none, none, none, none⟩, false⟩
def onePix (isInt : Bool) (c : Option Bool) : Image := ⟨⟨1, 1, fun _ _ => 0⟩, pyB 1 1 1 1, c, isInt⟩

theorem exOne_numKeep : exOne.numKeep = 1 := by
  have : (fun i => (exOne.ph i).nokeep) = fun _ => false := rfl
  rw [numKeep_eq, this]; decide

example : 0 < exOne.numKeep ∧ (onePix false none).bounds.defined = true := ⟨by rw [exOne_numKeep]; norm_num, by decide⟩

theorem exOne_addTo (isInt : Bool) (c : Option Bool) :
    ∃ im', exOne.addTo (onePix isInt c) = .ok (im', 2 / 5) ∧ im'.arr.at' 0 0 = safeCast isInt (2 / 5) := by
  have hd : (onePix isInt c).bounds.defined = true := by cases isInt <;> rfl
  have hb : (onePix isInt c).bounds.xmin = 1 ∧ (onePix isInt c).bounds.ymin = 1 := by
    cases isInt <;> exact ⟨rfl, rfl⟩
  have hfl : ⌊(1 : ℝ) / 2⌋ = 0 := by rw [Int.floor_eq_iff]; norm_num
  unfold PhotonArray.addTo
  rw [hd, if_neg (by simp), if_neg (by rw [exOne_numKeep]; norm_num)]
  have h2 : (addPhotons (fun i => (exOne.ph i).x) (fun i => (exOne.ph i).y)
      (fun i => exOne.masked i * ((1 : ℕ) : ℝ) / exOne.numKeep) (onePix isInt c).bounds.xmin
      (onePix isInt c).bounds.ymin (onePix isInt c).isInt (onePix isInt c).arr).2 = 2 / 5 := by
    rw [hb.1, hb.2, exOne_numKeep]
    simp [addPhotons, PhotonArray.masked, exOne, onePix]
    norm_num
  refine ⟨Image.mk (addPhotons (fun i => (exOne.ph i).x) (fun i => (exOne.ph i).y)
      (fun i => exOne.masked i * ((1 : ℕ) : ℝ) / exOne.numKeep) (onePix isInt c).bounds.xmin
      (onePix isInt c).bounds.ymin (onePix isInt c).isInt (onePix isInt c).arr).1 (onePix isInt c).bounds
      (onePix isInt c).isConst (onePix isInt c).isInt, ?_, ?_⟩
  · rw [← h2]
  · simp only
    rw [hb.1, hb.2, exOne_numKeep]
    simp [addPhotons, PhotonArray.masked, exOne, onePix, Arr.mapIdx, normIdx]
    norm_num

/-- Disagreement: on integer images the deposited flux is rounded per pixel but the reported flux is not: a photon
of flux 2/5 reports 2/5 although the image gains nothing. -/
theorem C28_integer_counterexample :
    ∃ im', exOne.addTo (onePix true none) = .ok (im', 2 / 5) ∧ im'.arr.at' 0 0 = (onePix true none).arr.at' 0 0 := by
  obtain ⟨im', h, h2⟩ := exOne_addTo true none
  refine ⟨im', h, ?_⟩
  rw [h2]
  have hfl : ⌊(2 : ℝ) / 5⌋ = 0 := by rw [Int.floor_eq_iff]; norm_num
  simp [safeCast, roundEven, onePix]; norm_num

/-- C28 on integer images: pixel `(X, Y)` becomes its old value plus the photon fluxes in its unit square, rounded
to the nearest integer, ties to even; so each pixel is off by at most one half from the flux deposited in it. -/
theorem C28_integer (x y f : Fin N → ℝ) (xmin ymin : ℤ) (a : Arr ℝ) (k l : ℕ) (hk : k < a.h) (hl : l < a.w) :
    open Classical in
    (addPhotons x y f xmin ymin true a).1.at' k l = (roundEven (a.at' k l +
      ∑ i ∈ Finset.univ.filter (fun i => inPixel (x i) (y i) (xmin + l) (ymin + k)), f i) : ℝ) ∧
    |(addPhotons x y f xmin ymin true a).1.at' k l - (a.at' k l +
      ∑ i ∈ Finset.univ.filter (fun i => inPixel (x i) (y i) (xmin + l) (ymin + k)), f i)| ≤ 1 / 2 := by
  classical
  have h := addPhotons_pixel x y f xmin ymin a k l hk hl
  have e : (addPhotons x y f xmin ymin true a).1.at' k l =
      (roundEven ((addPhotons x y f xmin ymin false a).1.at' k l) : ℝ) := by
    simp [addPhotons, Arr.mapIdx, safeCast]
  have hr : ∀ z : ℝ, |(roundEven z : ℝ) - z| ≤ 1 / 2 := by
    intro z
    have h1 := Int.floor_le z
    have h2 := Int.lt_floor_add_one z
    unfold roundEven
    rw [abs_le]
    split_ifs <;> push_cast <;> constructor <;> linarith
  rw [e, h]
  exact ⟨rfl, hr _⟩

/-- Disagreement: `addTo` does not check whether the image is constant: a photon changes the pixel of a constant
image. -/
theorem C22_addTo_counterexample :
    (onePix false (some true)).isConst = some true ∧ ∃ im', exOne.addTo (onePix false (some true)) = .ok (im', 2 / 5) ∧
      im'.arr.at' 0 0 ≠ (onePix false (some true)).arr.at' 0 0 := by
  refine ⟨rfl, ?_⟩
  obtain ⟨im', h, h2⟩ := exOne_addTo false (some true)
  refine ⟨im', h, ?_⟩
  rw [h2]; simp [safeCast, onePix]

/-! ### C66 -/

theorem sum_repeat (n : ℕ) (c : ℕ → ℕ) (g : ℕ → ℝ) :
    (((List.range n).flatMap fun k => List.replicate (c k) k).map g).sum = ∑ k ∈ Finset.range n, c k * g k := by
  induction n with
  | zero => simp
  | succ n ih =>
    rw [List.range_succ, List.flatMap_append, List.map_append, List.sum_append, ih, Finset.sum_range_succ]
    simp

theorem sum_get (L : List ℕ) (g : ℕ → ℝ) : ∑ i : Fin L.length, g (L.get i) = (L.map g).sum := by
  induction L with
  | nil => simp
  | cons a t ih =>
    rw [List.map_cons, List.sum_cons, ← ih]
    exact Fin.sum_univ_succ (fun i : Fin (t.length + 1) => g ((a :: t).get i))

theorem nPer_pos (m v : ℝ) : 0 < nPer m v := by unfold nPer; omega

theorem nPer_bound (m v : ℝ) (hm : 0 < m) : |v / nPer m v| ≤ m := by
  have h0 : (0 : ℝ) < nPer m v := by exact_mod_cast nPer_pos m v
  rw [abs_div, abs_of_pos h0, div_le_iff₀ h0]
  have h1 : (⌈|v| / m⌉ : ℝ) ≤ nPer m v := by
    have : (⌈|v| / m⌉ : ℤ) ≤ (nPer m v : ℤ) := by unfold nPer; omega
    exact_mod_cast this
  have h2 := Int.le_ceil (|v| / m)
  have h3 : |v| / m ≤ nPer m v := le_trans h2 h1
  rw [div_le_iff₀ hm] at h3
  linarith

/-- C66: photons made from an image (without a scale factor) all count, carry at most `max_flux` in absolute value,
lie in the pixels of the image, and adding them to an empty float image of the same shape and bounds gives back the
original pixel values; a non-positive `max_flux` is refused. -/
theorem C66_make_from_image (im : Image) (hd : im.bounds.defined = true) (hpos : 0 < im.arr.h * im.arr.w)
    (maxFlux : ℝ) (u v : ℕ → ℝ) (hu : ∀ i, 0 ≤ u i ∧ u i < 1) (hv : ∀ i, 0 ≤ v i ∧ v i < 1) :
    (maxFlux ≤ 0 → makeFromImage im maxFlux none u v = none) ∧
    (0 < maxFlux → ∃ n, ∃ p : PhotonArray n, makeFromImage im maxFlux none u v = some ⟨n, p⟩ ∧
      p.numKeep = n ∧
      (∃ f, p.flux = some f ∧ ∀ i, |f i| ≤ maxFlux) ∧
      (∀ i, ∃ k l : ℕ, k < im.arr.h ∧ l < im.arr.w ∧
        inPixel (p.ph i).x (p.ph i).y (im.bounds.xmin + l) (im.bounds.ymin + k)) ∧
      ∀ blank : Image, blank.bounds = im.bounds → blank.isInt = false → blank.arr.h = im.arr.h →
        blank.arr.w = im.arr.w → (∀ k l, blank.arr.at' k l = 0) →
        ∃ im' tot, p.addTo blank = .ok (im', tot) ∧ tot = im.arr.total ∧
          ∀ k l, k < im.arr.h → l < im.arr.w → im'.arr.at' k l = im.arr.at' k l) := by
  classical
  refine ⟨fun h => by unfold makeFromImage; rw [if_pos h], fun hm => ?_⟩
  have hw : 0 < im.arr.w := Nat.pos_of_mul_pos_left hpos
  set inds := pixInds im maxFlux with hinds
  set val : ℕ → ℝ := fun k => im.arr.at' (k / im.arr.w) (k % im.arr.w) with hval
  have hmem : ∀ i : Fin inds.length, inds.get i < im.arr.h * im.arr.w := by
    intro i
    have key : ∀ a ∈ inds, a < im.arr.h * im.arr.w := by
      intro a ha
      rw [hinds, pixInds, List.mem_flatMap] at ha
      obtain ⟨k, hk, hk2⟩ := ha
      rw [List.mem_replicate] at hk2
      rw [hk2.2]; exact List.mem_range.mp hk
    exact key _ (List.get_mem inds i)
  have hlen : 0 < inds.length := by
    rw [List.length_pos_iff_exists_mem]
    refine ⟨0, ?_⟩
    rw [hinds, pixInds, List.mem_flatMap]
    refine ⟨0, List.mem_range.mpr hpos, ?_⟩
    rw [List.mem_replicate]
    exact ⟨(nPer_pos _ _).ne', rfl⟩
  unfold makeFromImage
  rw [if_neg (by linarith)]
  set p0 : PhotonArray inds.length := PhotonArray.blank none inds.length with hp0
  set p1 : PhotonArray inds.length := { p0 with ph := fun i => { p0.ph i with
      x := u i + (im.bounds.xmin + ((inds.get i % im.arr.w : ℕ) : ℝ) - 1 / 2)
      y := v i + (im.bounds.ymin + ((inds.get i / im.arr.w : ℕ) : ℝ) - 1 / 2) } } with hp1
  have hk1 : p1.numKeep = inds.length := cnt_ge _ le_rfl
  set p2 := p1.setFlux fun i => val (inds.get i) / nPer maxFlux (val (inds.get i)) with hp2
  have hk2 : p2.numKeep = inds.length := hk1
  have hall : ∀ i, i ∈ p1.kept := by
    intro i; rw [mem_kept]; exact (cnt_eq_iff _).mp hk1 i
  have hfl : p2.flux = some fun i => val (inds.get i) / nPer maxFlux (val (inds.get i)) := by
    rw [hp2, C24_set_flux p1 (by omega)]
    congr 1; funext i; rw [if_pos (hall i)]
  have hx : ∀ i, (p2.ph i).x = u i + (im.bounds.xmin + ((inds.get i % im.arr.w : ℕ) : ℝ) - 1 / 2) := fun _ => rfl
  have hy : ∀ i, (p2.ph i).y = v i + (im.bounds.ymin + ((inds.get i / im.arr.w : ℕ) : ℝ) - 1 / 2) := fun _ => rfl
  have hin : ∀ i, inPixel (p2.ph i).x (p2.ph i).y (im.bounds.xmin + (inds.get i % im.arr.w : ℕ))
      (im.bounds.ymin + (inds.get i / im.arr.w : ℕ)) := by
    intro i; rw [hx, hy]
    obtain ⟨a1, a2⟩ := hu i
    obtain ⟨b1, b2⟩ := hv i
    unfold inPixel; simp only [Int.cast_add, Int.cast_natCast]
    refine ⟨?_, ?_, ?_, ?_⟩ <;> linarith
  have hrow : ∀ i, inds.get i / im.arr.w < im.arr.h := fun i =>
    Nat.div_lt_of_lt_mul (by rw [Nat.mul_comm]; exact hmem i)
  refine ⟨_, p2, rfl, hk2, ⟨_, hfl, fun i => nPer_bound _ _ hm⟩, fun i => ?_, ?_⟩
  · exact ⟨_, _, hrow i, Nat.mod_lt _ hw, hin i⟩
  · intro blank hb hbi hbh hbw hb0
    obtain ⟨im', tot, h1, -, hh, hww, h4, h5, h6⟩ := C28_addTo_partial p2 (by omega) _ hfl blank (by rw [hb, hd]) hbi
    have hpix : ∀ k l, k < im.arr.h → l < im.arr.w → im'.arr.at' k l = im.arr.at' k l := by
      intro k l hk hl
      rw [h4 k l (by omega) (by omega), hb0, zero_add, Finset.sum_filter]
      have hiff : ∀ i, inPixel (p2.ph i).x (p2.ph i).y (blank.bounds.xmin + l) (blank.bounds.ymin + k) ↔
          inds.get i = k * im.arr.w + l := by
        intro i
        have h := hin i
        rw [hb]
        rw [inPixel_iff _ _ im.bounds.xmin im.bounds.ymin] at h ⊢
        rw [h.1, h.2]
        have hdm := Nat.div_add_mod (inds.get i) im.arr.w
        constructor
        · rintro ⟨e1, e2⟩
          have e1' : inds.get i % im.arr.w = l := by omega
          have e2' : inds.get i / im.arr.w = k := by omega
          rw [e1', e2', Nat.mul_comm] at hdm; exact hdm.symm
        · intro e
          have e1' : inds.get i % im.arr.w = l := by
            rw [e, Nat.add_comm, Nat.add_mul_mod_self_right, Nat.mod_eq_of_lt hl]
          have e2' : inds.get i / im.arr.w = k := by
            rw [e, Nat.add_comm, Nat.add_mul_div_right _ _ hw, Nat.div_eq_of_lt hl, zero_add]
          rw [e1', e2']; constructor <;> ring
      have hlt : k * im.arr.w + l < im.arr.h * im.arr.w := by
        calc k * im.arr.w + l < k * im.arr.w + im.arr.w := by omega
          _ = (k + 1) * im.arr.w := by ring
          _ ≤ im.arr.h * im.arr.w := Nat.mul_le_mul_right _ hk
      have hsum : (∑ i, if inPixel (p2.ph i).x (p2.ph i).y (blank.bounds.xmin + l) (blank.bounds.ymin + k) then
          val (inds.get i) / nPer maxFlux (val (inds.get i)) else 0) =
          ∑ i : Fin inds.length, (fun j : ℕ => if j = k * im.arr.w + l then val j / nPer maxFlux (val j) else 0)
            (inds.get i) := by
        apply Finset.sum_congr rfl
        intro i _; simp only [hiff]
      have hg := sum_get inds (fun j : ℕ => if j = k * im.arr.w + l then val j / nPer maxFlux (val j) else 0)
      rw [hsum, hg, hinds, pixInds, sum_repeat, Finset.sum_eq_single (k * im.arr.w + l)]
      · simp only [if_true]
        have h0 : (nPer maxFlux (val (k * im.arr.w + l)) : ℝ) ≠ 0 := by
          exact_mod_cast (nPer_pos _ _).ne'
        have hv' : val (k * im.arr.w + l) = im.arr.at' k l := by
          simp only [hval]
          rw [Nat.add_comm, Nat.add_mul_mod_self_right, Nat.mod_eq_of_lt hl, Nat.add_mul_div_right _ _ hw,
            Nat.div_eq_of_lt hl, zero_add]
        rw [← hv']
        exact mul_div_cancel₀ _ h0
      · intro j _ hj; rw [if_neg hj, mul_zero]
      · intro hj; exfalso; apply hj; exact Finset.mem_range.mpr hlt
    refine ⟨im', tot, h1, ?_, hpix⟩
    have hbt : blank.arr.total = 0 := by unfold Arr.total; simp [hb0]
    rw [hbt, zero_add] at h6
    rw [← h6]; unfold Arr.total
    rw [hh, hww, hbh, hbw]
    apply Finset.sum_congr rfl; intro k hk; apply Finset.sum_congr rfl; intro l hl
    exact hpix k l (Finset.mem_range.mp hk) (Finset.mem_range.mp hl)

example : (onePix false none).bounds.defined = true ∧ 0 < (onePix false none).arr.h * (onePix false none).arr.w ∧
    ∀ i : ℕ, (0 : ℝ) ≤ (fun _ => 1 / 2) i ∧ (fun _ => (1 : ℝ) / 2) i < 1 :=
  ⟨by decide, by decide, fun _ => by norm_num⟩

end JG
