import Verif.Model.DrawPhot
import Verif.Props.PhotonImg
import Verif.Props.Draw
import Verif.Props.DrawImage
import Verif.Props.ShootLaw

/-!
Property C83: drawing by shooting photons as a whole - which photons are put where, with which flux, and what the image
is on average.
-/

open MeasureTheory

namespace JG

/-- Photon number `q` of those shot in arrays of `M` photons. -/
def shotPhoton {M : ℕ} (hM : 0 < M) (sh : ℕ → PhotonArray M) (q : ℕ) : Phot := (sh (q / M)).ph ⟨q % M, Nat.mod_lt q hM⟩

/-- Specification: the arrays shot are full, none of their photons is masked. -/
def FullShots {M : ℕ} (sh : ℕ → PhotonArray M) : Prop := ∀ k i, ((sh k).ph i).nokeep = false

theorem sort_const {M : ℕ} : (Tuple.sort fun _ : Fin M => false) = Equiv.refl _ :=
  Tuple.sort_eq_refl_iff_monotone.mpr fun _ _ _ => le_rfl

theorem setNumKeep_full {M : ℕ} (p : PhotonArray M) (h : ∀ i, (p.ph i).nokeep = false) (n : ℕ) (i : Fin M) :
    (p.setNumKeep n).ph i = { p.ph i with nokeep := decide ((i : ℕ) ≥ n) } := by
  have hs : p.argsort = Equiv.refl _ := by
    unfold PhotonArray.argsort
    rw [show (fun i => (p.ph i).nokeep) = fun _ => false from funext h]
    exact sort_const
  simp [PhotonArray.setNumKeep, PhotonArray.gather, PhotonArray.scatter, hs]

/-- The photons put into the image by one pass of the loop. -/
theorem photChunk_spec {M : ℕ} (p : PhotonArray M) (h : ∀ i, (p.ph i).nokeep = false) (thisN nTot : ℕ) (h0 : 0 < thisN)
    (hn : thisN ≤ M) (hT : 0 < nTot) (g s : ℝ) :
    0 < (photChunk p thisN nTot g s).numKeep ∧
    (photChunk p thisN nTot g s).flux =
      some (fun i : Fin M => if (i : ℕ) < thisN then g * ((p.ph i).flux * M) / nTot else 0) ∧
    ∀ i, ((photChunk p thisN nTot g s).ph i).x = (p.ph i).x / s ∧ ((photChunk p thisN nTot g s).ph i).y = (p.ph i).y / s := by
  have hMpos : 0 < M := lt_of_lt_of_le h0 hn
  have hkeep : ∀ i, ((photChunk p thisN nTot g s).ph i).nokeep = decide ((i : ℕ) ≥ thisN) := by
    intro i
    unfold photChunk
    simp only
    split_ifs <;> simp [PhotonArray.scaleXY, PhotonArray.scaleFlux, setNumKeep_full p h]
  have hnum : (photChunk p thisN nTot g s).numKeep = thisN := by
    have h2 := C24_num_keep p thisN hn
    unfold PhotonArray.numKeep at h2 ⊢
    have h3 : ∀ i, ((photChunk p thisN nTot g s).ph i).nokeep = ((p.setNumKeep thisN).ph i).nokeep := fun i => by
      rw [hkeep, setNumKeep_full p h]
    simp only [h3, h2]
  have hT' : (nTot : ℝ) ≠ 0 := by positivity
  have hN' : (thisN : ℝ) ≠ 0 := by positivity
  refine ⟨by omega, ?_, ?_⟩
  · rw [flux_eq _ (by omega), hnum]
    congr 1
    funext i
    rw [hkeep]
    by_cases hi : (i : ℕ) < thisN
    · rw [if_neg (by simpa using hi), if_pos hi]
      unfold photChunk
      simp only
      have hcase : ∀ x : ℝ, |g - 1| + |(thisN : ℝ) - nTot| = 0 → x = g * x ∧ (thisN : ℝ) = nTot := by
        intro x h1
        obtain ⟨hg, ht⟩ := (add_eq_zero_iff_of_nonneg (abs_nonneg _) (abs_nonneg _)).mp h1
        have hg : g = 1 := by linarith [abs_eq_zero.mp hg]
        exact ⟨by rw [hg, one_mul], by linarith [abs_eq_zero.mp ht]⟩
      by_cases h1 : |g - 1| + |(thisN : ℝ) - nTot| = 0
      · obtain ⟨hg, ht⟩ := hcase ((p.ph i).flux * M / nTot) h1
        rw [if_pos h1]
        split_ifs with h2 <;> simp only [PhotonArray.scaleXY, setNumKeep_full p h] <;> rw [ht] <;> linear_combination hg
      · rw [if_neg h1]
        split_ifs with h2 <;> simp only [PhotonArray.scaleXY, PhotonArray.scaleFlux, setNumKeep_full p h] <;> field_simp
    · rw [if_pos (by simpa using hi), if_neg hi]
  · intro i
    unfold photChunk
    simp only
    split_ifs with h1 h2 h2 <;>
      simp_all [PhotonArray.scaleXY, PhotonArray.scaleFlux, setNumKeep_full p h, div_eq_mul_inv]

/-- Specification: what photon `ph`, carrying the fraction `g / nTot` of its weight (flux times size of the array),
contributes to the pixel `(X, Y)` of an image with pixels of size `s`. -/
noncomputable def contribution (M nTot : ℕ) (g s : ℝ) (ph : Phot) (X Y : ℤ) : ℝ :=
  open Classical in if inPixel (ph.x / s) (ph.y / s) X Y then g * (ph.flux * M) / nTot else 0

/-- Specification: what the photon contributes to the whole image. -/
noncomputable def contributionIn (M nTot : ℕ) (g s : ℝ) (ph : Phot) (b : Bounds ℤ) : ℝ :=
  open Classical in if ∃ X Y : ℤ, inPixel (ph.x / s) (ph.y / s) X Y ∧ b.xmin ≤ X ∧ X < b.xmin + b.deltax.toNat ∧
    b.ymin ≤ Y ∧ Y < b.ymin + b.deltay.toNat then g * (ph.flux * M) / nTot else 0

theorem sum_chunk {M : ℕ} (hM : 0 < M) (sh : ℕ → PhotonArray M) (k thisN : ℕ) (hn : thisN ≤ M) (T : Phot → ℝ) :
    ∑ i : Fin M, (if (i : ℕ) < thisN then T ((sh k).ph i) else 0) =
      ∑ q ∈ Finset.Ico (k * M) (k * M + thisN), T (shotPhoton hM sh q) := by
  rw [Finset.sum_Ico_eq_sum_range, Nat.add_sub_cancel_left]
  have h1 : ∑ i : Fin M, (if (i : ℕ) < thisN then T ((sh k).ph i) else 0) =
      ∑ i : Fin M, (fun j : ℕ => if j < thisN then T (shotPhoton hM sh (k * M + j)) else 0) i := by
    refine Finset.sum_congr rfl fun i _ => ?_
    simp only [shotPhoton]
    have e1 : (k * M + (i : ℕ)) / M = k := by
      rw [Nat.mul_comm, Nat.mul_add_div hM, Nat.div_eq_of_lt i.2, Nat.add_zero]
    have e2 : (k * M + (i : ℕ)) % M = i := by
      rw [Nat.mul_comm, Nat.mul_add_mod, Nat.mod_eq_of_lt i.2]
    simp only [e1, e2]
  rw [h1, Fin.sum_univ_eq_sum_range (fun j : ℕ => if j < thisN then T (shotPhoton hM sh (k * M + j)) else 0) M,
    ← Finset.sum_filter]
  congr 1
  ext j
  simp only [Finset.mem_filter, Finset.mem_range]
  omega

/-- One pass of the loop. -/
theorem accumulate_chunk {M : ℕ} (hM : 0 < M) (sh : ℕ → PhotonArray M) (hf : FullShots sh) (k thisN nTot : ℕ)
    (h0 : 0 < thisN) (hn : thisN ≤ M) (hT : 0 < nTot) (g s : ℝ) (b : Bounds ℤ) (hb : b.defined = true) (a : ℕ → ℕ → ℝ) :
    ∃ a' t, accumulate (photChunk (sh k) thisN nTot g s) b a = .ok (a', t) ∧
      (∀ i j : ℕ, i < b.deltay.toNat → j < b.deltax.toNat → a' i j = a i j +
        ∑ q ∈ Finset.Ico (k * M) (k * M + thisN), contribution M nTot g s (shotPhoton hM sh q) (b.xmin + j) (b.ymin + i)) ∧
      t = ∑ q ∈ Finset.Ico (k * M) (k * M + thisN), contributionIn M nTot g s (shotPhoton hM sh q) b := by
  classical
  obtain ⟨c1, c2, c3⟩ := photChunk_spec (sh k) (hf k) thisN nTot h0 hn hT g s
  obtain ⟨im', tot, h1, -, -, -, h4, h5, -⟩ := C28_addTo_partial _ c1 _ c2
    ⟨⟨b.deltay.toNat, b.deltax.toNat, a⟩, b, none, false⟩ hb rfl
  refine ⟨im'.arr.at', tot, by unfold accumulate; rw [h1], ?_, ?_⟩
  · intro i j hi hj
    rw [h4 i j hi hj]
    congr 1
    rw [← sum_chunk hM sh k thisN hn (fun p => contribution M nTot g s p (b.xmin + j) (b.ymin + i)), Finset.sum_filter]
    refine Finset.sum_congr rfl fun l _ => ?_
    rw [(c3 l).1, (c3 l).2]
    simp only [contribution]
    by_cases hl : (l : ℕ) < thisN
    · simp only [hl, if_true]
    · simp only [hl, if_false, ite_self]
  · rw [h5, ← sum_chunk hM sh k thisN hn (fun p => contributionIn M nTot g s p b), Finset.sum_filter]
    refine Finset.sum_congr rfl fun l _ => ?_
    simp only [(c3 l).1, (c3 l).2, contributionIn]
    by_cases hl : (l : ℕ) < thisN
    · simp only [hl, if_true]
    · simp only [hl, if_false, ite_self]

theorem photLoop_spec {M : ℕ} (hM : 0 < M) (sh : ℕ → PhotonArray M) (hf : FullShots sh) (nTot : ℕ) (hT : 0 < nTot) (g s : ℝ)
    (b : Bounds ℤ) (hb : b.defined = true) (m : ℕ) (hm : m = M) : ∀ (fuel n k : ℕ) (a : ℕ → ℕ → ℝ) (t : ℝ), n ≤ fuel →
    ∃ a' t', photLoop sh m nTot g s b fuel n k a t = .ok (a', t') ∧
      (∀ i j : ℕ, i < b.deltay.toNat → j < b.deltax.toNat → a' i j = a i j +
        ∑ q ∈ Finset.Ico (k * M) (k * M + n), contribution M nTot g s (shotPhoton hM sh q) (b.xmin + j) (b.ymin + i)) ∧
      t' = t + ∑ q ∈ Finset.Ico (k * M) (k * M + n), contributionIn M nTot g s (shotPhoton hM sh q) b
  | 0, n, k, a, t, h => by
    obtain rfl : n = 0 := by omega
    exact ⟨a, t, rfl, by simp, by simp⟩
  | fuel + 1, n, k, a, t, h => by
    unfold photLoop
    by_cases hn : n = 0
    · subst hn
      exact ⟨a, t, by simp, by simp, by simp⟩
    · rw [if_neg hn]
      simp only
      rw [hm]
      have h1 : 0 < min M n := by omega
      obtain ⟨a', t', e1, e2, e3⟩ := accumulate_chunk hM sh hf k (min M n) nTot h1 (min_le_left _ _) hT g s b hb a
      rw [e1]
      simp only
      obtain ⟨a2, t2, f1, f2, f3⟩ := photLoop_spec hM sh hf nTot hT g s b hb m hm fuel (n - min M n) (k + 1) a' (t + t') (by omega)
      rw [hm] at f1
      refine ⟨a2, t2, f1, ?_, ?_⟩
      all_goals
        have hsplit : ∀ T : ℕ → ℝ, ∑ q ∈ Finset.Ico (k * M) (k * M + n), T q =
            ∑ q ∈ Finset.Ico (k * M) (k * M + min M n), T q +
              ∑ q ∈ Finset.Ico ((k + 1) * M) ((k + 1) * M + (n - min M n)), T q := by
          intro T
          by_cases hle : n ≤ M
          · rw [min_eq_right hle]; simp
          · rw [min_eq_left (by omega), ← Finset.sum_Ico_consecutive T (n := k * M + M) (by omega) (by omega)]
            have e1 : k * M + M = (k + 1) * M := by ring
            have e2 : k * M + n = (k + 1) * M + (n - M) := by rw [← e1]; omega
            rw [e1, e2]
      · intro i j hi hj
        rw [f2 i j hi hj, e2 i j hi hj, hsplit]
        ring
      · rw [f3, e3, hsplit]
        ring

/-- The size of the arrays of photons that `drawPhot` shoots. -/
def PhotCall.arraySize (c : PhotCall) (nTot : ℕ) : ℕ := (effMaxN c.size c.maxN).getD nTot

/-- C83: `drawPhot` puts every one of the `nTot` photons into the pixel in whose square it falls, with the flux
`g * weight / (gain * nTot)` (the weight of a photon is its flux times the number of photons in its array: the flux of the
object for a profile without negative light), on top of the old pixels (if asked) or of zero, whatever the size of the
arrays in which the photons are shot; and it reports the flux of the photons that fell into the image.  Missing: arrays
that are larger than the number of photons shot into them (`maxN` smaller than a fixed array size), see
`C30_small_maxN_counterexample`; integer images, see `C28_integer`. -/
theorem C83_pixels_partial (c : PhotCall) (r : PhotRandom c.size) (p : Prof) (im : DrawImg) (addTo : Bool) (s : ℝ)
    (hw : im.wcs = some (.loc (.pix s))) (hb : im.bounds.defined = true) (hg : 0 < c.gain) (nTot : ℕ) (hT : 0 < nTot) (g : ℝ)
    (hc : c.count p r.pd = ((nTot : ℤ), some g)) (N : ℕ) (hN : c.arraySize nTot = N)
    (hsize : photNtot c.size N = N) (hM : 0 < photNtot c.size N)
    (sh : ℕ → PhotonArray (photNtot c.size N)) (hsh : r.shoot p N = some sh) (hf : FullShots sh) :
    ∃ arr added, drawPhot c r p im addTo = (arr, .ok added) ∧
      (∀ i j : ℕ, i < im.bounds.deltay.toNat → j < im.bounds.deltax.toNat →
        arr i j = (if addTo then im.arr i j else 0) + ∑ q ∈ Finset.range nTot,
          contribution N nTot (g / c.gain) s (shotPhoton hM sh q) (im.bounds.xmin + j) (im.bounds.ymin + i)) ∧
      added = ∑ q ∈ Finset.range nTot, contributionIn N nTot (g / c.gain) s (shotPhoton hM sh q) im.bounds := by
  have hgain : (if c.gain ≠ 1 then g / c.gain else g) = g / c.gain := by
    split_ifs with h
    · rfl
    · push Not at h; rw [h, div_one]
  have h1 : (!im.wcs.any isPixelScale) = false := by rw [hw]; rfl
  have h2 : imageScale im.wcs = .ok (some s) := by rw [hw]; rfl
  unfold drawPhot
  rw [h1, hc, h2, if_neg (by simp), if_neg (not_le.mpr hg)]
  simp only [hgain]
  have ha0 : ∀ i j, (if addTo then im.arr else fun _ _ => (0 : ℝ)) i j = if addTo then im.arr i j else 0 := by
    intro i j; split_ifs <;> rfl
  have hcast : (photNtot c.size N : ℝ) = N := by rw [hsize]
  have e : ((nTot : ℤ)).toNat = nTot := by omega
  unfold PhotCall.arraySize at hN
  cases he : effMaxN c.size c.maxN with
  | none =>
    rw [he, Option.getD_none] at hN
    subst hN
    simp only
    have hsh' : r.shoot p ((nTot : ℤ)).toNat = some sh := hsh
    rw [if_neg (by omega), hsh']
    simp only [e]
    obtain ⟨a', t, e1, e2, e3⟩ := accumulate_chunk hM sh hf 0 nTot nTot hT hsize.ge hT (g / c.gain) s im.bounds hb
      (if addTo then im.arr else fun _ _ => 0)
    rw [e1]
    rw [Nat.zero_mul, Nat.zero_add, Nat.Ico_zero_eq_range] at e2 e3
    simp only [contribution, contributionIn, hcast] at e2 e3 ⊢
    refine ⟨a', 0 + t, rfl, fun i j hi hj => by rw [e2 i j hi hj, ha0], by rw [zero_add, e3]⟩
  | some m =>
    rw [he, Option.getD_some] at hN
    subst hN
    simp only
    rw [hsh]
    simp only
    rw [if_neg (by omega), hb, if_neg (by simp), e]
    obtain ⟨a', t, e1, e2, e3⟩ := photLoop_spec hM sh hf nTot hT (g / c.gain) s im.bounds hb m hsize.symm nTot nTot 0
      (if addTo then im.arr else fun _ _ => 0) 0 le_rfl
    rw [Nat.zero_mul, Nat.zero_add, Nat.Ico_zero_eq_range] at e2 e3
    simp only [contribution, contributionIn, hcast] at e2 e3 ⊢
    rw [e1]
    refine ⟨a', t, rfl, fun i j hi hj => by rw [e2 i j hi hj, ha0], by rw [e3, zero_add]⟩

theorem inPixel_floor (x y : ℝ) (X Y : ℤ) : inPixel x y X Y ↔ X = ⌊x + 1 / 2⌋ ∧ Y = ⌊y + 1 / 2⌋ := by
  have h := inPixel_iff x y 0 0 X Y
  simp only [Int.cast_zero, sub_zero] at h
  rw [h]
  exact ⟨fun h => ⟨h.1.symm, h.2.symm⟩, fun h => ⟨h.1.symm, h.2.symm⟩⟩

/-- Summed over the pixels of the image, the contribution of a photon is what it contributes to the image. -/
theorem sum_contribution (M nTot : ℕ) (g s : ℝ) (ph : Phot) (b : Bounds ℤ) :
    ∑ i ∈ Finset.range b.deltay.toNat, ∑ j ∈ Finset.range b.deltax.toNat,
      contribution M nTot g s ph (b.xmin + j) (b.ymin + i) = contributionIn M nTot g s ph b := by
  unfold contribution contributionIn
  obtain ⟨v, hv⟩ : ∃ v, v = g * (ph.flux * M) / nTot := ⟨_, rfl⟩
  rw [← hv]
  by_cases h : ∃ X Y : ℤ, inPixel (ph.x / s) (ph.y / s) X Y ∧ b.xmin ≤ X ∧ X < b.xmin + b.deltax.toNat ∧
      b.ymin ≤ Y ∧ Y < b.ymin + b.deltay.toNat
  · rw [if_pos h]
    obtain ⟨X, Y, hXY, h1, h2, h3, h4⟩ := h
    have hin : ∀ X' Y' : ℤ, inPixel (ph.x / s) (ph.y / s) X' Y' → X' = X ∧ Y' = Y := by
      intro X' Y' h
      rw [inPixel_floor] at h hXY
      exact ⟨h.1.trans hXY.1.symm, h.2.trans hXY.2.symm⟩
    rw [Finset.sum_eq_single (Y - b.ymin).toNat, Finset.sum_eq_single (X - b.xmin).toNat]
    · have e1 : b.xmin + (((X - b.xmin).toNat : ℕ) : ℤ) = X := by omega
      have e2 : b.ymin + (((Y - b.ymin).toNat : ℕ) : ℤ) = Y := by omega
      rw [e1, e2, if_pos hXY]
    · intro j _ hj
      rw [if_neg fun h => by have := hin _ _ h; omega]
    · intro hj
      rw [Finset.mem_range] at hj
      omega
    · intro i _ hi
      refine Finset.sum_eq_zero fun j _ => ?_
      rw [if_neg fun h => by have := hin _ _ h; omega]
    · intro hi
      rw [Finset.mem_range] at hi
      omega
  · rw [if_neg h]
    refine Finset.sum_eq_zero fun i hi => Finset.sum_eq_zero fun j hj => ?_
    rw [Finset.mem_range] at hi hj
    rw [if_neg]
    exact fun hin => h ⟨_, _, hin, by omega, by omega, by omega, by omega⟩

/-- C83: what `drawPhot` reports is what it put into the pixels; and if all photons have the weight `F` and fall into the
image, that is `g * F / gain`. -/
theorem C83_total_partial (c : PhotCall) (r : PhotRandom c.size) (p : Prof) (im : DrawImg) (addTo : Bool) (s : ℝ)
    (hw : im.wcs = some (.loc (.pix s))) (hb : im.bounds.defined = true) (hg : 0 < c.gain) (nTot : ℕ) (hT : 0 < nTot) (g : ℝ)
    (hc : c.count p r.pd = ((nTot : ℤ), some g)) (N : ℕ) (hN : c.arraySize nTot = N)
    (hsize : photNtot c.size N = N) (hM : 0 < photNtot c.size N)
    (sh : ℕ → PhotonArray (photNtot c.size N)) (hsh : r.shoot p N = some sh) (hf : FullShots sh) :
    ∃ arr added, drawPhot c r p im addTo = (arr, .ok added) ∧
      ∑ i ∈ Finset.range im.bounds.deltay.toNat, ∑ j ∈ Finset.range im.bounds.deltax.toNat,
        (arr i j - if addTo then im.arr i j else 0) = added ∧
      ∀ F, (∀ q < nTot, (shotPhoton hM sh q).flux * N = F) →
        (∀ q < nTot, ∃ X Y : ℤ, inPixel ((shotPhoton hM sh q).x / s) ((shotPhoton hM sh q).y / s) X Y ∧
          im.bounds.xmin ≤ X ∧ X < im.bounds.xmin + im.bounds.deltax.toNat ∧ im.bounds.ymin ≤ Y ∧
          Y < im.bounds.ymin + im.bounds.deltay.toNat) → added = g * F / c.gain := by
  obtain ⟨arr, added, h1, h2, h3⟩ := C83_pixels_partial c r p im addTo s hw hb hg nTot hT g hc N hN hsize hM sh hsh hf
  refine ⟨arr, added, h1, ?_, fun F hF hin => ?_⟩
  · have h4 : ∀ i ∈ Finset.range im.bounds.deltay.toNat, ∑ j ∈ Finset.range im.bounds.deltax.toNat,
        (arr i j - if addTo then im.arr i j else 0) = ∑ j ∈ Finset.range im.bounds.deltax.toNat, ∑ q ∈ Finset.range nTot,
          contribution N nTot (g / c.gain) s (shotPhoton hM sh q) (im.bounds.xmin + j) (im.bounds.ymin + i) := by
      intro i hi
      refine Finset.sum_congr rfl fun j hj => ?_
      rw [h2 i j (Finset.mem_range.mp hi) (Finset.mem_range.mp hj)]
      ring
    rw [Finset.sum_congr rfl h4, h3]
    simp only [← sum_contribution]
    rw [Finset.sum_comm]
    conv_rhs => rw [Finset.sum_comm]
    rw [Finset.sum_comm]
    refine Finset.sum_congr rfl fun i _ => ?_
    rw [Finset.sum_comm]
  · have h4 : ∀ q ∈ Finset.range nTot, contributionIn N nTot (g / c.gain) s (shotPhoton hM sh q) im.bounds =
        g / c.gain * F / nTot := by
      intro q hq
      unfold contributionIn
      rw [if_pos (hin q (Finset.mem_range.mp hq)), hF q (Finset.mem_range.mp hq)]
    rw [h3, Finset.sum_congr rfl h4, Finset.sum_const, Finset.card_range, nsmul_eq_mul]
    have : (nTot : ℝ) ≠ 0 := by positivity
    field_simp

/-- C83: with a requested number of photons and no Poisson variation, that number (rounded) is drawn, with the factor 1. -/
theorem C83_requested (c : PhotCall) (p : Prof) (pd n eta : ℝ) (hn : c.nPhotons = some n) (h0 : 1 / 2 ≤ n)
    (hp : c.poissonFlux ≠ some true) (he : p.fluxPerPhoton = some eta) :
    ∃ k : ℕ, 0 < k ∧ c.count p pd = ((k : ℤ), some 1) ∧ (k : ℝ) - 1 / 2 ≤ n ∧ n < k + 1 / 2 := by
  have hpo : c.poisson = false := by
    unfold PhotCall.poisson
    rw [hn]
    rcases hq : c.poissonFlux with _ | b
    · rfl
    · cases b
      · rfl
      · exact absurd hq hp
  have h1 := Int.floor_le (n + 1 / 2)
  have h2 := Int.lt_floor_add_one (n + 1 / 2)
  have h3 : 1 ≤ ⌊n + 1 / 2⌋ := Int.le_floor.mpr (by push_cast; linarith)
  have hne : n ≠ 0 := by linarith
  have hk : ((⌊n + 1 / 2⌋.toNat : ℕ) : ℤ) = ⌊n + 1 / 2⌋ := by omega
  have hk' : ((⌊n + 1 / 2⌋.toNat : ℕ) : ℝ) = (⌊n + 1 / 2⌋ : ℤ) := by exact_mod_cast hk
  refine ⟨⌊n + 1 / 2⌋.toNat, by omega, ?_, by rw [hk']; linarith, by rw [hk']; linarith⟩
  unfold PhotCall.count
  rw [he, hn, hk]
  simp only [hpo, calcNPhotons, if_neg hne, Bool.false_eq_true, if_false, truncZ]
  rw [if_pos (by linarith)]

/-- C83: `makePhot` returns the photons shot, at their places, their fluxes multiplied by `g`. -/
theorem C83_makePhot (c : PhotCall) (r : PhotRandom c.size) (p : Prof) (nTot : ℕ) (g : ℝ)
    (hc : c.count p r.pd = ((nTot : ℤ), some g)) (sh : ℕ → PhotonArray (photNtot c.size nTot))
    (hsh : r.shoot p nTot = some sh) :
    ∃ q : PhotonArray (photNtot c.size nTot), makePhot c r p = .ok ⟨nTot, q⟩ ∧
      ∀ i, q.ph i = { (sh 0).ph i with flux := g * ((sh 0).ph i).flux } := by
  refine ⟨if g = 1 then sh 0 else (sh 0).scaleFlux g, ?_, fun i => ?_⟩
  · unfold makePhot
    rw [hc]
    have h1 : ¬ ((nTot : ℤ) < 0) := by omega
    simp only [h1, if_false]
    have hsh' : r.shoot p ((nTot : ℤ)).toNat = some sh := hsh
    rw [hsh']
    rfl
  · split_ifs with h
    · rw [h, one_mul]
    · simp [PhotonArray.scaleFlux, mul_comm]

/-! ### Averages -/

open JG.Elt in
/-- Specification: the object can be shot in arrays of `N` photons, none is masked, and each photon - its position, and
its flux times `N` - is distributed as `Prof.photons` says. -/
structure Shoots {Ω : Type} [MeasurableSpace Ω] (μ : Measure Ω) {size : Option ℕ} (r : Ω → PhotRandom size) (p : Prof)
    (N : ℕ) (sh : Ω → ℕ → PhotonArray (photNtot size N)) : Prop where
  shoot : ∀ ω, (r ω).shoot p N = some (sh ω)
  full : ∀ ω, FullShots (sh ω)
  integrable : ∀ k i (pix : Set (ℝ × ℝ)), MeasurableSet pix → Integrable (fun ω =>
    pix.indicator (fun _ => ((sh ω k).ph i).flux * N) (((sh ω k).ph i).x, ((sh ω k).ph i).y)) μ
  law : ∀ k i (pix : Set (ℝ × ℝ)), MeasurableSet pix → ∫ ω,
    pix.indicator (fun _ => ((sh ω k).ph i).flux * N) (((sh ω k).ph i).x, ((sh ω k).ph i).y) ∂μ =
      p.photons fun q g => pix.indicator (fun _ => g) q

/-- Specification: the points of the pixel `(X, Y)` of an image with pixels of size `s`. -/
def pixelSet (s : ℝ) (X Y : ℤ) : Set (ℝ × ℝ) := {x | inPixel (x.1 / s) (x.2 / s) X Y}

theorem measurable_pixel (s : ℝ) (X Y : ℤ) : MeasurableSet (pixelSet s X Y) := by
  have h1 : Measurable fun x : ℝ × ℝ => x.1 / s := measurable_fst.div_const s
  have h2 : Measurable fun x : ℝ × ℝ => x.2 / s := measurable_snd.div_const s
  have e : pixelSet s X Y = ((fun x : ℝ × ℝ => x.1 / s) ⁻¹' Set.Ico ((X : ℝ) - 1 / 2) (X + 1 / 2)) ∩
      ((fun x : ℝ × ℝ => x.2 / s) ⁻¹' Set.Ico ((Y : ℝ) - 1 / 2) (Y + 1 / 2)) := by
    ext x
    simp only [pixelSet, inPixel, Set.mem_ofPred_eq, Set.mem_inter_iff, Set.mem_preimage, Set.mem_Ico]
    tauto
  rw [e]
  exact (h1 measurableSet_Ico).inter (h2 measurableSet_Ico)

/-- C83: for a given number of photons, the average of every pixel over the photons is the old pixel (if asked) plus
`g / gain` times the light of the object in the pixel. -/
theorem C83_average_partial {Ω : Type} [MeasurableSpace Ω] (μ : Measure Ω) [IsProbabilityMeasure μ] (c : PhotCall)
    (r : Ω → PhotRandom c.size) (p : Prof) (f : ℝ × ℝ → ℝ) (hp : Elt.Bright Elt.PhotonLeaf p f) (hwt : Elt.Weighted p)
    (im : DrawImg) (addTo : Bool) (s : ℝ)
    (hw : im.wcs = some (.loc (.pix s))) (hb : im.bounds.defined = true) (hg : 0 < c.gain) (nTot : ℕ) (hT : 0 < nTot) (g : ℝ)
    (hc : ∀ ω, c.count p (r ω).pd = ((nTot : ℤ), some g)) (N : ℕ) (hN : c.arraySize nTot = N) (hN0 : 0 < N)
    (hsize : photNtot c.size N = N) (sh : Ω → ℕ → PhotonArray (photNtot c.size N)) (hsh : Shoots μ r p N sh)
    (i j : ℕ) (hi : i < im.bounds.deltay.toNat) (hj : j < im.bounds.deltax.toNat) :
    Integrable (fun ω => (drawPhot c (r ω) p im addTo).1 i j) μ ∧
    ∫ ω, (drawPhot c (r ω) p im addTo).1 i j ∂μ = (if addTo then im.arr i j else 0) +
      g / c.gain * ∫ x in pixelSet s (im.bounds.xmin + j) (im.bounds.ymin + i), f x := by
  have hM : 0 < photNtot c.size N := by omega
  obtain ⟨pix, hpix⟩ : ∃ pix, pix = pixelSet s (im.bounds.xmin + j) (im.bounds.ymin + i) := ⟨_, rfl⟩
  have hmeas : MeasurableSet pix := hpix ▸ measurable_pixel _ _ _
  have h1 : ∀ ω, (drawPhot c (r ω) p im addTo).1 i j = (if addTo then im.arr i j else 0) + ∑ q ∈ Finset.range nTot,
      g / c.gain / nTot * pix.indicator (fun _ => (shotPhoton hM (sh ω) q).flux * N)
        ((shotPhoton hM (sh ω) q).x, (shotPhoton hM (sh ω) q).y) := by
    intro ω
    obtain ⟨arr, added, h1, h2, -⟩ := C83_pixels_partial c (r ω) p im addTo s hw hb hg nTot hT g (hc ω) N hN hsize hM (sh ω)
      (hsh.shoot ω) (hsh.full ω)
    rw [h1]
    simp only
    rw [h2 i j hi hj]
    congr 1
    refine Finset.sum_congr rfl fun q _ => ?_
    unfold contribution
    rw [hpix]
    by_cases hin : inPixel ((shotPhoton hM (sh ω) q).x / s) ((shotPhoton hM (sh ω) q).y / s) (im.bounds.xmin + j)
        (im.bounds.ymin + i)
    · rw [if_pos hin, Set.indicator_of_mem (show _ ∈ pixelSet s _ _ from hin)]
      ring
    · rw [if_neg hin, Set.indicator_of_notMem (show _ ∉ pixelSet s _ _ from hin), mul_zero]
  simp only [h1]
  have hint : ∀ q ∈ Finset.range nTot, Integrable (fun ω => g / c.gain / nTot *
      pix.indicator (fun _ => (shotPhoton hM (sh ω) q).flux * N) ((shotPhoton hM (sh ω) q).x, (shotPhoton hM (sh ω) q).y)) μ :=
    fun q _ => (hsh.integrable _ _ pix hmeas).const_mul _
  refine ⟨(integrable_const _).add (integrable_finsetSum _ hint), ?_⟩
  rw [integral_add (integrable_const _) (integrable_finsetSum _ hint), integral_finsetSum _ hint]
  congr 1
  · simp
  · have h2 : ∀ q ∈ Finset.range nTot, ∫ ω, g / c.gain / nTot *
        pix.indicator (fun _ => (shotPhoton hM (sh ω) q).flux * N)
          ((shotPhoton hM (sh ω) q).x, (shotPhoton hM (sh ω) q).y) ∂μ = g / c.gain / nTot * ∫ x in pix, f x := by
      intro q _
      rw [integral_const_mul]
      congr 1
      exact (hsh.law _ _ pix hmeas).trans (Elt.C79_pixel p f hp hwt pix hmeas)
    rw [Finset.sum_congr rfl h2, Finset.sum_const, Finset.card_range, nsmul_eq_mul, hpix]
    have : (nTot : ℝ) ≠ 0 := by positivity
    field_simp

/-! ### drawImage -/

theorem bright_mk {P : Leaf → (ℝ × ℝ → ℝ) → Prop} {p : Prof} {f g : ℝ × ℝ → ℝ} {J : Mat2} {off : ℝ × ℝ} {r : ℝ}
    (h : Elt.Bright P p f) (hd : J.det ≠ 0) (hg : ∀ q, g (J.app q + off) = r * f q) :
    Elt.Bright P (mkTransform p J off r) g := by
  cases h with
  | @trans o f' J2 o2 r2 _ h hd2 hf =>
    refine .trans h (by rw [Mat2.det_mul]; exact mul_ne_zero hd hd2) fun q => ?_
    have e : (J.mul J2).app q + (off + J.app o2) = J.app (J2.app q + o2) + off := by
      ext <;> simp [Mat2.app, Mat2.mul] <;> ring
    rw [e, hg, hf, mul_assoc]
  | leaf h => exact .trans (.leaf h) hd hg
  | sumNil => exact .trans .sumNil hd hg
  | sumCons h1 h2 => exact .trans (.sumCons h1 h2) hd hg
  | convOne h => exact .trans (.convOne h) hd hg
  | convCons h1 h2 => exact .trans (.convCons h1 h2) hd hg

theorem weighted_mk {p : Prof} (J : Mat2) (off : ℝ × ℝ) (r : ℝ) (h : Elt.Weighted p) : Elt.Weighted (mkTransform p J off r) := by
  cases h with
  | trans h => exact .trans h
  | leaf => exact .trans .leaf
  | sum h1 h2 => exact .trans (.sum h1 h2)
  | conv h => exact .trans (.conv h)

/-- The light of the object in the coordinates of the image. -/
theorem bright_toImage {P : Leaf → (ℝ × ℝ → ℝ) → Prop} {w : WCS} (hw : w.Nondeg) {o p : Prof} {f : ℝ × ℝ → ℝ}
    (h : Elt.Bright P o f) {fr : ℝ} {off : ℝ × ℝ} (hp : w.profileToImage o fr off = some p) :
    Elt.Bright P p fun x => fr * w.localWCS.docArea * f ((WCS.loc w.localWCS).docMap (x - off)) := by
  unfold WCS.profileToImage at hp
  rw [profileToImage_eq hw] at hp
  obtain rfl := Option.some.inj hp
  have hd := det_toJac hw
  refine bright_mk h (by rw [Mat2.det_inv' hd]; exact one_div_ne_zero hd) fun q => ?_
  rw [add_sub_cancel_right, docArea_eq, ← (C37_map _ _).1]
  have e : (WCS.loc w.localWCS).toWorld (w.localWCS.toJac.inv'.app q) = q := by
    simp only [WCS.toWorld, uv_eq]
    exact Mat2.app_inv' hd q
  rw [e]

theorem drawPhot_defined {c : PhotCall} {r : PhotRandom c.size} {p : Prof} {im : DrawImg} {addTo : Bool} {arr : ℕ → ℕ → ℝ}
    {t : ℝ} (h : drawPhot c r p im addTo = (arr, .ok t)) : im.bounds.defined = true := by
  by_contra hd
  have hd : im.bounds.defined = false := by simpa using hd
  have hacc : ∀ {M : ℕ} (q : PhotonArray M) (a : ℕ → ℕ → ℝ), accumulate q im.bounds a = .error .bounds := by
    intro M q a
    unfold accumulate
    rw [C28_undefined _ _ hd]
  unfold drawPhot at h
  simp only [hacc, hd, Bool.not_false, if_true, Except.map] at h
  by_cases h1 : (!im.wcs.any isPixelScale) = true
  · rw [if_pos h1] at h; simp at h
  rw [if_neg h1] at h
  by_cases h2 : c.gain ≤ 0
  · rw [if_pos h2] at h; simp at h
  rw [if_neg h2] at h
  split at h
  swap
  · simp at h
  cases he : effMaxN c.size c.maxN with
  | none =>
    rw [he] at h
    simp only at h
    rename_i nTot _ _ _ _
    by_cases h3 : nTot < 0
    · rw [if_pos h3] at h; simp at h
    rw [if_neg h3] at h
    cases hsh : r.shoot p nTot.toNat with
    | none => rw [hsh] at h; simp at h
    | some sh => rw [hsh] at h; simp at h
  | some m =>
    rw [he] at h
    simp only at h
    cases hsh : r.shoot p m with
    | none => rw [hsh] at h; simp at h
    | some sh =>
      rw [hsh] at h
      simp only at h
      rename_i nTot _ _ _ _
      by_cases h3 : m = 0 ∧ 0 < nTot
      · rw [if_pos h3] at h; simp at h
      · rw [if_neg h3] at h; simp at h

/-- C83: `drawImage(method="phot")`.  The image has the requested wcs and rectangle and is the image passed in; and for a
given number of photons every pixel is on average the old pixel (if asked) plus the counts per flux, times `g`, times the
light of the object in the pixel, the object being at the requested position. -/
theorem C83_image_partial {Ω : Type} [MeasurableSpace Ω] (μ : Measure Ω) [IsProbabilityMeasure μ] (g : DrawGS) (c : PhotCall)
    (r : Ω → PhotRandom c.size) (o : Prof) (f : ℝ × ℝ → ℝ) (hf : Elt.Bright Elt.PhotonLeaf o f) (hwt : Elt.Weighted o)
    (a : DrawArgs) (hm : a.method = .phot) (hs : a.setupOnly = false)
    (hgood : ∀ i, a.image = some i → i.bounds.defined = false → a.center = none)
    (x : Ω → Option DrawImg) (im : Ω → DrawImg) (h : ∀ ω, drawImagePhot g c (r ω) o a = (x ω, .ok (im ω))) :
    ∃ w b off p, WcsRequested o a w ∧ requestedRect (a.place 0) b ∧ w.profileToImage o (a.area * a.exptime) off = some p ∧
      (∀ ω, (im ω).wcs = some w ∧ (im ω).bounds = b ∧ x ω = a.image.map fun _ => im ω) ∧
      (w.Nondeg → ∀ (nTot : ℕ) (gf : ℝ) (N : ℕ) (sh : Ω → ℕ → PhotonArray (photNtot c.size N)), 0 < nTot →
        (∀ ω, c.count p (r ω).pd = ((nTot : ℤ), some gf)) → c.arraySize nTot = N → 0 < N → photNtot c.size N = N →
        Shoots μ r p N sh → ∀ i j : ℕ, (i : ℤ) < b.deltay → (j : ℤ) < b.deltax →
          ∫ ω, (im ω).arr i j ∂μ = a.oldPixel i j + a.counts * gf * ∫ x in pixelSet 1 (b.xmin + j) (b.ymin + i),
            w.localWCS.docArea * f (w.docMap x - w.docMap (requestedPos (a.place 0) b))) := by
  obtain ⟨ω0⟩ : Nonempty Ω := by
    by_contra hne
    rw [not_nonempty_iff] at hne
    have h1 := measure_univ (μ := μ)
    rw [Set.univ_eq_empty_iff.mpr hne, measure_empty] at h1
    exact zero_ne_one h1
  obtain ⟨w, off, p, q, cc, im0, b, hd⟩ := drawImage_shared (h ω0) hs hgood
  obtain ⟨hb0, hw0, _, d0⟩ := hd _ _ _ (h ω0)
  have hfs : fluxScale a w.localWCS = a.area * a.exptime := by
    unfold fluxScale
    simp [hm]
  have hqp : q = p := by
    have := d0.pixel
    unfold convolvePixel at this
    simp [hm] at this
    exact this.symm
  subst hqp
  have hpr := d0.prof
  rw [hfs] at hpr
  have hstep : ∀ ω, ∃ t, drawPhot { c with gain := a.gain } (r ω) q im0 a.addTo = ((im ω).arr, .ok t) := by
    intro ω
    obtain ⟨_, _, t, d⟩ := hd _ _ _ (h ω)
    have := d.step
    unfold drawStep at this
    rw [if_pos hm] at this
    exact ⟨t, this⟩
  have hdef : im0.bounds.defined = true := (hstep ω0).elim fun t ht => drawPhot_defined ht
  obtain ⟨hgain, harea, hexp⟩ := check_pos d0.check
  refine ⟨w, b, off, q, d0.wcs, hb0 ▸ d0.rect, hpr, fun ω => ?_, ?_⟩
  · obtain ⟨h1, _, _, d⟩ := hd _ _ _ (h ω)
    exact ⟨d.imwcs, h1, d.same⟩
  intro hnd nTot gf N sh hT hc hN hN0 hsize hsh i j hi hj
  have hav := C83_average_partial μ { c with gain := a.gain } r q _ (bright_toImage hnd hf hpr)
    (by
      unfold WCS.profileToImage at hpr
      rw [profileToImage_eq hnd] at hpr
      rw [← Option.some.inj hpr]
      exact weighted_mk _ _ _ hwt)
    im0 a.addTo 1 hw0 hdef hgain nTot hT gf hc N hN hN0 hsize sh hsh i j
    (by rw [d0.deltay, hb0]; omega) (by rw [d0.deltax, hb0]; omega)
  have e1 : ∀ ω, (drawPhot { c with gain := a.gain } (r ω) q im0 a.addTo).1 i j = (im ω).arr i j := by
    intro ω
    obtain ⟨t, ht⟩ := hstep ω
    rw [ht]
  simp only [e1] at hav
  rw [hav.2, d0.old, ← integral_indicator (measurable_pixel _ _ _), ← integral_indicator (measurable_pixel _ _ _)]
  congr 1
  rw [← integral_sub_right_eq_self _ ((cc.x : ℝ), (cc.y : ℝ)), ← integral_const_mul, ← integral_const_mul]
  refine integral_congr_ae (Filter.Eventually.of_forall fun y => ?_)
  have hmem : (y - ((cc.x : ℝ), (cc.y : ℝ)) ∈ pixelSet 1 (im0.bounds.xmin + j) (im0.bounds.ymin + i)) ↔
      y ∈ pixelSet 1 (b.xmin + j) (b.ymin + i) := by
    simp only [pixelSet, inPixel, Set.mem_ofPred_eq, d0.xmin, d0.ymin, hb0, Prod.fst_sub, Prod.snd_sub, div_one]
    push_cast
    constructor <;> rintro ⟨h1, h2, h3, h4⟩ <;> refine ⟨?_, ?_, ?_, ?_⟩ <;> linarith
  simp only
  by_cases hy : y ∈ pixelSet 1 (b.xmin + j) (b.ymin + i)
  · rw [Set.indicator_of_mem hy, Set.indicator_of_mem (hmem.mpr hy)]
    have e2 : y - ((cc.x : ℝ), (cc.y : ℝ)) - off = y - requestedPos (a.place 0) b := by
      rw [← hb0, ← d0.pos]
      ext <;> simp <;> ring
    rw [e2, docMap_sub]
    unfold DrawArgs.counts
    field_simp
  · rw [Set.indicator_of_notMem hy, Set.indicator_of_notMem (fun h => hy (hmem.mp h))]
    ring

/-- What an array of photons adds to the pixels is what it reports. -/
theorem accumulate_reports {M : ℕ} {q : PhotonArray M} {b : Bounds ℤ} {a a' : ℕ → ℕ → ℝ} {t : ℝ}
    (h : accumulate q b a = .ok (a', t)) :
    ∑ i ∈ Finset.range b.deltay.toNat, ∑ j ∈ Finset.range b.deltax.toNat, a' i j =
      ∑ i ∈ Finset.range b.deltay.toNat, ∑ j ∈ Finset.range b.deltax.toNat, a i j + t := by
  unfold accumulate at h
  by_cases hd : b.defined = true
  swap
  · rw [C28_undefined _ _ (by simpa using hd)] at h
    simp at h
  by_cases hM : M = 0
  · subst hM
    unfold PhotonArray.addTo at h
    simp only [hd, Bool.not_true, Bool.false_eq_true, if_false, ne_eq, not_true_eq_false, false_and, addPhotons,
      Finset.univ_eq_empty, Finset.sum_empty, Except.ok.injEq, Prod.mk.injEq, Arr.mapIdx, add_zero] at h
    rw [← h.2, ← h.1, add_zero]
    simp [safeCast]
  by_cases hk : q.numKeep = 0
  · unfold PhotonArray.addTo at h
    simp [hd, hM, hk] at h
  have hk : 0 < q.numKeep := by omega
  obtain ⟨im', tot, h1, -, h2, h3, -, -, h4⟩ := C28_addTo_partial q hk _ (flux_eq q hk)
    ⟨⟨b.deltay.toNat, b.deltax.toNat, a⟩, b, none, false⟩ hd rfl
  rw [h1] at h
  simp only [Except.ok.injEq, Prod.mk.injEq] at h
  unfold Arr.total at h4
  rw [h2, h3] at h4
  rw [← h.1, ← h.2]
  exact h4

theorem photLoop_reports {M : ℕ} (sh : ℕ → PhotonArray M) (m nTot : ℕ) (g s : ℝ) (b : Bounds ℤ) :
    ∀ (fuel n k : ℕ) (a : ℕ → ℕ → ℝ) (t : ℝ) (a' : ℕ → ℕ → ℝ) (t' : ℝ),
      photLoop sh m nTot g s b fuel n k a t = .ok (a', t') →
      ∑ i ∈ Finset.range b.deltay.toNat, ∑ j ∈ Finset.range b.deltax.toNat, a' i j + t =
        ∑ i ∈ Finset.range b.deltay.toNat, ∑ j ∈ Finset.range b.deltax.toNat, a i j + t'
  | 0, n, k, a, t, a', t', h => by
    simp only [photLoop, Except.ok.injEq, Prod.mk.injEq] at h
    rw [h.1, h.2]
  | fuel + 1, n, k, a, t, a', t', h => by
    unfold photLoop at h
    by_cases hn : n = 0
    · rw [if_pos hn] at h
      simp only [Except.ok.injEq, Prod.mk.injEq] at h
      rw [h.1, h.2]
    · rw [if_neg hn] at h
      simp only at h
      split at h
      · simp at h
      · rename_i a1 t1 h1
        have h2 := photLoop_reports sh m nTot g s b fuel _ _ _ _ _ _ h
        have h3 := accumulate_reports h1
        linarith

/-- C83: whatever the photons are, `drawPhot` reports the sum of what it adds to the pixels. -/
theorem C83_reports (c : PhotCall) (r : PhotRandom c.size) (p : Prof) (im : DrawImg) (addTo : Bool) (arr : ℕ → ℕ → ℝ) (t : ℝ)
    (h : drawPhot c r p im addTo = (arr, .ok t)) :
    ∑ i ∈ Finset.range im.bounds.deltay.toNat, ∑ j ∈ Finset.range im.bounds.deltax.toNat,
      (arr i j - if addTo then im.arr i j else 0) = t := by
  have ha0 : ∀ i j, (if addTo then im.arr i j else 0) = (if addTo then im.arr else fun _ _ => (0 : ℝ)) i j := by
    intro i j; split_ifs <;> rfl
  simp only [ha0, Finset.sum_sub_distrib]
  unfold drawPhot at h
  by_cases h1 : (!im.wcs.any isPixelScale) = true
  · rw [if_pos h1] at h; simp at h
  rw [if_neg h1] at h
  by_cases h2 : c.gain ≤ 0
  · rw [if_pos h2] at h; simp at h
  rw [if_neg h2] at h
  split at h
  swap
  · simp at h
  rename_i nTot _ _ _ _
  cases he : effMaxN c.size c.maxN with
  | none =>
    rw [he] at h
    simp only at h
    by_cases h3 : nTot < 0
    · rw [if_pos h3] at h; simp at h
    rw [if_neg h3] at h
    cases hsh : r.shoot p nTot.toNat with
    | none => rw [hsh] at h; simp at h
    | some sh =>
      rw [hsh] at h
      simp only at h
      split at h
      · rename_i a1 t1 h4
        simp only [Prod.mk.injEq, Except.ok.injEq] at h
        rw [← h.1, ← h.2]
        cases hacc : accumulate (photChunk (sh 0) nTot.toNat nTot.toNat (if c.gain ≠ 1 then _ / c.gain else _) _) im.bounds
          (if addTo then im.arr else fun _ _ => 0) with
        | error e => rw [hacc] at h4; simp [Except.map] at h4
        | ok v =>
          rw [hacc] at h4
          simp only [Except.map, Except.ok.injEq, Prod.mk.injEq, zero_add] at h4
          have := accumulate_reports (a' := v.1) (t := v.2) hacc
          rw [← h4.1, ← h4.2, this]
          ring
      · simp at h
  | some m =>
    rw [he] at h
    simp only at h
    cases hsh : r.shoot p m with
    | none => rw [hsh] at h; simp at h
    | some sh =>
      rw [hsh] at h
      simp only at h
      by_cases h3 : m = 0 ∧ 0 < nTot
      · rw [if_pos h3] at h; simp at h
      rw [if_neg h3] at h
      by_cases h4 : (!im.bounds.defined) = true
      · rw [if_pos h4] at h; simp at h
      rw [if_neg h4] at h
      split at h
      · rename_i a1 t1 h5
        simp only [Prod.mk.injEq, Except.ok.injEq] at h
        have := photLoop_reports _ _ _ _ _ _ _ _ _ _ _ _ _ h5
        rw [← h.1, ← h.2]
        linarith
      · simp at h

/-- C83: for method `phot` the `added_flux` of the image is the sum of what was added to the pixels over
`area * exptime`. -/
theorem C83_added_flux (g : DrawGS) (c : PhotCall) (r : PhotRandom c.size) (o : Prof) (a : DrawArgs) (x : Option DrawImg)
    (im : DrawImg) (h : drawImagePhot g c r o a = (x, .ok im)) (hs : a.setupOnly = false)
    (hgood : ∀ i, a.image = some i → i.bounds.defined = false → a.center = none) (hm : a.method = .phot) :
    ∃ f, im.addedFlux = some f ∧ f * (a.area * a.exptime) =
      ∑ i ∈ Finset.range im.bounds.deltay.toNat, ∑ j ∈ Finset.range im.bounds.deltax.toNat,
        (im.arr i j - a.oldPixel i j) := by
  obtain ⟨w, off, p, q, cc, im0, added, d⟩ := drawImage_ok h hs hgood
  obtain ⟨hgain, harea, hexp⟩ := check_pos d.check
  have hfs : fluxScale a w.localWCS = a.area * a.exptime := by
    unfold fluxScale
    simp [hm]
  have hst := d.step
  unfold drawStep at hst
  rw [if_pos hm] at hst
  have h1 := C83_reports _ _ _ _ _ _ _ hst
  refine ⟨_, d.flux, ?_⟩
  rw [hfs, div_mul_cancel₀ _ (by positivity), ← h1, d.deltax, d.deltay]
  refine Finset.sum_congr rfl fun i _ => Finset.sum_congr rfl fun j _ => ?_
  rw [d.old]

/-- Disagreement: with a gain other than 1, `added_flux` for method `phot` is not the flux added (what is added to the
pixels over the counts per flux), as it is for the other methods (`C81_real_partial`, `C81_fft_partial`): it is smaller by
the gain. -/
theorem C83_gain_counterexample (g : DrawGS) (c : PhotCall) (r : PhotRandom c.size) (o : Prof) (a : DrawArgs)
    (x : Option DrawImg) (im : DrawImg) (h : drawImagePhot g c r o a = (x, .ok im)) (hs : a.setupOnly = false)
    (hgood : ∀ i, a.image = some i → i.bounds.defined = false → a.center = none) (hm : a.method = .phot) (hg : a.gain ≠ 1)
    (hne : ∑ i ∈ Finset.range im.bounds.deltay.toNat, ∑ j ∈ Finset.range im.bounds.deltax.toNat,
        (im.arr i j - a.oldPixel i j) ≠ 0) :
    ¬ ∃ f, im.addedFlux = some f ∧ f * a.counts =
      ∑ i ∈ Finset.range im.bounds.deltay.toNat, ∑ j ∈ Finset.range im.bounds.deltax.toNat,
        (im.arr i j - a.oldPixel i j) := by
  obtain ⟨f, hf, hsum⟩ := C83_added_flux g c r o a x im h hs hgood hm
  obtain ⟨w, off, p, q, cc, im0, added, d⟩ := drawImage_ok h hs hgood
  obtain ⟨hgain, harea, hexp⟩ := check_pos d.check
  rintro ⟨f', hf', hsum'⟩
  obtain rfl : f' = f := by rw [hf] at hf'; exact (Option.some.inj hf').symm
  rw [← hsum] at hsum' hne
  unfold DrawArgs.counts at hsum'
  apply hg
  have h1 : f' * (a.area * a.exptime) = f' * (a.area * a.exptime) * a.gain := by
    have : f' * (a.area * a.exptime / a.gain) * a.gain = f' * (a.area * a.exptime) := by field_simp
    rw [hsum'] at this
    exact this.symm
  have h2 : f' * (a.area * a.exptime) * (a.gain - 1) = 0 := by linarith
  rcases mul_eq_zero.mp h2 with h3 | h3
  · exact absurd h3 hne
  · linarith

/-- Disagreement: when the object cannot be shot (a deconvolution, say), `drawPhot` has already set the image to zero when
it raises, so the caller's pixels are lost. -/
theorem C83_erased_counterexample (c : PhotCall) (r : PhotRandom c.size) (p : Prof) (im : DrawImg) (s : ℝ)
    (hw : im.wcs = some (.loc (.pix s))) (hg : 0 < c.gain) (nTot : ℕ) (g : ℝ)
    (hc : c.count p r.pd = ((nTot : ℤ), some g)) (hsh : ∀ n, r.shoot p n = none) :
    drawPhot c r p im false = (fun _ _ => 0, .error .notImplemented) := by
  have h1 : (!im.wcs.any isPixelScale) = false := by rw [hw]; rfl
  have h2 : imageScale im.wcs = .ok (some s) := by rw [hw]; rfl
  unfold drawPhot
  rw [h1, hc, h2, if_neg (by simp), if_neg (not_le.mpr hg)]
  have h3 : ¬ ((nTot : ℤ) < 0) := by omega
  simp only [h3, if_false, Bool.false_eq_true, hsh]
  split <;> rfl

/-- Disagreement: a requested number of photons below one half is no photon at all (zero upstream stands for the number
that the flux asks for): with `maxN` the image stays empty, although the object has flux. -/
theorem C83_zero_photons_counterexample (m : ℕ) (r : PhotRandom none) (p : Prof) (im : DrawImg) (s eta : ℝ)
    (hw : im.wcs = some (.loc (.pix s))) (hb : im.bounds.defined = true) (he : p.fluxPerPhoton = some eta)
    (sh : ℕ → PhotonArray (photNtot none m)) (hsh : r.shoot p m = some sh) :
    drawPhot { nPhotons := some 0, poissonFlux := some false, maxN := some m } r p im false = (fun _ _ => 0, .ok 0) := by
  have h1 : (!im.wcs.any isPixelScale) = false := by rw [hw]; rfl
  have h2 : imageScale im.wcs = .ok (some s) := by rw [hw]; rfl
  have hc : ∃ g, PhotCall.count { nPhotons := some 0, poissonFlux := some false, maxN := some m } p r.pd = (0, some g) := by
    have hf : ⌊(1 / 2 : ℝ)⌋ = 0 := by rw [Int.floor_eq_iff]; norm_num
    have ht : truncZ (0 + 1 / 2) = 0 := by
      unfold truncZ
      rw [if_pos (by norm_num), zero_add, hf]
    simp only [PhotCall.count, he, ht, Prod.mk.injEq, true_and, calcNPhotons, if_true]
    split_ifs
    · exact ⟨1, rfl⟩
    · exact ⟨1, by simp [nPhotonsNonzero, PhotCall.poisson]⟩
  obtain ⟨g, hc⟩ := hc
  unfold drawPhot
  rw [h1, hc, h2, if_neg (by simp), if_neg (by norm_num)]
  have he : effMaxN none (some m) = some m := rfl
  simp only [he, hsh, hb, lt_irrefl, and_false, if_false, Bool.not_true, Bool.false_eq_true, Int.toNat_zero, photLoop]

/-- C83: an object with light can be drawn with any number of photons on an image of any size and scale. -/
theorem C83_draws (g : DrawGS) (n : ℝ) (hn : 1 / 2 ≤ n) (r : PhotRandom none)
    (hr : ∀ p N, ∃ sh, r.shoot p N = some sh ∧ FullShots sh) (o : Prof) (ho : 0 < o.positiveFlux + o.negativeFlux)
    (nx ny : ℤ) (hx : 0 < nx) (hy : 0 < ny) (s : ℝ) (hs : 0 < s) :
    ∃ im, drawImagePhot g { nPhotons := some n } r o { nx := some nx, ny := some ny, scale := some s, method := .phot } =
      (none, .ok im) := by
  obtain ⟨hc, b0, hb0, hdef, -⟩ := boundsFrom1_center hx hy
  have hnb : getNewBounds (({ nx := some nx, ny := some ny, scale := some s, method := .phot } : DrawArgs).place 0) =
      some (boundsFrom1 nx ny) := rfl
  have hst : ∀ G, setupImage (({ nx := some nx, ny := some ny, scale := some s, method := .phot } : DrawArgs).place G) =
      some (boundsFrom1 nx ny) := fun G => by simp [DrawArgs.place, setupImage]
  have h01 : ¬ ((1 : ℝ) ≤ 0) := by norm_num
  have hck : ({ nx := some nx, ny := some ny, scale := some s, method := .phot } : DrawArgs).check = none := by
    simp [DrawArgs.check, h01]
  have hfs : fluxScale ({ nx := some nx, ny := some ny, scale := some s, method := .phot } : DrawArgs) (.pix s) = 1 := by
    simp [fluxScale]
  unfold drawImagePhot drawImage
  rw [hck]
  simp only [determineWcs, positiveScale, if_neg (not_le.mpr hs), hnb, WCS.profileToImage, WCS.localWCS,
    LocalWCS.profileToImage, if_neg hs.ne', convolvePixel, hfs]
  obtain ⟨off, hoff⟩ : ∃ off, off = adjustOffset (boundsFrom1 nx ny)
    (({ nx := some nx, ny := some ny, scale := some s, method := .phot } : DrawArgs).place 0) := ⟨_, rfl⟩
  rw [← hoff]
  unfold drawFinish
  rw [hst]
  simp only [hc, hb0, Bool.false_eq_true, if_false]
  unfold drawStep
  rw [if_pos rfl]
  obtain ⟨p, hp⟩ : ∃ p, p = mkTransform o ⟨1 / s, 0, 0, 1 / s⟩ (off.x, off.y) (s ^ 2 * 1) := ⟨_, rfl⟩
  rw [← hp]
  have hpf : ∃ eta, p.fluxPerPhoton = some eta := by
    unfold Prof.fluxPerPhoton
    rw [if_neg]
    · exact ⟨_, rfl⟩
    have h1 := posneg_mk o ⟨1 / s, 0, 0, 1 / s⟩ (off.x, off.y) (s ^ 2 * 1)
    have h2 : |(⟨1 / s, 0, 0, 1 / s⟩ : Mat2).det| * (s ^ 2 * 1) = 1 := by
      have : (⟨1 / s, 0, 0, 1 / s⟩ : Mat2).det = 1 / s ^ 2 := by unfold Mat2.det; field_simp; ring
      rw [this, abs_of_pos (by positivity)]
      field_simp
    rw [h2, one_mul, one_mul, ← hp] at h1
    unfold Prof.positiveFlux Prof.negativeFlux at ho ⊢
    rw [h1]
    exact ho.ne'
  obtain ⟨eta, heta⟩ := hpf
  obtain ⟨k, hk, hcount, -⟩ := C83_requested { nPhotons := some n } p r.pd n eta rfl hn (by simp) heta
  obtain ⟨sh, hsh, hfull⟩ := hr p k
  obtain ⟨arr, added, hd, -⟩ := C83_pixels_partial { nPhotons := some n } r p
    { setupImg none (boundsFrom1 nx ny) (.loc (.pix s)) with bounds := b0, wcs := some (.loc (.pix 1)) } false 1 rfl hdef
    (by norm_num) k hk 1 hcount k rfl rfl hk sh hsh hfull
  simp only [Option.map_none] at hd ⊢
  rw [hd]
  exact ⟨_, rfl⟩

/-! ### An example -/

/-- The unit box of unit flux. -/
noncomputable def exBoxProf (gs : GSP) : Prof := .leaf (Elt.Elem.leaf (.box ⟨1, 1, 1, gs⟩))

/-- The square covered by the box. -/
def exSquare : Set (ℝ × ℝ) := Set.Ioo (-1 / 2) (1 / 2) ×ˢ Set.Ioo (-1 / 2) (1 / 2)

/-- Arrays of `n` photons at the place `ω`. -/
noncomputable def exShots (ω : ℝ × ℝ) (n : ℕ) : ℕ → PhotonArray (photNtot none n) :=
  fun _ => ⟨fun _ => ⟨ω.1, ω.2, 1 / n, false, none, none, none, none, none, none⟩, false⟩

noncomputable def exRandom (ω : ℝ × ℝ) : PhotRandom none := ⟨0, fun _ n => some (exShots ω n)⟩

example (gs : GSP) (n : ℕ) (hn : 0 < n) : IsProbabilityMeasure (volume.restrict exSquare) ∧
    Elt.Bright Elt.PhotonLeaf (exBoxProf gs) (Elt.Box.xValue ⟨1, 1, 1, gs⟩) ∧ Elt.Weighted (exBoxProf gs) ∧
    Shoots (volume.restrict exSquare) exRandom (exBoxProf gs) n (fun ω => exShots ω n) := by
  have hms : MeasurableSet exSquare := measurableSet_Ioo.prod measurableSet_Ioo
  have hvol : volume exSquare = 1 := by
    unfold exSquare
    rw [Measure.volume_eq_prod, Measure.prod_prod, Real.volume_Ioo]
    norm_num
  have hbr : Elt.Bright Elt.PhotonLeaf (exBoxProf gs) (Elt.Box.xValue ⟨1, 1, 1, gs⟩) :=
    .leaf (.box (by norm_num) (by norm_num))
  have hval : ∀ x, Elt.Box.xValue ⟨1, 1, 1, gs⟩ x = exSquare.indicator (fun _ => 1) x := by
    intro x
    have h : x ∈ exSquare ↔ 2 * |x.1| < 1 ∧ 2 * |x.2| < 1 := by
      simp only [exSquare, Set.mem_prod, Set.mem_Ioo]
      constructor
      · rintro ⟨⟨h1, h2⟩, h3, h4⟩
        exact ⟨by have := abs_lt.mpr ⟨by linarith, h2⟩; linarith, by have := abs_lt.mpr ⟨by linarith, h4⟩; linarith⟩
      · rintro ⟨h1, h2⟩
        have h1 := abs_lt.mp (show |x.1| < 1 / 2 by linarith)
        have h2 := abs_lt.mp (show |x.2| < 1 / 2 by linarith)
        exact ⟨⟨by linarith, h1.2⟩, by linarith, h2.2⟩
    unfold Elt.Box.xValue
    by_cases hx : x ∈ exSquare
    · rw [Set.indicator_of_mem hx, if_pos (h.mp hx).1, if_pos (h.mp hx).2]; norm_num
    · rw [Set.indicator_of_notMem hx]
      rw [h, not_and_or] at hx
      rcases hx with hx | hx
      · rw [if_neg hx]
      · simp only [if_neg hx, ite_self]
  have hprob : IsProbabilityMeasure (volume.restrict exSquare) := ⟨by rw [Measure.restrict_apply_univ, hvol]⟩
  refine ⟨hprob, hbr, .leaf, fun _ => rfl, fun _ _ _ => rfl, ?_, ?_⟩
  · intro k i pix hpix
    have hn' : (n : ℝ) ≠ 0 := by positivity
    simp only [exShots, one_div, inv_mul_cancel₀ hn']
    exact (integrable_const (1 : ℝ)).indicator hpix
  · intro k i pix hpix
    have hn' : (n : ℝ) ≠ 0 := by positivity
    rw [Elt.C79_pixel _ _ hbr .leaf pix hpix]
    simp only [exShots, one_div, inv_mul_cancel₀ hn', hval]
    rw [integral_indicator hpix, integral_indicator hms, Measure.restrict_restrict hpix, Measure.restrict_restrict hms,
      Set.inter_comm]

example (ω : ℝ × ℝ) (p : Prof) (N : ℕ) : ∃ sh, (exRandom ω).shoot p N = some sh ∧ FullShots sh :=
  ⟨exShots ω N, rfl, fun _ _ => rfl⟩

end JG
