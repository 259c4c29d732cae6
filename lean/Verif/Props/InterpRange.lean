import Verif.Model.InterpRange
import Verif.Props.InterpWorldK

/-!
Property C90: the ranges in Fourier space that an `InterpolatedImage` finds from its pixels.
-/

namespace JG.Interp

open JG.Fft

/-! ### Specification -/

/-- `r` is the first of the numbers up to `n` from where on five numbers in a row (as far as they are below `n`) do not have
the property `L`. -/
def FirstQuiet (L : ℕ → Prop) (n r : ℕ) : Prop :=
  r ≤ n ∧ (∀ s, r ≤ s → s < r + 5 → s < n → ¬ L s) ∧ ∀ q < r, ∃ s, q ≤ s ∧ s < q + 5 ∧ s < n ∧ L s

/-- Whether a mode of the light with the larger index `s` is larger than the threshold `t`; `dk` is the spacing of the modes. -/
def Loud (m : CMap) (dk t : ℝ) (s : ℕ) : Prop :=
  ∃ a b : ℤ, max a.natAbs b.natAbs = s ∧ t < ‖pixelWave m (0, 0) (a * dk, b * dk)‖

/-- The light of the pixels whose centres lie within `R` of the pixel `c` in both coordinates. -/
noncomputable def squareLight (m : CMap) (c : ℤ × ℤ) (R : ℝ) : ℝ :=
  open Classical in
  pixelSum m fun p => if |(p.1 : ℝ) - c.1| ≤ R ∧ |(p.2 : ℝ) - c.2| ≤ R then 1 else 0

/-- The central pixel of an image; for an even size the one above the middle. -/
def midPixel (b : Bounds ℤ) : ℤ × ℤ := (b.xmin + b.deltax / 2, b.ymin + b.deltay / 2)

/-! ### The scan of an array -/

/-- The same for an array whose row `c` has `ky = 0`. -/
def ArrLoud (z : Arr ℂ) (c : ℕ) (t : ℝ) (s : ℕ) : Prop :=
  ∃ j i : ℕ, j < z.h ∧ i < z.w ∧ |t| < ‖z.at' j i‖ ∧ max i ((j : ℤ) - c).natAbs = s

theorem FirstQuiet.unique {L : ℕ → Prop} {n r r' : ℕ} (h : FirstQuiet L n r) (h' : FirstQuiet L n r') : r = r' := by
  rcases lt_trichotomy r r' with c | c | c
  · obtain ⟨s, h1, h2, h3, h4⟩ := h'.2.2 r c
    exact absurd h4 (h.2.1 s h1 h2 h3)
  · exact c
  · obtain ⟨s, h1, h2, h3, h4⟩ := h.2.2 r' c
    exact absurd h4 (h'.2.1 s h1 h2 h3)

theorem conv5_zero (n : ℕ) (d : ℕ → ℤ) (hd : ∀ s, 0 ≤ d s) (i : ℕ) :
    conv5 n d (i + 4) = 0 ↔ ∀ s, i ≤ s → s < i + 5 → s < n → d s = 0 := by
  unfold conv5
  rw [Finset.sum_eq_zero_iff_of_nonneg (fun k _ => by split_ifs <;> simp [hd])]
  constructor
  · intro h s h1 h2 h3
    have := h (i + 4 - s) (by rw [Finset.mem_range]; omega)
    rw [if_pos ⟨by omega, by omega⟩, show i + 4 - (i + 4 - s) = s by omega, mul_one] at this
    exact this
  · intro h k hk
    rw [Finset.mem_range] at hk
    split_ifs with c
    · rw [h (i + 4 - k) (by omega) (by omega) c.2, zero_mul]
    · rfl

theorem val_gt (z : ℂ) (t : ℝ) : (z * (starRingEnd ℂ) z).re > t * t ↔ |t| < ‖z‖ := by
  rw [Complex.mul_conj, Complex.ofReal_re, Complex.normSq_eq_norm_sq, gt_iff_lt, ← pow_two, sq_lt_sq, abs_of_nonneg (norm_nonneg z)]

theorem count_ring (z : Arr ℂ) (c : ℕ) (t dk : ℝ) (hdk : 0 < dk) (s : ℕ) (hs : s ≠ 0) :
    let f (i : ℕ) := scanCount z t (fun i => ((i : ℝ) + 0) * dk) (fun j => ((j : ℝ) + (-(c : ℤ) : ℤ)) * dk) (((i : ℝ) + 0) * dk)
    f (s - 1) ≤ f s ∧ (f s = f (s - 1) ↔ ¬ ArrLoud z c t s) := by
  classical
  intro f
  have hx : ∀ (i r : ℕ), |((i : ℝ) + 0) * dk| ≤ ((r : ℝ) + 0) * dk ↔ i ≤ r := by
    intro i r
    rw [add_zero, add_zero, abs_of_nonneg (by positivity), mul_le_mul_iff_of_pos_right hdk]
    exact_mod_cast Iff.rfl
  have hy : ∀ (j r : ℕ), |((j : ℝ) + (-(c : ℤ) : ℤ)) * dk| ≤ ((r : ℝ) + 0) * dk ↔ ((j : ℤ) - c).natAbs ≤ r := by
    intro j r
    rw [add_zero, abs_mul, abs_of_pos hdk, mul_le_mul_iff_of_pos_right hdk,
      show (j : ℝ) + (-(c : ℤ) : ℤ) = (((j : ℤ) - c : ℤ) : ℝ) by push_cast; ring, ← Int.cast_abs]
    rw [show ((r : ℕ) : ℝ) = (((r : ℕ) : ℤ) : ℝ) by simp, Int.cast_le]
    rw [Int.abs_eq_natAbs]
    omega
  have e : ∀ r, f r = ((Finset.range z.h ×ˢ Finset.range z.w).filter fun p : ℕ × ℕ =>
      |t| < ‖z.at' p.1 p.2‖ ∧ max p.2 ((p.1 : ℤ) - c).natAbs ≤ r).card := by
    intro r
    simp only [f, scanCount]
    congr 1
    ext p
    simp only [Finset.mem_filter, val_gt, hx, hy, max_le_iff]
  have hsub : ((Finset.range z.h ×ˢ Finset.range z.w).filter fun p : ℕ × ℕ =>
      |t| < ‖z.at' p.1 p.2‖ ∧ max p.2 ((p.1 : ℤ) - c).natAbs ≤ s - 1) ⊆
      ((Finset.range z.h ×ˢ Finset.range z.w).filter fun p : ℕ × ℕ =>
      |t| < ‖z.at' p.1 p.2‖ ∧ max p.2 ((p.1 : ℤ) - c).natAbs ≤ s) := by
    intro p hp
    simp only [Finset.mem_filter] at hp ⊢
    exact ⟨hp.1, hp.2.1, by omega⟩
  rw [e, e]
  refine ⟨Finset.card_le_card hsub, ?_⟩
  constructor
  · rintro h ⟨j, i, hj, hi, h1, h2⟩
    have := Finset.eq_of_subset_of_card_le hsub h.le
    have hm : (j, i) ∈ ((Finset.range z.h ×ˢ Finset.range z.w).filter fun p : ℕ × ℕ =>
      |t| < ‖z.at' p.1 p.2‖ ∧ max p.2 ((p.1 : ℤ) - c).natAbs ≤ s) := by
      simp only [Finset.mem_filter, Finset.mem_product, Finset.mem_range]
      exact ⟨⟨hj, hi⟩, h1, h2.le⟩
    rw [← this] at hm
    simp only [Finset.mem_filter] at hm
    omega
  · intro h
    congr 1
    refine Finset.Subset.antisymm ?_ hsub
    intro p hp
    simp only [Finset.mem_filter, Finset.mem_product, Finset.mem_range] at hp ⊢
    refine ⟨hp.1, hp.2.1, ?_⟩
    by_contra hc
    exact h ⟨p.1, p.2, hp.1.1, hp.1.2, hp.2.1, by omega⟩

theorem scan_eq (z : Arr ℂ) (c : ℕ) (t dk : ℝ) (hdk : 0 < dk) (hw : 1 < z.w) :
    ∃ r, FirstQuiet (fun s => s ≠ 0 ∧ ArrLoud z c t s) z.w r ∧
      findMaxkScan z t (fun i => ((i : ℝ) + 0) * dk) (fun j => ((j : ℝ) + (-(c : ℤ) : ℤ)) * dk) = r * dk := by
  classical
  obtain ⟨f, hf⟩ : ∃ f : ℕ → ℕ, f = fun i : ℕ =>
    scanCount z t (fun i => ((i : ℝ) + 0) * dk) (fun j => ((j : ℝ) + (-(c : ℤ) : ℤ)) * dk) (((i : ℝ) + 0) * dk) := ⟨_, rfl⟩
  have hr := fun s hs => count_ring z c t dk hdk s hs
  have hd0 : ∀ s, 0 ≤ deltaMsk f s := by
    intro s
    unfold deltaMsk
    split_ifs with h
    · exact le_rfl
    · have := (hr s h).1
      rw [hf]
      simp only at this ⊢
      omega
  have hdz : ∀ s, deltaMsk f s = 0 ↔ ¬ (s ≠ 0 ∧ ArrLoud z c t s) := by
    intro s
    unfold deltaMsk
    split_ifs with h
    · simp [h]
    · have := (hr s h).2
      rw [not_and, hf]
      simp only at this ⊢
      constructor
      · intro q _
        exact this.mp (by omega)
      · intro q
        have := this.mpr (q h)
        omega
  have hq : ∀ i, conv5 z.w (deltaMsk f) (i + 4) = 0 ↔ ∀ s, i ≤ s → s < i + 5 → s < z.w → ¬ (s ≠ 0 ∧ ArrLoud z c t s) := by
    intro i
    rw [conv5_zero _ _ hd0]
    simp only [hdz]
  have hnq : ∀ i, conv5 z.w (deltaMsk f) (i + 4) ≠ 0 → ∃ s, i ≤ s ∧ s < i + 5 ∧ s < z.w ∧ (s ≠ 0 ∧ ArrLoud z c t s) := by
    intro i hi
    by_contra hc
    push Not at hc
    exact hi ((hq i).mpr fun s h1 h2 h3 h4 => hc s h1 h2 h3 h4.1 h4.2)
  have e : findMaxkScan z t (fun i => ((i : ℝ) + 0) * dk) (fun j => ((j : ℝ) + (-(c : ℤ) : ℤ)) * dk) =
      if ∃ i < z.w, conv5 z.w (deltaMsk f) (i + 4) = 0 then
        ((argminUpTo (fun i => if conv5 z.w (deltaMsk f) (i + 4) = 0 then (0 : ℕ) else 1) (z.w - 1) : ℝ) + 0) * dk + 0
      else (((z.w - 1 : ℕ) : ℝ) + 0) * dk + ((((z.w - 1 : ℕ) : ℝ) + 0) * dk - (((z.w - 2 : ℕ) : ℝ) + 0) * dk) := by
    rw [hf]
    rfl
  rw [e]
  by_cases h : ∃ i < z.w, conv5 z.w (deltaMsk f) (i + 4) = 0
  · rw [if_pos h]
    obtain ⟨a1, a2, a3⟩ := argminUpTo_spec (fun i => if conv5 z.w (deltaMsk f) (i + 4) = 0 then (0 : ℕ) else 1) (z.w - 1)
    generalize argminUpTo (fun i => if conv5 z.w (deltaMsk f) (i + 4) = 0 then (0 : ℕ) else 1) (z.w - 1) = r at *
    obtain ⟨i, hi, hz⟩ := h
    have hr0 : conv5 z.w (deltaMsk f) (r + 4) = 0 := by
      have := a2 i (by omega)
      simp only [hz, if_true] at this
      by_contra hc
      rw [if_neg hc] at this
      omega
    refine ⟨r, ⟨by omega, (hq r).mp hr0, ?_⟩, by ring⟩
    intro q hqr
    refine hnq q fun hc => ?_
    have := a3 q hqr
    simp only [hc, hr0, if_true] at this
    omega
  · rw [if_neg h]
    push Not at h
    refine ⟨z.w, ⟨le_rfl, fun s h1 _ h3 => absurd h3 (by omega), fun q hq => hnq q (h q hq)⟩, ?_⟩
    rw [Nat.cast_sub (by omega), Nat.cast_sub (by omega)]
    push_cast
    ring

/-! ### The modes of the light -/

theorem pixelWave_neg (m : CMap) (w : ℝ × ℝ) : ‖pixelWave m (0, 0) (-w.1, -w.2)‖ = ‖pixelWave m (0, 0) w‖ := by
  have : pixelWave m (0, 0) (-w.1, -w.2) = (starRingEnd ℂ) (pixelWave m (0, 0) w) := by
    apply Complex.ext
    · rw [Complex.conj_re]
      simp only [pixelWave]
      congr 1
      funext p
      rw [← Real.cos_neg]
      congr 1
      ring
    · rw [Complex.conj_im]
      simp only [pixelWave, neg_neg]
      rw [pixelSum, pixelSum, ← finsum_neg_distrib]
      congr 1
      funext p
      rw [← neg_mul, ← Real.sin_neg]
      congr 2
      ring
  rw [this, Complex.norm_conj]

theorem pixelWave_shift {m : CMap} (hm : FinMap m) (c w : ℝ × ℝ) : ‖pixelWave m c w‖ = ‖pixelWave m (0, 0) w‖ := by
  have : pixelWave m c w = Complex.exp (((w.1 * c.1 + w.2 * c.2 : ℝ) : ℂ) * Complex.I) * pixelWave m (0, 0) w := by
    rw [pixelWave_eq hm, pixelWave_eq hm, Finset.mul_sum]
    refine Finset.sum_congr rfl fun p _ => ?_
    rw [mul_left_comm, ← Complex.exp_add]
    congr 2
    push_cast
    ring
  rw [this, norm_mul, Complex.norm_exp_ofReal_mul_I, one_mul]

theorem pixelWave_period (m : CMap) (w : ℝ × ℝ) : pixelWave m (0, 0) (w.1, w.2 - 2 * Real.pi) = pixelWave m (0, 0) w := by
  have e : ∀ p : ℤ × ℤ, w.1 * (p.1 - (0, (0:ℝ)).1) + (w.2 - 2 * Real.pi) * (p.2 - (0, (0:ℝ)).2) =
      w.1 * (p.1 - (0, (0:ℝ)).1) + w.2 * (p.2 - (0, (0:ℝ)).2) - p.2 * (2 * Real.pi) := by
    intro p; simp only; ring
  simp only [pixelWave]
  congr 1
  · congr 1
    funext p
    rw [← Real.cos_sub_int_mul_two_pi (w.1 * (p.1 - 0) + w.2 * (p.2 - 0)) p.2]
    congr 1
    ring
  · congr 2
    funext p
    rw [← Real.sin_sub_int_mul_two_pi (w.1 * (p.1 - 0) + w.2 * (p.2 - 0)) p.2]
    congr 1
    ring

/-- The transform array of an object and the modes of its light. -/
theorem kim_modes {o : II} (h : o.Good) : ∃ (m : ℕ) (dk : ℝ) (r : Image) (z : Arr ℂ), 0 < m ∧ m * dk = Real.pi ∧ 0 < dk ∧
    o.args.padFactor * max (o.args.im.bounds.deltax : ℝ) o.args.im.bounds.deltay ≤ 2 * m + 1 ∧
    o.xim = .ok r ∧ calculateFft r 1 = .ok (z, dk) ∧ fftNo2 r.bounds = m ∧ z.h = 2 * m ∧ z.w = m + 1 ∧
    ∀ j i : ℕ, j < 2 * m → i ≤ m → ‖z.at' j i‖ = ‖pixelWave (coordMap o.args.im) (0, 0) (i * dk, ((j:ℤ) - m : ℤ) * dk)‖ := by
  obtain ⟨r, r1, r2, r3, -⟩ := xim_ok h
  have hr := r1
  rw [II.xim, image_eq h] at hr
  simp only [Except.bind] at hr
  have hr' : Interp.xim o.args.padFactor (workImage true o.args.im) = .ok r := by
    cases hq : Interp.xim o.args.padFactor (workImage true o.args.im) with
    | error e => rw [hq] at hr; cases hr
    | ok q => rw [hq] at hr; rw [Except.ok.inj hr]
  obtain ⟨r', q1, -, -, -, -, -, -, q8⟩ := C56_padding_partial o.args.padFactor _ (Good.live h) h.small h.small'
  have e : workImage true { o.args.im with isConst := some false } = workImage true o.args.im := rfl
  rw [e, hr'] at q1
  have := Except.ok.inj q1
  subst this
  obtain ⟨d, d1, d2, d3⟩ := offset_ok h
  obtain ⟨m, z, dk, hm, hno, hz, zh, zw, hdk, hv⟩ := C72_forward r r3 (xim_isInt hr') 1 one_pos
  have hm0 : (0:ℝ) < m := by exact_mod_cast hm
  have hdk0 : 0 < dk := by
    by_contra hc
    nlinarith [Real.pi_pos]
  refine ⟨m, dk, r, z, hm, by linarith, hdk0, ?_, r1, hz, hno.symm, zh, zw, ?_⟩
  · have c := fftNo2_cover r3
    have hl := Good.live h
    have e1 := hl.h
    have e2 := hl.w
    simp only at e1 e2
    have q9 : ((max (o.args.im.arr.h : ℤ) o.args.im.arr.w : ℤ) : ℝ) = max (o.args.im.bounds.deltax : ℝ) o.args.im.bounds.deltay := by
      rw [e1, e2, max_comm]; push_cast; rfl
    simp only at q8
    rw [q9] at q8
    have q10 : ((max r.bounds.deltax r.bounds.deltay : ℤ) : ℝ) ≤ 2 * m := by
      rw [← hno] at c
      exact_mod_cast max_le c.2.1 c.2.2
    linarith
  · intro j i hj hi
    obtain ⟨w, hw⟩ : ∃ w : ℝ × ℝ, w = (i * dk, ((j:ℤ) - m : ℤ) * dk) := ⟨_, rfl⟩
    rw [hv j i hj hi, ← hw, ← pixelWave_shift (finMap_coordMap o.args.im) o.ref]
    have : pixelWave (coordMap o.args.im) o.ref w = pixelWave (coordMap r) (d.x, d.y) w := by
      unfold pixelWave
      simp only [padded_sum r2, work_sum h]
      rw [← d2, ← d3]
      congr 2
      · funext p; congr 1; push_cast; ring
      · congr 2
        funext p; congr 1; push_cast; ring
    rw [this, pixelWave_shift (finMap_coordMap r), pixelWave_rect, one_pow, Complex.ofReal_one, one_mul, ftSum]
    congr 1
    refine Finset.sum_congr rfl fun y _ => Finset.sum_congr rfl fun x _ => ?_
    rw [hw]
    congr 2
    push_cast
    ring

theorem arrLoud_iff {o : II} {m : ℕ} {dk : ℝ} {z : Arr ℂ} (hpi : m * dk = Real.pi) (hm : 0 < m) (zh : z.h = 2 * m) (zw : z.w = m + 1)
    (hv : ∀ j i : ℕ, j < 2 * m → i ≤ m → ‖z.at' j i‖ = ‖pixelWave (coordMap o.args.im) (0, 0) (i * dk, ((j:ℤ) - m : ℤ) * dk)‖)
    (t : ℝ) (s : ℕ) (hs : s < m + 1) : ArrLoud z m t s ↔ Loud (coordMap o.args.im) dk |t| s := by
  constructor
  · rintro ⟨j, i, hj, hi, h1, h2⟩
    rw [hv j i (by omega) (by omega)] at h1
    exact ⟨i, (j:ℤ) - m, by simpa using h2, by simpa using h1⟩
  · rintro ⟨a, b, h1, h2⟩
    have key : ∀ a b : ℤ, 0 ≤ a → b < m → max a.natAbs b.natAbs = s →
        |t| < ‖pixelWave (coordMap o.args.im) (0, 0) (a * dk, b * dk)‖ → ArrLoud z m t s := by
      intro a b ha hb h1 h2
      refine ⟨(b + m).toNat, a.toNat, by omega, by omega, ?_, by omega⟩
      rw [hv _ _ (by omega) (by omega)]
      have e1 : ((a.toNat : ℕ) : ℝ) = a := by
        rw [← Int.cast_natCast, Int.toNat_of_nonneg ha]
      have e2 : (((b + m).toNat : ℕ) : ℤ) - m = b := by omega
      rw [e1, e2]
      exact h2
    have key2 : ∀ a b : ℤ, 0 ≤ a → max a.natAbs b.natAbs = s →
        |t| < ‖pixelWave (coordMap o.args.im) (0, 0) (a * dk, b * dk)‖ → ArrLoud z m t s := by
      intro a b ha h1 h2
      by_cases hb : b < m
      · exact key a b ha hb h1 h2
      · have hb' : b = m := by omega
        refine key a (-m) ha (by omega) (by omega) ?_
        rw [← pixelWave_period, hb'] at h2
        convert h2 using 5
        push_cast
        linarith
    by_cases ha : 0 ≤ a
    · exact key2 a b ha h1 h2
    · refine key2 (-a) (-b) (by omega) (by omega) ?_
      rw [← pixelWave_neg] at h2
      convert h2 using 5 <;> (push_cast; ring)

theorem FirstQuiet.congr {L L' : ℕ → Prop} {n r : ℕ} (h : FirstQuiet L n r) (e : ∀ s < n, L s ↔ L' s) : FirstQuiet L' n r :=
  ⟨h.1, fun s h1 h2 h3 h4 => h.2.1 s h1 h2 h3 ((e s h3).mpr h4), fun q hq => by
    obtain ⟨s, h1, h2, h3, h4⟩ := h.2.2 q hq
    exact ⟨s, h1, h2, h3, (e s h3).mp h4⟩⟩

/-! ### C90 -/

/-- C90: the largest wave number found from the pixels is that of the first ring of modes of the light, the ring of the mode
zero left out, from where on five rings in a row hold no mode above the threshold times the light; it is limited by the range
of the kernel, or by the number given instead.  Without a calculation it is the range of the kernel. -/
theorem C90_maxk (ur th : ℝ) (o : II) (h : o.Good) :
    ∃ (m : ℕ) (dk : ℝ) (r : ℕ), 0 < m ∧ o.xim.map (fun x => fftNo2 x.bounds) = .ok (m : ℤ) ∧ m * dk = Real.pi ∧
      o.args.padFactor * max (o.args.im.bounds.deltax : ℝ) o.args.im.bounds.deltay ≤ 2 * m + 1 ∧
      FirstQuiet (fun s => s ≠ 0 ∧ Loud (coordMap o.args.im) dk |th * light (coordMap o.args.im)| s) (m + 1) r ∧
      o.innerMaxk ur th .on = .ok (min (r * dk) (2 * Real.pi * ur)) ∧
      (∀ v, o.innerMaxk ur th (.bound v) = .ok (min (r * dk) v)) ∧
      o.innerMaxk ur th .off = .ok (2 * Real.pi * ur) := by
  obtain ⟨m, dk, x, z, hm, hpi, hdk, hpad, hx, hz, hno, zh, zw, hv⟩ := kim_modes h
  obtain ⟨r, hq, hr⟩ := scan_eq z m (th * light (coordMap o.args.im)) dk hdk (by omega)
  have hb : ∀ v, o.innerMaxk ur th (.bound v) = .ok (min (r * dk) v) := by
    intro v
    simp only [II.innerMaxk, hx, Except.bind, hz, Except.mapError, imageFlux_ok h, Except.map, findMaxk, hno]
    rw [hr]
  refine ⟨m, dk, r, hm, by rw [hx, ← hno]; rfl, hpi, hpad, ?_, ?_, hb, rfl⟩
  · rw [zw] at hq
    exact hq.congr fun s hs => and_congr_right fun _ => arrLoud_iff hpi hm zh zw hv _ s hs
  · have e : o.innerMaxk ur th .on = o.innerMaxk ur th (.bound (ur / (1 / (2 * Real.pi)))) := rfl
    rw [e, hb]
    congr 2
    rw [div_div_eq_mul_div, div_one, mul_comm]

/-- C90: a largest wave number `K` that is not cut off by the limit has no mode of the light above the threshold in the five
rings from `K` on.  Missing for the full claim: modes beyond the fifth ring can be above the threshold, the mode zero is not
looked at (`C90_counterexample_origin`), and the limit is applied whatever the light. -/
theorem C90_quiet_partial (ur th K : ℝ) (o : II) (h : o.Good) (hK : o.innerMaxk ur th .on = .ok K) (hl : K < 2 * Real.pi * ur) :
    ∃ (m : ℕ) (dk : ℝ), 0 < m ∧ m * dk = Real.pi ∧ 0 ≤ K ∧ K ≤ Real.pi + dk ∧
      ∀ a b : ℤ, |a| ≤ m → |b| ≤ m → (a, b) ≠ (0, 0) → K ≤ max |a * dk| |b * dk| → max |a * dk| |b * dk| < K + 5 * dk →
        ‖pixelWave (coordMap o.args.im) (0, 0) (a * dk, b * dk)‖ ≤ |th * light (coordMap o.args.im)| := by
  obtain ⟨m, dk, r, hm, -, hpi, -, hq, hon, -, -⟩ := C90_maxk ur th o h
  have hm0 : (0:ℝ) < m := by exact_mod_cast hm
  have hdk : 0 < dk := by
    by_contra hc
    nlinarith [Real.pi_pos]
  have hKr : K = r * dk := by
    rw [hK] at hon
    have := Except.ok.inj hon
    rcases min_choice ((r:ℝ) * dk) (2 * Real.pi * ur) with c | c
    · rw [this, c]
    · rw [c] at this; linarith
  refine ⟨m, dk, hm, hpi, by rw [hKr]; positivity, ?_, ?_⟩
  · rw [hKr, ← hpi]
    have : (r:ℝ) ≤ m + 1 := by exact_mod_cast hq.1
    nlinarith
  · intro a b ha hb hab h1 h2
    by_contra hc
    rw [not_le] at hc
    have e : max |(a:ℝ) * dk| |(b:ℝ) * dk| = ((max a.natAbs b.natAbs : ℕ) : ℝ) * dk := by
      rw [abs_mul, abs_mul, abs_of_pos hdk, ← max_mul_of_nonneg _ _ hdk.le, Nat.cast_max, Nat.cast_natAbs, Nat.cast_natAbs]
      push_cast
      rfl
    rw [e, hKr] at h1 h2
    have h1' : r ≤ max a.natAbs b.natAbs := by
      have := (mul_le_mul_iff_of_pos_right hdk).mp h1
      exact_mod_cast this
    have h2' : max a.natAbs b.natAbs < r + 5 := by
      rw [← add_mul] at h2
      have := (mul_lt_mul_iff_of_pos_right hdk).mp h2
      exact_mod_cast this
    rw [abs_le] at ha hb
    refine hq.2.1 _ h1' h2' (by omega) ⟨?_, a, b, rfl, hc⟩
    intro h0
    exact hab (by rw [Prod.mk.injEq]; omega)

theorem padImage_box {o : II} (h : o.Good) : ∃ (s : Image) (c : Pos ℤ), o.padImage = .ok s ∧ s.bounds.centerI = some c ∧
    (s.arr.w : ℤ) = o.args.im.bounds.deltax ∧ (s.arr.h : ℤ) = o.args.im.bounds.deltay ∧
    ∀ R, boxFlux s.arr (c.x - s.bounds.xmin) (c.y - s.bounds.ymin) R =
      squareLight (coordMap o.args.im) (midPixel o.args.im.bounds) R := by
  obtain ⟨r, h1, h2, h3, h4⟩ := xim_ok h
  obtain ⟨w1, w2, w3, w4, w5, w6⟩ := work h
  obtain ⟨s', t1, t2, t3, t4⟩ := padImage_ok h
  obtain ⟨s, s1, s2, s3, s4, -, s6⟩ := C21_subImage r h3.shape _ w1.ok h4
  have e1 : o.padImage = .ok s := by
    rw [II.padImage, image_eq h, h1]
    simp only [Except.bind, s1, Except.mapError]
  rw [e1] at t1
  obtain rfl := Except.ok.inj t1
  have hb : s.bounds.xmin = (workImage true o.args.im).bounds.xmin ∧ s.bounds.deltax = (workImage true o.args.im).bounds.deltax ∧
      s.bounds.ymin = (workImage true o.args.im).bounds.ymin ∧ s.bounds.deltay = (workImage true o.args.im).bounds.deltay := by
    simpa [Bounds.eq, Bounds.initargs, t2, w1.defd, clsI] using s2
  obtain ⟨b1, b2, b3, b4⟩ := hb
  refine ⟨s, ⟨s.bounds.xmin + s.bounds.deltax / 2, s.bounds.ymin + s.bounds.deltay / 2⟩, e1, ?_, ?_, ?_, ?_⟩
  · rw [Bounds.centerI, t2]; rfl
  · have := t3 t2
    simp only [Bounds.numpyShape, t2, if_true, Prod.mk.injEq] at this
    omega
  · have := t3 t2
    simp only [Bounds.numpyShape, t2, if_true, Prod.mk.injEq] at this
    omega
  · intro R
    classical
    simp only
    have := gridSum_pixelSum s t2 t3 fun p : ℤ × ℤ =>
      if |((p.1 : ℤ) : ℝ)| ≤ R ∧ |((p.2 : ℤ) : ℝ)| ≤ R then 1 else 0
    rw [t4, work_sum h] at this
    have e2 : squareLight (coordMap o.args.im) (midPixel o.args.im.bounds) R =
      pixelSum (coordMap o.args.im) fun p => (fun p : ℤ × ℤ => if |((p.1 : ℤ) : ℝ)| ≤ R ∧ |((p.2 : ℤ) : ℝ)| ≤ R then (1:ℝ) else 0)
        (p.1 - o.args.im.bounds.xmin - o.args.im.bounds.deltax / 2, p.2 - o.args.im.bounds.ymin - o.args.im.bounds.deltay / 2) := by
      unfold squareLight midPixel
      congr 1
      funext p
      simp only
      congr 1
      push_cast
      rw [sub_add_eq_sub_sub, sub_add_eq_sub_sub]
    rw [e2, ← this]
    unfold boxFlux gridSum
    refine Finset.sum_congr rfl fun i _ => Finset.sum_congr rfl fun j _ => ?_
    rw [b1, b2, b3, b4, w3, w4, w5, w6]
    simp only [ite_mul, one_mul, zero_mul]
    congr 1
    push_cast
    rw [show -((o.args.im.bounds.deltax / 2 : ℤ) : ℝ) + j = j - ((o.args.im.bounds.deltax / 2 : ℤ) : ℝ) by ring,
      show -((o.args.im.bounds.deltay / 2 : ℤ) : ℝ) + i = i - ((o.args.im.bounds.deltay / 2 : ℤ) : ℝ) by ring]
    simp

/-- C90: `π / stepk` combines the radius of the kernel with a radius that holds all of the light but the folding threshold: it
is a half-integer, the square of that radius around the central pixel holds that much of the light, and no square smaller by a
half does.  Missing for the full claim: images more than twice as wide as high, where no square inside the range may hold the light
(`C57_counterexample_unreached`). -/
theorem C90_stepk_partial (ft : ℝ) (o : II) (h : o.Good) (d : ℕ)
    (hd : (d : ℤ) < min o.args.im.bounds.deltax o.args.im.bounds.deltay)
    (hr : Reaches ((1 - ft) * light (coordMap o.args.im)) (squareLight (coordMap o.args.im) (midPixel o.args.im.bounds) (d + 0.5))) :
    ∃ (r : ℕ) (S : ℝ), o.innerStepk ft true = .ok S ∧ 0 < S ∧ (Real.pi / S) ^ 2 = (r + 0.5) ^ 2 + o.args.kernel.xrange ^ 2 ∧ r ≤ d ∧
      Reaches ((1 - ft) * light (coordMap o.args.im)) (squareLight (coordMap o.args.im) (midPixel o.args.im.bounds) (r + 0.5)) ∧
      ∀ R : ℝ, 0 ≤ R → R < r → ¬ Reaches ((1 - ft) * light (coordMap o.args.im))
        (squareLight (coordMap o.args.im) (midPixel o.args.im.bounds) R) := by
  obtain ⟨s, c, s1, s2, s3, s4, s5⟩ := padImage_box h
  obtain ⟨r, h1, h2, h3, h4⟩ := C57_size_partial s.arr (c.x - s.bounds.xmin) (c.y - s.bounds.ymin) ((1 - ft) * light (coordMap o.args.im)) d
    (by omega) (by rw [s5]; exact hr)
  rw [h1] at h3
  simp only [s5] at h3 h4
  have hp : (0:ℝ) < (r + 0.5) ^ 2 + o.args.kernel.xrange ^ 2 := by positivity
  refine ⟨r, simpleStepk o.args.kernel.xrange (r + 0.5), ?_, ?_, ?_, h2, h3, h4⟩
  · rw [II.innerStepk, s1, imageFlux_ok h]
    simp only [Except.bind, if_true, s2, h1]
  · unfold simpleStepk
    positivity
  · unfold simpleStepk
    rw [div_div_cancel₀ Real.pi_ne_zero, Real.sq_sqrt hp.le]

theorem squareLight_all {im : Image} (R : ℝ) (hx : ((im.bounds.deltax / 2 : ℤ) : ℝ) ≤ R) (hy : ((im.bounds.deltay / 2 : ℤ) : ℝ) ≤ R) :
    squareLight (coordMap im) (midPixel im.bounds) R = light (coordMap im) := by
  classical
  unfold squareLight light pixelSum
  congr 1
  funext p
  by_cases hr : im.bounds.defined = true ∧ inRect im.bounds p.1 p.2
  · beta_reduce
    rw [if_pos]
    obtain ⟨-, hr⟩ := hr
    unfold inRect at hr
    simp only [midPixel, abs_le]
    have q1 : -(im.bounds.deltax / 2) ≤ p.1 - (im.bounds.xmin + im.bounds.deltax / 2) ∧
      p.1 - (im.bounds.xmin + im.bounds.deltax / 2) ≤ im.bounds.deltax / 2 := by omega
    have q2 : -(im.bounds.deltay / 2) ≤ p.2 - (im.bounds.ymin + im.bounds.deltay / 2) ∧
      p.2 - (im.bounds.ymin + im.bounds.deltay / 2) ≤ im.bounds.deltay / 2 := by omega
    have c1 : ((-(im.bounds.deltax / 2) : ℤ) : ℝ) ≤ ((p.1 - (im.bounds.xmin + im.bounds.deltax / 2) : ℤ) : ℝ) := by exact_mod_cast q1.1
    have c2 : ((p.1 - (im.bounds.xmin + im.bounds.deltax / 2) : ℤ) : ℝ) ≤ ((im.bounds.deltax / 2 : ℤ) : ℝ) := by exact_mod_cast q1.2
    have c3 : ((-(im.bounds.deltay / 2) : ℤ) : ℝ) ≤ ((p.2 - (im.bounds.ymin + im.bounds.deltay / 2) : ℤ) : ℝ) := by exact_mod_cast q2.1
    have c4 : ((p.2 - (im.bounds.ymin + im.bounds.deltay / 2) : ℤ) : ℝ) ≤ ((im.bounds.deltay / 2 : ℤ) : ℝ) := by exact_mod_cast q2.2
    rw [Int.cast_sub, Int.cast_neg] at *
    refine ⟨⟨?_, ?_⟩, ?_, ?_⟩ <;> linarith
  · have : coordMap im p.1 p.2 = none := if_neg hr
    simp [this]

/-- C90: an image not quite twice as wide as high, nor twice as high as wide, always has such a radius. -/
theorem C90_stepk_square (ft : ℝ) (hf : 0 ≤ ft) (hf1 : ft ≤ 1) (o : II) (h : o.Good)
    (ha : o.args.im.bounds.deltax / 2 < o.args.im.bounds.deltay) (hb : o.args.im.bounds.deltay / 2 < o.args.im.bounds.deltax) :
    ∃ (r : ℕ) (S : ℝ), o.innerStepk ft true = .ok S ∧ 0 < S ∧ (Real.pi / S) ^ 2 = (r + 0.5) ^ 2 + o.args.kernel.xrange ^ 2 ∧
      (r : ℤ) < min o.args.im.bounds.deltax o.args.im.bounds.deltay ∧
      Reaches ((1 - ft) * light (coordMap o.args.im)) (squareLight (coordMap o.args.im) (midPixel o.args.im.bounds) (r + 0.5)) ∧
      ∀ R : ℝ, 0 ≤ R → R < r → ¬ Reaches ((1 - ft) * light (coordMap o.args.im))
        (squareLight (coordMap o.args.im) (midPixel o.args.im.bounds) R) := by
  have hp := h.ok.1.mp h.defd
  obtain ⟨d, hd⟩ : ∃ d : ℕ, d = (min o.args.im.bounds.deltax o.args.im.bounds.deltay - 1).toNat := ⟨_, rfl⟩
  have hdi : (d : ℤ) = min o.args.im.bounds.deltax o.args.im.bounds.deltay - 1 := by omega
  obtain ⟨r, S, h1, h2, h3, h4, h5, h6⟩ := C90_stepk_partial ft o h d (by omega) (by
    have c1 : ((o.args.im.bounds.deltax / 2 : ℤ) : ℝ) ≤ ((d : ℤ) : ℝ) := by exact_mod_cast (by omega)
    have c2 : ((o.args.im.bounds.deltay / 2 : ℤ) : ℝ) ≤ ((d : ℤ) : ℝ) := by exact_mod_cast (by omega)
    rw [Int.cast_natCast] at c1 c2
    rw [squareLight_all _ (by linarith) (by linarith)]
    have hl := h.light
    rcases eq_or_lt_of_le hf1 with e | e
    · right; right; rw [e]; ring
    · rcases lt_or_gt_of_ne hl with c | c
      · right; left; exact ⟨by nlinarith, by nlinarith⟩
      · left; exact ⟨by nlinarith, by nlinarith⟩)
  exact ⟨r, S, h1, h2, h3, by omega, h5, h6⟩

/-- C90: without the calculation the radius is half of the larger size, less a half. -/
theorem C90_stepk_plain (ft : ℝ) (o : II) (h : o.Good) (hx : 0 < o.args.kernel.xrange) :
    ∃ S : ℝ, o.innerStepk ft false = .ok S ∧ 0 < S ∧
      (Real.pi / S) ^ 2 = ((max (o.args.im.bounds.deltax : ℝ) o.args.im.bounds.deltay - 1) / 2) ^ 2 + o.args.kernel.xrange ^ 2 := by
  obtain ⟨s, c, s1, s2, s3, s4, s5⟩ := padImage_box h
  obtain ⟨R, hR⟩ : ∃ R : ℝ, R = (max s.arr.h s.arr.w : ℕ) / 2 - 0.5 := ⟨_, rfl⟩
  have e : R = (max (o.args.im.bounds.deltax : ℝ) o.args.im.bounds.deltay - 1) / 2 := by
    rw [hR, ← s3, ← s4]
    push_cast
    rw [max_comm]
    ring
  have hp : (0:ℝ) < R ^ 2 + o.args.kernel.xrange ^ 2 := by positivity
  refine ⟨simpleStepk o.args.kernel.xrange R, ?_, ?_, ?_⟩
  · rw [II.innerStepk, s1, imageFlux_ok h]
    simp only [Except.bind, Bool.false_eq_true, if_false]
    rw [hR]
  · unfold simpleStepk
    positivity
  · unfold simpleStepk
    rw [div_div_cancel₀ Real.pi_ne_zero, Real.sq_sqrt hp.le, e]

theorem exOnes_wave (a b : ℤ) : pixelWave (coordMap exOnes) (0, 0) (a * Real.pi, b * Real.pi) =
    (((-1 : ℝ) ^ (a + b) + (-1) ^ (2 * a + b) + (-1) ^ (a + 2 * b) + (-1) ^ (2 * a + 2 * b) : ℝ) : ℂ) := by
  have hg := exOnes_good (.pix 1) one_ne_zero 1 (by norm_num)
  have hd : exOnes.bounds.defined = true := hg.defd
  have hs : exOnes.ShapeOK := hg.shape
  have e : exOnes.bounds.xmin = 1 ∧ exOnes.bounds.ymin = 1 := by simp [exOnes, Bounds.mkDelta, Bounds.finish, clsI]
  have k : ∀ p : ℤ × ℤ, (a * Real.pi, b * Real.pi).1 * (p.1 - ((0:ℝ), (0:ℝ)).1) + (a * Real.pi, b * Real.pi).2 * (p.2 - ((0:ℝ), (0:ℝ)).2) =
      ((a * p.1 + b * p.2 : ℤ) : ℝ) * Real.pi := by
    intro p; push_cast; ring
  apply Complex.ext
  · simp only [pixelWave, k, Real.cos_int_mul_pi, Complex.ofReal_re]
    rw [← gridSum_pixelSum exOnes hd hs, e.1, e.2]
    simp only [gridSum, exOnes, Finset.sum_range_succ, Finset.sum_range_zero, mul_one, zero_add]
    norm_num
    ring_nf
  · simp only [pixelWave, k, Real.sin_int_mul_pi, Complex.ofReal_im]
    simp [pixelSum]

/-- Disagreement: the ring of the mode zero is never counted (`delta_msk` starts with a zero, interpolatedimage.py:1275-1279), so
that an image whose light is above the threshold at the mode zero only reports the largest wave number zero, at which its light
is all there is: four equal pixels without padding.  The first wave number without light above the threshold is `π`. -/
theorem C90_counterexample_origin (ur : ℝ) (hu : 1 / 2 ≤ ur) : ∃ o : II, o.Good ∧ o.innerMaxk ur (1 / 1000) .on = .ok 0 ∧
    FirstQuiet (Loud (coordMap o.args.im) Real.pi |1 / 1000 * light (coordMap o.args.im)|) 2 1 := by
  have hw : (LocalWCS.pix 1).Nondeg := one_ne_zero
  have hg := exOnes_good (.pix 1) hw 1 (by norm_num)
  obtain ⟨o, ho⟩ : ∃ o : II, o = II.mk (defaultArgs exOnes (.pix 1) 1) (.pix 1) := ⟨_, rfl⟩
  rw [← ho] at hg
  have him : o.args.im = exOnes := by rw [ho]; rfl
  have hpf : o.args.padFactor = 1 := by rw [ho]; rfl
  obtain ⟨m, dk, x, z, hm, hpi, hdk, hpad, hx, hz, hno, zh, zw, hv⟩ := kim_modes hg
  have hm1 : m = 1 := by
    obtain ⟨h1, h2, h3, h4, h5, h6⟩ := work hg
    obtain ⟨P, e, -, e2, e3⟩ := C32_good_fft_size 2 (by norm_num)
    have hP : P = 2 := by
      have hle : P ≤ 2 := e3 2 ⟨0, Or.inl (by norm_num)⟩ (by norm_num)
      have hge : (1 : ℝ) < P := by norm_num at e2; linarith
      have hge : (1 : ℤ) < P := by exact_mod_cast hge
      omega
    subst hP
    have ha : (workImage true o.args.im).arr.h = 2 ∧ (workImage true o.args.im).arr.w = 2 := by
      rw [h2, him]; exact ⟨rfl, rfl⟩
    have hb : o.args.im.bounds.deltax = 2 ∧ o.args.im.bounds.deltay = 2 := by
      rw [him]; simp [exOnes, Bounds.mkDelta, Bounds.finish, clsI]
    obtain ⟨r, r1, r2, r3, r4, r5, r6⟩ := xim_padded 1 _ h1 (workImage_live _ (Good.live hg) true).2.2.1 (by rw [h5, h3]) (by rw [h6, h4]) 2 (by
      rw [ha.1, ha.2, padSize]
      simp only [Nat.cast_ofNat, max_self, gt_iff_lt, lt_irrefl, if_false, e]) (by rw [ha.1, ha.2]; simp)
    have hxr : o.xim = .ok r := by
      rw [II.xim, image_eq hg, hpf]
      simp only [Except.bind, r1, Except.mapError]
    rw [hx] at hxr
    obtain rfl := Except.ok.inj hxr
    rw [ha.1, ha.2, h3, hb.1] at r4
    rw [ha.1, ha.2, h4, hb.2] at r5
    norm_num at r4 r5
    simp only [Bounds.centerI, r3.defd, Bool.not_true, Bool.false_eq_true, if_false, Option.some.injEq, Pos.mk.injEq, r4, r5] at r6
    unfold fftNo2 at hno
    omega
  have hdk1 : dk = Real.pi := by rw [hm1] at hpi; simpa using hpi
  have quiet : ∀ a b : ℤ, max a.natAbs b.natAbs = 1 → pixelWave (coordMap exOnes) (0, 0) (a * Real.pi, b * Real.pi) = 0 := by
    intro a b hab
    rw [exOnes_wave]
    have h1 : -1 ≤ a := by omega
    have h2 : a ≤ 1 := by omega
    have h3 : -1 ≤ b := by omega
    have h4 : b ≤ 1 := by omega
    interval_cases a <;> interval_cases b <;> first | (exfalso; revert hab; decide) | norm_num
  have hnl : ¬ Loud (coordMap o.args.im) Real.pi |1 / 1000 * light (coordMap o.args.im)| 1 := by
    rintro ⟨a, b, h1, h2⟩
    rw [him, quiet a b h1, norm_zero] at h2
    exact absurd h2 (not_lt.mpr (abs_nonneg _))
  have hl0 : Loud (coordMap o.args.im) Real.pi |1 / 1000 * light (coordMap o.args.im)| 0 := by
    refine ⟨0, 0, rfl, ?_⟩
    rw [him, exOnes_wave, exOnes_light]
    norm_num
  refine ⟨o, hg, ?_, ?_⟩
  · obtain ⟨m', dk', r, hm', hx', hpi', -, hq, hon, -⟩ := C90_maxk ur (1 / 1000) o hg
    have : m' = 1 := by
      rw [hx] at hx'
      have := Except.ok.inj hx'
      simp only at this
      omega
    subst this
    rw [Nat.cast_one, one_mul] at hpi'
    rw [hpi'] at hq hon
    have hr0 : r = 0 := by
      refine hq.unique ⟨by omega, ?_, fun q hq => absurd hq (by omega)⟩
      rintro s - - h2 ⟨h3, h4⟩
      have : s = 1 := by omega
      exact hnl (this ▸ h4)
    rw [hon, hr0, Nat.cast_zero, zero_mul, min_eq_left]
    have := Real.pi_pos
    nlinarith
  · refine ⟨by norm_num, ?_, ?_⟩
    · intro s h1 _ h2
      have : s = 1 := by omega
      rw [this]; exact hnl
    · intro q hq
      exact ⟨0, by omega, by omega, by omega, hl0⟩

/-! ### Cases -/

theorem exRow_map : coordMap exRow 1 1 = some 1 ∧ coordMap exRow 2 1 = some 1 ∧ coordMap exRow 3 1 = some 5 := by
  obtain ⟨h1, h2, h3, h4, h5⟩ := exRow_bounds
  refine ⟨?_, ?_, ?_⟩ <;>
  · unfold coordMap
    rw [if_pos ⟨h1, by unfold inRect; omega⟩, h2, h4]
    norm_num [exRow] <;> rfl

theorem exRow_wave (w : ℝ × ℝ) : 3 ≤ ‖pixelWave (coordMap exRow) (0, 0) w‖ := by
  obtain ⟨h1, h2, h3, h4, h5⟩ := exRow_bounds
  obtain ⟨m1, m2, m3⟩ := exRow_map
  have e : pixelWave (coordMap exRow) (0, 0) w = Complex.exp (((-(w.1 + w.2) : ℝ) : ℂ) * Complex.I) +
      Complex.exp (((-(2 * w.1 + w.2) : ℝ) : ℂ) * Complex.I) + 5 * Complex.exp (((-(3 * w.1 + w.2) : ℝ) : ℂ) * Complex.I) := by
    rw [pixelWave_rect, h2, h3, h4, h5, show Finset.Ico (1:ℤ) (1 + 1) = {1} by decide, show Finset.Ico (1:ℤ) (1 + 3) = {1, 2, 3} by decide,
      Finset.sum_singleton, Finset.sum_insert (by decide), Finset.sum_insert (by decide), Finset.sum_singleton, m1, m2, m3]
    simp only [Option.getD_some, Complex.ofReal_one, one_mul]
    rw [← add_assoc]
    congr 1
    · congr 1 <;> (congr 1; push_cast; ring)
    · push_cast
      congr 2
      ring
  obtain ⟨u, hu⟩ : ∃ u, u = Complex.exp (((-(w.1 + w.2) : ℝ) : ℂ) * Complex.I) := ⟨_, rfl⟩
  obtain ⟨v, hv⟩ : ∃ v, v = Complex.exp (((-(2 * w.1 + w.2) : ℝ) : ℂ) * Complex.I) := ⟨_, rfl⟩
  obtain ⟨t, ht⟩ : ∃ t, t = Complex.exp (((-(3 * w.1 + w.2) : ℝ) : ℂ) * Complex.I) := ⟨_, rfl⟩
  have n1 : ‖u‖ = 1 := by rw [hu, Complex.norm_exp_ofReal_mul_I]
  have n2 : ‖v‖ = 1 := by rw [hv, Complex.norm_exp_ofReal_mul_I]
  have n3 : ‖t‖ = 1 := by rw [ht, Complex.norm_exp_ofReal_mul_I]
  rw [e, ← hu, ← hv, ← ht]
  have k1 : ‖(5:ℂ) * t‖ = 5 := by rw [norm_mul, n3]; norm_num
  have k2 := norm_sub_le (u + v + 5 * t) (u + v)
  have k3 := norm_add_le u v
  rw [show u + v + 5 * t - (u + v) = 5 * t by ring, k1] at k2
  linarith

/-- Non-vacuity of `C90_maxk`: a row of the pixels 1, 1, 5, padded four times, has light above the threshold at every mode, so
that the scan ends one ring beyond the modes. -/
example : ∃ (m : ℕ) (dk : ℝ), 0 < m ∧ m * dk = Real.pi ∧
    (II.mk (defaultArgs exRow (.pix 1) 4) (.pix 1)).innerMaxk 100 (1 / 1000) .on = .ok (Real.pi + dk) := by
  have hg := exRow_good (.pix 1) one_ne_zero 4 le_rfl
  obtain ⟨m, dk, r, hm, -, hpi, -, hq, hon, -⟩ := C90_maxk 100 (1 / 1000) _ hg
  have hl : ∀ s, Loud (coordMap exRow) dk |1 / 1000 * light (coordMap exRow)| s := by
    intro s
    refine ⟨s, 0, by simp, ?_⟩
    refine lt_of_lt_of_le ?_ (exRow_wave _)
    rw [exRow_light]
    norm_num
  have hr : r = m + 1 := by
    by_contra hc
    have := hq.1
    exact hq.2.1 (max r 1) (by omega) (by omega) (by omega) ⟨by omega, hl _⟩
  have hm1 : (1:ℝ) ≤ m := by exact_mod_cast hm
  have hdk : dk ≤ Real.pi := by nlinarith [Real.pi_pos]
  refine ⟨m, dk, hm, hpi, ?_⟩
  rw [hon, hr, min_eq_left]
  · congr 1; push_cast; linarith
  · push_cast; nlinarith [Real.pi_pos]

/-- Non-vacuity of `C90_quiet_partial`. -/
example : ∃ (o : II) (K : ℝ), o.Good ∧ o.innerMaxk 1 (1 / 1000) .on = .ok K ∧ K < 2 * Real.pi * 1 := by
  obtain ⟨o, h1, h2, -⟩ := C90_counterexample_origin 1 (by norm_num)
  exact ⟨o, 0, h1, h2, by nlinarith [Real.pi_pos]⟩

/-- Non-vacuity of `C90_stepk_square`, `C90_stepk_partial` and `C90_stepk_plain`: four equal pixels. -/
example : (II.mk (defaultArgs exOnes (.pix 1) 4) (.pix 1)).Good ∧ exOnes.bounds.deltax / 2 < exOnes.bounds.deltay ∧
    exOnes.bounds.deltay / 2 < exOnes.bounds.deltax ∧ 0 < (II.mk (defaultArgs exOnes (.pix 1) 4) (.pix 1)).args.kernel.xrange ∧
    Reaches ((1 - 1 / 200) * light (coordMap exOnes)) (squareLight (coordMap exOnes) (midPixel exOnes.bounds) ((1 : ℕ) + 0.5)) := by
  have e : exOnes.bounds.deltax = 2 ∧ exOnes.bounds.deltay = 2 := by simp [exOnes, Bounds.mkDelta, Bounds.finish, clsI]
  refine ⟨exOnes_good (.pix 1) one_ne_zero 4 le_rfl, by omega, by omega, ?_, ?_⟩
  · show (0:ℝ) < Kernel.quintic.xrange
    norm_num [Kernel.xrange]
  · rw [squareLight_all _ (by rw [e.1]; norm_num) (by rw [e.2]; norm_num), exOnes_light]
    left; norm_num

end JG.Interp
