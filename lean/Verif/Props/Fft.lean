import Verif.Lemmas.Fft
import Verif.Props.InterpPad

/-!
C72: the discrete Fourier transforms of images (`calculate_fft`, `calculate_inverse_fft`) and C73: the image made by `drawFFT`
from the Fourier values of a profile.
-/

namespace JG.Fft
open Finset JG.Interp

/-! ### Specification -/

/-- The Fourier sum of the pixels of an image, at their coordinates. -/
noncomputable def ftSum (im : Image) (u v : ℝ) : ℂ :=
  ∑ y ∈ Ico im.bounds.ymin (im.bounds.ymin + im.bounds.deltay),
    ∑ x ∈ Ico im.bounds.xmin (im.bounds.xmin + im.bounds.deltax),
      (((coordMap im x y).getD 0 : ℝ) : ℂ) * Complex.exp (-(Complex.I * (u * x + v * y : ℝ)))

/-! ### Sums over a box -/

/-- The transform of the values `a y x` on `[-m, m)²`. -/
noncomputable def boxDft (m : ℕ) (a : ℤ → ℤ → ℝ) (ky kx : ℤ) : ℂ :=
  ∑ y ∈ Ico (-(m:ℤ)) m, ∑ x ∈ Ico (-(m:ℤ)) m, (a y x : ℂ) * root (2 * m) (-(kx * x + ky * y))

theorem boxDft_herm (m : ℕ) (hm : 0 < m) (a : ℤ → ℤ → ℝ) : HermPeriodic (boxDft m a) ((2 * m : ℕ) : ℤ) := by
  have hN : 0 < 2 * m := by omega
  refine ⟨?_, ?_, ?_⟩
  · intro ky kx
    unfold boxDft
    refine sum_congr rfl fun y _ => sum_congr rfl fun x _ => ?_
    rw [show -(kx * x + (ky + ((2 * m : ℕ):ℤ)) * y) = -(kx * x + ky * y) + ((2 * m : ℕ):ℤ) * (-y) by ring, root_period _ hN]
  · intro ky kx
    unfold boxDft
    refine sum_congr rfl fun y _ => sum_congr rfl fun x _ => ?_
    rw [show -((kx + ((2 * m : ℕ):ℤ)) * x + ky * y) = -(kx * x + ky * y) + ((2 * m : ℕ):ℤ) * (-x) by ring, root_period _ hN]
  · intro ky kx
    unfold boxDft
    rw [star_sum]
    refine sum_congr rfl fun y _ => ?_
    rw [star_sum]
    refine sum_congr rfl fun x _ => ?_
    rw [star_mul', root_star]
    congr 1
    · exact (Complex.conj_ofReal _).symm
    · congr 1; ring

theorem boxDft_inv (m : ℕ) (hm : 0 < m) (a : ℤ → ℤ → ℝ) (y x : ℤ) (hy : -(m:ℤ) ≤ y ∧ y < m) (hx : -(m:ℤ) ≤ x ∧ x < m) :
    (∑ ky ∈ range (2 * m), ∑ kx ∈ range (2 * m), boxDft m a ky kx * root (2 * m) (kx * x + ky * y)) / (2 * m : ℕ) ^ 2 =
      a y x := by
  have hN : 0 < 2 * m := by omega
  have e : ∑ ky ∈ range (2 * m), ∑ kx ∈ range (2 * m), boxDft m a ky kx * root (2 * m) (kx * x + ky * y) =
      ∑ y' ∈ Ico (-(m:ℤ)) m, ∑ x' ∈ Ico (-(m:ℤ)) m, (a y' x' : ℂ) *
        ((∑ kx ∈ range (2 * m), root (2 * m) (kx * (x - x'))) * ∑ ky ∈ range (2 * m), root (2 * m) (ky * (y - y'))) := by
    simp only [boxDft, sum_mul]
    have h1 : ∀ ky ∈ range (2 * m), ∑ kx ∈ range (2 * m), ∑ y' ∈ Ico (-(m:ℤ)) m, ∑ x' ∈ Ico (-(m:ℤ)) m,
        (a y' x' : ℂ) * root (2 * m) (-((kx:ℤ) * x' + ky * y')) * root (2 * m) (kx * x + ky * y) =
        ∑ y' ∈ Ico (-(m:ℤ)) m, ∑ x' ∈ Ico (-(m:ℤ)) m, ∑ kx ∈ range (2 * m),
          (a y' x' : ℂ) * (root (2 * m) (kx * (x - x')) * root (2 * m) (ky * (y - y'))) := by
      intro ky _
      rw [sum_comm]
      refine sum_congr rfl fun y' _ => ?_
      rw [sum_comm]
      refine sum_congr rfl fun x' _ => sum_congr rfl fun kx _ => ?_
      rw [mul_assoc, ← root_add, ← root_add]
      congr 2; ring
    rw [sum_congr rfl h1, sum_comm]
    refine sum_congr rfl fun y' _ => ?_
    rw [sum_comm]
    refine sum_congr rfl fun x' _ => ?_
    rw [sum_comm, mul_sum]
    refine sum_congr rfl fun kx _ => ?_
    rw [mul_sum, mul_sum]
  have hNc : ((2 * m : ℕ) : ℂ) ≠ 0 := by exact_mod_cast hN.ne'
  have one : ∀ s t : ℤ, (-(m:ℤ) ≤ s ∧ s < m) → (-(m:ℤ) ≤ t ∧ t < m) → t ≠ s → ¬ ((2 * m : ℕ) : ℤ) ∣ s - t := by
    rintro s t ⟨s0, s1⟩ ⟨t0, t1⟩ hne ⟨q, hq⟩
    have : q = 0 := by
      push_cast at hq
      rcases lt_trichotomy q 0 with h | h | h
      · have : 2 * (m:ℤ) * q ≤ 2 * m * (-1) := mul_le_mul_of_nonneg_left (by omega) (by omega)
        omega
      · exact h
      · have : 2 * (m:ℤ) * 1 ≤ 2 * m * q := mul_le_mul_of_nonneg_left (by omega) (by omega)
        omega
    subst this
    omega
  rw [e, sum_eq_single y, sum_eq_single x]
  · rw [root_sum _ hN, root_sum _ hN, sub_self, sub_self, if_pos (dvd_zero _)]
    field_simp
  · intro t ht hne
    rw [mem_Ico] at ht
    rw [root_sum _ hN, if_neg (one x t hx ht hne)]; ring
  · intro h; exact absurd (mem_Ico.mpr hx) h
  · intro t ht hne
    rw [mem_Ico] at ht
    refine sum_eq_zero fun x' _ => ?_
    rw [root_sum _ hN (y - t), if_neg (one y t hy ht hne)]; ring
  · intro h; exact absurd (mem_Ico.mpr hy) h

/-- Arrays in coordinates: `[(i - m) mod 2m]` for the coordinate `i`. -/
theorem emod_shift (m : ℕ) (hm : 0 < m) (t : ℤ) : (t - m) % ((2 * m : ℕ) : ℤ) = (t + m) % ((2 * m : ℕ) : ℤ) := by
  rw [show t + m = t - m + ((2 * m : ℕ) : ℤ) by push_cast; ring, Int.add_emod_right]

/-- `rfft2` after `fftshift` is the transform about the centre pixel. -/
theorem rfft2_eq (m : ℕ) (hm : 0 < m) (a : ℤ → ℤ → ℝ) (z : Arr ℝ) (hh : z.h = 2 * m) (hw : z.w = 2 * m)
    (hz : ∀ y x : ℤ, -(m:ℤ) ≤ y → y < m → -(m:ℤ) ≤ x → x < m → z.at' (y + m).toNat (x + m).toNat = a y x) (ky kx : ℕ) :
    (rfft2 (fftshift z)).at' ky kx = boxDft m a ky kx := by
  have hN : 0 < 2 * m := by omega
  have hN' : (0:ℤ) < ((2 * m : ℕ) : ℤ) := by exact_mod_cast hN
  unfold rfft2 fftshift
  simp only [hh, hw, show 2 * m / 2 = m by omega]
  obtain ⟨A, hA⟩ : ∃ A : ℤ → ℤ → ℝ, A = fun y x => z.at' ((y + m) % ((2 * m : ℕ) : ℤ)).toNat ((x + m) % ((2 * m : ℕ) : ℤ)).toNat := ⟨_, rfl⟩
  have perX : ∀ y x, A y (x + (2 * m : ℕ)) = A y x := by
    intro y x; rw [hA]; simp only
    rw [show x + ((2 * m : ℕ) : ℤ) + m = x + m + ((2 * m : ℕ) : ℤ) by ring, Int.add_emod_right]
  have perY : ∀ y x, A (y + (2 * m : ℕ)) x = A y x := by
    intro y x; rw [hA]; simp only
    rw [show y + ((2 * m : ℕ) : ℤ) + m = y + m + ((2 * m : ℕ) : ℤ) by ring, Int.add_emod_right]
  have e1 : ∀ y : ℤ, ∑ x ∈ range (2 * m), (A y x : ℂ) * root (2 * m) (-(kx * x : ℤ)) * root (2 * m) (-(ky * y : ℤ)) =
      ∑ x ∈ Ico (-(m:ℤ)) m, (A y x : ℂ) * root (2 * m) (-(kx * x + ky * y)) := by
    intro y
    have := period_sum (2 * m) hN (fun x => (A y x : ℂ) * root (2 * m) (-(kx * x : ℤ)) * root (2 * m) (-(ky * y : ℤ))) (by
      intro t
      simp only [perX]
      rw [show -((kx:ℤ) * (t + ((2 * m : ℕ):ℤ))) = -(kx * t) + ((2 * m : ℕ):ℤ) * (-kx) by ring, root_period _ hN]) (-(m:ℤ))
    rw [show -(m:ℤ) + ((2 * m : ℕ):ℤ) = m by push_cast; ring] at this
    rw [this]
    refine sum_congr rfl fun x _ => ?_
    rw [mul_assoc, ← root_add]; congr 2; ring
  have e2 := period_sum (2 * m) hN (fun y => ∑ x ∈ Ico (-(m:ℤ)) m, (A y x : ℂ) * root (2 * m) (-(kx * x + ky * y))) (by
    intro t
    refine sum_congr rfl fun x _ => ?_
    rw [perY, show -((kx:ℤ) * x + ky * (t + ((2 * m : ℕ):ℤ))) = -(kx * x + ky * t) + ((2 * m : ℕ):ℤ) * (-ky) by ring,
      root_period _ hN]) (-(m:ℤ))
  rw [show -(m:ℤ) + ((2 * m : ℕ):ℤ) = m by push_cast; ring] at e2
  unfold boxDft
  calc _ = ∑ y ∈ range (2 * m), ∑ x ∈ Ico (-(m:ℤ)) m, (A y x : ℂ) * root (2 * m) (-(kx * x + ky * y)) := by
        refine sum_congr rfl fun y _ => ?_
        rw [← e1 y]
        refine sum_congr rfl fun x _ => ?_
        rw [hA]
        simp only
        rw [emod_shift m hm, emod_shift m hm]
    _ = _ := e2
    _ = _ := by
        refine sum_congr rfl fun y hy => sum_congr rfl fun x hx => ?_
        rw [mem_Ico] at hy hx
        rw [hA]
        simp only
        rw [Int.emod_eq_of_lt (by omega) (by push_cast; omega), Int.emod_eq_of_lt (by omega) (by push_cast; omega),
          hz y x hy.1 hy.2 hx.1 hx.2]

theorem coordMap_some (im : Image) (h : im.Live) (x y : ℤ) : (∃ v, coordMap im x y = some v) ↔ inRect im.bounds x y := by
  unfold coordMap
  constructor
  · rintro ⟨w, hw⟩
    by_contra hc
    rw [if_neg (fun hh => hc hh.2)] at hw
    cases hw
  · intro hr; exact ⟨_, if_pos ⟨h.defd, hr⟩⟩

/-- The image that `calculate_fft` transforms: the pixels at their coordinates on `[-No2, No2)²`. -/
theorem ximage_spec (im : Image) (h : im.Live) (hi : im.isInt = false) :
    ∃ (m : ℕ) (x : Image), 0 < m ∧ (m:ℤ) = fftNo2 im.bounds ∧ ximage im = .ok x ∧ x.arr.h = 2 * m ∧ x.arr.w = 2 * m ∧
      (∀ u v, inRect im.bounds u v → (-(m:ℤ) ≤ u ∧ u < m) ∧ -(m:ℤ) ≤ v ∧ v < m) ∧
      ∀ v u : ℤ, -(m:ℤ) ≤ v → v < m → -(m:ℤ) ≤ u → u < m →
        x.arr.at' (v + m).toNat (u + m).toNat = (coordMap im u v).getD 0 := by
  have hdx : 0 < im.bounds.deltax := (h.ok.1.mp h.defd).1
  have hdy : 0 < im.bounds.deltay := (h.ok.1.mp h.defd).2
  obtain ⟨m, hm⟩ : ∃ m : ℕ, (m:ℤ) = fftNo2 im.bounds := ⟨(fftNo2 im.bounds).toNat, by unfold fftNo2; omega⟩
  have hm' := hm
  unfold fftNo2 at hm'
  have hm0 : 0 < m := by omega
  have hin : ∀ u v, inRect im.bounds u v → (-(m:ℤ) ≤ u ∧ u < m) ∧ -(m:ℤ) ≤ v ∧ v < m := by
    intro u v hr; unfold inRect at hr; omega
  unfold ximage
  simp only [← hm]
  split_ifs with hc
  · obtain ⟨c1, c2, c3, c4⟩ := hc
    have eh := h.h
    have ew := h.w
    refine ⟨m, im, hm0, rfl, rfl, by omega, by omega, hin, ?_⟩
    intro v u v0 v1 u0 u1
    unfold coordMap
    rw [if_pos ⟨h.defd, by unfold inRect; omega⟩, c1, c3, sub_neg_eq_add, sub_neg_eq_add]
    rfl
  · have hsh : (fullBounds m).numpyShape = (2 * (m:ℤ), 2 * (m:ℤ)) := by
      simp [fullBounds, Bounds.mkDelta, Bounds.finish, Bounds.numpyShape, clsI]
      intro hd; have := of_decide_eq_true hd; omega
    have hpos : (2 * (m:ℤ)) * (2 * m) ≠ 0 := by positivity
    unfold Image.make
    simp only [hsh]
    unfold makeEmpty
    simp only
    rw [if_neg hpos, if_neg (by omega)]
    simp only
    obtain ⟨x, hx⟩ : ∃ x : Image, x = ⟨addInit im.isInt (some 0) ⟨(2 * (m:ℤ)).toNat, (2 * (m:ℤ)).toNat, fun _ _ => 0⟩,
      fullBounds m, some false, im.isInt⟩ := ⟨_, rfl⟩
    rw [← hx]
    have hxl : x.Live := by
      rw [hx]
      refine ⟨?_, ?_, ?_, rfl, rfl⟩
      · unfold Bounds.OK fullBounds Bounds.mkDelta Bounds.finish
        simp [clsI]
        exact ⟨fun _ => by omega, fun _ => decide_eq_false (by show ¬ 2 * (m:ℤ) < 1; omega)⟩
      · intro _
        show (((addInit im.isInt (some 0) ⟨(2 * (m:ℤ)).toNat, (2 * (m:ℤ)).toNat, fun _ _ => 0⟩).h : ℤ),
          ((addInit im.isInt (some 0) ⟨(2 * (m:ℤ)).toNat, (2 * (m:ℤ)).toNat, fun _ _ => 0⟩).w : ℤ)) = (fullBounds m).numpyShape
        rw [hsh]
        simp [addInit, Arr.mapIdx]
      · simp [fullBounds, Bounds.mkDelta, Bounds.finish, clsI]
        exact decide_eq_false (by show ¬ 2 * (m:ℤ) < 1; omega)
    have b1 : x.bounds.xmin = -m ∧ x.bounds.deltax = 2 * m ∧ x.bounds.ymin = -m ∧ x.bounds.deltay = 2 * m := by
      rw [hx]; exact ⟨rfl, rfl, rfl, rfl⟩
    obtain ⟨b1, b2, b3, b4⟩ := b1
    have hinc : x.bounds.includesB clsI im.bounds = true := by
      rw [includesB_iff_rect h.ok]
      refine ⟨⟨im.bounds.xmin, im.bounds.ymin, by unfold inRect; omega⟩, fun u v hr => ⟨hxl.defd, ?_⟩⟩
      have := hin u v hr
      unfold inRect
      omega
    obtain ⟨b, e1, e2, e3, e4⟩ := setSub_included hxl.shape h.ok hinc h.ok h.shape rfl rfl
    have hstep : x.step (.setSubImage im.bounds im) = ({ x with arr := b }, none) := by
      show x.guarded _ = _
      rw [guarded_mut hxl.mutbl, e1]
    rw [hstep]
    have hh := hxl.h
    have hw := hxl.w
    have xi : x.isInt = false := by rw [hx]; exact hi
    have xz : ∀ i j, x.arr.at' i j = 0 := by
      intro i j; rw [hx]; simp [addInit, Arr.mapIdx]
    refine ⟨m, { x with arr := b }, hm0, rfl, rfl, by show b.h = _; omega, by show b.w = _; omega, hin, ?_⟩
    intro v u v0 v1 u0 u1
    have rl : ({ x with arr := b } : Image).Live := by
      refine ⟨hxl.ok, ?_, hxl.defd, hxl.mutbl, hxl.static⟩
      intro hd
      have := hxl.shape hd
      show ((b.h:ℤ), (b.w:ℤ)) = _
      rw [e2, e3]; exact this
    have := at_of_coordMap rl (v + m).toNat (u + m).toNat (by show _ < b.h; omega) (by show _ < b.w; omega)
    rw [e4] at this
    simp only [b1, b3] at this
    rw [show -(m:ℤ) + ((u + m).toNat : ℤ) = u by omega, show -(m:ℤ) + ((v + m).toNat : ℤ) = v by omega] at this
    show b.at' _ _ = _
    by_cases hr : inRect im.bounds u v
    · rw [if_pos hr, sub_add_cancel, sub_add_cancel] at this
      obtain ⟨w, hw⟩ := (coordMap_some im h u v).mpr hr
      rw [hw, xi] at this
      rw [hw]
      exact (Option.some.inj this).symm
    · rw [if_neg hr] at this
      unfold coordMap at this
      rw [if_pos ⟨hxl.defd, by unfold inRect; omega⟩, xz] at this
      have hn : coordMap im u v = none := by
        unfold coordMap; rw [if_neg (fun hh => hr hh.2)]
      rw [hn]
      exact (Option.some.inj this).symm

/-- Padding with zeros does not change the Fourier sum. -/
theorem boxDft_ftSum (im : Image) (h : im.Live) (m : ℕ) (hm : 0 < m)
    (hin : ∀ u v, inRect im.bounds u v → (-(m:ℤ) ≤ u ∧ u < m) ∧ -(m:ℤ) ≤ v ∧ v < m) (ky kx : ℤ) :
    boxDft m (fun y x => (coordMap im x y).getD 0) ky kx = ftSum im (kx * (Real.pi / m)) (ky * (Real.pi / m)) := by
  have hdx : 0 < im.bounds.deltax := (h.ok.1.mp h.defd).1
  have hdy : 0 < im.bounds.deltay := (h.ok.1.mp h.defd).2
  have hmr : (m:ℝ) ≠ 0 := by positivity
  have a1 := hin im.bounds.xmin im.bounds.ymin (by unfold inRect; omega)
  have a2 := hin (im.bounds.xmin + im.bounds.deltax - 1) (im.bounds.ymin + im.bounds.deltay - 1) (by unfold inRect; omega)
  unfold boxDft ftSum
  have hz : ∀ x y, ¬ inRect im.bounds x y → coordMap im x y = none := by
    intro x y hr; unfold coordMap; rw [if_neg (fun hh => hr hh.2)]
  have ph : ∀ x y : ℤ, root (2 * m) (-(kx * x + ky * y)) =
      Complex.exp (-(Complex.I * ((kx * (Real.pi / m)) * x + (ky * (Real.pi / m)) * y : ℝ))) := by
    intro x y
    unfold root
    congr 1
    have : (m:ℂ) ≠ 0 := by exact_mod_cast hm.ne'
    push_cast; field_simp
  symm
  have hsub1 : Ico im.bounds.ymin (im.bounds.ymin + im.bounds.deltay) ⊆ Ico (-(m:ℤ)) m := by
    intro t ht; rw [mem_Ico] at *; omega
  have hsub2 : Ico im.bounds.xmin (im.bounds.xmin + im.bounds.deltax) ⊆ Ico (-(m:ℤ)) m := by
    intro t ht; rw [mem_Ico] at *; omega
  rw [sum_subset hsub1]
  · refine sum_congr rfl fun y _ => ?_
    rw [sum_subset hsub2]
    · exact sum_congr rfl fun x _ => by rw [ph]
    · intro x _ hx
      rw [hz x y (fun hr => hx (by unfold inRect at hr; rw [mem_Ico]; omega))]
      simp
  · intro y _ hy
    refine sum_eq_zero fun x _ => ?_
    rw [hz x y (fun hr => hy (by unfold inRect at hr; rw [mem_Ico]; omega))]
    simp

/-- C72: `calculate_fft` of a float image succeeds, and the entry for the mode `(kx, ky)` is the pixel area
times the Fourier sum of the pixels at the wave vector `(kx, ky)·dk`, positions in world units; `N·dk·dx = 2π`. -/
theorem C72_forward (im : Image) (h : im.Live) (hi : im.isInt = false) (dx : ℝ) (hdx : 0 < dx) :
    ∃ (m : ℕ) (z : Arr ℂ) (dk : ℝ), 0 < m ∧ (m:ℤ) = fftNo2 im.bounds ∧ calculateFft im dx = .ok (z, dk) ∧
      z.h = 2 * m ∧ z.w = m + 1 ∧ (2 * m) * dk * dx = 2 * Real.pi ∧
      ∀ j i : ℕ, j < 2 * m → i ≤ m →
        z.at' j i = (dx ^ 2 : ℝ) * ftSum im ((i * dk) * dx) ((((j:ℤ) - m : ℤ) * dk) * dx) := by
  obtain ⟨m, x, hm, hno, hx, hh, hw, hin, hp⟩ := ximage_spec im h hi
  have hN : 0 < 2 * m := by omega
  have hmr : (m:ℝ) ≠ 0 := by positivity
  have hz := rfft2_eq m hm (fun y x => (coordMap im x y).getD 0) x.arr hh hw hp
  unfold calculateFft
  rw [h.defd, hx, ← hno]
  refine ⟨m, _, _, hm, rfl, rfl, hh, ?_, ?_, ?_⟩
  · show x.arr.w / 2 + 1 = _; omega
  · push_cast; field_simp
  · intro j i hj hi'
    show (rfft2 (fftshift x.arr)).at' (((j:ℤ) - (((rfft2 (fftshift x.arr)).h / 2 : ℕ) : ℤ)) % ((rfft2 (fftshift x.arr)).h : ℤ)).toNat i *
      ((dx * dx : ℝ) : ℂ) = _
    have ehh : (rfft2 (fftshift x.arr)).h = 2 * m := hh
    rw [ehh, show 2 * m / 2 = m by omega, hz]
    have hN' : (0:ℤ) < ((2 * m : ℕ) : ℤ) := by exact_mod_cast hN
    rw [Int.toNat_of_nonneg (Int.emod_nonneg _ hN'.ne')]
    have hper := boxDft_herm m hm (fun y x => (coordMap im x y).getD 0)
    have e : boxDft m (fun y x => (coordMap im x y).getD 0) (((j:ℤ) - m) % ((2 * m : ℕ) : ℤ)) i =
        boxDft m (fun y x => (coordMap im x y).getD 0) ((j:ℤ) - m) i := by
      have := per_mul hper (((j:ℤ) - m) % ((2 * m : ℕ) : ℤ)) i (((j:ℤ) - m) / ((2 * m : ℕ) : ℤ)) 0
      rw [zero_mul, add_zero] at this
      rw [← this]
      congr 1
      exact Int.emod_add_ediv_mul _ _
    rw [e, boxDft_ftSum im h m hm hin, mul_comm, pow_two]
    congr 2
    · push_cast; field_simp
    · push_cast; field_simp

/-- The index arithmetic shared by the inverse transforms: shifting rows of the stored half. -/
theorem shifted_half (m : ℕ) (hm : 0 < m) (F : ℤ → ℤ → ℂ) (hF : HermPeriodic F ((2 * m : ℕ) : ℤ)) (z : Arr ℂ)
    (hz : ∀ j i : ℕ, j < 2 * m → i ≤ m → z.at' j i = F ((j:ℤ) - m) i) (j i : ℕ) (hi : i ≤ m) :
    z.at' (((j:ℤ) - m) % ((2 * m : ℕ) : ℤ)).toNat i = F j i := by
  have hN' : (0:ℤ) < ((2 * m : ℕ) : ℤ) := by exact_mod_cast (by omega : 0 < 2 * m)
  have m0 := Int.emod_nonneg ((j:ℤ) - m) hN'.ne'
  have m1 := Int.emod_lt_of_pos ((j:ℤ) - m) hN'
  rw [hz _ _ (by omega) hi, Int.toNat_of_nonneg m0]
  have := per_mul hF (((j:ℤ) - m) % ((2 * m : ℕ) : ℤ) - m) i (((j:ℤ) - m) / ((2 * m : ℕ) : ℤ) + 1) 0
  rw [zero_mul, add_zero] at this
  rw [← this]
  congr 1
  have := Int.emod_add_mul_ediv ((j:ℤ) - m) ((2 * m : ℕ) : ℤ)
  have e2 : ((2 * m : ℕ) : ℤ) = 2 * m := by push_cast; ring
  linarith [mul_comm (((j:ℤ) - m) / ((2 * m : ℕ) : ℤ)) ((2 * m : ℕ) : ℤ)]

/-- `fftshift` of the inverse transform: entry `(i, j)` belongs to the pixel `(j - m, i - m)`. -/
theorem shifted_irfft2 (m : ℕ) (hm : 0 < m) (F : ℤ → ℤ → ℂ) (hF : HermPeriodic F ((2 * m : ℕ) : ℤ)) (z : Arr ℂ) (hh : z.h = 2 * m)
    (hz : ∀ j i : ℕ, j < 2 * m → i ≤ m → z.at' j i = F j i) (i j : ℕ) :
    (((fftshift (irfft2 z m)).at' i j : ℝ) : ℂ) =
      (∑ ky ∈ range (2 * m), ∑ kx ∈ range (2 * m), F ky kx * root (2 * m) (kx * ((j:ℤ) - m) + ky * ((i:ℤ) - m))) / (2 * m : ℕ) ^ 2 := by
  have hN : 0 < 2 * m := by omega
  have hN' : (0:ℤ) < ((2 * m : ℕ) : ℤ) := by exact_mod_cast hN
  have e1 : (irfft2 z m).h = 2 * m := hh
  have e2 : (irfft2 z m).w = 2 * m := rfl
  unfold fftshift
  simp only [e1, e2, show 2 * m / 2 = m by omega]
  rw [irfft2_eq m hm F hF z hh hz]
  congr 1
  refine sum_congr rfl fun ky _ => sum_congr rfl fun kx _ => ?_
  rw [Int.toNat_of_nonneg (Int.emod_nonneg _ hN'.ne'), Int.toNat_of_nonneg (Int.emod_nonneg _ hN'.ne')]
  congr 1
  rw [← root_emod _ hN, ← root_emod _ hN ((kx:ℤ) * ((j:ℤ) - m) + ky * ((i:ℤ) - m))]
  congr 1
  simp [Int.add_emod, Int.mul_emod]

/-- C72: `calculate_inverse_fft` of the stored half of a Hermitian periodic Fourier image is, at the pixel
`(x, y)`, the inverse Fourier sum over a full period of modes, normalised with the area `dk²/(2π)²` of a mode. -/
theorem C72_inverse (m : ℕ) (hm : 0 < m) (F : ℤ → ℤ → ℂ) (hF : HermPeriodic F ((2 * m : ℕ) : ℤ)) (z : Arr ℂ) (hh : z.h = 2 * m)
    (hz : ∀ j i : ℕ, j < 2 * m → i ≤ m → z.at' j i = F ((j:ℤ) - m) i) (dk : ℝ) (i j : ℕ) :
    (((inverseFft z m dk).1.at' i j : ℝ) : ℂ) =
      ((dk / (2 * Real.pi)) ^ 2 : ℝ) * ∑ ky ∈ Ico (-(m:ℤ)) m, ∑ kx ∈ Ico (-(m:ℤ)) m,
        F ky kx * Complex.exp (Complex.I * (Real.pi / m * (kx * ((j:ℤ) - m) + ky * ((i:ℤ) - m) : ℤ) : ℝ)) := by
  have hN : 0 < 2 * m := by omega
  have hmc : (m:ℂ) ≠ 0 := by exact_mod_cast hm.ne'
  have hpi : (Real.pi:ℂ) ≠ 0 := by exact_mod_cast Real.pi_ne_zero
  unfold inverseFft
  simp only
  have hs := shifted_irfft2 m hm F hF (fftshift0 z) hh (by
    intro j i hj hi
    unfold fftshift0
    simp only [hh, show 2 * m / 2 = m by omega]
    exact shifted_half m hm F hF z hz j i hi) i j
  rw [Complex.ofReal_mul, hs]
  have ex : ∀ ky kx : ℤ, Complex.exp (Complex.I * (Real.pi / m * (kx * ((j:ℤ) - m) + ky * ((i:ℤ) - m) : ℤ) : ℝ)) =
      root (2 * m) (kx * ((j:ℤ) - m) + ky * ((i:ℤ) - m)) := by
    intro ky kx
    unfold root; congr 1; push_cast; field_simp
  simp only [ex]
  have px : ∀ ky : ℤ, ∑ kx ∈ range (2 * m), F ky kx * root (2 * m) (kx * ((j:ℤ) - m) + ky * ((i:ℤ) - m)) =
      ∑ kx ∈ Ico (-(m:ℤ)) m, F ky kx * root (2 * m) (kx * ((j:ℤ) - m) + ky * ((i:ℤ) - m)) := by
    intro ky
    have := period_sum (2 * m) hN (fun kx => F ky kx * root (2 * m) (kx * ((j:ℤ) - m) + ky * ((i:ℤ) - m))) (by
      intro t
      rw [hF.perX, show (t + ((2 * m : ℕ):ℤ)) * ((j:ℤ) - m) + ky * ((i:ℤ) - m) =
        t * ((j:ℤ) - m) + ky * ((i:ℤ) - m) + ((2 * m : ℕ):ℤ) * ((j:ℤ) - m) by ring, root_period _ hN]) (-(m:ℤ))
    rwa [show -(m:ℤ) + ((2 * m : ℕ):ℤ) = m by push_cast; ring] at this
  have py := period_sum (2 * m) hN (fun ky => ∑ kx ∈ Ico (-(m:ℤ)) m, F ky kx * root (2 * m) (kx * ((j:ℤ) - m) + ky * ((i:ℤ) - m))) (by
      intro t
      refine sum_congr rfl fun kx _ => ?_
      rw [hF.perY, show kx * ((j:ℤ) - m) + (t + ((2 * m : ℕ):ℤ)) * ((i:ℤ) - m) =
        kx * ((j:ℤ) - m) + t * ((i:ℤ) - m) + ((2 * m : ℕ):ℤ) * ((i:ℤ) - m) by ring, root_period _ hN]) (-(m:ℤ))
  rw [show -(m:ℤ) + ((2 * m : ℕ):ℤ) = m by push_cast; ring] at py
  rw [sum_congr rfl fun (ky : ℕ) _ => px ky, py]
  push_cast
  field_simp

/-- C72: transforming an image and transforming back gives the image again, at the same coordinates and
with the same pixel scale, with zeros where the square transformed is larger than the image. -/
theorem C72_round_trip (im : Image) (h : im.Live) (hi : im.isInt = false) (dx : ℝ) (hdx : 0 < dx) :
    ∃ (m : ℕ) (z : Arr ℂ) (dk : ℝ), (m:ℤ) = fftNo2 im.bounds ∧ calculateFft im dx = .ok (z, dk) ∧
      (inverseFft z m dk).2 = dx ∧ (inverseFft z m dk).1.h = 2 * m ∧ (inverseFft z m dk).1.w = 2 * m ∧
      (∀ u v, inRect im.bounds u v → (-(m:ℤ) ≤ u ∧ u < m) ∧ -(m:ℤ) ≤ v ∧ v < m) ∧
      ∀ i j : ℕ, i < 2 * m → j < 2 * m →
        (inverseFft z m dk).1.at' i j = (coordMap im ((j:ℤ) - m) ((i:ℤ) - m)).getD 0 := by
  obtain ⟨m, x, hm, hno, hx, hh, hw, hin, hp⟩ := ximage_spec im h hi
  have hN : 0 < 2 * m := by omega
  obtain ⟨m', z, dk, hm', hno', hz, zh, zw, hdk, hval⟩ := C72_forward im h hi dx hdx
  have : m' = m := by omega
  subst this
  have hmr : (m':ℝ) ≠ 0 := by positivity
  have hpi := Real.pi_ne_zero
  have hdk' : dk = Real.pi / (m' * dx) := by field_simp; linarith
  obtain ⟨F, hFd⟩ : ∃ F : ℤ → ℤ → ℂ, F = fun ky kx => ((dx ^ 2 : ℝ) : ℂ) * boxDft m' (fun y x => (coordMap im x y).getD 0) ky kx := ⟨_, rfl⟩
  have hb := boxDft_herm m' hm (fun y x => (coordMap im x y).getD 0)
  have hF : HermPeriodic F ((2 * m' : ℕ) : ℤ) := by
    rw [hFd]
    refine ⟨fun a b => by rw [hb.perY], fun a b => by rw [hb.perX], fun a b => ?_⟩
    rw [hb.herm, star_mul']
    congr 1
    exact (Complex.conj_ofReal _).symm
  have hzF : ∀ j i : ℕ, j < 2 * m' → i ≤ m' → z.at' j i = F ((j:ℤ) - m') i := by
    intro j i hj hi'
    rw [hval j i hj hi', hFd]
    simp only
    rw [boxDft_ftSum im h m' hm hin, hdk']
    congr 2
    · push_cast; field_simp
    · push_cast; field_simp
  refine ⟨m', z, dk, hno, hz, ?_, ?_, rfl, hin, ?_⟩
  · unfold inverseFft; simp only; rw [hdk']; field_simp
  · exact zh
  · intro i j hi' hj'
    unfold inverseFft
    simp only
    have hs := shifted_irfft2 m' hm F hF (fftshift0 z) zh (by
      intro j i hj hi
      unfold fftshift0
      simp only [zh, show 2 * m' / 2 = m' by omega]
      exact shifted_half m' hm F hF z hzF j i hi) i j
    have hinv := boxDft_inv m' hm (fun y x => (coordMap im x y).getD 0) ((i:ℤ) - m') ((j:ℤ) - m') (by omega) (by omega)
    have hs2 : (((fftshift (irfft2 (fftshift0 z) m')).at' i j : ℝ) : ℂ) =
        ((dx ^ 2 * (coordMap im ((j:ℤ) - m') ((i:ℤ) - m')).getD 0 : ℝ) : ℂ) := by
      rw [hs, Complex.ofReal_mul, ← hinv, mul_div_assoc', mul_sum]
      congr 1
      refine sum_congr rfl fun ky _ => ?_
      rw [mul_sum]
      refine sum_congr rfl fun kx _ => ?_
      rw [hFd]; ring
    rw [Complex.ofReal_inj.mp hs2, hdk']
    field_simp

/-! ### Drawing with an FFT -/

theorem congr1_period (lo : ℤ) (n m : ℕ) (c : ℤ) : congr1 lo n m (c + m) = congr1 lo n m c := by
  unfold congr1
  ext X
  simp only [mem_filter, and_congr_right_iff]
  intro _
  rw [show X - (c + m) = X - c - m by ring]
  exact dvd_sub_self_right

/-- Negation maps a residue class of a symmetric range onto the opposite class. -/
theorem congr1_neg {M : Type} [AddCommMonoid M] (k m : ℕ) (c : ℤ) (f : ℤ → M) :
    ∑ X ∈ congr1 (-(k:ℤ)) (2 * k + 1) m (-c), f X = ∑ X ∈ congr1 (-(k:ℤ)) (2 * k + 1) m c, f (-X) := by
  have key : ∀ t a : ℤ, t ∈ congr1 (-(k:ℤ)) (2 * k + 1) m a → -t ∈ congr1 (-(k:ℤ)) (2 * k + 1) m (-a) := by
    intro t a ht
    unfold congr1 at *
    rw [mem_filter, mem_Ico] at *
    push_cast at *
    refine ⟨by omega, ?_⟩
    rw [show -t - -a = -(t - a) by ring]
    exact (dvd_neg).mpr ht.2
  refine sum_nbij' (fun X => -X) (fun X => -X) ?_ ?_ ?_ ?_ ?_
  · intro X hX; have := key X _ hX; rwa [neg_neg] at this
  · intro X hX; exact key X _ hX
  · intro X _; ring
  · intro X _; ring
  · intro X _; rw [neg_neg]

/-- The aliased modes are periodic and Hermitian. -/
theorem aliased_herm (kv : ℤ → ℤ → ℂ) (hk : ∀ X Y, kv (-X) (-Y) = star (kv X Y)) (nk2 m : ℕ) :
    HermPeriodic (fun ky kx => congruentSum kv ⟨-(nk2:ℤ), -nk2, 2 * nk2 + 1, 2 * nk2 + 1⟩ (2 * m) (2 * m) kx ky) ((2 * m : ℕ) : ℤ) := by
  refine ⟨fun ky kx => ?_, fun ky kx => ?_, fun ky kx => ?_⟩
  · simp only [congruentSum, congr1_period]
  · simp only [congruentSum, congr1_period]
  · simp only [congruentSum]
    rw [congr1_neg nk2 (2 * m) ky, star_sum]
    refine sum_congr rfl fun Y _ => ?_
    rw [congr1_neg nk2 (2 * m) kx, star_sum]
    exact sum_congr rfl fun X _ => hk X Y

/-- C73: the pixel of `drawFFT` at `(x, y)` is the inverse Fourier sum over *all* the modes the profile was
evaluated at, also when the modes were wrapped to a smaller period. -/
theorem C73_mode_sum (kv : ℤ → ℤ → ℂ) (hk : ∀ X Y, kv (-X) (-Y) = star (kv X Y)) (nk2 m : ℕ) (hm : 0 < m) (hmn : m ≤ nk2)
    (k : Arr ℂ) (kh : k.h = 2 * nk2 + 1) (kw : k.w = nk2 + 1)
    (hv : ∀ X Y : ℤ, 0 ≤ X → X ≤ nk2 → -(nk2:ℤ) ≤ Y → Y ≤ nk2 → k.at' (Y + nk2).toNat X.toNat = kv X Y) (i j : ℕ) :
    (finishReal k nk2 m).h = 2 * m ∧ (finishReal k nk2 m).w = 2 * m ∧
    (((finishReal k nk2 m).at' i j : ℝ) : ℂ) =
      (∑ Y ∈ Icc (-(nk2:ℤ)) nk2, ∑ X ∈ Icc (-(nk2:ℤ)) nk2,
        kv X Y * Complex.exp (Complex.I * (Real.pi / m * (X * ((j:ℤ) - m) + Y * ((i:ℤ) - m) : ℤ) : ℝ))) / (2 * m : ℕ) ^ 2 := by
  have hN : 0 < 2 * m := by omega
  have hN' : (0:ℤ) < ((2 * m : ℕ) : ℤ) := by exact_mod_cast hN
  have hmc : (m:ℂ) ≠ 0 := by exact_mod_cast hm.ne'
  refine ⟨rfl, rfl, ?_⟩
  have hG := aliased_herm kv hk nk2 m
  obtain ⟨G, hGd⟩ : ∃ G : ℤ → ℤ → ℂ, G = fun ky kx => congruentSum kv ⟨-(nk2:ℤ), -nk2, 2 * nk2 + 1, 2 * nk2 + 1⟩ (2 * m) (2 * m) kx ky :=
    ⟨_, rfl⟩
  rw [← hGd] at hG
  obtain ⟨w, hw⟩ : ∃ w, w = imageWrap 1 k ⟨0, -nk2, nk2 + 1, 2 * nk2 + 1⟩ ⟨0, -m, m + 1, 2 * m⟩ := ⟨_, rfl⟩
  obtain ⟨sub, hsub⟩ : ∃ sub : Arr ℂ, sub = ⟨2 * m, m + 1, fun i j => w.at' (nk2 - m + i) j⟩ := ⟨_, rfl⟩
  have hf : finishReal k nk2 m = fftshift (irfft2 (ifftshift0 sub) m) := by rw [hsub, hw]; rfl
  have hs : ∀ a b : ℕ, a < 2 * m → b ≤ m → sub.at' a b = G ((a:ℤ) - m) b := by
    intro a b ha hb
    have := C18_hermitian_x k ⟨0, -nk2, nk2 + 1, 2 * nk2 + 1⟩ ⟨0, -m, m + 1, 2 * m⟩ kw kh rfl rfl (by simp; ring)
      (by simp; omega) (by simp; omega) hN (by simp; omega) (by simp; omega) b ((a:ℤ) - m) (by
        unfold Rect.mem; simp; omega)
    rw [← hw] at this
    unfold pixel at this
    simp only at this
    rw [show ((a:ℤ) - m - -(nk2:ℤ)).toNat = nk2 - m + a by omega, show ((b:ℤ) - 0).toNat = b by omega] at this
    rw [hsub]
    simp only
    rw [this, hGd]
    simp only
    have er : (⟨-(((nk2 + 1 : ℕ):ℤ) - 1), -(nk2:ℤ), 2 * (nk2 + 1) - 1, 2 * nk2 + 1⟩ : Rect) = ⟨-(nk2:ℤ), -nk2, 2 * nk2 + 1, 2 * nk2 + 1⟩ := by
      rw [Rect.mk.injEq]; refine ⟨by push_cast; ring, rfl, by omega, rfl⟩
    rw [er, show 2 * (m + 1 - 1) = 2 * m by omega]
    refine congruentSum_congr _ _ _ _ _ _ _ fun X Y hXY => ?_
    unfold Rect.mem at hXY
    simp only at hXY
    push_cast at hXY
    unfold hermExtX
    split_ifs with h0
    · have := hv X Y h0 (by omega) (by omega) (by omega)
      simp only
      rw [sub_zero, sub_neg_eq_add]; exact this
    · have := hv (-X) (-Y) (by omega) (by omega) (by omega) (by omega)
      simp only
      rw [sub_zero, sub_neg_eq_add, this, ← hk, neg_neg, neg_neg]
  have hsub0 : sub.h = 2 * m := by rw [hsub]
  have hshift : ∀ a b : ℕ, a < 2 * m → b ≤ m → (ifftshift0 sub).at' a b = G a b := by
    intro a b _ hb
    unfold ifftshift0
    simp only [hsub0, show 2 * m / 2 = m by omega]
    have := shifted_half m hm G hG sub hs a b hb
    rwa [show (((a:ℤ) - m) % ((2 * m : ℕ) : ℤ)) = (((a:ℤ) + m) % ((2 * m : ℕ) : ℤ)) by
      rw [show (a:ℤ) + m = (a - m) + ((2 * m : ℕ) : ℤ) by push_cast; ring, Int.add_emod_right]] at this
  rw [hf, shifted_irfft2 m hm G hG (ifftshift0 sub) hsub0 hshift i j]
  congr 1
  have ex : ∀ Y X : ℤ, Complex.exp (Complex.I * (Real.pi / m * (X * ((j:ℤ) - m) + Y * ((i:ℤ) - m) : ℤ) : ℝ)) =
      root (2 * m) (X * ((j:ℤ) - m) + Y * ((i:ℤ) - m)) := by
    intro Y X
    unfold root; congr 1; push_cast; field_simp
  simp only [ex]
  have eG : ∀ ky kx : ℕ, G ky kx * root (2 * m) (kx * ((j:ℤ) - m) + ky * ((i:ℤ) - m)) =
      ∑ Y ∈ congr1 (-(nk2:ℤ)) (2 * nk2 + 1) (2 * m) ky, ∑ X ∈ congr1 (-(nk2:ℤ)) (2 * nk2 + 1) (2 * m) kx,
        kv X Y * root (2 * m) (X * ((j:ℤ) - m) + Y * ((i:ℤ) - m)) := by
    intro ky kx
    rw [hGd]
    simp only [congruentSum]
    rw [sum_mul]
    refine sum_congr rfl fun Y hY => ?_
    rw [sum_mul]
    refine sum_congr rfl fun X hX => ?_
    unfold congr1 at hX hY
    rw [mem_filter] at hX hY
    obtain ⟨q, hq⟩ := hX.2
    obtain ⟨p, hp⟩ := hY.2
    rw [show X * ((j:ℤ) - m) + Y * ((i:ℤ) - m) = kx * ((j:ℤ) - m) + ky * ((i:ℤ) - m) +
      ((2 * m : ℕ):ℤ) * (q * ((j:ℤ) - m) + p * ((i:ℤ) - m)) by
        rw [show X = kx + ((2 * m : ℕ):ℤ) * q by rw [← hq]; ring, show Y = ky + ((2 * m : ℕ):ℤ) * p by rw [← hp]; ring]; ring,
      root_period _ hN]
  simp only [eG]
  have toI : ∀ f : ℤ → ℂ, ∑ t ∈ range (2 * m), f t = ∑ t ∈ Ico (0:ℤ) (0 + ((2 * m : ℕ):ℤ)), f t := by
    intro f
    refine sum_nbij' (fun t => (t:ℤ)) (fun t => t.toNat) ?_ ?_ ?_ ?_ ?_
    · intro t ht; rw [mem_range] at ht; rw [mem_Ico]; omega
    · intro t ht; rw [mem_Ico] at ht; rw [mem_range]; omega
    · intro t _; simp
    · intro t ht; rw [mem_Ico] at ht; omega
    · intro t _; rfl
  have eI : Icc (-(nk2:ℤ)) nk2 = Ico (-(nk2:ℤ)) (-(nk2:ℤ) + ((2 * nk2 + 1 : ℕ):ℤ)) := by
    ext t; rw [mem_Icc, mem_Ico]; push_cast; omega
  rw [eI, ← sum_congr1 _ _ _ (2 * m) hN 0, ← toI fun Y => ∑ X' ∈ congr1 (-(nk2:ℤ)) (2 * nk2 + 1) (2 * m) Y,
    ∑ X ∈ Ico (-(nk2:ℤ)) (-(nk2:ℤ) + ((2 * nk2 + 1 : ℕ):ℤ)), kv X X' * root (2 * m) (X * ((j:ℤ) - m) + X' * ((i:ℤ) - m))]
  refine sum_congr rfl fun ky _ => ?_
  rw [sum_comm]
  refine sum_congr rfl fun Y _ => ?_
  rw [← sum_congr1 _ _ _ (2 * m) hN 0, ← toI fun X => ∑ X' ∈ congr1 (-(nk2:ℤ)) (2 * nk2 + 1) (2 * m) X,
    kv X' Y * root (2 * m) (X' * ((j:ℤ) - m) + Y * ((i:ℤ) - m))]

/-- C73: the pixels of the full FFT image add up to the sum of the Fourier values at the modes that are
multiples of the period in both directions; with no wrapping that is the value at `k = 0`, the flux. -/
theorem C73_total_flux (kv : ℤ → ℤ → ℂ) (hk : ∀ X Y, kv (-X) (-Y) = star (kv X Y)) (nk2 m : ℕ) (hm : 0 < m) (hmn : m ≤ nk2)
    (k : Arr ℂ) (kh : k.h = 2 * nk2 + 1) (kw : k.w = nk2 + 1)
    (hv : ∀ X Y : ℤ, 0 ≤ X → X ≤ nk2 → -(nk2:ℤ) ≤ Y → Y ≤ nk2 → k.at' (Y + nk2).toNat X.toNat = kv X Y) :
    (((∑ i ∈ range (2 * m), ∑ j ∈ range (2 * m), (finishReal k nk2 m).at' i j : ℝ)) : ℂ) =
      (∑ Y ∈ (Icc (-(nk2:ℤ)) nk2).filter (fun Y => 2 * (m:ℤ) ∣ Y), ∑ X ∈ (Icc (-(nk2:ℤ)) nk2).filter (fun X => 2 * (m:ℤ) ∣ X), kv X Y) ∧
    (nk2 < 2 * m → (((∑ i ∈ range (2 * m), ∑ j ∈ range (2 * m), (finishReal k nk2 m).at' i j : ℝ)) : ℂ) = kv 0 0) := by
  have hN : 0 < 2 * m := by omega
  have hmc : (m:ℂ) ≠ 0 := by exact_mod_cast hm.ne'
  have main : (((∑ i ∈ range (2 * m), ∑ j ∈ range (2 * m), (finishReal k nk2 m).at' i j : ℝ)) : ℂ) =
      (∑ Y ∈ (Icc (-(nk2:ℤ)) nk2).filter (fun Y => 2 * (m:ℤ) ∣ Y), ∑ X ∈ (Icc (-(nk2:ℤ)) nk2).filter (fun X => 2 * (m:ℤ) ∣ X), kv X Y) := by
    push_cast
    simp only [(C73_mode_sum kv hk nk2 m hm hmn k kh kw hv _ _).2.2]
    have ex : ∀ (i j : ℕ) (Y X : ℤ), Complex.exp (Complex.I * (Real.pi / m * (X * ((j:ℤ) - m) + Y * ((i:ℤ) - m) : ℤ) : ℝ)) =
        root (2 * m) (X * ((j:ℤ) - m)) * root (2 * m) (Y * ((i:ℤ) - m)) := by
      intro i j Y X
      rw [← root_add]
      unfold root; congr 1; push_cast; field_simp
    simp only [ex, ← sum_div]
    have orth : ∀ Y : ℤ, ∑ i ∈ range (2 * m), root (2 * m) (Y * ((i:ℤ) - m)) = if 2 * (m:ℤ) ∣ Y then ((2 * m : ℕ) : ℂ) else 0 := by
      intro Y
      have e : ∀ i : ℕ, root (2 * m) (Y * ((i:ℤ) - m)) = root (2 * m) (i * Y) * root (2 * m) (-(Y * m)) := by
        intro i; rw [← root_add]; congr 1; ring
      simp only [e, ← sum_mul]
      rw [root_sum _ hN]
      push_cast
      split_ifs with hd
      · obtain ⟨q, rfl⟩ := hd
        rw [show -(2 * (m:ℤ) * q * m) = ((2 * m : ℕ):ℤ) * (-(q * m)) by push_cast; ring, root_dvd _ hN, mul_one]
      · rw [zero_mul]
    have step : ∑ i ∈ range (2 * m), ∑ j ∈ range (2 * m), ∑ Y ∈ Icc (-(nk2:ℤ)) nk2, ∑ X ∈ Icc (-(nk2:ℤ)) nk2,
          kv X Y * (root (2 * m) (X * ((j:ℤ) - m)) * root (2 * m) (Y * ((i:ℤ) - m))) =
        ∑ Y ∈ Icc (-(nk2:ℤ)) nk2, ∑ X ∈ Icc (-(nk2:ℤ)) nk2, kv X Y *
          ((∑ j ∈ range (2 * m), root (2 * m) (X * ((j:ℤ) - m))) * ∑ i ∈ range (2 * m), root (2 * m) (Y * ((i:ℤ) - m))) := by
      have h1 : ∀ i ∈ range (2 * m), ∑ j ∈ range (2 * m), ∑ Y ∈ Icc (-(nk2:ℤ)) nk2, ∑ X ∈ Icc (-(nk2:ℤ)) nk2,
          kv X Y * (root (2 * m) (X * ((j:ℤ) - m)) * root (2 * m) (Y * ((i:ℤ) - m))) =
          ∑ Y ∈ Icc (-(nk2:ℤ)) nk2, ∑ X ∈ Icc (-(nk2:ℤ)) nk2, ∑ j ∈ range (2 * m),
          kv X Y * (root (2 * m) (X * ((j:ℤ) - m)) * root (2 * m) (Y * ((i:ℤ) - m))) := by
        intro i _
        rw [sum_comm]
        exact sum_congr rfl fun Y _ => sum_comm
      rw [sum_congr rfl h1, sum_comm]
      refine sum_congr rfl fun Y _ => ?_
      rw [sum_comm]
      refine sum_congr rfl fun X _ => ?_
      simp only [sum_mul, mul_sum]
    rw [step]
    simp only [orth]
    rw [sum_filter, sum_div]
    refine sum_congr rfl fun Y _ => ?_
    split_ifs with hY
    · rw [sum_filter, sum_div]
      refine sum_congr rfl fun X _ => ?_
      split_ifs with hX
      · push_cast; field_simp
      · simp
    · simp
  refine ⟨main, fun hlt => ?_⟩
  have single : (Icc (-(nk2:ℤ)) nk2).filter (fun Y => 2 * (m:ℤ) ∣ Y) = {0} := by
    ext t
    rw [mem_filter, mem_Icc, mem_singleton]
    constructor
    · rintro ⟨⟨t0, t1⟩, q, rfl⟩
      rcases lt_trichotomy q 0 with h | h | h
      · have : 2 * (m:ℤ) * q ≤ 2 * m * (-1) := mul_le_mul_of_nonneg_left (by omega) (by omega)
        omega
      · rw [h, mul_zero]
      · have : 2 * (m:ℤ) * 1 ≤ 2 * m * q := mul_le_mul_of_nonneg_left (by omega) (by omega)
        omega
    · rintro rfl; exact ⟨by omega, dvd_zero _⟩
  rw [main, single, sum_singleton, sum_singleton]

/-! ### The Fourier values of an interpolated image -/

/-- C55: at every mode of the grid (also beyond the stored half) the Fourier value of an interpolated image
is the Fourier sum of its pixels shifted by the offset, times the transform of the real-space kernel in
both directions, provided the kernel range covers the mode. -/
theorem C55_kvalue_on_grid (K : ℕ → ℕ → ℝ) (k : Kernel) (hk : k.Local) (hn : ∀ n d, k = .lanczos n d → 1 ≤ n)
    (kval : ℝ → ℝ) (urange : ℝ) (im : Image) (h : im.Live) (hi : im.isInt = false) (ox oy : ℝ) (a b : ℤ)
    (hu : |(a:ℝ)| ≤ (fftNo2 im.bounds : ℝ) * 2 * urange ∧ |(b:ℝ)| ≤ (fftNo2 im.bounds : ℝ) * 2 * urange) :
    ∃ (z : Arr ℂ) (dk : ℝ), calculateFft im 1 = .ok (z, dk) ∧
      kValueArr kval urange (k.xval K) k.ixrange ⟨z.h, z.w - 1, z.at'⟩ (-fftNo2 im.bounds) dk ox oy (b * dk) (a * dk) =
        (kval (b * dk) * kval (a * dk) : ℝ) *
          ∑ y ∈ Ico im.bounds.ymin (im.bounds.ymin + im.bounds.deltay),
            ∑ x ∈ Ico im.bounds.xmin (im.bounds.xmin + im.bounds.deltax),
              (((coordMap im x y).getD 0 : ℝ) : ℂ) * Complex.exp (-(Complex.I * ((b * dk) * (x - ox) + (a * dk) * (y - oy) : ℝ))) := by
  obtain ⟨m', x, hm', hno', hx, hh, hw, hin, hp⟩ := ximage_spec im h hi
  obtain ⟨m, z, dk, hm, hno, hz, zh, zw, hdk, hval⟩ := C72_forward im h hi 1 one_pos
  have : m' = m := by omega
  subst this
  have hmr : (m':ℝ) ≠ 0 := by positivity
  have hpi := Real.pi_pos
  have hdk' : dk = Real.pi / m' := by field_simp; linarith
  have hdk0 : 0 < dk := by rw [hdk']; positivity
  refine ⟨z, dk, hz, ?_⟩
  have hF := boxDft_herm m' hm (fun y x => (coordMap im x y).getD 0)
  have hzn : z.w - 1 = m' := by omega
  have hst : (⟨z.h, z.w - 1, z.at'⟩ : KHalf).Stores (boxDft m' fun y x => (coordMap im x y).getD 0) := by
    refine ⟨?_, ?_⟩
    · simp only; omega
    · intro j i hj hi'
      simp only at hj hi' ⊢
      rw [hval j i (by omega) (by omega), hzn, boxDft_ftSum im h m' hm hin, hdk']
      simp
  have hmode := C55_at_modes K k hk hn ⟨z.h, z.w - 1, z.at'⟩ _ (by simp only; omega) (by simp only; rw [zh]; exact hF) hst a b
  simp only [hzn] at hmode
  unfold kValueArr
  simp only [hzn, ← hno]
  have d1 : (b:ℝ) * dk / dk = b := by field_simp
  have d2 : (a:ℝ) * dk / dk = a := by field_simp
  rw [d1, d2, if_pos, hmode, boxDft_ftSum im h m' hm hin]
  · unfold ftSum
    rw [mul_sum, sum_mul, sum_mul]
    refine sum_congr rfl fun y _ => ?_
    rw [mul_sum, sum_mul, sum_mul]
    refine sum_congr rfl fun x _ => ?_
    rw [show -(Complex.I * ((b * dk) * (x - ox) + (a * dk) * (y - oy) : ℝ)) =
      -(Complex.I * ((b * (Real.pi / m')) * x + (a * (Real.pi / m')) * y : ℝ)) + Complex.I * ((b * dk) * ox + (a * dk) * oy : ℝ) by
        rw [hdk']; push_cast; ring, Complex.exp_add]
    ring
  · have e : urange / (1 / (2 * Real.pi)) / dk = m' * 2 * urange := by rw [hdk']; field_simp
    rw [e]
    rw [← hno] at hu
    push_cast at hu
    exact ⟨hu.2, hu.1⟩

/-! ### Non-trivial cases -/

/-- A 2 × 1 float image away from the origin. -/
noncomputable def exIm : Image :=
  ⟨⟨1, 2, fun i j => if i = 0 ∧ j = 0 then 3 else 5⟩, Bounds.mkDelta clsI ⟨1, true⟩ ⟨2, true⟩ ⟨-1, true⟩ ⟨1, true⟩, some false, false⟩

theorem exIm_live : exIm.Live := by
  refine ⟨?_, ?_, ?_, rfl, rfl⟩
  · unfold exIm Bounds.OK Bounds.mkDelta Bounds.finish
    simp [clsI]
  · intro _
    simp [exIm, Bounds.mkDelta, Bounds.finish, Bounds.numpyShape, clsI]
  · simp [exIm, Bounds.mkDelta, Bounds.finish, clsI]

example : fftNo2 exIm.bounds = 3 := by simp [exIm, fftNo2, Bounds.mkDelta, Bounds.finish]

example : ∃ (m : ℕ) (z : Arr ℂ) (dk : ℝ), (m:ℤ) = fftNo2 exIm.bounds ∧ calculateFft exIm 2 = .ok (z, dk) ∧ (inverseFft z m dk).2 = 2 := by
  obtain ⟨m, z, dk, h1, h2, h3, _⟩ := C72_round_trip exIm exIm_live rfl 2 two_pos
  exact ⟨m, z, dk, h1, h2, h3⟩

/-- A shifted point source: Hermitian modes that are not real. -/
noncomputable def exModes (X Y : ℤ) : ℂ := Complex.exp (Complex.I * (X + 2 * Y : ℝ))

theorem exModes_herm (X Y : ℤ) : exModes (-X) (-Y) = star (exModes X Y) := by
  unfold exModes
  rw [show star (Complex.exp (Complex.I * ((X:ℝ) + 2 * (Y:ℝ) : ℝ))) = Complex.exp (star (Complex.I * ((X:ℝ) + 2 * (Y:ℝ) : ℝ))) from
    (Complex.exp_conj _).symm, star_mul']
  congr 1
  rw [show star Complex.I = -Complex.I from Complex.conj_I,
    show star (((X:ℝ) + 2 * (Y:ℝ) : ℝ) : ℂ) = (((X:ℝ) + 2 * (Y:ℝ) : ℝ) : ℂ) from Complex.conj_ofReal _]
  push_cast; ring

example : (((∑ i ∈ range (2 * 2), ∑ j ∈ range (2 * 2),
    (finishReal ⟨7, 4, fun i j => exModes j ((i:ℤ) - 3)⟩ 3 2).at' i j : ℝ)) : ℂ) = 1 := by
  have := (C73_total_flux exModes exModes_herm 3 2 (by norm_num) (by norm_num) ⟨7, 4, fun i j => exModes j ((i:ℤ) - 3)⟩ rfl rfl
    (by
      intro X Y x0 x1 y0 y1
      show exModes (X.toNat : ℤ) (((Y + (3:ℕ)).toNat : ℤ) - 3) = _
      congr 1 <;> omega)).2 (by norm_num)
  rw [this]; unfold exModes; simp

end JG.Fft
