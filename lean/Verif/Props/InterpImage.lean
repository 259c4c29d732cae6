import Verif.Model.InterpImage
import Verif.Props.Interpolant
import Verif.Props.ImagePix
import Verif.Props.FftSize
import Mathlib.Algebra.BigOperators.Intervals
import Mathlib.Data.Sign.Basic
import Mathlib.Analysis.SpecialFunctions.Complex.Log

/-!
C54–C57: evaluation of an interpolated image in real and Fourier space, the padded working image and
the flux-enclosing size.
-/

namespace JG.Interp

/-! ### C54: real space -/

/-- Specification of C54: every pixel spread with the kernel. -/
noncomputable def kernelSum (f : ℝ → ℝ) (z : Arr ℝ) (xmin ymin : ℤ) (x y : ℝ) : ℝ :=
  ∑ i ∈ Finset.range z.h, ∑ j ∈ Finset.range z.w, z.at' i j * f (x - (xmin + j)) * f (y - (ymin + i))

theorem sum_masked (n : ℕ) (S : Finset ℤ) (F : ℤ → ℝ) (hF : ∀ j : ℤ, 0 ≤ j → j < n → j ∉ S → F j = 0) :
    ∑ m ∈ S, (if 0 ≤ m ∧ m < n then F m else 0) = ∑ j ∈ Finset.range n, F j := by
  have h1 : ∑ m ∈ S, (if 0 ≤ m ∧ m < n then F m else 0) =
      ∑ m ∈ Finset.Ico (0:ℤ) n, F m := by
    rw [← Finset.sum_filter]
    refine Finset.sum_subset (fun m hm => ?_) (fun m hm hn => ?_)
    · rw [Finset.mem_filter] at hm; exact Finset.mem_Ico.mpr hm.2
    · rw [Finset.mem_Ico] at hm
      refine hF m hm.1 hm.2 fun hS => hn (Finset.mem_filter.mpr ⟨hS, hm⟩)
  rw [h1]
  symm
  refine Finset.sum_bij (fun j _ => (j:ℤ)) ?_ ?_ ?_ ?_
  · intro j hj; rw [Finset.mem_range] at hj; rw [Finset.mem_Ico]; omega
  · intro a _ b _ h; exact_mod_cast h
  · intro m hm; rw [Finset.mem_Ico] at hm
    exact ⟨m.toNat, by rw [Finset.mem_range]; omega, by omega⟩
  · intro j _; rfl

/-- One dimension: the window of the code reaches every pixel on which the kernel does not vanish. -/
theorem sum_weightX (f : ℝ → ℝ) (r : ℤ) (hz : ∀ t, (r:ℝ) < |t| → f t = 0) (n : ℕ) (xmin : ℤ) (x : ℝ)
    (g : ℤ → ℝ) :
    ∑ io ∈ Finset.Icc (-r) r, weightX f ⌊x - xmin⌋ ((⌊x - xmin⌋ : ℝ) + xmin) x n io * g (⌊x - xmin⌋ + io) =
      ∑ j ∈ Finset.range n, f (x - (xmin + j)) * g j := by
  have hl := Int.floor_le (x - xmin)
  have hu := Int.lt_floor_add_one (x - xmin)
  generalize ⌊x - xmin⌋ = m at *
  have h1 : ∑ io ∈ Finset.Icc (-r) r, weightX f m ((m : ℝ) + xmin) x n io * g (m + io) =
      ∑ l ∈ Finset.Icc (m - r) (m + r), if 0 ≤ l ∧ l < n then f (x - (xmin + l)) * g l else 0 := by
    refine Finset.sum_bij (fun io _ => m + io) ?_ ?_ ?_ ?_
    · intro a ha; rw [Finset.mem_Icc] at *; omega
    · intro a _ b _ h; omega
    · intro l hl; rw [Finset.mem_Icc] at hl
      exact ⟨l - m, by rw [Finset.mem_Icc]; omega, by omega⟩
    · intro a _
      unfold weightX
      simp only
      split_ifs with hc
      · rw [show x - ((m:ℝ) + xmin + a) = x - (xmin + ((m + a : ℤ) : ℝ)) by push_cast; ring]
      · rw [zero_mul]
  rw [h1, sum_masked n _ (fun l => f (x - (xmin + l)) * g l)]
  · simp
  · intro j h0 hn hj
    have : (r:ℝ) < |x - (xmin + j)| := by
      rw [Finset.mem_Icc, not_and_or] at hj
      rw [lt_abs]
      rcases hj with hj | hj
      · left
        have : (j:ℝ) + 1 ≤ m - r := by exact_mod_cast (by omega : j + 1 ≤ m - r)
        linarith
      · right
        have : (m:ℝ) + r + 1 ≤ j := by exact_mod_cast (by omega : m + r + 1 ≤ j)
        linarith
    show f (x - (xmin + j)) * g j = 0
    rw [hz _ this, zero_mul]

theorem get_nat (a : Arr ℝ) (i j : ℕ) (hi : i < a.h) (hj : j < a.w) : a.get i j = a.at' i j := by
  unfold Arr.get normIdx
  rw [if_neg (by omega), if_neg (by omega)]
  congr 1 <;> omega

/-- The general form: any kernel which vanishes beyond the half window. -/
theorem drawXval_eq (f : ℝ → ℝ) (ix : ℤ) (hz : ∀ t, ((ix / 2 : ℤ) : ℝ) < |t| → f t = 0)
    (z : Arr ℝ) (xmin ymin : ℤ) (x y : ℝ) :
    drawXval f ix z xmin ymin x y = kernelSum f z xmin ymin x y := by
  unfold drawXval
  simp only
  have h1 : ∀ jo : ℤ, ∑ io ∈ Finset.Icc (-(ix / 2)) (ix / 2),
      weightX f ⌊x - xmin⌋ ((⌊x - xmin⌋ : ℝ) + xmin) x z.w io *
        weightX f ⌊y - ymin⌋ ((⌊y - ymin⌋ : ℝ) + ymin) y z.h jo * z.get (⌊y - ymin⌋ + jo) (⌊x - xmin⌋ + io) =
      weightX f ⌊y - ymin⌋ ((⌊y - ymin⌋ : ℝ) + ymin) y z.h jo *
        ∑ j ∈ Finset.range z.w, f (x - (xmin + j)) * z.get (⌊y - ymin⌋ + jo) j := by
    intro jo
    rw [← sum_weightX f (ix / 2) hz z.w xmin x (fun l => z.get (⌊y - ymin⌋ + jo) l), Finset.mul_sum]
    exact Finset.sum_congr rfl fun _ _ => by ring
  rw [Finset.sum_congr rfl fun jo _ => h1 jo]
  rw [sum_weightX f (ix / 2) hz z.h ymin y
    (fun l => ∑ j ∈ Finset.range z.w, f (x - (xmin + j)) * z.get l j)]
  unfold kernelSum
  refine Finset.sum_congr rfl fun i hi => ?_
  rw [Finset.mul_sum]
  refine Finset.sum_congr rfl fun j hj => ?_
  rw [Finset.mem_range] at hi hj
  rw [get_nat z i j hi hj]
  ring

/-- The kernels whose window is wide enough. -/
def Kernel.Local : Kernel → Prop
  | .linear | .cubic | .quintic | .lanczos _ _ => True
  | _ => False

theorem local_window (K : ℕ → ℕ → ℝ) (k : Kernel) (hk : k.Local) (t : ℝ)
    (ht : ((k.ixrange / 2 : ℤ) : ℝ) < |t|) : k.xval K t = 0 := by
  refine C53_support K k (fun v h => by subst h; exact hk) (fun v h => by subst h; exact hk) t ?_
  cases k with
  | delta v => exact hk.elim
  | nearest => exact hk.elim
  | sinc v => exact hk.elim
  | linear => simpa [Kernel.ixrange, Kernel.xrange] using ht
  | cubic => simpa [Kernel.ixrange, Kernel.xrange] using ht
  | quintic => simpa [Kernel.ixrange, Kernel.xrange] using ht
  | lanczos n d => simpa [Kernel.ixrange, Kernel.xrange] using ht

/-- C54: with `Linear`, `Cubic`, `Quintic` and `Lanczos` the value at any point is the sum over all
pixels of the image of pixel value times kernel.  Missing for the full claim: `Nearest`, `Delta` and
`Sinc` (see the counterexamples). -/
theorem C54_kernel_sum_partial (K : ℕ → ℕ → ℝ) (k : Kernel) (hk : k.Local) (z : Arr ℝ) (xmin ymin : ℤ)
    (x y : ℝ) :
    drawXval (k.xval K) k.ixrange z xmin ymin x y = kernelSum (k.xval K) z xmin ymin x y :=
  drawXval_eq _ _ (fun t ht => local_window K k hk t ht) z xmin ymin x y

/-- C54: at the centre of a pixel the interpolated image has the value of that pixel, for every kernel
but `Delta`; between the pixels of the array the value is not constrained. -/
theorem C54_at_pixels (K : ℕ → ℕ → ℝ) (k : Kernel) (hk : ∀ v, k ≠ .delta v)
    (hs : ∀ v, k = .sinc v → 0 < v) (hn : ∀ n d, k = .lanczos n d → 1 ≤ n)
    (z : Arr ℝ) (xmin ymin : ℤ) (i j : ℤ) :
    drawXval (k.xval K) k.ixrange z xmin ymin (xmin + j) (ymin + i) =
      if (0 ≤ i ∧ i < z.h) ∧ 0 ≤ j ∧ j < z.w then z.at' i.toNat j.toNat else 0 := by
  have hf := C53_interpolating K k hk hn
  have hr : 0 ≤ k.ixrange / 2 := by
    cases k with
    | delta v => exact absurd rfl (hk v)
    | sinc v =>
      simp only [Kernel.ixrange]
      have h1 := hs v rfl
      have : (0:ℝ) ≤ 1 / (Real.pi * v) := by have := Real.pi_pos; positivity
      have := Int.ceil_nonneg this
      omega
    | _ => simp only [Kernel.ixrange]; try omega
  have fx : ∀ (m a : ℤ), ⌊((m:ℝ) + a) - m⌋ = a := by intro m a; rw [add_sub_cancel_left, Int.floor_intCast]
  have w0 : ∀ (m a : ℤ) (n : ℕ), weightX (k.xval K) a ((a:ℝ) + m) (m + a) n 0 = if 0 ≤ a ∧ a < n then 1 else 0 := by
    intro m a n
    unfold weightX
    simp only [add_zero, Int.cast_zero]
    rw [show (m:ℝ) + a - (a + m) = 0 by ring, hf.1]
  have wn : ∀ (m a : ℤ) (n : ℕ) (b : ℤ), b ≠ 0 → weightX (k.xval K) a ((a:ℝ) + m) (m + a) n b = 0 := by
    intro m a n b hb
    unfold weightX
    simp only
    rw [show (m:ℝ) + a - (a + m + b) = ((-b : ℤ) : ℝ) by push_cast; ring, hf.2 (-b) (by omega), ite_self]
  unfold drawXval
  simp only [fx]
  rw [Finset.sum_eq_single 0, Finset.sum_eq_single 0, w0, w0]
  · by_cases hi : 0 ≤ i ∧ i < z.h
    · by_cases hj : 0 ≤ j ∧ j < z.w
      · rw [if_pos hi, if_pos hj, if_pos ⟨hi, hj⟩, one_mul, one_mul, add_zero, add_zero]
        have := get_nat z i.toNat j.toNat (by omega) (by omega)
        rwa [Int.toNat_of_nonneg hi.1, Int.toNat_of_nonneg hj.1] at this
      · rw [if_neg hj, if_neg (show ¬ ((0 ≤ i ∧ i < (z.h:ℤ)) ∧ 0 ≤ j ∧ j < (z.w:ℤ)) from fun h => hj h.2)]; ring
    · rw [if_neg hi, if_neg (show ¬ ((0 ≤ i ∧ i < (z.h:ℤ)) ∧ 0 ≤ j ∧ j < (z.w:ℤ)) from fun h => hi h.1)]; ring
  · intro b _ hb; rw [wn _ _ _ b hb]; ring
  · intro h; exact absurd (Finset.mem_Icc.mpr ⟨by omega, hr⟩) h
  · intro b _ hb
    refine Finset.sum_eq_zero fun c _ => ?_
    rw [wn ymin i _ b hb]; ring
  · intro h; exact absurd (Finset.mem_Icc.mpr ⟨by omega, hr⟩) h

/-- Disagreement: with `Nearest` the window of `_draw_with_interpolant_xval` has only the pixel below the
point (`ixrange // 2 = 0`), so a point more than half a pixel above it gets 0 instead of the value of
the pixel above.  Here the image is constant 1 and the point is `(0.75, 0)`. -/
theorem C54_counterexample_nearest :
    drawXval (Kernel.nearest.xval fun _ _ => 0) Kernel.nearest.ixrange ⟨1, 3, fun _ _ => 1⟩ 0 0 (3 / 4) 0 = 0 ∧
    kernelSum (Kernel.nearest.xval fun _ _ => 0) ⟨1, 3, fun _ _ => 1⟩ 0 0 (3 / 4) 0 = 1 := by
  constructor
  · unfold drawXval
    simp only [Kernel.ixrange]
    rw [show Finset.Icc (-((1:ℤ) / 2)) (1 / 2) = {0} by decide, Finset.sum_singleton, Finset.sum_singleton]
    have e : ⌊((3:ℝ) / 4) - ((0:ℤ):ℝ)⌋ = 0 := by rw [Int.floor_eq_iff]; norm_num
    rw [e]
    unfold weightX
    have : Kernel.nearest.xval (fun _ _ => 0) (3 / 4 - (((0:ℤ):ℝ) + ((0:ℤ):ℝ) + ((0:ℤ):ℝ))) = 0 := by
      simp only [Kernel.xval]; rw [if_pos]; norm_num [abs_of_pos]
    simp only [this, ite_self, zero_mul]
  · unfold kernelSum
    simp only [Finset.sum_range_succ, Finset.sum_range_zero]
    have a1 : |(3:ℝ) / 4| = 3 / 4 := abs_of_pos (by norm_num)
    have a2 : |(3:ℝ) / 4 - 1| = 1 / 4 := by rw [abs_of_neg] <;> norm_num
    have a3 : |(3:ℝ) / 4 - 2| = 5 / 4 := by rw [abs_of_neg] <;> norm_num
    simp [Kernel.xval, a1, a2, a3]
    norm_num

/-- Non-vacuity of `C54_kernel_sum_partial`. -/
example : (Kernel.lanczos 3 true).Local ∧ Kernel.cubic.Local := ⟨trivial, trivial⟩

/-- C54 on a 2×2 image with the linear kernel: the middle is the mean of the four pixels. -/
example : drawXval (Kernel.linear.xval fun _ _ => 0) 2 ⟨2, 2, fun i j => (i + 2 * j : ℕ)⟩ 5 7 (11 / 2) (15 / 2) = 3 / 2 := by
  have h := C54_kernel_sum_partial (fun _ _ => 0) .linear trivial ⟨2, 2, fun i j => (i + 2 * j : ℕ)⟩ 5 7 (11 / 2) (15 / 2)
  rw [Kernel.ixrange] at h
  rw [h]
  unfold kernelSum
  simp only [Finset.sum_range_succ, Finset.sum_range_zero]
  have a1 : |(11:ℝ) / 2 - 5| = 1 / 2 := by rw [abs_of_pos] <;> norm_num
  have a2 : |(11:ℝ) / 2 - (5 + 1)| = 1 / 2 := by rw [abs_of_neg] <;> norm_num
  have a3 : |(15:ℝ) / 2 - 7| = 1 / 2 := by rw [abs_of_pos] <;> norm_num
  have a4 : |(15:ℝ) / 2 - (7 + 1)| = 1 / 2 := by rw [abs_of_neg] <;> norm_num
  simp [Kernel.xval, a1, a2, a3, a4]
  norm_num

/-! ### C55: Fourier space -/

/-- Specification: a Fourier image given at all pairs of integers `(ky, kx)`, periodic with period `N`
and Hermitian. -/
structure HermPeriodic (F : ℤ → ℤ → ℂ) (N : ℤ) : Prop where
  perY : ∀ a b, F (a + N) b = F a b
  perX : ∀ a b, F a (b + N) = F a b
  herm : ∀ a b, F (-a) (-b) = star (F a b)

/-- The half of it that is stored: rows `ky = -N/2 .. N/2 - 1`, columns `kx = 0 .. N/2`. -/
def KHalf.Stores (z : KHalf) (F : ℤ → ℤ → ℂ) : Prop :=
  z.nky = 2 * z.nkx2 ∧ ∀ j i : ℕ, j < z.nky → i ≤ z.nkx2 → z.at' j i = F (j - z.nkx2) i

theorem per_mul {F : ℤ → ℤ → ℂ} {N : ℤ} (h : HermPeriodic F N) (a b m n : ℤ) :
    F (a + m * N) (b + n * N) = F a b := by
  have hy : ∀ (m : ℤ) (a b : ℤ), F (a + m * N) b = F a b := by
    intro m
    induction m with
    | zero => intro a b; simp
    | succ m ih => intro a b; rw [← ih a b, ← h.perY (a + m * N) b]; congr 1; ring
    | pred m ih => intro a b; rw [← ih a b, ← h.perY (a + (-(m:ℤ) - 1) * N) b]; congr 1; ring
  have hx : ∀ (m : ℤ) (a b : ℤ), F a (b + m * N) = F a b := by
    intro m
    induction m with
    | zero => intro a b; simp
    | succ m ih => intro a b; rw [← ih a b, ← h.perX a (b + m * N)]; congr 1; ring
    | pred m ih => intro a b; rw [← ih a b, ← h.perX a (b + (-(m:ℤ) - 1) * N)]; congr 1; ring
  rw [hy, hx]

/-- C55: the entry fetched for the unwrapped index `(jy, jx)` is the full Fourier image at that mode,
whichever half of the plane it lies in and however often the index wraps around. -/
theorem C55_fetch (z : KHalf) (F : ℤ → ℤ → ℂ) (h0 : 0 < z.nkx2) (h : HermPeriodic F z.nky) (hs : z.Stores F)
    (jy jx : ℤ) :
    z.fetch (jy % z.nky) (jx % ((z.nkx2 : ℤ) * 2)) = F (jy - z.nkx2) (jx - z.nkx2) := by
  obtain ⟨e, hs⟩ := hs
  have eN : (z.nky : ℤ) = z.nkx2 * 2 := by rw [e]; push_cast; ring
  rw [← eN]
  have hN : (0:ℤ) < z.nky := by omega
  have dy := Int.emod_add_mul_ediv jy z.nky
  have dx := Int.emod_add_mul_ediv jx z.nky
  have y0 := Int.emod_nonneg jy hN.ne'
  have y1 := Int.emod_lt_of_pos jy hN
  have x0 := Int.emod_nonneg jx hN.ne'
  have x1 := Int.emod_lt_of_pos jx hN
  have key : F (jy - z.nkx2) (jx - z.nkx2) = F (jy % z.nky - z.nkx2) (jx % z.nky - z.nkx2) := by
    rw [← per_mul h (jy % z.nky - z.nkx2) (jx % z.nky - z.nkx2) (jy / z.nky) (jx / z.nky)]
    congr 1 <;> linarith
  rw [key]
  generalize jy % z.nky = a at *
  generalize jx % z.nky = b at *
  unfold KHalf.fetch
  simp only
  split_ifs with hb
  · have r0 := Int.emod_nonneg (z.nky - a) hN.ne'
    have r1 := Int.emod_lt_of_pos (z.nky - a) hN
    rw [hs _ _ (by omega) (by omega), ← h.herm, Int.toNat_of_nonneg r0, Int.toNat_of_nonneg (by omega)]
    by_cases ha : a = 0
    · subst ha
      rw [sub_zero, Int.emod_self, ← h.perY (0 - z.nkx2)]
      congr 1 <;> omega
    · rw [Int.emod_eq_of_lt (by omega) (by omega)]
      congr 1 <;> omega
  · rw [hs _ _ (by omega) (by omega), Int.toNat_of_nonneg y0, Int.toNat_of_nonneg (by omega)]

/-- Specification of C55: interpolation of the full periodic image over the modes in `T × S`. -/
noncomputable def fullSum (f : ℝ → ℝ) (F : ℤ → ℤ → ℂ) (T S : Finset ℤ) (kx ky : ℝ) : ℂ :=
  ∑ m ∈ T, ∑ l ∈ S, F m l * f (kx - l) * f (ky - m)

theorem sum_shift_window (f : ℝ → ℝ) (r : ℤ) (hz : ∀ t, (r:ℝ) < |t| → f t = 0) (kmin : ℤ) (k : ℝ) (G : ℤ → ℂ)
    (S : Finset ℤ) (hS : ∀ l : ℤ, f (k - l) ≠ 0 → l ∈ S) :
    ∑ io ∈ Finset.Icc (-r) r, G (⌊k - kmin⌋ + io + kmin) * f (k - ((⌊k - kmin⌋ : ℝ) + kmin + io)) =
      ∑ l ∈ S, G l * f (k - l) := by
  have hl := Int.floor_le (k - kmin)
  have hu := Int.lt_floor_add_one (k - kmin)
  generalize ⌊k - kmin⌋ = m at *
  have h1 : ∑ io ∈ Finset.Icc (-r) r, G (m + io + kmin) * f (k - ((m : ℝ) + kmin + io)) =
      ∑ l ∈ Finset.Icc (m + kmin - r) (m + kmin + r), G l * f (k - l) := by
    refine Finset.sum_bij (fun io _ => m + kmin + io) ?_ ?_ ?_ ?_
    · intro a ha; rw [Finset.mem_Icc] at *; omega
    · intro a _ b _ h; omega
    · intro l hl; rw [Finset.mem_Icc] at hl
      exact ⟨l - (m + kmin), by rw [Finset.mem_Icc]; omega, by omega⟩
    · intro a _
      rw [show m + a + kmin = m + kmin + a by ring]
      push_cast
      rfl
  rw [h1]
  have h2 : ∑ l ∈ S, G l * (f (k - l) : ℂ) = ∑ l ∈ S ∪ Finset.Icc (m + kmin - r) (m + kmin + r), G l * f (k - l) := by
    refine Finset.sum_subset Finset.subset_union_left fun l _ hn => ?_
    have : f (k - l) = 0 := by by_contra hc; exact hn (hS l hc)
    rw [this]; simp
  rw [h2]
  refine Finset.sum_subset Finset.subset_union_right fun l _ hn => ?_
  have : f (k - l) = 0 := by
    apply hz
    rw [Finset.mem_Icc, not_and_or] at hn
    rw [lt_abs]
    rcases hn with hj | hj
    · left
      have : (l:ℝ) + 1 ≤ m + kmin - r := by exact_mod_cast (by omega : l + 1 ≤ m + kmin - r)
      linarith
    · right
      have : (m:ℝ) + kmin + r + 1 ≤ l := by exact_mod_cast (by omega : m + kmin + r + 1 ≤ l)
      linarith
  rw [this]; simp

theorem drawKval_eq (f : ℝ → ℝ) (ix : ℤ) (hz : ∀ t, ((ix / 2 : ℤ) : ℝ) < |t| → f t = 0)
    (z : KHalf) (F : ℤ → ℤ → ℂ) (h0 : 0 < z.nkx2) (h : HermPeriodic F z.nky) (hs : z.Stores F)
    (kx ky : ℝ) (T S : Finset ℤ) (hT : ∀ l : ℤ, f (ky - l) ≠ 0 → l ∈ T) (hS : ∀ l : ℤ, f (kx - l) ≠ 0 → l ∈ S) :
    drawKval f ix z (-z.nkx2) (-z.nkx2) kx ky = fullSum f F T S kx ky := by
  unfold drawKval fullSum
  simp only
  rw [← sum_shift_window f (ix / 2) hz (-z.nkx2) ky (fun m => ∑ l ∈ S, F m l * f (kx - l)) T hT |>.trans
    (Finset.sum_congr rfl fun m _ => by rw [Finset.sum_mul])]
  refine Finset.sum_congr rfl fun jo _ => ?_
  rw [← sum_shift_window f (ix / 2) hz (-z.nkx2) kx (fun l => F _ l) S hS, Finset.sum_mul]
  refine Finset.sum_congr rfl fun io _ => ?_
  rw [C55_fetch z F h0 h hs]
  rfl

/-- C55: with `Linear`, `Cubic`, `Quintic` and `Lanczos` in k space the interpolated value is the sum of the
full Hermitian periodic Fourier image with the kernel, over any set of modes which misses none with a
nonzero kernel value.  Missing for the full claim: `Nearest`, `Delta`, `Sinc`. -/
theorem C55_full_sum_partial (K : ℕ → ℕ → ℝ) (k : Kernel) (hk : k.Local) (z : KHalf) (F : ℤ → ℤ → ℂ)
    (h0 : 0 < z.nkx2) (h : HermPeriodic F z.nky) (hs : z.Stores F) (kx ky : ℝ) (T S : Finset ℤ)
    (hT : ∀ l : ℤ, k.xval K (ky - l) ≠ 0 → l ∈ T) (hS : ∀ l : ℤ, k.xval K (kx - l) ≠ 0 → l ∈ S) :
    drawKval (k.xval K) k.ixrange z (-z.nkx2) (-z.nkx2) kx ky = fullSum (k.xval K) F T S kx ky :=
  drawKval_eq _ _ (fun t ht => local_window K k hk t ht) z F h0 h hs kx ky T S hT hS

theorem local_bounded (K : ℕ → ℕ → ℝ) (k : Kernel) (hk : k.Local) (x : ℝ) (l : ℤ) (h : k.xval K (x - l) ≠ 0) :
    l ∈ Finset.Icc (⌈x⌉ - k.ixrange / 2 - 1) (⌊x⌋ + k.ixrange / 2 + 1) := by
  have : ¬ ((k.ixrange / 2 : ℤ) : ℝ) < |x - l| := fun hc => h (local_window K k hk _ hc)
  rw [not_lt, abs_le] at this
  rw [Finset.mem_Icc]
  have h1 := Int.ceil_lt_add_one x
  have h2 := Int.lt_floor_add_one x
  constructor
  · have : (⌈x⌉:ℝ) - ((k.ixrange / 2 : ℤ):ℝ) - 1 ≤ l := by linarith [this.2]
    exact_mod_cast this
  · have : (l:ℝ) ≤ ⌊x⌋ + ((k.ixrange / 2 : ℤ):ℝ) + 1 := by linarith [this.1]
    exact_mod_cast this

/-- C55: the interpolated Fourier image is Hermitian at all real `(kx, ky)`, so that it is the
transform of a real profile, and it is periodic. -/
theorem C55_hermitian (K : ℕ → ℕ → ℝ) (k : Kernel) (hk : k.Local) (z : KHalf) (F : ℤ → ℤ → ℂ)
    (h0 : 0 < z.nkx2) (h : HermPeriodic F z.nky) (hs : z.Stores F) (kx ky : ℝ) :
    drawKval (k.xval K) k.ixrange z (-z.nkx2) (-z.nkx2) (-kx) (-ky) =
      star (drawKval (k.xval K) k.ixrange z (-z.nkx2) (-z.nkx2) kx ky) ∧
    drawKval (k.xval K) k.ixrange z (-z.nkx2) (-z.nkx2) (kx + z.nky) ky =
      drawKval (k.xval K) k.ixrange z (-z.nkx2) (-z.nkx2) kx ky ∧
    drawKval (k.xval K) k.ixrange z (-z.nkx2) (-z.nkx2) kx (ky + z.nky) =
      drawKval (k.xval K) k.ixrange z (-z.nkx2) (-z.nkx2) kx ky := by
  have hS := local_bounded K k hk kx
  have hT := local_bounded K k hk ky
  generalize Finset.Icc (⌈kx⌉ - k.ixrange / 2 - 1) (⌊kx⌋ + k.ixrange / 2 + 1) = S at hS
  generalize Finset.Icc (⌈ky⌉ - k.ixrange / 2 - 1) (⌊ky⌋ + k.ixrange / 2 + 1) = T at hT
  rw [C55_full_sum_partial K k hk z F h0 h hs kx ky T S hT hS]
  refine ⟨?_, ?_, ?_⟩
  · rw [C55_full_sum_partial K k hk z F h0 h hs (-kx) (-ky) (T.image Neg.neg) (S.image Neg.neg)]
    · unfold fullSum
      rw [Finset.sum_image (fun a _ b _ e => neg_injective e), star_sum]
      refine Finset.sum_congr rfl fun m _ => ?_
      rw [Finset.sum_image (fun a _ b _ e => neg_injective e), star_sum]
      refine Finset.sum_congr rfl fun l _ => ?_
      rw [h.herm, star_mul', star_mul']
      have e1 : k.xval K (-kx - ((-l : ℤ) : ℝ)) = k.xval K (kx - l) := by
        rw [← C53_even]; congr 1; push_cast; ring
      have e2 : k.xval K (-ky - ((-m : ℤ) : ℝ)) = k.xval K (ky - m) := by
        rw [← C53_even]; congr 1; push_cast; ring
      rw [e1, e2]
      simp
    · intro l hl
      refine Finset.mem_image.mpr ⟨-l, hT (-l) ?_, neg_neg l⟩
      rw [← C53_even]; convert hl using 2; push_cast; ring
    · intro l hl
      refine Finset.mem_image.mpr ⟨-l, hS (-l) ?_, neg_neg l⟩
      rw [← C53_even]; convert hl using 2; push_cast; ring
  · rw [C55_full_sum_partial K k hk z F h0 h hs (kx + z.nky) ky T (S.image fun l => l + (z.nky:ℤ)) hT]
    · unfold fullSum
      refine Finset.sum_congr rfl fun m _ => ?_
      rw [Finset.sum_image (fun a _ b _ e => add_right_cancel e)]
      refine Finset.sum_congr rfl fun l _ => ?_
      rw [h.perX, show kx + (z.nky:ℝ) - ((l + (z.nky:ℤ) : ℤ) : ℝ) = kx - l by push_cast; ring]
    · intro l hl
      refine Finset.mem_image.mpr ⟨l - z.nky, hS _ ?_, sub_add_cancel _ _⟩
      convert hl using 2; push_cast; ring
  · rw [C55_full_sum_partial K k hk z F h0 h hs kx (ky + z.nky) (T.image fun l => l + (z.nky:ℤ)) S _ hS]
    · unfold fullSum
      rw [Finset.sum_image (fun a _ b _ e => add_right_cancel e)]
      refine Finset.sum_congr rfl fun m _ => Finset.sum_congr rfl fun l _ => ?_
      rw [h.perY, show ky + (z.nky:ℝ) - ((m + (z.nky:ℤ) : ℤ) : ℝ) = ky - m by push_cast; ring]
    · intro l hl
      refine Finset.mem_image.mpr ⟨l - z.nky, hT _ ?_, sub_add_cancel _ _⟩
      convert hl using 2; push_cast; ring

/-- C55: at every integer mode, inside or outside the stored half, the value is that of the full image. -/
theorem C55_at_modes (K : ℕ → ℕ → ℝ) (k : Kernel) (hk : k.Local) (hn : ∀ n d, k = .lanczos n d → 1 ≤ n)
    (z : KHalf) (F : ℤ → ℤ → ℂ) (h0 : 0 < z.nkx2) (h : HermPeriodic F z.nky) (hs : z.Stores F) (a b : ℤ) :
    drawKval (k.xval K) k.ixrange z (-z.nkx2) (-z.nkx2) b a = F a b := by
  have hf := C53_interpolating K k (fun v e => by subst e; exact hk) hn
  have nz : ∀ c l : ℤ, k.xval K (c - l) ≠ 0 → l ∈ ({c} : Finset ℤ) := by
    intro c l hl
    by_contra hc
    rw [Finset.mem_singleton] at hc
    refine hl ?_
    have := hf.2 (c - l) (by omega)
    push_cast at this; exact this
  rw [C55_full_sum_partial K k hk z F h0 h hs b a {a} {b} (nz a) (nz b)]
  unfold fullSum
  rw [Finset.sum_singleton, Finset.sum_singleton, sub_self, sub_self, hf.1]
  simp

/-- Specification: the discrete transform of a real image, at all pairs of integers. -/
noncomputable def dft (N : ℕ) (a : ℤ → ℤ → ℝ) (ky kx : ℤ) : ℂ :=
  ∑ y ∈ Finset.range N, ∑ x ∈ Finset.range N,
    a y x * Complex.exp (-(2 * Real.pi * ((kx * x + ky * y : ℤ) : ℝ) / N : ℝ) * Complex.I)

theorem exp_two_pi_int (t : ℝ) (m : ℤ) :
    Complex.exp (-((t + 2 * Real.pi * m : ℝ) : ℂ) * Complex.I) = Complex.exp (-(t : ℂ) * Complex.I) := by
  rw [Complex.exp_eq_exp_iff_exists_int]
  refine ⟨-m, ?_⟩
  push_cast; ring

/-- C55: the transform of a real image satisfies the hypotheses on `F`, so the theorems above apply to it. -/
theorem C55_dft (N : ℕ) (hN : 0 < N) (a : ℤ → ℤ → ℝ) : HermPeriodic (dft N a) N := by
  have hN' : (N:ℝ) ≠ 0 := by positivity
  refine ⟨?_, ?_, ?_⟩
  · intro ky kx
    unfold dft
    refine Finset.sum_congr rfl fun y _ => Finset.sum_congr rfl fun x _ => ?_
    rw [← exp_two_pi_int (2 * Real.pi * ((kx * x + ky * y : ℤ) : ℝ) / N) y]
    have e : 2 * Real.pi * ((kx * x + (ky + N) * y : ℤ) : ℝ) / N =
        2 * Real.pi * ((kx * x + ky * y : ℤ) : ℝ) / N + 2 * Real.pi * ((y:ℤ):ℝ) := by
      push_cast; field_simp; ring
    rw [e]
  · intro ky kx
    unfold dft
    refine Finset.sum_congr rfl fun y _ => Finset.sum_congr rfl fun x _ => ?_
    rw [← exp_two_pi_int (2 * Real.pi * ((kx * x + ky * y : ℤ) : ℝ) / N) x]
    have e : 2 * Real.pi * (((kx + N) * x + ky * y : ℤ) : ℝ) / N =
        2 * Real.pi * ((kx * x + ky * y : ℤ) : ℝ) / N + 2 * Real.pi * ((x:ℤ):ℝ) := by
      push_cast; field_simp; ring
    rw [e]
  · intro ky kx
    unfold dft
    rw [star_sum]
    refine Finset.sum_congr rfl fun y _ => ?_
    rw [star_sum]
    refine Finset.sum_congr rfl fun x _ => ?_
    rw [star_mul']
    have : star (Complex.exp (-((2 * Real.pi * ((kx * x + ky * y : ℤ) : ℝ) / N : ℝ):ℂ) * Complex.I)) =
        Complex.exp (starRingEnd ℂ (-((2 * Real.pi * ((kx * x + ky * y : ℤ) : ℝ) / N : ℝ):ℂ) * Complex.I)) :=
      (Complex.exp_conj _).symm
    rw [this]
    congr 1
    · exact (Complex.conj_ofReal _).symm
    · congr 1
      rw [map_mul, map_neg, Complex.conj_ofReal, Complex.conj_I]
      push_cast; ring

/-- Non-vacuity of C55: the half-stored transform of any real image. -/
example (M : ℕ) (hM : 0 < M) (a : ℤ → ℤ → ℝ) :
    let z : KHalf := ⟨2 * M, M, fun j i => dft (2 * M) a (j - M) i⟩
    0 < z.nkx2 ∧ HermPeriodic (dft (2 * M) a) z.nky ∧ z.Stores (dft (2 * M) a) :=
  ⟨hM, by have := C55_dft (2 * M) (by omega) a; exact this, rfl, fun _ _ _ _ => rfl⟩

/-! ### C57: flux-enclosing size -/

theorem argminUpTo_spec {α : Type} [LinearOrder α] (f : ℕ → α) (n : ℕ) :
    argminUpTo f n ≤ n ∧ (∀ m ≤ n, f (argminUpTo f n) ≤ f m) ∧ ∀ m < argminUpTo f n, f (argminUpTo f n) < f m := by
  induction n with
  | zero =>
    refine ⟨le_refl _, fun m hm => ?_, fun m hm => absurd hm (Nat.not_lt_zero m)⟩
    rw [Nat.le_zero.mp hm]; exact le_refl _
  | succ n ih =>
    obtain ⟨h1, h2, h3⟩ := ih
    by_cases hc : f (n + 1) < f (argminUpTo f n)
    · have e : argminUpTo f (n + 1) = n + 1 := by rw [argminUpTo, if_pos hc]
      rw [e]
      refine ⟨le_refl _, fun m hm => ?_, fun m hm => lt_of_lt_of_le hc (h2 m (by omega))⟩
      rcases Nat.lt_or_ge m (n + 1) with h | h
      · exact le_trans hc.le (h2 m (by omega))
      · rw [show m = n + 1 by omega]
    · have e : argminUpTo f (n + 1) = argminUpTo f n := by rw [argminUpTo, if_neg hc]
      rw [e]
      refine ⟨by omega, fun m hm => ?_, h3⟩
      rcases Nat.lt_or_ge m (n + 1) with h | h
      · exact h2 m (by omega)
      · rw [show m = n + 1 by omega]; exact not_lt.mp hc

/-- Specification of C57: the flux of the pixels whose centres lie within `R` of the centre `(cx, cy)` in
both coordinates. -/
noncomputable def boxFlux (a : Arr ℝ) (cx cy : ℤ) (R : ℝ) : ℝ :=
  ∑ i ∈ Finset.range a.h, ∑ j ∈ Finset.range a.w,
    if |(j:ℝ) - cx| ≤ R ∧ |(i:ℝ) - cy| ≤ R then a.at' i j else 0

/-- The flux reaches the threshold, whatever the sign of the threshold. -/
def Reaches (thresh flux : ℝ) : Prop := (0 < thresh ∧ thresh ≤ flux) ∨ (thresh < 0 ∧ flux ≤ thresh) ∨ thresh = 0

theorem reaches_iff (t v : ℝ) : ((SignType.sign t : SignType) : ℝ) * v ≥ ((SignType.sign t : SignType) : ℝ) * t ↔ Reaches t v := by
  unfold Reaches
  rcases lt_trichotomy t 0 with h | h | h
  · rw [sign_neg h]
    simp only [SignType.coe_neg, SignType.coe_one, neg_one_mul, ge_iff_le, neg_le_neg_iff]
    constructor
    · intro hv; exact Or.inr (Or.inl ⟨h, hv⟩)
    · rintro (⟨h', -⟩ | ⟨-, hv⟩ | h')
      · exact absurd h' (not_lt.mpr h.le)
      · exact hv
      · exact absurd h' h.ne
  · subst h; simp
  · rw [sign_pos h]
    simp only [SignType.coe_one, one_mul, ge_iff_le]
    constructor
    · intro hv; exact Or.inl ⟨h, hv⟩
    · rintro (⟨-, hv⟩ | ⟨h', -⟩ | h')
      · exact hv
      · exact absurd h' (not_lt.mpr h.le)
      · exact absurd h' h.ne'

theorem fluxFrac_eq (a : Arr ℝ) (cx cy : ℤ) (d : ℕ) (R : ℝ) (h1 : (d:ℝ) ≤ R) (h2 : R < d + 1) :
    fluxFrac a cx cy d = boxFlux a cx cy R := by
  unfold fluxFrac boxFlux
  have key : ∀ n : ℤ, |n| ≤ d ↔ |(n:ℝ)| ≤ R := by
    intro n
    constructor
    · intro h
      have : (|n| : ℝ) ≤ d := by exact_mod_cast h
      linarith
    · intro h
      have : (|(n:ℝ)|) < d + 1 := lt_of_le_of_lt h h2
      have : |n| < d + 1 := by exact_mod_cast this
      omega
  refine Finset.sum_congr rfl fun i _ => Finset.sum_congr rfl fun j _ => ?_
  have k1 := key (j - cx)
  have k2 := key (i - cy)
  push_cast at k1 k2
  simp only [k1, k2]

/-- C57: if some centred box with half-width below the smaller side of the image reaches the threshold,
the returned size is the half-width of the smallest such box: the flux within it reaches the threshold
and within no smaller size (down to half a pixel) does.  Missing for the full claim: images none of whose
boxes reach it (counterexample). -/
theorem C57_size_partial (a : Arr ℝ) (cx cy : ℤ) (thresh : ℝ) (d : ℕ) (hd : d < min a.h a.w)
    (hr : Reaches thresh (boxFlux a cx cy (d + 0.5))) :
    ∃ r : ℕ, sizeContainingFlux a cx cy thresh = r + 0.5 ∧ r ≤ d ∧
      Reaches thresh (boxFlux a cx cy (sizeContainingFlux a cx cy thresh)) ∧
      ∀ R : ℝ, 0 ≤ R → R < r → ¬ Reaches thresh (boxFlux a cx cy R) := by
  obtain ⟨v, hv⟩ : ∃ v : ℕ → WithTop ℝ, v = fun d => if ((SignType.sign thresh : SignType) : ℝ) * fluxFrac a cx cy d ≥
      ((SignType.sign thresh : SignType) : ℝ) * thresh then (((d:ℝ) + 1 : ℝ) : WithTop ℝ) else ⊤ := ⟨_, rfl⟩
  have hs : sizeContainingFlux a cx cy thresh = argminUpTo v (min a.h a.w - 1) + 0.5 := by rw [hv]; rfl
  obtain ⟨h1, h2, h3⟩ := argminUpTo_spec v (min a.h a.w - 1)
  rw [hs]
  generalize argminUpTo v (min a.h a.w - 1) = r at *
  have box : ∀ d : ℕ, fluxFrac a cx cy d = boxFlux a cx cy (d + 0.5) :=
    fun d => fluxFrac_eq a cx cy d _ (by norm_num) (by norm_num)
  have vd : ∀ m : ℕ, Reaches thresh (boxFlux a cx cy (m + 0.5)) → v m = (((m:ℝ) + 1 : ℝ) : WithTop ℝ) := by
    intro m hm; rw [hv]; simp only; rw [if_pos]; rw [box]; exact (reaches_iff _ _).mpr hm
  have vn : ∀ m : ℕ, ¬ Reaches thresh (boxFlux a cx cy (m + 0.5)) → v m = ⊤ := by
    intro m hm; rw [hv]; simp only; rw [if_neg]; rw [box]; exact fun h => hm ((reaches_iff _ _).mp h)
  have hrr : Reaches thresh (boxFlux a cx cy (r + 0.5)) := by
    by_contra hc
    have := h2 d (by omega)
    rw [vn r hc, vd d hr] at this
    exact absurd this (by simp)
  refine ⟨r, rfl, ?_, hrr, ?_⟩
  · have := h2 d (by omega)
    rw [vd r hrr, vd d hr, WithTop.coe_le_coe] at this
    have : (r:ℝ) ≤ d := by linarith
    exact_mod_cast this
  · intro R h0 hR hc
    have hm : ⌊R⌋₊ < r := (Nat.floor_lt h0).mpr hR
    have e : boxFlux a cx cy R = boxFlux a cx cy (⌊R⌋₊ + 0.5) := by
      rw [← box, fluxFrac_eq a cx cy ⌊R⌋₊ R (Nat.floor_le h0) (Nat.lt_floor_add_one R)]
    rw [e] at hc
    have := h3 _ hm
    rw [vd r hrr, vd _ hc, WithTop.coe_lt_coe] at this
    have h4 : ((r:ℝ)) < ⌊R⌋₊ := by linarith
    have : r < ⌊R⌋₊ := by exact_mod_cast h4
    omega

/-- C57: on a square image of at least two pixels a side the largest box is the whole image about its
centre, so the size exists whenever the threshold is a positive fraction of a positive flux. -/
theorem C57_square_exists (a : Arr ℝ) (n : ℕ) (hn : 2 ≤ n) (hh : a.h = n) (hw : a.w = n) (thresh : ℝ)
    (ht : Reaches thresh (∑ i ∈ Finset.range a.h, ∑ j ∈ Finset.range a.w, a.at' i j)) :
    ∃ r : ℕ, sizeContainingFlux a (n / 2) (n / 2) thresh = r + 0.5 ∧ r < n ∧
      Reaches thresh (boxFlux a (n / 2) (n / 2) (sizeContainingFlux a (n / 2) (n / 2) thresh)) ∧
      ∀ R : ℝ, 0 ≤ R → R < r → ¬ Reaches thresh (boxFlux a (n / 2) (n / 2) R) := by
  have hr : Reaches thresh (boxFlux a (n / 2) (n / 2) ((n - 1 : ℕ) + 0.5)) := by
    rw [← fluxFrac_eq a _ _ (n - 1) _ (by norm_num) (by norm_num)]
    unfold fluxFrac
    convert ht using 1
    refine Finset.sum_congr rfl fun i hi => Finset.sum_congr rfl fun j hj => if_pos ?_
    rw [Finset.mem_range] at hi hj
    rw [abs_le, abs_le]; omega
  obtain ⟨r, h1, h2, h3, h4⟩ := C57_size_partial a (n / 2) (n / 2) thresh (n - 1) (by omega) hr
  exact ⟨r, h1, by omega, h3, h4⟩

/-- Disagreement: if no tried box reaches the threshold, `argmin` of an array of infinities is 0 and
the size 0.5 is returned, as if the central pixel had all the flux.  Here a 1×3 image whose flux is at
its ends: only the central pixel is tried, and `stepk` becomes as large as for a single pixel. -/
theorem C57_counterexample_unreached :
    sizeContainingFlux ⟨1, 3, fun _ j => if j = 1 then 0 else 1⟩ 1 0 1 = 0.5 ∧
    ¬ Reaches 1 (boxFlux ⟨1, 3, fun _ j => if j = 1 then 0 else 1⟩ 1 0 0.5) ∧
    Reaches 1 (boxFlux ⟨1, 3, fun _ j => if j = 1 then 0 else 1⟩ 1 0 1.5) := by
  have b1 : boxFlux ⟨1, 3, fun _ j => if j = 1 then 0 else 1⟩ 1 0 0.5 = 0 := by
    rw [← fluxFrac_eq _ 1 0 0 0.5 (by norm_num) (by norm_num)]
    simp [fluxFrac, Finset.sum_range_succ]
  have b2 : boxFlux ⟨1, 3, fun _ j => if j = 1 then 0 else 1⟩ 1 0 1.5 = 2 := by
    rw [← fluxFrac_eq _ 1 0 1 1.5 (by norm_num) (by norm_num)]
    simp [fluxFrac, Finset.sum_range_succ]
    norm_num
  refine ⟨?_, ?_, ?_⟩
  · unfold sizeContainingFlux
    simp only [show min 1 3 - 1 = 0 by decide, argminUpTo]
    norm_num
  · rw [b1]; unfold Reaches; norm_num
  · rw [b2]; unfold Reaches; norm_num

/-- Non-vacuity of `C57_size_partial`: the 3×3 image of ones, five of nine. -/
example : ∃ r : ℕ, sizeContainingFlux ⟨3, 3, fun _ _ => 1⟩ 1 1 5 = r + 0.5 ∧ r < 3 := by
  have := C57_square_exists ⟨3, 3, fun _ _ => 1⟩ 3 (by norm_num) rfl rfl 5
    (Or.inl ⟨by norm_num, by simp; norm_num⟩)
  obtain ⟨r, h1, h2, -⟩ := this
  exact ⟨r, by simpa using h1, h2⟩

/-! ### Positive and negative flux -/

/-- C54: the positive minus the negative flux given to the photon shooter is the flux of the image, for
any kernel of unit flux, and both are at least zero. -/
theorem C54_pos_neg_fluxes (a : Arr ℝ) (pint nint : ℝ) (h : pint - nint = 1) (hn : 0 ≤ nint) :
    (posNegFluxes a pint nint).1 - (posNegFluxes a pint nint).2 =
      ∑ i ∈ Finset.range a.h, ∑ j ∈ Finset.range a.w, a.at' i j ∧
    0 ≤ (posNegFluxes a pint nint).1 ∧ 0 ≤ (posNegFluxes a pint nint).2 := by
  unfold posNegFluxes
  simp only
  have hp : 0 ≤ pint := by linarith
  obtain ⟨P, hP⟩ : ∃ P, P = ∑ i ∈ Finset.range a.h, ∑ j ∈ Finset.range a.w, if a.at' i j > 0 then a.at' i j else 0 :=
    ⟨_, rfl⟩
  obtain ⟨N, hN⟩ : ∃ N, N = ∑ i ∈ Finset.range a.h, ∑ j ∈ Finset.range a.w, if a.at' i j < 0 then a.at' i j else 0 :=
    ⟨_, rfl⟩
  have hs : P + N = ∑ i ∈ Finset.range a.h, ∑ j ∈ Finset.range a.w, a.at' i j := by
    rw [hP, hN, ← Finset.sum_add_distrib]
    refine Finset.sum_congr rfl fun i _ => ?_
    rw [← Finset.sum_add_distrib]
    refine Finset.sum_congr rfl fun j _ => ?_
    rcases lt_trichotomy (a.at' i j) 0 with h | h | h
    · rw [if_neg (by linarith), if_pos h, zero_add]
    · rw [h]; simp
    · rw [if_pos h, if_neg (by linarith), add_zero]
  have p0 : 0 ≤ P := by
    rw [hP]
    exact Finset.sum_nonneg fun i _ => Finset.sum_nonneg fun j _ => by split_ifs with h <;> [exact h.le; exact le_refl _]
  have n0 : N ≤ 0 := by
    rw [hN]
    exact Finset.sum_nonpos fun i _ => Finset.sum_nonpos fun j _ => by split_ifs with h <;> [exact h.le; exact le_refl _]
  rw [← hP, ← hN, ← hs, abs_of_nonpos n0]
  refine ⟨?_, ?_, ?_⟩
  · have : pint = 1 + nint := by linarith
    subst this; ring
  · have : 0 ≤ -N := by linarith
    positivity
  · have : 0 ≤ -N := by linarith
    positivity

/-- Non-vacuity of `C54_pos_neg_fluxes`: the cubic kernel's fluxes. -/
example : ∃ p n : ℝ, Kernel.cubic.fluxes = some (p, n) ∧ p - n = 1 ∧ 0 ≤ n :=
  ⟨13 / 12, 1 / 12, rfl, by norm_num, by norm_num⟩

end JG.Interp
