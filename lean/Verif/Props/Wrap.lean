import Verif.Lemmas.Wrap
import Mathlib.Data.Complex.Basic
import Mathlib.Tactic.NormNum

/-! Properties C17 and C18: wrapping images. -/

namespace JG
open Finset

section
variable {M : Type} [AddCommMonoid M]

/-- Specification: the pixel at image coordinates `(X, Y)` of an array placed at `r`. -/
def pixel (a : Arr M) (r : Rect) (X Y : ℤ) : M := a.at' (Y - r.ymin).toNat (X - r.xmin).toNat

/-- Specification: coordinates of a rectangle. -/
def Rect.mem (r : Rect) (X Y : ℤ) : Prop :=
  r.xmin ≤ X ∧ X < r.xmin + r.nx ∧ r.ymin ≤ Y ∧ Y < r.ymin + r.ny

/-- Specification: coordinates in `[lo, lo+n)` congruent to `c` modulo `m`. -/
def congr1 (lo : ℤ) (n m : ℕ) (c : ℤ) : Finset ℤ := (Ico lo (lo + n)).filter fun X => (m : ℤ) ∣ X - c

/-- Specification: the sum of all pixels congruent to `(X, Y)` modulo `(mx, my)`. -/
def congruentSum (f : ℤ → ℤ → M) (r : Rect) (mx my : ℕ) (X Y : ℤ) : M :=
  ∑ Y' ∈ congr1 r.ymin r.ny my Y, ∑ X' ∈ congr1 r.xmin r.nx mx X, f X' Y'

/-- The array fits the rectangle and the wrap region is a non-empty part of it. -/
structure WrapOK (im : Arr M) (r b : Rect) : Prop where
  hw : im.w = r.nx
  hh : im.h = r.ny
  nx : 0 < b.nx
  ny : 0 < b.ny
  x0 : r.xmin ≤ b.xmin
  x1 : b.xmin + b.nx ≤ r.xmin + r.nx
  y0 : r.ymin ≤ b.ymin
  y1 : b.ymin + b.ny ≤ r.ymin + r.ny

theorem dusStart_eq (s : ℤ) (n u : ℕ) (h0 : 0 ≤ s) (h1 : s + u ≤ n) : dusStart s n u = s.toNat := by
  unfold dusStart
  rw [if_neg (by omega)]
  omega

theorem wrap_fim (im : Arr M) (r b : Rect) (h : WrapOK im r b) (nx ny : ℕ) (hnx : nx = nBlocks im.w b.nx)
    (hny : ny = nBlocks im.h b.ny) (i j : ℕ) :
    (∑ bb ∈ range ny, ∑ c ∈ range nx, ((im.pad (ny * b.ny - im.h) (nx * b.nx - im.w)).roll (b.ymin - r.ymin)
      (b.xmin - r.xmin)).at' (bb * b.ny + i) (c * b.nx + j))
    = congruentSum (pixel im r) r b.nx b.ny (b.xmin + j) (b.ymin + i) := by
  have hw0 : 0 < im.w := by have := h.hw; have := h.x0; have := h.x1; have := h.nx; omega
  have hh0 : 0 < im.h := by have := h.hh; have := h.y0; have := h.y1; have := h.ny; omega
  obtain ⟨px, lx⟩ := nBlocks_spec im.w b.nx h.nx hw0
  obtain ⟨py, ly⟩ := nBlocks_spec im.h b.ny h.ny hh0
  rw [← hnx] at px lx
  rw [← hny] at py ly
  have eh : im.h + (ny * b.ny - im.h) = ny * b.ny := by omega
  have ew : im.w + (nx * b.nx - im.w) = nx * b.nx := by omega
  simp only [Arr.roll, Arr.pad, eh, ew]
  -- x direction
  have hx : ∀ (y : ℕ), ∑ c ∈ range nx,
      (if y < im.h ∧ ((((c * b.nx + j : ℕ) : ℤ) + (b.xmin - r.xmin)) % ((nx * b.nx : ℕ) : ℤ)).toNat < im.w then
        im.at' y ((((c * b.nx + j : ℕ) : ℤ) + (b.xmin - r.xmin)) % ((nx * b.nx : ℕ) : ℤ)).toNat else 0)
      = (fun y => if y < im.h then
          ∑ X' ∈ congr1 r.xmin r.nx b.nx (b.xmin + j), im.at' y (X' - r.xmin).toNat else 0) y := by
    intro y
    have := wrap_sum (im.at' y) im.w nx b.nx h.nx px lx (b.xmin - r.xmin) r.xmin j
    have e : r.xmin + (b.xmin - r.xmin) + (j : ℤ) = b.xmin + j := by ring
    rw [e, h.hw] at this
    simp only
    split
    · rename_i hy
      rw [congr1, ← this, h.hw]
      apply sum_congr rfl
      intro c _
      simp only [hy, true_and]
    · rename_i hy
      simp [hy]
  simp only [hx]
  have hy := wrap_sum (fun y => ∑ X' ∈ congr1 r.xmin r.nx b.nx (b.xmin + j), im.at' y (X' - r.xmin).toNat)
    im.h ny b.ny h.ny py ly (b.ymin - r.ymin) r.ymin i
  have e : r.ymin + (b.ymin - r.ymin) + (i : ℤ) = b.ymin + i := by ring
  rw [e] at hy
  simp only at hy
  rw [hy, h.hh]
  rfl

/-- C17: after wrapping, every pixel of the wrap region is the sum of all original pixels congruent to
it modulo the wrap sizes, and every other pixel keeps its value. -/
theorem C17_congruent_sum (im : Arr M) (r b : Rect) (h : WrapOK im r b) (out : Arr M)
    (ho : out = wrapNonhermitian im (b.xmin - r.xmin) (b.ymin - r.ymin) b.nx b.ny) :
    out.h = im.h ∧ out.w = im.w ∧
    (∀ X Y, b.mem X Y → pixel out r X Y = congruentSum (pixel im r) r b.nx b.ny X Y) ∧
    (∀ X Y, r.mem X Y → ¬ b.mem X Y → pixel out r X Y = pixel im r X Y) := by
  have hw0 : 0 < im.w := by have := h.hw; have := h.x0; have := h.x1; have := h.nx; omega
  have hh0 : 0 < im.h := by have := h.hh; have := h.y0; have := h.y1; have := h.ny; omega
  obtain ⟨px, lx⟩ := nBlocks_spec im.w b.nx h.nx hw0
  obtain ⟨py, ly⟩ := nBlocks_spec im.h b.ny h.ny hh0
  obtain ⟨fim, hf, hfh, hfw, hfa⟩ : ∃ fim : Arr M, out = im.dynamicUpdate fim (b.ymin - r.ymin) (b.xmin - r.xmin) ∧
      fim.h = b.ny ∧ fim.w = b.nx ∧ ∀ i j, i < b.ny → j < b.nx →
        fim.at' i j = congruentSum (pixel im r) r b.nx b.ny (b.xmin + j) (b.ymin + i) := by
    refine ⟨_, ho, ?_, ?_, ?_⟩
    · split <;> rfl
    · split <;> rfl
    · intro i j hi hj
      rw [← wrap_fim im r b h _ _ rfl rfl i j]
      have agree := blockReduce_agree ((im.pad (nBlocks im.h b.ny * b.ny - im.h)
          (nBlocks im.w b.nx * b.nx - im.w)).roll (b.ymin - r.ymin) (b.xmin - r.xmin))
        (nBlocks im.w b.nx) (nBlocks im.h b.ny) b.nx b.ny h.nx h.ny px py
        (by simp only [Arr.roll, Arr.pad]; omega) (by simp only [Arr.roll, Arr.pad]; omega) i j
      split
      · exact agree.1
      · exact agree.2
  have dy : dusStart (b.ymin - r.ymin) im.h fim.h = (b.ymin - r.ymin).toNat := by
    apply dusStart_eq
    · have := h.y0; omega
    · have := h.y1; have := h.hh; omega
  have dx : dusStart (b.xmin - r.xmin) im.w fim.w = (b.xmin - r.xmin).toNat := by
    apply dusStart_eq
    · have := h.x0; omega
    · have := h.x1; have := h.hw; omega
  have x0 := h.x0
  have y0 := h.y0
  rw [hf]
  refine ⟨rfl, rfl, ?_, ?_⟩
  · intro X Y hb
    obtain ⟨h1, h2, h3, h4⟩ := hb
    simp only [pixel, Arr.dynamicUpdate, dy, dx]
    rw [if_pos (by omega), hfa _ _ (by omega) (by omega)]
    congr 1 <;> omega
  · intro X Y hr hb
    obtain ⟨h1, h2, h3, h4⟩ := hr
    simp only [pixel, Arr.dynamicUpdate, dy, dx]
    rw [if_neg]
    rintro ⟨g1, g2, g3, g4⟩
    apply hb
    refine ⟨?_, ?_, ?_, ?_⟩ <;> omega

/-- Sum over the wrap region, in either direction, of a class sum is the full sum. -/
theorem sum_congr1 (f : ℤ → M) (lo : ℤ) (n m : ℕ) (hm : 0 < m) (c : ℤ) :
    ∑ X ∈ Ico c (c + m), ∑ X' ∈ congr1 lo n m X, f X' = ∑ X' ∈ Ico lo (lo + n), f X' := by
  simp only [congr1, sum_filter]
  rw [sum_comm]
  apply sum_congr rfl
  intro X' _
  have hm' : (0 : ℤ) < m := by exact_mod_cast hm
  -- the unique representative of X' in [c, c+m)
  have h1 := Int.emod_nonneg (X' - c) hm'.ne'
  have h2 := Int.emod_lt_of_pos (X' - c) hm'
  rw [sum_eq_single (c + (X' - c) % m)]
  · rw [if_pos]
    have := Int.emod_add_mul_ediv (X' - c) m
    exact ⟨(X' - c) / m, by linear_combination (-1 : ℤ) * this⟩
  · intro X hX hne
    rw [if_neg]
    intro hd
    apply hne
    rw [mem_Ico] at hX
    have : (X' - c) % m = X - c := by
      obtain ⟨k, hk⟩ := hd
      have e : X' - c = (X - c) + m * k := by rw [← hk]; ring
      rw [e, Int.add_mul_emod_self_left, Int.emod_eq_of_lt (by omega) (by omega)]
    omega
  · intro hc
    exfalso; apply hc
    rw [mem_Ico]; omega

/-- C17: wrapping conserves the total: the wrapped region holds the sum of all original pixels. -/
theorem C17_total (im : Arr M) (r b : Rect) (h : WrapOK im r b) (out : Arr M)
    (ho : out = wrapNonhermitian im (b.xmin - r.xmin) (b.ymin - r.ymin) b.nx b.ny) :
    ∑ Y ∈ Ico b.ymin (b.ymin + b.ny), ∑ X ∈ Ico b.xmin (b.xmin + b.nx), pixel out r X Y
      = ∑ Y ∈ Ico r.ymin (r.ymin + r.ny), ∑ X ∈ Ico r.xmin (r.xmin + r.nx), pixel im r X Y := by
  obtain ⟨_, _, hreg, _⟩ := C17_congruent_sum im r b h out ho
  have e : ∑ Y ∈ Ico b.ymin (b.ymin + b.ny), ∑ X ∈ Ico b.xmin (b.xmin + b.nx), pixel out r X Y
      = ∑ Y ∈ Ico b.ymin (b.ymin + b.ny), ∑ Y' ∈ congr1 r.ymin r.ny b.ny Y,
          ∑ X ∈ Ico b.xmin (b.xmin + b.nx), ∑ X' ∈ congr1 r.xmin r.nx b.nx X, pixel im r X' Y' := by
    apply sum_congr rfl
    intro Y hY
    rw [sum_comm]
    apply sum_congr rfl
    intro X hX
    rw [mem_Ico] at hX hY
    exact hreg X Y ⟨hX.1, hX.2, hY.1, hY.2⟩
  rw [e]
  simp only [sum_congr1 (fun X' => pixel im r X' _) r.xmin r.nx b.nx h.nx b.xmin]
  exact sum_congr1 (fun Y' => ∑ X' ∈ Ico r.xmin (r.xmin + r.nx), pixel im r X' Y') r.ymin r.ny b.ny h.ny b.ymin

/-- C17: the two reduction strategies give the same array, whatever the number of blocks. -/
theorem C17_strategies_agree (sim : Arr M) (nx ny m m' : ℕ) (hm : 0 < m) (hm' : 0 < m') (hnx : 0 < nx)
    (hny : 0 < ny) (hw : sim.w = nx * m) (hh : sim.h = ny * m') (i j : ℕ) :
    (blockReduceIndex sim m m').at' i j = (blockReduceLoop sim nx ny m m').at' i j := by
  obtain ⟨a, b⟩ := blockReduce_agree sim nx ny m m' hm hm' hnx hny hw hh i j
  rw [a, b]

example : WrapOK (⟨5, 7, fun i j => (i + j : ℤ)⟩ : Arr ℤ) ⟨-3, 2, 7, 5⟩ ⟨-1, 3, 3, 2⟩ :=
  ⟨rfl, rfl, by decide, by decide, by decide, by decide, by decide, by decide⟩

/-! ### C18 -/

theorem congruentSum_congr (f g : ℤ → ℤ → M) (r : Rect) (mx my : ℕ) (X Y : ℤ)
    (h : ∀ X Y, r.mem X Y → f X Y = g X Y) : congruentSum f r mx my X Y = congruentSum g r mx my X Y := by
  unfold congruentSum congr1
  apply sum_congr rfl
  intro Y' hY
  apply sum_congr rfl
  intro X' hX
  rw [mem_filter, mem_Ico] at hX hY
  exact h X' Y' ⟨hX.1.1, hX.1.2, hY.1.1, hY.1.2⟩

variable [Star M]

/-- Specification: the full plane implied by a half-plane image with `x ≥ 0`. -/
def hermExtX (f : ℤ → ℤ → M) (X Y : ℤ) : M := if 0 ≤ X then f X Y else star (f (-X) (-Y))

/-- Specification: the full plane implied by a half-plane image with `y ≥ 0`. -/
def hermExtY (f : ℤ → ℤ → M) (X Y : ℤ) : M := if 0 ≤ Y then f X Y else star (f (-X) (-Y))

/-- C18: wrapping a half-plane image (`x` from 0, symmetric `y` range) gives at every stored mode the
sum over all congruent modes of the implied full image. -/
theorem C18_hermitian_x (im : Arr M) (r b : Rect) (hw : im.w = r.nx) (hh : im.h = r.ny)
    (hr0 : r.xmin = 0) (hb0 : b.xmin = 0) (hsym : r.ymin + r.ny - 1 = -r.ymin)
    (hb2 : 2 ≤ b.nx) (hbr : b.nx ≤ r.nx) (hny : 0 < b.ny) (y0 : r.ymin ≤ b.ymin)
    (y1 : b.ymin + b.ny ≤ r.ymin + r.ny) (X Y : ℤ) (hm : b.mem X Y) :
    pixel (imageWrap 1 im r b) r X Y = congruentSum (hermExtX (pixel im r))
      ⟨-(r.nx - 1), r.ymin, 2 * r.nx - 1, r.ny⟩ (2 * (b.nx - 1)) b.ny X Y := by
  set full : Rect := ⟨-(r.nx - 1), r.ymin, 2 * r.nx - 1, r.ny⟩ with hfull
  set wr : Rect := ⟨-(b.nx - 1) + 1, b.ymin, 2 * (b.nx - 1), b.ny⟩ with hwr
  have hOK : WrapOK (expandHermitianX im) full wr := by
    refine ⟨?_, ?_, ?_, ?_, ?_, ?_, ?_, ?_⟩ <;> simp only [expandHermitianX, hfull, hwr] <;> omega
  obtain ⟨oh, ow, hreg, _⟩ := C17_congruent_sum (expandHermitianX im) full wr hOK _ rfl
  have earr : imageWrap 1 im r b = contractHermitianX (wrapNonhermitian (expandHermitianX im)
      (wr.xmin - full.xmin) (wr.ymin - full.ymin) wr.nx wr.ny) := by
    simp only [imageWrap, wrapHermitianX, hr0, hb0, hwr, hfull]
    rw [if_neg (by decide)]
    simp only [if_true]
    have e1 : (2 * (0 + (b.nx : ℤ) - 1)).toNat = 2 * (b.nx - 1) := by omega
    have e2 : -(0 + (b.nx : ℤ) - 1) + 1 - -(0 + (r.nx : ℤ) - 1) = -(b.nx - 1) + 1 - -(r.nx - 1) := by ring
    rw [e1, e2]
  set E := wrapNonhermitian (expandHermitianX im) (wr.xmin - full.xmin) (wr.ymin - full.ymin) wr.nx wr.ny
    with hE
  have hEw : E.w = 2 * r.nx - 1 := by rw [ow]; simp only [expandHermitianX]; omega
  obtain ⟨m1, m2, m3, m4⟩ := hm
  have hpix : pixel (imageWrap 1 im r b) r X Y = pixel E full X Y := by
    rw [earr]
    simp only [pixel, contractHermitianX, hEw, hr0, hfull]
    congr 1
    omega
  rw [hpix, hreg X Y ⟨by simp only [hwr]; omega, by simp only [hwr]; omega, by simp only [hwr]; omega,
    by simp only [hwr]; omega⟩]
  apply congruentSum_congr
  intro X' Y' hm'
  obtain ⟨g1, g2, g3, g4⟩ := hm'
  simp only [hfull] at g1 g2 g3 g4
  simp only [pixel, hermExtX, expandHermitianX, hfull, hr0]
  by_cases hX : 0 ≤ X'
  · rw [if_pos hX, if_neg (by omega)]
    congr 1
    omega
  · rw [if_neg hX, if_pos (by omega)]
    congr 2 <;> omega

/-- C18: the same for `hermitian='y'` (`y` from 0, symmetric `x` range). -/
theorem C18_hermitian_y (im : Arr M) (r b : Rect) (hw : im.w = r.nx) (hh : im.h = r.ny)
    (hr0 : r.ymin = 0) (hb0 : b.ymin = 0) (hsym : r.xmin + r.nx - 1 = -r.xmin)
    (hb2 : 2 ≤ b.ny) (hbr : b.ny ≤ r.ny) (hnx : 0 < b.nx) (x0 : r.xmin ≤ b.xmin)
    (x1 : b.xmin + b.nx ≤ r.xmin + r.nx) (X Y : ℤ) (hm : b.mem X Y) :
    pixel (imageWrap 2 im r b) r X Y = congruentSum (hermExtY (pixel im r))
      ⟨r.xmin, -(r.ny - 1), r.nx, 2 * r.ny - 1⟩ b.nx (2 * (b.ny - 1)) X Y := by
  set full : Rect := ⟨r.xmin, -(r.ny - 1), r.nx, 2 * r.ny - 1⟩ with hfull
  set wr : Rect := ⟨b.xmin, -(b.ny - 1) + 1, b.nx, 2 * (b.ny - 1)⟩ with hwr
  have hOK : WrapOK (expandHermitianY im) full wr := by
    refine ⟨?_, ?_, ?_, ?_, ?_, ?_, ?_, ?_⟩ <;> simp only [expandHermitianY, hfull, hwr] <;> omega
  obtain ⟨oh, ow, hreg, _⟩ := C17_congruent_sum (expandHermitianY im) full wr hOK _ rfl
  have earr : imageWrap 2 im r b = contractHermitianY (wrapNonhermitian (expandHermitianY im)
      (wr.xmin - full.xmin) (wr.ymin - full.ymin) wr.nx wr.ny) := by
    simp only [imageWrap, wrapHermitianY, hr0, hb0, hwr, hfull]
    rw [if_neg (by decide), if_neg (by decide)]
    have e1 : (2 * (0 + (b.ny : ℤ) - 1)).toNat = 2 * (b.ny - 1) := by omega
    have e2 : -(0 + (b.ny : ℤ) - 1) + 1 - -(0 + (r.ny : ℤ) - 1) = -(b.ny - 1) + 1 - -(r.ny - 1) := by ring
    rw [e1, e2]
  set E := wrapNonhermitian (expandHermitianY im) (wr.xmin - full.xmin) (wr.ymin - full.ymin) wr.nx wr.ny
    with hE
  have hEh : E.h = 2 * r.ny - 1 := by rw [oh]; simp only [expandHermitianY]; omega
  obtain ⟨m1, m2, m3, m4⟩ := hm
  have hpix : pixel (imageWrap 2 im r b) r X Y = pixel E full X Y := by
    rw [earr]
    simp only [pixel, contractHermitianY, hEh, hr0, hfull]
    congr 1
    omega
  rw [hpix, hreg X Y ⟨by simp only [hwr]; omega, by simp only [hwr]; omega, by simp only [hwr]; omega,
    by simp only [hwr]; omega⟩]
  apply congruentSum_congr
  intro X' Y' hm'
  obtain ⟨g1, g2, g3, g4⟩ := hm'
  simp only [hfull] at g1 g2 g3 g4
  simp only [pixel, hermExtY, expandHermitianY, hfull, hr0]
  by_cases hY : 0 ≤ Y'
  · rw [if_pos hY, if_neg (by omega)]
    congr 1
    omega
  · rw [if_neg hY, if_pos (by omega)]
    congr 2 <;> omega

-- an image with x in 0..3, y in -2..2, wrapped to x in 0..2, y in -1..1
example : (⟨0, -2, 4, 5⟩ : Rect).ymin + (⟨0, -2, 4, 5⟩ : Rect).ny - 1 = -(⟨0, -2, 4, 5⟩ : Rect).ymin ∧
    (⟨0, -1, 3, 3⟩ : Rect).mem 2 1 := by
  refine ⟨by decide, ?_⟩
  simp [Rect.mem]

end
end JG
