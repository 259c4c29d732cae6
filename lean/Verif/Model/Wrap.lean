import Mathlib.Algebra.BigOperators.Group.Finset.Basic
import Mathlib.Algebra.Star.Basic
import Mathlib.Data.Int.Interval

/-!
Model of `/repo/jax_galsim/core/wrap_image.py` and of the index arithmetic of `Image.wrap`
(`/repo/jax_galsim/image.py:721-828`).  Pixel values live in any commutative monoid.
-/

namespace JG

/-- A two dimensional array of shape `(h, w)`; only entries with `i < h`, `j < w` matter. -/
structure Arr (M : Type) where
  h : ℕ
  w : ℕ
  at' : ℕ → ℕ → M

section
variable {M : Type} [AddCommMonoid M]

/-- `jnp.pad(im, ((0, dh), (0, dw)))`: wrap_image.py:70. -/
def Arr.pad (a : Arr M) (dh dw : ℕ) : Arr M :=
  ⟨a.h + dh, a.w + dw, fun i j => if i < a.h ∧ j < a.w then a.at' i j else 0⟩

/-- `jnp.roll(sim, (-dy, -dx), axis=(0, 1))`: entry `(i, j)` of the result is entry
`((i + dy) mod h, (j + dx) mod w)` of the argument (wrap_image.py:74). -/
def Arr.roll (a : Arr M) (dy dx : ℤ) : Arr M :=
  ⟨a.h, a.w, fun i j => a.at' (((i + dy) % (a.h : ℤ)).toNat) (((j + dx) % (a.w : ℤ)).toNat)⟩

/-- Rows of block windows of `_block_reduce_index`, wrap_image.py:10-15: the number of windows is the
length of `arange(N - wind + 1)[::wind]`. -/
def nWindows (N wind : ℕ) : ℕ := (N - wind + 1 + (wind - 1)) / wind

/-- `_block_reduce_index`: wrap_image.py:7-32.  `y1 .. y5` are the arrays after the successive
gather / moveaxis / reshape steps; the result sums over the leading axis. -/
def blockReduceIndex (sim : Arr M) (nxwrap nywrap : ℕ) : Arr M :=
  let ny := nWindows sim.h nywrap
  let nx := nWindows sim.w nxwrap
  let y1 : ℕ → ℕ → ℕ → M := fun b r x => sim.at' (b * nywrap + r) x
  let y2 : ℕ → ℕ → ℕ → M := fun b x r => y1 b r x
  let y3 : ℕ → ℕ → ℕ → ℕ → M := fun b c s r => y2 b (c * nxwrap + s) r
  let y4 : ℕ → ℕ → ℕ → M := fun k s r => y3 (k / nx) (k % nx) s r
  let y5 : ℕ → ℕ → ℕ → M := fun k r s => y4 k s r
  ⟨nywrap, nxwrap, fun i j => ∑ k ∈ Finset.range (ny * nx), y5 k i j⟩

/-- The inner loop over blocks in a row of `_block_reduce_loop`, wrap_image.py:46-50; `k` blocks left. -/
def loopX (sim : Arr M) (nxwrap yl : ℕ) : ℕ → ℕ → (ℕ → ℕ → M) → (ℕ → ℕ → M)
  | 0, _, fim => fim
  | k + 1, xl, fim =>
    loopX sim nxwrap yl k (xl + nxwrap) (fun i j => fim i j + sim.at' (yl + i) (xl + j))

/-- The outer loop, wrap_image.py:43-52. -/
def loopY (sim : Arr M) (nx nxwrap nywrap : ℕ) : ℕ → ℕ → (ℕ → ℕ → M) → (ℕ → ℕ → M)
  | 0, _, fim => fim
  | k + 1, yl, fim =>
    loopY sim nx nxwrap nywrap k (yl + nywrap) (loopX sim nxwrap yl nx 0 fim)

/-- `_block_reduce_loop`: wrap_image.py:35-55. -/
def blockReduceLoop (sim : Arr M) (nx ny nxwrap nywrap : ℕ) : Arr M :=
  ⟨nywrap, nxwrap, loopY sim nx nxwrap nywrap ny 0 (fun _ _ => 0)⟩

/-- Start index of `lax.dynamic_update_slice`: negative starts are counted from the end, then the
start is clamped so that the update fits. -/
def dusStart (s : ℤ) (n upd : ℕ) : ℕ :=
  (min (max (if s < 0 then s + n else s) 0) ((n : ℤ) - upd)).toNat

/-- `lax.dynamic_update_slice(im, fim, (ymin, xmin))`: wrap_image.py:84-88. -/
def Arr.dynamicUpdate (a f : Arr M) (ymin xmin : ℤ) : Arr M :=
  let y0 := dusStart ymin a.h f.h
  let x0 := dusStart xmin a.w f.w
  ⟨a.h, a.w, fun i j =>
    if y0 ≤ i ∧ i < y0 + f.h ∧ x0 ≤ j ∧ j < x0 + f.w then f.at' (i - y0) (j - x0) else a.at' i j⟩

/-- Number of blocks: wrap_image.py:60-66. -/
def nBlocks (n wrap : ℕ) : ℕ := if n % wrap ≠ 0 then n / wrap + 1 else n / wrap

/-- `wrap_nonhermitian(im, xmin, ymin, nxwrap, nywrap)`: wrap_image.py:58-89. -/
def wrapNonhermitian (im : Arr M) (xmin ymin : ℤ) (nxwrap nywrap : ℕ) : Arr M :=
  let nx := nBlocks im.w nxwrap
  let ny := nBlocks im.h nywrap
  let sim := im.pad (ny * nywrap - im.h) (nx * nxwrap - im.w)
  let sim := sim.roll ymin xmin
  let fim := if nx * ny > 50 then blockReduceIndex sim nxwrap nywrap
    else blockReduceLoop sim nx ny nxwrap nywrap
  im.dynamicUpdate fim ymin xmin

variable [Star M]

/-- `expand_hermitian_x`: wrap_image.py:92-94: the reversed conjugate of columns `1..` is put in front. -/
def expandHermitianX (im : Arr M) : Arr M :=
  ⟨im.h, (im.w - 1) + im.w, fun i j =>
    if j < im.w - 1 then star (im.at' (im.h - 1 - i) (1 + (im.w - 1 - 1 - j)))
    else im.at' i (j - (im.w - 1))⟩

/-- `contract_hermitian_x`: wrap_image.py:97-99. -/
def contractHermitianX (im : Arr M) : Arr M :=
  ⟨im.h, im.w - im.w / 2, fun i j => im.at' i (j + im.w / 2)⟩

/-- `wrap_hermitian_x`: wrap_image.py:102-114. -/
def wrapHermitianX (im : Arr M) (imXmin imYmin wrapXmin wrapYmin : ℤ) (wrapNx wrapNy : ℕ) : Arr M :=
  contractHermitianX (wrapNonhermitian (expandHermitianX im) (wrapXmin - imXmin) (wrapYmin - imYmin)
    wrapNx wrapNy)

/-- `expand_hermitian_y`: wrap_image.py:117-119. -/
def expandHermitianY (im : Arr M) : Arr M :=
  ⟨(im.h - 1) + im.h, im.w, fun i j =>
    if i < im.h - 1 then star (im.at' (1 + (im.h - 1 - 1 - i)) (im.w - 1 - j))
    else im.at' (i - (im.h - 1)) j⟩

/-- `contract_hermitian_y`: wrap_image.py:122-124. -/
def contractHermitianY (im : Arr M) : Arr M :=
  ⟨im.h - im.h / 2, im.w, fun i j => im.at' (i + im.h / 2) j⟩

/-- `wrap_hermitian_y`: wrap_image.py:127-139. -/
def wrapHermitianY (im : Arr M) (imXmin imYmin wrapXmin wrapYmin : ℤ) (wrapNx wrapNy : ℕ) : Arr M :=
  contractHermitianY (wrapNonhermitian (expandHermitianY im) (wrapXmin - imXmin) (wrapYmin - imYmin)
    wrapNx wrapNy)

/-- The integer rectangle of an image or of the wrap bounds: first coordinates and sizes. -/
structure Rect where
  xmin : ℤ
  ymin : ℤ
  nx : ℕ
  ny : ℕ

/-- `Image._wrap`: image.py:785-828 (the array part; `subImage(bounds)` afterwards is the region of
the returned array).  `mode`: 0 plain, 1 hermitian x, 2 hermitian y.  `2 * bounds.xmax` and
`2 * bounds.ymax` are image.py:769, 778. -/
def imageWrap (mode : ℕ) (im : Arr M) (r b : Rect) : Arr M :=
  if mode = 0 then wrapNonhermitian im (b.xmin - r.xmin) (b.ymin - r.ymin) b.nx b.ny
  else if mode = 1 then
    wrapHermitianX im (-(r.xmin + r.nx - 1)) r.ymin (-(b.xmin + b.nx - 1) + 1) b.ymin
      (2 * (b.xmin + b.nx - 1)).toNat b.ny
  else
    wrapHermitianY im r.xmin (-(r.ymin + r.ny - 1)) b.xmin (-(b.ymin + b.ny - 1) + 1)
      b.nx (2 * (b.ymin + b.ny - 1)).toNat

end

end JG
