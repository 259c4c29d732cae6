import Verif.Model.InterpWorldK

/-!
The ranges in Fourier space that an `InterpolatedImage` finds from its pixels: `_getMaxK`, `_getStepK` and `_find_maxk` of
`/repo/jax_galsim/interpolatedimage.py`.  Floats are exact reals; the results are those of the inner object, in units of pixels.
-/

namespace JG.Interp

open JG JG.Fft

/-- The truth value and kind of `calculate_maxk`, `calculate_stepk`: `False` (or zero), `True`, or a number. -/
inductive Calc
  | off | on
  | bound (v : ℝ)

/-- `msk[i]` for `x = kx[0, i]`: interpolatedimage.py:1249-1259.  `kx` and `ky` are functions of the column and of the row. -/
noncomputable def scanCount (z : Arr ℂ) (thresh : ℝ) (kx ky : ℕ → ℝ) (x : ℝ) : ℕ :=
  open Classical in
  ((Finset.range z.h ×ˢ Finset.range z.w).filter fun p =>
    (z.at' p.1 p.2 * (starRingEnd ℂ) (z.at' p.1 p.2)).re > thresh * thresh ∧ |kx p.2| ≤ x ∧ |ky p.1| ≤ x).card

/-- `delta_msk`: interpolatedimage.py:1275-1279. -/
def deltaMsk (msk : ℕ → ℕ) (i : ℕ) : ℤ := if i = 0 then 0 else (msk i : ℤ) - msk (i - 1)

/-- `jnp.convolve(d, jnp.ones(5), mode="full")[m]` for `n` entries: interpolatedimage.py:1288. -/
def conv5 (n : ℕ) (d : ℕ → ℤ) (m : ℕ) : ℤ := ∑ k ∈ Finset.range 5, if k ≤ m ∧ m - k < n then d (m - k) * 1 else 0

/-- `_inner_comp_find_maxk_scan`: interpolatedimage.py:1246-1308. -/
noncomputable def findMaxkScan (z : Arr ℂ) (thresh : ℝ) (kx ky : ℕ → ℝ) : ℝ :=
  open Classical in
  let n := z.w
  let msk (i : ℕ) : ℕ := scanCount z thresh kx ky (kx i)
  let sums (i : ℕ) : ℤ := conv5 n (deltaMsk msk) (i + 4)
  if ∃ i < n, sums i = 0 then kx (argminUpTo (fun i => if sums i = 0 then (0 : ℕ) else 1) (n - 1)) + 0
  else kx (n - 1) + (kx (n - 1) - kx (n - 2))

/-- `_find_maxk`: interpolatedimage.py:1311-1322.  `kymin` is the lowest row of the image, whose lowest column is 0. -/
noncomputable def findMaxk (z : Arr ℂ) (scale : ℝ) (kymin : ℤ) (maxMaxk thresh : ℝ) : ℝ :=
  min (findMaxkScan z thresh (fun i => ((i : ℝ) + 0) * scale) (fun j => ((j : ℝ) + kymin) * scale)) maxMaxk

/-- `_getMaxK`: interpolatedimage.py:736-752, interpolant.py:215-218.  `ur` is `urange()`, `th` is `maxk_threshold`. -/
noncomputable def II.innerMaxk (ur th : ℝ) (o : II) (c : Calc) : Except IIErr ℝ :=
  let find (b : ℝ) : Except IIErr ℝ := o.xim.bind fun x => ((calculateFft x 1).mapError .image).bind fun zk =>
    o.imageFlux.map fun f => findMaxk zk.1 zk.2 (-fftNo2 x.bounds) b (th * f)
  match c with
  | .off => .ok (2 * Real.pi * ur)
  | .on => find (ur / (1 / (2 * Real.pi)))
  | .bound v => find v

/-- `_getSimpleStepK`: interpolatedimage.py:729-734. -/
noncomputable def simpleStepk (xrange R : ℝ) : ℝ := Real.pi / √(R ^ 2 + xrange ^ 2)

/-- `_getStepK(True)` and `_getStepK(False)`: interpolatedimage.py:710-727 (a number given instead is not modelled); `self.image` is `_pad_image` (569-572).  `ft` is `folding_threshold`. -/
noncomputable def II.innerStepk (ft : ℝ) (o : II) (on : Bool) : Except IIErr ℝ :=
  o.padImage.bind fun w => o.imageFlux.bind fun f =>
    if on then
      match w.bounds.centerI with
      | none => .error .undefinedBounds
      | some c => .ok (simpleStepk o.args.kernel.xrange
          (sizeContainingFlux w.arr (c.x - w.bounds.xmin) (c.y - w.bounds.ymin) ((1 - ft) * f)))
    else .ok (simpleStepk o.args.kernel.xrange ((max w.arr.h w.arr.w : ℕ) / 2 - 0.5))

end JG.Interp
