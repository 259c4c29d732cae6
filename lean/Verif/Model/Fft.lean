import Verif.Model.Image
import Verif.Model.InterpImage
import Mathlib.Analysis.SpecialFunctions.Complex.Circle

/-!
Model of the Fourier transforms of `/repo/jax_galsim/image.py` (`calculate_fft`,
`calculate_inverse_fft`) and of `drawFFT_finish` in `/repo/jax_galsim/gsobject.py`.  The functions of
`jnp.fft` are defined here by their documented sums; floats are exact reals.
-/

namespace JG.Fft

/-- `exp(2πi t / n)`. -/
noncomputable def root (n : ℕ) (t : ℤ) : ℂ := Complex.exp ((2 * Real.pi * t / n : ℝ) * Complex.I)

/-- `jnp.fft.fftshift` on both axes: roll by `n // 2`. -/
def fftshift {M : Type} (a : Arr M) : Arr M :=
  ⟨a.h, a.w, fun i j => a.at' (((i:ℤ) - (a.h / 2 : ℕ)) % a.h).toNat (((j:ℤ) - (a.w / 2 : ℕ)) % a.w).toNat⟩

/-- `jnp.fft.fftshift(.., axes=0)`. -/
def fftshift0 {M : Type} (a : Arr M) : Arr M :=
  ⟨a.h, a.w, fun i j => a.at' (((i:ℤ) - (a.h / 2 : ℕ)) % a.h).toNat j⟩

/-- `jnp.fft.ifftshift(.., axes=(-2,))`: roll by `-(n // 2)`. -/
def ifftshift0 {M : Type} (a : Arr M) : Arr M :=
  ⟨a.h, a.w, fun i j => a.at' (((i:ℤ) + (a.h / 2 : ℕ)) % a.h).toNat j⟩

/-- `jnp.fft.rfft2`: the last axis keeps the frequencies `0 .. w // 2`. -/
noncomputable def rfft2 (a : Arr ℝ) : Arr ℂ :=
  ⟨a.h, a.w / 2 + 1, fun ky kx => ∑ y ∈ Finset.range a.h, ∑ x ∈ Finset.range a.w,
    (a.at' y x : ℂ) * root a.w (-(kx * x : ℤ)) * root a.h (-(ky * y : ℤ))⟩

/-- `jnp.fft.ifft` along axis 0. -/
noncomputable def ifft0 (z : Arr ℂ) : Arr ℂ :=
  ⟨z.h, z.w, fun y kx => (∑ ky ∈ Finset.range z.h, z.at' ky kx * root z.h (ky * y : ℤ)) / z.h⟩

/-- `jnp.fft.irfft` along the last axis, for an even output length `2 m` and `m + 1` input columns: the
imaginary parts of the first and last column are ignored. -/
noncomputable def irfft1 (z : Arr ℂ) (m : ℕ) : Arr ℝ :=
  ⟨z.h, 2 * m, fun y x =>
    ((z.at' y 0).re + (z.at' y m).re * (-1) ^ x +
      2 * ∑ k ∈ Finset.Ico 1 m, (z.at' y k * root (2 * m) (k * x : ℤ)).re) / (2 * m : ℕ)⟩

/-- `jnp.fft.irfft2` of `m + 1` columns (output width `2 m`, the default and the explicit `s` here). -/
noncomputable def irfft2 (z : Arr ℂ) (m : ℕ) : Arr ℝ := irfft1 (ifft0 z) m

/-- `No2` of `calculate_fft`: image.py:852-861. -/
def fftNo2 (b : Bounds ℤ) : ℤ :=
  max (max (-b.xmin) (b.xmin + b.deltax - 1 + 1)) (max (-b.ymin) (b.ymin + b.deltay - 1 + 1))

/-- `full_bounds`: image.py:863. -/
def fullBounds (no2 : ℤ) : Bounds ℤ := Bounds.mkDelta clsI ⟨-no2, true⟩ ⟨2 * no2, true⟩ ⟨-no2, true⟩ ⟨2 * no2, true⟩

/-- `ximage` of `calculate_fft`: image.py:864-870 (`self[self.bounds]` is the image itself; the comparison
of bounds is by their four numbers). -/
noncomputable def ximage (im : Image) : Except ImErr Image :=
  let no2 := fftNo2 im.bounds
  if im.bounds.xmin = -no2 ∧ im.bounds.deltax = 2 * no2 ∧ im.bounds.ymin = -no2 ∧ im.bounds.deltay = 2 * no2 then .ok im
  else
    match Image.make (.bounds (fullBounds no2) (some 0)) im.isInt false with
    | .error e => .error e
    | .ok x =>
      match x.step (.setSubImage im.bounds im) with
      | (r, none) => .ok r
      | (_, some e) => .error e

/-- `calculate_fft`: image.py:834-889.  Result: the array (row 0 is `ky = -No2`, column 0 is `kx = 0`)
and `dk`; the wcs checks are not modelled. -/
noncomputable def calculateFft (im : Image) (dx : ℝ) : Except ImErr (Arr ℂ × ℝ) :=
  if !im.bounds.defined then .error .undefinedBounds
  else
    match ximage im with
    | .error e => .error e
    | .ok x =>
      let z := fftshift0 (rfft2 (fftshift x.arr))
      .ok (⟨z.h, z.w, fun i j => z.at' i j * (dx * dx : ℝ)⟩, Real.pi / (fftNo2 im.bounds * dx))

/-- `calculate_inverse_fft` when the bounds are already `target_bounds`: image.py:911-956.  Result: the array
(row 0 is `y = -No2`, column 0 is `x = -No2`) and `dx`. -/
noncomputable def inverseFft (z : Arr ℂ) (no2 : ℕ) (dk : ℝ) : Arr ℝ × ℝ :=
  let r := fftshift (irfft2 (fftshift0 z) no2)
  (⟨r.h, r.w, fun i j => r.at' i j * (dk * no2 / Real.pi) ^ 2⟩, Real.pi / (no2 * dk))

/-- The real image of `drawFFT_finish`: gsobject.py:925-950, `kimage` having `Nk // 2 + 1` columns and
`2 (Nk // 2) + 1` rows.  The array of `_wrap(..).subImage(bwrap)` is cut out of the wrapped array. -/
noncomputable def finishReal (k : Arr ℂ) (nk2 m : ℕ) : Arr ℝ :=
  let w := imageWrap 1 k ⟨0, -nk2, nk2 + 1, 2 * nk2 + 1⟩ ⟨0, -m, m + 1, 2 * m⟩
  let sub : Arr ℂ := ⟨2 * m, m + 1, fun i j => w.at' (nk2 - m + i) j⟩
  fftshift (irfft2 (ifftshift0 sub) m)

/-- `_kValue_arr` at one point: interpolatedimage.py:1050-1088.  `kval` is the transform of the real-space
kernel, `urange` its range in `u`. -/
noncomputable def kValueArr (kval : ℝ → ℝ) (urange : ℝ) (f : ℝ → ℝ) (ixrange : ℤ) (z : Interp.KHalf) (kymin : ℤ)
    (scale : ℝ) (ox oy kx ky : ℝ) : ℂ :=
  let pfac := Complex.exp (Complex.I * (kx * ox + ky * oy : ℝ))
  let kxi := kx / scale
  let kyi := ky / scale
  let uscale := 1 / (2 * Real.pi)
  let maxk := urange / uscale / scale
  let val := Interp.drawKval f ixrange z kymin kymin kxi kyi
  if |kxi| ≤ maxk ∧ |kyi| ≤ maxk then val * (kval kx * kval ky : ℝ) * pfac else 0

end JG.Fft
