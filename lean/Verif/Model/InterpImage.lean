import Verif.Model.Image
import Verif.Model.Place
import Verif.Model.Interpolant
import Mathlib.Data.Complex.Basic

/-!
Model of `/repo/jax_galsim/interpolatedimage.py`: evaluation of the interpolated image in real and
Fourier space, the padded working image and the flux-enclosing size.  Floats are exact reals.
-/

namespace JG.Interp

/-! ### Real space -/

/-- `_interp_weight_1d_xval` for one offset: interpolatedimage.py:976-984. -/
noncomputable def weightX (f : ℝ → ℝ) (xi : ℤ) (xp x : ℝ) (nx : ℕ) (ioff : ℤ) : ℝ :=
  let xind := xi + ioff
  let w := f (x - (xp + ioff))
  if 0 ≤ xind ∧ xind < nx then w else 0

/-- `_draw_with_interpolant_xval` at one point: interpolatedimage.py:988-1047.  `f` is the kernel's
`_xval_noraise`; reads outside the array are clamped (`Arr.get`). -/
noncomputable def drawXval (f : ℝ → ℝ) (ixrange : ℤ) (zp : Arr ℝ) (xmin ymin : ℤ) (x y : ℝ) : ℝ :=
  let xi := ⌊x - xmin⌋
  let xp : ℝ := xi + xmin
  let yi := ⌊y - ymin⌋
  let yp : ℝ := yi + ymin
  let irange := ixrange / 2
  ∑ jo ∈ Finset.Icc (-irange) irange, ∑ io ∈ Finset.Icc (-irange) irange,
    weightX f xi xp x zp.w io * weightX f yi yp y zp.h jo * zp.get (yi + jo) (xi + io)

/-! ### Fourier space -/

/-- A half-stored k image: `nky` rows, `nkx2 + 1` columns. -/
structure KHalf where
  nky : ℕ
  nkx2 : ℕ
  at' : ℕ → ℕ → ℂ

/-- The value used for the full-image index `(kyind, kxind)`: interpolatedimage.py:1163-1167. -/
noncomputable def KHalf.fetch (z : KHalf) (kyind kxind : ℤ) : ℂ :=
  let nkx : ℤ := z.nkx2 * 2
  if kxind < z.nkx2 then star (z.at' ((z.nky - kyind) % z.nky).toNat (nkx - kxind - z.nkx2).toNat)
  else z.at' kyind.toNat (kxind - z.nkx2).toNat

/-- `_draw_with_interpolant_kval` at one point, with `_interp_weight_1d_kval`:
interpolatedimage.py:1091-1174. -/
noncomputable def drawKval (f : ℝ → ℝ) (ixrange : ℤ) (z : KHalf) (kxmin kymin : ℤ) (kx ky : ℝ) : ℂ :=
  let kxi := ⌊kx - kxmin⌋
  let kxp : ℝ := kxi + kxmin
  let kyi := ⌊ky - kymin⌋
  let kyp : ℝ := kyi + kymin
  let nkx : ℤ := z.nkx2 * 2
  let irange := ixrange / 2
  ∑ jo ∈ Finset.Icc (-irange) irange, ∑ io ∈ Finset.Icc (-irange) irange,
    z.fetch ((kyi + jo) % z.nky) ((kxi + io) % nkx) * f (kx - (kxp + io)) * f (ky - (kyp + jo))

/-! ### The padded image -/

/-- `jnp.pad(arr, npad, mode="constant")`: interpolatedimage.py:371-372; a negative width raises. -/
def zeroPad (a : Arr ℝ) (n : ℤ) : Option (Arr ℝ) :=
  if n < 0 then none
  else some ⟨a.h + 2 * n.toNat, a.w + 2 * n.toNat, fun i j =>
    if (n.toNat ≤ i ∧ i < n.toNat + a.h) ∧ n.toNat ≤ j ∧ j < n.toNat + a.w then a.at' (i - n.toNat) (j - n.toNat)
    else 0⟩

/-- The copy made by `_image`: interpolatedimage.py:615-632 (dtype float; depixelize raises). -/
noncomputable def workImage (recenter : Bool) (im : Image) : Image :=
  let c : Image := { im with isConst := some false, isInt := false }
  if recenter then (c.step (.setCenter ⟨0, 0⟩ true)).1 else c

/-- The padded size: interpolatedimage.py:665-672. -/
noncomputable def padSize (padFactor : ℝ) (h w : ℕ) : Option ℤ :=
  let m : ℤ := max (h:ℤ) w
  goodFftSize (if padFactor > 1 then ⌈padFactor * m⌉ else m)

/-- `_xim`: interpolatedimage.py:663-688 (`im` is `_image`). -/
noncomputable def xim (padFactor : ℝ) (im : Image) : Except ImErr Image :=
  match padSize padFactor im.arr.h im.arr.w with
  | none => .error .valueError
  | some P =>
    match zeroPad im.arr ((P - max (im.arr.h:ℤ) im.arr.w) / 2) with
    | none => .error .valueError
    | some a =>
      match Image.make (.array a 1 1 true) false false with
      | .error e => .error e
      | .ok x =>
        match ((x.step (.setCenter ⟨0, 0⟩ true)).1).step (.setSubImage im.bounds im) with
        | (r, none) => .ok r
        | (_, some e) => .error e

/-! ### Flux-enclosing size -/

/-- `jnp.argmin` over indices `0 .. n`: the first index of the smallest value. -/
def argminUpTo {α : Type} [LinearOrder α] (f : ℕ → α) : ℕ → ℕ
  | 0 => 0
  | n + 1 => if f (n + 1) < f (argminUpTo f n) then n + 1 else argminUpTo f n

/-- `_flux_frac`: interpolatedimage.py:1177-1195, entry `d`; `cx`, `cy` are the integer centre relative to
the lower left pixel. -/
noncomputable def fluxFrac (a : Arr ℝ) (cx cy : ℤ) (d : ℕ) : ℝ :=
  ∑ i ∈ Finset.range a.h, ∑ j ∈ Finset.range a.w,
    if |(j:ℤ) - cx| ≤ d ∧ |(i:ℤ) - cy| ≤ d then a.at' i j else 0

/-- `_calculate_size_containing_flux`: interpolatedimage.py:1198-1217, for an image of at least one
pixel. -/
noncomputable def sizeContainingFlux (a : Arr ℝ) (cx cy : ℤ) (thresh : ℝ) : ℝ :=
  let p : ℝ := SignType.sign thresh
  let v : ℕ → WithTop ℝ := fun d => if p * fluxFrac a cx cy d ≥ p * thresh then (((d:ℝ) + 1 : ℝ) : WithTop ℝ) else ⊤
  argminUpTo v (min a.h a.w - 1) + 0.5

/-! ### Fluxes for photon shooting -/

/-- `_pos_neg_fluxes`: interpolatedimage.py:849-863. -/
noncomputable def posNegFluxes (a : Arr ℝ) (pint nint : ℝ) : ℝ × ℝ :=
  let pflux := ∑ i ∈ Finset.range a.h, ∑ j ∈ Finset.range a.w, if a.at' i j > 0 then a.at' i j else 0
  let nflux := |∑ i ∈ Finset.range a.h, ∑ j ∈ Finset.range a.w, if a.at' i j < 0 then a.at' i j else 0|
  let pint2d := pint * pint + nint * nint
  let nint2d := 2 * pint * nint
  (pint2d * pflux + nint2d * nflux, pint2d * nflux + nint2d * pflux)

end JG.Interp
