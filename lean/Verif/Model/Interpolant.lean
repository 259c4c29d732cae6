import Mathlib.Analysis.SpecialFunctions.Trigonometric.Basic
import Mathlib.Analysis.SpecialFunctions.Pow.Real

/-!
Model of `/repo/jax_galsim/interpolant.py`: kernels, their ranges, fluxes and Fourier transforms.
Floats are exact reals.  The tables of numbers for Lanczos (fluxes, unit integrals, k-space table)
and the photon shooting are not modelled here.
-/

namespace JG.Interp

/-- `jnp.sinc`: `sin(π x)/(π x)`, 1 at 0. -/
noncomputable def sinc (x : ℝ) : ℝ := if x = 0 then 1 else Real.sin (Real.pi * x) / (Real.pi * x)

/-- The interpolant classes with their parameters: interpolant.py:272, 324, 397, 447, 499, 564, 659.
`delta` and `sinc` carry `gsparams.kvalue_accuracy`, `lanczos` carries `n` and `conserve_dc`. -/
inductive Kernel where
  | delta (kva : ℝ)
  | nearest
  | sinc (kva : ℝ)
  | linear
  | cubic
  | quintic
  | lanczos (n : ℕ) (conserveDc : Bool)

/-- `_one` of `Cubic._xval`: interpolant.py:519-520. -/
noncomputable def cubicOne (x : ℝ) : ℝ := 1 + x * x * (1.5 * x - 2.5)
/-- interpolant.py:522-523. -/
noncomputable def cubicTwo (x : ℝ) : ℝ := -0.5 * (x - 1) * (x - 2) * (x - 2)

/-- interpolant.py:592-595. -/
noncomputable def quinticOne (x : ℝ) : ℝ := 1 + x * x * x * (-95 / 12 + x * (23 / 2 + x * (-55 / 12)))
/-- interpolant.py:597-605. -/
noncomputable def quinticTwo (x : ℝ) : ℝ :=
  (x - 1) * (x - 2) * (-23 / 4 + x * (29 / 2 + x * (-83 / 8 + x * (55 / 24))))
/-- interpolant.py:607-613. -/
noncomputable def quinticThree (x : ℝ) : ℝ :=
  (x - 2) * (x - 3) * (x - 3) * (-9 / 4 + x * (25 / 12 + x * (-11 / 24)))

/-- The unrolled formulae for `sinc x` in `Lanczos._xval`, `x` being the absolute value already:
interpolant.py:1440-1472. -/
noncomputable def lanczosSinc (n : ℕ) (x : ℝ) : ℝ :=
  let pix := Real.pi * x
  let sn0 := sinc (x / n)
  match n with
  | 1 => sn0
  | 2 => sn0 * Real.cos (pix / 2)
  | 3 => let sn := sn0 * (pix / 3); sn0 * (1 - 4 / 3 * sn * sn)
  | 4 => let sn := sn0 * (pix / 4); sn0 * Real.cos (pix / 4) * (1 - 2 * sn * sn)
  | 5 => let sn := sn0 * (pix / 5); let q := sn * sn; sn0 * (1 - q * (4 - 16 / 5 * q))
  | 6 => let sn := sn0 * (pix / 6); let q := sn * sn
         sn0 * Real.cos (pix / 6) * (1 - 16 / 3 * q * (1 - q))
  | 7 => let sn := sn0 * (pix / 7); let q := sn * sn; sn0 * (1 - q / 7 * (56 - q * (112 - 64 * q)))
  | _ => sinc x

/-- The `conserve_dc` divisor in `Lanczos._xval` from `s = sincx * pix`: interpolant.py:1477-1489. -/
noncomputable def lanczosFactor (K : ℕ → ℝ) (s : ℝ) : ℝ :=
  let q := s * s
  1 - 4 * K 1 * q
    - 16 * K 2 * q * (1 - q)
    - 4 * K 3 * q * (9 - q * (24 - 16 * q))
    - 64 * K 4 * q * (1 - q * (5 - q * (8 - 4 * q)))
    - 4 * K 5 * q * (25 - q * (200 - q * (560 - q * (640 - 256 * q))))

/-- `Lanczos._xval`: interpolant.py:1437-1492.  The table `_K` (values of a sine-integral expression
computed at import, interpolant.py:1627-1645) is a parameter. -/
noncomputable def lanczosXval (K : ℕ → ℕ → ℝ) (n : ℕ) (dc : Bool) (x : ℝ) : ℝ :=
  let x := |x|
  let val := lanczosSinc n x * sinc (x / n)
  let val := if dc then val / lanczosFactor (K n) (lanczosSinc n x * (Real.pi * x)) else val
  if x < n then val else 0

/-- `_xval_noraise`: interpolant.py:152-153, 285-294 (Delta), 338-339 (Nearest), 407-408 (Sinc),
463-469 (Linear), 516-532 (Cubic), 589-623 (Quintic), 1494-1495 (Lanczos). -/
noncomputable def Kernel.xval (K : ℕ → ℕ → ℝ) : Kernel → ℝ → ℝ
  | .delta kva, x => if |x| > 0.5 * kva then 0 else 1 / kva
  | .nearest, x => if |x| > 0.5 then 0 else 1
  | .sinc _, x => Interp.sinc x
  | .linear, x => if |x| > 1 then 0 else 1 - |x|
  | .cubic, x => if |x| < 1 then cubicOne |x| else if |x| < 2 then cubicTwo |x| else 0
  | .quintic, x =>
    if |x| ≤ 1 then quinticOne |x| else if |x| ≤ 2 then quinticTwo |x|
    else if |x| ≤ 3 then quinticThree |x| else 0
  | .lanczos n dc, x => lanczosXval K n dc x

/-- `xrange`: interpolant.py:306-307, 351-352, 425-427, 482-483, 553-554, 648-649, 1534-1535. -/
noncomputable def Kernel.xrange : Kernel → ℝ
  | .delta _ => 0
  | .nearest => 0.5
  | .sinc kva => 1 / (Real.pi * kva)
  | .linear => 1
  | .cubic => 2
  | .quintic => 3
  | .lanczos n _ => n

/-- `ixrange`: interpolant.py:211-213 (default), 311-312, 356-357, 487-488, 558-559, 653-654,
1539-1540. -/
noncomputable def Kernel.ixrange : Kernel → ℤ
  | .delta _ => 0
  | .nearest => 1
  | .sinc kva => 2 * ⌈1 / (Real.pi * kva)⌉
  | .linear => 2
  | .cubic => 4
  | .quintic => 6
  | .lanczos n _ => 2 * n

/-- `Nearest._uval`: interpolant.py:342-343. -/
noncomputable def nearestUval (u : ℝ) : ℝ := sinc u
/-- `Linear._uval`: interpolant.py:472-474. -/
noncomputable def linearUval (u : ℝ) : ℝ := sinc u * sinc u
/-- `Cubic._uval`: interpolant.py:535-539. -/
noncomputable def cubicUval (u : ℝ) : ℝ :=
  let u := |u|
  let s := sinc u
  let c := Real.cos (Real.pi * u)
  s * s * s * (3 * s - 2 * c)
/-- `Quintic._uval`: interpolant.py:626-633. -/
noncomputable def quinticUval (u : ℝ) : ℝ :=
  let u := |u|
  let s := sinc u
  let piu := Real.pi * u
  let c := Real.cos piu
  let ssq := s * s
  let piusq := piu * piu
  s * ssq * ssq * (s * (55 - 19 * piusq) + 2 * c * (piusq - 27))

/-- `SincInterpolant._uval`: interpolant.py:411-417. -/
noncomputable def sincUval (u : ℝ) : ℝ := if |u| > 0.5 then 0 else if |u| < 0.5 then 1 else 0.5

/-- `_kval_noraise`: interpolant.py:162-163. -/
noncomputable def kvalOf (uval : ℝ → ℝ) (k : ℝ) : ℝ := uval (k / 2 / Real.pi)

/-- Class constants `_positive_flux`, `_negative_flux`: interpolant.py:273-274, 325-326, 448-449,
502-503, 567-568. -/
noncomputable def Kernel.fluxes : Kernel → Option (ℝ × ℝ)
  | .delta _ => some (1, 0)
  | .nearest => some (1, 0)
  | .linear => some (1, 0)
  | .cubic => some (13 / 12, 1 / 12)
  | .quintic => some (1.1293413499280066555, 0.1293413499280066555)
  | _ => none

/-- `_sinc_fluxes`: interpolant.py:381-392; the values `Si(π i)` are a parameter. -/
noncomputable def sincFluxes (si : ℕ → ℝ) (ixrange : ℕ) : ℝ × ℝ :=
  let n0 := ixrange / 2 + 1
  let n := if n0 % 2 ≠ 0 then n0 + 1 else n0
  let val := fun i => (si (i + 1) - si i) / Real.pi
  let pos := (∑ i ∈ Finset.range n, if val i > 0 then val i else 0) * 2
  (pos, pos - 1)

/-- `_unit_integrals`: interpolant.py:275, 327, 452, 505, 570-578.  Index `j` is the
integral over the pixel centred on `j`. -/
noncomputable def Kernel.unitIntegrals : Kernel → List ℝ
  | .delta _ => [1]
  | .nearest => [1]
  | .linear => [0.75, 0.125]
  | .cubic => [161 / 192, 3 / 32, -5 / 384]
  | .quintic => [0.8724826228119177, 0.07332899380883082, -0.010894097523532266, 0.0013237847222222375]
  | _ => []

end JG.Interp
