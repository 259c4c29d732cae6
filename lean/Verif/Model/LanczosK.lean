import Verif.Model.Akima
import Verif.Model.Interpolant

/-!
Model of the Fourier side of `Lanczos` in `/repo/jax_galsim/interpolant.py`: the transform from the sine integral, the
coefficients for `conserve_dc`, the search for the largest frequency and the interpolation table.  Floats are exact reals.
`_galsim.bessel.si` is a function of the GalSim package; it is a parameter `si` here.
-/

namespace JG.Interp

/-- `_gs_raw_uval(u, n)`: interpolant.py:1570-1587. -/
noncomputable def gsRawUval (si : ℝ → ℝ) (u : ℝ) (n : ℕ) : ℝ :=
  let vp := n * (2 * u + 1)
  let vm := n * (2 * u - 1)
  let vpp1 := vp + 1
  let vpm1 := vp - 1
  let vmp1 := vm + 1
  let vmm1 := vm - 1
  let retval := vmm1 * si (Real.pi * vmm1) - vmp1 * si (Real.pi * vmp1) - vpm1 * si (Real.pi * vpm1)
    + vpp1 * si (Real.pi * vpp1)
  retval / (2 * Real.pi)

/-- `_K` of `_compute_C_K_lanczos(n)`: interpolant.py:1627-1628.  Only the entries 0 to 5 are stored and used. -/
noncomputable def lanczosK (si : ℝ → ℝ) (n : ℕ) : ℕ → ℝ
  | 0 => 0
  | j + 1 => gsRawUval si (j + 1) n

/-- `_C` of `_compute_C_K_lanczos(n)` from `_K`: interpolant.py:1629-1639. -/
noncomputable def lanczosC (K : ℕ → ℝ) : ℕ → ℝ
  | 0 => 1 + 2 * (K 1 * (1 + 3 * K 1 + K 2 + K 3) + K 2 + K 3 + K 4 + K 5)
  | 1 => -K 1 * (1 + 4 * K 1 + K 2 + 2 * K 3)
  | 2 => K 1 * (K 1 - 2 * K 2 + K 3) - K 2
  | 3 => K 1 * (K 1 - 2 * K 3) - K 3
  | 4 => K 1 * K 3 - K 4
  | 5 => -K 5
  | _ => 0

/-- `_gs_uval(u, n, conserve_dc)` with the table `_C_arr_vals[n]` as a parameter: interpolant.py:1590-1603. -/
noncomputable def gsUval (si : ℝ → ℝ) (C : ℕ → ℝ) (u : ℝ) (n : ℕ) (dc : Bool) : ℝ :=
  let retval := gsRawUval si u n
  if dc then
    let retval := retval * C 0
    let retval := retval + C 1 * (gsRawUval si (u + 1) n + gsRawUval si (u - 1) n)
    let retval := retval + C 2 * (gsRawUval si (u + 2) n + gsRawUval si (u - 2) n)
    let retval := retval + C 3 * (gsRawUval si (u + 3) n + gsRawUval si (u - 3) n)
    let retval := retval + C 4 * (gsRawUval si (u + 4) n + gsRawUval si (u - 4) n)
    let retval := retval + C 5 * (gsRawUval si (u + 5) n + gsRawUval si (u - 5) n)
    retval
  else retval

/-- The variables `(u, umax)` of `_find_umax_lanczos` after `i` passes through the loop, `none` being `-inf`; `f` is
`_gs_uval`: interpolant.py:1606-1615. -/
noncomputable def umaxState (f : ℝ → ℝ) (du kva : ℝ) : ℕ → ℝ × Option ℝ
  | 0 => (0, none)
  | i + 1 =>
    let s := umaxState f du kva i
    (s.1 + du, if |f s.1| > kva then some s.1 else s.2)

/-- The condition of the loop, interpolant.py:1610: `u - (-inf)` is not less than anything. -/
def umaxGoes (n : ℕ) (s : ℝ × Option ℝ) : Prop := (∃ m, s.2 = some m ∧ s.1 - m < 1 / n) ∨ s.1 < 1.1

open Classical in
/-- `_find_umax_lanczos`: interpolant.py:1606-1615.  `none` when the loop does not end. -/
noncomputable def findUmax (f : ℝ → ℝ) (du : ℝ) (n : ℕ) (kva : ℝ) : Option (Option ℝ) :=
  if h : ∃ i, ¬ umaxGoes n (umaxState f du kva i) then some (umaxState f du kva (Nat.find h)).2 else none

/-- `Lanczos._du`: interpolant.py:1385-1390. -/
noncomputable def lanczosDu (tableSpacing kva : ℝ) (n : ℕ) : ℝ := tableSpacing * (kva / 200) ^ (0.25 : ℝ) / n

/-- The number of knots of `_lanczos_kval_interp_table`: interpolant.py:1620-1621. -/
noncomputable def lanczosKnots (du krange : ℝ) : ℕ := ⌊krange / (du * 2 * Real.pi)⌋₊ + 1

/-- The knots, `np.linspace(0, krange, ..)`: interpolant.py:1621. -/
noncomputable def lanczosKnot (du krange : ℝ) (i : ℕ) : ℝ := i * krange / ((lanczosKnots du krange : ℝ) - 1)

/-- `Lanczos._kval_noraise`: interpolant.py:1498-1516, 1618-1624, with `krange = 2π urange()`, interpolant.py:216-218. -/
noncomputable def lanczosKval (si : ℝ → ℝ) (C : ℕ → ℝ) (n : ℕ) (dc : Bool) (du krange k : ℝ) : ℝ :=
  akimaInterp true (lanczosKnots (du / 2.3) krange) (lanczosKnot (du / 2.3) krange)
    (fun i => gsUval si C (lanczosKnot (du / 2.3) krange i / 2 / Real.pi) n dc) |k|

end JG.Interp
