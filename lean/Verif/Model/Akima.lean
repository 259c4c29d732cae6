import Mathlib.Algebra.Order.Archimedean.Real.Basic
import Mathlib.Data.Finset.Card
import Mathlib.Order.Interval.Finset.Nat

/-!
Model of `/repo/jax_galsim/core/interpolate.py`.  A table of `n ≥ 5` knots is given by index
functions `x y : ℕ → ℝ` (entries `0 .. n-1`); array slices are written with explicit indices.
The numpy and jax coefficient routines (lines 38-69 and 72-105) are the same formulas.
-/

namespace JG

/-- `mi[i]`, interpolate.py:73-74. -/
noncomputable def akM (x y : ℕ → ℝ) (i : ℕ) : ℝ := (y (i + 1) - y i) / (x (i + 1) - x i)

/-- `s[i]`: the slopes at the knots, interpolate.py:78-94.  `mi` has length `n-1`, so `mi[-2]` is
`mi[n-3]` and `mi[-3]` is `mi[n-4]`; `smid[j]` is `s[j+2]`. -/
noncomputable def akS (n : ℕ) (x y : ℕ → ℝ) (i : ℕ) : ℝ :=
  if i = 0 then akM x y 0
  else if i = 1 then (akM x y 0 + akM x y 1) / 2
  else if i + 2 < n then
    let wim1 := |akM x y (i + 1) - akM x y i|
    let wi := |akM x y (i - 1) - akM x y (i - 2)|
    let denom := wim1 + wi
    let numer := wim1 * akM x y (i - 1) + wi * akM x y i
    if |denom| ≥ 1e-12 then numer / denom else (akM x y (i - 1) + akM x y i) / 2
  else if i + 2 = n then (akM x y (n - 4) + akM x y (n - 3)) / 2
  else akM x y (n - 3)

/-- `a`, `b`, `c`, `d` for interval `i`: interpolate.py:99-102. -/
noncomputable def akA (y : ℕ → ℝ) (i : ℕ) : ℝ := y i
/-- See `akA`. -/
noncomputable def akB (n : ℕ) (x y : ℕ → ℝ) (i : ℕ) : ℝ := akS n x y i
/-- See `akA`. -/
noncomputable def akC (n : ℕ) (x y : ℕ → ℝ) (i : ℕ) : ℝ :=
  (3 * akM x y i - 2 * akS n x y i - akS n x y (i + 1)) / (x (i + 1) - x i)
/-- See `akA`. -/
noncomputable def akD (n : ℕ) (x y : ℕ → ℝ) (i : ℕ) : ℝ :=
  (akS n x y i + akS n x y (i + 1) - 2 * akM x y i) / (x (i + 1) - x i) / (x (i + 1) - x i)

/-- `jnp.searchsorted(xp, t, side="right")` for a sorted table: the number of entries `≤ t`
(interpolate.py:132). -/
noncomputable def searchsortedRight (n : ℕ) (x : ℕ → ℝ) (t : ℝ) : ℕ :=
  ((Finset.range n).filter fun k => x k ≤ t).card

/-- `jnp.clip(v, lo, hi)` on integers. -/
def clipI (v lo hi : ℤ) : ℤ := min (max v lo) hi

/-- The interval index, interpolate.py:127-132. -/
noncomputable def akIndex (fixed : Bool) (n : ℕ) (x : ℕ → ℝ) (t : ℝ) : ℕ :=
  if fixed then (clipI ⌊(t - x 0) / (x 1 - x 0)⌋ 0 (n - 2)).toNat
  else (clipI (searchsortedRight n x t) 1 (n - 1) - 1).toNat

/-- `akima_interp(t, xp, yp, coeffs, fixed_spacing)`: interpolate.py:105-150. -/
noncomputable def akimaInterp (fixed : Bool) (n : ℕ) (x y : ℕ → ℝ) (t : ℝ) : ℝ :=
  let i := akIndex fixed n x t
  let dx := t - x i
  let xval := akA y i + akB n x y i * dx + akC n x y i * (dx * dx) + akD n x y i * (dx * dx * dx)
  let xval := if t < x 0 then 0 else xval
  if t > x (n - 1) then 0 else xval

end JG
