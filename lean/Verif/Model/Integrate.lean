import Mathlib.Analysis.SpecialFunctions.Trigonometric.Basic

/-!
Model of `/repo/jax_galsim/core/integrate.py`: the Clenshaw-Curtis quadrature rule.  Arrays are lists of exact reals.
-/

namespace JG.Quad

/-- `len(jnp.arange(1, n, 2))`: integrate.py:17-18. -/
def ccLen (n : ℕ) : ℕ := n / 2

/-- `v0`, an array of `length + 1 + m = n + 1` entries: integrate.py:17-20. -/
noncomputable def v0 (n i : ℕ) : ℝ :=
  let N (j : ℕ) : ℝ := 1 + 2 * j
  if i < ccLen n then 2 / N i / (N i - 2) else if i = ccLen n then 1 / N (ccLen n - 1) else 0

/-- `v2 = -v0[:-1] - v0[:0:-1]`, `n` entries: integrate.py:21. -/
noncomputable def v2 (n i : ℕ) : ℝ := -v0 n i - v0 n (n - i)

/-- `g`, `n` entries: integrate.py:19, 22-25. -/
noncomputable def gv (n i : ℕ) : ℝ :=
  let m := n - ccLen n
  (-1 + (if i = ccLen n then (n : ℝ) else 0) + (if i = m then (n : ℝ) else 0)) / ((n : ℝ) ^ 2 - 1 + ((n % 2 : ℕ) : ℝ))

/-- Real part of `jnp.fft.ihfft(a)` for a real array `a` of `n` entries, an array of `n // 2 + 1` entries: the inverse
transform `1/n sum_i a[i] exp(2 pi i k / n)`, of which the cosine part is the real part (integrate.py:27-28). -/
noncomputable def ihfftRe (n : ℕ) (a : ℕ → ℝ) : List ℝ :=
  (List.range (n / 2 + 1)).map fun (k : ℕ) => (∑ i ∈ Finset.range n, a i * Real.cos (2 * Real.pi * i * k / n)) / n

/-- `abs_weights(n)`: integrate.py:8-35; `none`: the assertion `n > 1` fails.  Points and weights. -/
noncomputable def absWeights (n : ℕ) : Option (List ℝ × List ℝ) :=
  if 1 < n then
    let points := (List.range n).map fun (k : ℕ) => -Real.cos (Real.pi * k / (n - 1 : ℕ))
    if n = 2 then some (points, [1, 1])
    else
      let n' := n - 1
      let w := ihfftRe n' fun i => v2 n' i + gv n' i
      some (points, if n' % 2 = 1 then w ++ w.reverse else w ++ (w.take (w.length - 1)).reverse)
  else none

/-- The attributes of `ClenshawCurtisQuad`: integrate.py:38-42. -/
structure Rule where
  order : ℕ
  absc : List ℝ
  absw : List ℝ
  errw : List ℝ

/-- `wx.at[::2].add(-wsub)` (the lengths match: `wx[::2]` has as many entries as `wsub`): integrate.py:56. -/
noncomputable def subEven (wx wsub : List ℝ) : List ℝ :=
  wx.mapIdx fun i w => if i % 2 = 0 then w - wsub.getD (i / 2) 0 else w

/-- `compute_weights(order)`: integrate.py:51-57. -/
noncomputable def computeWeights (order : ℕ) : Option (List ℝ × List ℝ × List ℝ) :=
  (absWeights order).bind fun p => (absWeights ((order + 1) / 2)).map fun q => (p.1, p.2, subEven p.2 q.2)

/-- `rescale_weights(absc, absw)` with the default intervals `(-1, 1)` and `(0, 1)`: integrate.py:59-71. -/
noncomputable def rescaleWeights (absc absw : List ℝ) : List ℝ × List ℝ :=
  let inMin : ℝ := -1
  let inMax : ℝ := 1
  let outMin : ℝ := 0
  let outMax : ℝ := 1
  let deltaIn := inMax - inMin
  let deltaOut := outMax - outMin
  (absc.map fun x => ((x - inMin) * outMax - (x - inMax) * outMin) / deltaIn, absw.map fun w => deltaOut / deltaIn * w)

/-- `ClenshawCurtisQuad.init(order)`: integrate.py:44-49. -/
noncomputable def Rule.init (order : ℕ) : Option Rule :=
  (computeWeights (2 * order + 1)).map fun p =>
    ⟨2 * order + 1, (rescaleWeights p.1 p.2.1).1, (rescaleWeights p.1 p.2.1).2, p.2.2⟩

/-- `sum_i w[i] f(x[i])`. -/
noncomputable def quadSum (x w : List ℝ) (f : ℝ → ℝ) : ℝ := (List.zipWith (fun a b => a * f b) w x).sum

/-- `quad_integral(f, a, b, quad)` for numbers `a` and `b`: integrate.py:74-83 (for arrays the same is done for every pair
of entries; `f` works entry by entry). -/
noncomputable def quadIntegral (f : ℝ → ℝ) (a b : ℝ) (q : Rule) : ℝ :=
  let d := b - a
  d * quadSum (q.absc.map fun t => a + t * d) q.absw f

end JG.Quad
