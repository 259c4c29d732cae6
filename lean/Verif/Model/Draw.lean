import Verif.Model.Photon

/-!
Model of the photon-shooting part of drawing: `calculate_n_photons`
(`/repo/jax_galsim/core/draw.py:140-479`) and `GSObject.drawPhot`
(`/repo/jax_galsim/gsobject.py:1197-1325, 1405-1546`).
-/

namespace JG

/-- Arguments of `calculate_n_photons`: draw.py:140-149.  `maxSb = none` is the default `1e500 = inf`. -/
structure NPhotArgs where
  flux : ℝ
  eta : ℝ
  maxSb : Option ℝ
  nPhotons : ℝ
  maxExtraNoise : ℝ
  poissonFlux : Bool

/-- `_sample_poisson_flux`: draw.py:366-372; `pd` is the Poisson deviate.  `none`: division by zero flux. -/
noncomputable def samplePoissonFlux (flux eta pd : ℝ) : Option ℝ :=
  let absflux := |flux|
  let mean := eta * eta * absflux
  if absflux = 0 then none else some ((pd - mean + absflux) / absflux)

/-- `gfactor` of `_scale_extra_noise`: draw.py:382-386. -/
noncomputable def gFactor (nu : ℝ) (maxSb : Option ℝ) : ℝ :=
  match maxSb with
  | none => 1
  | some s => 1 + nu / |s|

/-- `_calculate_n_photons_flux_nonzero`: draw.py:375-379, 389-479. -/
noncomputable def nPhotonsNonzero (a : NPhotArgs) (pd : ℝ) : ℤ × Option ℝ :=
  let modFlux := a.flux / (a.eta * a.eta)
  let s : ℝ × Option ℝ := if a.poissonFlux then
    match samplePoissonFlux a.flux a.eta pd with
    | none => (0, none)
    | some ratio => (|modFlux * ratio|, some ratio)
    else (modFlux, some 1)
  let t : ℝ × Option ℝ := if a.maxExtraNoise > 0 then
    (s.1 / gFactor a.maxExtraNoise a.maxSb, s.2.map (· * gFactor a.maxExtraNoise a.maxSb)) else s
  (⌈t.1⌉, t.2)

/-- `calculate_n_photons`: draw.py:296-363.  The second component is `g`, `none` when it is NaN. -/
noncomputable def calcNPhotons (a : NPhotArgs) (pd : ℝ) : ℤ × Option ℝ :=
  if a.nPhotons = 0 then
    if a.flux = 0 then (0, some 1) else nPhotonsNonzero a pd
  else
    (truncZ (a.nPhotons + 1 / 2), if a.poissonFlux then samplePoissonFlux a.flux a.eta pd else some 1)

/-! ### drawPhot -/

/-- `obj.shoot(n)` for a profile whose photons all have the same flux (`photons.flux = self.flux /
photons.size()`: gaussian.py:157, exponential.py:171, box.py:125, moffat.py:430, spergel.py:522,
deltafunction.py:70), in a buffer of fixed size `size` if given.  `pos` are the random positions. -/
noncomputable def shootLeaf (size : Option ℕ) (n : ℕ) (flux : ℝ) (pos : ℕ → ℝ × ℝ) :
    PhotonArray (photNtot size n) :=
  let p0 := PhotonArray.blank size n
  let p1 : PhotonArray (photNtot size n) :=
    { p0 with ph := fun i => { p0.ph i with x := (pos i).1, y := (pos i).2 } }
  p1.setFlux fun _ => flux / (photNtot size n : ℝ)

/-- `maxN` after the adjustment in gsobject.py:1264-1272: the smaller one if both are set, otherwise
`_JAX_GALSIM_PHOTON_ARRAY_SIZE or maxN`. -/
def effMaxN (size maxN : Option ℕ) : Option ℕ :=
  match size, maxN with
  | some s, some m => some (min m s)
  | some s, none => if s = 0 then none else some s
  | none, m => m

/-- One pass of `_draw_phot_while_loop_shoot`: gsobject.py:1405-1473 up to `sensor.accumulate`; returns the
photons to be accumulated.  `scale` is `image.scale`; photon operators are not modelled. -/
noncomputable def drawChunk (size : Option ℕ) (maxN thisN nTot : ℕ) (flux g scale : ℝ) (pos : ℕ → ℝ × ℝ) :
    PhotonArray (photNtot size maxN) :=
  let p := (shootLeaf size maxN flux pos).setNumKeep thisN
  let q := if |g - 1| + |(thisN : ℝ) - nTot| = 0 then p else p.scaleFlux (g * thisN / nTot)
  if scale ≠ 1 then q.scaleXY (1 / scale) else q

/-- The photons drawn so far: one array per iteration. -/
structure LoopState (S : ℕ) where
  nLeft : ℤ
  chunks : List (PhotonArray S)

/-- `_body_fun`: gsobject.py:1494-1514.  `pos k` are the positions drawn in iteration `k`. -/
noncomputable def loopBody (size : Option ℕ) (maxN nTot : ℕ) (flux g scale : ℝ) (pos : ℕ → ℕ → ℝ × ℝ)
    (s : LoopState (photNtot size maxN)) : LoopState (photNtot size maxN) :=
  let thisN := min (maxN : ℤ) s.nLeft
  ⟨s.nLeft - thisN,
    s.chunks ++ [drawChunk size maxN thisN.toNat nTot flux g scale (pos s.chunks.length)]⟩

/-- `jax.lax.while_loop(cond, body, s)` returns `s'`. -/
inductive WhileReturns {σ : Type} (cond : σ → Bool) (body : σ → σ) : σ → σ → Prop
  | done (s) : cond s = false → WhileReturns cond body s s
  | step (s s') : cond s = true → WhileReturns cond body (body s) s' → WhileReturns cond body s s'

/-- `_cond_fun`: gsobject.py:1491-1492. -/
def loopCond {S : ℕ} (s : LoopState S) : Bool := decide (s.nLeft > 0)

/-- Accumulating one chunk into an integer image: `image += im1` with a temporary float image,
gsobject.py:1462-1468; `v` is the chunk's contribution to the pixel. -/
noncomputable def accumInt (pix : ℝ) (v : ℝ) : ℝ := safeCast true (pix + v)

end JG
