import Verif.Model.Draw
import Verif.Model.DrawImage

/-!
Model of `GSObject.makePhot` and `GSObject.drawPhot` as a whole (`/repo/jax_galsim/gsobject.py:1098-1113, 1126-1181,
1197-1337, 1405-1546`): number of photons, scaling, the loop over arrays of photons and the image.

The image has floating point pixels (exact reals).  Photon operators and other sensors than the default one are not
modelled; the default sensor is `PhotonArray.addTo` (sensor.py:16-21).
-/

namespace JG

/-- The arguments of `drawPhot` and `makePhot`: gsobject.py:1126-1135, 1197-1212; `size` is
`_JAX_GALSIM_PHOTON_ARRAY_SIZE` (set by `fixed_photon_array_size`). -/
structure PhotCall where
  gain : ℝ := 1
  nPhotons : Option ℝ := none
  maxExtraNoise : Option ℝ := none
  poissonFlux : Option Bool := none
  maxN : Option ℕ := none
  size : Option ℕ := none

/-- What the random numbers decide: the Poisson deviate of `_sample_poisson_flux`, and the photons of call number `k` of
`obj.shoot(n)`; `none` if the object cannot shoot photons (a `Deconvolution`). -/
structure PhotRandom (size : Option ℕ) where
  pd : ℝ
  shoot : Prof → (n : ℕ) → Option (ℕ → PhotonArray (photNtot size n))

/-- `poisson_flux = n_photons is None` unless given: gsobject.py:1142-1144, 1219-1221. -/
def PhotCall.poisson (c : PhotCall) : Bool := c.poissonFlux.getD c.nPhotons.isNone

/-- `Ntot` and `g`: gsobject.py:1098-1113, 1146-1158, 1236-1248; `g = none`: NaN.  A flux per photon of `0/0` makes
everything NaN unless the flux is zero. -/
noncomputable def PhotCall.count (c : PhotCall) (p : Prof) (pd : ℝ) : ℤ × Option ℝ :=
  let r := fun n : ℝ => match p.fluxPerPhoton with
    | some eta => calcNPhotons ⟨p.flux, eta, some p.maxSb, n, c.maxExtraNoise.getD 0, c.poisson⟩ pd
    | none => if p.flux = 0 then calcNPhotons ⟨0, 1, some p.maxSb, n, c.maxExtraNoise.getD 0, c.poisson⟩ pd else (0, none)
  match c.nPhotons with
  | some n => (truncZ (n + 1 / 2), (r n).2)
  | none => r 0

/-- `_draw_phot_while_loop_shoot` between `shoot` and `accumulate`: gsobject.py:1431-1454. -/
noncomputable def photChunk {M : ℕ} (p : PhotonArray M) (thisN nTot : ℕ) (g scale : ℝ) : PhotonArray M :=
  let q := p.setNumKeep thisN
  let q := if |g - 1| + |(thisN : ℝ) - nTot| = 0 then q else q.scaleFlux (g * thisN / nTot)
  if scale ≠ 1 then q.scaleXY (1 / scale) else q

/-- `sensor.accumulate(photons, image)` on a float image: gsobject.py:1458-1460, sensor.py:16-21. -/
noncomputable def accumulate {M : ℕ} (p : PhotonArray M) (b : Bounds ℤ) (a : ℕ → ℕ → ℝ) :
    Except DrawErr ((ℕ → ℕ → ℝ) × ℝ) :=
  match p.addTo ⟨⟨b.deltay.toNat, b.deltax.toNat, a⟩, b, none, false⟩ with
  | .ok r => .ok (r.1.arr.at', r.2)
  | .error .undefinedBounds => .error .bounds
  | .error _ => .error .notFinite

/-- `_draw_phot_while_loop` from iteration `k` on with `n` photons left: gsobject.py:1491-1546.  `fuel` bounds the number
of iterations (`n` are enough if `maxN > 0`). -/
noncomputable def photLoop {M : ℕ} (sh : ℕ → PhotonArray M) (maxN nTot : ℕ) (g scale : ℝ) (b : Bounds ℤ) :
    (fuel n k : ℕ) → (ℕ → ℕ → ℝ) → ℝ → Except DrawErr ((ℕ → ℕ → ℝ) × ℝ)
  | 0, _, _, a, t => .ok (a, t)
  | fuel + 1, n, k, a, t =>
    if n = 0 then .ok (a, t)
    else
      let thisN := min maxN n
      match accumulate (photChunk (sh k) thisN nTot g scale) b a with
      | .error e => .error e
      | .ok (a', t') => photLoop sh maxN nTot g scale b fuel (n - thisN) (k + 1) a' (t + t')

/-- `drawPhot`: gsobject.py:1197-1325, for an image with floating point pixels.  The first component is the array of the
image afterwards: `setZero` (1257-1258) comes before the photons are shot, and exceptions in the traced loop leave the
array it made.  `unmodelled`: with `maxN = 0` the loop does not end.  A negative number of photons: `jnp.zeros` raises
without `maxN`, no iteration with it. -/
noncomputable def drawPhot (c : PhotCall) (r : PhotRandom c.size) (p : Prof) (im : DrawImg) (addTo : Bool) :
    (ℕ → ℕ → ℝ) × Except DrawErr ℝ :=
  if !im.wcs.any isPixelScale then (im.arr, .error .value)
  else if c.gain ≤ 0 then (im.arr, .error .runtime)
  else
    match c.count p r.pd, imageScale im.wcs with
    | (nTot, some g), .ok (some scale) =>
      let g := if c.gain ≠ 1 then g / c.gain else g
      let a0 := if addTo then im.arr else fun _ _ => 0
      let fin : Except DrawErr ((ℕ → ℕ → ℝ) × ℝ) → (ℕ → ℕ → ℝ) × Except DrawErr ℝ := fun x =>
        match x with
        | .ok (a, t) => (a, .ok t)
        | .error e => (a0, .error e)
      match effMaxN c.size c.maxN with
      | none =>
        if nTot < 0 then (a0, .error .value)
        else
          match r.shoot p nTot.toNat with
          | none => (a0, .error .notImplemented)
          | some sh => fin ((accumulate (photChunk (sh 0) nTot.toNat nTot.toNat g scale) im.bounds a0).map fun x =>
              (x.1, 0 + x.2))
      | some m =>
        match r.shoot p m with
        | none => (a0, .error .notImplemented)
        | some sh =>
          if m = 0 ∧ 0 < nTot then (a0, .error .unmodelled)
          else if !im.bounds.defined then (a0, .error .bounds)
          else fin (photLoop sh m nTot.toNat g scale im.bounds nTot.toNat nTot.toNat 0 a0 0)
    | _, _ => (im.arr, .error .notFinite)

/-- `makePhot`: gsobject.py:1126-1181 without photon operators. -/
noncomputable def makePhot (c : PhotCall) (r : PhotRandom c.size) (p : Prof) :
    Except DrawErr (Σ n : ℕ, PhotonArray (photNtot c.size n)) :=
  match c.count p r.pd with
  | (_, none) => .error .notFinite
  | (nTot, some g) =>
    if nTot < 0 then .error .value
    else
      match r.shoot p nTot.toNat with
      | none => .error .notImplemented
      | some sh => .ok ⟨nTot.toNat, if g = 1 then sh 0 else (sh 0).scaleFlux g⟩

/-- `drawImage(method="phot")`: the drawing step of `Model/DrawImage.lean` with `drawPhot`; the arguments that
`drawImage` hands on are those of `c`, and `gain` is that of the call: gsobject.py:779-793. -/
noncomputable def drawImagePhot (g : DrawGS) (c : PhotCall) (r : PhotRandom c.size) (o : Prof) (a : DrawArgs) :
    Option DrawImg × Except DrawErr DrawImg :=
  drawImage g (drawPhot { c with gain := a.gain } r) o a

end JG
