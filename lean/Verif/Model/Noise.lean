import Verif.Model.Random
import Verif.Model.Image

/-!
Model of `/repo/jax_galsim/noise.py`.  Images are given by the list of their pixel values (row by row) and whether the
dtype is an integer type; the random state is a key (see `Random.lean`).
-/

namespace JG

/-- Noise objects with their parameters: noise.py:134-585.  The `sigma >= 0` check of `GaussianDeviate` is not
modelled. -/
inductive Noise
  | gaussian (sigma : ℝ)
  | poisson (sky : ℝ)
  | ccd (sky gain read : ℝ)
  | deviate (kind : DevKind)
  | varGauss (var : List ℝ)

/-- `getVariance()`: noise.py:149-150, 244-245, 376-386, 463-464, 549-550; `none` is the `GalSimError`. -/
noncomputable def Noise.getVariance : Noise → Option ℝ
  | .gaussian sigma => some (sigma ^ 2)
  | .poisson sky => some sky
  | .ccd sky gain read => some (if gain > 0 then sky / gain + (read / gain) ^ 2 else read ^ 2)
  | _ => none

/-- `withScaledVariance(r)`: noise.py:155-156, 250-251, 400-406, 469-470, 557-562. -/
noncomputable def Noise.withScaledVariance (r : ℝ) : Noise → Option Noise
  | .gaussian sigma => some (.gaussian (sigma * Real.sqrt r))
  | .poisson sky => some (.poisson (sky * r))
  | .ccd sky gain read => some (.ccd (sky * r) gain (read * Real.sqrt r))
  | _ => none

/-- `withVariance(v)`: noise.py:152-153, 247-248, 388-398, 466-467, 552-555. -/
noncomputable def Noise.withVariance (v : ℝ) : Noise → Option Noise
  | .gaussian _ => some (.gaussian (Real.sqrt v))
  | .poisson _ => some (.poisson v)
  | .ccd sky gain read =>
    let cur := if gain > 0 then sky / gain + (read / gain) ^ 2 else read ^ 2
    if cur > 0 then Noise.withScaledVariance (v / cur) (.ccd sky gain read) else some (.ccd v 1 0)
  | _ => none

/-- `sky_level - image.dtype(sky_level)`: noise.py:212, 326. -/
noncomputable def fracSky (isInt : Bool) (sky : ℝ) : ℝ := sky - rawCast isInt sky

/-- Subtraction of the sky and cast to the image type: noise.py:226-240, 356-374. -/
noncomputable def removeSky (isInt : Bool) (sky : ℝ) (x : ℝ) : ℝ :=
  let frac := fracSky isInt sky
  let intSky := sky - frac
  let x := if frac ≠ 0 then x - frac else x
  let x := rawCast isInt x
  rawCast isInt (if intSky ≠ 0 then x - intSky else x)

/-- Addition of the sky: noise.py:215-221, 329-335. -/
noncomputable def addSky (sky : ℝ) (x : ℝ) : ℝ := if sky ≠ 0 then x + sky else x

/-- `applyTo(image)`: noise.py:144-147 (gaussian), 203-242 (poisson), 322-374 (CCD), 458-461 (deviate), 524-542
(variable).  Result: new key of the random state, new pixels; `none` is an exception.

CCD noise hands its two deviates to `jax.lax.cond` (noise.py:338-356); the branches work on copies of them, so
both draw from the same key and the random state of the noise object is left as it was. -/
noncomputable def Noise.applyTo (P : Prng) (isInt : Bool) (key : P.Key) (px : List ℝ) : Noise → Option (P.Key × List ℝ)
  | .gaussian sigma => match DrawOp.run P (.gaussian 0 sigma) key (.generate px.length) with
    | (key', some vs) => some (key', List.zipWith (fun x v => x + rawCast isInt v) px vs)
    | _ => none
  | .deviate kind => match DrawOp.run P kind key (.generate px.length) with
    | (key', some vs) => some (key', List.zipWith (fun x v => x + rawCast isInt v) px vs)
    | _ => none
  | .varGauss var =>
    if px.length ≠ var.length then none
    else match DrawOp.run P (.gaussian 0 1) key (.fromVariance var) with
    | (key', some vs) => some (key', List.zipWith (fun x v => x + rawCast isInt v) px vs)
    | _ => none
  | .poisson sky => match DrawOp.run P (.poisson 1) key (.fromExpectation (px.map fun x => max (addSky sky x) 0)) with
    | (key', some vs) => some (key', vs.map (removeSky isInt sky))
    | _ => none
  | .ccd sky gain read =>
    let na := px.map (addSky sky)
    let na1 : Option (List ℝ) := if gain > 0 then
        match DrawOp.run P (.poisson 1) key (.fromExpectation (na.map fun x => max (x * gain) 0)) with
        | (_, some vs) => some (vs.map fun v => v / gain)
        | _ => none
      else some na
    match na1 with
    | none => none
    | some na1 =>
      let sigma := if gain > 0 then read / gain else read
      let na2 : Option (List ℝ) := if read > 0 then
          match DrawOp.run P (.gaussian 0 sigma) key (.generate na1.length) with
          | (_, some vs) => some (List.zipWith (· + ·) na1 vs)
          | _ => none
        else some na1
      match na2 with
      | none => none
      | some na2 => some (key, na2.map (removeSky isInt sky))

/-- Successive applications of noise objects that share one random state. -/
noncomputable def applyAll (P : Prng) (isInt : Bool) (key : P.Key) :
    List (Noise × List ℝ) → Option (P.Key × List (List ℝ))
  | [] => some (key, [])
  | (n, px) :: l => match n.applyTo P isInt key px with
    | none => none
    | some (key', o) => match applyAll P isInt key' l with
      | none => none
      | some (key'', os) => some (key'', o :: os)

/-- `addNoiseSNR(noise, snr, preserve_flux)`: noise.py:18-33, for a float image.  Result: the pixels just before the
noise is added, the noise object that is added, and the returned variance. -/
noncomputable def addNoiseSNR (px : List ℝ) (n : Noise) (snr : ℝ) (preserve : Bool) :
    Option (List ℝ × Noise × ℝ) :=
  match n.getVariance with
  | none => none
  | some var =>
    let sumsq := (px.map fun x => x ^ 2).sum
    if preserve then
      let nv := sumsq / snr / snr
      (n.withVariance nv).map fun n' => (px, n', nv)
    else
      let snMeas := Real.sqrt (sumsq / var)
      let flux := snr / snMeas
      some (px.map (· * flux), n, var)

end JG
