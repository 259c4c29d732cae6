import Verif.Model.InterpWorld
import Verif.Model.Elementary
import Mathlib.MeasureTheory.Integral.IntervalIntegral.Basic

/-!
Photon shooting from interpolants and from `InterpolatedImage`: jax_galsim/interpolant.py, interpolatedimage.py,
transform.py.  Random numbers are independent reals of their ideal distributions.
-/

namespace JG.Interp

open JG.Elt

/-- Whether `_shoot` is implemented: interpolant.py:438-442. -/
def Kernel.canShoot : Kernel → Bool
  | .sinc _ => false
  | _ => true

/-- The abscissae of `_shoot_cdf`: interpolant.py:230. -/
noncomputable def Kernel.cdfX (k : Kernel) (i : ℕ) : ℝ := linspace (-k.xrange) k.xrange 10000 i

/-- The trapezoidal sums before normalization: interpolant.py:231-237. -/
noncomputable def Kernel.cdfRaw (K : ℕ → ℕ → ℝ) (k : Kernel) (i : ℕ) : ℝ :=
  ∑ j ∈ Finset.range i, (abs (k.xval K (abs (k.cdfX (j + 1)))) + abs (k.xval K (abs (k.cdfX j)))) * 0.5 * (k.cdfX 1 - k.cdfX 0)

/-- `_shoot_cdf`: interpolant.py:238-239. -/
noncomputable def Kernel.cdf (K : ℕ → ℕ → ℝ) (k : Kernel) (i : ℕ) : ℝ := k.cdfRaw K i / k.cdfRaw K 9999

/-- The position of a photon of the generic method along one axis: interpolant.py:246-248. -/
noncomputable def Kernel.tablePos (K : ℕ → ℕ → ℝ) (k : Kernel) (u : ℝ) : ℝ := jnpInterp 10000 (k.cdf K) k.cdfX u

/-- The mean of `φ` over the photons of `_shoot`: interpolant.py:241-264, 314-319, 359-363, 490-494.  The second argument of
`φ` is the flux of the photon times the number of photons; `fl` are `positive_flux` and `negative_flux`.  For `sinc` see
`canShoot`. -/
noncomputable def Kernel.photons (K : ℕ → ℕ → ℝ) (fl : ℝ × ℝ) : Kernel → (ℝ × ℝ → ℝ → ℝ) → ℝ
  | .delta _, φ => φ (0, 0) 1
  | .nearest, φ => ∫ v in (0 : ℝ)..1, ∫ w in (0 : ℝ)..1, φ (v - 0.5, w - 0.5) 1
  | .linear, φ => ∫ v in (0 : ℝ)..1, ∫ v' in (0 : ℝ)..1, ∫ w in (0 : ℝ)..1, ∫ w' in (0 : ℝ)..1,
      φ (v + v' - 1, w + w' - 1) 1
  | .sinc _, _ => 0
  | k, φ => ∫ v in (0 : ℝ)..1, ∫ w in (0 : ℝ)..1, φ (k.tablePos K v, k.tablePos K w)
      ((fl.1 + fl.2) ^ 2 * SignType.sign (k.xval K (k.tablePos K v)) * SignType.sign (k.xval K (k.tablePos K w)))

/-- `_pos_neg_fluxes` of the inner object: interpolatedimage.py:847-862. -/
noncomputable def posNeg (fl : ℝ × ℝ) (a : Arr ℝ) : ℝ × ℝ :=
  let pf := gridSum a.h a.w fun i j => if a.at' i j > 0 then a.at' i j else 0
  let nf := |gridSum a.h a.w fun i j => if a.at' i j < 0 then a.at' i j else 0|
  let p2 := fl.1 * fl.1 + fl.2 * fl.2
  let n2 := 2 * fl.1 * fl.2
  (p2 * pf + n2 * nf, p2 * nf + n2 * pf)

/-- `_positive_flux`, `_negative_flux` as a `Transformation`: transform.py:332-338. -/
noncomputable def II.posNeg (fl : ℝ × ℝ) (o : II) : Except IIErr (ℝ × ℝ) :=
  o.padImage.bind fun im => o.fluxRatio.map fun r =>
    (|o.jac.det| * r * (Interp.posNeg fl im.arr).1, |o.jac.det| * r * (Interp.posNeg fl im.arr).2)

/-- `_calculate_flux_per_photon`: gsobject.py:133-139 (real division). -/
noncomputable def fluxPerPhoton (pn : ℝ × ℝ) : ℝ := 1 - 2 * (pn.2 / (pn.1 + pn.2))

/-- The mean of `φ` over the photons of the object: interpolatedimage.py:874-933, photon_array.py `convolve` (positions add,
the products of the fluxes times the number of photons) and transform.py:395-400 with offset `(0, 0)`.  The second argument
of `φ` is the flux of the photon times the number of photons. -/
noncomputable def II.photons (K : ℕ → ℕ → ℝ) (fl : ℝ × ℝ) (o : II) (φ : ℝ × ℝ → ℝ → ℝ) : Except IIErr ℝ :=
  o.padImage.bind fun im => o.offset.bind fun d => o.fluxRatio.bind fun r =>
    if !o.args.kernel.canShoot then .error .notImplemented
    else
      let A := gridSum im.arr.h im.arr.w fun i j => |im.arr.at' i j|
      let pn := Interp.posNeg fl im.arr
      .ok (gridSum im.arr.h im.arr.w fun i j =>
        |im.arr.at' i j| / A * o.args.kernel.photons K fl fun ξ g =>
          let f := SignType.sign (im.arr.at' i j) * fluxPerPhoton pn * (pn.1 + pn.2)
          let x := (j : ℝ) + im.bounds.xmin - d.x + ξ.1
          let y := (i : ℝ) + im.bounds.ymin - d.y + ξ.2
          φ (o.jac.a * x + o.jac.b * y + 0, o.jac.c * x + o.jac.d * y + 0) (f * g * (|o.jac.det| * r)))

end JG.Interp
