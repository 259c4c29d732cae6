import Verif.Model.InterpWorld
import Verif.Model.Fft
import Mathlib.Analysis.SpecialFunctions.Pow.Real

/-!
The Fourier side of `InterpolatedImage`: jax_galsim/interpolatedimage.py, transform.py, interpolant.py.
-/

namespace JG.Interp

open JG JG.Fft

/-- `urange()` of the interpolants, `acc` being `kvalue_accuracy`: interpolant.py:300-302, 345-347, 419-421, 476-478, 541-549,
635-644, 1518-1520.  `umax` is the tabulated range of a Lanczos interpolant. -/
noncomputable def Kernel.urange (umax acc : ℝ) : Kernel → ℝ
  | .delta _ => 1 / acc
  | .nearest => 1 / (Real.pi * acc)
  | .sinc _ => 1 / 2
  | .linear => 1 / √acc / Real.pi
  | .cubic => (3 * √3 / 8 / acc) ^ ((1:ℝ) / 3) / Real.pi
  | .quintic => (25 * √5 / 108 / acc) ^ ((1:ℝ) / 3) / Real.pi
  | .lanczos _ _ => umax

/-- `_kValue` of the inner object: interpolatedimage.py:698-700, 769-782, 1050-1088.  `U` is `_uval` of the real-space kernel
and `ur` its `urange()`. -/
noncomputable def II.innerKValue (K : ℕ → ℕ → ℝ) (U : ℝ → ℝ) (ur : ℝ) (o : II) (k : ℝ × ℝ) : Except IIErr ℂ :=
  o.offset.bind fun d => o.xim.bind fun x => ((calculateFft x 1).mapError .image).map fun zk =>
    kValueArr (kvalOf U) ur (o.args.kKernel.xval K) o.args.kKernel.ixrange ⟨zk.1.h, zk.1.w - 1, zk.1.at'⟩ (-fftNo2 x.bounds)
      zk.2 d.x d.y k.1 k.2

/-- `_fwdT`: transform.py:273-275. -/
noncomputable def fwdT (J : Mat2) (k : ℝ × ℝ) : ℝ × ℝ := (J.a * k.1 + J.c * k.2, J.b * k.1 + J.d * k.2)

/-- `_kValue` as a `Transformation` with offset `(0, 0)`: transform.py:353-355, 281-285 and 263-265. -/
noncomputable def II.kValue (K : ℕ → ℕ → ℝ) (U : ℝ → ℝ) (ur : ℝ) (o : II) (k : ℝ × ℝ) : Except IIErr ℂ :=
  (o.innerKValue K U ur (fwdT o.jac k)).bind fun v => o.fluxRatio.map fun r =>
    v * (((|o.jac.det| * r : ℝ) : ℂ) * Complex.exp (k.1 * (-Complex.I * (0:ℝ)) + k.2 * (-Complex.I * (0:ℝ))))

end JG.Interp
