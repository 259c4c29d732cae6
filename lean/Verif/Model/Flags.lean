import Verif.Model.Elementary
import Verif.Model.Profile

/-!
Model of the flag `is_axisymmetric` (`/repo/jax_galsim/gsobject.py:85-88`) of profiles with their classes: the elementary
profiles, interpolated images, transformations, sums, convolutions and deconvolutions.
-/

namespace JG

/-- A profile with its class.  `image` is an `InterpolatedImage` with arbitrary observables. -/
inductive FObj
  | elem (e : Elt.Elem)
  | image (L : Leaf)
  | trans (orig : FObj) (jac : Mat2) (offset : ℝ × ℝ) (fluxRatio : ℝ)
  | sum (l : List FObj)
  | conv (l : List FObj)

mutual
/-- The profile with the class forgotten. -/
noncomputable def FObj.prof : FObj → Prof
  | .elem e => .leaf e.leaf
  | .image L => .leaf L
  | .trans o J off r => .trans o.prof J off r
  | .sum l => .sum (FObj.profL l)
  | .conv l => .conv (FObj.profL l)
/-- The profiles of a list. -/
noncomputable def FObj.profL : List FObj → List Prof
  | [] => []
  | o :: l => o.prof :: FObj.profL l
end

/-- The class attribute `_is_axisymmetric`: box.py:15, deltafunction.py:21, exponential.py:25, gaussian.py:22, moffat.py:42,
spergel.py:265. -/
def Elt.Elem.axi : Elt.Elem → Bool
  | .box _ => false
  | _ => true

open Classical in
mutual
/-- `is_axisymmetric`: interpolatedimage.py:390, transform.py:308-315, sum.py:129-132, convolve.py:220-223. -/
noncomputable def FObj.axi : FObj → Bool
  | .elem e => e.axi
  | .image _ => false
  | .trans o J off _ => o.axi && decide (J.a = J.d) && decide (J.b = -J.c) && decide (off = (0, 0))
  | .sum l => FObj.allAxi l
  | .conv l => FObj.allAxi l
/-- `np.all`, `jnp.all`: sum.py:132, convolve.py:223. -/
noncomputable def FObj.allAxi : List FObj → Bool
  | [] => true
  | o :: l => o.axi && FObj.allAxi l
end

/-- `Deconvolution._is_axisymmetric`: convolve.py:444-446. -/
noncomputable def FObj.deconvAxi (o : FObj) : Bool := o.axi

end JG
