import Verif.Model.Profile

/-! Model of a `Deconvolution` as a part of other profiles: `/repo/jax_galsim/convolve.py:356-512`. -/

namespace JG

/-- The observables of `Deconvolution(o)`, for a profile of non-zero flux with a centroid: convolve.py:359-360 (flags),
436-474, 476-485; `acc` is `gsparams.kvalue_accuracy`.  It has no brightness and no positive and negative flux. -/
noncomputable def deconvLeaf (o : Prof) (acc : ℝ) : Leaf where
  flux := 1 / o.flux
  xv := fun _ => none
  kv := deconvKValue o acc
  cen := -(o.centroid.getD 0)
  pos := 0
  neg := 0
  maxk := o.maxk
  stepk := o.stepk
  maxSb := -o.maxSb / o.flux ^ 2
  hard := false
  analyticX := false

end JG
