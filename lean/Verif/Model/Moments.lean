import Verif.Model.Image
import Verif.Model.Position
import Mathlib.Algebra.BigOperators.Group.Finset.Basic

/-!
Model of `unweighted_moments` and `unweighted_shape` of `/repo/jax_galsim/utilities.py`.
-/

namespace JG

/-- The dictionary returned by `unweighted_moments`: utilities.py:128. -/
@[ext] structure Moments where
  M0 : ℝ
  Mx : ℝ
  My : ℝ
  Mxx : ℝ
  Myy : ℝ
  Mxy : ℝ

/-- `jnp.sum` over a two dimensional array. -/
noncomputable def gridSum (h w : ℕ) (f : ℕ → ℕ → ℝ) : ℝ := ∑ i ∈ Finset.range h, ∑ j ∈ Finset.range w, f i j

/-- `unweighted_moments(image, origin)`: utilities.py:110-128.  `none`: the sum of the pixels is zero, so that the
entries other than `M0` are `nan` or infinite. -/
noncomputable def unweightedMoments (im : Image) (origin : Option Position) : Option Moments :=
  let o := origin.getD (.D 0 0)
  let off := (Position.sub (.I im.bounds.xmin im.bounds.ymin) o).val
  let xg (j : ℕ) : ℝ := j + off.1
  let yg (i : ℕ) : ℝ := i + off.2
  let sum := gridSum im.arr.h im.arr.w
  let M0 := sum im.arr.at'
  if M0 = 0 then none
  else
    let Mx := sum (fun i j => xg j * im.arr.at' i j) / M0
    let My := sum (fun i j => yg i * im.arr.at' i j) / M0
    some ⟨M0, Mx, My, sum (fun i j => (xg j - Mx) ^ 2 * im.arr.at' i j) / M0,
      sum (fun i j => (yg i - My) ^ 2 * im.arr.at' i j) / M0,
      sum (fun i j => (xg j - Mx) * (yg i - My) * im.arr.at' i j) / M0⟩

/-- The dictionary returned by `unweighted_shape`: utilities.py:138-140. -/
@[ext] structure Shape where
  rsqr : ℝ
  e1 : ℝ
  e2 : ℝ

/-- `unweighted_shape(moments)`: utilities.py:131-140; `none`: `rsqr = 0`, the ellipticities are `nan` or infinite. -/
noncomputable def unweightedShape (m : Moments) : Option Shape :=
  let rsqr := m.Mxx + m.Myy
  if rsqr = 0 then none else some ⟨rsqr, (m.Mxx - m.Myy) / rsqr, 2 * m.Mxy / rsqr⟩

/-- `unweighted_shape(image)`: utilities.py:135-136. -/
noncomputable def unweightedShapeIm (im : Image) : Option Shape := (unweightedMoments im none).bind unweightedShape

end JG
