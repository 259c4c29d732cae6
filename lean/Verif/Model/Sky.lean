import Verif.Model.Image
import Verif.Model.WCS
import Mathlib.Analysis.SpecialFunctions.Trigonometric.Basic

/-!
The parts of `/repo/jax_galsim/wcs.py` that hold for any coordinate system given by functions: `EuclideanWCS`, `CelestialWCS` and
their sky images.  Numbers are exact, `color` is ignored.
-/

namespace JG.Sky

open JG

/-- A `EuclideanWCS`: the functions `_u`, `_v` of a class and its origins (wcs.py:364-385). -/
structure Euc where
  u : ℝ → ℝ → ℝ
  v : ℝ → ℝ → ℝ
  origin : ℝ × ℝ
  world : ℝ × ℝ

/-- A `CelestialWCS`: the function `_radec` of a class, in radians, and its origin (wcs.py:653-672). -/
structure Cel where
  radec : ℝ → ℝ → ℝ × ℝ
  origin : ℝ × ℝ

/-- `_posToWorld`: wcs.py:401-404. -/
def Euc.toWorld (w : Euc) (p : ℝ × ℝ) : ℝ × ℝ :=
  (w.u (p.1 - w.origin.1) (p.2 - w.origin.2) + w.world.1, w.v (p.1 - w.origin.1) (p.2 - w.origin.2) + w.world.2)

/-- `_posToWorld` without a projection: wcs.py:794-799. -/
def Cel.toWorld (w : Cel) (p : ℝ × ℝ) : ℝ × ℝ := w.radec (p.1 - w.origin.1) (p.2 - w.origin.2)

/-- `_shiftOrigin` for a class whose `_newOrigin` sets the origin: wcs.py:705-719. -/
def Cel.shiftOrigin (w : Cel) (o : ℝ × ℝ) : Cel := { w with origin := o + w.origin }

/-- `_local(image_pos)`: wcs.py:492-514. -/
noncomputable def Euc.localJac (w : Euc) (p : ℝ × ℝ) : Mat2 :=
  let x0 := p.1 - w.origin.1
  let y0 := p.2 - w.origin.2
  ⟨0.5 * (w.u (x0 + 1) y0 - w.u (x0 - 1) y0) / 1, 0.5 * (w.u x0 (y0 + 1) - w.u x0 (y0 - 1)) / 1,
    0.5 * (w.v (x0 + 1) y0 - w.v (x0 - 1) y0) / 1, 0.5 * (w.v x0 (y0 + 1) - w.v x0 (y0 - 1)) / 1⟩

/-- `affine(image_pos)`: wcs.py:166-182, with `_isLocal` of the `JacobianWCS` as a parameter. -/
noncomputable def Euc.affine (isLocal : Bool) (w : Euc) (p : ℝ × ℝ) : WCS :=
  (WCS.loc (.jac (w.localJac p))).shiftOrigin isLocal p (some (w.toWorld p))

/-- `radians / arcsec`. -/
noncomputable def radArcsec : ℝ := 180 * 3600 / Real.pi

/-- `_local(image_pos)`: wcs.py:725-751. -/
noncomputable def Cel.localJac (w : Cel) (p : ℝ × ℝ) : Mat2 :=
  let x0 := p.1 - w.origin.1
  let y0 := p.2 - w.origin.2
  let c := Real.cos (w.radec x0 y0).2
  ⟨-0.5 * ((w.radec (x0 + 1) y0).1 - (w.radec (x0 - 1) y0).1) / 1 * c * radArcsec,
    -0.5 * ((w.radec x0 (y0 + 1)).1 - (w.radec x0 (y0 - 1)).1) / 1 * c * radArcsec,
    0.5 * ((w.radec (x0 + 1) y0).2 - (w.radec (x0 - 1) y0).2) / 1 * radArcsec,
    0.5 * ((w.radec x0 (y0 + 1)).2 - (w.radec x0 (y0 - 1)).2) / 1 * radArcsec⟩

/-! ### Sky images -/

/-- `jnp.linspace(a, b, n)[i]`. -/
noncomputable def linspace (a b : ℝ) (n : ℤ) (i : ℕ) : ℝ := a + i * ((b - a) / (n - 1))

/-- The `x` of the grid at column `j`, before the origin is taken off: wcs.py:525-532, 757-764. -/
noncomputable def gridX (b : Bounds ℤ) (j : ℕ) : ℝ :=
  linspace ((b.xmin - 1 : ℤ) : ℝ) ((b.xmax clsI + 1 : ℤ) : ℝ) (b.xmax clsI - b.xmin + 1 + 2) j

/-- The `y` of the grid at row `i`. -/
noncomputable def gridY (b : Bounds ℤ) (i : ℕ) : ℝ :=
  linspace ((b.ymin - 1 : ℤ) : ℝ) ((b.ymax clsI + 1 : ℤ) : ℝ) (b.ymax clsI - b.ymin + 1 + 2) i

/-- `u[1 : ny - 1, 2:nx] - u[1 : ny - 1, 0 : nx - 2]` at `[i, j]`: wcs.py:540, 542. -/
def stepX (u : ℕ → ℕ → ℝ) (i j : ℕ) : ℝ := u (i + 1) (j + 2) - u (i + 1) j

/-- `u[2:ny, 1 : nx - 1] - u[0 : ny - 2, 1 : nx - 1]` at `[i, j]`: wcs.py:541, 543. -/
def stepY (u : ℕ → ℕ → ℝ) (i j : ℕ) : ℝ := u (i + 2) (j + 1) - u i (j + 1)

/-- `image._array.at[...].set(a)` for the `(ny - 2, nx - 2)` array `a`, with the conversion of a value `cast`. -/
noncomputable def assign (im : Image) (cast : ℝ → ℝ) (a : ℕ → ℕ → ℝ) : Image × Option ImErr :=
  let ny := im.bounds.ymax clsI - im.bounds.ymin + 1 + 2
  let nx := im.bounds.xmax clsI - im.bounds.xmin + 1 + 2
  match (⟨(ny - 2).toNat, (nx - 2).toNat, a⟩ : Arr ℝ).bcast im.arr.h im.arr.w with
  | none => (im, some .valueError)
  | some g => ({ im with arr := ⟨im.arr.h, im.arr.w, fun i j => cast (g i j)⟩ }, none)

/-- `EuclideanWCS._makeSkyImage`: wcs.py:523-555.  There is no check of `isconst`; values for an integer image are rounded first. -/
noncomputable def Euc.sky (w : Euc) (im : Image) (level : ℝ) : Image × Option ImErr :=
  let u (i j : ℕ) := w.u (gridX im.bounds j - w.origin.1) (gridY im.bounds i - w.origin.2)
  let v (i j : ℕ) := w.v (gridX im.bounds j - w.origin.1) (gridY im.bounds i - w.origin.2)
  assign im (safeCast im.isInt) fun i j =>
    |0.5 * stepX u i j * (0.5 * stepY v i j) - 0.5 * stepX v i j * (0.5 * stepY u i j)| * level

/-- The correction of a half difference of right ascensions: wcs.py:778-781. -/
noncomputable def unwrapHalf (d : ℝ) : ℝ :=
  let d1 := if d > 1 then d - Real.pi else d
  if d1 < -1 then d1 + Real.pi else d1

/-- `CelestialWCS._makeSkyImage`: wcs.py:755-791.  There is no check of `isconst`; values for an integer image are truncated
by `astype`. -/
noncomputable def Cel.sky (w : Cel) (im : Image) (level : ℝ) : Image × Option ImErr :=
  let ra (i j : ℕ) := (w.radec (gridX im.bounds j - w.origin.1) (gridY im.bounds i - w.origin.2)).1
  let dec (i j : ℕ) := (w.radec (gridX im.bounds j - w.origin.1) (gridY im.bounds i - w.origin.2)).2
  assign im (rawCast im.isInt) fun i j =>
    let c := Real.cos (dec (i + 1) (j + 1))
    let dudx := unwrapHalf (-0.5 * stepX ra i j) * c
    let dudy := unwrapHalf (-0.5 * stepY ra i j) * c
    |dudx * (0.5 * stepY dec i j) - 0.5 * stepX dec i j * dudy| * level * radArcsec ^ 2

/-- `UniformWCS._makeSkyImage`: wcs.py:596-597, image.py:1124-1136. -/
noncomputable def uniformSky (w : WCS) (im : Image) (level : ℝ) : Image × Option ImErr :=
  im.step (.fill (level * w.localWCS.pixelArea))

end JG.Sky
