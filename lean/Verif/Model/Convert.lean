import Verif.Model.Image
import Verif.Model.WCS
import Verif.Model.FitsWcs
import Verif.Model.GSParams

/-!
# Model of `from_galsim` and `to_galsim`

The objects of the reference package `galsim` are not part of /repo.  They are modelled by what their
constructors keep: numbers, which the converters read through public attributes.
-/

namespace JG.Conv

set_option autoImplicit false

open JG.FitsW

variable {α : Type} [CommRing α] [LinearOrder α]

/-- A `galsim.BoundsI` or `galsim.BoundsD`: undefined, or four numbers. -/
inductive GBounds (α : Type)
  | undef
  | rect (xmin xmax ymin ymax : α)

/-- The constructor of `galsim.BoundsI`/`BoundsD` with four numbers: undefined unless they are in
order. -/
def GBounds.make (x x' y y' : α) : GBounds α := if x ≤ x' ∧ y ≤ y' then .rect x x' y y' else .undef

/-- `Bounds.from_galsim`: bounds.py:358-378.  The attributes of a galsim object are python numbers. -/
def boundsFrom (c : Cls α) : GBounds α → Bounds α
  | .undef => Bounds.empty c
  | .rect x x' y y' => Bounds.mk4 c ⟨x, true⟩ ⟨x', true⟩ ⟨y, true⟩ ⟨y', true⟩

/-- `Bounds.to_galsim`: bounds.py:380-396. -/
def boundsTo (c : Cls α) (b : Bounds α) : GBounds α :=
  if b.defined then GBounds.make b.xmin (b.xmax c) b.ymin (b.ymax c) else .undef

/-- A `galsim.PositionI` or `galsim.PositionD`. -/
inductive GPosition
  | I (x y : ℤ)
  | D (x y : ℝ)

/-- `Position.from_galsim`: position.py:158-169. -/
def positionFrom : GPosition → Position
  | .D x y => .D x y
  | .I x y => .I x y

/-- `Position.to_galsim`: position.py:171-183. -/
def positionTo : Position → GPosition
  | .I x y => .I x y
  | .D x y => .D x y

/-- A `galsim.Shear`, through its attributes `g1`, `g2`. -/
structure GShear where
  g1 : ℝ
  g2 : ℝ

/-- The constructor `galsim.Shear(g1=, g2=)`, which refuses a shear above one. -/
noncomputable def GShear.make (g1 g2 : ℝ) : Option GShear :=
  if g1 ^ 2 + g2 ^ 2 > 1 then none else some ⟨g1, g2⟩

/-- `Shear.from_galsim`: shear.py:327-329. -/
noncomputable def shearFrom (s : GShear) : Option Shear := Shear.ofG s.g1 s.g2

/-- `Shear.to_galsim`: shear.py:331-333. -/
noncomputable def shearTo (s : Shear) : Option GShear := GShear.make s.g1 s.g2

/-- A `galsim.GSParams`: its attributes by name (integer fields embedded in `ℝ`). -/
structure GGSParams where
  minimum_fft_size : ℝ
  maximum_fft_size : ℝ
  folding_threshold : ℝ
  stepk_minimum_hlr : ℝ
  maxk_threshold : ℝ
  kvalue_accuracy : ℝ
  xvalue_accuracy : ℝ
  table_spacing : ℝ
  realspace_relerr : ℝ
  realspace_abserr : ℝ
  integration_relerr : ℝ
  integration_abserr : ℝ
  shoot_accuracy : ℝ

/-- `GSParams(*args)`: the positional arguments of the data class go to the fields in the order of
their declaration: gsparams.py:9-23. -/
def gspOfArgs (l : List ℝ) : GSP := fun f => l.getD (GSField.all.idxOf f) 0

/-- `GSParams.from_galsim`: gsparams.py:26-47. -/
def gspFrom (g : GGSParams) : GSP :=
  gspOfArgs
    [g.minimum_fft_size, g.maximum_fft_size, g.folding_threshold, g.stepk_minimum_hlr,
      g.maxk_threshold, g.kvalue_accuracy, g.xvalue_accuracy, g.table_spacing, g.realspace_relerr,
      g.realspace_abserr, g.integration_relerr, g.integration_abserr, g.shoot_accuracy]

/-- `GSParams.to_galsim`: gsparams.py:49-64 (keyword arguments). -/
def gspTo (p : GSP) : GGSParams where
  minimum_fft_size := p .minimum_fft_size
  maximum_fft_size := p .maximum_fft_size
  folding_threshold := p .folding_threshold
  stepk_minimum_hlr := p .stepk_minimum_hlr
  maxk_threshold := p .maxk_threshold
  kvalue_accuracy := p .kvalue_accuracy
  xvalue_accuracy := p .xvalue_accuracy
  table_spacing := p .table_spacing
  realspace_relerr := p .realspace_relerr
  realspace_abserr := p .realspace_abserr
  integration_relerr := p .integration_relerr
  integration_abserr := p .integration_abserr
  shoot_accuracy := p .shoot_accuracy

/-- A `galsim.CelestialCoord`, through `ra.rad`, `dec.rad`. -/
structure GCoord where
  ra : ℝ
  dec : ℝ

/-- `CelestialCoord.from_galsim`, which does not check the declination: celestial.py:934-936;
`Angle.from_galsim`: angle.py:423-425. -/
def coordFrom (g : GCoord) : Coord := ⟨g.ra, g.dec⟩

/-- The constructor of `galsim.CelestialCoord`, which does check it. -/
noncomputable def GCoord.make (ra dec : ℝ) : Option GCoord :=
  if dec < -Real.pi / 2 ∨ Real.pi / 2 < dec then none else some ⟨ra, dec⟩

/-- `CelestialCoord.to_galsim`: celestial.py:938-942; `Angle.to_galsim`: angle.py:427-429. -/
noncomputable def coordTo (c : Coord) : Option GCoord := GCoord.make c.ra c.dec

/-- The data of a `galsim.GSFitsWCS`. -/
structure GFits where
  wcs_type : String
  crpix : ℝ × ℝ
  cd : Mat2
  center : GCoord
  pv : Option (Tab × Tab)
  ab : Option (Tab × Tab)
  abp : Option (Tab × Tab)

/-- The coordinate systems of galsim which have a counterpart. -/
inductive GWCS
  | pix (scale : ℝ)
  | shear (scale : ℝ) (s : GShear)
  | jac (dudx dudy dvdx dvdy : ℝ)
  | offset (scale : ℝ) (origin world : ℝ × ℝ)
  | offsetShear (scale : ℝ) (s : GShear) (origin world : ℝ × ℝ)
  | affine (dudx dudy dvdx dvdy : ℝ) (origin world : ℝ × ℝ)
  | fits (f : GFits)

/-- Coordinate systems of jax_galsim. -/
inductive JWCS
  | plane (w : WCS)
  | fits (g : GS)

/-- An argument of `BaseWCS.from_galsim`: no coordinate system at all, one of galsim (with the name
of its class, and `none` if it is none of the seven classes), or one of jax_galsim, whose base class
derives from `galsim.BaseWCS` (wcs.py:45-46). -/
inductive Arg
  | other
  | gal (name : String) (w : Option GWCS)
  | jax (w : JWCS)

/-- The exceptions. -/
inductive CErr
  | typeError
  | notImplemented
  | valueError
  deriving DecidableEq

/-- The name of the class of a coordinate system of jax_galsim. -/
def JWCS.name : JWCS → String
  | .plane (.loc (.pix _)) => "PixelScale"
  | .plane (.loc (.shear _ _)) => "ShearWCS"
  | .plane (.loc (.jac _)) => "JacobianWCS"
  | .plane (.off (.pix _) _ _) => "OffsetWCS"
  | .plane (.off (.shear _ _) _ _) => "OffsetShearWCS"
  | .plane (.off (.jac _) _ _) => "AffineTransform"
  | .fits _ => "GSFitsWCS"

/-- `globals()` of wcs.py, as far as names of classes of coordinate systems go, and `GSFitsWCS`:
wcs.py:237-240. -/
def knownNames : List String :=
  ["BaseWCS", "EuclideanWCS", "UniformWCS", "LocalWCS", "CelestialWCS", "PixelScale", "ShearWCS",
    "JacobianWCS", "OffsetWCS", "OffsetShearWCS", "AffineTransform", "GSFitsWCS"]

/-- A shear or the `ValueError` of its constructor. -/
noncomputable def shearFromE (s : GShear) : Except CErr Shear :=
  match shearFrom s with
  | none => .error .valueError
  | some t => .ok t

/-- The `GSFitsWCS` branch: wcs.py:272-292 and fitswcs.py:85-119.  Distortions are kept as pairs of
tables. -/
noncomputable def fitsFrom (f : GFits) : Except CErr GS :=
  match WType.ofSuffix f.wcs_type, Coord.mk? f.center.ra f.center.dec with
  | some t, some c => .ok ⟨t, f.crpix, f.cd, c, f.pv, f.ab, f.abp⟩
  | _, _ => .error .valueError

/-- The chain of `isinstance` tests: wcs.py:246-292. -/
noncomputable def kindFrom : GWCS → Except CErr JWCS
  | .pix c => .ok (.plane (.loc (.pix c)))
  | .shear c s => do let t ← shearFromE s; .ok (.plane (.loc (.shear c t)))
  | .jac a b c d => .ok (.plane (.loc (.jac ⟨a, b, c, d⟩)))
  | .offset c o w => .ok (.plane (.off (.pix c) o w))
  | .offsetShear c s o w => do let t ← shearFromE s; .ok (.plane (.off (.shear c t) o w))
  | .affine a b c d o w => .ok (.plane (.off (.jac ⟨a, b, c, d⟩) o w))
  | .fits f => do let g ← fitsFrom f; .ok (.fits g)

/-- `BaseWCS.from_galsim`: wcs.py:229-292.  `.ok none` is the value `None`, returned when no
`isinstance` test matches. -/
noncomputable def wcsFrom : Arg → Except CErr (Option JWCS)
  | .other => .error .typeError
  | .gal name w =>
    if name ∉ knownNames then .error .notImplemented
    else match w with
      | none => .ok none
      | some g => do let r ← kindFrom g; .ok (some r)
  | .jax w => if w.name ∉ knownNames then .error .notImplemented else .ok none

/-- A galsim shear or the exception of its constructor. -/
noncomputable def shearToE (s : Shear) : Except CErr GShear :=
  match shearTo s with
  | none => .error .valueError
  | some t => .ok t

/-- `BaseWCS.to_galsim`: wcs.py:294-345. -/
noncomputable def wcsTo : JWCS → Except CErr GWCS
  | .plane (.loc (.pix c)) => .ok (.pix c)
  | .plane (.loc (.shear c s)) => do let t ← shearToE s; .ok (.shear c t)
  | .plane (.loc (.jac J)) => .ok (.jac J.a J.b J.c J.d)
  | .plane (.off (.pix c) o w) => .ok (.offset c o w)
  | .plane (.off (.shear c s) o w) => do let t ← shearToE s; .ok (.offsetShear c t o w)
  | .plane (.off (.jac J) o w) => .ok (.affine J.a J.b J.c J.d o w)
  | .fits g =>
    match coordTo g.center with
    | none => .error .valueError
    | some c => .ok (.fits ⟨g.wtype.suffix, g.crpix, g.cd, c, g.pv, g.ab, g.abp⟩)

/-- A `galsim.Image`: pixels, bounds, coordinate system, header, and whether it is constant. -/
structure GImage where
  arr : Arr ℝ
  bounds : GBounds ℤ
  wcs : Option GWCS
  header : Option String
  isConst : Bool
  isInt : Bool

/-- An image of jax_galsim with its coordinate system and header. -/
structure JImage where
  im : Image
  wcs : Option JWCS
  header : Option String

/-- The errors of the image converters. -/
inductive IErr
  | wcs (e : CErr)
  | image (e : ImErr)

/-- The coordinate system of an image, if it has one: image.py:1297-1301, 1315. -/
noncomputable def optWcsFrom : Option GWCS → Except IErr (Option JWCS)
  | none => .ok none
  | some g => match kindFrom g with
    | .error e => .error (.wcs e)
    | .ok w => .ok (some w)

/-- `Image.from_galsim`: image.py:1293-1311.  `make_const` is not passed on. -/
noncomputable def imageFrom (g : GImage) : Except IErr JImage :=
  match optWcsFrom g.wcs with
  | .error e => .error e
  | .ok w =>
    match Image.make (.arrayBounds g.arr (boundsFrom clsI g.bounds)) g.isInt false with
    | .error e => .error (.image e)
    | .ok im => .ok ⟨im, w, g.header⟩

/-- The coordinate system of the new galsim image: image.py:1315. -/
noncomputable def optWcsTo : Option JWCS → Except IErr (Option GWCS)
  | none => .ok none
  | some w => match wcsTo w with
    | .error e => .error (.wcs e)
    | .ok g => .ok (some g)

/-- `Image.to_galsim`: image.py:1313-1318.  The header is not passed on.  The galsim constructor
takes the array as it is; whether it marks the image as constant, because numpy arrays made from jax
arrays are read-only, is not modelled (`isConst` of the result is `false`). -/
noncomputable def imageTo (j : JImage) : Except IErr GImage :=
  match optWcsTo j.wcs with
  | .error e => .error e
  | .ok w => .ok ⟨j.im.arr, boundsTo clsI j.im.bounds, w, none, false, j.im.isInt⟩

end JG.Conv
