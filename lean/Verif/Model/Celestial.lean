import Verif.Model.Angle
import Verif.Model.Shear
import Mathlib.Analysis.SpecialFunctions.Trigonometric.Inverse
import Mathlib.Analysis.SpecialFunctions.Trigonometric.Arctan

/-!
Model of `/repo/jax_galsim/celestial.py`: points of the celestial sphere.  Angles are their exact
values in radians.  `jax.jit`, string forms, hashing and conversions to `galsim` are not modelled.
-/

namespace JG

/-- A `CelestialCoord`, its `_ra` and `_dec` attributes in radians: celestial.py:67-91. -/
@[ext] structure Coord where
  ra : ℝ
  dec : ℝ

/-- A triple `(x, y, z)`. -/
@[ext] structure V3 where
  x : ℝ
  y : ℝ
  z : ℝ

/-- The constructor from two angles, rejecting declinations outside ±90 degrees:
celestial.py:78-91. -/
noncomputable def Coord.mk? (ra dec : ℝ) : Option Coord :=
  if dec < -Real.pi / 2 ∨ Real.pi / 2 < dec then none else some ⟨ra, dec⟩

/-- `get_xyz`, the last three entries of `_get_aux`: celestial.py:109-115, 131-132. -/
noncomputable def Coord.xyz (p : Coord) : V3 :=
  ⟨Real.cos p.dec * Real.cos p.ra, Real.cos p.dec * Real.sin p.ra, Real.sin p.dec⟩

/-- `Angle.wrap` on radians: angle.py:221-229. -/
noncomputable def wrapRad (a center : ℝ) : ℝ := (Angle.wrap ⟨a⟩ ⟨center⟩).rad

/-- `from_xyz`; `none` is the error for the origin: celestial.py:137-162. -/
noncomputable def fromXYZ (v : V3) : Option Coord :=
  let norm := Real.sqrt (v.x * v.x + v.y * v.y + v.z * v.z)
  if norm = 0 then none
  else
    let x := v.x / norm
    let y := v.y / norm
    let z := v.z / norm
    let cosdec := Real.sqrt (x * x + y * y)
    let sinra := if cosdec = 0 then 0 else y / cosdec
    let cosra := if cosdec = 0 then 1 else x / cosdec
    some ⟨wrapRad (arctan2 sinra cosra) Real.pi, arctan2 z cosdec⟩

/-- `radec_to_xyz`: celestial.py:167-172. -/
noncomputable def radecToXYZ (ra dec r : ℝ) : V3 :=
  ⟨Real.cos dec * Real.cos ra * r, Real.cos dec * Real.sin ra * r, Real.sin dec * r⟩

/-- `xyz_to_radec(return_r=True)`: celestial.py:177-190.  Where `x = y = 0` the code evaluates
`arctan(±inf)`, written out here; the origin (`nan` in the code) is given `dec = 0`. -/
noncomputable def xyzToRadec (v : V3) : ℝ × ℝ × ℝ :=
  let xy2 := v.x ^ 2 + v.y ^ 2
  let dec := if xy2 = 0 then (if 0 < v.z then Real.pi / 2 else if v.z < 0 then -(Real.pi / 2) else 0)
    else Real.arctan (v.z / Real.sqrt xy2)
  (arctan2 v.y v.x, dec, Real.sqrt (xy2 + v.z ^ 2))

/-- `normal`: celestial.py:193-194. -/
noncomputable def Coord.normal (p : Coord) : Coord := ⟨wrapRad p.ra Real.pi, p.dec⟩

/-- `_raw_dsq`: celestial.py:198-202. -/
noncomputable def rawDsq (a b : V3) : ℝ := (a.x - b.x) ^ 2 + (a.y - b.y) ^ 2 + (a.z - b.z) ^ 2

/-- `_raw_cross`: celestial.py:206-214. -/
noncomputable def rawCross (a b : V3) : V3 :=
  ⟨a.y * b.z - b.y * a.z, a.z * b.x - b.z * a.x, a.x * b.y - b.x * a.y⟩

/-- `distanceTo`: celestial.py:218-248. -/
noncomputable def Coord.distanceTo (p q : Coord) : ℝ :=
  let dsq := rawDsq p.xyz q.xyz
  let w := rawCross p.xyz q.xyz
  if dsq < 3.99 then 2 * Real.arcsin (0.5 * Real.sqrt dsq)
  else Real.pi - Real.arcsin (Real.sqrt (w.x ^ 2 + w.y ^ 2 + w.z ^ 2))

/-- `greatCirclePoint`; `none` is either error: celestial.py:252-302. -/
noncomputable def Coord.greatCirclePoint (p q : Coord) (theta : ℝ) : Option Coord :=
  let a := p.xyz
  let c := q.xyz
  let dsq := rawDsq a c
  let wx := c.x - a.x + a.x * dsq / 2
  let wy := c.y - a.y + a.y * dsq / 2
  let wz := c.z - a.z + a.z * dsq / 2
  let wr := Real.sqrt (wx ^ 2 + wy ^ 2 + wz ^ 2)
  if wr = 0 then none
  else
    fromXYZ ⟨a.x * Real.cos theta + wx / wr * Real.sin theta,
      a.y * Real.cos theta + wy / wr * Real.sin theta,
      a.z * Real.cos theta + wz / wr * Real.sin theta⟩

/-- `_triple`: celestial.py:305-332.  `sign * exp(logdet)` is the determinant of the matrix with
rows `coord2`, `self`, `coord3`. -/
noncomputable def tripleProd (c a b : V3) : ℝ :=
  a.x * (c.y * b.z - c.z * b.y) - a.y * (c.x * b.z - c.z * b.x) + a.z * (c.x * b.y - c.y * b.x)

/-- `_alt_triple`: celestial.py:335-354. -/
noncomputable def altTriple (c a b : V3) : ℝ :=
  0.5 * (rawDsq c a + rawDsq c b - rawDsq a b - 0.5 * rawDsq c a * rawDsq c b)

/-- `angleBetween`: celestial.py:358-379. -/
noncomputable def Coord.angleBetween (p q r : Coord) : ℝ :=
  arctan2 (tripleProd p.xyz q.xyz r.xyz) (altTriple p.xyz q.xyz r.xyz)

/-- `area`: celestial.py:383-422.  The case of a vanishing denominator, where the code evaluates
`arctan(inf)`, is written out (`0/0` gives `nan` in the code; here `π`). -/
noncomputable def Coord.area (p q r : Coord) : ℝ :=
  let F := tripleProd p.xyz q.xyz r.xyz
  let G := altTriple p.xyz q.xyz r.xyz
  let dasq := rawDsq p.xyz q.xyz
  let dbsq := rawDsq p.xyz r.xyz
  let den := 0.25 * (4 - dasq) * (4 - dbsq) + G
  if den = 0 then Real.pi else 2 * Real.arctan |F / den|

/-! ### Projections -/

/-- The four projections. -/
inductive Proj where
  | gnomonic | stereographic | lambert | postel
deriving DecidableEq

/-- `_valid_projections` and the dispatch on the first letter: celestial.py:424, 428, 484-490;
`none` is the `ValueError`. -/
def Proj.ofName : Option String → Option Proj
  | none => some .gnomonic
  | some "gnomonic" => some .gnomonic
  | some "stereographic" => some .stereographic
  | some "lambert" => some .lambert
  | some "postel" => some .postel
  | some _ => none

/-- `jnp.sinc`: `sin(πx)/(πx)`, `1` at the origin. -/
noncomputable def jnpSinc (x : ℝ) : ℝ :=
  if x = 0 then 1 else Real.sin (Real.pi * x) / (Real.pi * x)

/-- The factor `k` of `_project`: celestial.py:484-495. -/
noncomputable def Proj.k (P : Proj) (cosc : ℝ) : ℝ :=
  match P with
  | .gnomonic => 1 / cosc
  | .stereographic => 2 / (1 + cosc)
  | .lambert => Real.sqrt (2 / (1 + cosc))
  | .postel => 1 / jnpSinc (Real.arccos cosc / Real.pi)

/-- `_project`: celestial.py:449-506. -/
noncomputable def Coord.projectP (p0 q : Coord) (P : Proj) : ℝ × ℝ :=
  let cosdra := Real.cos p0.ra * Real.cos q.ra + Real.sin p0.ra * Real.sin q.ra
  let sindra := Real.sin p0.ra * Real.cos q.ra - Real.cos p0.ra * Real.sin q.ra
  let cosc := Real.cos q.dec * cosdra * Real.cos p0.dec + Real.sin p0.dec * Real.sin q.dec
  let k := P.k cosc
  let u := Real.cos q.dec * sindra
  let v := Real.cos q.dec * cosdra * (-Real.sin p0.dec) + Real.cos p0.dec * Real.sin q.dec
  (u * k, v * k)

/-- `project` (and `project_rad`, which passes the same sines and cosines):
celestial.py:427-446. -/
noncomputable def Coord.project (p0 q : Coord) (name : Option String) : Option (ℝ × ℝ) :=
  (Proj.ofName name).map (p0.projectP q)

/-- `cosc` and `sinc_over_r` of `_deproject`: celestial.py:548-573. -/
noncomputable def Proj.cs (P : Proj) (u v : ℝ) : ℝ × ℝ :=
  let rsq := u * u + v * v
  match P with
  | .gnomonic => (1 / Real.sqrt (1 + rsq), 1 / Real.sqrt (1 + rsq))
  | .stereographic => ((4 - rsq) / (4 + rsq), 4 / (4 + rsq))
  | .lambert => (1 - rsq / 2, Real.sqrt (4 - rsq) / 2)
  | .postel => (Real.cos (Real.sqrt rsq), jnpSinc (Real.sqrt rsq / Real.pi))

/-- `_deproject`: celestial.py:526-592. -/
noncomputable def Coord.deprojectP (p0 : Coord) (u v : ℝ) (P : Proj) : Coord :=
  let cosc := (P.cs u v).1
  let s := (P.cs u v).2
  let sindec := v * s * Real.cos p0.dec + cosc * Real.sin p0.dec
  let num := u * s * (-1)
  let den := v * s * (-Real.sin p0.dec) + cosc * Real.cos p0.dec
  ⟨p0.ra + arctan2 num den, Real.arcsin sindec⟩

/-- `deproject`, which goes through the checking constructor: celestial.py:509-516. -/
noncomputable def Coord.deproject (p0 : Coord) (u v : ℝ) (name : Option String) : Option Coord :=
  (Proj.ofName name).bind fun P => Coord.mk? (p0.deprojectP u v P).ra (p0.deprojectP u v P).dec

/-- `deproject_rad`, which does not: celestial.py:519-523. -/
noncomputable def Coord.deprojectRad (p0 : Coord) (u v : ℝ) (name : Option String) :
    Option (ℝ × ℝ) :=
  (Proj.ofName name).map fun P => ((p0.deprojectP u v P).ra, (p0.deprojectP u v P).dec)

/-- `c`, `s` and their derivatives with respect to `u` and `v` in `_jac_deproject`:
celestial.py:622-691. -/
structure JacParts where
  c : ℝ
  s : ℝ
  dcdu : ℝ
  dcdv : ℝ
  dsdu : ℝ
  dsdv : ℝ

/-- The projection-dependent part of `_jac_deproject`: celestial.py:622-691. -/
noncomputable def Proj.jacParts (P : Proj) (u v : ℝ) : JacParts :=
  let rsq := u * u + v * v
  match P with
  | .gnomonic =>
    let s := 1 / Real.sqrt (1 + rsq)
    let s3 := s * s * s
    ⟨s, s, -u * s3, -v * s3, -u * s3, -v * s3⟩
  | .stereographic =>
    let s := 4 / (4 + rsq)
    let ssq := s * s
    ⟨2 * s - 1, s, -u * ssq, -v * ssq, 0.5 * (-u * ssq), 0.5 * (-v * ssq)⟩
  | .lambert =>
    let s := Real.sqrt (4 - rsq) / 2
    ⟨1 - rsq / 2, s, -u, -v, -u / (4 * s), -v / (4 * s)⟩
  | .postel =>
    let r := Real.sqrt rsq
    let c := if r = 0 then 1 else Real.cos r
    let s := if r = 0 then 1 else Real.sin r / r
    ⟨c, s, if r = 0 then -u else -s * u, if r = 0 then -v else -s * v,
      if r = 0 then 0 else (c - s) * u / rsq, if r = 0 then 0 else (c - s) * v / rsq⟩

/-- `_jac_deproject`, the matrix `[[drdu, drdv], [dddu, dddv]]`: celestial.py:609-714. -/
noncomputable def Coord.jacDeproject (p0 : Coord) (u v : ℝ) (P : Proj) : Mat2 :=
  let j := P.jacParts u v
  let s0 := Real.sin p0.dec
  let c0 := Real.cos p0.dec
  let sindec := j.c * s0 + v * j.s * c0
  let cosdec := Real.sqrt (1 - sindec * sindec)
  let dddu := (s0 * j.dcdu + v * j.dsdu * c0) / cosdec
  let dddv := (s0 * j.dcdv + (v * j.dsdv + j.s) * c0) / cosdec
  let num := u * j.s
  let den := j.c * c0 - v * j.s * s0
  let A2 := den ^ 2 + num ^ 2
  let drdu := ((u * j.dsdu + j.s) * den - u * j.s * (j.dcdu * c0 - v * j.dsdu * s0)) / A2
  let drdv := (u * j.dsdv * den - u * j.s * (j.dcdv * c0 - (v * j.dsdv + j.s) * s0)) / A2
  ⟨drdu * cosdec, drdv * cosdec, dddu, dddv⟩

/-! ### Galactic, ecliptic and precessed coordinates -/

/-- `el0`: celestial.py:731, 751. -/
noncomputable def galEl0 : ℝ := 32.93191857 * degrees.value
/-- `r0`: celestial.py:732, 752. -/
noncomputable def galR0 : ℝ := 282.859481208 * degrees.value
/-- `d0`: celestial.py:733, 753. -/
noncomputable def galD0 : ℝ := 62.8717488056 * degrees.value

/-- `galactic`, returning `(el, b)`: celestial.py:723-746 (the epoch is not used). -/
noncomputable def Coord.galactic (p : Coord) : ℝ × ℝ :=
  let cbcl := Real.cos p.dec * Real.cos (p.ra - galR0)
  let cbsl := Real.sin p.dec * Real.sin galD0 +
    Real.cos p.dec * Real.sin (p.ra - galR0) * Real.cos galD0
  let sb := Real.sin p.dec * Real.cos galD0 -
    Real.cos p.dec * Real.sin (p.ra - galR0) * Real.sin galD0
  (wrapRad (arctan2 cbsl cbcl + galEl0) Real.pi, Real.arcsin sb)

/-- `from_galactic`: celestial.py:750-767. -/
noncomputable def fromGalactic (el b : ℝ) : Option Coord :=
  let x1 := Real.cos b * Real.cos (el - galEl0)
  let y1 := Real.cos b * Real.sin (el - galEl0)
  let z1 := Real.sin b
  (fromXYZ ⟨x1, y1 * Real.cos galD0 - z1 * Real.sin galD0,
    y1 * Real.sin galD0 + z1 * Real.cos galD0⟩).bind fun temp =>
      (Coord.mk? (temp.ra + galR0) temp.dec).map Coord.normal

/-- `_ecliptic_obliquity`, in radians: celestial.py:40-52 (the sexagesimal strings as numbers). -/
noncomputable def eclipticObliquity (epoch : ℝ) : ℝ :=
  let t := (epoch - 2000) / 100
  (23 + 26 / 60 + 21.406 / 3600) * degrees.value - 46.836769 / 3600 * degrees.value * t
    - 0.0001831 / 3600 * degrees.value * t ^ 2 + 0.0020034 / 3600 * degrees.value * t ^ 3

/-- What the code uses of a date: its year and the ecliptic longitude of the sun, computed by
upstream `coord.util.sun_position_ecliptic` (celestial.py:55-56), which is a parameter here. -/
structure DateInfo where
  year : ℝ
  lamSun : ℝ

/-- `if date is not None: epoch = date.year`: celestial.py:776-777, 814-815. -/
def effEpoch (epoch : ℝ) (date : Option DateInfo) : ℝ :=
  match date with
  | none => epoch
  | some d => d.year

/-- The solar longitude subtracted or added, `0` without a date: celestial.py:789-795, 803-804. -/
def sunLon (date : Option DateInfo) : ℝ :=
  match date with
  | none => 0
  | some d => d.lamSun

/-- `ecliptic`, returning `(lam, beta)`: celestial.py:771-797. -/
noncomputable def Coord.ecliptic (p : Coord) (epoch : ℝ) (date : Option DateInfo) : ℝ × ℝ :=
  let v := p.xyz
  let ep := eclipticObliquity (effEpoch epoch date)
  let x := v.x
  let y := Real.cos ep * v.y + Real.sin ep * v.z
  let z := -Real.sin ep * v.y + Real.cos ep * v.z
  (wrapRad (arctan2 y x - sunLon date) 0, Real.arcsin z)

/-- `from_ecliptic`: celestial.py:802-824. -/
noncomputable def fromEcliptic (lam beta epoch : ℝ) (date : Option DateInfo) : Option Coord :=
  let lam := lam + sunLon date
  let x := Real.cos beta * Real.cos lam
  let y := Real.cos beta * Real.sin lam
  let z := Real.sin beta
  let ep := eclipticObliquity (effEpoch epoch date)
  fromXYZ ⟨x, Real.cos ep * y - Real.sin ep * z, Real.sin ep * y + Real.cos ep * z⟩

/-- The angles `a`, `b`, `c` of `_precess_kern`, in radians: celestial.py:868-889. -/
noncomputable def precessAngles (fromE toE : ℝ) : ℝ × ℝ × ℝ :=
  let t0 := (fromE - 2000) / 100
  let t := (toE - fromE) / 100
  let t02 := t0 * t0
  let t2 := t * t
  let t3 := t2 * t
  (((2306.2181 + 1.39656 * t0 - 0.000139 * t02) * t + (0.30188 - 0.000344 * t0) * t2
      + 0.017998 * t3) * arcsec.value,
   ((2306.2181 + 1.39656 * t0 - 0.000139 * t02) * t + (1.09468 + 0.000066 * t0) * t2
      + 0.018203 * t3) * arcsec.value,
   ((2004.3109 - 0.85330 * t0 - 0.000217 * t02) * t + (-0.42665 - 0.000217 * t0) * t2
      - 0.041833 * t3) * arcsec.value)

/-- The linear map of `_precess_kern`: celestial.py:890-908. -/
noncomputable def precessVec (fromE toE : ℝ) (v : V3) : V3 :=
  let A := precessAngles fromE toE
  let sina := Real.sin A.1
  let cosa := Real.cos A.1
  let sinb := Real.sin A.2.1
  let cosb := Real.cos A.2.1
  let sinc := Real.sin A.2.2
  let cosc := Real.cos A.2.2
  let xx := cosa * cosc * cosb - sina * sinb
  let yx := -sina * cosc * cosb - cosa * sinb
  let zx := -sinc * cosb
  let xy := cosa * cosc * sinb + sina * cosb
  let yy := -sina * cosc * sinb + cosa * cosb
  let zy := -sinc * sinb
  let xz := cosa * sinc
  let yz := -sina * sinc
  let zz := cosc
  ⟨xx * v.x + yx * v.y + zx * v.z, xy * v.x + yy * v.y + zy * v.z,
    xz * v.x + yz * v.y + zz * v.z⟩

open Classical in
/-- `precess`, `_precess` and `_precess_kern`: celestial.py:717-720, 866-932. -/
noncomputable def Coord.precess (p : Coord) (fromE toE : ℝ) : Option Coord :=
  if fromE = toE then some p
  else (fromXYZ (precessVec fromE toE p.xyz)).map Coord.normal

end JG
