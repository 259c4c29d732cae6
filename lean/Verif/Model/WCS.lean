import Verif.Model.Profile

/-!
Model of the Euclidean uniform coordinate systems of `/repo/jax_galsim/wcs.py`.  Numbers are exact; formulas with a
division are those of the code, with the real division (theorems assume non-degenerate parameters).  The classes
`PositionD` / `PositionI` are plain pairs of numbers, `color` is ignored.
-/

namespace JG

/-- The local systems: `PixelScale` (wcs.py:869-963), `ShearWCS` (wcs.py:968-1096), `JacobianWCS` (wcs.py:1101-1301). -/
inductive LocalWCS
  | pix (scale : ℝ)
  | shear (scale : ℝ) (s : Shear)
  | jac (J : Mat2)

/-- A uniform system: local, or `OffsetWCS` / `OffsetShearWCS` / `AffineTransform` (wcs.py:1331-1621), which hold a local
system and two origins. -/
inductive WCS
  | loc (l : LocalWCS)
  | off (l : LocalWCS) (origin world : ℝ × ℝ)

namespace LocalWCS

/-- `_gfactor`: wcs.py:978-984. -/
noncomputable def gfactor (s : Shear) : ℝ := 1 / Real.sqrt (1 - (s.g1 ^ 2 + s.g2 ^ 2))

/-- `(_u, _v)`: wcs.py:888-892, 997-1005, 1131-1135. -/
noncomputable def uv : LocalWCS → ℝ × ℝ → ℝ × ℝ
  | pix c, p => (p.1 * c, p.2 * c)
  | shear c s, p => ((p.1 * (1 - s.g1) - p.2 * s.g2) * (gfactor s * c), (p.2 * (1 + s.g1) - p.1 * s.g2) * (gfactor s * c))
  | jac J, p => (J.a * p.1 + J.b * p.2, J.c * p.1 + J.d * p.2)

/-- `(_x, _y)`: wcs.py:894-898, 1007-1015, 1137-1145. -/
noncomputable def xy : LocalWCS → ℝ × ℝ → ℝ × ℝ
  | pix c, p => (p.1 / c, p.2 / c)
  | shear c s, p => ((p.1 * (1 + s.g1) + p.2 * s.g2) * (gfactor s / c), (p.2 * (1 - s.g1) + p.1 * s.g2) * (gfactor s / c))
  | jac J, p => ((J.d * p.1 - J.b * p.2) / J.det, (-J.c * p.1 + J.a * p.2) / J.det)

/-- `_pixelArea`: wcs.py:923-924, 1036-1037, 1186-1187. -/
noncomputable def pixelArea : LocalWCS → ℝ
  | pix c => c ^ 2
  | shear c _ => c ^ 2
  | jac J => |J.det|

/-- `_minScale`: wcs.py:926-927, 1039-1040, 1235-1242. -/
noncomputable def minScale : LocalWCS → ℝ
  | pix c => c
  | shear c s => c * (1 - Real.sqrt (s.g1 ^ 2 + s.g2 ^ 2)) * gfactor s
  | jac J =>
    let h1 := Real.sqrt ((J.a + J.d) ^ 2 + (J.b - J.c) ^ 2)
    let h2 := Real.sqrt ((J.a - J.d) ^ 2 + (J.b + J.c) ^ 2)
    1 / 2 * |h1 - h2|

/-- `_maxScale`: wcs.py:929-930, 1042-1044, 1244-1250. -/
noncomputable def maxScale : LocalWCS → ℝ
  | pix c => c
  | shear c s => c * (1 + Real.sqrt (s.g1 ^ 2 + s.g2 ^ 2)) * gfactor s
  | jac J =>
    let h1 := Real.sqrt ((J.a + J.d) ^ 2 + (J.b - J.c) ^ 2)
    let h2 := Real.sqrt ((J.a - J.d) ^ 2 + (J.b + J.c) ^ 2)
    1 / 2 * (h1 + h2)

/-- `_inverse`: wcs.py:932-933, 1046-1047, 1252-1258. -/
noncomputable def inverse : LocalWCS → LocalWCS
  | pix c => pix (1 / c)
  | shear c s => shear (1 / c) s.neg
  | jac J => jac ⟨J.d / J.det, -J.b / J.det, -J.c / J.det, J.a / J.det⟩

/-- `_toJacobian`: wcs.py:935-936, 1049-1055, 1260-1261. -/
noncomputable def toJac : LocalWCS → Mat2
  | pix c => ⟨c, 0, 0, c⟩
  | shear c s => ⟨(1 - s.g1) * c * gfactor s, -s.g2 * c * gfactor s, -s.g2 * c * gfactor s, (1 + s.g1) * c * gfactor s⟩
  | jac J => J

/-- `_profileToWorld`: wcs.py:900-906, 1017-1021, 1147-1153 (`none`: not finite). -/
noncomputable def profileToWorld : LocalWCS → Prof → ℝ → ℝ × ℝ → Option Prof
  | pix c, p, fr, o => if c = 0 then none else some (mkTransform p ⟨c, 0, 0, c⟩ o (1 / c ^ 2 * fr))
  | shear c s, p, fr, o =>
    (p.dilate c).bind fun p1 => (p1.shear s.neg).map fun p2 => (p2.shift o).withScaledFlux fr
  | jac J, p, fr, o => if J.det = 0 then none else some (mkTransform p J o (fr / |J.det|))

/-- `_profileToImage`: wcs.py:908-914, 1023-1027, 1155-1166. -/
noncomputable def profileToImage : LocalWCS → Prof → ℝ → ℝ × ℝ → Option Prof
  | pix c, p, fr, o => if c = 0 then none else some (mkTransform p ⟨1 / c, 0, 0, 1 / c⟩ o (c ^ 2 * fr))
  | shear c s, p, fr, o =>
    (p.dilate (1 / c)).bind fun p1 => (p1.shear s).map fun p2 => (p2.shift o).withScaledFlux fr
  | jac J, p, fr, o => if J.det = 0 then none
    else some (mkTransform p ⟨J.d / J.det, -J.b / J.det, -J.c / J.det, J.a / J.det⟩ o (fr * |J.det|))

/-- `JacobianWCS._shearToWorld`: wcs.py:1168-1180. -/
noncomputable def jacShearToWorld (J : Mat2) (s : Shear) : Option Shear :=
  let M := (J.mul ⟨1 + s.e1, s.e2, s.e2, 1 - s.e1⟩).mul J.tr
  Shear.ofE ((M.a - M.d) / (M.a + M.d)) ((2 * M.b) / (M.a + M.d))

/-- `_shearToWorld`: wcs.py:916-918, 1029-1031. -/
noncomputable def shearToWorld : LocalWCS → Shear → Option Shear
  | pix _, s => some s
  | l, s => jacShearToWorld l.toJac s

/-- `_shearToImage`: wcs.py:920-921, 1033-1034, 1182-1184. -/
noncomputable def shearToImage : LocalWCS → Shear → Option Shear
  | pix _, s => some s
  | l, s => jacShearToWorld ⟨l.toJac.d / l.toJac.det, -l.toJac.b / l.toJac.det, -l.toJac.c / l.toJac.det,
      l.toJac.a / l.toJac.det⟩ s

/-- The result of `getDecomposition`. -/
structure Decomposition where
  scale : ℝ
  shear : Option Shear
  theta : ℝ
  flip : Bool

/-- `JacobianWCS.getDecomposition`: wcs.py:1194-1233 (`jnp.arctan2(S, C)` is the argument of `C + iS`). -/
noncomputable def decomposition (J : Mat2) : Decomposition :=
  let K : Mat2 := if J.det < 0 then ⟨J.b, J.a, J.d, J.c⟩ else J
  let scale := Real.sqrt |J.det|
  let C := K.a + K.d
  let S := K.c - K.b
  let theta := Complex.arg ⟨C, S⟩
  let factor := C * C + S * S
  let C1 := C / factor
  let S1 := S / factor
  let g1 := C1 * (K.a - K.d) - S1 * (K.b + K.c)
  let g2 := S1 * (K.a - K.d) + C1 * (K.b + K.c)
  ⟨scale, Shear.ofG g1 g2, theta, decide (J.det < 0)⟩

end LocalWCS

namespace WCS

/-- The local system: wcs.py:582-583, 649-650. -/
def localWCS : WCS → LocalWCS
  | loc l => l
  | off l _ _ => l

/-- `origin`: wcs.py:620-623, 1350-1353, 1431-1434, 1534-1537. -/
def origin : WCS → ℝ × ℝ
  | loc _ => (0, 0)
  | off _ o _ => o

/-- `world_origin`: wcs.py:625-628, 1355-1358, 1436-1439, 1539-1542. -/
def worldOrigin : WCS → ℝ × ℝ
  | loc _ => (0, 0)
  | off _ _ w => w

/-- `_posToWorld`: wcs.py:401-404, 631-634. -/
noncomputable def toWorld : WCS → ℝ × ℝ → ℝ × ℝ
  | loc l, p => l.uv p
  | off l o w, p => l.uv (p - o) + w

/-- `_posToImage`: wcs.py:417-420, 640-643. -/
noncomputable def toImage : WCS → ℝ × ℝ → ℝ × ℝ
  | loc l, q => l.xy q
  | off l o w, q => l.xy (q - w) + o

/-- `_xyTouv`: wcs.py:406-413, 636-637. -/
noncomputable def xyTouv : WCS → ℝ → ℝ → ℝ × ℝ
  | loc l, x, y => l.uv (x, y)
  | off l o w, x, y =>
    let r := l.uv (x - o.1, y - o.2)
    (r.1 + w.1, r.2 + w.2)

/-- `_uvToxy`: wcs.py:422-429, 645-646. -/
noncomputable def uvToxy : WCS → ℝ → ℝ → ℝ × ℝ
  | loc l, u, v => l.xy (u, v)
  | off l o w, u, v =>
    let r := l.xy (u - w.1, v - w.2)
    (r.1 + o.1, r.2 + o.2)

/-- `_newOrigin`: wcs.py:948-949, 1057-1058, 1275-1278, 1390-1391, 1441-1442, 1597-1600; a missing `world_origin` is
(0, 0): wcs.py:200-212. -/
def newOrigin (w : WCS) (o : ℝ × ℝ) (wo : Option (ℝ × ℝ)) : WCS := off w.localWCS o (wo.getD (0, 0))

/-- `_shiftOrigin`: wcs.py:434-488.  `isLocal` is the attribute `_isLocal`, which the repository reads but does not set
(it is inherited from the reference implementation). -/
noncomputable def shiftOrigin (isLocal : Bool) (w : WCS) (o : ℝ × ℝ) : Option (ℝ × ℝ) → WCS
  | none => if isLocal then w.newOrigin o none else w.newOrigin (o + w.origin) (some w.worldOrigin)
  | some wo => if isLocal then w.newOrigin o (some wo)
      else w.newOrigin o (some (wo + (w.worldOrigin - w.toWorld w.origin)))

/-- `inverse`: wcs.py:587-593; a local system inverts to a local one. -/
noncomputable def inverse : WCS → WCS
  | loc l => loc l.inverse
  | off l o w => (loc l.inverse).newOrigin w (some o)

/-- `profileToWorld(profile, image_pos, flux_ratio, offset)`: wcs.py:73-86. -/
noncomputable def profileToWorld (w : WCS) (p : Prof) (fr : ℝ) (o : ℝ × ℝ) : Option Prof :=
  w.localWCS.profileToWorld p fr o

/-- `profileToImage`: wcs.py:122-135. -/
noncomputable def profileToImage (w : WCS) (p : Prof) (fr : ℝ) (o : ℝ × ℝ) : Option Prof :=
  w.localWCS.profileToImage p fr o

/-- `affine()` without arguments: wcs.py:166-182: the Jacobian, moved so that (0, 0) maps to `toWorld(0, 0)`. -/
noncomputable def affine (isLocal : Bool) (w : WCS) : WCS :=
  (loc (.jac w.localWCS.toJac)).shiftOrigin isLocal (0, 0) (some (w.toWorld (0, 0)))

/-! ### Equality and pytrees -/

/-- The class of an object. -/
inductive Cls
  | PixelScale | ShearWCS | JacobianWCS | OffsetWCS | OffsetShearWCS | AffineTransform
  deriving DecidableEq

/-- The class of a system. -/
def cls : WCS → Cls
  | loc (.pix _) => .PixelScale
  | loc (.shear _ _) => .ShearWCS
  | loc (.jac _) => .JacobianWCS
  | off (.pix _) _ _ => .OffsetWCS
  | off (.shear _ _) _ _ => .OffsetShearWCS
  | off (.jac _) _ _ => .AffineTransform

/-- `__eq__`: wcs.py:600-606, 954-957, 1077-1082, 1283-1290. -/
noncomputable def eq (w v : WCS) : Prop :=
  match w, v with
  | loc (.pix c), loc (.pix c') => c = c'
  | loc (.shear c s), loc (.shear c' s') => c = c' ∧ s.g = s'.g
  | loc (.jac J), loc (.jac J') => J.a = J'.a ∧ J.b = J'.b ∧ J.c = J'.c ∧ J.d = J'.d
  | off (.pix c) o u, off (.pix c') o' u' => c = c' ∧ o = o' ∧ u = u'
  | off (.shear c s) o u, off (.shear c' s') o' u' => (c = c' ∧ s.g = s'.g) ∧ o = o' ∧ u = u'
  | off (.jac J) o u, off (.jac J') o' u' => (J.a = J'.a ∧ J.b = J'.b ∧ J.c = J'.c ∧ J.d = J'.d) ∧ o = o' ∧ u = u'
  | _, _ => False

/-- A child of the pytree. -/
inductive Child
  | num (x : ℝ)
  | shr (s : Shear)
  | pos (p : ℝ × ℝ)

/-- `tree_flatten`: wcs.py:214-221 (the dictionary `_params`), 1090-1092, 1488-1490 (a tuple, here with the names of the
constructor's arguments in order). -/
noncomputable def flatten : WCS → List (String × Child)
  | loc (.pix c) => [("scale", .num c)]
  | loc (.shear c s) => [("scale", .num c), ("shear", .shr s)]
  | loc (.jac J) => [("dudx", .num J.a), ("dudy", .num J.b), ("dvdx", .num J.c), ("dvdy", .num J.d)]
  | off (.pix c) o u => [("scale", .num c), ("origin", .pos o), ("world_origin", .pos u)]
  | off (.shear c s) o u => [("scale", .num c), ("shear", .shr s), ("origin", .pos o), ("world_origin", .pos u)]
  | off (.jac J) o u => [("dudx", .num J.a), ("dudy", .num J.b), ("dvdx", .num J.c), ("dvdy", .num J.d),
      ("origin", .pos o), ("world_origin", .pos u)]

/-- Argument look-up of a constructor call. -/
def argNum (l : List (String × Child)) (k : String) : Option ℝ :=
  match l.lookup k with
  | some (.num x) => some x
  | _ => none
/-- Same for positions. -/
def argPos (l : List (String × Child)) (k : String) : Option (ℝ × ℝ) :=
  match l.lookup k with
  | some (.pos x) => some x
  | _ => none
/-- Same for shears. -/
def argShear (l : List (String × Child)) (k : String) : Option Shear :=
  match l.lookup k with
  | some (.shr x) => some x
  | _ => none

/-- `tree_unflatten`: wcs.py:223-226, 1094-1096, 1492-1494: call the constructor; `none`: `TypeError`. -/
def unflatten : Cls → List (String × Child) → Option WCS
  | .PixelScale, l => do let c ← argNum l "scale"; pure (loc (.pix c))
  | .ShearWCS, l => do let c ← argNum l "scale"; let s ← argShear l "shear"; pure (loc (.shear c s))
  | .JacobianWCS, l => do
    let a ← argNum l "dudx"; let b ← argNum l "dudy"; let c ← argNum l "dvdx"; let d ← argNum l "dvdy"
    pure (loc (.jac ⟨a, b, c, d⟩))
  | .OffsetWCS, l => do
    let c ← argNum l "scale"
    pure (off (.pix c) ((argPos l "origin").getD (0, 0)) ((argPos l "world_origin").getD (0, 0)))
  | .OffsetShearWCS, l => do
    let c ← argNum l "scale"; let s ← argShear l "shear"
    pure (off (.shear c s) ((argPos l "origin").getD (0, 0)) ((argPos l "world_origin").getD (0, 0)))
  | .AffineTransform, l => do
    let a ← argNum l "dudx"; let b ← argNum l "dudy"; let c ← argNum l "dvdx"; let d ← argNum l "dvdy"
    pure (off (.jac ⟨a, b, c, d⟩) ((argPos l "origin").getD (0, 0)) ((argPos l "world_origin").getD (0, 0)))

/-! ### FITS headers -/

/-- A header value. -/
inductive HVal
  | str (s : String)
  | num (x : ℝ)

/-- A header: a dictionary; comments are ignored. -/
abbrev Header := String → Option HVal

/-- `header[k] = v`. -/
def Header.set (h : Header) (k : String) (v : HVal) : Header := fun j => if j = k then some v else h j
/-- `header[k]` for a number; `none`: `KeyError`. -/
def Header.num (h : Header) (k : String) : Option ℝ :=
  match h k with
  | some (.num x) => some x
  | _ => none
/-- `header.get(k, d)` for a number. -/
def Header.getNum (h : Header) (k : String) (d : ℝ) : ℝ := (h.num k).getD d

/-- `_writeLinearWCS` of an affine system `off (jac J) o w`: wcs.py:1548-1571. -/
noncomputable def writeLinear (h : Header) (J : Mat2) (o w : ℝ × ℝ) : Header :=
  (((((((((h.set "CTYPE1" (.str "LINEAR")).set "CTYPE2" (.str "LINEAR")).set "CRVAL1" (.num w.1)).set
    "CRVAL2" (.num w.2)).set "CRPIX1" (.num o.1)).set "CRPIX2" (.num o.2)).set "CD1_1" (.num J.a)).set
    "CD1_2" (.num J.b)).set "CD2_1" (.num J.c)).set "CD2_2" (.num J.d)

/-- `self.affine()._writeLinearWCS(header, bounds)`. -/
noncomputable def writeAffine (isLocal : Bool) (h : Header) (w : WCS) : Header :=
  writeLinear h w.localWCS.toJac (w.affine isLocal).origin (w.affine isLocal).worldOrigin

/-- `_writeHeader`: wcs.py:938-941, 1060-1071, 1263-1265, 1360-1379, 1444-1471, 1544-1546. -/
noncomputable def writeHeader (isLocal : Bool) (h : Header) (w : WCS) : Header :=
  match w with
  | loc (.pix c) => writeAffine isLocal ((h.set "GS_WCS" (.str "PixelScale")).set "GS_SCALE" (.num c)) w
  | loc (.shear c s) => writeAffine isLocal ((((h.set "GS_WCS" (.str "ShearWCS")).set "GS_SCALE" (.num c)).set
      "GS_G1" (.num s.g1)).set "GS_G2" (.num s.g2)) w
  | loc (.jac _) => writeAffine isLocal (h.set "GS_WCS" (.str "JacobianWCS")) w
  | off (.pix c) o u => writeAffine isLocal ((((((h.set "GS_WCS" (.str "OffsetWCS")).set "GS_SCALE" (.num c)).set
      "GS_X0" (.num o.1)).set "GS_Y0" (.num o.2)).set "GS_U0" (.num u.1)).set "GS_V0" (.num u.2)) w
  | off (.shear c s) o u => writeAffine isLocal ((((((((h.set "GS_WCS" (.str "OffsetShearWCS")).set
      "GS_SCALE" (.num c)).set "GS_G1" (.num s.g1)).set "GS_G2" (.num s.g2)).set "GS_X0" (.num o.1)).set
      "GS_Y0" (.num o.2)).set "GS_U0" (.num u.1)).set "GS_V0" (.num u.2)) w
  | off (.jac J) o u => writeLinear (h.set "GS_WCS" (.str "AffineTransform")) J o u

/-- `AffineTransform._readHeader`: wcs.py:1573-1595. -/
noncomputable def readAffine (h : Header) : WCS :=
  let J : Mat2 := if (h "CD1_1").isSome
    then ⟨h.getNum "CD1_1" 1, h.getNum "CD1_2" 0, h.getNum "CD2_1" 0, h.getNum "CD2_2" 1⟩
    else ⟨h.getNum "CDELT1" 1, 0, 0, h.getNum "CDELT2" 1⟩
  off (.jac J) (h.getNum "CRPIX1" 0, h.getNum "CRPIX2" 0) (h.getNum "CRVAL1" 0, h.getNum "CRVAL2" 0)

/-- `wcs_type._readHeader(header)` for the class named in `GS_WCS`: wcs.py:943-946, 1267-1273, 1381-1388, 1573-1595.
`ShearWCS` and `OffsetShearWCS` define no `_readHeader`: `AttributeError`. -/
noncomputable def readHeader (h : Header) : Option WCS :=
  match h "GS_WCS" with
  | some (.str "PixelScale") => do let c ← h.num "GS_SCALE"; pure (loc (.pix c))
  | some (.str "JacobianWCS") => some (loc (.jac ⟨h.getNum "CD1_1" 1, h.getNum "CD1_2" 0, h.getNum "CD2_1" 0,
      h.getNum "CD2_2" 1⟩))
  | some (.str "OffsetWCS") => do
    let c ← h.num "GS_SCALE"
    let x ← h.num "GS_X0"; let y ← h.num "GS_Y0"; let u ← h.num "GS_U0"; let v ← h.num "GS_V0"
    pure (off (.pix c) (x, y) (u, v))
  | some (.str "AffineTransform") => some (readAffine h)
  | _ => none

/-- `readFromFitsHeader`, the part for a named class: wcs.py:1633-1658. -/
noncomputable def readFromFitsHeader (isLocal : Bool) (h : Header) : Option (WCS × (ℝ × ℝ)) :=
  let xmin := h.getNum "GS_XMIN" 1
  let ymin := h.getNum "GS_YMIN" 1
  (readHeader h).map fun w =>
    (if xmin ≠ 1 ∨ ymin ≠ 1 then w.shiftOrigin isLocal (xmin - 1, ymin - 1) none else w, (xmin, ymin))

/-- `compatible` for uniform systems: wcs.py:1625-1627. -/
noncomputable def compatible (w v : WCS) : Prop := eq (loc (.jac w.localWCS.toJac)) (loc (.jac v.localWCS.toJac))

end WCS

end JG
