import Verif.Model.Bounds
import Mathlib.Data.Complex.Basic
import Mathlib.Analysis.SpecialFunctions.Trigonometric.Basic

/-!
Model of the texts made by `repr` of positions, bounds, angles, shears, sky coordinates and wcs, and of reading them back with
`eval`.

As in `Model/ReprText.lean` a text is the expression which Python parses it to, floats are exact and exceptions are `none`.  Python
ints and floats are told apart here, since the scalars of a wcs are stored as given (a jax number prints as the Python number of its
kind: core/utils.py:147-162).  Arrays of numbers in one object, strings as numbers and `nan` are left out.
-/

namespace JG.Rg

/-- A Python number. -/
inductive Num
  | int (n : ℤ)
  | flt (x : ℝ)

/-- Its value; `==` of numbers compares values. -/
def Num.val : Num → ℝ
  | .int n => n
  | .flt x => x

/-- Whether it prints as an int. -/
def Num.isInt : Num → Bool
  | .int _ => true
  | .flt _ => false

/-- Expressions in a `repr`. -/
inductive Ex
  | num (n : Num)
  | cplx (z : ℂ)
  | name (s : String)
  | kw (k : String) (e : Ex)
  | call (f : String) (args : List Ex)

/-- `PositionI` and `PositionD`: position.py:182-191, 211-230. -/
inductive P
  | I (x y : ℤ)
  | D (x y : ℝ)

/-- A uniform wcs with its stored scalars: wcs.py:872-876, 971-976, 1102-1104, 1334-1343, 1413-1419, 1500-1512. -/
inductive W
  | pix (s : Num)
  | shear (s : Num) (g : ℂ)
  | jac (a b c d : Num)
  | off (s : Num) (o w : P)
  | offShear (s : Num) (g : ℂ) (o w : P)
  | aff (a b c d : Num) (o w : P)

/-- Objects, and the plain numbers that occur as arguments. -/
inductive Obj
  | num (n : Num)
  | cplx (z : ℂ)
  | pos (p : P)
  | unit (v : ℝ)
  | angle (rad : ℝ)
  | shear (g : ℂ)
  | coord (ra dec : ℝ)
  | bI (b : Bounds ℤ)
  | bD (b : Bounds ℝ)
  | wcs (w : W)

/-! ### repr -/

/-- `Position.__repr__`: position.py:102-107. -/
def P.repr : P → Ex
  | .I x y => .call "galsim.PositionI" [.kw "x" (.num (.int x)), .kw "y" (.num (.int y))]
  | .D x y => .call "galsim.PositionD" [.kw "x" (.num (.flt x)), .kw "y" (.num (.flt y))]

/-- The values of the named units: angle.py:142-146. -/
noncomputable def unitValue (s : String) : Option ℝ :=
  if s = "galsim.radians" then some 1
  else if s = "galsim.hours" then some (Real.pi / 12)
  else if s = "galsim.degrees" then some (Real.pi / 180)
  else if s = "galsim.arcmin" then some (Real.pi / 10800)
  else if s = "galsim.arcsec" then some (Real.pi / 648000)
  else none

open Classical in
/-- `AngleUnit.__repr__`: angle.py:100-112. -/
noncomputable def unitRepr (v : ℝ) : Ex :=
  if v = 1 then .name "galsim.radians"
  else if v = Real.pi / 180 then .name "galsim.degrees"
  else if v = Real.pi / 12 then .name "galsim.hours"
  else if v = Real.pi / 10800 then .name "galsim.arcmin"
  else if v = Real.pi / 648000 then .name "galsim.arcsec"
  else .call "galsim.AngleUnit" [.num (.flt v)]

/-- `Angle.__repr__`: angle.py:252-253. -/
def angleRepr (rad : ℝ) : Ex := .call "galsim.Angle" [.num (.flt rad), .name "galsim.radians"]

/-- `Shear.__repr__`: shear.py:302-303. -/
def shearRepr (g : ℂ) : Ex := .call "galsim.Shear" [.cplx g]

/-- `BoundsI.__repr__`: bounds.py:666-676. -/
def boundsIRepr (b : Bounds ℤ) : Ex :=
  if b.defined then
    .call "galsim.BoundsI" [.kw "xmin" (.num (.int b.xmin)), .kw "deltax" (.num (.int b.deltax)),
      .kw "ymin" (.num (.int b.ymin)), .kw "deltay" (.num (.int b.deltay))]
  else .call "galsim.BoundsI" []

/-- `BoundsD.__repr__`: bounds.py:455-465. -/
noncomputable def boundsDRepr (b : Bounds ℝ) : Ex :=
  if b.defined then
    .call "galsim.BoundsD" [.num (.flt b.xmin), .num (.flt (b.xmax clsD)), .num (.flt b.ymin), .num (.flt (b.ymax clsD))]
  else .call "galsim.BoundsD" []

/-- `__repr__` of the wcs: wcs.py:959-960, 1084-1085, 1292-1298, 1396-1401, 1477-1483, 1608-1618. -/
def W.repr : W → Ex
  | .pix s => .call "galsim.PixelScale" [.num s]
  | .shear s g => .call "galsim.ShearWCS" [.num s, shearRepr g]
  | .jac a b c d => .call "galsim.JacobianWCS" [.num a, .num b, .num c, .num d]
  | .off s o w => .call "galsim.OffsetWCS" [.num s, o.repr, w.repr]
  | .offShear s g o w => .call "galsim.OffsetShearWCS" [.num s, shearRepr g, o.repr, w.repr]
  | .aff a b c d o w =>
    .call "galsim.AffineTransform" [.num a, .num b, .num c, .num d, .kw "origin" o.repr, .kw "world_origin" w.repr]

/-- `repr`; `CelestialCoord.__repr__`: celestial.py:826-830. -/
noncomputable def Obj.repr : Obj → Ex
  | .num n => .num n
  | .cplx z => .cplx z
  | .pos p => p.repr
  | .unit v => unitRepr v
  | .angle r => angleRepr r
  | .shear g => shearRepr g
  | .coord ra dec => .call "galsim.CelestialCoord" [angleRepr ra, angleRepr dec]
  | .bI b => boundsIRepr b
  | .bD b => boundsDRepr b
  | .wcs w => w.repr

/-! ### eval -/

/-- Arguments of a call, positional and keyword. -/
abbrev Args := List (Option String × Obj)

/-- The positional arguments (`*args`) and the keyword arguments (`**kwargs`). -/
def posArgs : Args → List Obj
  | [] => []
  | (none, v) :: l => v :: posArgs l
  | (some _, _) :: l => posArgs l
def kwArgs : Args → List (String × Obj)
  | [] => []
  | (none, _) :: l => kwArgs l
  | (some n, v) :: l => (n, v) :: kwArgs l

/-- Python's binding of arguments to the parameters `names`. -/
def bindArgs : List String → Args → Option (List (String × Obj))
  | _, [] => some []
  | n :: ns, (none, v) :: l => (bindArgs ns l).map fun b => (n, v) :: b
  | [], (none, _) :: _ => none
  | ns, (some n, v) :: l => if n ∈ ns then (bindArgs (ns.erase n) l).map fun b => (n, v) :: b else none

/-- A bound argument. -/
def get (b : List (String × Obj)) (n : String) : Option Obj := (b.find? fun p => p.1 = n).map Prod.snd

/-- A number argument. -/
def getNum (b : List (String × Obj)) (n : String) : Option Num :=
  match get b n with
  | some (.num x) => some x
  | _ => none

/-- `check_is_int_then_cast` (core/utils.py:12-31): a number with an integer value. -/
noncomputable def Num.toInt : Num → Option ℤ
  | .int n => some n
  | .flt x => if (⌊x⌋ : ℝ) = x then some ⌊x⌋ else none

/-- `PositionI(...)`, `PositionD(...)`: position.py:21-58, 185-191, 222-230. -/
noncomputable def callPos (isI : Bool) (args : Args) : Option Obj :=
  let xy : Option (Num × Num) := match posArgs args, kwArgs args with
    | [.num x, .num y], [] => some (x, y)
    | [], [] => some (.int 0, .int 0)
    | [.pos (.I x y)], [] => some (.int x, .int y)
    | [.pos (.D x y)], [] => some (.flt x, .flt y)
    | [], kw =>
      if kw.length = 2 then (getNum kw "x").bind fun x => (getNum kw "y").map fun y => (x, y) else none
    | _, _ => none
  xy.bind fun p => if isI then p.1.toInt.bind fun x => p.2.toInt.map fun y => .pos (.I x y) else some (.pos (.D p.1.val p.2.val))

/-- `BoundsI(...)`: bounds.py:47-58, 91-141, 494-530 (the forms with positions or bounds are in `Model/Bounds.lean`). -/
noncomputable def callBoundsI (args : Args) : Option Obj :=
  match posArgs args, kwArgs args with
  | [.num a, .num b, .num c, .num d], [] =>
    a.toInt.bind fun a => b.toInt.bind fun b => c.toInt.bind fun c => d.toInt.map fun d =>
      .bI (Bounds.mk4 clsI ⟨a, true⟩ ⟨b, true⟩ ⟨c, true⟩ ⟨d, true⟩)
  | [], [] => some (.bI (Bounds.empty clsI))
  | [], kw =>
    if kw.length = 4 then
      ((getNum kw "xmin").bind Num.toInt).bind fun x => ((getNum kw "ymin").bind Num.toInt).bind fun y =>
        match (getNum kw "xmax").bind Num.toInt, (getNum kw "ymax").bind Num.toInt with
        | some x', some y' => some (.bI (Bounds.mk4 clsI ⟨x, true⟩ ⟨x', true⟩ ⟨y, true⟩ ⟨y', true⟩))
        | _, _ =>
          ((getNum kw "deltax").bind Num.toInt).bind fun dx => ((getNum kw "deltay").bind Num.toInt).map fun dy =>
            .bI (Bounds.mkDelta clsI ⟨x, true⟩ ⟨dx, true⟩ ⟨y, true⟩ ⟨dy, true⟩)
    else none
  | _, _ => none

/-- `BoundsD(...)`: bounds.py:47-58, 91-141, 405-416. -/
noncomputable def callBoundsD (args : Args) : Option Obj :=
  match posArgs args, kwArgs args with
  | [.num a, .num b, .num c, .num d], [] =>
    some (.bD (Bounds.mk4 clsD ⟨a.val, true⟩ ⟨b.val, true⟩ ⟨c.val, true⟩ ⟨d.val, true⟩))
  | [], [] => some (.bD (Bounds.empty clsD))
  | [], kw =>
    if kw.length = 4 then
      (getNum kw "xmin").bind fun x => (getNum kw "ymin").bind fun y =>
        match getNum kw "xmax", getNum kw "ymax" with
        | some x', some y' => some (.bD (Bounds.mk4 clsD ⟨x.val, true⟩ ⟨x'.val, true⟩ ⟨y.val, true⟩ ⟨y'.val, true⟩))
        | _, _ =>
          (getNum kw "deltax").bind fun dx => (getNum kw "deltay").map fun dy =>
            .bD (Bounds.mkDelta clsD ⟨x.val, true⟩ ⟨dx.val, true⟩ ⟨y.val, true⟩ ⟨dy.val, true⟩)
    else none
  | _, _ => none

/-- `AngleUnit(value)`: angle.py:53-56. -/
def callUnit (args : Args) : Option Obj :=
  (bindArgs ["value"] args).bind fun b => (getNum b "value").map fun v => .unit v.val

/-- `Angle(theta, unit)`: angle.py:152-168. -/
def callAngle (args : Args) : Option Obj :=
  (bindArgs ["theta", "unit"] args).bind fun b =>
    match get b "theta", get b "unit" with
    | some (.angle r), none => some (.angle r)
    | some (.num t), some (.unit v) => some (.angle (t.val * v))
    | _, _ => none

/-- `Shear(complex)`: shear.py:39-46 (the forms with keywords are in `Model/Shear.lean`). -/
def callShear (args : Args) : Option Obj :=
  match posArgs args, kwArgs args with
  | [.cplx z], [] => some (.shear z)
  | [], [] => some (.shear 0)
  | _, _ => none

open Classical in
/-- `CelestialCoord(ra, dec)`: celestial.py:67-91. -/
noncomputable def callCoord (args : Args) : Option Obj :=
  (bindArgs ["ra", "dec"] args).bind fun b =>
    match get b "ra", get b "dec" with
    | some (.coord ra dec), none => some (.coord ra dec)
    | some (.angle ra), some (.angle dec) => if dec < -(Real.pi / 2) ∨ Real.pi / 2 < dec then none else some (.coord ra dec)
    | _, _ => none

/-- `_set_origin`, one of the two: wcs.py:200-212. -/
def getOrigin (b : List (String × Obj)) (n : String) : Option P :=
  match get b n with
  | none => some (.D 0 0)
  | some (.pos p) => some p
  | some _ => none

/-- A `Shear` argument (anything else has no `g1`: wcs.py:975). -/
def getShear (b : List (String × Obj)) : Option ℂ :=
  match get b "shear" with
  | some (.shear g) => some g
  | _ => none

/-- The four numbers of a Jacobian. -/
def getJac (b : List (String × Obj)) : Option (Num × Num × Num × Num) :=
  (getNum b "dudx").bind fun x => (getNum b "dudy").bind fun y => (getNum b "dvdx").bind fun u => (getNum b "dvdy").map fun v =>
    (x, y, u, v)

/-- The constructors of the wcs: wcs.py:872-876, 971-976, 1102-1104, 1334-1343, 1413-1419, 1500-1512.  Simplification: arguments
that are not numbers where numbers are expected are refused at once, not only when the wcs is used. -/
def callWcs (f : String) (args : Args) : Option Obj :=
  if f = "galsim.PixelScale" then
    (bindArgs ["scale"] args).bind fun b => (getNum b "scale").map fun s => .wcs (.pix s)
  else if f = "galsim.ShearWCS" then
    (bindArgs ["scale", "shear"] args).bind fun b => (getNum b "scale").bind fun s => (getShear b).map fun g => .wcs (.shear s g)
  else if f = "galsim.JacobianWCS" then
    (bindArgs ["dudx", "dudy", "dvdx", "dvdy"] args).bind fun b =>
      (getJac b).map fun j => .wcs (.jac j.1 j.2.1 j.2.2.1 j.2.2.2)
  else if f = "galsim.OffsetWCS" then
    (bindArgs ["scale", "origin", "world_origin"] args).bind fun b => (getNum b "scale").bind fun s =>
      (getOrigin b "origin").bind fun o => (getOrigin b "world_origin").map fun w => .wcs (.off s o w)
  else if f = "galsim.OffsetShearWCS" then
    (bindArgs ["scale", "shear", "origin", "world_origin"] args).bind fun b => (getNum b "scale").bind fun s =>
      (getShear b).bind fun g => (getOrigin b "origin").bind fun o => (getOrigin b "world_origin").map fun w =>
        .wcs (.offShear s g o w)
  else if f = "galsim.AffineTransform" then
    (bindArgs ["dudx", "dudy", "dvdx", "dvdy", "origin", "world_origin"] args).bind fun b =>
      (getJac b).bind fun j => (getOrigin b "origin").bind fun o => (getOrigin b "world_origin").map fun w =>
        .wcs (.aff j.1 j.2.1 j.2.2.1 j.2.2.2 o w)
  else none

/-- A call by name. -/
noncomputable def callFn (f : String) (args : Args) : Option Obj :=
  if f = "galsim.PositionI" then callPos true args
  else if f = "galsim.PositionD" then callPos false args
  else if f = "galsim.BoundsI" then callBoundsI args
  else if f = "galsim.BoundsD" then callBoundsD args
  else if f = "galsim.AngleUnit" then callUnit args
  else if f = "galsim.Angle" then callAngle args
  else if f = "galsim.Shear" then callShear args
  else if f = "galsim.CelestialCoord" then callCoord args
  else callWcs f args

mutual
/-- `eval` with the names of the package. -/
noncomputable def Ex.eval : Ex → Option Obj
  | .num n => some (.num n)
  | .cplx z => some (.cplx z)
  | .name s => (unitValue s).map .unit
  | .kw _ _ => none
  | .call f args => (Ex.evalArgs args).bind (callFn f)
/-- The arguments of a call. -/
noncomputable def Ex.evalArgs : List Ex → Option Args
  | [] => some []
  | .kw n e :: l => (Ex.eval e).bind fun v => (Ex.evalArgs l).map fun l' => (some n, v) :: l'
  | e :: l => (Ex.eval e).bind fun v => (Ex.evalArgs l).map fun l' => (none, v) :: l'
end

/-! ### Equality -/

/-- `Position.__eq__`: position.py:116-121. -/
def P.eq : P → P → Prop
  | .I x y, .I x' y' => x = x' ∧ y = y'
  | .D x y, .D x' y' => x = x' ∧ y = y'
  | _, _ => False

/-- `__eq__` of the wcs: wcs.py:600-606, 954-957, 1077-1082, 1283-1290. -/
def W.eq : W → W → Prop
  | .pix s, .pix t => s.val = t.val
  | .shear s g, .shear t h => s.val = t.val ∧ g = h
  | .jac a b c d, .jac a' b' c' d' => a.val = a'.val ∧ b.val = b'.val ∧ c.val = c'.val ∧ d.val = d'.val
  | .off s o w, .off t o' w' => s.val = t.val ∧ o.eq o' ∧ w.eq w'
  | .offShear s g o w, .offShear t h o' w' => (s.val = t.val ∧ g = h) ∧ o.eq o' ∧ w.eq w'
  | .aff a b c d o w, .aff a' b' c' d' o' w' =>
    (a.val = a'.val ∧ b.val = b'.val ∧ c.val = c'.val ∧ d.val = d'.val) ∧ o.eq o' ∧ w.eq w'
  | _, _ => False

/-- What `__hash__` of a wcs hashes: wcs.py:962-963, 1087-1088, 1300-1301, 1403-1404, 1485-1486, 1620-1621. -/
def W.hashKey (w : W) : Ex := w.repr

end JG.Rg
