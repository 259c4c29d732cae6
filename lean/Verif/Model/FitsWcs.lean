import Verif.Model.Utilities
import Verif.Model.Celestial
import Verif.Model.WCS

/-!
Model of `/repo/jax_galsim/fitswcs.py`: distortion tables and their headers, the tangent plane
coordinates, the local Jacobian, the Newton inversion, `TanWCS`.  Floats are exact reals; header keys
are an abstract index (`PV1_4` is `pv 1 4`); one position at a time.
-/

namespace JG.FitsW

/-! ### Tables -/

/-- A square coefficient array: entry `(i, j)` multiplies `x^i y^j`. -/
structure Tab where
  n : ℕ
  c : ℕ → ℕ → ℝ

/-- The array as a list of rows. -/
def Tab.rows (t : Tab) : List (List ℝ) := (List.range t.n).map fun i => (List.range t.n).map fun j => t.c i j

/-- `horner2d(x, y, t, triangle=True)`: fitswcs.py:588-589. -/
noncomputable def Tab.eval (t : Tab) (x y : ℝ) : ℝ := (horner2d x y t.rows true).getD 0

/-- `horner2d(x, y, t)`: fitswcs.py:1046-1047. -/
noncomputable def Tab.evalFull (t : Tab) (x y : ℝ) : ℝ := (horner2d x y t.rows false).getD 0

/-- `_apply_ab`: fitswcs.py:585-590. -/
noncomputable def applyAb (ab : Tab × Tab) (x y : ℝ) : ℝ × ℝ := (ab.1.eval x y, ab.2.eval x y)

/-- `jnp.dot` of 2 × 2 matrices. -/
noncomputable def mdot (m k : Mat2) : Mat2 :=
  ⟨m.a * k.a + m.b * k.c, m.a * k.b + m.b * k.d, m.c * k.a + m.d * k.c, m.c * k.b + m.d * k.d⟩

/-- `jnp.linalg.inv` of a 2 × 2 matrix.  A singular matrix gives infinities or NaN, which are not modelled: the
theorems assume a non-zero determinant. -/
noncomputable def minv (m : Mat2) : Mat2 :=
  let det := m.a * m.d - m.b * m.c
  ⟨m.d / det, -m.b / det, -m.c / det, m.a / det⟩

/-! ### The WCS -/

/-- The values of `wcs_type`. -/
inductive WType
  | tan | tpv | tnx | stg | zea | arc | tanSip | stgSip | zeaSip | arcSip
  deriving DecidableEq

/-- `projection` from `wcs_type`: fitswcs.py:93-102 and 202-209. -/
def WType.proj : WType → Proj
  | .tan | .tpv | .tnx | .tanSip => .gnomonic
  | .stg | .stgSip => .stereographic
  | .zea | .zeaSip => .lambert
  | .arc | .arcSip => .postel

/-- The text after `RA---` / `DEC--`. -/
def WType.suffix : WType → String
  | .tan => "TAN" | .tpv => "TPV" | .tnx => "TNX" | .stg => "STG" | .zea => "ZEA" | .arc => "ARC"
  | .tanSip => "TAN-SIP" | .stgSip => "STG-SIP" | .zeaSip => "ZEA-SIP" | .arcSip => "ARC-SIP"

/-- The accepted texts: fitswcs.py:201-226; `none` is the `GalSimValueError`. -/
def WType.ofSuffix : String → Option WType
  | "TAN" => some .tan | "TPV" => some .tpv | "TNX" => some .tnx | "STG" => some .stg | "ZEA" => some .zea
  | "ARC" => some .arc | "TAN-SIP" => some .tanSip | "STG-SIP" => some .stgSip | "ZEA-SIP" => some .zeaSip
  | "ARC-SIP" => some .arcSip | _ => none

/-- `GSFitsWCS`: fitswcs.py:88-119 (`cdinv` is computed from `cd`). -/
structure GS where
  wtype : WType
  crpix : ℝ × ℝ
  cd : Mat2
  center : Coord
  pv : Option (Tab × Tab)
  ab : Option (Tab × Tab)
  abp : Option (Tab × Tab)

/-- `1.0 * degrees / radians`. -/
noncomputable def degRad : ℝ := Real.pi / 180

/-- An optional distortion. -/
noncomputable def applyOpt (t : Option (Tab × Tab)) (p : ℝ × ℝ) : ℝ × ℝ :=
  match t with
  | none => p
  | some ab => applyAb ab p.1 p.2

/-- `_uv`: fitswcs.py:592-620. -/
noncomputable def GS.uv (w : GS) (x y : ℝ) : ℝ × ℝ :=
  let p := applyOpt w.ab (x - w.crpix.1, y - w.crpix.2)
  let u := w.cd.a * p.1 + w.cd.b * p.2
  let v := w.cd.c * p.1 + w.cd.d * p.2
  let q := applyOpt w.pv (u, v)
  (q.1 * (-degRad), q.2 * degRad)

/-- `_radec`: fitswcs.py:622-628. -/
noncomputable def GS.radec (w : GS) (x y : ℝ) : Coord :=
  w.center.deprojectP (w.uv x y).1 (w.uv x y).2 w.wtype.proj

/-- `_newOrigin`: fitswcs.py:748-751. -/
def GS.newOrigin (w : GS) (o : ℝ × ℝ) : GS := { w with crpix := (w.crpix.1 + o.1, w.crpix.2 + o.2) }

/-! ### The local Jacobian -/

/-- `jnp.dot(jnp.dot(ab, ypow), xpow)` for one of the two arrays: fitswcs.py:686. -/
noncomputable def Tab.dot (t : Tab) (xp yp : ℕ → ℝ) : ℝ :=
  ∑ i ∈ Finset.range t.n, (∑ j ∈ Finset.range t.n, t.c i j * yp j) * xp i

/-- `dxpow`: fitswcs.py:688-691. -/
noncomputable def dpow (x : ℝ) (k : ℕ) : ℝ := if k = 0 then 0 else (((k - 1 : ℕ) : ℝ) + 1) * x ^ (k - 1)

/-- One distortion step of `_local`: the new position and the Jacobian: fitswcs.py:679-700, 706-730. -/
noncomputable def distort (ab : Tab × Tab) (x y : ℝ) : (ℝ × ℝ) × Mat2 :=
  let xp := fun k : ℕ => x ^ k
  let yp := fun k : ℕ => y ^ k
  ((ab.1.dot xp yp, ab.2.dot xp yp),
    ⟨ab.1.dot (dpow x) yp, ab.1.dot xp (dpow y), ab.2.dot (dpow x) yp, ab.2.dot xp (dpow y)⟩)

/-- The tangent plane part of `_local`, position and Jacobian in radians: fitswcs.py:671-736. -/
noncomputable def GS.localUv (w : GS) (x y : ℝ) : (ℝ × ℝ) × Mat2 :=
  let p := (x - w.crpix.1, y - w.crpix.2)
  let s : (ℝ × ℝ) × Mat2 :=
    match w.ab with
    | none => (p, ⟨1, 0, 0, 1⟩)
    | some ab => ((distort ab p.1 p.2).1, mdot (distort ab p.1 p.2).2 ⟨1, 0, 0, 1⟩)
  let p2 := (w.cd.a * s.1.1 + w.cd.b * s.1.2, w.cd.c * s.1.1 + w.cd.d * s.1.2)
  let j2 := mdot w.cd s.2
  let t : (ℝ × ℝ) × Mat2 :=
    match w.pv with
    | none => (p2, j2)
    | some pv => ((distort pv p2.1 p2.2).1, mdot (distort pv p2.1 p2.2).2 j2)
  ((t.1.1 * (-degRad), t.1.2 * degRad),
    ⟨t.2.a * (-degRad), t.2.b * (-degRad), t.2.c * degRad, t.2.d * degRad⟩)

/-- `_local`, the four entries of the `JacobianWCS`: fitswcs.py:737-746. -/
noncomputable def GS.localJac (w : GS) (x y : ℝ) : Mat2 :=
  let l := w.localUv x y
  let j := mdot (w.center.jacDeproject l.1.1 l.1.2 w.wtype.proj) l.2
  let f := 180 * 3600 / Real.pi
  ⟨j.a * f, j.b * f, j.c * f, j.d * f⟩

/-! ### Inversion -/

/-- `dudxcoef`: fitswcs.py:1054, 1056. -/
def Tab.dx (t : Tab) : Tab := ⟨t.n - 1, fun i j => ((i + 1 : ℕ) : ℝ) * t.c (i + 1) j⟩

/-- `dudycoef`: fitswcs.py:1055, 1057. -/
def Tab.dy (t : Tab) : Tab := ⟨t.n - 1, fun i j => ((j + 1 : ℕ) : ℝ) * t.c i (j + 1)⟩

/-- The loop variables of `_invert_ab_noraise`. -/
structure NState where
  x : ℝ
  y : ℝ
  dx : ℝ
  dy : ℝ

/-- `_step`: fitswcs.py:1059-1080.  `none` is NaN (division by a zero determinant), which stays NaN. -/
noncomputable def newtonStep (ab : Tab × Tab) (u v : ℝ) (s : NState) : Option NState :=
  let du := ab.1.eval s.x s.y - u
  let dv := ab.2.eval s.x s.y - v
  let dudx := ab.1.dx.eval s.x s.y
  let dudy := ab.1.dy.eval s.x s.y
  let dvdx := ab.2.dx.eval s.x s.y
  let dvdy := ab.2.dy.eval s.x s.y
  let det := dudx * dvdy - dudy * dvdx
  let duu := -(du * dvdy - dv * dudy) / det
  let dvv := -(-du * dvdx + dv * dudx) / det
  if det = 0 then none else some ⟨s.x + duu, s.y + dvv, duu, dvv⟩

/-- `fori_loop(0, n, _step, ..)`. -/
noncomputable def newtonLoop (ab : Tab × Tab) (u v : ℝ) : ℕ → NState → Option NState
  | 0, s => some s
  | n + 1, s => (newtonLoop ab u v n s).bind (newtonStep ab u v)

/-- Result of the inversion: a position, NaN, or the error raised by `equinox.error_if`. -/
inductive NRes
  | val (x y : ℝ)
  | nan
  | err

/-- `_invert_ab_noraise`: fitswcs.py:1041-1108.  With NaN the comparison in `error_if` is false, so NaN is
returned. -/
noncomputable def invertAb (u v : ℝ) (ab : Tab × Tab) (abp : Option (Tab × Tab)) : NRes :=
  let s0 : ℝ × ℝ :=
    match abp with
    | none => (u, v)
    | some p => (p.1.evalFull u v, p.2.evalFull u v)
  match newtonLoop ab u v 10 ⟨s0.1, s0.2, 0, 0⟩ with
  | none => .nan
  | some s => if max |s.dx| |s.dy| > (2e-12 : ℝ) then .err else .val s.x s.y

/-- An optional inversion, on a result. -/
noncomputable def invertOpt (ab abp : Option (Tab × Tab)) : NRes → NRes
  | .val x y =>
    match ab with
    | none => .val x y
    | some t => invertAb x y t abp
  | .nan => .nan
  | .err => .err

/-- `_xy` after the projection: fitswcs.py:633-651. -/
noncomputable def GS.xyOfUv (w : GS) (u v : ℝ) : NRes :=
  match invertOpt w.pv none (.val (u * (-(1 / degRad))) (v * (1 / degRad))) with
  | .val u v =>
    let i := minv w.cd
    match invertOpt w.ab w.abp (.val (i.a * u + i.b * v) (i.c * u + i.d * v)) with
    | .val x y => .val (x + w.crpix.1) (y + w.crpix.2)
    | r => r
  | r => r

/-- `_xy`: fitswcs.py:630-651. -/
noncomputable def GS.xy (w : GS) (q : Coord) : NRes :=
  w.xyOfUv (w.center.projectP q w.wtype.proj).1 (w.center.projectP q w.wtype.proj).2

/-! ### TanWCS -/

/-- `TanWCS`: fitswcs.py:880-908.  `f` is `units / degrees`. -/
noncomputable def tanWCS (J : Mat2) (o uo : ℝ × ℝ) (f : ℝ) (center : Coord) : GS :=
  let cd : Mat2 := ⟨-(J.a * f), -(J.b * f), J.c * f, J.d * f⟩
  let i := minv cd
  let u := uo.1 * f
  let v := uo.2 * f
  ⟨.tan, (o.1 - (i.a * u + i.b * v), o.2 - (i.c * u + i.d * v)), cd, center, none, none, none⟩

/-! ### Headers -/

/-- The items of a TNX attribute after the quotes are removed: fitswcs.py:489-515. -/
structure Tnx where
  code : ℤ
  xorder : ℤ
  yorder : ℤ
  cross : ℤ
  xmin : ℝ
  xmax : ℝ
  ymin : ℝ
  ymax : ℝ
  coefs : List ℝ

/-- The kinds of axis recognised in `CTYPE`: fitswcs.py:188-191. -/
inductive Axis
  | ra | dec | other
  deriving DecidableEq

/-- A header.  `cunit` holds the units in radians. -/
structure Hdr where
  ctype1 : Axis × String
  ctype2 : Axis × String
  crval1 : ℝ
  crval2 : ℝ
  crpix1 : ℝ
  crpix2 : ℝ
  cd : Option Mat2
  cdelt : Option (ℝ × ℝ)
  pc : Option Mat2
  cunit : Option (ℝ × ℝ)
  pv : ℕ → ℕ → Option ℝ
  a : ℕ → ℕ → Option ℝ
  b : ℕ → ℕ → Option ℝ
  ap : ℕ → ℕ → Option ℝ
  bp : ℕ → ℕ → Option ℝ
  aOrder : Option ℕ
  bOrder : Option ℕ
  apOrder : Option ℕ
  bpOrder : Option ℕ
  wat1 : Option Tnx
  wat2 : Option Tnx

/-- Exceptions of the readers. -/
inductive RErr
  | notCelestial | ctypeDisagree | wcsType | decRange | notImplemented | indexError | keyError | typeError | badWat
  deriving DecidableEq

/-- `odd_indices`: fitswcs.py:312. -/
def oddIdx : List ℕ := [3, 11, 23, 39]

/-- `pv1` / `pv2`: fitswcs.py:322-331. -/
def pvList (h : Hdr) (i : ℕ) : List ℝ :=
  ((List.range 40).filter fun k => !oddIdx.contains k).map fun k => (h.pv i k).getD 0

/-- `np.nonzero(l)[0][-1]`; `none` is the `IndexError`. -/
noncomputable def lastNonzero (l : List ℝ) : Option ℕ := by
  classical exact ((List.range l.length).filter fun k => decide (l.getD k 0 ≠ 0)).getLast?

/-- The index triples `(k, i, j)` of the loop that fills the arrays: fitswcs.py:351-357. -/
def readIdx (order : ℕ) : List (ℕ × ℕ × ℕ) :=
  ((List.range (order + 1)).foldl (fun (s : ℕ × List (ℕ × ℕ × ℕ)) N =>
    (List.range (N + 1)).foldl (fun s j => (s.1 + 1, s.2 ++ [(s.1, N - j, j)])) s) (0, [])).2

/-- `order` of `_read_tpv`: fitswcs.py:335. -/
def tpvOrder (maxk : ℕ) : ℕ := Nat.sqrt (2 * (maxk + 1)) - 1

/-- `_read_tpv`: fitswcs.py:305-360. -/
noncomputable def readTpv (h : Hdr) : Except RErr (Tab × Tab) := by
  classical exact
  if ∃ i ∈ [1, 2], ∃ k ∈ oddIdx, (h.pv i k).getD 0 ≠ 0 then .error .notImplemented
  else
    let pv1 := pvList h 1
    let pv2 := pvList h 2
    match lastNonzero pv1, lastNonzero pv2 with
    | some k1, some k2 =>
      let order := tpvOrder (max k1 k2)
      let idx := readIdx order
      .ok (idx.foldl (fun (s : Tab × Tab) e =>
        (⟨s.1.n, Function.update s.1.c e.2.1 (Function.update (s.1.c e.2.1) e.2.2 (pv1.getD e.1 0))⟩,
          ⟨s.2.n, Function.update s.2.c e.2.2 (Function.update (s.2.c e.2.2) e.2.1 (pv2.getD e.1 0))⟩))
        (⟨order + 1, fun _ _ => 0⟩, ⟨order + 1, fun _ _ => 0⟩))
    | _, _ => .error .indexError

/-- One SIP array with the unit term added: fitswcs.py:366-380. -/
noncomputable def sipTab (order : ℕ) (c : ℕ → ℕ → Option ℝ) (i0 j0 : ℕ) : Tab :=
  ⟨order + 1, fun i j => (c i j).getD 0 + if i = i0 ∧ j = j0 then 1 else 0⟩

/-- `_read_sip`: fitswcs.py:362-409.  Result: `ab` and `abp`.  An order 0 has no entry `[1, 0]`. -/
noncomputable def readSip (h : Hdr) : Except RErr ((Tab × Tab) × Option (Tab × Tab)) :=
  match h.aOrder, h.bOrder with
  | some ao, some bo =>
    let order := max ao bo
    if order = 0 then .error .indexError
    else
      let ab := (sipTab order h.a 1 0, sipTab order h.b 0 1)
      match h.apOrder with
      | none => .ok (ab, none)
      | some apo =>
        match h.bpOrder with
        | none => .error .keyError
        | some bpo =>
          let order := max apo bpo
          if order = 0 then .error .indexError
          else .ok (ab, some (sipTab order h.ap 1 0, sipTab order h.bp 0 1))
  | _, _ => .error .keyError

/-- The rows of `xm` for Chebyshev polynomials, with `x' = a + b x`: fitswcs.py:541-557. -/
noncomputable def chebRow (a b : ℝ) : ℕ → ℕ → ℝ
  | 0 => fun k => if k = 0 then 1 else 0
  | 1 => fun k => if k = 0 then a else if k = 1 then b else 0
  | m + 2 => fun k => 2 * a * chebRow a b (m + 1) k - chebRow a b m k + if k = 0 then 0 else 2 * b * chebRow a b (m + 1) (k - 1)

/-- The rows of `xm` for Legendre polynomials: fitswcs.py:541-548, 563-576. -/
noncomputable def legRow (a b : ℝ) : ℕ → ℕ → ℝ
  | 0 => fun k => if k = 0 then 1 else 0
  | 1 => fun k => if k = 0 then a else if k = 1 then b else 0
  | m + 2 => fun k =>
    let M : ℝ := (m + 2 : ℕ)
    ((2 * M - 1) * a * legRow a b (m + 1) k - (M - 1) * legRow a b m k) / M +
      if k = 0 then 0 else ((2 * M - 1) * b * legRow a b (m + 1) (k - 1)) / M

/-- The 4 × 4 array of the ten TNX coefficients: fitswcs.py:517-525. -/
def tnxPv (p : List ℝ) (i j : ℕ) : ℝ :=
  ((([[p.getD 0 0, p.getD 4 0, p.getD 7 0, p.getD 9 0],
    [p.getD 1 0, p.getD 5 0, p.getD 8 0, 0],
    [p.getD 2 0, p.getD 6 0, 0, 0],
    [p.getD 3 0, 0, 0, 0]] : List (List ℝ)).getD i []).getD j 0)

/-- `_parse_tnx_data` after the text is split: fitswcs.py:489-583.  `ok none`: the function falls off its end
and returns `None`. -/
noncomputable def parseTnx (t : Tnx) : Except RErr (Option Tab) :=
  if t.cross ≠ 2 then .error .notImplemented
  else if t.xorder ≠ 4 ∨ t.yorder ≠ 4 then .error .notImplemented
  else if t.coefs.length ≠ 10 then .error .badWat
  else if t.code < 3 then
    let a := -(t.xmax + t.xmin) / (t.xmax - t.xmin)
    let b := 2 / (t.xmax - t.xmin)
    let c := -(t.ymax + t.ymin) / (t.ymax - t.ymin)
    let d := 2 / (t.ymax - t.ymin)
    let xm := if t.code = 1 then chebRow a b else legRow a b
    let ym := if t.code = 1 then chebRow c d else legRow c d
    .ok (some ⟨4, fun i j => ∑ p ∈ Finset.range 4, xm p i * ∑ q ∈ Finset.range 4, tnxPv t.coefs p q * ym q j⟩)
  else .ok none

/-- `pv1[1, 0] += 1`. -/
noncomputable def Tab.bump (t : Tab) (i0 j0 : ℕ) : Tab := ⟨t.n, fun i j => t.c i j + if i = i0 ∧ j = j0 then 1 else 0⟩

/-- `_read_tnx`: fitswcs.py:411-473 (the parsing of the text is not modelled). -/
noncomputable def readTnx (h : Hdr) : Except RErr (Tab × Tab) :=
  match h.wat1, h.wat2 with
  | some w1, some w2 => do
    let p1 ← parseTnx w1
    let p2 ← parseTnx w2
    match p1, p2 with
    | some t1, some t2 => .ok (t1.bump 1 0, t2.bump 0 1)
    | _, _ => .error .typeError
  | _, _ => .error .badWat

/-- `cd11 .. cd22`: fitswcs.py:231-254. -/
noncomputable def readCd (h : Hdr) : Mat2 :=
  match h.cd, h.cdelt, h.pc with
  | some m, _, _ => m
  | none, some d, some p => ⟨p.a * d.1, p.b * d.1, p.c * d.2, p.d * d.2⟩
  | none, some d, none => ⟨d.1, 0, 0, d.2⟩
  | none, none, _ => ⟨1, 0, 0, 1⟩

/-- `flip`: fitswcs.py:188-197; `none` is the `GalSimError`. -/
def readFlip (h : Hdr) : Option Bool :=
  if h.ctype1.1 = .dec ∧ h.ctype2.1 = .ra then some true
  else if h.ctype1.1 = .ra ∧ h.ctype2.1 = .dec then some false
  else none

/-- The distortion part of `_read_header`: fitswcs.py:283-289.  Result: the final type, `pv`, `ab`, `abp`. -/
noncomputable def readDistortion (h : Hdr) (t : WType) :
    Except RErr (WType × Option (Tab × Tab) × Option (Tab × Tab) × Option (Tab × Tab)) :=
  match t with
  | .tpv => do let p ← readTpv h; pure (.tpv, some p, none, none)
  | .tnx => do let p ← readTnx h; pure (.tpv, some p, none, none)
  | .tanSip | .stgSip | .zeaSip | .arcSip => do let p ← readSip h; pure (t, none, some p.1, p.2)
  | _ => pure (t, none, none, none)

/-- `_read_header`: fitswcs.py:184-303. -/
noncomputable def readHeader (h : Hdr) : Except RErr GS :=
  match readFlip h with
  | none => .error .notCelestial
  | some flip =>
    if h.ctype1.2 ≠ h.ctype2.2 then .error .ctypeDisagree
    else
      match WType.ofSuffix h.ctype1.2 with
      | none => .error .wcsType
      | some t =>
        let c := readCd h
        let units := h.cunit.getD (degRad, degRad)
        let crval := if flip then (h.crval2, h.crval1) else (h.crval1, h.crval2)
        let units := if flip then (units.2, units.1) else units
        let c : Mat2 := if flip then ⟨c.c, c.d, c.a, c.b⟩ else c
        match Coord.mk? (crval.1 * units.1) (crval.2 * units.2) with
        | none => .error .decRange
        | some center =>
          let t := if t = .tan ∧ (h.pv 1 1).isSome then .tpv else t
          match readDistortion h t with
          | .error e => .error e
          | .ok (t, pv, ab, abp) =>
            .ok ⟨t, (h.crpix1, h.crpix2), ⟨c.a * (units.1 / degRad), c.b * (units.1 / degRad), c.c * (units.2 / degRad),
              c.d * (units.2 / degRad)⟩, center, pv, ab, abp⟩

/-- The index triples of the loop that writes the `PV` keys: fitswcs.py:767-778. -/
def writeIdx (order : ℕ) : List (ℕ × ℕ × ℕ) :=
  ((List.range (order + 1)).foldl (fun (s : ℕ × List (ℕ × ℕ × ℕ)) n =>
    (List.range (n + 1)).foldl (fun s j =>
      let k := s.1 + 1
      (if oddIdx.contains k then k + 1 else k, s.2 ++ [(s.1, n - j, j)])) s) (0, [])).2

/-- The `PV` keys: fitswcs.py:767-778. -/
def writePv (pv : Tab × Tab) : ℕ → ℕ → Option ℝ :=
  (writeIdx (pv.1.n - 1)).foldl (fun (h : ℕ → ℕ → Option ℝ) e =>
    Function.update (Function.update h 1 (Function.update (h 1) e.1 (some (pv.1.c e.2.1 e.2.2))))
      2 (Function.update (h 2) e.1 (some (pv.2.c e.2.2 e.2.1)))) fun _ _ => none

/-- The keys of one SIP array: fitswcs.py:781-789 (zero entries are not written). -/
noncomputable def writeSip (t : Tab) (i0 j0 : ℕ) (i j : ℕ) : Option ℝ := by
  classical exact
  if i < t.n ∧ j < t.n then
    let c := if i = i0 ∧ j = j0 then t.c i j - 1 else t.c i j
    if c ≠ 0 then some c else none
  else none

/-- `_writeHeader` into a header without keys: fitswcs.py:753-823. -/
noncomputable def GS.writeHeader (w : GS) : Hdr where
  ctype1 := (.ra, w.wtype.suffix)
  ctype2 := (.dec, w.wtype.suffix)
  crval1 := w.center.ra / degRad
  crval2 := w.center.dec / degRad
  crpix1 := w.crpix.1
  crpix2 := w.crpix.2
  cd := some w.cd
  cdelt := none
  pc := none
  cunit := some (degRad, degRad)
  pv := match w.pv with | none => fun _ _ => none | some p => writePv p
  a := match w.ab with | none => fun _ _ => none | some p => writeSip p.1 1 0
  b := match w.ab with | none => fun _ _ => none | some p => writeSip p.2 0 1
  ap := match w.abp with | none => fun _ _ => none | some p => writeSip p.1 1 0
  bp := match w.abp with | none => fun _ _ => none | some p => writeSip p.2 0 1
  aOrder := w.ab.map fun p => p.1.n - 1
  bOrder := w.ab.map fun p => p.1.n - 1
  apOrder := w.abp.map fun p => p.1.n - 1
  bpOrder := w.abp.map fun p => p.1.n - 1
  wat1 := none
  wat2 := none

/-! ### FitsWCS for linear headers -/

/-- The simplification of a linear WCS: fitswcs.py:973-981. -/
noncomputable def simplifyLinear (J : Mat2) (o u : ℝ × ℝ) : WCS := by
  classical exact
  if J.a = J.d ∧ J.b = J.c ∧ J.c = 0 then
    if o.1 = o.2 ∧ o.2 = u.1 ∧ u.1 = u.2 ∧ u.2 = 0 then WCS.loc (.pix J.a) else WCS.off (.pix J.a) o u
  else WCS.off (.jac J) o u

end JG.FitsW
