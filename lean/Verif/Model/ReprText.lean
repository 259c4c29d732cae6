import Verif.Model.Pytree
import Mathlib.Algebra.Order.Floor.Ring

/-!
Model of the texts made by `repr` of profiles and of reading them back with `eval`.

A text is represented by the expression which Python parses it to; the numbers in it are exact (the `repr` of a float is read back
as the same float).  `eval` calls the constructors of `Model/Pytree.lean`, with Python's rules for positional and keyword arguments.
A tuple is read back as a tuple and a list as a list; both are `seq`, since no constructor tells them apart
(sum.py:34-35, convolve.py:47-48).  Exceptions are `none`.  Interpolated images are left out.
-/

namespace JG.Tree

/-- Expressions in a `repr`: numbers, `True`/`False`, lists and tuples, `name=value` inside a call, calls. -/
inductive Exp
  | num (x : ℝ)
  | bool (b : Bool)
  | seq (l : List Exp)
  | kw (name : String) (e : Exp)
  | call (f : String) (args : List Exp)

/-- `%d`: the integer part towards zero. -/
noncomputable def pctD (x : ℝ) : ℝ := if 0 ≤ x then (⌊x⌋ : ℝ) else (⌈x⌉ : ℝ)

/-- `GSParams.__repr__`: gsparams.py:141-145 with `_getinitargs` (117-132). -/
noncomputable def gsRepr (g : GSP) : Exp :=
  .call "galsim.GSParams" [.num (pctD (g .minimum_fft_size)), .num (pctD (g .maximum_fft_size)), .num (g .folding_threshold),
    .num (g .stepk_minimum_hlr), .num (g .maxk_threshold), .num (g .kvalue_accuracy), .num (g .xvalue_accuracy),
    .num (pctD (g .table_spacing)), .num (g .realspace_relerr), .num (g .realspace_abserr), .num (g .integration_relerr),
    .num (g .integration_abserr), .num (g .shoot_accuracy)]

/-- `PositionD.__repr__`: position.py:102-107. -/
def posRepr (p : ℝ × ℝ) : Exp := .call "galsim.PositionD" [.kw "x" (.num p.1), .kw "y" (.num p.2)]

/-- `repr` of the concrete profiles: gaussian.py:102-107, exponential.py:87-92, box.py:51-57, 141-146, deltafunction.py:31-35,
moffat.py:227-237 (`trunc` is always `0.0`, moffat.py:140-143), spergel.py:376-382. -/
noncomputable def El.repr : El → Exp
  | .gaussian g =>
    .call "galsim.Gaussian" [.kw "sigma" (.num g.sigma), .kw "flux" (.num g.flux), .kw "gsparams" (gsRepr g.gs)]
  | .exponential e =>
    .call "galsim.Exponential" [.kw "scale_radius" (.num e.r0), .kw "flux" (.num e.flux), .kw "gsparams" (gsRepr e.gs)]
  | .box b =>
    .call "galsim.Box" [.kw "width" (.num b.width), .kw "height" (.num b.height), .kw "flux" (.num b.flux),
      .kw "gsparams" (gsRepr b.gs)]
  | .pixel s f g => .call "galsim.Pixel" [.kw "scale" (.num s), .kw "flux" (.num f), .kw "gsparams" (gsRepr g)]
  | .delta d => .call "galsim.DeltaFunction" [.kw "flux" (.num d.flux), .kw "gsparams" (gsRepr d.gs)]
  | .moffat m =>
    .call "galsim.Moffat" [.kw "beta" (.num m.beta), .kw "scale_radius" (.num m.r0), .kw "trunc" (.num 0),
      .kw "flux" (.num m.flux), .kw "gsparams" (gsRepr m.gs)]
  | .spergel s =>
    .call "galsim.Spergel" [.kw "nu" (.num s.nu), .kw "scale_radius" (.num s.r0), .kw "flux" (.num s.flux),
      .kw "gsparams" (gsRepr s.gs)]

mutual
/-- `repr` of profiles: the lines of `El.repr`, transform.py:185-196, sum.py:103-108, convolve.py:184-193, 423-428. -/
noncomputable def PObj.repr : PObj → Exp
  | .elem e => e.repr
  | .trans o J off r g p =>
    .call "galsim.Transformation" [o.repr, .kw "jac" (.seq [.num J.a, .num J.b, .num J.c, .num J.d]), .kw "offset" (posRepr off),
      .kw "flux_ratio" (.num r), .kw "gsparams" (gsRepr g), .kw "propagate_gsparams" (.bool p)]
  | .sum l g p =>
    .call "galsim.Sum" [.seq (PObj.reprList l), .kw "gsparams" (gsRepr g), .kw "propagate_gsparams" (.bool p)]
  | .conv l _ g p rs =>
    .call "galsim.Convolution" [.seq (PObj.reprList l), .kw "real_space" (.bool rs), .kw "gsparams" (gsRepr g),
      .kw "propagate_gsparams" (.bool p)]
  | .deconv o g p =>
    .call "galsim.Deconvolution" [o.repr, .kw "gsparams" (gsRepr g), .kw "propagate_gsparams" (.bool p)]
/-- `repr` of the entries of a list. -/
noncomputable def PObj.reprList : List PObj → List Exp
  | [] => []
  | o :: l => o.repr :: PObj.reprList l
end

/-- Values of expressions. -/
inductive Val
  | num (x : ℝ)
  | bool (b : Bool)
  | seq (l : List Val)
  | pos (p : ℝ × ℝ)
  | gsp (g : GSP)
  | obj (o : PObj)

/-- Python's binding of arguments to the parameters `names`: positional ones in order, keywords by name; too many arguments, an
unknown name or a parameter given twice raise `TypeError`. -/
def bindArgs : List String → List (Option String × Val) → Option (List (String × Val))
  | _, [] => some []
  | n :: ns, (none, v) :: l => (bindArgs ns l).map fun b => (n, v) :: b
  | [], (none, _) :: _ => none
  | ns, (some n, v) :: l => if n ∈ ns then (bindArgs (ns.erase n) l).map fun b => (n, v) :: b else none

/-- The positional arguments (`*args`) and the keyword arguments (`**kwargs`). -/
def posArgs : List (Option String × Val) → List Val
  | [] => []
  | (none, v) :: l => v :: posArgs l
  | (some _, _) :: l => posArgs l
def kwArgs : List (Option String × Val) → List (String × Val)
  | [] => []
  | (none, _) :: l => kwArgs l
  | (some n, v) :: l => (n, v) :: kwArgs l

/-- The arguments as values of the expected kinds. -/
def asObjs : List Val → Option (List PObj)
  | [] => some []
  | .obj o :: l => (asObjs l).map fun l' => o :: l'
  | _ :: _ => none
def asNums : List Val → Option (List ℝ)
  | [] => some []
  | .num x :: l => (asNums l).map fun l' => x :: l'
  | _ :: _ => none
def asNumKw : List (String × Val) → Option (List (String × ℝ))
  | [] => some []
  | (n, .num x) :: l => (asNumKw l).map fun l' => (n, x) :: l'
  | _ :: _ => none

/-- A keyword with a default: `some` value or default, `none` for a value of another kind. -/
def kwBool (kw : List (String × Val)) (n : String) (dflt : Bool) : Option Bool :=
  match kwGet kw n with
  | none => some dflt
  | some (.bool b) => some b
  | some _ => none
def kwReal (kw : List (String × Val)) (n : String) (dflt : ℝ) : Option ℝ :=
  match kwGet kw n with
  | none => some dflt
  | some (.num b) => some b
  | some _ => none
/-- `gsparams=None` or a `GSParams` (anything else: `TypeError`, gsparams.py:67-80). -/
def kwGS (kw : List (String × Val)) : Option (Option GSP) :=
  match kwGet kw "gsparams" with
  | none => some none
  | some (.gsp g) => some (some g)
  | some _ => none

/-- `*args` of `Sum` and `Convolution`: sum.py:29-41, convolve.py:42-54. -/
def starArgs : List Val → Option (List PObj)
  | [] => none
  | [.obj o] => some [o]
  | [.seq l] => asObjs l
  | [_] => none
  | l => asObjs l

/-- The fields in the order of the dataclass: gsparams.py:11-23. -/
def gsFields : List (String × GSField) :=
  [("minimum_fft_size", .minimum_fft_size), ("maximum_fft_size", .maximum_fft_size), ("folding_threshold", .folding_threshold),
    ("stepk_minimum_hlr", .stepk_minimum_hlr), ("maxk_threshold", .maxk_threshold), ("kvalue_accuracy", .kvalue_accuracy),
    ("xvalue_accuracy", .xvalue_accuracy), ("table_spacing", .table_spacing), ("realspace_relerr", .realspace_relerr),
    ("realspace_abserr", .realspace_abserr), ("integration_relerr", .integration_relerr),
    ("integration_abserr", .integration_abserr), ("shoot_accuracy", .shoot_accuracy)]

/-- The name of a field. -/
def gsName (f : GSField) : String := ((gsFields.find? fun p => p.2 = f).map Prod.fst).getD ""

/-- `GSParams(...)`: gsparams.py:9-23; `dflt` are the defaults of the fields. -/
def callGSParams (dflt : GSP) (args : List (Option String × Val)) : Option Val :=
  (bindArgs (gsFields.map Prod.fst) args).bind fun b => (asNumKw b).map fun kw =>
    .gsp fun f => (kwGet kw (gsName f)).getD (dflt f)

/-- `PositionD(...)`: position.py:21-58. -/
def callPosition (args : List (Option String × Val)) : Option Val :=
  match posArgs args, kwArgs args with
  | [.num x, .num y], [] => some (.pos (x, y))
  | [], [] => some (.pos (0, 0))
  | [.pos p], [] => some (.pos p)
  | [.seq [.num x, .num y]], [] => some (.pos (x, y))
  | [], kw =>
    if kwOk ["x", "y"] kw then
      match kwGet kw "x", kwGet kw "y" with
      | some (.num x), some (.num y) => some (.pos (x, y))
      | _, _ => none
    else none
  | _, _ => none

/-- A call of a concrete class: the constructors cited at `ElCls.names`, whose last parameter is `gsparams`. -/
noncomputable def callElem (dflt : GSP) (c : ElCls) (args : List (Option String × Val)) : Option Val :=
  (bindArgs (c.names ++ ["gsparams"]) args).bind fun b => (kwGS b).bind fun g =>
    (asNumKw (b.filter fun p => p.1 ≠ "gsparams")).bind fun kw => (El.init c kw (g.getD dflt)).map fun e => .obj (.elem e)

/-- `jac` as four numbers: transform.py:110-115, 66-67; one number is broadcast, other lengths raise. -/
noncomputable def jacOf (kw : List (String × Val)) : Option Mat2 :=
  match kwGet kw "jac" with
  | none => some .one
  | some (.num x) => some ⟨x, x, x, x⟩
  | some (.seq l) =>
    (asNums l).bind fun n =>
      match n with
      | [x] => some ⟨x, x, x, x⟩
      | [a, b, c, d] => some ⟨a, b, c, d⟩
      | _ => none
  | some _ => none

/-- `offset`: `PositionD(offset)` (transform.py:71). -/
def offsetOf (kw : List (String × Val)) : Option (ℝ × ℝ) :=
  match kwGet kw "offset" with
  | none => some (0, 0)
  | some (.pos p) => some p
  | some (.seq [.num x, .num y]) => some (x, y)
  | some _ => none

/-- `Transformation(...)`: transform.py:53-89. -/
noncomputable def callTrans (args : List (Option String × Val)) : Option Val :=
  (bindArgs ["obj", "jac", "offset", "flux_ratio", "gsparams", "propagate_gsparams"] args).bind fun b =>
    match kwGet b "obj" with
    | some (.obj o) =>
      (jacOf b).bind fun J => (offsetOf b).bind fun off => (kwReal b "flux_ratio" 1).bind fun r => (kwGS b).bind fun g =>
        (kwBool b "propagate_gsparams" true).bind fun p => (o.mkTrans J off r g p).map .obj
    | _ => none

/-- `Sum(...)`: sum.py:26-69. -/
noncomputable def callSum (args : List (Option String × Val)) : Option Val :=
  if kwOk ["gsparams", "propagate_gsparams"] (kwArgs args) then
    (starArgs (posArgs args)).bind fun l => (kwGS (kwArgs args)).bind fun g =>
      (kwBool (kwArgs args) "propagate_gsparams" true).bind fun p => (PObj.mkSum l g p).map .obj
  else none

/-- `real_space`: convolve.py:56, 87: `None` or a boolean. -/
def realSpaceOf (kw : List (String × Val)) : Option (Option Bool) :=
  match kwGet kw "real_space" with
  | none => some none
  | some (.bool b) => some (some b)
  | some _ => none

/-- `Convolution(...)`: convolve.py:40-140. -/
noncomputable def callConv (hard analytic : PObj → Bool) (args : List (Option String × Val)) : Option Val :=
  if kwOk ["real_space", "gsparams", "propagate_gsparams"] (kwArgs args) then
    (starArgs (posArgs args)).bind fun l => (realSpaceOf (kwArgs args)).bind fun rs => (kwGS (kwArgs args)).bind fun g =>
      (kwBool (kwArgs args) "propagate_gsparams" true).bind fun p => (PObj.mkConv hard analytic l g p rs).map .obj
  else none

/-- `Deconvolution(...)`: convolve.py:362-374. -/
noncomputable def callDeconv (args : List (Option String × Val)) : Option Val :=
  (bindArgs ["obj", "gsparams", "propagate_gsparams"] args).bind fun b =>
    match kwGet b "obj" with
    | some (.obj o) =>
      (kwGS b).bind fun g => (kwBool b "propagate_gsparams" true).bind fun p => (o.mkDeconv g p).map .obj
    | _ => none

/-- The concrete classes by name. -/
def elClass (f : String) : Option ElCls :=
  kwGet [("galsim.Gaussian", ElCls.gaussian), ("galsim.Exponential", .exponential), ("galsim.Box", .box), ("galsim.Pixel", .pixel),
    ("galsim.DeltaFunction", .delta), ("galsim.Moffat", .moffat), ("galsim.Spergel", .spergel)] f

/-- A call by name; an unknown name raises. -/
noncomputable def callFn (hard analytic : PObj → Bool) (dflt : GSP) (f : String) (args : List (Option String × Val)) : Option Val :=
  if f = "galsim.GSParams" then callGSParams dflt args
  else if f = "galsim.PositionD" then callPosition args
  else if f = "galsim.Transformation" then callTrans args
  else if f = "galsim.Sum" then callSum args
  else if f = "galsim.Convolution" then callConv hard analytic args
  else if f = "galsim.Deconvolution" then callDeconv args
  else (elClass f).bind fun c => callElem dflt c args

mutual
/-- `eval` with the names of the package; `dflt` is `GSParams.default` (gsparams.py:160). -/
noncomputable def Exp.eval (hard analytic : PObj → Bool) (dflt : GSP) : Exp → Option Val
  | .num x => some (.num x)
  | .bool b => some (.bool b)
  | .seq l => (Exp.evalSeq hard analytic dflt l).map .seq
  | .kw _ _ => none
  | .call f args => (Exp.evalArgs hard analytic dflt args).bind (callFn hard analytic dflt f)
/-- The entries of a list. -/
noncomputable def Exp.evalSeq (hard analytic : PObj → Bool) (dflt : GSP) : List Exp → Option (List Val)
  | [] => some []
  | e :: l => (Exp.eval hard analytic dflt e).bind fun v => (Exp.evalSeq hard analytic dflt l).map fun l' => v :: l'
/-- The arguments of a call. -/
noncomputable def Exp.evalArgs (hard analytic : PObj → Bool) (dflt : GSP) : List Exp → Option (List (Option String × Val))
  | [] => some []
  | .kw n e :: l =>
    (Exp.eval hard analytic dflt e).bind fun v => (Exp.evalArgs hard analytic dflt l).map fun l' => (some n, v) :: l'
  | e :: l => (Exp.eval hard analytic dflt e).bind fun v => (Exp.evalArgs hard analytic dflt l).map fun l' => (none, v) :: l'
end

end JG.Tree
