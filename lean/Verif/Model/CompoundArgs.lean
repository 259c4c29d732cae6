import Mathlib.Data.List.Basic

/-!
Model of the arguments of `Sum(...)` (sum.py:26-69; `Add` is the same class), `Convolution(...)`
(convolve.py:40-139) and `Convolve(...)` (convolve.py:16-31): the forms in which objects are given and
the exceptions.  Warnings are left out.
-/

namespace JG.Compound

/-- A positional argument: an object, a list or tuple, or anything else. -/
inductive Arg (α : Type) where
  | obj (a : α)
  | seq (l : List (Arg α))
  | other

/-- The exceptions. -/
inductive Err where
  | typeError | indexError | notImplemented
  deriving DecidableEq

/-- The list of objects out of the positional arguments: sum.py:29-41, convolve.py:42-53, 17-29. -/
def components {α : Type} : List (Arg α) → Except Err (List (Arg α))
  | [] => .error .typeError
  | [.obj a] => .ok [.obj a]
  | [.seq l] => .ok l
  | [.other] => .error .typeError
  | l => .ok l

/-- The loop `if not isinstance(obj, GSObject): raise TypeError`: sum.py:52-54, convolve.py:70-74. -/
def objects {α : Type} : List (Arg α) → Except Err (List α)
  | [] => .ok []
  | .obj a :: rest =>
    match objects rest with
    | .error e => .error e
    | .ok l => .ok (a :: l)
  | _ :: _ => .error .typeError

/-- `Sum.__init__`: sum.py:26-69, the list of objects kept.  `parts` is the `obj_list` of a sum and
the object itself otherwise (sum.py:44-50); `gs` says that `gsparams` are given, otherwise
`GSParams.combine` raises `IndexError` on an empty list.  Simplification: the check of the types comes
before sums are expanded, which gives the same exception. -/
def sumInit {α : Type} (parts : α → List α) (gs : Bool) (args : List (Arg α)) : Except Err (List α) :=
  match components args with
  | .error e => .error e
  | .ok l =>
    match objects l with
    | .error e => .error e
    | .ok objs =>
      if !gs && (objs.flatMap parts).isEmpty then .error .indexError else .ok (objs.flatMap parts)

/-- Whether the convolution is to be done in real space: convolve.py:68-116.  `realSpace` is the
keyword, `none` for `None`. -/
def realSpaceOf {α : Type} (hard analytic : α → Bool) (realSpace : Option Bool) (l : List α) : Bool :=
  let hardEdge := l.all hard
  let rs := match realSpace with
    | none => if l.length ≤ 2 then hardEdge else false
    | some b => b
  if rs then (if l.length > 2 then false else l.all analytic) else false

/-- `Convolution.__init__`: convolve.py:40-139.  `extra` says that an unknown keyword is given.
Simplification: `real_space` is `None` or a boolean. -/
def convInit {α : Type} (hard analytic : α → Bool) (realSpace : Option Bool) (gs extra : Bool)
    (args : List (Arg α)) : Except Err (List α) :=
  match components args with
  | .error e => .error e
  | .ok l =>
    if extra then .error .typeError
    else match objects l with
      | .error e => .error e
      | .ok objs =>
        if realSpaceOf hard analytic realSpace objs then .error .notImplemented
        else if !gs && objs.isEmpty then .error .indexError
        else .ok objs

/-- `Convolve(*args, **kwargs)`: convolve.py:16-31. -/
def convolve {α : Type} (hard analytic : α → Bool) (realSpace : Option Bool) (gs extra : Bool)
    (args : List (Arg α)) : Except Err (List α) :=
  match components args with
  | .error e => .error e
  | .ok l => convInit hard analytic realSpace gs extra l

end JG.Compound
