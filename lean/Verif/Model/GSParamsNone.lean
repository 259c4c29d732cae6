import Verif.Model.GSParams

/-!
Model of `GSParams.combine` with `None` entries and of `GSParams.check` with arguments of any type
(gsparams.py:66-115), which `Verif/Model/GSParams.lean` leaves out.
-/

namespace JG

open Classical in
/-- `GSParams.combine(gsp_list)`, gsparams.py:94-115, where entries may be `None`.  The outer `none` is
an exception (`IndexError` of `gsp_list[0]` on the empty list; `max` of an empty list), the inner one
the value `None`. -/
noncomputable def GSP.combineN : List (Option GSP) → Option (Option GSP)
  | [] => none
  | [g] => some g
  | g :: rest =>
    if ∀ h ∈ rest, h = g then some g
    else match (g :: rest).filterMap id with
      | [] => none
      | a :: l => some (some fun f => f.reduce (a f) (l.map fun h => h f))

/-- An argument of `check`: `None`, a `GSParams`, or an object of another type. -/
inductive GSArg where
  | none
  | gsp (g : GSP)
  | other

/-- `GSParams.check(gsparams, default, **kwargs)`: gsparams.py:66-79; `none`: `TypeError`. -/
def GSP.checkArg (classDefault : GSP) (gsparams default : GSArg) (kw : List (String × ℝ)) :
    Option GSP :=
  match gsparams with
  | .none =>
    match default with
    | .none => classDefault.withParams kw
    | .gsp d => d.withParams kw
    | .other => none
  | .gsp g => g.withParams kw
  | .other => none

end JG
