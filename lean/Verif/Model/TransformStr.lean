import Verif.Model.WCS

/-!
Model of `str(obj)` for a `Transformation`: `/repo/jax_galsim/transform.py:198-246`.

The text is represented by its parts, the numbers in it are exact: `%s` of a number prints all of its digits.
-/

namespace JG

/-- The texts of `_str_from_jac`: `""`, `.rotate(..)`, `.shear(..)`, `.expand(..)` and `.transform(..)`:
transform.py:198-231.  The two ways of printing `.transform` (`%s`, `%r`) are not told apart. -/
inductive JacStr
  | empty
  | rotate (theta : ℝ)
  | shear (s : Shear)
  | expand (c : ℝ)
  | transform (J : Mat2)

/-- The local variable `s`: `None`, the special value 0 or a text: transform.py:207-225. -/
inductive StrVar
  | none
  | zero
  | text (t : JacStr)

/-- `if cond: if s is None: s = text else: s = 0`: transform.py:210-224. -/
noncomputable def StrVar.put (cond : Prop) [Decidable cond] (t : JacStr) : StrVar → StrVar
  | .none => if cond then .text t else .none
  | s => if cond then .zero else s

/-- The text in the variable at the end: transform.py:225-231. -/
def StrVar.final (J : Mat2) : StrVar → JacStr
  | .none => .transform J
  | .zero => .transform J
  | .text t => t

/-- `_str_from_jac(jac)`: transform.py:198-233; `none` if the shear of the decomposition is refused. -/
noncomputable def strFromJac (J : Mat2) : Option JacStr :=
  if J.a ≠ 1 ∨ J.b ≠ 0 ∨ J.c ≠ 0 ∨ J.d ≠ 1 then
    (LocalWCS.decomposition J).shear.map fun sh =>
      let d := LocalWCS.decomposition J
      let s0 := if d.flip then StrVar.zero else StrVar.none
      let s1 := s0.put (|d.theta| > 1 / 10 ^ 12) (.rotate d.theta)
      let s2 := s1.put (sh.absg > 1 / 10 ^ 12) (.shear sh)
      let s3 := s2.put (|d.scale - 1| > 1 / 10 ^ 12) (.expand d.scale)
      s3.final J
  else some .empty

/-- The parts of the text of a transformation; the text of the original object stands for the object itself. -/
structure TransStr where
  original : Prof
  jac : JacStr
  shift : Option (ℝ × ℝ)
  times : Option ℝ

open Classical in
/-- `Transformation.__str__`: transform.py:235-246. -/
noncomputable def transStr (o : Prof) (J : Mat2) (off : ℝ × ℝ) (r : ℝ) : Option TransStr :=
  (strFromJac J).map fun j =>
    ⟨o, j, if off.1 ≠ 0 ∨ off.2 ≠ 0 then some off else none, if r ≠ 1 then some r else none⟩

end JG
