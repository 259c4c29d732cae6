import Mathlib.Data.EReal.Basic
import Mathlib.Data.EReal.Operations

/-!
# Model of `jax_galsim/integ.py`

The adaptive Gauss-Kronrod routine `quadax.quadgk` is a third-party program.  It is a parameter of
the model; what is assumed about it is written down in `Verif/Props/Integ.lean`.
-/

namespace JG.Integ

/-- What `quadgk` returns: the value, and `info.status`, a bit mask which is zero on success
(/repo/jax_galsim/integ.py:60-68). -/
structure QuadOut where
  val : ℝ
  status : ℕ

/-- The call `quadgk(f, [a, b], epsabs, epsrel)` (/repo/jax_galsim/integ.py:60, 61, 66).  The ends
may be infinite, as the floats are. -/
abbrev Quad := (ℝ → ℝ) → EReal → EReal → ℝ → ℝ → QuadOut

/-- `_min`, `_max`: an end whose absolute value is above the cutoff is replaced by the infinity of
its sign (/repo/jax_galsim/integ.py:47-56).  Simplification: floats are extended reals without
`nan`, and the cutoff is not negative, so that `sign(min) * inf` is never `0 * inf`. -/
noncomputable def limit (cut : ℝ) (a : EReal) : EReal :=
  if (cut : EReal) < a then ⊤ else if a < ((-cut : ℝ) : EReal) then ⊥ else a

/-- `_split_inf_integration` (/repo/jax_galsim/integ.py:58-63). -/
noncomputable def splitInt (q : Quad) (f : ℝ → ℝ) (a b : EReal) (absErr relErr : ℝ) : QuadOut :=
  let r1 := q f a 0 absErr relErr
  let r2 := q f 0 b absErr relErr
  ⟨r1.val + r2.val, r1.status ||| r2.status⟩

/-- `jnp.isinf` (/repo/jax_galsim/integ.py:71). -/
def isInf (a : EReal) : Prop := a = ⊤ ∨ a = ⊥

open Classical in
/-- The choice between splitting at zero and one call (/repo/jax_galsim/integ.py:65-74). -/
noncomputable def rawInt (q : Quad) (f : ℝ → ℝ) (a b : EReal) (absErr relErr : ℝ) : QuadOut :=
  if isInf a ∧ isInf b then splitInt q f a b absErr relErr else q f a b absErr relErr

/-- `int1d(func, min, max, rel_err, abs_err, _inf_cutoff)`
(/repo/jax_galsim/integ.py:27-80).  `none` is the exception raised by `equinox.error_if`.
Not modelled: wrapping a python function as a callback, and `jit`. -/
noncomputable def int1d (q : Quad) (f : ℝ → ℝ) (a b : EReal) (relErr absErr cut : ℝ) : Option ℝ :=
  let r := rawInt q f (limit cut a) (limit cut b) absErr relErr
  if r.status ≠ 0 then none else some r.val

/-- The defaults `rel_err=1e-6`, `abs_err=1e-12`, `_inf_cutoff=1e4`
(/repo/jax_galsim/integ.py:31-34). -/
noncomputable def int1dDefault (q : Quad) (f : ℝ → ℝ) (a b : EReal) : Option ℝ :=
  int1d q f a b 1e-6 1e-12 1e4

end JG.Integ
