import Mathlib.Algebra.Order.Archimedean.Real.Basic

/-!
Model of `/repo/jax_galsim/gsparams.py`.  A `GSParams` is the function from its thirteen fields to
their values; integer fields are embedded in `ℝ` (simplification).
-/

namespace JG

/-- The fields, gsparams.py:11-23. -/
inductive GSField
  | minimum_fft_size | maximum_fft_size | folding_threshold | stepk_minimum_hlr | maxk_threshold
  | kvalue_accuracy | xvalue_accuracy | table_spacing | realspace_relerr | realspace_abserr
  | integration_relerr | integration_abserr | shoot_accuracy
  deriving DecidableEq

/-- A `GSParams` value; `__eq__` compares all fields (gsparams.py:148-151). -/
abbrev GSP := GSField → ℝ

/-- The name of a field as used for keyword arguments. -/
def GSField.name : GSField → String
  | .minimum_fft_size => "minimum_fft_size"
  | .maximum_fft_size => "maximum_fft_size"
  | .folding_threshold => "folding_threshold"
  | .stepk_minimum_hlr => "stepk_minimum_hlr"
  | .maxk_threshold => "maxk_threshold"
  | .kvalue_accuracy => "kvalue_accuracy"
  | .xvalue_accuracy => "xvalue_accuracy"
  | .table_spacing => "table_spacing"
  | .realspace_relerr => "realspace_relerr"
  | .realspace_abserr => "realspace_abserr"
  | .integration_relerr => "integration_relerr"
  | .integration_abserr => "integration_abserr"
  | .shoot_accuracy => "shoot_accuracy"

/-- All fields in constructor order. -/
def GSField.all : List GSField :=
  [.minimum_fft_size, .maximum_fft_size, .folding_threshold, .stepk_minimum_hlr, .maxk_threshold,
    .kvalue_accuracy, .xvalue_accuracy, .table_spacing, .realspace_relerr, .realspace_abserr,
    .integration_relerr, .integration_abserr, .shoot_accuracy]

/-- python `max` of a non-empty list. -/
noncomputable def pyMax : ℝ → List ℝ → ℝ := fun a l => l.foldl max a
/-- python `min` of a non-empty list. -/
noncomputable def pyMin : ℝ → List ℝ → ℝ := fun a l => l.foldl min a

/-- Which reduction `combine` uses for each field: gsparams.py:104-118. -/
noncomputable def GSField.reduce : GSField → ℝ → List ℝ → ℝ
  | .minimum_fft_size => pyMax
  | .maximum_fft_size => pyMax
  | .folding_threshold => pyMin
  | .stepk_minimum_hlr => pyMax
  | .maxk_threshold => pyMin
  | .kvalue_accuracy => pyMin
  | .xvalue_accuracy => pyMin
  | .table_spacing => pyMin
  | .realspace_relerr => pyMin
  | .realspace_abserr => pyMin
  | .integration_relerr => pyMin
  | .integration_abserr => pyMin
  | .shoot_accuracy => pyMin

open Classical in
/-- `GSParams.combine(gsp_list)`: gsparams.py:95-118.  `none`: `IndexError` on the empty list.
Simplification: no `None` entries (every caller passes the `gsparams` of objects). -/
noncomputable def GSP.combine : List GSP → Option GSP
  | [] => none
  | [g] => some g
  | g :: rest =>
    if ∀ h ∈ rest, h = g then some g
    else some fun f => f.reduce (g f) (rest.map (fun h => h f))

/-- `withParams(**kwargs)`: gsparams.py:82-93; `none`: `TypeError` for an unknown name.  Keywords are
a list of (name, value). -/
def GSP.withParams (g : GSP) : List (String × ℝ) → Option GSP
  | [] => some g
  | (k, v) :: rest =>
    match GSField.all.find? (fun f => f.name = k) with
    | none => none
    | some f => GSP.withParams (fun f' => if f' = f then v else g f') rest

/-- `GSParams.check(gsparams, default, **kwargs)`: gsparams.py:67-80, for well typed arguments. -/
def GSP.check (classDefault : GSP) (g : Option GSP) (default : Option GSP) (kw : List (String × ℝ)) :
    Option GSP :=
  (match g with
    | none => (match default with
      | some d => d
      | none => classDefault)
    | some g => g).withParams kw

end JG
