import Mathlib.Algebra.Order.Archimedean.Real.Basic

/-! Model of `bisect_for_root`, `/repo/jax_galsim/core/utils.py:165-199`. -/

namespace JG

/-- Loop state `(low, flow, high, fhigh)`, core/utils.py:168. -/
structure BisState where
  low : ℝ
  flow : ℝ
  high : ℝ
  fhigh : ℝ

/-- One iteration: core/utils.py:167-194. -/
noncomputable def bisStep (f : ℝ → ℝ) (s : BisState) : BisState :=
  let mid := (s.low + s.high) / 2
  let fmid := f mid
  if fmid * s.fhigh < 0 then ⟨mid, fmid, s.high, s.fhigh⟩ else ⟨s.low, s.flow, mid, fmid⟩

/-- The state after `n` iterations of `fori_loop`. -/
noncomputable def bisRun (f : ℝ → ℝ) (low high : ℝ) : ℕ → BisState
  | 0 => ⟨low, f low, high, f high⟩
  | n + 1 => bisStep f (bisRun f low high n)

/-- `bisect_for_root(func, low, high, niter)`: returns entry `-2` of the tuple, i.e. `high`
(core/utils.py:196-199). -/
noncomputable def bisectForRoot (f : ℝ → ℝ) (low high : ℝ) (niter : ℕ) : ℝ := (bisRun f low high niter).high

end JG
