import Verif.Model.Draw

/-! Model of `calculate_mean_n_photons`: `/repo/jax_galsim/core/draw.py:110-137`. -/

namespace JG

/-- `calculate_mean_n_photons(flux, flux_per_photon, max_sb)`: draw.py:128-137.  `_sample_zero` is called directly, with
`poisson_flux=False` and `max_extra_noise=0`; no random number is drawn. -/
noncomputable def meanNPhotons (flux eta : ℝ) (maxSb : Option ℝ) : ℤ :=
  (if flux = 0 then ((0 : ℤ), some (1 : ℝ)) else nPhotonsNonzero ⟨flux, eta, maxSb, 0, 0, false⟩ 0).1

end JG
