import Verif.Model.Photon

/-!
Model of `GSObject.applyTo`, a profile used as a photon operator: `/repo/jax_galsim/gsobject.py`, lines 1345-1374.
-/

namespace JG
variable {N : ℕ}

/-- The array `p1` before shooting: gsobject.py:1348-1371.  `PhotonArray(len(photon_array))` keeps all its photons, also with a
fixed array size, which is then the length of both arrays.  The angles are not copied. -/
def PhotonArray.template (p : PhotonArray N) : PhotonArray N where
  ph i :=
    { x := 0, y := 0, flux := 0, nokeep := false, dxdz := none, dydz := none
      wave := if p.hasWave then (p.ph i).wave else none
      pupU := if p.hasPupil then (p.ph i).pupU else none
      pupV := if p.hasPupil then (p.ph i).pupV else none
      time := if p.hasTime then (p.ph i).time else none }
  isCorr := false

/-- `applyTo(photon_array, local_wcs, rng)`: gsobject.py:1372-1374.  `O` is the type of profiles, `shoot` their `_shoot`, `toImage`
the `local_wcs.toImage` of a given wcs and `rs` the random permutation of `convolve`. -/
noncomputable def applyProfile {O : Type} (shoot : O → PhotonArray N → PhotonArray N) (obj : O) (toImage : Option (O → O))
    (p : PhotonArray N) (rs : Equiv.Perm (Fin N)) : PhotonArray N :=
  let obj := match toImage with
    | some f => f obj
    | none => obj
  (p.convolve (shoot obj p.template) rs).1

/-- `PhotonArray(n)`, as `shoot` and the `_shoot` of a convolution make it: gsobject.py:1330, convolve.py:311. -/
def PhotonArray.fresh : PhotonArray N := ⟨fun _ => ⟨0, 0, 0, false, none, none, none, none, none, none⟩, false⟩

/-- What the `_shoot` methods do to a photon array, with the numbers that were drawn.
* `leaf`: the elementary profiles and the interpolants set the positions and the fluxes (gaussian.py:151-157, box.py:119-126,
  exponential.py:153-172, moffat.py:413-432, spergel.py:514-522, deltafunction.py:69-73, interpolant.py:241-265, 314-319, 359-364,
  490-500), and so does an interpolated image before the convolution with its kernel (interpolatedimage.py:876-925).
* `trans`: transform.py:395-400.
* `conv s t rs`: one turn of the loop of convolve.py:305-313, or the end of interpolatedimage.py:876-935: `s` on the array, then the
  convolution with the photons of `t`.
* `skip` and `assign s cat c t fac`: the start and one turn of the loop of sum.py:223-240, after the turns `s`. -/
inductive Shooter (N : ℕ)
  | leaf (x y flux : Fin N → ℝ)
  | trans (s : Shooter N) (a b c d dx dy ratio : ℝ)
  | conv (s t : Shooter N) (rs : Equiv.Perm (Fin N))
  | skip
  | assign (s : Shooter N) (cat : Fin N → ℕ) (c : ℕ) (t : Shooter N) (fac : ℝ)

/-- `_shoot(photons, rng)`: see `Shooter`. -/
noncomputable def Shooter.shoot : Shooter N → PhotonArray N → PhotonArray N
  | .leaf x y f, p =>
    let p : PhotonArray N := { p with ph := fun i => { p.ph i with x := x i, y := y i } }
    p.setFlux f
  | .trans s a b c d dx dy ratio, p =>
    let q := s.shoot p
    let q : PhotonArray N := { q with ph := fun i =>
      { q.ph i with x := a * (q.ph i).x + b * (q.ph i).y + dx, y := c * (q.ph i).x + d * (q.ph i).y + dy } }
    q.scaleFlux ratio
  | .conv s t rs, p => ((s.shoot p).convolve (t.shoot .fresh) rs).1
  | .skip, p => p
  | .assign s cat c t fac, p => (s.shoot p).assignCat cat c ((t.shoot .fresh).scaleFlux fac)

/-- The whole loop of sum.py:223-240 over the components and their `_scale_fac`, from component `c` on, after the turns `s`. -/
def Shooter.sum (cat : Fin N → ℕ) : List (Shooter N × ℝ) → ℕ → Shooter N → Shooter N
  | [], _, s => s
  | (t, fac) :: l, c, s => Shooter.sum cat l (c + 1) (.assign s cat c t fac)

end JG
