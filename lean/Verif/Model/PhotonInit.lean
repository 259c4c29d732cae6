import Verif.Model.Photon

/-!
Construction, identity and text of photon arrays and the context manager `fixed_photon_array_size`:
`/repo/jax_galsim/photon_array.py:28-37, 78-226, 815-862`.

Simplifications: array arguments have the full length of the new array (python also broadcasts scalars); the text of `__repr__` is
the record of the arguments that it prints, and the decimal form of a float is taken to be read back exactly; `equinox.error_if` is
modelled as it acts outside of `jax.jit`, where it raises.
-/

namespace JG

variable {N M : ℕ}

/-- The array arguments of the constructor, `none` where the argument is `None`. -/
structure PhotArgs (N : ℕ) where
  x : Option (Fin N → ℝ) := none
  y : Option (Fin N → ℝ) := none
  flux : Option (Fin N → ℝ) := none
  dxdz : Option (Fin N → Option ℝ) := none
  dydz : Option (Fin N → Option ℝ) := none
  wave : Option (Fin N → Option ℝ) := none
  pupU : Option (Fin N → Option ℝ) := none
  pupV : Option (Fin N → Option ℝ) := none
  time : Option (Fin N → Option ℝ) := none
  nokeep : Option (Fin N → Bool) := none

/-- `if value is not None: self.attr = value`. -/
def PhotonArray.setIf {α : Type} (p : PhotonArray N) (set : PhotonArray N → α → PhotonArray N) : Option α → PhotonArray N
  | none => p
  | some v => set p v

/-- The setters of `x` and `y`: photon_array.py:291-293, 303-305. -/
def PhotonArray.setX (p : PhotonArray N) (v : Fin N → ℝ) : PhotonArray N := { p with ph := fun i => { p.ph i with x := v i } }
@[inherit_doc PhotonArray.setX]
def PhotonArray.setY (p : PhotonArray N) (v : Fin N → ℝ) : PhotonArray N := { p with ph := fun i => { p.ph i with y := v i } }

/-- The body of `__init__` for the total size `N` and `n` photons: photon_array.py:102-141. -/
noncomputable def PhotonArray.initWith (n : ℕ) (a : PhotArgs N) : PhotonArray N :=
  let nk : Fin N → Bool := match a.nokeep with
    | some v => v
    | none => fun i => decide ((i : ℕ) ≥ n)
  let p : PhotonArray N := ⟨fun i => ⟨0, 0, 0, nk i, none, none, none, none, none, none⟩, false⟩
  let p := p.setIf PhotonArray.setX a.x
  let p := p.setIf PhotonArray.setY a.y
  let p := p.setIf PhotonArray.setFlux a.flux
  let p := p.setIf PhotonArray.setDxdz a.dxdz
  let p := p.setIf PhotonArray.setDydz a.dydz
  let p := p.setIf PhotonArray.setWave a.wave
  let p := p.setIf PhotonArray.setPupU a.pupU
  let p := p.setIf PhotonArray.setPupV a.pupV
  p.setIf PhotonArray.setTime a.time

/-- `PhotonArray(n, ...)` under the global `size`: photon_array.py:91-141. -/
noncomputable def PhotonArray.init (size : Option ℕ) (n : ℕ) (a : PhotArgs (photNtot size n)) :
    Option (PhotonArray (photNtot size n)) :=
  if photFits size n then some (.initWith n a) else none

/-- The arrays given to `fromArrays`. -/
structure PhotCols (n : ℕ) where
  x : Fin n → ℝ
  y : Fin n → ℝ
  flux : Fin n → ℝ
  dxdz : Option (Fin n → Option ℝ) := none
  dydz : Option (Fin n → Option ℝ) := none
  wave : Option (Fin n → Option ℝ) := none
  pupU : Option (Fin n → Option ℝ) := none
  pupV : Option (Fin n → Option ℝ) := none
  time : Option (Fin n → Option ℝ) := none

/-- `fromArrays` and `_fromArrays` under the global `size`: photon_array.py:143-226; `none`: `GalSimValueError`.  Without an error
`_Ntot` is `x.shape[0]` (line 192). -/
def PhotonArray.fromArrays {n : ℕ} (size : Option ℕ) (c : PhotCols n) (isCorr : Bool) : Option (PhotonArray n) :=
  if (match size with | some s => decide (n ≠ s) | none => false) = true then none
  else some ⟨fun i => ⟨c.x i, c.y i, c.flux i, decide ((i : ℕ) ≥ n), (c.dxdz.getD fun _ => none) i, (c.dydz.getD fun _ => none) i,
    (c.wave.getD fun _ => none) i, (c.pupU.getD fun _ => none) i, (c.pupV.getD fun _ => none) i, (c.time.getD fun _ => none) i⟩, isCorr⟩

/-- `jnp.array_equal(self.flux, other.flux)`: NaN entries are different from everything. -/
noncomputable def PhotonArray.fluxEq (p q : PhotonArray N) : Prop :=
  match p.flux, q.flux with
  | some f, some g => f = g
  | _, _ => False

/-- `self == other` for two different objects: photon_array.py:849-862; arrays of different shape are not equal. -/
noncomputable def PhotonArray.eq (p : PhotonArray N) (q : PhotonArray M) : Prop :=
  ∃ h : N = M,
    let q' : PhotonArray N := ⟨fun i => q.ph (i.cast h), q.isCorr⟩
    (∀ i, (p.ph i).x = (q'.ph i).x) ∧ (∀ i, (p.ph i).y = (q'.ph i).y) ∧ p.fluxEq q' ∧
    (∀ i, (p.ph i).nokeep = (q'.ph i).nokeep) ∧ (∀ i, (p.ph i).dxdz = (q'.ph i).dxdz) ∧ (∀ i, (p.ph i).dydz = (q'.ph i).dydz) ∧
    (∀ i, (p.ph i).wave = (q'.ph i).wave) ∧ (∀ i, (p.ph i).pupU = (q'.ph i).pupU) ∧ (∀ i, (p.ph i).pupV = (q'.ph i).pupV) ∧
    ∀ i, (p.ph i).time = (q'.ph i).time

/-- `repr(self)`, the arguments printed: photon_array.py:815-842; `none`: NaN fluxes are printed, which `eval` does not know. -/
noncomputable def PhotonArray.repr (p : PhotonArray N) : Option (ℕ × PhotArgs N) :=
  p.flux.map fun f => (N,
    { x := some fun i => (p.ph i).x
      y := some fun i => (p.ph i).y
      flux := some f
      dxdz := if p.hasAngles then some fun i => (p.ph i).dxdz else none
      dydz := if p.hasAngles then some fun i => (p.ph i).dydz else none
      wave := if p.hasWave then some fun i => (p.ph i).wave else none
      pupU := if p.hasPupil then some fun i => (p.ph i).pupU else none
      pupV := if p.hasPupil then some fun i => (p.ph i).pupV else none
      time := if p.hasTime then some fun i => (p.ph i).time else none
      nokeep := some fun i => (p.ph i).nokeep })

/-! ### `fixed_photon_array_size` -/

/-- Programs that make photon arrays inside and outside of the context manager. -/
inductive PProg
  | skip
  /-- `PhotonArray(n)` -/
  | new (n : ℕ)
  /-- `PhotonArray.fromArrays` with arrays of length `n` -/
  | fromArr (n : ℕ)
  /-- `raise` -/
  | fail
  | seq (p q : PProg)
  /-- `with fixed_photon_array_size(size): p` -/
  | fixed (size : Option ℕ) (p : PProg)
  /-- `try: p` `except: q` -/
  | catch (p q : PProg)

/-- The state after a program: the arrays made (total size and number of kept photons), the global
`_JAX_GALSIM_PHOTON_ARRAY_SIZE`, and whether no exception is on its way. -/
structure PState where
  made : List (ℕ × ℕ)
  size : Option ℕ
  ok : Bool

/-- The program run from a global state: the context manager of photon_array.py:28-37 sets the global and sets it back in
`finally`. -/
def PProg.run : PProg → Option ℕ → PState
  | .skip, g => ⟨[], g, true⟩
  | .new n, g => if photFits g n then ⟨[(photNtot g n, (PhotonArray.blank g n).numKeep)], g, true⟩ else ⟨[], g, false⟩
  | .fromArr n, g =>
    match PhotonArray.fromArrays g (⟨fun _ => 0, fun _ => 0, fun _ => 0, none, none, none, none, none, none⟩ : PhotCols n) false with
    | some p => ⟨[(n, p.numKeep)], g, true⟩
    | none => ⟨[], g, false⟩
  | .fail, g => ⟨[], g, false⟩
  | .seq p q, g =>
    let s := p.run g
    if s.ok then
      let t := q.run s.size
      ⟨s.made ++ t.made, t.size, t.ok⟩
    else s
  | .fixed size p, g =>
    let old := g
    let s := p.run size
    ⟨s.made, old, s.ok⟩
  | .catch p q, g =>
    let s := p.run g
    if s.ok then s
    else
      let t := q.run s.size
      ⟨s.made ++ t.made, t.size, t.ok⟩

end JG
