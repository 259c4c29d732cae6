import Verif.Model.Image
import Mathlib.Data.Fin.Tuple.Sort
import Mathlib.Data.Bool.Basic
import Mathlib.Algebra.Order.Archimedean.Real.Basic

/-!
Model of `/repo/jax_galsim/photon_array.py`.

A photon array of total size `N` is a function from `Fin N` to photon records plus the flag `_is_corr`.
Fluxes and positions are exact reals.  An optional attribute (angles, wavelength, pupil, time) is `none`
where the array holds NaN; infinities are not modelled.  `jnp.argsort` (stable) is Mathlib's `Tuple.sort`.
Methods that mutate `self` return the new state.
-/

namespace JG

/-- One photon: entry `i` of the arrays `_x, _y, _flux, _nokeep, _dxdz, _dydz, _wave, _pupil_u, _pupil_v,
_time` (photon_array.py:107-122).  `flux` is the raw array `_flux`, not the `flux` property. -/
@[ext] structure Phot where
  x : ℝ
  y : ℝ
  flux : ℝ
  nokeep : Bool
  dxdz : Option ℝ
  dydz : Option ℝ
  wave : Option ℝ
  pupU : Option ℝ
  pupV : Option ℝ
  time : Option ℝ

@[ext] structure PhotonArray (N : ℕ) where
  ph : Fin N → Phot
  isCorr : Bool

/-- `self._Ntot = _JAX_GALSIM_PHOTON_ARRAY_SIZE or N`: photon_array.py:91-92 (size `0` is falsy). -/
def photNtot (size : Option ℕ) (n : ℕ) : ℕ :=
  match size with
  | none => n
  | some s => if s = 0 then n else s

/-- The `error_if` of photon_array.py:94-100. -/
def photFits (size : Option ℕ) (n : ℕ) : Bool :=
  match size with
  | none => true
  | some s => !decide (n > s)

/-- The constructor without optional arrays: photon_array.py:91-122. -/
def PhotonArray.blank (size : Option ℕ) (n : ℕ) : PhotonArray (photNtot size n) where
  ph i := ⟨0, 0, 0, decide ((i : ℕ) ≥ n), none, none, none, none, none, none⟩
  isCorr := false

variable {N M : ℕ}

/-- `_num_keep` getter: photon_array.py:269-273. -/
def PhotonArray.numKeep (p : PhotonArray N) : ℕ := (Finset.univ.filter fun i => (p.ph i).nokeep = false).card

/-- `jnp.argsort(self._nokeep)`. -/
def PhotonArray.argsort (p : PhotonArray N) : Equiv.Perm (Fin N) := Tuple.sort fun i => (p.ph i).nokeep

/-- `_sort_by_nokeep(sinds)`: gather every array; photon_array.py:503-518. -/
def PhotonArray.gather (p : PhotonArray N) (σ : Equiv.Perm (Fin N)) : PhotonArray N :=
  { p with ph := fun i => p.ph (σ i) }

/-- `_set_self_at_inds(sinds)`: `a.at[sinds].set(a)` for every array; photon_array.py:520-531. -/
def PhotonArray.scatter (p : PhotonArray N) (σ : Equiv.Perm (Fin N)) : PhotonArray N :=
  { p with ph := fun i => p.ph (σ.symm i) }

/-- `_num_keep` setter: photon_array.py:275-281. -/
def PhotonArray.setNumKeep (p : PhotonArray N) (n : ℕ) : PhotonArray N :=
  let q := p.gather p.argsort
  let r : PhotonArray N := { q with ph := fun i => { q.ph i with nokeep := decide ((i : ℕ) ≥ n) } }
  r.scatter p.argsort

/-- `jnp.where(self._nokeep, 0.0, self._flux)`. -/
def PhotonArray.masked (p : PhotonArray N) (i : Fin N) : ℝ := if (p.ph i).nokeep then 0 else (p.ph i).flux

/-- `self._Ntot / self._num_keep`.  For `num_keep = 0` python gives `inf`; every use below either tests
for it or appears in theorems only under `0 < numKeep`. -/
noncomputable def PhotonArray.ratio (p : PhotonArray N) : ℝ := (N : ℝ) / p.numKeep

/-- `flux` getter: photon_array.py:311-322.  `none`: every entry is NaN (`0.0 * inf`). -/
noncomputable def PhotonArray.flux (p : PhotonArray N) : Option (Fin N → ℝ) :=
  if N = p.numKeep then some p.masked
  else if p.numKeep = 0 then none
  else some fun i => p.masked i * p.ratio

/-- `flux` setter: photon_array.py:324-333 (`value / inf = 0`). -/
noncomputable def PhotonArray.setFlux (p : PhotonArray N) (v : Fin N → ℝ) : PhotonArray N :=
  { p with ph := fun i => { p.ph i with flux := if p.numKeep = 0 then 0 else v i / p.ratio } }

/-- `getTotalFlux`: photon_array.py:478-480. -/
noncomputable def PhotonArray.totalFlux (p : PhotonArray N) : Option ℝ := p.flux.map fun f => ∑ i, f i

/-- `scaleFlux`: photon_array.py:483-487. -/
noncomputable def PhotonArray.scaleFlux (p : PhotonArray N) (s : ℝ) : PhotonArray N :=
  { p with ph := fun i => { p.ph i with flux := (p.ph i).flux * s } }

/-- `setTotalFlux`: photon_array.py:477-481.  `none`: the scale is `nan` or `inf`. -/
noncomputable def PhotonArray.setTotalFlux (p : PhotonArray N) (f : ℝ) : Option (PhotonArray N) :=
  match p.totalFlux with
  | none => none
  | some t => if t = 0 then none else some (p.scaleFlux (f / t))

/-- `scaleXY`: photon_array.py:489-494. -/
noncomputable def PhotonArray.scaleXY (p : PhotonArray N) (s : ℝ) : PhotonArray N :=
  { p with ph := fun i => { p.ph i with x := (p.ph i).x * s, y := (p.ph i).y * s } }

/-! ### Optional attributes -/

/-- `jnp.any(jnp.isfinite(a))`. -/
def anyFinite (a : Fin N → Option ℝ) : Bool := decide (∃ i, (a i).isSome)

/-- `_zero_if_needed_on_set`: photon_array.py:1031-1037. -/
def zeroIfNeeded (t z : Fin N → Option ℝ) : Fin N → Option ℝ :=
  if anyFinite t && !anyFinite z then fun _ => some 0 else z

/-- `dxdz` setter: photon_array.py:340-343. -/
def PhotonArray.setDxdz (p : PhotonArray N) (v : Fin N → Option ℝ) : PhotonArray N :=
  { p with ph := fun i =>
      { p.ph i with dxdz := v i, dydz := zeroIfNeeded v (fun j => (p.ph j).dydz) i } }

/-- `dydz` setter: photon_array.py:353-356. -/
def PhotonArray.setDydz (p : PhotonArray N) (v : Fin N → Option ℝ) : PhotonArray N :=
  { p with ph := fun i =>
      { p.ph i with dydz := v i, dxdz := zeroIfNeeded v (fun j => (p.ph j).dxdz) i } }

/-- `wavelength` setter: photon_array.py:366-368. -/
def PhotonArray.setWave (p : PhotonArray N) (v : Fin N → Option ℝ) : PhotonArray N :=
  { p with ph := fun i => { p.ph i with wave := v i } }

/-- `pupil_u` setter: photon_array.py:378-381. -/
def PhotonArray.setPupU (p : PhotonArray N) (v : Fin N → Option ℝ) : PhotonArray N :=
  { p with ph := fun i =>
      { p.ph i with pupU := v i, pupV := zeroIfNeeded v (fun j => (p.ph j).pupV) i } }

/-- `pupil_v` setter: photon_array.py:391-394. -/
def PhotonArray.setPupV (p : PhotonArray N) (v : Fin N → Option ℝ) : PhotonArray N :=
  { p with ph := fun i =>
      { p.ph i with pupV := v i, pupU := zeroIfNeeded v (fun j => (p.ph j).pupU) i } }

/-- `time` setter: photon_array.py:404-406. -/
def PhotonArray.setTime (p : PhotonArray N) (v : Fin N → Option ℝ) : PhotonArray N :=
  { p with ph := fun i => { p.ph i with time := v i } }

/-- photon_array.py:408-410. -/
def PhotonArray.hasAngles (p : PhotonArray N) : Bool :=
  decide (∃ i, (p.ph i).dxdz.isSome ∨ (p.ph i).dydz.isSome)
/-- photon_array.py:419-421. -/
def PhotonArray.hasWave (p : PhotonArray N) : Bool := anyFinite fun i => (p.ph i).wave
/-- photon_array.py:430-432. -/
def PhotonArray.hasPupil (p : PhotonArray N) : Bool :=
  decide (∃ i, (p.ph i).pupU.isSome ∨ (p.ph i).pupV.isSome)
/-- photon_array.py:441-443. -/
def PhotonArray.hasTime (p : PhotonArray N) : Bool := anyFinite fun i => (p.ph i).time

/-! ### Copying -/

/-- `a.at[t].set(v)` for an index array `t` without repetitions. -/
noncomputable def setAt {β : Type} {m : ℕ} (old : Fin N → β) (t : Fin m → Fin N) (v : Fin m → β) :
    Fin N → β := Function.extend t v old

/-- `_cond_set_indices`: photon_array.py:608-616. -/
noncomputable def condSetAt {m : ℕ} (old : Fin N → Option ℝ) (t : Fin m → Fin N) (v : Fin m → Option ℝ)
    (c : Bool) : Fin N → Option ℝ := if c then setAt old t v else old

/-- `_copyFrom(rhs, t, s, do_xy, do_flux, do_other)`: photon_array.py:593-662.  Target and source indices
are given as functions on a common index set (an integer, a slice or an index array). -/
noncomputable def PhotonArray.copyFrom {m : ℕ} (p : PhotonArray N) (r : PhotonArray M)
    (t : Fin m → Fin N) (s : Fin m → Fin M) (doXY doFlux doOther : Bool) : PhotonArray N :=
  let oldRatio := p.ratio
  let nk := if doXY || doFlux || doOther then
    setAt (fun i => (p.ph i).nokeep) t (fun k => (r.ph (s k)).nokeep) else fun i => (p.ph i).nokeep
  let p1 : PhotonArray N := { p with ph := fun i => { p.ph i with nokeep := nk i } }
  let newRatio := p1.ratio
  let p2 : PhotonArray N := if doXY then
    { p1 with ph := fun i => { p1.ph i with
        x := setAt (fun i => (p.ph i).x) t (fun k => (r.ph (s k)).x) i
        y := setAt (fun i => (p.ph i).y) t (fun k => (r.ph (s k)).y) i } } else p1
  let p3 : PhotonArray N := if doFlux then
    { p2 with ph := fun i => { p2.ph i with
        flux := setAt (fun i => (p.ph i).flux * oldRatio / newRatio) t
          (fun k => (r.ph (s k)).flux * r.ratio / newRatio) i } } else p2
  if doOther then
    { p3 with ph := fun i => { p3.ph i with
        dxdz := condSetAt (fun i => (p.ph i).dxdz) t (fun k => (r.ph (s k)).dxdz) r.hasAngles i
        dydz := condSetAt (fun i => (p.ph i).dydz) t (fun k => (r.ph (s k)).dydz) r.hasAngles i
        wave := condSetAt (fun i => (p.ph i).wave) t (fun k => (r.ph (s k)).wave) r.hasWave i
        pupU := condSetAt (fun i => (p.ph i).pupU) t (fun k => (r.ph (s k)).pupU) r.hasPupil i
        pupV := condSetAt (fun i => (p.ph i).pupV) t (fun k => (r.ph (s k)).pupV) r.hasPupil i
        time := condSetAt (fun i => (p.ph i).time) t (fun k => (r.ph (s k)).time) r.hasTime i } }
  else p3

/-- One end of a python slice normalised against length `n`. -/
def sliceEnd (a : ℤ) (n : ℕ) : ℕ := if a < 0 then (a + n).toNat else min a.toNat n

theorem sliceEnd_le (a : ℤ) (n : ℕ) : sliceEnd a n ≤ n := by unfold sliceEnd; split <;> omega

/-- The indices selected by `slice(a, b)` in an array of length `N`. -/
def sliceIdx (a b : ℤ) (N : ℕ) (k : Fin (sliceEnd b N - sliceEnd a N)) : Fin N :=
  ⟨sliceEnd a N + k, by have := sliceEnd_le b N; omega⟩

/-- `assignAt(istart, rhs)`: photon_array.py:533-549.  `.at[s1].set(v)` broadcasts a `v` of length one and
raises on any other length mismatch; `none` stands for either exception. -/
noncomputable def PhotonArray.assignAt (p : PhotonArray N) (istart : ℤ) (r : PhotonArray M) :
    Option (PhotonArray N) :=
  if istart + M > N then none
  else
    let a := istart
    let b := istart + M
    if h : sliceEnd b N - sliceEnd a N = M then
      some (p.copyFrom r (sliceIdx a b N) (fun k => ⟨k, h ▸ k.2⟩) true true true)
    else if h : M = 1 then
      some (p.copyFrom r (sliceIdx a b N) (fun _ => ⟨0, by omega⟩) true true true)
    else none

/-- `_assign_from_categorical_index`: photon_array.py:664-691. -/
noncomputable def PhotonArray.assignCat (p : PhotonArray N) (cat : Fin N → ℕ) (c : ℕ) (r : PhotonArray N) :
    PhotonArray N :=
  let oldRatio := p.ratio
  let p1 : PhotonArray N := { p with ph := fun i =>
    { p.ph i with nokeep := if c = cat i then (r.ph i).nokeep else (p.ph i).nokeep } }
  let newRatio := p1.ratio
  { p1 with ph := fun i =>
    { x := if c = cat i then (r.ph i).x else (p.ph i).x
      y := if c = cat i then (r.ph i).y else (p.ph i).y
      flux := if c = cat i then (r.ph i).flux * r.ratio / newRatio else (p.ph i).flux * oldRatio / newRatio
      nokeep := (p1.ph i).nokeep
      dxdz := if c = cat i then (r.ph i).dxdz else (p.ph i).dxdz
      dydz := if c = cat i then (r.ph i).dydz else (p.ph i).dydz
      wave := if c = cat i then (r.ph i).wave else (p.ph i).wave
      pupU := if c = cat i then (r.ph i).pupU else (p.ph i).pupU
      pupV := if c = cat i then (r.ph i).pupV else (p.ph i).pupV
      time := if c = cat i then (r.ph i).time else (p.ph i).time } }

/-! ### Convolution -/

/-- `convolve(rhs, rng)`: photon_array.py:693-815, for two different objects of equal size.  `rs` is the
random permutation `jrng.choice(.., replace=False)`.  Returns the new states of `self` and of `rhs`. -/
noncomputable def PhotonArray.convolve (p r : PhotonArray N) (rs : Equiv.Perm (Fin N)) :
    PhotonArray N × PhotonArray N :=
  let σp := p.argsort
  let σr := r.argsort
  let p0 := p.gather σp
  let r0 := r.gather σr
  let sinds : Fin N → Fin N :=
    if p0.isCorr && r0.isCorr then fun i => rs (Tuple.sort (fun j => (r0.ph (rs j)).nokeep) i)
    else fun i => i
  let ang := r0.hasAngles && !p0.hasAngles
  let dx : Fin N → Option ℝ := if ang then fun i => (r0.ph (sinds i)).dxdz else fun i => (p0.ph i).dxdz
  let dy : Fin N → Option ℝ := if ang then fun i => (r0.ph (sinds i)).dydz else fun i => (p0.ph i).dydz
  let p1 := (p0.setDxdz dx).setDydz dy
  let p2 := p1.setWave (if r0.hasWave && !p1.hasWave then fun i => (r0.ph (sinds i)).wave
    else fun i => (p1.ph i).wave)
  let pup := r0.hasPupil && !p2.hasPupil
  let pu : Fin N → Option ℝ := if pup then fun i => (r0.ph (sinds i)).pupU else fun i => (p2.ph i).pupU
  let pv : Fin N → Option ℝ := if pup then fun i => (r0.ph (sinds i)).pupV else fun i => (p2.ph i).pupV
  let p3 := (p2.setPupU pu).setPupV pv
  let p4 := p3.setTime (if r0.hasTime && !p3.hasTime then fun i => (r0.ph (sinds i)).time
    else fun i => (p3.ph i).time)
  let p5 : PhotonArray N :=
    { isCorr := p4.isCorr || r0.isCorr
      ph := fun i => { p4.ph i with
        x := (p4.ph i).x + (r0.ph (sinds i)).x
        y := (p4.ph i).y + (r0.ph (sinds i)).y
        flux := (p4.ph i).flux * (r0.ph (sinds i)).flux * N } }
  (p5.scatter σp, r0.scatter σr)

/-! ### Depositing photons -/

/-- `_add_photons_to_image`: photon_array.py:1009-1028.  `.at[yinds, xinds].add` wraps negative indices. -/
noncomputable def addPhotons (x y f : Fin N → ℝ) (xmin ymin : ℤ) (isInt : Bool) (a : Arr ℝ) :
    Arr ℝ × ℝ :=
  let xi : Fin N → ℤ := fun i => ⌊x i - xmin + 1 / 2⌋
  let yi : Fin N → ℤ := fun i => ⌊y i - ymin + 1 / 2⌋
  let g : Fin N → ℝ := fun i => if 0 ≤ xi i ∧ xi i < a.w ∧ 0 ≤ yi i ∧ yi i < a.h then f i else 0
  let add : ℕ → ℕ → ℝ → ℝ := fun k l v =>
    v + ∑ i, if (k : ℤ) = normIdx (yi i) a.h ∧ (l : ℤ) = normIdx (xi i) a.w then g i else 0
  (a.mapIdx fun k l v => safeCast isInt (add k l v), ∑ i, g i)

/-- `addTo(image)`: photon_array.py:871-889.  Returns the image and the reported flux, or the exception;
`none` for the flux array (`0 * N / 0`) makes both NaN and is reported as `.valueError` here. -/
noncomputable def PhotonArray.addTo (p : PhotonArray N) (im : Image) : Except ImErr (Image × ℝ) :=
  if !im.bounds.defined then .error .undefinedBounds
  else if N ≠ 0 ∧ p.numKeep = 0 then .error .valueError
  else
    let r := addPhotons (fun i => (p.ph i).x) (fun i => (p.ph i).y)
      (fun i => p.masked i * N / p.numKeep) im.bounds.xmin im.bounds.ymin im.isInt im.arr
    .ok (Image.mk r.1 im.bounds im.isConst im.isInt, r.2)

/-- Number of photons for a pixel of value `v`: photon_array.py:899. -/
noncomputable def nPer (maxFlux v : ℝ) : ℕ := (max ⌈|v| / maxFlux⌉ 1).toNat

/-- `jnp.repeat(jnp.arange(size), n_per)`: photon_array.py:902-903. -/
noncomputable def pixInds (im : Image) (maxFlux : ℝ) : List ℕ :=
  (List.range (im.arr.h * im.arr.w)).flatMap fun k =>
    List.replicate (nPer maxFlux (im.arr.at' (k / im.arr.w) (k % im.arr.w))) k

/-- `makeFromImage(image, max_flux, rng)` outside `fixed_photon_array_size`: photon_array.py:891-917.
`u`, `v` are the uniform deviates; `scale` is `image.scale`. -/
noncomputable def makeFromImage (im : Image) (maxFlux : ℝ) (scale : Option ℝ) (u v : ℕ → ℝ) :
    Option (Σ n, PhotonArray n) :=
  if maxFlux ≤ 0 then none
  else
    let inds := pixInds im maxFlux
    let p0 : PhotonArray inds.length := PhotonArray.blank none inds.length
    let p1 : PhotonArray inds.length := { p0 with ph := fun i => { p0.ph i with
      x := u i + (im.bounds.xmin + ((inds.get i % im.arr.w : ℕ) : ℝ) - 1 / 2)
      y := v i + (im.bounds.ymin + ((inds.get i / im.arr.w : ℕ) : ℝ) - 1 / 2) } }
    let p2 := p1.setFlux fun i =>
      let k := inds.get i
      im.arr.at' (k / im.arr.w) (k % im.arr.w) / nPer maxFlux (im.arr.at' (k / im.arr.w) (k % im.arr.w))
    match scale with
    | none => some ⟨_, p2⟩
    | some s => some ⟨_, p2.scaleXY s⟩

/-! ### Files -/

/-- The columns of the table written by `write`. -/
structure PhotFile (N : ℕ) where
  x : Fin N → ℝ
  y : Fin N → ℝ
  flux : Option (Fin N → ℝ)
  nokeep : Fin N → Bool
  angles : Option (Fin N → Option ℝ × Option ℝ)
  wave : Option (Fin N → Option ℝ)
  pupil : Option (Fin N → Option ℝ × Option ℝ)
  time : Option (Fin N → Option ℝ)

/-- `write`: photon_array.py:919-964 (the FITS encoding itself is not modelled). -/
noncomputable def PhotonArray.write (p : PhotonArray N) : PhotFile N where
  x i := (p.ph i).x
  y i := (p.ph i).y
  flux := p.flux
  nokeep i := (p.ph i).nokeep
  angles := if p.hasAngles then some fun i => ((p.ph i).dxdz, (p.ph i).dydz) else none
  wave := if p.hasWave then some fun i => (p.ph i).wave else none
  pupil := if p.hasPupil then some fun i => ((p.ph i).pupU, (p.ph i).pupV) else none
  time := if p.hasTime then some fun i => (p.ph i).time else none

/-- The optional columns of `read`: photon_array.py:983-989. -/
def PhotonArray.readAngles (p : PhotonArray N) : Option (Fin N → Option ℝ × Option ℝ) → PhotonArray N
  | none => p
  | some a => (p.setDxdz fun i => (a i).1).setDydz fun i => (a i).2
/-- photon_array.py:990-993. -/
def PhotonArray.readWave (p : PhotonArray N) : Option (Fin N → Option ℝ) → PhotonArray N
  | none => p
  | some a => p.setWave a
/-- photon_array.py:994-1000. -/
def PhotonArray.readPupil (p : PhotonArray N) : Option (Fin N → Option ℝ × Option ℝ) → PhotonArray N
  | none => p
  | some a => (p.setPupU fun i => (a i).1).setPupV fun i => (a i).2
/-- photon_array.py:1001-1004. -/
def PhotonArray.readTime (p : PhotonArray N) : Option (Fin N → Option ℝ) → PhotonArray N
  | none => p
  | some a => p.setTime a

/-- `read` outside `fixed_photon_array_size`: photon_array.py:966-1006.  `none`: NaN fluxes were read. -/
noncomputable def PhotFile.read (f : PhotFile N) : Option (PhotonArray N) :=
  match f.flux with
  | none => none
  | some fl =>
    let p0 : PhotonArray N := PhotonArray.blank none N
    let p1 : PhotonArray N := { p0 with ph := fun i => { p0.ph i with x := f.x i, y := f.y i } }
    let p2 := p1.setFlux fl
    let p3 : PhotonArray N := { p2 with ph := fun i => { p2.ph i with nokeep := f.nokeep i } }
    some ((((p3.readAngles f.angles).readWave f.wave).readPupil f.pupil).readTime f.time)

end JG
