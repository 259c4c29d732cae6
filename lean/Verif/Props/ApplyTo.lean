import Verif.Model.ApplyTo
import Verif.Props.PhotonConv

/-!
C116: a profile used as a photon operator displaces the photons by photons of the profile and leaves everything else alone.
-/

namespace JG
variable {N : ℕ}

/-! ### Specification -/

/-- What is asked of the `_shoot` of a profile: it keeps the photons it is given and allocates no column that the array lacks (the
`_shoot` of the profiles fill the positions and fluxes, as `gaussian.py:151-157` does; losing columns is allowed). -/
structure ShootsOk (a r : PhotonArray N) : Prop where
  keep : ∀ i, (r.ph i).nokeep = (a.ph i).nokeep
  angles : r.hasAngles = true → a.hasAngles = true
  wave : r.hasWave = true → a.hasWave = true
  pupil : r.hasPupil = true → a.hasPupil = true
  time : r.hasTime = true → a.hasTime = true

/-- The profile that is shot: the one in image coordinates if a wcs is given. -/
def shotProfile {O : Type} (obj : O) : Option (O → O) → O
  | some f => f obj
  | none => obj

/-! ### Lemmas -/

theorem zeroIfNeeded_same (t z : Fin N → Option ℝ) (h : anyFinite t = anyFinite z) : zeroIfNeeded t z = z := by
  unfold zeroIfNeeded
  rw [h]
  simp

theorem exists_gather (p : PhotonArray N) (σ : Equiv.Perm (Fin N)) (q : Phot → Prop) :
    (∃ i, q ((p.gather σ).ph i)) ↔ ∃ i, q (p.ph i) :=
  ⟨fun ⟨i, hi⟩ => ⟨σ i, hi⟩, fun ⟨i, hi⟩ => ⟨σ.symm i, by simpa [PhotonArray.gather] using hi⟩⟩

theorem gather_paired {p : PhotonArray N} (h : p.Paired) (σ : Equiv.Perm (Fin N)) : (p.gather σ).Paired := by
  obtain ⟨h1, h2⟩ := h
  have e : ∀ f : Phot → Option ℝ, (anyFinite fun i => f ((p.gather σ).ph i)) = anyFinite fun i => f (p.ph i) := fun f =>
    decide_eq_decide.mpr (exists_gather p σ fun a => (f a).isSome)
  exact ⟨(e Phot.dxdz).trans (h1.trans (e Phot.dydz).symm), (e Phot.pupU).trans (h2.trans (e Phot.pupV).symm)⟩

theorem has_gather (p : PhotonArray N) (σ : Equiv.Perm (Fin N)) :
    (p.gather σ).hasAngles = p.hasAngles ∧ (p.gather σ).hasWave = p.hasWave ∧ (p.gather σ).hasPupil = p.hasPupil ∧
      (p.gather σ).hasTime = p.hasTime := by
  refine ⟨?_, ?_, ?_, ?_⟩
  · exact decide_eq_decide.mpr (exists_gather p σ fun a => a.dxdz.isSome ∨ a.dydz.isSome)
  · exact decide_eq_decide.mpr (exists_gather p σ fun a => a.wave.isSome)
  · exact decide_eq_decide.mpr (exists_gather p σ fun a => a.pupU.isSome ∨ a.pupV.isSome)
  · exact decide_eq_decide.mpr (exists_gather p σ fun a => a.time.isSome)

theorem set_same {q : PhotonArray N} (h : q.Paired) :
    (q.setDxdz fun i => (q.ph i).dxdz) = q ∧ (q.setDydz fun i => (q.ph i).dydz) = q ∧
    (q.setPupU fun i => (q.ph i).pupU) = q ∧ (q.setPupV fun i => (q.ph i).pupV) = q := by
  obtain ⟨ph, c⟩ := q
  obtain ⟨h1, h2⟩ := h
  refine ⟨?_, ?_, ?_, ?_⟩
  · simp only [PhotonArray.setDxdz]; rw [zeroIfNeeded_same _ _ h1]
  · simp only [PhotonArray.setDydz]; rw [zeroIfNeeded_same _ _ h1.symm]
  · simp only [PhotonArray.setPupU]; rw [zeroIfNeeded_same _ _ h2]
  · simp only [PhotonArray.setPupV]; rw [zeroIfNeeded_same _ _ h2.symm]

/-- Convolving with an array that has no columns the first one lacks leaves the columns of the first one alone. -/
theorem convolve_columns (p r : PhotonArray N) (rs : Equiv.Perm (Fin N)) (hp : p.Paired)
    (ha : r.hasAngles = true → p.hasAngles = true) (hw : r.hasWave = true → p.hasWave = true)
    (hu : r.hasPupil = true → p.hasPupil = true) (ht : r.hasTime = true → p.hasTime = true) (i : Fin N) :
    ((p.convolve r rs).1.ph i).dxdz = (p.ph i).dxdz ∧ ((p.convolve r rs).1.ph i).dydz = (p.ph i).dydz ∧
    ((p.convolve r rs).1.ph i).wave = (p.ph i).wave ∧ ((p.convolve r rs).1.ph i).pupU = (p.ph i).pupU ∧
    ((p.convolve r rs).1.ph i).pupV = (p.ph i).pupV ∧ ((p.convolve r rs).1.ph i).time = (p.ph i).time := by
  have b : ∀ x y : Bool, (x = true → y = true) → (x && !y) = false := by decide
  obtain ⟨g1, g2, g3, g4⟩ := has_gather p p.argsort
  obtain ⟨k1, k2, k3, k4⟩ := has_gather r r.argsort
  obtain ⟨s1, s2, s3, s4⟩ := set_same (gather_paired hp p.argsort)
  have sw : ((p.gather p.argsort).setWave fun i => ((p.gather p.argsort).ph i).wave) = p.gather p.argsort := rfl
  have st : ((p.gather p.argsort).setTime fun i => ((p.gather p.argsort).ph i).time) = p.gather p.argsort := rfl
  unfold PhotonArray.convolve
  simp only [g1, k1, b _ _ ha, Bool.false_eq_true, if_false, s1, s2, g2, k2, b _ _ hw, sw, g3, k3, b _ _ hu, s3, s4, g4, k4,
    b _ _ ht, st]
  simp [PhotonArray.scatter, PhotonArray.gather]

/-! ### Theorems -/

/-- C116: a profile applied to a photon array pairs the photons of the array one to one with the photons shot from the profile (in
image coordinates if a wcs is given): the positions are displaced by those of the shot photons, the fluxes multiplied by the fluxes
of the shot photons and their number; which photons count, the angles, wavelengths, pupil coordinates and times all stay. -/
theorem C116_applyTo {O : Type} (shoot : O → PhotonArray N → PhotonArray N) (obj : O) (toImage : Option (O → O)) (p : PhotonArray N)
    (rs : Equiv.Perm (Fin N)) (hs : ShootsOk p.template (shoot (shotProfile obj toImage) p.template)) (hp : p.Paired) (hk : 0 < p.numKeep)
    (fp : Fin N → ℝ) (hfp : p.flux = some fp) (q r : PhotonArray N) (hq : q = applyProfile shoot obj toImage p rs)
    (hr : r = shoot (shotProfile obj toImage) p.template) :
    ∃ (τ : Equiv.Perm (Fin N)) (fr fq : Fin N → ℝ), r.flux = some fr ∧ q.flux = some fq ∧
      (∀ i, (q.ph i).x = (p.ph i).x + (r.ph (τ i)).x ∧ (q.ph i).y = (p.ph i).y + (r.ph (τ i)).y ∧
        fq i = fp i * fr (τ i) * N ∧ (q.ph i).nokeep = (p.ph i).nokeep) ∧
      (∀ i, (q.ph i).dxdz = (p.ph i).dxdz ∧ (q.ph i).dydz = (p.ph i).dydz ∧ (q.ph i).wave = (p.ph i).wave ∧
        (q.ph i).pupU = (p.ph i).pupU ∧ (q.ph i).pupV = (p.ph i).pupV ∧ (q.ph i).time = (p.ph i).time) := by
  have hok := hs
  rw [← hr] at hok
  have hq' : q = (p.convolve r rs).1 := by
    rw [hq, hr]
    cases toImage <;> rfl
  have hall : ∀ i, (r.ph i).nokeep = false := fun i => (hok.keep i).trans rfl
  have hnk : r.numKeep = N := by
    simp [PhotonArray.numKeep, hall]
  have hle : p.numKeep ≤ r.numKeep := by
    rw [hnk]
    exact (Finset.card_le_univ _).trans (by simp)
  have hfr : r.flux = some r.masked := by simp [PhotonArray.flux, hnk]
  obtain ⟨τ, -, h1, h2, -, -⟩ := C25_convolve p r rs hk hle fp r.masked hfp hfr
  rw [hnk] at h2
  refine ⟨τ, r.masked, fun i => fp i * r.masked (τ i) * N, hfr, by rw [hq']; exact h2, fun i => ?_, fun i => ?_⟩
  · rw [hq']
    exact ⟨(h1 i).1, (h1 i).2.1, rfl, (h1 i).2.2⟩
  · rw [hq']
    refine convolve_columns p r rs hp ?_ ?_ ?_ ?_ i
    · intro h; have := hok.angles h; simp [PhotonArray.template, PhotonArray.hasAngles] at this
    · intro h
      by_contra hn
      have := hok.wave h
      have hn' : p.hasWave = false := by simpa using hn
      simp [PhotonArray.template, hn'] at this
      simp [PhotonArray.hasWave, anyFinite] at this
    · intro h
      by_contra hn
      have := hok.pupil h
      have hn' : p.hasPupil = false := by simpa using hn
      simp [PhotonArray.template, hn'] at this
      simp [PhotonArray.hasPupil] at this
    · intro h
      by_contra hn
      have := hok.time h
      have hn' : p.hasTime = false := by simpa using hn
      simp [PhotonArray.template, hn'] at this
      simp [PhotonArray.hasTime, anyFinite] at this

/-- C116: the photons that the profile is asked to shoot carry the wavelengths, pupil coordinates and times of the photons they will
displace, and no angles; all of them count. -/
theorem C116_template (p : PhotonArray N) (i : Fin N) :
    (p.template.ph i).wave = (p.ph i).wave ∧ (p.template.ph i).pupU = (p.ph i).pupU ∧ (p.template.ph i).pupV = (p.ph i).pupV ∧
    (p.template.ph i).time = (p.ph i).time ∧ (p.template.ph i).dxdz = none ∧ (p.template.ph i).dydz = none ∧
    p.template.numKeep = N := by
  have nn : ∀ o : Option ℝ, ¬o.isSome → none = o := fun o h => by cases o <;> simp at h ⊢
  refine ⟨?_, ?_, ?_, ?_, rfl, rfl, by simp [PhotonArray.numKeep, PhotonArray.template]⟩
  · show (if p.hasWave then _ else _) = _
    split_ifs with h
    · rfl
    · exact nn _ fun hi => h (decide_eq_true ⟨i, hi⟩)
  · show (if p.hasPupil then _ else _) = _
    split_ifs with h
    · rfl
    · exact nn _ fun hi => h (decide_eq_true ⟨i, Or.inl hi⟩)
  · show (if p.hasPupil then _ else _) = _
    split_ifs with h
    · rfl
    · exact nn _ fun hi => h (decide_eq_true ⟨i, Or.inr hi⟩)
  · show (if p.hasTime then _ else _) = _
    split_ifs with h
    · rfl
    · exact nn _ fun hi => h (decide_eq_true ⟨i, hi⟩)

/-- C116: when the profile shoots photons of equal flux, as every profile without negative parts does, the total flux is multiplied by
the flux it shoots. -/
theorem C116_total {O : Type} (shoot : O → PhotonArray N → PhotonArray N) (obj : O) (toImage : Option (O → O)) (p : PhotonArray N)
    (rs : Equiv.Perm (Fin N)) (hs : ShootsOk p.template (shoot (shotProfile obj toImage) p.template)) (hk : 0 < p.numKeep) (fp : Fin N → ℝ) (hfp : p.flux = some fp)
    (F f : ℝ) (hF : p.totalFlux = some F)
    (hf : ∀ i, ((shoot (shotProfile obj toImage) p.template).ph i).flux = f / N) :
    (applyProfile shoot obj toImage p rs).totalFlux = some (F * f) := by
  have hok := hs
  obtain ⟨r, hr⟩ : ∃ r, r = shoot (shotProfile obj toImage) p.template := ⟨_, rfl⟩
  rw [← hr] at hok hf
  have hq' : applyProfile shoot obj toImage p rs = (p.convolve r rs).1 := by
    rw [hr]
    cases toImage <;> rfl
  have hall : ∀ i, (r.ph i).nokeep = false := fun i => (hok.keep i).trans rfl
  have hnk : r.numKeep = N := by
    simp [PhotonArray.numKeep, hall]
  have hle : p.numKeep ≤ r.numKeep := by
    rw [hnk]
    exact (Finset.card_le_univ _).trans (by simp)
  have hN : (N : ℝ) ≠ 0 := by
    have : 0 < N := by omega
    positivity
  have hfr : r.flux = some r.masked := by simp [PhotonArray.flux, hnk]
  have hm : ∀ i, r.masked i = f / N := fun i => by simp [PhotonArray.masked, hall i, hf i]
  have hFr : r.totalFlux = some f := by
    rw [(C24_flux r _ hfr).2]
    have hkept : r.kept = Finset.univ := by
      ext i; simp [mem_kept, hall i]
    rw [hkept, Finset.sum_congr rfl fun i _ => hm i]
    simp
    field_simp
  rw [hq']
  exact C25_total p r rs hk hle fp r.masked hfp hfr (f / N) (fun i _ => hm i) F f hF hFr

/-! ### The profiles of the package satisfy the hypothesis -/

theorem zeroIfNeeded_none : zeroIfNeeded (fun _ : Fin N => none) (fun _ => none) = fun _ => none := by
  funext i
  simp [zeroIfNeeded, anyFinite]

theorem set_none (b : Bool) (f g f' g' : Fin N → Option ℝ) (hf : ∀ j, f j = none) (hg : ∀ j, g j = none) (hf' : ∀ j, f' j = none)
    (hg' : ∀ j, g' j = none) (j : Fin N) :
    zeroIfNeeded (if b then f' else g') (fun k => (if b then f else g) k) j = none ∧ (if b then f' else g') j = none := by
  rw [funext hf, funext hg, funext hf', funext hg']
  cases b <;> exact ⟨congrFun zeroIfNeeded_none j, rfl⟩

theorem convolve_keep (p r : PhotonArray N) (rs : Equiv.Perm (Fin N)) (i : Fin N) :
    ((p.convolve r rs).1.ph i).nokeep = (p.ph i).nokeep := by
  simp only [PhotonArray.convolve, PhotonArray.scatter, PhotonArray.gather, PhotonArray.setDxdz, PhotonArray.setDydz,
    PhotonArray.setWave, PhotonArray.setPupU, PhotonArray.setPupV, PhotonArray.setTime, Equiv.apply_symm_apply]

theorem convolve_noAngles (p r : PhotonArray N) (rs : Equiv.Perm (Fin N)) (hp : ∀ i, (p.ph i).dxdz = none ∧ (p.ph i).dydz = none)
    (hr : ∀ i, (r.ph i).dxdz = none ∧ (r.ph i).dydz = none) (i : Fin N) :
    ((p.convolve r rs).1.ph i).dxdz = none ∧ ((p.convolve r rs).1.ph i).dydz = none := by
  exact set_none _ _ _ _ _ (fun _ => (hr _).1) (fun _ => (hp _).1) (fun _ => (hr _).2) (fun _ => (hp _).2) _

theorem convolve_noPupil (p r : PhotonArray N) (rs : Equiv.Perm (Fin N)) (hp : ∀ i, (p.ph i).pupU = none ∧ (p.ph i).pupV = none)
    (hr : ∀ i, (r.ph i).pupU = none ∧ (r.ph i).pupV = none) (i : Fin N) :
    ((p.convolve r rs).1.ph i).pupU = none ∧ ((p.convolve r rs).1.ph i).pupV = none := by
  exact set_none _ _ _ _ _ (fun _ => (hr _).1) (fun _ => (hp _).1) (fun _ => (hr _).2) (fun _ => (hp _).2) _

theorem convolve_noWave (p r : PhotonArray N) (rs : Equiv.Perm (Fin N)) (hp : ∀ i, (p.ph i).wave = none)
    (hr : ∀ i, (r.ph i).wave = none) (i : Fin N) : ((p.convolve r rs).1.ph i).wave = none := by
  exact (set_none _ (fun _ => none) (fun _ => none) _ _ (fun _ => rfl) (fun _ => rfl) (fun _ => hr _) (fun _ => hp _) _).2

theorem convolve_noTime (p r : PhotonArray N) (rs : Equiv.Perm (Fin N)) (hp : ∀ i, (p.ph i).time = none)
    (hr : ∀ i, (r.ph i).time = none) (i : Fin N) : ((p.convolve r rs).1.ph i).time = none := by
  exact (set_none _ (fun _ => none) (fun _ => none) _ _ (fun _ => rfl) (fun _ => rfl) (fun _ => hr _) (fun _ => hp _) _).2

/-- What a `_shoot` leaves out: uncounted photons and columns. -/
theorem shooter_clean (S : Shooter N) : ∀ p : PhotonArray N,
    ((∀ i, (p.ph i).nokeep = false) → ∀ i, ((S.shoot p).ph i).nokeep = false) ∧
    ((∀ i, (p.ph i).dxdz = none ∧ (p.ph i).dydz = none) → ∀ i, ((S.shoot p).ph i).dxdz = none ∧ ((S.shoot p).ph i).dydz = none) ∧
    ((∀ i, (p.ph i).wave = none) → ∀ i, ((S.shoot p).ph i).wave = none) ∧
    ((∀ i, (p.ph i).pupU = none ∧ (p.ph i).pupV = none) → ∀ i, ((S.shoot p).ph i).pupU = none ∧ ((S.shoot p).ph i).pupV = none) ∧
    ((∀ i, (p.ph i).time = none) → ∀ i, ((S.shoot p).ph i).time = none) := by
  induction S with
  | leaf x y f => exact fun p => ⟨id, id, id, id, id⟩
  | trans s a b c d dx dy ratio ih => exact ih
  | skip => exact fun p => ⟨id, id, id, id, id⟩
  | conv s t rs ihs iht =>
    intro p
    obtain ⟨s1, s2, s3, s4, s5⟩ := ihs p
    obtain ⟨t1, t2, t3, t4, t5⟩ := iht .fresh
    refine ⟨fun h i => (convolve_keep _ _ rs i).trans (s1 h i), fun h => convolve_noAngles _ _ rs (s2 h) (t2 fun _ => ⟨rfl, rfl⟩),
      fun h => convolve_noWave _ _ rs (s3 h) (t3 fun _ => rfl), fun h => convolve_noPupil _ _ rs (s4 h) (t4 fun _ => ⟨rfl, rfl⟩),
      fun h => convolve_noTime _ _ rs (s5 h) (t5 fun _ => rfl)⟩
  | assign s cat c t fac ihs iht =>
    intro p
    obtain ⟨s1, s2, s3, s4, s5⟩ := ihs p
    obtain ⟨t1, t2, t3, t4, t5⟩ := iht .fresh
    have t1 := t1 fun _ => rfl
    have t2 := t2 fun _ => ⟨rfl, rfl⟩
    have t3 := t3 fun _ => rfl
    have t4 := t4 fun _ => ⟨rfl, rfl⟩
    have t5 := t5 fun _ => rfl
    refine ⟨fun h i => ?_, fun h i => ?_, fun h i => ?_, fun h i => ?_, fun h i => ?_⟩
    · simp [Shooter.shoot, PhotonArray.assignCat, PhotonArray.scaleFlux, s1 h i, t1 i]
    · simp [Shooter.shoot, PhotonArray.assignCat, PhotonArray.scaleFlux, s2 h i, t2 i]
    · simp [Shooter.shoot, PhotonArray.assignCat, PhotonArray.scaleFlux, s3 h i, t3 i]
    · simp [Shooter.shoot, PhotonArray.assignCat, PhotonArray.scaleFlux, s4 h i, t4 i]
    · simp [Shooter.shoot, PhotonArray.assignCat, PhotonArray.scaleFlux, s5 h i, t5 i]

/-- C116: every profile of the package (elementary profiles, interpolated images, and any nesting of transformations, sums and
convolutions of them) keeps all photons of a full array and allocates no column: the hypothesis of `C116_applyTo` holds, whatever
numbers are drawn. -/
theorem C116_profiles (S : Shooter N) (p : PhotonArray N) : ShootsOk p.template (S.shoot p.template) := by
  obtain ⟨h1, h2, h3, h4, h5⟩ := shooter_clean S p.template
  have b : ∀ x y : Bool, (y = false → x = false) → x = true → y = true := by decide
  have nn : ∀ o : Option ℝ, ¬o.isSome → o = none := fun o h => by cases o <;> simp at h ⊢
  refine ⟨h1 fun _ => rfl, b _ _ fun h => ?_, b _ _ fun h => ?_, b _ _ fun h => ?_, b _ _ fun h => ?_⟩
  · refine decide_eq_false fun ⟨i, hi⟩ => ?_
    have := h2 (fun _ => ⟨rfl, rfl⟩) i
    simp [this] at hi
  · have h := of_decide_eq_false h
    refine decide_eq_false fun ⟨i, hi⟩ => ?_
    have := h3 (fun j => nn _ fun hj => h ⟨j, hj⟩) i
    simp [this] at hi
  · have h := of_decide_eq_false h
    refine decide_eq_false fun ⟨i, hi⟩ => ?_
    have := h4 (fun j => ⟨nn _ fun hj => h ⟨j, Or.inl hj⟩, nn _ fun hj => h ⟨j, Or.inr hj⟩⟩) i
    simp [this] at hi
  · have h := of_decide_eq_false h
    refine decide_eq_false fun ⟨i, hi⟩ => ?_
    have := h5 (fun j => nn _ fun hj => h ⟨j, hj⟩) i
    simp [this] at hi

/-! ### The flux that is shot -/

/-- A profile without negative parts and its flux: elementary profiles give every photon the flux over the number of photons,
transformations scale the flux, convolutions multiply the fluxes, and a sum gives every photon to one of its components `k`, of flux
`G k`, and scales by `_scale_fac = tot_flux / fluxes[k]`. -/
inductive FluxOf : Shooter N → ℝ → Prop
  | leaf (x y : Fin N → ℝ) (F : ℝ) : FluxOf (.leaf x y fun _ => F / N) F
  | trans (s : Shooter N) (F a b c d dx dy ratio : ℝ) : FluxOf s F → FluxOf (.trans s a b c d dx dy ratio) (F * ratio)
  | conv (s t : Shooter N) (F G : ℝ) (rs : Equiv.Perm (Fin N)) : FluxOf s F → FluxOf t G → FluxOf (.conv s t rs) (F * G)
  | sum (cat : Fin N → ℕ) (n : ℕ) (t : ℕ → Shooter N) (G : ℕ → ℝ) (hcat : ∀ i, cat i < n) (hG : ∀ k, G k ≠ 0)
      (h : ∀ k, k < n → FluxOf (t k) (G k)) :
      FluxOf (Shooter.sum cat ((List.range n).map fun k => (t k, (∑ j ∈ Finset.range n, G j) / G k)) 0 .skip)
        (∑ j ∈ Finset.range n, G j)

theorem ratio_full {p : PhotonArray N} (h : ∀ i, (p.ph i).nokeep = false) (hN : 0 < N) : p.ratio = 1 := by
  have : p.numKeep = N := by simp [PhotonArray.numKeep, h]
  have hN' : (N : ℝ) ≠ 0 := by positivity
  simp [PhotonArray.ratio, this, hN']

theorem convolve_flux (p r : PhotonArray N) (rs : Equiv.Perm (Fin N)) (a b : ℝ) (hp : ∀ i, (p.ph i).flux = a)
    (hr : ∀ i, (r.ph i).flux = b) (i : Fin N) : ((p.convolve r rs).1.ph i).flux = a * b * N := by
  show (p.ph _).flux * (r.ph _).flux * (N : ℝ) = _
  rw [hp, hr]

/-- The loop of a sum: the photons of the categories gone through have the flux `T`. -/
theorem sum_flux (cat : Fin N → ℕ) (hN : 0 < N) (T : ℝ) (p : PhotonArray N) (hp : ∀ i, (p.ph i).nokeep = false)
    (l : List (Shooter N × ℝ)) :
    ∀ (c : ℕ) (s : Shooter N), (∀ i, cat i < c → ((s.shoot p).ph i).flux = T) →
      (∀ t ∈ l, ∀ i, ((t.1.shoot .fresh).ph i).flux * t.2 = T) →
      ∀ i, cat i < c + l.length → (((Shooter.sum cat l c s).shoot p).ph i).flux = T := by
  induction l with
  | nil => exact fun c s hs _ i hi => hs i (by simpa using hi)
  | cons a l ih =>
    obtain ⟨t, fac⟩ := a
    intro c s hs hl i hi
    refine ih (c + 1) (.assign s cat c t fac) (fun j hj => ?_) (fun u hu => hl u (List.mem_cons_of_mem _ hu)) i
      (by simp only [List.length_cons] at hi; omega)
    have k1 := (shooter_clean (.assign s cat c t fac) p).1 hp
    have k2 := (shooter_clean s p).1 hp
    have k3 := (shooter_clean t .fresh).1 fun _ => rfl
    have r1 := ratio_full k2 hN
    have r2 : ((t.shoot .fresh).scaleFlux fac).ratio = 1 := ratio_full (p := (t.shoot .fresh).scaleFlux fac) k3 hN
    obtain ⟨q, hq⟩ : ∃ q : PhotonArray N, q = { s.shoot p with ph := fun i => { (s.shoot p).ph i with
      nokeep := if c = cat i then (((t.shoot .fresh).scaleFlux fac).ph i).nokeep else ((s.shoot p).ph i).nokeep } } := ⟨_, rfl⟩
    have r3 : q.ratio = 1 := ratio_full (fun i => by rw [hq]; exact k1 i) hN
    have e : ((Shooter.shoot (.assign s cat c t fac) p).ph j).flux =
        if c = cat j then ((t.shoot .fresh).ph j).flux * fac * ((t.shoot .fresh).scaleFlux fac).ratio / q.ratio
        else ((s.shoot p).ph j).flux * (s.shoot p).ratio / q.ratio := by rw [hq]; rfl
    rw [e, r1, r2, r3]
    split_ifs with h
    · rw [mul_one, div_one]
      exact hl (t, fac) List.mem_cons_self j
    · rw [mul_one, div_one]
      exact hs j (by omega)

theorem shoot_flux (hN : 0 < N) {S : Shooter N} {F : ℝ} (h : FluxOf S F) :
    ∀ p : PhotonArray N, (∀ i, (p.ph i).nokeep = false) → ∀ i, ((S.shoot p).ph i).flux = F / N := by
  have hN' : (N : ℝ) ≠ 0 := by positivity
  induction h with
  | leaf x y F =>
    intro p hp i
    have h1 : p.numKeep = N := by simp [PhotonArray.numKeep, hp]
    obtain ⟨q, hq⟩ : ∃ q : PhotonArray N, q = { p with ph := fun i => { p.ph i with x := x i, y := y i } } := ⟨_, rfl⟩
    have h2 : ∀ i, (q.ph i).nokeep = false := fun i => by rw [hq]; exact hp i
    have h3 : q.numKeep = N := by simp [PhotonArray.numKeep, h2]
    have e : ((Shooter.shoot (.leaf x y fun _ => F / N) p).ph i).flux = if q.numKeep = 0 then 0 else F / N / q.ratio := by
      rw [hq]; rfl
    rw [e, if_neg (by omega), ratio_full h2 hN, div_one]
  | trans s F a b c d dx dy ratio _ ih =>
    intro p hp i
    have e : ((Shooter.shoot (.trans s a b c d dx dy ratio) p).ph i).flux = ((s.shoot p).ph i).flux * ratio := rfl
    rw [e, ih p hp i]
    ring
  | conv s t F G rs _ _ ihs iht =>
    intro p hp i
    have e := convolve_flux (s.shoot p) (t.shoot .fresh) rs _ _ (ihs p hp) (iht .fresh fun _ => rfl) i
    refine e.trans ?_
    field_simp
  | sum cat n t G hcat hG h ih =>
    intro p hp i
    refine sum_flux cat hN _ p hp _ 0 .skip (fun i hi => absurd hi (by omega)) ?_ i (by simpa using hcat i)
    intro u hu j
    obtain ⟨k, hk, rfl⟩ := List.mem_map.mp hu
    have hk := List.mem_range.mp hk
    have := hG k
    show ((Shooter.shoot (t k) .fresh).ph j).flux * _ = _
    rw [ih k hk .fresh (fun _ => rfl) j]
    field_simp

/-- C116: applied to a photon array, a profile without negative parts multiplies the total flux by its own flux. -/
theorem C116_flux (S : Shooter N) (toImage : Option (Shooter N → Shooter N)) (p : PhotonArray N) (rs : Equiv.Perm (Fin N))
    (hk : 0 < p.numKeep) (fp : Fin N → ℝ) (hfp : p.flux = some fp) (F f : ℝ) (hF : p.totalFlux = some F)
    (hf : FluxOf (shotProfile S toImage) f) : (applyProfile Shooter.shoot S toImage p rs).totalFlux = some (F * f) := by
  have hle : p.numKeep ≤ N := (Finset.card_le_univ _).trans (by simp)
  exact C116_total Shooter.shoot S toImage p rs (C116_profiles _ _) hk fp hfp F f hF
    (shoot_flux (by omega) hf p.template fun _ => rfl)

/-- A sum of a point and a shifted point, convolved with a point: photons 0 and 2 come from the first. -/
noncomputable def exShooter : Shooter 3 :=
  .conv (.assign (.assign .skip (fun i => i % 2) 0 (.leaf 0 0 1) 2) (fun i => i % 2) 1 (.trans (.leaf 1 1 1) 2 0 0 2 1 0 1) 2)
    (.leaf 0 0 1) 1

example : ShootsOk exPhot.template (exShooter.shoot exPhot.template) := C116_profiles _ _

/-- A concrete case of the flux: the sum of points of flux 1 and 2, transformed. -/
example : FluxOf (Shooter.trans (Shooter.sum (fun i : Fin 3 => i % 2)
    ((List.range 2).map fun k => (Shooter.leaf 0 0 fun _ => ((k : ℝ) + 1) / (3 : ℕ),
      (∑ j ∈ Finset.range 2, ((j : ℝ) + 1)) / ((k : ℝ) + 1))) 0 .skip) 1 0 0 1 5 6 4) ((∑ j ∈ Finset.range 2, ((j : ℝ) + 1)) * 4) :=
  .trans _ _ _ _ _ _ _ _ _ (.sum _ 2 (fun k => .leaf 0 0 fun _ => ((k : ℝ) + 1) / (3 : ℕ)) (fun k => (k : ℝ) + 1)
    (fun i => Nat.mod_lt _ (by norm_num)) (fun k => by positivity) fun k _ => .leaf _ _ _)

/-- A profile that shoots all its photons at one position, with flux `2`; the wcs doubles the position. -/
noncomputable def exShoot (o : ℝ) (a : PhotonArray 3) : PhotonArray 3 :=
  { a with ph := fun i => { a.ph i with x := o, y := -o, flux := 2 / (3 : ℕ) } }

/-- A concrete case of C116: three photons, one of which does not count. -/
example (rs : Equiv.Perm (Fin 3)) : (∀ o a, ShootsOk a (exShoot o a)) ∧ exPhot.Paired ∧ 0 < exPhot.numKeep ∧
    (applyProfile exShoot 1 (some (2 * ·)) exPhot rs).totalFlux = some (9 * 2) ∧
    ((applyProfile exShoot 1 (some (2 * ·)) exPhot rs).ph 0).x = (exPhot.ph 0).x + 2 := by
  have hs : ∀ o a, ShootsOk a (exShoot o a) := fun o a => ⟨fun _ => rfl, id, id, id, id⟩
  have hp : exPhot.Paired := by constructor <;> rfl
  have hk : 0 < exPhot.numKeep := by rw [exPhot_numKeep]; norm_num
  have hF : exPhot.totalFlux = some 9 := by
    unfold PhotonArray.totalFlux
    rw [flux_eq _ hk, exPhot_numKeep]
    simp [Fin.sum_univ_three, exPhot]; norm_num
  refine ⟨hs, hp, hk, C116_total exShoot 1 _ exPhot rs (hs _ _) hk _ (flux_eq _ hk) 9 2 hF fun i => rfl, ?_⟩
  obtain ⟨τ, _, _, -, -, h, -⟩ := C116_applyTo exShoot 1 (some (2 * ·)) exPhot rs (hs _ _) hp hk _ (flux_eq _ hk) _ _ rfl rfl
  rw [(h 0).1]
  simp [exShoot, shotProfile]

end JG
