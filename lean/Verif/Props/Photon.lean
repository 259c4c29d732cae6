import Verif.Lemmas.Photon
import Mathlib.Tactic.FinCases

/-!
Properties C24 (kept photons), C26 (write/read) and C27 (copying ranges).
-/

namespace JG
variable {N M : ℕ}

/-- The set of photons that count. -/
def PhotonArray.kept (p : PhotonArray N) : Finset (Fin N) := Finset.univ.filter fun i => (p.ph i).nokeep = false

theorem mem_kept (p : PhotonArray N) (i : Fin N) : i ∈ p.kept ↔ (p.ph i).nokeep = false := by
  simp [PhotonArray.kept]

theorem card_kept (p : PhotonArray N) : p.kept.card = p.numKeep := rfl

theorem numKeep_pos_size (p : PhotonArray N) (h : 0 < p.numKeep) : 0 < N :=
  lt_of_lt_of_le h (cnt_le _)

/-- The `flux` property, both branches at once. -/
theorem flux_eq (p : PhotonArray N) (h : 0 < p.numKeep) :
    p.flux = some fun i => if (p.ph i).nokeep then 0 else (p.ph i).flux * (N / p.numKeep) := by
  have hN : (0 : ℝ) < N := by exact_mod_cast numKeep_pos_size p h
  unfold PhotonArray.flux
  split
  · rename_i e
    have : (N : ℝ) / p.numKeep = 1 := by rw [← e]; field_simp
    rw [this]; congr 1; funext i; simp [PhotonArray.masked]
  · rw [if_neg (by omega)]; congr 1; funext i
    unfold PhotonArray.masked PhotonArray.ratio; split <;> simp

/-- An example: three photons, the middle one masked. -/
def exPhot : PhotonArray 3 where
  ph i := ⟨i, 2, 3, decide (i = 1), none, none, none, none, none, none⟩
  isCorr := false

theorem exPhot_numKeep : exPhot.numKeep = 2 := by decide

/-! ### C24 -/

/-- C24: after `_num_keep = n` the array reports `n` kept photons. -/
theorem C24_num_keep (p : PhotonArray N) (n : ℕ) (hn : n ≤ N) : (p.setNumKeep n).numKeep = n := by
  rw [numKeep_eq]
  simp only [setNumKeep_ph]
  rw [cnt_perm (fun i : Fin N => decide ((i : ℕ) ≥ n)) p.argsort.symm, cnt_ge n hn]

example : (exPhot.setNumKeep 1).numKeep = 1 := C24_num_keep _ 1 (by norm_num)

/-- C24: positions, raw fluxes and optional attributes of every photon are untouched by `_num_keep = n`;
decreasing `n` drops the last kept photons, increasing `n` keeps all that were kept. -/
theorem C24_which (p : PhotonArray N) (n : ℕ) :
    (∀ i, (p.setNumKeep n).ph i = { p.ph i with nokeep := ((p.setNumKeep n).ph i).nokeep }) ∧
    (n ≤ p.numKeep → (p.setNumKeep n).kept ⊆ p.kept ∧
      ∀ i j, i ∈ (p.setNumKeep n).kept → j ∈ p.kept → j < i → j ∈ (p.setNumKeep n).kept) ∧
    (p.numKeep ≤ n → p.kept ⊆ (p.setNumKeep n).kept) := by
  have hk : ∀ i, i ∈ (p.setNumKeep n).kept ↔ ((p.argsort.symm i : Fin N) : ℕ) < n := by
    intro i; rw [mem_kept, setNumKeep_ph]; simp
  have hk' : ∀ i, i ∈ p.kept ↔ ((p.argsort.symm i : Fin N) : ℕ) < p.numKeep := by
    intro i; rw [mem_kept]; exact sort_symm_iff (fun i => (p.ph i).nokeep) i
  refine ⟨fun i => by rw [setNumKeep_ph], fun hn => ⟨?_, ?_⟩, fun hn i => ?_⟩
  · intro i hi; rw [hk] at hi; rw [hk']; omega
  · intro i j hi hj hji
    have hi' : i ∈ p.kept := by rw [hk'] ; rw [hk] at hi; omega
    rw [mem_kept] at hj hi'
    have := sort_symm_lt (fun i => (p.ph i).nokeep) j i hji (by simp [hj, hi'])
    rw [hk] at hi ⊢
    exact lt_trans this hi
  · rw [hk, hk']; omega

/-- C24: a photon that is not kept has flux zero, and the total is the sum over kept photons. -/
theorem C24_flux (p : PhotonArray N) (f : Fin N → ℝ) (h : p.flux = some f) :
    (∀ i, i ∉ p.kept → f i = 0) ∧ p.totalFlux = some (∑ i ∈ p.kept, f i) := by
  have h1 : ∀ i, i ∉ p.kept → f i = 0 := by
    intro i hi
    have hm : p.masked i = 0 := by
      rw [mem_kept] at hi; simp [PhotonArray.masked, hi]
    unfold PhotonArray.flux at h
    split at h
    · injection h with h; rw [← h]; exact hm
    · split at h
      · cases h
      · injection h with h; rw [← h]; simp [hm]
  refine ⟨h1, ?_⟩
  unfold PhotonArray.totalFlux
  rw [h]; simp only [Option.map_some]; congr 1
  symm; apply Finset.sum_subset (Finset.subset_univ _)
  intro i _ hi; exact h1 i hi

example : ∃ f, exPhot.flux = some f := ⟨_, flux_eq _ (by rw [exPhot_numKeep]; norm_num)⟩

/-- C24: assigning `flux = v` stores fluxes such that reading returns `v` for the kept photons. -/
theorem C24_set_flux (p : PhotonArray N) (h : 0 < p.numKeep) (v : Fin N → ℝ) :
    (p.setFlux v).flux = some fun i => if i ∈ p.kept then v i else 0 := by
  have hN : (0 : ℝ) < N := by exact_mod_cast numKeep_pos_size p h
  have hk : (0 : ℝ) < p.numKeep := by exact_mod_cast h
  have e : (p.setFlux v).numKeep = p.numKeep := rfl
  rw [flux_eq _ (by rw [e]; exact h), e]
  congr 1; funext i
  simp only [mem_kept, PhotonArray.setFlux, PhotonArray.ratio]
  rw [if_neg (by omega)]
  by_cases hb : (p.ph i).nokeep = true
  · simp [hb]
  · simp [hb]; field_simp

/-- C24: `scaleFlux` multiplies every reported flux, hence the total. -/
theorem C24_scale_flux (p : PhotonArray N) (h : 0 < p.numKeep) (s : ℝ) (f : Fin N → ℝ)
    (hf : p.flux = some f) : (p.scaleFlux s).flux = some fun i => f i * s := by
  have e : (p.scaleFlux s).numKeep = p.numKeep := rfl
  rw [flux_eq _ h] at hf; injection hf with hf
  rw [flux_eq _ (by rw [e]; exact h), e, ← hf]
  congr 1; funext i
  simp only [PhotonArray.scaleFlux]
  by_cases hb : (p.ph i).nokeep = true
  · simp [hb]
  · simp only [hb]; simp; ring

/-- C24: `setTotalFlux(F)` makes the total flux `F` (unless the total was zero or undefined). -/
theorem C24_set_total (p q : PhotonArray N) (h : 0 < p.numKeep) (F : ℝ)
    (hq : p.setTotalFlux F = some q) : q.totalFlux = some F := by
  unfold PhotonArray.setTotalFlux at hq
  have hf := flux_eq p h
  set f : Fin N → ℝ := fun i => if (p.ph i).nokeep then 0 else (p.ph i).flux * (N / p.numKeep) with hfd
  have ht : p.totalFlux = some (∑ i, f i) := by unfold PhotonArray.totalFlux; rw [hf]; rfl
  rw [ht] at hq
  simp only at hq
  split at hq
  · cases hq
  · rename_i hne
    injection hq with hq
    subst hq
    unfold PhotonArray.totalFlux
    rw [C24_scale_flux p h _ f hf]
    simp only [Option.map_some]; congr 1
    rw [← Finset.sum_mul]; field_simp

example : ∃ q, exPhot.setTotalFlux 5 = some q := by
  have hk : 0 < exPhot.numKeep := by rw [exPhot_numKeep]; norm_num
  have : exPhot.totalFlux = some 9 := by
    unfold PhotonArray.totalFlux
    rw [flux_eq _ hk, exPhot_numKeep]
    simp [Fin.sum_univ_three, exPhot]; norm_num
  unfold PhotonArray.setTotalFlux
  rw [this]; norm_num

/-- C24: when all photons carry the same raw flux, changing the number of kept photons to any `n > 0` does not
change the total flux (each kept photon gets a larger or smaller share). -/
theorem C24_total_uniform (p : PhotonArray N) (c : ℝ) (hc : ∀ i, (p.ph i).flux = c) (n : ℕ) (hn : 0 < n)
    (hN : n ≤ N) : (p.setNumKeep n).totalFlux = some (N * c) := by
  have hk := C24_num_keep p n hN
  have hpos : 0 < (p.setNumKeep n).numKeep := by omega
  have hfl := flux_eq _ hpos
  rw [(C24_flux _ _ hfl).2]
  congr 1
  have : ∀ i ∈ (p.setNumKeep n).kept, (if ((p.setNumKeep n).ph i).nokeep then 0 else
      ((p.setNumKeep n).ph i).flux * (N / ((p.setNumKeep n).numKeep : ℝ))) = c * (N / n) := by
    intro i hi
    rw [mem_kept] at hi
    rw [hk, hi]
    simp [setNumKeep_ph, hc]
  rw [Finset.sum_congr rfl this, Finset.sum_const, card_kept, hk]
  have : (n : ℝ) ≠ 0 := by positivity
  rw [nsmul_eq_mul]; field_simp

example : (exPhot.setNumKeep 1).totalFlux = some (3 * 3) := by
  have := C24_total_uniform exPhot 3 (fun _ => rfl) 1 (by norm_num) (by norm_num)
  simpa using this

/-- C24, the part that holds for "kept photons keep their flux": if the number of kept photons is unchanged the
reported fluxes of the kept photons are unchanged.  Missing: setting a different number (see below). -/
theorem C24_keep_flux_partial (p : PhotonArray N) (h : 0 < p.numKeep) (f : Fin N → ℝ)
    (hf : p.flux = some f) : (p.setNumKeep p.numKeep).flux = some f := by
  have hk := C24_num_keep p p.numKeep (cnt_le _)
  rw [flux_eq _ h] at hf
  rw [flux_eq _ (by rw [hk]; exact h), hk, ← hf]
  congr 1; funext i
  have : ((p.setNumKeep p.numKeep).ph i).nokeep = (p.ph i).nokeep := by
    have h1 := sort_symm_iff (fun i => (p.ph i).nokeep) i
    rw [setNumKeep_ph]
    cases hb : (p.ph i).nokeep
    · have := h1.mp hb
      simp only [decide_eq_false_iff_not, not_le, ge_iff_le]; exact this
    · have : ¬ (((Tuple.sort fun i => (p.ph i).nokeep).symm i : Fin N) : ℕ) < cnt (fun i => (p.ph i).nokeep) := by
        rw [← h1, hb]; simp
      simp only [decide_eq_true_eq, ge_iff_le]; exact not_lt.mp this
  rw [this]
  split
  · rfl
  · rw [setNumKeep_ph]

/-- Disagreement: setting the number of kept photons rescales the fluxes of the photons that stay kept; here two
photons of flux 1 become one photon of flux 2. -/
theorem C24_keep_flux_counterexample :
    let p : PhotonArray 2 := ⟨fun _ => ⟨0, 0, 1, false, none, none, none, none, none, none⟩, false⟩
    p.flux = some (fun _ => 1) ∧ ∃ f, (p.setNumKeep 1).flux = some f ∧ ∃ i ∈ (p.setNumKeep 1).kept, f i = 2 := by
  intro p
  have hp : p.numKeep = 2 := by decide
  have hk := C24_num_keep p 1 (by norm_num)
  refine ⟨?_, ?_⟩
  · rw [flux_eq _ (by omega), hp]; congr 1; funext i; simp [p]
  · refine ⟨_, flux_eq _ (by omega), ?_⟩
    have : (p.setNumKeep 1).kept.Nonempty := by
      rw [← Finset.card_pos, card_kept]; omega
    obtain ⟨i, hi⟩ := this
    refine ⟨i, hi, ?_⟩
    rw [mem_kept] at hi
    rw [hi, hk, setNumKeep_ph]; simp [p]

/-- Disagreement: keeping zero photons of a non-empty buffer makes every reported flux and the total flux NaN
(`0 * N / 0`), instead of zero. -/
theorem C24_zero_kept_counterexample (p : PhotonArray (N + 1)) : (p.setNumKeep 0).totalFlux = none := by
  have hk := C24_num_keep p 0 (by omega)
  unfold PhotonArray.totalFlux PhotonArray.flux
  rw [hk]; simp

/-- C24: a new array made for `n` photons in a buffer reports `n` kept photons, all of zero flux. -/
theorem C24_new (size : Option ℕ) (n : ℕ) (h : photFits size n = true) :
    (PhotonArray.blank size n).numKeep = n ∧ n ≤ photNtot size n := by
  have hn : n ≤ photNtot size n := by
    unfold photFits at h; unfold photNtot
    cases size with
    | none => simp
    | some s => simp at h; simp only; split <;> omega
  exact ⟨by rw [numKeep_eq]; exact cnt_ge n hn, hn⟩

example : photFits (some 10) 4 = true := by decide

/-! ### C26 -/

/-- Equality as tested by `__eq__` (photon_array.py:851-866): positions, reported fluxes, mask and attributes. -/
def PhotonArray.SamePhotons (p q : PhotonArray N) : Prop :=
  (∀ i, (p.ph i).x = (q.ph i).x ∧ (p.ph i).y = (q.ph i).y ∧ (p.ph i).nokeep = (q.ph i).nokeep ∧
    (p.ph i).dxdz = (q.ph i).dxdz ∧ (p.ph i).dydz = (q.ph i).dydz ∧ (p.ph i).wave = (q.ph i).wave ∧
    (p.ph i).pupU = (q.ph i).pupU ∧ (p.ph i).pupV = (q.ph i).pupV ∧ (p.ph i).time = (q.ph i).time) ∧
  p.flux = q.flux

/-- The state invariant kept by the setters: if one of a pair of attributes is allocated so is the other. -/
def PhotonArray.Paired (p : PhotonArray N) : Prop :=
  (anyFinite (fun i => (p.ph i).dxdz) = anyFinite (fun i => (p.ph i).dydz)) ∧
  (anyFinite (fun i => (p.ph i).pupU) = anyFinite (fun i => (p.ph i).pupV))

theorem anyFinite_false (a : Fin N → Option ℝ) (h : anyFinite a = false) (i : Fin N) : a i = none := by
  unfold anyFinite at h
  simp only [decide_eq_false_iff_not, not_exists] at h
  simpa using h i

theorem zeroIfNeeded_of_eq (t z : Fin N → Option ℝ) (h : anyFinite t = anyFinite z) : zeroIfNeeded t z = z := by
  unfold zeroIfNeeded; rw [h]; cases anyFinite z <;> simp

theorem hasAngles_eq (p : PhotonArray N) :
    p.hasAngles = (anyFinite (fun i => (p.ph i).dxdz) || anyFinite (fun i => (p.ph i).dydz)) := by
  unfold PhotonArray.hasAngles anyFinite
  rw [← Bool.decide_or]; congr 1; rw [exists_or]

theorem hasPupil_eq (p : PhotonArray N) :
    p.hasPupil = (anyFinite (fun i => (p.ph i).pupU) || anyFinite (fun i => (p.ph i).pupV)) := by
  unfold PhotonArray.hasPupil anyFinite
  rw [← Bool.decide_or]; congr 1; rw [exists_or]

theorem angles_set (q : PhotonArray N) (a b : Fin N → Option ℝ) (h : anyFinite a = anyFinite b) (i : Fin N) :
    ((q.setDxdz a).setDydz b).ph i = { q.ph i with dxdz := a i, dydz := b i } := by
  simp only [PhotonArray.setDxdz, PhotonArray.setDydz]
  rw [zeroIfNeeded_of_eq b a h.symm]

theorem pupil_set (q : PhotonArray N) (a b : Fin N → Option ℝ) (h : anyFinite a = anyFinite b) (i : Fin N) :
    ((q.setPupU a).setPupV b).ph i = { q.ph i with pupU := a i, pupV := b i } := by
  simp only [PhotonArray.setPupU, PhotonArray.setPupV]
  rw [zeroIfNeeded_of_eq b a h.symm]

/-- What `read` returns for a file written from `p`, attribute by attribute (helper). -/
theorem read_write (p : PhotonArray N) (fl : Fin N → ℝ) (hf : p.flux = some fl) (hp : p.Paired) :
    ∃ q, p.write.read = some q ∧ ∀ i, q.ph i = { p.ph i with flux := fl i } := by
  obtain ⟨ha, hu⟩ := hp
  have e1 : ∀ q : PhotonArray N, (∀ j, (q.ph j).dxdz = none ∧ (q.ph j).dydz = none) → ∀ j,
      (q.readAngles p.write.angles).ph j = { q.ph j with dxdz := (p.ph j).dxdz, dydz := (p.ph j).dydz } := by
    intro q hq j
    simp only [PhotonArray.write]
    cases h : p.hasAngles
    · rw [hasAngles_eq] at h
      simp only [Bool.or_eq_false_iff] at h
      have h1 := anyFinite_false _ h.1 j
      have h2 := anyFinite_false _ h.2 j
      ext1 <;> simp [PhotonArray.readAngles, h1, h2, hq j]
    · exact angles_set q _ _ ha j
  have e2 : ∀ q : PhotonArray N, (∀ j, (q.ph j).pupU = none ∧ (q.ph j).pupV = none) → ∀ j,
      (q.readPupil p.write.pupil).ph j = { q.ph j with pupU := (p.ph j).pupU, pupV := (p.ph j).pupV } := by
    intro q hq j
    simp only [PhotonArray.write]
    cases h : p.hasPupil
    · rw [hasPupil_eq] at h
      simp only [Bool.or_eq_false_iff] at h
      have h1 := anyFinite_false _ h.1 j
      have h2 := anyFinite_false _ h.2 j
      ext1 <;> simp [PhotonArray.readPupil, h1, h2, hq j]
    · exact pupil_set q _ _ hu j
  have e3 : ∀ q : PhotonArray N, (∀ j, (q.ph j).wave = none) → ∀ j,
      (q.readWave p.write.wave).ph j = { q.ph j with wave := (p.ph j).wave } := by
    intro q hq j
    simp only [PhotonArray.write]
    cases h : p.hasWave
    · have h1 := anyFinite_false _ h j
      ext1 <;> simp [PhotonArray.readWave, h1, hq j]
    · rfl
  have e4 : ∀ q : PhotonArray N, (∀ j, (q.ph j).time = none) → ∀ j,
      (q.readTime p.write.time).ph j = { q.ph j with time := (p.ph j).time } := by
    intro q hq j
    simp only [PhotonArray.write]
    cases h : p.hasTime
    · have h1 := anyFinite_false _ h j
      ext1 <;> simp [PhotonArray.readTime, h1, hq j]
    · rfl
  have hfe : p.write.flux = some fl := hf
  unfold PhotFile.read
  rw [hfe]
  refine ⟨_, rfl, fun i => ?_⟩
  have hN : (N : ℝ) ≠ 0 := by have := i.pos; positivity
  have hblank : cnt (fun j : Fin N => decide ((j : ℕ) ≥ N)) = N := cnt_ge N le_rfl
  have hfl : ∀ j, (if N = 0 then (0 : ℝ) else fl j / ((N : ℝ) / N)) = fl j := by
    intro j; rw [if_neg (by have := i.pos; omega)]; field_simp
  have f1 := e1 { (({ (PhotonArray.blank none N) with ph := fun i => { (PhotonArray.blank none N).ph i with
    x := p.write.x i, y := p.write.y i } } : PhotonArray N).setFlux fl) with ph := fun i =>
      { (({ (PhotonArray.blank none N) with ph := fun i => { (PhotonArray.blank none N).ph i with
        x := p.write.x i, y := p.write.y i } } : PhotonArray N).setFlux fl).ph i with nokeep := p.write.nokeep i } }
    (fun j => ⟨rfl, rfl⟩)
  have f2 := e3 _ (fun j => by rw [f1 j]; rfl)
  have f3 := e2 _ (fun j => by rw [f2 j, f1 j]; exact ⟨rfl, rfl⟩)
  have f4 := e4 _ (fun j => by rw [f3 j, f2 j, f1 j]; rfl)
  simp only
  rw [f4 i, f3 i, f2 i, f1 i]
  simp only [PhotonArray.setFlux, PhotonArray.ratio, numKeep_eq, PhotonArray.blank, hblank, hfl, PhotonArray.write]

/-- C26, the part that holds: an array without masked photons comes back with the same photons, attributes and
fluxes.  Missing: arrays with masked photons (counterexample below); the flag `_is_corr` is not stored. -/
theorem C26_write_read_partial (p : PhotonArray N) (hp : p.Paired) (hk : ∀ i, (p.ph i).nokeep = false) :
    ∃ q, p.write.read = some q ∧ q.SamePhotons p ∧ q.totalFlux = p.totalFlux := by
  have hK : p.numKeep = N := by rw [numKeep_eq, cnt_eq_iff]; exact hk
  have hf : p.flux = some fun i => (p.ph i).flux := by
    unfold PhotonArray.flux; rw [if_pos hK.symm]; congr 1; funext i; simp [PhotonArray.masked, hk i]
  obtain ⟨q, hq, h⟩ := read_write p _ hf hp
  have he : ∀ i, q.ph i = p.ph i := fun i => by rw [h i]
  have hqk : q.numKeep = N := by rw [numKeep_eq, cnt_eq_iff]; intro i; rw [he]; exact hk i
  have hfl : q.flux = p.flux := by
    rw [hf]; unfold PhotonArray.flux; rw [if_pos hqk.symm]; congr 1; funext i
    simp [PhotonArray.masked, he, hk i]
  refine ⟨q, hq, ⟨fun i => by rw [he]; simp, hfl⟩, ?_⟩
  unfold PhotonArray.totalFlux; rw [hfl]

example : ∃ q, (PhotonArray.mk (N := 2) (fun i => ⟨i, 1, 3, false, none, none, some 500, none, none, none⟩)
    true).write.read = some q ∧ q.totalFlux = some 6 := by
  obtain ⟨q, h, _, h2⟩ := C26_write_read_partial (PhotonArray.mk (N := 2)
    (fun i => ⟨i, 1, 3, false, none, none, some 500, none, none, none⟩) true)
    (by constructor <;> rfl) (fun i => rfl)
  refine ⟨q, h, ?_⟩
  rw [h2]; unfold PhotonArray.totalFlux PhotonArray.flux
  rw [if_pos (by decide)]; simp [PhotonArray.masked]; norm_num

/-- C26: what reading back does in general: positions, mask and attributes are restored, and every flux is
multiplied by total/kept. -/
theorem C26_write_read_scaled (p : PhotonArray N) (hp : p.Paired) (hk : 0 < p.numKeep) (f : Fin N → ℝ)
    (hf : p.flux = some f) :
    ∃ q, p.write.read = some q ∧ (∀ i, q.ph i = { p.ph i with flux := f i }) ∧
      q.flux = some fun i => f i * (N / p.numKeep) := by
  obtain ⟨q, hq, h⟩ := read_write p f hf hp
  refine ⟨q, hq, h, ?_⟩
  have hqk : q.numKeep = p.numKeep := by rw [numKeep_eq, numKeep_eq]; congr 1; funext i; rw [h i]
  rw [flux_eq q (by omega), hqk]; congr 1; funext i
  rw [h i]
  by_cases hb : (p.ph i).nokeep = true
  · have : f i = 0 := (C24_flux p f hf).1 i (by rw [mem_kept]; simp [hb])
    simp [hb, this]
  · simp [hb]

example : exPhot.Paired ∧ 0 < exPhot.numKeep := ⟨by constructor <;> rfl, by rw [exPhot_numKeep]; norm_num⟩

/-- Disagreement: `read` constructs the photons as if all were kept and only then restores the mask, so an array
with masked photons comes back with every flux multiplied by total/kept (here 9 becomes 27/2). -/
theorem C26_write_read_counterexample :
    exPhot.totalFlux = some 9 ∧ ∃ q, exPhot.write.read = some q ∧ q.totalFlux = some (27 / 2) := by
  have hk : 0 < exPhot.numKeep := by rw [exPhot_numKeep]; norm_num
  have hf := flux_eq exPhot hk
  obtain ⟨q, hq, -, hfl⟩ := C26_write_read_scaled exPhot (by constructor <;> rfl) hk _ hf
  refine ⟨?_, q, hq, ?_⟩
  · unfold PhotonArray.totalFlux
    rw [hf, exPhot_numKeep]; simp [Fin.sum_univ_three, exPhot]; norm_num
  · unfold PhotonArray.totalFlux
    rw [hfl, exPhot_numKeep]; simp [Fin.sum_univ_three, exPhot]; norm_num

/-! ### C27 -/

/-- C27: with all three switches on, `copyFrom` gives each selected photon the position, mask and reported flux
of its source photon and leaves every other photon's position, mask and reported flux alone. -/
theorem C27_copy {m : ℕ} (p : PhotonArray N) (r : PhotonArray M) (t : Fin m → Fin N) (s : Fin m → Fin M)
    (ht : Function.Injective t) (hp : 0 < p.numKeep) (hr : 0 < r.numKeep) (fp : Fin N → ℝ) (fr : Fin M → ℝ)
    (hfp : p.flux = some fp) (hfr : r.flux = some fr)
    (hq : 0 < (p.copyFrom r t s true true true).numKeep) :
    ∃ fq, (p.copyFrom r t s true true true).flux = some fq ∧
    (∀ k, fq (t k) = fr (s k) ∧ ((p.copyFrom r t s true true true).ph (t k)).x = (r.ph (s k)).x ∧
      ((p.copyFrom r t s true true true).ph (t k)).y = (r.ph (s k)).y ∧
      ((p.copyFrom r t s true true true).ph (t k)).nokeep = (r.ph (s k)).nokeep) ∧
    (∀ i, (∀ k, t k ≠ i) → fq i = fp i ∧
      { (p.copyFrom r t s true true true).ph i with flux := (p.ph i).flux } = p.ph i) := by
  set q := p.copyFrom r t s true true true with hqd
  have hN : (N : ℝ) ≠ 0 := by have := numKeep_pos_size p hp; positivity
  have hM : (M : ℝ) ≠ 0 := by have := numKeep_pos_size r hr; positivity
  have hk1 : (p.numKeep : ℝ) ≠ 0 := by positivity
  have hk2 : (r.numKeep : ℝ) ≠ 0 := by positivity
  have hk3 : (q.numKeep : ℝ) ≠ 0 := by positivity
  rw [flux_eq p hp] at hfp
  rw [flux_eq r hr] at hfr
  injection hfp with hfp
  injection hfr with hfr
  have hnk : ∀ i, (q.ph i).nokeep = setAt (fun i => (p.ph i).nokeep) t (fun k => (r.ph (s k)).nokeep) i := by
    intro i; simp [hqd, PhotonArray.copyFrom]
  have hnum : q.numKeep = cnt (setAt (fun i => (p.ph i).nokeep) t (fun k => (r.ph (s k)).nokeep)) := by
    rw [numKeep_eq]; rfl
  have hflx : ∀ i, (q.ph i).flux = setAt (fun i => (p.ph i).flux * (N / p.numKeep) / (N / q.numKeep)) t
      (fun k => (r.ph (s k)).flux * (M / r.numKeep) / (N / q.numKeep)) i := by
    intro i; rw [hnum]; rfl
  refine ⟨_, flux_eq q hq, fun k => ⟨?_, ?_, ?_, ?_⟩, fun i hi => ⟨?_, ?_⟩⟩
  · rw [hnk, hflx, setAt_hit _ _ _ ht, setAt_hit _ _ _ ht, ← hfr]
    by_cases hb : (r.ph (s k)).nokeep = true
    · simp [hb]
    · simp only [hb]; simp; field_simp
  · simp [hqd, PhotonArray.copyFrom, setAt_hit _ _ _ ht]
  · simp [hqd, PhotonArray.copyFrom, setAt_hit _ _ _ ht]
  · rw [hnk, setAt_hit _ _ _ ht]
  · rw [hnk, hflx, setAt_miss _ _ _ i hi, setAt_miss _ _ _ i hi, ← hfp]
    by_cases hb : (p.ph i).nokeep = true
    · simp [hb]
    · simp only [hb]; simp; field_simp
  · exact copyFrom_miss p r t s i hi

/-- Example arrays for copying: two kept photons of flux 3, one kept photon of flux 5. -/
def exDst : PhotonArray 2 := ⟨fun i => ⟨i, 0, 3, false, none, none, none, none, none, none⟩, false⟩
def exSrc : PhotonArray 1 := ⟨fun _ => ⟨7, 8, 5, false, none, none, some 500, none, none, none⟩, false⟩

example : Function.Injective (fun _ : Fin 1 => (1 : Fin 2)) ∧ 0 < exDst.numKeep ∧ 0 < exSrc.numKeep :=
  ⟨Function.injective_of_subsingleton _, by decide, by decide⟩

/-- C27: the optional attributes of the selected photons are copied when the source has them, otherwise they
stay as they were. -/
theorem C27_copy_other {m : ℕ} (p : PhotonArray N) (r : PhotonArray M) (t : Fin m → Fin N) (s : Fin m → Fin M)
    (ht : Function.Injective t) (a b : Bool) (k : Fin m) :
    let q := p.copyFrom r t s a b true
    ((q.ph (t k)).dxdz = if r.hasAngles then (r.ph (s k)).dxdz else (p.ph (t k)).dxdz) ∧
    ((q.ph (t k)).dydz = if r.hasAngles then (r.ph (s k)).dydz else (p.ph (t k)).dydz) ∧
    ((q.ph (t k)).wave = if r.hasWave then (r.ph (s k)).wave else (p.ph (t k)).wave) ∧
    ((q.ph (t k)).pupU = if r.hasPupil then (r.ph (s k)).pupU else (p.ph (t k)).pupU) ∧
    ((q.ph (t k)).pupV = if r.hasPupil then (r.ph (s k)).pupV else (p.ph (t k)).pupV) ∧
    ((q.ph (t k)).time = if r.hasTime then (r.ph (s k)).time else (p.ph (t k)).time) := by
  refine ⟨?_, ?_, ?_, ?_, ?_, ?_⟩ <;> simp only [PhotonArray.copyFrom, if_true] <;>
    rw [condSetAt_hit _ _ _ _ ht]

/-- C27: a switch that is off leaves its attributes alone in every photon: positions for `do_xy`, raw fluxes for
`do_flux`, optional attributes for `do_other`; with all three off nothing changes. -/
theorem C27_switches {m : ℕ} (p : PhotonArray N) (r : PhotonArray M) (t : Fin m → Fin N) (s : Fin m → Fin M)
    (a b : Bool) (i : Fin N) :
    (((p.copyFrom r t s false a b).ph i).x = (p.ph i).x ∧ ((p.copyFrom r t s false a b).ph i).y = (p.ph i).y) ∧
    ((p.copyFrom r t s a false b).ph i).flux = (p.ph i).flux ∧
    (let q := p.copyFrom r t s a b false
     (q.ph i).dxdz = (p.ph i).dxdz ∧ (q.ph i).dydz = (p.ph i).dydz ∧ (q.ph i).wave = (p.ph i).wave ∧
     (q.ph i).pupU = (p.ph i).pupU ∧ (q.ph i).pupV = (p.ph i).pupV ∧ (q.ph i).time = (p.ph i).time) ∧
    p.copyFrom r t s false false false = p := by
  cases a <;> cases b <;> simp [PhotonArray.copyFrom]

/-- C27: with `do_flux=False` the reported fluxes are also unchanged provided the selected photons have the same
mask in source and target (in particular when nothing is masked).  Missing: different masks, see below. -/
theorem C27_no_flux_partial {m : ℕ} (p : PhotonArray N) (r : PhotonArray M) (t : Fin m → Fin N)
    (s : Fin m → Fin M) (ht : Function.Injective t) (a b : Bool)
    (hm : ∀ k, (r.ph (s k)).nokeep = (p.ph (t k)).nokeep) : (p.copyFrom r t s a false b).flux = p.flux := by
  have hs : setAt (fun i => (p.ph i).nokeep) t (fun k => (r.ph (s k)).nokeep) = fun i => (p.ph i).nokeep := by
    funext i
    by_cases h : ∃ k, t k = i
    · obtain ⟨k, rfl⟩ := h
      rw [setAt_hit _ _ _ ht, hm]
    · push Not at h
      rw [setAt_miss _ _ _ i h]
  have hnk : ∀ i, ((p.copyFrom r t s a false b).ph i).nokeep = (p.ph i).nokeep := by
    intro i
    have := congrFun hs i
    cases a <;> cases b <;> simp_all [PhotonArray.copyFrom]
  have hfl : ∀ i, ((p.copyFrom r t s a false b).ph i).flux = (p.ph i).flux := by
    intro i; cases a <;> cases b <;> simp [PhotonArray.copyFrom]
  have hnum : (p.copyFrom r t s a false b).numKeep = p.numKeep := by
    rw [numKeep_eq, numKeep_eq]; congr 1; funext i; exact hnk i
  have hmask : (p.copyFrom r t s a false b).masked = p.masked := by
    funext i; unfold PhotonArray.masked; rw [hnk, hfl]
  unfold PhotonArray.flux PhotonArray.ratio
  rw [hnum, hmask]

example : ∀ k : Fin 1, (exSrc.ph ((fun k => k) k)).nokeep = (exDst.ph ((fun _ => 0) k)).nokeep := fun _ => rfl

/-- Disagreement: `copyFrom(.., do_flux=False)` still copies the mask, which changes the fluxes of photons outside
the selected range: copying one masked photon doubles the flux of the other photon. -/
theorem C27_no_flux_counterexample :
    let r : PhotonArray 1 := ⟨fun _ => ⟨0, 0, 1, true, none, none, none, none, none, none⟩, false⟩
    ∃ f g, exDst.flux = some f ∧ (exDst.copyFrom r (fun _ : Fin 1 => (0 : Fin 2)) (fun k => k) true false false).flux
      = some g ∧ f 1 = 3 ∧ g 1 = 6 := by
  intro r
  have ht : Function.Injective (fun _ : Fin 1 => (0 : Fin 2)) := Function.injective_of_subsingleton _
  set q := exDst.copyFrom r (fun _ : Fin 1 => (0 : Fin 2)) (fun k => k) true false false with hqd
  have hn : ∀ i, (q.ph i).nokeep = decide (i = 0) := by
    intro i
    simp only [hqd, PhotonArray.copyFrom, Bool.or_false, if_true, Bool.false_eq_true, if_false]
    fin_cases i
    · exact setAt_hit _ _ _ ht 0
    · rw [setAt_miss _ _ _ _ (by intro k; simp)]; rfl
  have hq : q.numKeep = 1 := by
    have e : (fun i => (q.ph i).nokeep) = fun i => decide (i = 0) := funext hn
    rw [numKeep_eq, e]; decide
  have hd : exDst.numKeep = 2 := by decide
  refine ⟨_, _, flux_eq _ (by omega), flux_eq _ (by omega), ?_, ?_⟩
  · rw [hd]; simp [exDst]
  · rw [hn, hq]
    have : (q.ph 1).flux = 3 := by
      simp [hqd, PhotonArray.copyFrom, exDst]
    simp [this]; norm_num

/-- C27: `assignAt(istart, rhs)` with `istart ≥ 0` raises exactly when `rhs` does not fit, and otherwise is the
full copy of photon `k` of `rhs` to place `istart + k`. -/
theorem C27_assignAt (p : PhotonArray N) (r : PhotonArray M) (i : ℕ) :
    (p.assignAt i r = none ↔ N < i + M) ∧
    ∀ q, p.assignAt i r = some q → ∃ t : Fin M → Fin N, (∀ k, (t k : ℕ) = i + k) ∧
      q = p.copyFrom r t (fun k => k) true true true := by
  unfold PhotonArray.assignAt
  by_cases hN : N < i + M
  · rw [if_pos (by omega)]; simp [hN]
  · rw [if_neg (by omega)]
    have ha : sliceEnd (i : ℤ) N = i := by unfold sliceEnd; rw [if_neg (by omega)]; simp; omega
    have hb : sliceEnd ((i : ℤ) + M) N = i + M := by
      unfold sliceEnd; rw [if_neg (by omega)]
      have : ((i : ℤ) + M).toNat = i + M := by omega
      rw [this]; omega
    have hl : sliceEnd ((i : ℤ) + M) N - sliceEnd (i : ℤ) N = M := by rw [ha, hb]; omega
    simp only [dif_pos hl]
    refine ⟨by simp [hN], ?_⟩
    intro q hq
    injection hq with hq
    refine ⟨fun k => sliceIdx i (i + M) N ⟨k, by rw [hl]; exact k.2⟩, fun k => by simp [sliceIdx, ha], ?_⟩
    rw [← hq]
    have key : ∀ (m : ℕ) (h : m = M) (t : Fin m → Fin N),
        p.copyFrom r t (fun k => ⟨k, h ▸ k.2⟩) true true true =
        p.copyFrom r (fun k : Fin M => t ⟨k, by rw [h]; exact k.2⟩) (fun k => k) true true true := by
      intro m h t; subst h; rfl
    exact key _ hl _

example : ∃ q, exDst.assignAt (1 : ℕ) exSrc = some q := by
  cases h : exDst.assignAt (1 : ℕ) exSrc with
  | none => exact absurd ((C27_assignAt exDst exSrc 1).1.mp h) (by norm_num)
  | some q => exact ⟨q, rfl⟩

/-- Disagreement: a negative start is not rejected; assigning one photon at -1 (or at any start below -1) of a
two-photon array silently does nothing. -/
theorem C27_assignAt_negative_counterexample :
    ∃ q, exDst.assignAt (-1) exSrc = some q ∧ ∀ i, { q.ph i with flux := (exDst.ph i).flux } = exDst.ph i := by
  have ha : sliceEnd (-1) 2 = 1 := by decide
  have hb : sliceEnd (-1 + ((1 : ℕ) : ℤ)) 2 = 0 := by decide
  have h0 : ¬ (sliceEnd (-1 + ((1 : ℕ) : ℤ)) 2 - sliceEnd (-1) 2 = 1) := by rw [ha, hb]; norm_num
  unfold PhotonArray.assignAt
  rw [if_neg (by norm_num)]
  simp only [dif_neg h0]
  refine ⟨_, rfl, fun i => ?_⟩
  have hm : ∀ k, sliceIdx (-1) (-1 + ((1 : ℕ) : ℤ)) 2 k ≠ i := by
    intro k; have := lt_of_lt_of_eq k.2 (show _ = 0 by rw [ha, hb]); omega
  exact copyFrom_miss _ _ _ _ i hm

/-- C27: assignment by category (used for sums of objects) replaces exactly the photons of the given category and
preserves the reported fluxes of both the assigned and the remaining photons. -/
theorem C27_assign_category (p r : PhotonArray N) (cat : Fin N → ℕ) (c : ℕ) (hp : 0 < p.numKeep)
    (hr : 0 < r.numKeep) (hq : 0 < (p.assignCat cat c r).numKeep) (fp fr : Fin N → ℝ)
    (hfp : p.flux = some fp) (hfr : r.flux = some fr) :
    (p.assignCat cat c r).flux = some (fun i => if cat i = c then fr i else fp i) ∧
    ∀ i, { (p.assignCat cat c r).ph i with flux := 0 } =
      (if cat i = c then { r.ph i with flux := 0 } else { p.ph i with flux := 0 }) := by
  have hN : (N : ℝ) ≠ 0 := by have := numKeep_pos_size p hp; positivity
  have hk1 : (p.numKeep : ℝ) ≠ 0 := by positivity
  have hk2 : (r.numKeep : ℝ) ≠ 0 := by positivity
  set q := p.assignCat cat c r with hqd
  have hk3 : (q.numKeep : ℝ) ≠ 0 := by positivity
  rw [flux_eq p hp] at hfp
  rw [flux_eq r hr] at hfr
  injection hfp with hfp
  injection hfr with hfr
  constructor
  · rw [flux_eq q hq]; congr 1; funext i
    have hn : (q.ph i).nokeep = if c = cat i then (r.ph i).nokeep else (p.ph i).nokeep := by
      simp [hqd, PhotonArray.assignCat]
    have hf : (q.ph i).flux = if c = cat i then (r.ph i).flux * (N / r.numKeep) / (N / q.numKeep)
        else (p.ph i).flux * (N / p.numKeep) / (N / q.numKeep) := by
      simp [hqd, PhotonArray.assignCat, PhotonArray.ratio, PhotonArray.numKeep]
    rw [hn, hf, ← hfp, ← hfr]
    by_cases h : cat i = c
    · have h' : c = cat i := h.symm
      simp only [if_pos h, if_pos h']
      by_cases hb : (r.ph i).nokeep = true
      · simp [hb]
      · simp only [hb]; simp; field_simp
    · have h' : ¬ c = cat i := fun e => h e.symm
      simp only [if_neg h, if_neg h']
      by_cases hb : (p.ph i).nokeep = true
      · simp [hb]
      · simp only [hb]; simp; field_simp
  · intro i
    by_cases h : cat i = c
    · have h' : c = cat i := h.symm
      rw [if_pos h]; ext1 <;> simp [hqd, PhotonArray.assignCat, h']
    · have h' : ¬ c = cat i := fun e => h e.symm
      rw [if_neg h]; ext1 <;> simp [hqd, PhotonArray.assignCat, h']

example : 0 < (exDst.assignCat (fun i => i) 0 exDst).numKeep := by
  have : (fun i => ((exDst.assignCat (fun i => i) 0 exDst).ph i).nokeep) = fun _ => false := by
    funext i; simp [PhotonArray.assignCat, exDst]
  rw [numKeep_eq, this]; decide

/-- C24: `scaleXY` multiplies both coordinates of every photon and changes nothing else. -/
theorem C24_scale_xy (p : PhotonArray N) (s : ℝ) :
    (∀ i, ((p.scaleXY s).ph i).x = s * (p.ph i).x ∧ ((p.scaleXY s).ph i).y = s * (p.ph i).y) ∧
    (p.scaleXY s).flux = p.flux ∧ (p.scaleXY s).kept = p.kept ∧ (p.scaleXY s).isCorr = p.isCorr ∧
    (∀ i, ((p.scaleXY s).ph i).dxdz = (p.ph i).dxdz ∧ ((p.scaleXY s).ph i).dydz = (p.ph i).dydz ∧
      ((p.scaleXY s).ph i).wave = (p.ph i).wave ∧ ((p.scaleXY s).ph i).time = (p.ph i).time ∧
      ((p.scaleXY s).ph i).pupU = (p.ph i).pupU ∧ ((p.scaleXY s).ph i).pupV = (p.ph i).pupV) :=
  ⟨fun _ => ⟨mul_comm _ _, mul_comm _ _⟩, rfl, rfl, rfl, fun _ => ⟨rfl, rfl, rfl, rfl, rfl, rfl⟩⟩

end JG
