import Verif.Props.Photon

/-!
Property C25: convolution of photon arrays.
-/

namespace JG
variable {N : ℕ}

/-- C25: convolving `p` with `r` pairs the photons one to one (`τ`); positions are added, masks stay, the reported
flux of a kept photon is the product of the two fluxes times the number of kept photons of `r`; kept photons of
`p` are paired with kept photons of `r` whenever `r` keeps at least as many; `r` is unchanged. -/
theorem C25_convolve (p r : PhotonArray N) (rs : Equiv.Perm (Fin N)) (hp : 0 < p.numKeep)
    (hle : p.numKeep ≤ r.numKeep) (fp fr : Fin N → ℝ) (hfp : p.flux = some fp) (hfr : r.flux = some fr) :
    ∃ τ : Equiv.Perm (Fin N),
      (∀ i ∈ p.kept, τ i ∈ r.kept) ∧
      (∀ i, ((p.convolve r rs).1.ph i).x = (p.ph i).x + (r.ph (τ i)).x ∧
            ((p.convolve r rs).1.ph i).y = (p.ph i).y + (r.ph (τ i)).y ∧
            ((p.convolve r rs).1.ph i).nokeep = (p.ph i).nokeep) ∧
      (p.convolve r rs).1.flux = some (fun i => fp i * fr (τ i) * r.numKeep) ∧
      (p.convolve r rs).2 = r ∧
      ((p.isCorr && r.isCorr) = false → ∀ i ∈ p.kept, ∀ j ∈ p.kept, i < j → τ i < τ j) := by
  have hr : 0 < r.numKeep := by omega
  have hN : (N : ℝ) ≠ 0 := by have := numKeep_pos_size p hp; positivity
  have hk1 : (p.numKeep : ℝ) ≠ 0 := by positivity
  have hk2 : (r.numKeep : ℝ) ≠ 0 := by positivity
  set ρ : Equiv.Perm (Fin N) := if p.isCorr && r.isCorr then
    (Tuple.sort (fun j => (r.ph (r.argsort (rs j))).nokeep)).trans rs else Equiv.refl _ with hρ
  have hpair : (if p.isCorr && r.isCorr then
    fun i => rs (Tuple.sort (fun j => (r.ph (r.argsort (rs j))).nokeep) i) else fun i => i) = ρ := by
    rw [hρ]; split <;> rfl
  -- sorted positions below the kept count are kept photons of r
  have hρk : ∀ j : Fin N, (j : ℕ) < r.numKeep → (r.ph (r.argsort (ρ j))).nokeep = false := by
    intro j hj
    rw [← hpair]
    split
    · apply (sort_iff (fun j => (r.ph (r.argsort (rs j))).nokeep) j).mpr
      have := cnt_perm (fun i => (r.ph i).nokeep) (rs.trans r.argsort)
      rw [numKeep_eq, ← this] at hj
      exact hj
    · exact (sort_iff (fun i => (r.ph i).nokeep) j).mpr hj
  have hx : ∀ i, ((p.convolve r rs).1.ph i).x = (p.ph i).x + (r.ph (r.argsort (ρ (p.argsort.symm i)))).x := by
    intro i; rw [← hpair]
    simp only [PhotonArray.convolve, PhotonArray.scatter, PhotonArray.gather, PhotonArray.setDxdz,
      PhotonArray.setDydz, PhotonArray.setWave, PhotonArray.setPupU, PhotonArray.setPupV, PhotonArray.setTime,
      Equiv.apply_symm_apply]
    congr
  have hy : ∀ i, ((p.convolve r rs).1.ph i).y = (p.ph i).y + (r.ph (r.argsort (ρ (p.argsort.symm i)))).y := by
    intro i; rw [← hpair]
    simp only [PhotonArray.convolve, PhotonArray.scatter, PhotonArray.gather, PhotonArray.setDxdz,
      PhotonArray.setDydz, PhotonArray.setWave, PhotonArray.setPupU, PhotonArray.setPupV, PhotonArray.setTime,
      Equiv.apply_symm_apply]
    congr
  have hf : ∀ i, ((p.convolve r rs).1.ph i).flux =
      (p.ph i).flux * (r.ph (r.argsort (ρ (p.argsort.symm i)))).flux * N := by
    intro i; rw [← hpair]
    simp only [PhotonArray.convolve, PhotonArray.scatter, PhotonArray.gather, PhotonArray.setDxdz,
      PhotonArray.setDydz, PhotonArray.setWave, PhotonArray.setPupU, PhotonArray.setPupV, PhotonArray.setTime,
      Equiv.apply_symm_apply]
    congr
  have hn : ∀ i, ((p.convolve r rs).1.ph i).nokeep = (p.ph i).nokeep := by
    intro i
    simp only [PhotonArray.convolve, PhotonArray.scatter, PhotonArray.gather, PhotonArray.setDxdz,
      PhotonArray.setDydz, PhotonArray.setWave, PhotonArray.setPupU, PhotonArray.setPupV, PhotonArray.setTime,
      Equiv.apply_symm_apply]
  have hnum : (p.convolve r rs).1.numKeep = p.numKeep := by
    rw [numKeep_eq, numKeep_eq]; congr 1; exact funext hn
  have hkept : ∀ i ∈ p.kept, r.argsort (ρ (p.argsort.symm i)) ∈ r.kept := by
    intro i hi
    rw [mem_kept] at hi ⊢
    apply hρk
    have := (sort_symm_iff (fun i => (p.ph i).nokeep) i).mp hi
    exact lt_of_lt_of_le this hle
  refine ⟨(p.argsort.symm.trans ρ).trans r.argsort, hkept, fun i => ⟨hx i, hy i, hn i⟩, ?_, ?_, ?_⟩
  · rw [flux_eq p hp] at hfp
    rw [flux_eq r hr] at hfr
    injection hfp with hfp
    injection hfr with hfr
    rw [flux_eq _ (by omega), hnum]
    congr 1; funext i
    rw [hn, hf, ← hfp, ← hfr]
    by_cases hb : (p.ph i).nokeep = true
    · simp [hb]
    · have hi : i ∈ p.kept := by rw [mem_kept]; simpa using hb
      have hk := hkept i hi
      rw [mem_kept] at hk
      simp only [hb, Equiv.trans_apply, hk]; simp; field_simp
  · ext1
    · funext i; simp [PhotonArray.convolve, PhotonArray.scatter, PhotonArray.gather]
    · rfl
  · intro hc i hi j hj hij
    have hid : ρ = Equiv.refl _ := by rw [hρ, hc]; simp
    rw [hid]
    have h1 := hkept i hi
    have h2 := hkept j hj
    rw [mem_kept] at hi hj h1 h2
    rw [hid] at h1 h2
    have hlt := sort_symm_lt (fun i => (p.ph i).nokeep) i j hij (by rw [hi, hj])
    exact (Tuple.eq_sort_iff.mp (rfl : r.argsort = Tuple.sort fun i => (r.ph i).nokeep)).2 _ _ hlt
      (h1.trans h2.symm)

example : 0 < exPhot.numKeep ∧ exPhot.numKeep ≤ exPhot.numKeep := ⟨by decide, le_rfl⟩

/-- C25: if all kept photons of `r` carry the same flux, the total flux of the convolution is the product of the
total fluxes. -/
theorem C25_total (p r : PhotonArray N) (rs : Equiv.Perm (Fin N)) (hp : 0 < p.numKeep)
    (hle : p.numKeep ≤ r.numKeep) (fp fr : Fin N → ℝ) (hfp : p.flux = some fp) (hfr : r.flux = some fr)
    (c : ℝ) (hc : ∀ i ∈ r.kept, fr i = c) (Fp Fr : ℝ) (hFp : p.totalFlux = some Fp)
    (hFr : r.totalFlux = some Fr) : (p.convolve r rs).1.totalFlux = some (Fp * Fr) := by
  obtain ⟨τ, hτ, h1, h2, -, -⟩ := C25_convolve p r rs hp hle fp fr hfp hfr
  rw [(C24_flux _ _ h2).2]
  rw [(C24_flux p fp hfp).2] at hFp
  rw [(C24_flux r fr hfr).2] at hFr
  injection hFp with hFp
  injection hFr with hFr
  have hkept : (p.convolve r rs).1.kept = p.kept := by
    ext i; rw [mem_kept, mem_kept, (h1 i).2.2]
  have hFr' : Fr = r.numKeep * c := by
    rw [← hFr, Finset.sum_congr rfl hc, Finset.sum_const, card_kept, nsmul_eq_mul]
  rw [hkept, ← hFp, hFr', Finset.sum_mul]
  congr 1; apply Finset.sum_congr rfl
  intro i hi; rw [hc _ (hτ i hi)]; ring

example : ∀ i ∈ exPhot.kept, (fun i : Fin 3 => if (exPhot.ph i).nokeep then (0 : ℝ) else (exPhot.ph i).flux * (3 / 2)) i
    = 9 / 2 := by
  intro i hi; rw [mem_kept] at hi; simp [hi]; simp [exPhot]; norm_num

/-- C25: the number of kept photons does not change. -/
theorem C25_num_keep (p r : PhotonArray N) (rs : Equiv.Perm (Fin N)) : (p.convolve r rs).1.numKeep = p.numKeep := by
  rw [numKeep_eq, numKeep_eq]; congr 1; funext i
  simp only [PhotonArray.convolve, PhotonArray.scatter, PhotonArray.gather, PhotonArray.setDxdz,
    PhotonArray.setDydz, PhotonArray.setWave, PhotonArray.setPupU, PhotonArray.setPupV, PhotonArray.setTime,
    Equiv.apply_symm_apply]

/-- C25 needs `p.numKeep ≤ r.numKeep`: two photons of flux 1 convolved with an array that keeps only one of its two
photons also uses the masked photon (position 7 appears in the result). -/
theorem C25_mask_mismatch :
    let p : PhotonArray 2 := ⟨fun _ => ⟨0, 0, 1, false, none, none, none, none, none, none⟩, false⟩
    let r : PhotonArray 2 := ⟨fun i => ⟨if i = 1 then 7 else 0, 0, 1, decide (i = 1), none, none, none, none, none,
      none⟩, false⟩
    ∃ i ∈ (p.convolve r (Equiv.refl _)).1.kept, ((p.convolve r (Equiv.refl _)).1.ph i).x = 7 := by
  intro p r
  have hp : p.argsort = Equiv.refl _ := by
    apply Tuple.sort_eq_refl_iff_monotone.mpr; intro a b _; simp [p]
  have hr : r.argsort = Equiv.refl _ := by
    apply Tuple.sort_eq_refl_iff_monotone.mpr; intro a b h; simp only [r]; revert a b; decide
  have hx : ((p.convolve r (Equiv.refl _)).1.ph 1).x = 7 ∧
      ((p.convolve r (Equiv.refl _)).1.ph 1).nokeep = false := by
    simp only [PhotonArray.convolve, PhotonArray.scatter, PhotonArray.gather, PhotonArray.setDxdz,
      PhotonArray.setDydz, PhotonArray.setWave, PhotonArray.setPupU, PhotonArray.setPupV, PhotonArray.setTime,
      hp, hr]
    simp [p, r]
  exact ⟨1, by rw [mem_kept]; exact hx.2, hx.1⟩

/-- C25: the result is marked correlated iff one of the arrays is. -/
theorem C25_correlated (p r : PhotonArray N) (rs : Equiv.Perm (Fin N)) :
    (p.convolve r rs).1.isCorr = true ↔ p.isCorr = true ∨ r.isCorr = true := by
  simp only [PhotonArray.convolve, PhotonArray.scatter, PhotonArray.gather, PhotonArray.setDxdz,
    PhotonArray.setDydz, PhotonArray.setWave, PhotonArray.setPupU, PhotonArray.setPupV, PhotonArray.setTime,
    Bool.or_eq_true]

end JG
