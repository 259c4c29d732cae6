import Verif.Model.Draw
import Verif.Props.Photon
import Mathlib.Tactic.Positivity

/-!
Properties C29 (number of photons) and C30 (chunked photon drawing).
-/

namespace JG

/-! ### C29 -/

/-- Total flux drawn when `n` photons sharing the object's flux are shot and scaled by `g`
(`shoot` + `scaleFlux(g)`): number of photons times the mean flux `g * flux / n` of a photon. -/
noncomputable def drawnFlux (flux : ℝ) (n : ℤ) (g : ℝ) : ℝ := n * (g * flux / n)

/-- C29: without Poisson variation the result does not depend on the random deviate. -/
theorem C29_deterministic (a : NPhotArgs) (h : a.poissonFlux = false) (pd pd' : ℝ) :
    calcNPhotons a pd = calcNPhotons a pd' := by
  simp [calcNPhotons, nPhotonsNonzero, h]

/-- C29: an object of zero flux with automatic photon number gets no photons. -/
theorem C29_zero (a : NPhotArgs) (h : a.flux = 0) (hn : a.nPhotons = 0) (pd : ℝ) :
    calcNPhotons a pd = (0, some 1) := by
  simp [calcNPhotons, h, hn]

theorem gFactor_pos (nu : ℝ) (h : 0 < nu) (m : Option ℝ) : 0 < gFactor nu m := by
  unfold gFactor
  cases m with
  | none => norm_num
  | some s => have : 0 ≤ nu / |s| := div_nonneg h.le (abs_nonneg _); simp only; linarith

/-- C29: the number of photons is non-negative when the flux is non-negative or Poisson variation is on (and a given
number of photons is not negative).  Missing: negative flux without Poisson variation, see below. -/
theorem C29_nonneg_partial (a : NPhotArgs) (hn : 0 ≤ a.nPhotons) (h : 0 ≤ a.flux ∨ a.poissonFlux = true) (pd : ℝ) :
    0 ≤ (calcNPhotons a pd).1 := by
  have hz : ∀ x : ℝ, 0 ≤ x → (0 : ℤ) ≤ ⌈x⌉ := fun x hx => Int.ceil_nonneg hx
  unfold calcNPhotons
  split
  · split
    · exact le_rfl
    · unfold nPhotonsNonzero
      have h1 : ∀ s : ℝ × Option ℝ, 0 ≤ s.1 → (0 : ℤ) ≤ ⌈(if a.maxExtraNoise > 0 then
          (s.1 / gFactor a.maxExtraNoise a.maxSb, s.2.map (· * gFactor a.maxExtraNoise a.maxSb)) else s).1⌉ := by
        intro s hs
        split
        · rename_i hnu
          exact hz _ (div_nonneg hs (gFactor_pos _ hnu _).le)
        · exact hz _ hs
      apply h1
      cases hp : a.poissonFlux
      · rw [hp] at h
        simp only [Bool.false_eq_true, if_false]
        exact div_nonneg (by simpa using h) (mul_self_nonneg _)
      · simp only [if_true]
        cases samplePoissonFlux a.flux a.eta pd with
        | none => exact le_rfl
        | some r => exact abs_nonneg _
  · simp only [truncZ]
    rw [if_pos (by linarith)]
    exact Int.floor_nonneg.mpr (by linarith)

/-- Disagreement: for a negative flux without Poisson variation the number of photons is negative (the upstream code
takes the absolute value): flux -10 asks for -10 photons. -/
theorem C29_negative_counterexample (pd : ℝ) :
    calcNPhotons ⟨-10, 1, none, 0, 0, false⟩ pd = (-10, some 1) := by
  have h : ⌈(-10 : ℝ)⌉ = -10 := by rw [Int.ceil_eq_iff]; norm_num
  simp [calcNPhotons, nPhotonsNonzero, h]

/-- C29: with Poisson variation off and no extra noise allowed, the photons carry exactly the flux of the object. -/
theorem C29_flux_partial (a : NPhotArgs) (hp : a.poissonFlux = false) (hnu : a.maxExtraNoise ≤ 0 ∨ a.nPhotons ≠ 0)
    (pd : ℝ) (hN : (calcNPhotons a pd).1 ≠ 0) :
    ∃ g, (calcNPhotons a pd).2 = some g ∧ drawnFlux a.flux (calcNPhotons a pd).1 g = a.flux := by
  have hg : (calcNPhotons a pd).2 = some 1 := by
    unfold calcNPhotons nPhotonsNonzero
    rcases hnu with h | h
    · split
      · split
        · rfl
        · simp [hp, not_lt.mpr h]
      · simp [hp]
    · simp [h, hp]
  refine ⟨1, hg, ?_⟩
  unfold drawnFlux
  have : ((calcNPhotons a pd).1 : ℝ) ≠ 0 := by exact_mod_cast hN
  rw [one_mul]; field_simp

example : (calcNPhotons ⟨10, 1, none, 7, 0, false⟩ 0).1 = 7 := by
  have h : ⌊(7 : ℝ) + 2⁻¹⌋ = 7 := by rw [Int.floor_eq_iff]; norm_num
  have h' : (0 : ℝ) ≤ 7 + 2⁻¹ := by norm_num
  simp [calcNPhotons, truncZ, h, h']

/-- C29: with Poisson variation on, the flux carried by the photons is the varied flux: the object's flux changed, in
the direction of its sign, by the deviation of the Poisson deviate from its mean. -/
theorem C29_flux_poisson (a : NPhotArgs) (hp : a.poissonFlux = true) (hf : a.flux ≠ 0)
    (hnu : a.maxExtraNoise ≤ 0 ∨ a.nPhotons ≠ 0) (pd : ℝ) (hN : (calcNPhotons a pd).1 ≠ 0) :
    ∃ g, (calcNPhotons a pd).2 = some g ∧ drawnFlux a.flux (calcNPhotons a pd).1 g =
      a.flux + a.flux / |a.flux| * (pd - a.eta ^ 2 * |a.flux|) := by
  have habs : |a.flux| ≠ 0 := abs_ne_zero.mpr hf
  have hs : samplePoissonFlux a.flux a.eta pd =
      some ((pd - a.eta * a.eta * |a.flux| + |a.flux|) / |a.flux|) := by
    unfold samplePoissonFlux; simp only; rw [if_neg habs]
  have hg : (calcNPhotons a pd).2 = some ((pd - a.eta * a.eta * |a.flux| + |a.flux|) / |a.flux|) := by
    unfold calcNPhotons nPhotonsNonzero
    rcases hnu with h | h
    · split
      · simp [not_lt.mpr h, hs]
      · simp [hs]
    · simp [h, hp, hs]
  refine ⟨_, hg, ?_⟩
  unfold drawnFlux
  have : ((calcNPhotons a pd).1 : ℝ) ≠ 0 := by exact_mod_cast hN
  field_simp
  ring

example : (calcNPhotons ⟨10, 1, none, 0, 0, true⟩ 13).1 = 13 := by
  have h : ⌈(13 : ℝ)⌉ = 13 := by rw [Int.ceil_eq_iff]; norm_num
  have h2 : |(10 : ℝ) * (13 / 10)| = 13 := by rw [abs_of_pos] <;> norm_num
  have h3 : (13 : ℝ) - 10 + 10 = 13 := by norm_num
  simp [calcNPhotons, nPhotonsNonzero, samplePoissonFlux, h2, h3]

/-- C29: with automatic photon number, positive flux and Poisson variation off, the count is the smallest integer not
below `flux / eta² / (1 + ν/|max_sb|)`; in particular at least one photon. -/
theorem C29_count (a : NPhotArgs) (hn : a.nPhotons = 0) (hf : 0 < a.flux) (he : a.eta ≠ 0)
    (hp : a.poissonFlux = false) (pd : ℝ) :
    let ideal := a.flux / a.eta ^ 2 / (if 0 < a.maxExtraNoise then gFactor a.maxExtraNoise a.maxSb else 1)
    (ideal ≤ (calcNPhotons a pd).1 ∧ ((calcNPhotons a pd).1 : ℝ) < ideal + 1) ∧ 1 ≤ (calcNPhotons a pd).1 := by
  intro ideal
  have hc : (calcNPhotons a pd).1 = ⌈ideal⌉ := by
    unfold calcNPhotons nPhotonsNonzero
    rw [if_pos hn, if_neg hf.ne']
    simp only [hp, Bool.false_eq_true, if_false, ideal, pow_two, gt_iff_lt]
    split <;> simp
  have hi : 0 < ideal := by
    simp only [ideal]
    have : 0 < a.eta ^ 2 := by positivity
    split
    · rename_i h
      exact div_pos (div_pos hf this) (gFactor_pos _ h _)
    · rw [div_one]; exact div_pos hf this
  rw [hc]
  exact ⟨⟨Int.le_ceil _, Int.ceil_lt_add_one _⟩, Int.one_le_ceil_iff.mpr hi⟩

/-- Disagreement: with a positive `max_extra_noise` (and finite maximum surface brightness) the photons already share
the whole flux of the object among fewer photons and are then scaled by `g = 1 + ν/|max_sb|` once more, so the drawn
flux is too large by that factor: flux 10, max_sb 1, ν 1 draws flux 20. -/
theorem C29_extra_noise_counterexample (pd : ℝ) :
    calcNPhotons ⟨10, 1, some 1, 0, 1, false⟩ pd = (5, some 2) ∧ drawnFlux 10 5 2 = 20 := by
  have h : ⌈(5 : ℝ)⌉ = 5 := by rw [Int.ceil_eq_iff]; norm_num
  have h2 : (10 : ℝ) / (1 + 1) = 5 := by norm_num
  constructor
  · simp [calcNPhotons, nPhotonsNonzero, gFactor, h2]; norm_num
  · norm_num [drawnFlux]

/-- Disagreement: with a given number of photons, zero flux and Poisson variation the scaling `g` is `0/0`. -/
theorem C29_zero_flux_poisson_counterexample (pd : ℝ) : (calcNPhotons ⟨0, 1, none, 5, 0, true⟩ pd).2 = none := by
  simp [calcNPhotons, samplePoissonFlux]

/-! ### C30 -/

theorem while_unique {σ : Type} (cond : σ → Bool) (body : σ → σ) (s a b : σ)
    (ha : WhileReturns cond body s a) (hb : WhileReturns cond body s b) : a = b := by
  induction ha with
  | done s h => cases hb with
    | done _ _ => rfl
    | step _ _ h' _ => rw [h] at h'; cases h'
  | step s s' h _ ih => cases hb with
    | done _ h' => rw [h] at h'; cases h'
    | step _ _ _ h2 => exact ih h2

/-- One chunk: exactly `thisN` photons are kept, each with flux `g * flux / nTot * (maxN / buffer size)`. -/
theorem chunk_flux (size : Option ℕ) (maxN thisN nTot : ℕ) (flux g scale : ℝ) (pos : ℕ → ℝ × ℝ)
    (hfit : photFits size maxN = true) (hm : 0 < maxN) (ht : 0 < thisN) (htm : thisN ≤ maxN) (hT : 0 < nTot) :
    (drawChunk size maxN thisN nTot flux g scale pos).numKeep = thisN ∧
    ∃ f, (drawChunk size maxN thisN nTot flux g scale pos).flux = some f ∧
      (∀ i ∈ (drawChunk size maxN thisN nTot flux g scale pos).kept,
        f i = g * flux / nTot * (maxN / photNtot size maxN)) := by
  obtain ⟨hb, hle⟩ := C24_new size maxN hfit
  set S := photNtot size maxN with hS
  have hSp : 0 < S := by omega
  have hSr : (S : ℝ) ≠ 0 := by positivity
  have hmr : (maxN : ℝ) ≠ 0 := by positivity
  have htr : (thisN : ℝ) ≠ 0 := by positivity
  have hTr : (nTot : ℝ) ≠ 0 := by positivity
  set p := shootLeaf size maxN flux pos with hp
  have hpk : p.numKeep = maxN := hb
  have hpf : ∀ i, (p.ph i).flux = flux / S / (S / maxN) := by
    intro i
    simp only [hp, shootLeaf, PhotonArray.setFlux, PhotonArray.ratio]
    have : ∀ q : PhotonArray (photNtot size maxN), q.numKeep = maxN → (if q.numKeep = 0 then (0 : ℝ) else
      flux / (photNtot size maxN : ℝ) / ((photNtot size maxN : ℝ) / q.numKeep)) = flux / S / (S / maxN) := by
      intro q hq; rw [hq, if_neg (by omega)]
    exact this _ hb
  have hk : (p.setNumKeep thisN).numKeep = thisN := C24_num_keep p thisN (by omega)
  set q := p.setNumKeep thisN with hq
  have hqf : ∀ i, (q.ph i).flux = flux / S / (S / maxN) := by
    intro i; rw [hq, setNumKeep_ph]; exact hpf i
  set q2 := (if |g - 1| + |(thisN : ℝ) - nTot| = 0 then q else q.scaleFlux (g * thisN / nTot)) with hq2
  have hq2k : q2.numKeep = thisN := by rw [hq2]; split <;> exact hk
  have hq2f : ∀ i, (q2.ph i).flux = flux / S / (S / maxN) * (g * thisN / nTot) := by
    intro i; rw [hq2]
    split
    · rename_i h
      have h1 := abs_nonneg (g - 1)
      have h2 := abs_nonneg ((thisN : ℝ) - nTot)
      have e1 : g = 1 := by have : |g - 1| = 0 := by linarith
                            rw [abs_eq_zero] at this; linarith
      have e2 : (thisN : ℝ) = nTot := by
        have : |(thisN : ℝ) - nTot| = 0 := by linarith
        rw [abs_eq_zero] at this; linarith
      rw [hqf, e1, e2]; field_simp
    · simp only [PhotonArray.scaleFlux]; rw [hqf]
  have hfin : drawChunk size maxN thisN nTot flux g scale pos = if scale ≠ 1 then q2.scaleXY (1 / scale) else q2 := rfl
  have hfk : (drawChunk size maxN thisN nTot flux g scale pos).numKeep = thisN := by
    rw [hfin]; split <;> exact hq2k
  have hff : ∀ i, ((drawChunk size maxN thisN nTot flux g scale pos).ph i).flux =
      flux / S / (S / maxN) * (g * thisN / nTot) := by
    intro i; rw [hfin]; split
    · exact hq2f i
    · exact hq2f i
  refine ⟨hfk, _, flux_eq _ (by omega), ?_⟩
  intro i hi
  rw [mem_kept] at hi
  rw [hi, hfk, hff, ← hS]
  simp only [Bool.false_eq_true, if_false]
  field_simp

/-- Flux of all photons of a list of chunks, as reported by the arrays; `none` if one of them is NaN. -/
noncomputable def chunksTotal {S : ℕ} (l : List (PhotonArray S)) : Option ℝ :=
  l.foldr (fun p acc => match p.totalFlux, acc with
    | some a, some b => some (a + b)
    | _, _ => none) (some 0)

/-- C30, all chunk sizes: the loop returns exactly one state; it has drawn exactly `nTot` photons in total, every kept
photon has the same flux, and the total flux is `g * flux * (maxN / buffer size)`. -/
theorem C30_loop (size : Option ℕ) (maxN nTot : ℕ) (flux g scale : ℝ) (pos : ℕ → ℕ → ℝ × ℝ)
    (hfit : photFits size maxN = true) (hm : 0 < maxN) (hT : 0 < nTot) :
    ∃ s', WhileReturns loopCond (loopBody size maxN nTot flux g scale pos) ⟨nTot, []⟩ s' ∧
      (∀ s'', WhileReturns loopCond (loopBody size maxN nTot flux g scale pos) ⟨nTot, []⟩ s'' → s'' = s') ∧
      (s'.chunks.map PhotonArray.numKeep).sum = nTot ∧
      (∀ c ∈ s'.chunks, ∃ f, c.flux = some f ∧
        ∀ i ∈ c.kept, f i = g * flux / nTot * (maxN / photNtot size maxN)) ∧
      chunksTotal s'.chunks = some (g * flux * (maxN / photNtot size maxN)) := by
  set c0 : ℝ := g * flux / nTot * (maxN / photNtot size maxN) with hc0
  have key : ∀ (n : ℕ) (l : List (PhotonArray (photNtot size maxN))), n ≤ nTot →
      ∃ l', WhileReturns loopCond (loopBody size maxN nTot flux g scale pos) ⟨n, l⟩ ⟨0, l ++ l'⟩ ∧
        (l'.map PhotonArray.numKeep).sum = n ∧
        (∀ c ∈ l', ∃ f, c.flux = some f ∧ ∀ i ∈ c.kept, f i = c0) ∧
        chunksTotal l' = some (n * c0) := by
    intro n
    induction n using Nat.strong_induction_on with
    | _ n ih =>
      intro l hn
      rcases Nat.eq_zero_or_pos n with h0 | hpos
      · subst h0
        refine ⟨[], ?_, rfl, by simp, by simp [chunksTotal]⟩
        rw [List.append_nil]; exact .done _ (by simp [loopCond])
      · set t := min maxN n with ht
        have htp : 0 < t := by omega
        obtain ⟨l', h1, h2, h3, h4⟩ := ih (n - t) (by omega)
          (l ++ [drawChunk size maxN t nTot flux g scale (pos l.length)]) (by omega)
        obtain ⟨hk, f, hf, hfk⟩ := chunk_flux size maxN t nTot flux g scale (pos l.length) hfit hm htp (by omega) hT
        refine ⟨drawChunk size maxN t nTot flux g scale (pos l.length) :: l', ?_, ?_, ?_, ?_⟩
        · refine .step _ _ (by simp [loopCond]; omega) ?_
          have hb : loopBody size maxN nTot flux g scale pos ⟨n, l⟩ =
              ⟨((n - t : ℕ) : ℤ), l ++ [drawChunk size maxN t nTot flux g scale (pos l.length)]⟩ := by
            unfold loopBody
            have e1 : min (maxN : ℤ) (n : ℤ) = (t : ℤ) := by omega
            simp only [e1, Int.toNat_natCast]
            congr 1; omega
          rw [hb]
          have : l ++ drawChunk size maxN t nTot flux g scale (pos l.length) :: l' =
              (l ++ [drawChunk size maxN t nTot flux g scale (pos l.length)]) ++ l' := by simp
          rw [this]; exact h1
        · rw [List.map_cons, List.sum_cons, h2, hk]; omega
        · intro c hc
          rcases List.mem_cons.mp hc with rfl | hc
          · exact ⟨f, hf, hfk⟩
          · exact h3 c hc
        · have htot : (drawChunk size maxN t nTot flux g scale (pos l.length)).totalFlux = some (t * c0) := by
            rw [(C24_flux _ _ hf).2, Finset.sum_congr rfl hfk, Finset.sum_const, card_kept, hk, nsmul_eq_mul]
          have hunf : chunksTotal (drawChunk size maxN t nTot flux g scale (pos l.length) :: l') =
              (match (drawChunk size maxN t nTot flux g scale (pos l.length)).totalFlux, chunksTotal l' with
                | some a, some b => some (a + b)
                | _, _ => none) := rfl
          rw [hunf, htot, h4]
          simp only
          congr 1
          have : ((n - t : ℕ) : ℝ) = n - t := by rw [Nat.cast_sub (by omega)]
          rw [this]; ring
  obtain ⟨l', h1, h2, h3, h4⟩ := key nTot [] le_rfl
  rw [List.nil_append] at h1
  have hTr : (nTot : ℝ) ≠ 0 := by positivity
  refine ⟨⟨0, l'⟩, h1, fun s'' h => while_unique _ _ _ _ _ h h1, h2, h3, ?_⟩
  simp only
  rw [h4, hc0]; congr 1; field_simp

example : photFits (some 10) 7 = true := by decide

/-- C30, the part that holds: if the chunk size equals the buffer size (no fixed buffer, or no `maxN` below it) the
total flux drawn is `g * flux`, whatever the chunk size.  Missing: `maxN` smaller than the fixed buffer. -/
theorem C30_total_partial (size maxN : Option ℕ) (m nTot : ℕ) (flux g scale : ℝ) (pos : ℕ → ℕ → ℝ × ℝ)
    (he : effMaxN size maxN = some m) (hm : 0 < m) (hT : 0 < nTot)
    (hok : size = none ∨ ∃ s, size = some s ∧ (maxN = none ∨ ∃ k, maxN = some k ∧ s ≤ k)) :
    ∃ s', WhileReturns loopCond (loopBody size m nTot flux g scale pos) ⟨nTot, []⟩ s' ∧
      (s'.chunks.map PhotonArray.numKeep).sum = nTot ∧
      chunksTotal s'.chunks = some (g * flux) := by
  have hm' : photNtot size m = m ∧ photFits size m = true := by
    rcases hok with h | ⟨s, h, h2⟩
    · subst h; simp [photNtot, photFits]
    · subst h
      rcases h2 with h2 | ⟨k, h2, hk⟩
      · subst h2
        simp only [effMaxN] at he
        split at he
        · cases he
        · injection he with he; subst he
          simp [photNtot, photFits]
      · subst h2
        simp only [effMaxN] at he
        injection he with he
        rw [min_eq_right hk] at he; subst he
        simp [photNtot, photFits]
  obtain ⟨s', h1, -, h2, -, h4⟩ := C30_loop size m nTot flux g scale pos hm'.2 hm hT
  refine ⟨s', h1, h2, ?_⟩
  have hmr : (m : ℝ) ≠ 0 := by positivity
  rw [h4, hm'.1, div_self hmr, mul_one]

example : effMaxN (some 10) (some 20) = some 10 ∧ effMaxN none (some 3) = some 3 := ⟨rfl, rfl⟩

/-- Disagreement: when both a fixed buffer and a smaller `maxN` are set, profiles divide their flux by the buffer size
while only `maxN` photons of the buffer are shot, so the flux is too small by `maxN / buffer`: buffer 4, `maxN` 2, flux
1, two photons draw a total flux of 1/2. -/
theorem C30_small_maxN_counterexample (pos : ℕ → ℕ → ℝ × ℝ) :
    effMaxN (some 4) (some 2) = some 2 ∧
    ∃ s', WhileReturns loopCond (loopBody (some 4) 2 2 1 1 1 pos) ⟨((2 : ℕ) : ℤ), []⟩ s' ∧
      chunksTotal s'.chunks = some (1 / 2) := by
  refine ⟨rfl, ?_⟩
  obtain ⟨s', h1, -, -, -, h4⟩ := C30_loop (some 4) 2 2 1 1 1 pos (by decide) (by norm_num) (by norm_num)
  refine ⟨s', h1, ?_⟩
  rw [h4]; simp [photNtot]; norm_num

/-- Disagreement: `shoot(n)` inside a larger fixed buffer reports total flux `flux * n / buffer`, not `flux` (this is
what `makePhot` returns). -/
theorem C30_shoot_buffer_counterexample (pos : ℕ → ℝ × ℝ) : (shootLeaf (some 4) 2 1 pos).totalFlux = some (1 / 2) := by
  have hb : (shootLeaf (some 4) 2 1 pos).numKeep = 2 := (C24_new (some 4) 2 (by decide)).1
  have hf : ∀ i, ((shootLeaf (some 4) 2 1 pos).ph i).flux = 1 / 8 := by
    intro i
    have h2 : (PhotonArray.blank (some 4) 2).numKeep = 2 := (C24_new (some 4) 2 (by decide)).1
    simp only [shootLeaf, PhotonArray.setFlux, PhotonArray.ratio]
    have : ∀ q : PhotonArray (photNtot (some 4) 2), q.numKeep = 2 → (if q.numKeep = 0 then (0 : ℝ) else
      1 / (photNtot (some 4) 2 : ℝ) / ((photNtot (some 4) 2 : ℝ) / q.numKeep)) = 1 / 8 := by
      intro q hq; rw [hq, if_neg (by norm_num)]; simp [photNtot]; norm_num
    exact this _ h2
  have hfl := flux_eq _ (show 0 < (shootLeaf (some 4) 2 1 pos).numKeep by omega)
  rw [(C24_flux _ _ hfl).2]
  have : ∀ i ∈ (shootLeaf (some 4) 2 1 pos).kept, (if ((shootLeaf (some 4) 2 1 pos).ph i).nokeep then (0 : ℝ) else
      ((shootLeaf (some 4) 2 1 pos).ph i).flux * ((photNtot (some 4) 2 : ℕ) / ((shootLeaf (some 4) 2 1 pos).numKeep : ℝ)))
      = 1 / 4 := by
    intro i hi
    rw [mem_kept] at hi
    rw [hi, hf, hb]; simp [photNtot]; norm_num
  rw [Finset.sum_congr rfl this, Finset.sum_const, card_kept, hb]
  norm_num

/-- With `maxN = 0` the loop never returns (as long as there is a photon to draw). -/
theorem C30_zero_maxN (size : Option ℕ) (nTot : ℕ) (flux g scale : ℝ) (pos : ℕ → ℕ → ℝ × ℝ) (hT : 0 < nTot)
    (s' : LoopState (photNtot size 0)) :
    ¬ WhileReturns loopCond (loopBody size 0 nTot flux g scale pos) ⟨nTot, []⟩ s' := by
  have key : ∀ s, s.nLeft > 0 → ¬ WhileReturns loopCond (loopBody size 0 nTot flux g scale pos) s s' := by
    intro s hs h
    induction h with
    | done s hc => simp [loopCond] at hc; omega
    | step s s' hc _ ih =>
      apply ih
      have e : min ((0 : ℕ) : ℤ) s.nLeft = 0 := by omega
      simp only [loopBody, e]; omega
  exact key _ (by simp; exact hT)

/-- Disagreement: on integer images every chunk is rounded before the next one is added, so the image depends on the
chunk size: a pixel receiving 4/5 in one chunk becomes 1, in two chunks of 2/5 it stays 0. -/
theorem C30_integer_counterexample :
    accumInt 0 (4 / 5) = 1 ∧ accumInt (accumInt 0 (2 / 5)) (2 / 5) = 0 := by
  have h1 : ⌊(4 : ℝ) / 5⌋ = 0 := by rw [Int.floor_eq_iff]; norm_num
  have h2 : ⌊(2 : ℝ) / 5⌋ = 0 := by rw [Int.floor_eq_iff]; norm_num
  constructor
  · simp [accumInt, safeCast, roundEven, h1]; norm_num
  · have : (accumInt 0 (2 / 5) : ℝ) = 0 := by simp [accumInt, safeCast, roundEven, h2]; norm_num
    rw [this]; exact this

/-- C29: a requested number of photons is used, rounded to the nearest integer (halves up). -/
theorem C29_requested (a : NPhotArgs) (hn : 0 < a.nPhotons) (pd : ℝ) :
    ((calcNPhotons a pd).1 : ℝ) - 1 / 2 ≤ a.nPhotons ∧ a.nPhotons < (calcNPhotons a pd).1 + 1 / 2 := by
  have h1 := Int.floor_le (a.nPhotons + 1 / 2)
  have h2 := Int.lt_floor_add_one (a.nPhotons + 1 / 2)
  unfold calcNPhotons
  rw [if_neg hn.ne']
  simp only [truncZ]
  rw [if_pos (by linarith)]
  constructor <;> linarith

/-- C29: a whole number requested is used as it is. -/
theorem C29_requested_int (a : NPhotArgs) (n : ℕ) (hn : 0 < n) (h : a.nPhotons = n) (pd : ℝ) :
    (calcNPhotons a pd).1 = n := by
  have := C29_requested a (by rw [h]; exact_mod_cast hn) pd
  rw [h] at this
  have h1 : (((calcNPhotons a pd).1 : ℤ) : ℝ) < ((n + 1 : ℤ) : ℝ) := by push_cast; linarith
  have h2 : (((n : ℤ) - 1 : ℤ) : ℝ) < ((calcNPhotons a pd).1 : ℤ) := by push_cast; linarith
  have h1 := Int.cast_lt.mp h1
  have h2 := Int.cast_lt.mp h2
  omega

example : (0 : ℝ) < (⟨10, 1, none, 7, 0, false⟩ : NPhotArgs).nPhotons := by norm_num

end JG
