import Verif.Model.ReprRng

/-!
C114: the texts of deviates and noises read back to deviates and noises with the same stream of numbers.
-/

namespace JG.Rr

open JG.Rg (Num)

variable {P : Prng}

/-! ### Specification -/

/-- What a deviate gives for a sequence of drawing operations. -/
noncomputable def stream (k : DevKind) (key : P.Key) : List DrawOp → List (Option (List ℝ))
  | [] => []
  | op :: ops => (op.run P k key).2 :: stream k (op.run P k key).1 ops

/-- Two deviates nobody can tell apart by drawing from them. -/
def SameStream (d e : Dev P) : Prop := ∀ ops, stream d.kind.toDev d.key ops = stream e.kind.toDev e.key ops

/-- A deviate which some constructor returned, after any number of draws (which only change the key). -/
def Dev.Made (C : Codec P) (d : Dev P) : Prop := ∃ ent s d₀, newDev C ent s d.kind = some d₀

/-- A noise which some constructor returned, after any number of draws. -/
inductive Noise.Made (C : Codec P) : Noise P → Prop
  | gaussian (ent s sigma d sg key) (h : newGaussianNoise C ent s sigma = some (.gaussian d sg)) :
    Made C (.gaussian ⟨d.kind, key⟩ sg)
  | poisson (ent s sky d sk key) (h : newPoissonNoise C ent s sky = some (.poisson d sk)) :
    Made C (.poisson ⟨d.kind, key⟩ sk)
  | ccd (ent s sky gain read d a b c key) (hd : d.Made C) (h : newCcdNoise C ent s sky gain read = some (.ccd d a b c)) :
    Made C (.ccd ⟨d.kind, key⟩ a b c)
  | deviate (ent s d key) (hd : d.Made C) (h : newDeviateNoise C ent s = some (.deviate d)) :
    Made C (.deviate ⟨d.kind, key⟩)

/-- The numbers of a noise print as Python floats: not the `Array` of a jax scalar in Poisson and CCD noise, not an integer standard
deviation in Gaussian noise. -/
def Noise.Prints : Noise P → Prop
  | .gaussian r _ => ∀ m s, r.kind = .gaussian m s → s.n.isInt = false
  | .poisson _ s => s.jax = false
  | .ccd _ s g r => s.jax = false ∧ g.jax = false ∧ r.jax = false
  | .deviate _ => True

/-! ### Lemmas -/

/-- The same deviate with Python numbers as parameters. -/
def Kind.py : Kind → Kind
  | .base => .base
  | .uniform => .uniform
  | .gaussian m s => .gaussian ⟨m.n, false⟩ ⟨s.n, false⟩
  | .binomial N p => .binomial ⟨N.n, false⟩ ⟨p.n, false⟩
  | .poisson m => .poisson ⟨m.n, false⟩
  | .weibull a b => .weibull ⟨a.n, false⟩ ⟨b.n, false⟩
  | .gamma k t => .gamma ⟨k.n, false⟩ ⟨t.n, false⟩
  | .chi2 n => .chi2 ⟨n.n, false⟩

theorem made_ok {C : Codec P} {d : Dev P} (h : d.Made C) : d.kind.ok = true := by
  obtain ⟨ent, s, d₀, h⟩ := h
  unfold newDev at h
  rcases hk : resetKey C ent s with _ | key
  · simp [hk] at h
  · by_contra hn
    simp [hk, hn] at h

theorem py_ok (k : Kind) : k.py.ok = k.ok := by cases k <;> rfl
theorem py_toDev (k : Kind) : k.py.toDev = k.toDev := by cases k <;> rfl
theorem py_cls (k : Kind) : k.py.cls = k.cls := by cases k <;> rfl
theorem py_params (k : Kind) :
    k.py.params.map (fun p => (p.1, p.2.n.val)) = k.params.map (fun p => (p.1, p.2.n.val)) := by cases k <;> rfl

theorem py_repr (C : Codec P) (k : Kind) (key : P.Key) : (⟨k.py, key⟩ : Dev P).repr C = (⟨k, key⟩ : Dev P).repr C := by
  cases k <;> rfl

theorem newDev_tup (C : Codec P) (ent : ℤ) (k : Kind) (key : P.Key) (h : k.ok = true) :
    newDev C ent (.tup (C.data key).1 (C.data key).2) k = some ⟨k, key⟩ := by
  simp [newDev, resetKey, C.wrap_data, h]

theorem callDev_args (C : Codec P) (ent : ℤ) (d : Dev P) (h : d.kind.ok = true) :
    (d.repr C).eval C ent = some (.dev ⟨d.kind.py, d.key⟩) := by
  obtain ⟨k, key⟩ := d
  have h' : k.py.ok = true := by rw [py_ok]; exact h
  have hn := newDev_tup C ent k.py key h'
  cases k <;>
    simp [Dev.repr, Ex.eval, Ex.evalArgs, keyText, hashable, callFn, callDev, known, kwNum, kwSeed, List.lookup, Kind.py] <;>
    simp only [Kind.py] at hn <;> simp [hn]

theorem callDev_noise (C : Codec P) (ent : ℤ) (b : List (String × Obj P)) :
    callDev C ent "galsim.GaussianNoise" b = none ∧ callDev C ent "galsim.PoissonNoise" b = none ∧
    callDev C ent "galsim.CCDNoise" b = none ∧ callDev C ent "galsim.DeviateNoise" b = none := by
  refine ⟨?_, ?_, ?_, ?_⟩ <;> simp [callDev]

theorem data_inj (C : Codec P) {k k' : P.Key} (h : C.data k = C.data k') : k = k' := by
  rw [← C.wrap_data k, h, C.wrap_data]

theorem keyText_inj (C : Codec P) {k k' : P.Key} (h : keyText C k = keyText C k') : k = k' := by
  simp only [keyText, Ex.tup.injEq] at h
  exact data_inj C (Prod.ext h.1 h.2)

theorem eq_iff (C : Codec P) (d e : Dev P) :
    d.eq C e ↔ d.kind.cls = e.kind.cls ∧ d.key = e.key ∧
      d.kind.params.map (fun p => (p.1, p.2.n.val)) = e.kind.params.map (fun p => (p.1, p.2.n.val)) := by
  have hk : C.data d.key = C.data e.key ↔ d.key = e.key := ⟨data_inj C, fun h => by rw [h]⟩
  unfold Dev.eq
  by_cases h : d.kind.cls = 0 ∧ e.kind.cls ≠ 0
  · rw [if_pos h]
    unfold Dev.dunderEq isInstance
    have h1 : (e.kind.cls == 0) = false := by simpa using h.2
    have h2 : (d.kind.cls == e.kind.cls) = false := by
      simp only [beq_eq_false_iff_ne]; rw [h.1]; exact fun h' => h.2 h'.symm
    rw [h1, h2]
    constructor
    · intro hh; simp at hh
    · intro hh; exact absurd (hh.1 ▸ h.1) h.2
  · rw [if_neg h]
    unfold Dev.dunderEq isInstance
    rw [hk]
    constructor
    · rintro ⟨h1, h2, h3⟩
      refine ⟨?_, h2, h3⟩
      simp only [Bool.or_eq_true, beq_iff_eq] at h1
      rcases h1 with h1 | h1
      · by_contra hne
        exact h ⟨h1, fun h0 => hne (h1.trans h0.symm)⟩
      · exact h1.symm
    · rintro ⟨h1, h2, h3⟩
      refine ⟨?_, h2, h3⟩
      simp only [Bool.or_eq_true, beq_iff_eq]
      exact Or.inr h1.symm

/-! ### Theorems -/

/-- C114: the `repr` of a deviate, at any time after its construction, evaluates to an equal deviate that gives the same numbers in
all sequences of drawing operations, whatever the system randomness. -/
theorem C114_deviate (C : Codec P) (d : Dev P) (h : d.Made C) (ent : ℤ) :
    ∃ d', (d.repr C).eval C ent = some (.dev d') ∧ d'.eq C d ∧ d.eq C d' ∧ SameStream d' d := by
  refine ⟨⟨d.kind.py, d.key⟩, callDev_args C ent d (made_ok h), ?_, ?_, ?_⟩
  · rw [eq_iff]; exact ⟨py_cls _, rfl, py_params _⟩
  · rw [eq_iff]; exact ⟨(py_cls _).symm, rfl, (py_params _).symm⟩
  · intro ops; simp only [py_toDev]

/-- C114: a deviate of any class made from, or reset to, what `serialize` returned continues the stream of the serialised one: its
key is that of the serialised deviate. -/
theorem C114_serialize (C : Codec P) (d : Dev P) (k : Kind) (hk : k.ok = true) (ent : ℤ) :
    resetKey C ent (.str (d.serialize C)) = some d.key ∧
    ∃ e, newDev C ent (.str (d.serialize C)) k = some e ∧ e.kind = k ∧
      (k = d.kind → e.eq C d ∧ SameStream e d) := by
  have h1 : resetKey C ent (.str (d.serialize C)) = some d.key := by
    simp [Dev.serialize, keyText, resetKey, C.wrap_data]
  refine ⟨h1, ⟨k, d.key⟩, by simp [newDev, h1, hk], rfl, ?_⟩
  rintro rfl
  refine ⟨?_, fun ops => rfl⟩
  rw [eq_iff]; exact ⟨rfl, rfl, rfl⟩

/-- C114: `==` of deviates is an equivalence, equal deviates are of the same class and give the same numbers, and deviates with the
same text are equal. -/
theorem C114_eq (C : Codec P) :
    (∀ d : Dev P, d.eq C d) ∧ (∀ d e : Dev P, d.eq C e → e.eq C d) ∧
    (∀ d e f : Dev P, d.eq C e → e.eq C f → d.eq C f) ∧
    (∀ d e : Dev P, d.eq C e → d.kind.cls = e.kind.cls ∧ SameStream d e) ∧
    (∀ d e : Dev P, d.repr C = e.repr C → d.eq C e) := by
  refine ⟨?_, ?_, ?_, ?_, ?_⟩
  · intro d; rw [eq_iff]; exact ⟨rfl, rfl, rfl⟩
  · intro d e; rw [eq_iff, eq_iff]; rintro ⟨a, b, c⟩; exact ⟨a.symm, b.symm, c.symm⟩
  · intro d e f; rw [eq_iff, eq_iff, eq_iff]; rintro ⟨a, b, c⟩ ⟨a', b', c'⟩; exact ⟨a.trans a', b.trans b', c.trans c'⟩
  · intro d e h
    rw [eq_iff] at h
    refine ⟨h.1, ?_⟩
    obtain ⟨k, key⟩ := d
    obtain ⟨k', key'⟩ := e
    obtain ⟨h1, h2, h3⟩ := h
    simp only at h1 h2 h3
    subst h2
    have : k.toDev = k'.toDev := by
      cases k <;> cases k' <;> simp_all [Kind.cls, Kind.params, Kind.toDev]
    intro ops
    simp only [this]
  · rintro ⟨k, key⟩ ⟨k', key'⟩ h
    rw [eq_iff]
    cases k <;> cases k' <;> simp [Dev.repr, hashable] at h <;>
      first
        | exact ⟨rfl, keyText_inj C h, rfl⟩
        | exact ⟨rfl, keyText_inj C h.1, by simp [Kind.params, h]⟩

/-- C114: the `repr` of a Gaussian, Poisson, CCD or deviate noise evaluates to an equal noise which changes images in the same way and
has the same variance.  Partial: only if its numbers print as Python floats (`Prints`; see the disagreements below);
`VariableGaussianNoise` is missing. -/
theorem C114_noise_partial (C : Codec P) (n : Noise P) (h : n.Made C) (hp : n.Prints) (ent : ℤ) :
    ∃ n', (n.repr C).eval C ent = some (.noise n') ∧ n'.eq C n ∧
      (∀ isInt px, n'.apply isInt px = n.apply isInt px) ∧ n'.toNoise.getVariance = n.toNoise.getVariance := by
  cases h with
  | gaussian ent' s sigma d sg key h =>
    obtain ⟨sn, sj⟩ := sigma
    obtain ⟨dk, dkey⟩ := d
    simp only [newGaussianNoise, newDev, Option.map_eq_some_iff, Option.bind_eq_some_iff] at h
    obtain ⟨e, ⟨ky, hky, hif⟩, he⟩ := h
    by_cases hok : (Kind.gaussian (pyF 0) ⟨sn, sj⟩).ok = true
    · rw [if_pos hok] at hif
      simp only [Option.some.injEq] at hif
      subst hif
      simp only [Noise.gaussian.injEq, Dev.mk.injEq] at he
      obtain ⟨⟨hk, -⟩, rfl⟩ := he
      subst hk
      rcases sn with z | x
      · exact absurd (hp _ _ rfl) (by simp [Num.isInt])
      · have hok' : (Kind.gaussian (pyF 0) ⟨.flt x, false⟩).ok = true := hok
        have e1 := callDev_args C ent (⟨.gaussian (pyF 0) ⟨.flt x, sj⟩, key⟩ : Dev P) hok
        refine ⟨.gaussian ⟨.gaussian (pyF 0) ⟨.flt x, false⟩, key⟩ ⟨.flt x, false⟩, ?_, ?_, ?_, ?_⟩
        · simp only [Noise.repr, Ex.eval, Ex.evalArgs, e1, hashable, castFloat]
          simp only [Option.bind_some, Option.map_some, callFn, (callDev_noise C ent _).1]
          simp [callNoise, known, kwNum, kwSeed, List.lookup, newGaussianNoise, newDev, resetKey, hok', castFloat, Num.val]
        · rfl
        · intro isInt px; rfl
        · rfl
    · rw [if_neg hok] at hif; simp at hif
  | poisson ent' s sky d sk key h =>
    obtain ⟨sn, sj⟩ := sky
    obtain ⟨dk, dkey⟩ := d
    simp only [newPoissonNoise, newDev, Option.map_eq_some_iff, Option.bind_eq_some_iff] at h
    obtain ⟨e, ⟨ky, hky, hif⟩, he⟩ := h
    have hok : (Kind.poisson (pyF 1)).ok = true := by simp [Kind.ok, pyF, Num.val]; norm_num
    rw [if_pos hok] at hif
    simp only [Option.some.injEq] at hif
    subst hif
    simp only [Noise.poisson.injEq, Dev.mk.injEq] at he
    obtain ⟨⟨hk, -⟩, rfl⟩ := he
    subst hk
    have hj : sj = false := hp
    subst hj
    have e1 := callDev_args C ent (⟨.poisson (pyF 1), key⟩ : Dev P) hok
    refine ⟨.poisson ⟨.poisson (pyF 1), key⟩ (castFloat ⟨sn, false⟩), ?_, rfl, fun isInt px => rfl, rfl⟩
    simp only [Noise.repr, Ex.eval, Ex.evalArgs, e1, plain, castFloat, Bool.false_eq_true, if_false]
    simp only [Option.bind_some, Option.map_some, callFn, (callDev_noise C ent _).2.1]
    simp [callNoise, known, kwNum, kwSeed, List.lookup, newPoissonNoise, newDev, resetKey, hok, castFloat, Num.val, Kind.py]
  | ccd ent' s sky gain read d a b c key hd h =>
    obtain ⟨dk, dkey⟩ := d
    simp only [newCcdNoise, Option.map_eq_some_iff] at h
    obtain ⟨e, -, he⟩ := h
    simp only [Noise.ccd.injEq] at he
    obtain ⟨-, ha, hb, hc⟩ := he
    obtain ⟨h1, h2, h3⟩ := hp
    obtain ⟨an, aj⟩ := a
    obtain ⟨bn, bj⟩ := b
    obtain ⟨cn, cj⟩ := c
    simp only at h1 h2 h3
    subst h1 h2 h3
    simp only [castFloat, V.mk.injEq] at ha hb hc
    obtain ⟨rfl, -⟩ := ha
    obtain ⟨rfl, -⟩ := hb
    obtain ⟨rfl, -⟩ := hc
    have e1 := callDev_args C ent (⟨dk, key⟩ : Dev P) (made_ok hd)
    refine ⟨.ccd ⟨dk.py, key⟩ ⟨.flt sky.n.val, false⟩ ⟨.flt gain.n.val, false⟩ ⟨.flt read.n.val, false⟩, ?_, ?_, fun isInt px => rfl, rfl⟩
    · simp only [Noise.repr, Ex.eval, Ex.evalArgs, e1, plain, Bool.false_eq_true, if_false]
      simp only [Option.bind_some, Option.map_some, callFn, (callDev_noise C ent _).2.2.1]
      simp [callNoise, known, kwNum, kwSeed, List.lookup, newCcdNoise, baseRng, castFloat, Num.val]
    · simp only [Noise.eq, Noise.repr, py_repr]
  | deviate ent' s d key hd h =>
    obtain ⟨dk, dkey⟩ := d
    have e1 := callDev_args C ent (⟨dk, key⟩ : Dev P) (made_ok hd)
    refine ⟨.deviate ⟨dk.py, key⟩, ?_, ?_, ?_, ?_⟩
    · simp only [Noise.repr, Ex.eval, Ex.evalArgs, e1]
      simp only [Option.bind_some, Option.map_some, callFn, (callDev_noise C ent _).2.2.2]
      simp [callNoise, known, kwSeed, List.lookup, newDeviateNoise, baseRng]
    · simp only [Noise.eq, Noise.repr, py_repr]
    · intro isInt px
      simp only [Noise.apply, Noise.toNoise, Noise.key, py_toDev]
    · simp only [Noise.toNoise, py_toDev]

/-- Disagreement: Gaussian noise with an integer standard deviation does not read back as an equal noise: its deviate keeps the
integer and the noise the float, the text `GaussianNoise(rng=GaussianDeviate(seed=..., mean=0.0, sigma=2), sigma=2.0)` evaluates to a
noise whose deviate has `sigma=2.0`, and noises are compared by their texts. -/
theorem C114_counterexample_int_sigma (C : Codec P) (z : ℤ) (hz : 0 ≤ z) (d : Dev P) (ent : ℤ) :
    ∃ n n', newGaussianNoise C ent (.dev d) ⟨.int z, false⟩ = some n ∧ (n.repr C).eval C ent = some (.noise n') ∧ ¬ n'.eq C n := by
  have hok : (Kind.gaussian (pyF 0) ⟨.int z, false⟩).ok = true := by simp [Kind.ok, Num.val, hz]
  have hok' : (Kind.gaussian (pyF 0) ⟨.flt z, false⟩).ok = true := by simp [Kind.ok, Num.val, hz]
  have e1 := callDev_args C ent (⟨.gaussian (pyF 0) ⟨.int z, false⟩, d.key⟩ : Dev P) hok
  refine ⟨.gaussian ⟨.gaussian (pyF 0) ⟨.int z, false⟩, d.key⟩ ⟨.flt z, false⟩,
    .gaussian ⟨.gaussian (pyF 0) ⟨.flt z, false⟩, d.key⟩ ⟨.flt z, false⟩, ?_, ?_, ?_⟩
  · simp [newGaussianNoise, newDev, resetKey, hok, castFloat, Num.val]
  · simp only [Noise.repr, Ex.eval, Ex.evalArgs, e1, hashable]
    simp only [Option.bind_some, Option.map_some, callFn, (callDev_noise C ent _).1]
    simp [callNoise, known, kwNum, kwSeed, List.lookup, newGaussianNoise, newDev, resetKey, hok', castFloat, Num.val]
  · simp [Noise.eq, Noise.repr, Dev.repr, hashable]

/-- Disagreement: the texts of Poisson noise with a jax number as sky level, and of CCD noise with a jax number as any of its three
parameters, contain `Array(...)` and cannot be evaluated (the other texts pass through `ensure_hashable`). -/
theorem C114_counterexample_jax (C : Codec P) (d : Dev P) (sky a b c : V) (h : sky.jax = true)
    (h3 : a.jax = true ∨ b.jax = true ∨ c.jax = true) (ent : ℤ) :
    (∃ n, newPoissonNoise C ent (.dev d) sky = some n ∧ (n.repr C).eval C ent = none) ∧
    (∃ n, newCcdNoise C ent (.dev d) a b c = some n ∧ (n.repr C).eval C ent = none) := by
  have hok : (Kind.poisson (pyF 1)).ok = true := by simp [Kind.ok, pyF, Num.val]; norm_num
  refine ⟨⟨.poisson ⟨.poisson (pyF 1), d.key⟩ (castFloat sky), by simp [newPoissonNoise, newDev, resetKey, hok], ?_⟩,
    ⟨.ccd d (castFloat a) (castFloat b) (castFloat c), by simp [newCcdNoise, baseRng], ?_⟩⟩
  · simp [Noise.repr, Ex.eval, Ex.evalArgs, plain, castFloat, h]
  · rcases hr : Ex.eval C ent (d.repr C) with _ | o
    · simp [Noise.repr, Ex.eval, Ex.evalArgs, hr]
    · rcases h3 with h3 | h3 | h3
      · simp [Noise.repr, Ex.eval, Ex.evalArgs, plain, castFloat, h3]
      · by_cases ha : a.jax = true <;> simp [Noise.repr, Ex.eval, Ex.evalArgs, plain, castFloat, h3, ha]
      · by_cases ha : a.jax = true <;> by_cases hb : b.jax = true <;>
          simp [Noise.repr, Ex.eval, Ex.evalArgs, plain, castFloat, h3, ha, hb]

/-- A Gaussian deviate with a jax mean, seeded with 7. -/
example (C : Codec P) : (⟨.gaussian ⟨.int 3, true⟩ (pyF 2), P.ofSeed 7⟩ : Dev P).Made C :=
  ⟨0, .int 7, ⟨.gaussian ⟨.int 3, true⟩ (pyF 2), P.ofSeed 7⟩, by simp [newDev, resetKey, effSeed, Kind.ok, pyF, Num.val]; norm_num⟩

/-- CCD noise on a uniform deviate, and Gaussian noise with a float standard deviation, after a draw. -/
example (C : Codec P) : ∃ n : Noise P, n.Made C ∧ n.Prints ∧ n.key = (P.split (P.ofSeed 7)).1 := by
  refine ⟨_, Noise.Made.ccd 0 (.dev ⟨.uniform, P.ofSeed 7⟩) (pyF 10) (pyF 2) ⟨.int 3, false⟩ ⟨.uniform, P.ofSeed 7⟩ (pyF 10) (pyF 2) (pyF 3)
    (P.split (P.ofSeed 7)).1 ⟨0, .int 7, ⟨.uniform, P.ofSeed 7⟩, by simp [newDev, resetKey, effSeed, Kind.ok]⟩ ?_, ⟨rfl, rfl, rfl⟩, rfl⟩
  simp [newCcdNoise, baseRng, castFloat, pyF, Num.val]

example (C : Codec P) : ∃ n : Noise P, n.Made C ∧ n.Prints ∧ n.key = (P.split (P.ofSeed 7)).1 := by
  refine ⟨_, Noise.Made.gaussian 0 (.int 7) (pyF 2) ⟨.gaussian (pyF 0) (pyF 2), P.ofSeed 7⟩ (pyF 2) (P.split (P.ofSeed 7)).1 ?_, ?_, rfl⟩
  · simp [newGaussianNoise, newDev, resetKey, effSeed, Kind.ok, castFloat, pyF, Num.val]; norm_num
  · rintro m s ⟨⟩; rfl

/-- Keys that are two words. -/
example : ∃ P : Prng, Nonempty (Codec P) :=
  ⟨⟨ℕ × ℕ, fun k => ((k.1 + 1, k.2), (k.1, k.2 + 1)), fun z => (0, z.toNat), fun _ => 0, fun _ => 0, fun _ => 0, fun _ m => m,
    fun _ _ p => p, fun _ a _ => a, fun _ a => a, fun _ n => n, fun _ _ => 1⟩, ⟨⟨id, id, fun _ => rfl⟩⟩⟩

end JG.Rr
