import Mathlib.Algebra.Order.Archimedean.Real.Basic
import Mathlib.Analysis.SpecialFunctions.Sqrt
import Mathlib.Logic.Equiv.Fin.Basic

/-!
Model of `/repo/jax_galsim/random.py`.

The JAX primitives (`jax.random.split`, `key` and the samplers) are uninterpreted functions of the key: a `Prng`
structure.  Deviates share their random state through a reference to a `_DeviateState` object, so the state of a
program is a heap of such objects together with the deviates pointing to them.
-/

namespace JG

/-- The primitives of `jax.random` used in random.py, as uninterpreted functions.  `perm key n` is the permutation by
which `jrandom.permutation(key, arr)` rearranges the first axis of an array of length `n` (it depends on the key and
the length only). -/
structure Prng where
  Key : Type
  split : Key → Key × Key
  ofSeed : ℤ → Key
  bits : Key → ℝ
  uniform : Key → ℝ
  normal : Key → ℝ
  poisson : Key → ℝ → ℝ
  bernoulliSum : Key → ℕ → ℝ → ℝ
  weibull : Key → ℝ → ℝ → ℝ
  gamma : Key → ℝ → ℝ
  chisq : Key → ℝ → ℝ
  perm : Key → (n : ℕ) → Equiv.Perm (Fin n)

/-- Deviate class with its `_params`: random.py:291-757. -/
inductive DevKind
  | base
  | uniform
  | gaussian (mean sigma : ℝ)
  | binomial (N : ℕ) (p : ℝ)
  | poisson (mean : ℝ)
  | weibull (a b : ℝ)
  | gamma (k theta : ℝ)
  | chi2 (n : ℝ)

/-- `PoissonDeviate._generate_one` after the split: random.py:522-535. -/
noncomputable def poissonOne (P : Prng) (mean : ℝ) (subkey : P.Key) : ℝ :=
  if mean < 2 ^ 17 then P.poisson subkey mean else P.normal subkey * Real.sqrt mean + mean

/-- `_generate_one` of each class: random.py:297-300, 366-369, 444-449, 522-535, 607-611, 674-677, 738-741.
`none`: `BaseDeviate` has no such attribute. -/
noncomputable def DevKind.generateOne (P : Prng) (k : DevKind) (key : P.Key) : Option (P.Key × ℝ) :=
  match k with
  | .base => none
  | .uniform => let s := P.split key; some (s.1, P.uniform s.2)
  | .gaussian _ _ => let s := P.split key; some (s.1, P.normal s.2)
  | .binomial N p => let s := P.split key; some (s.1, P.bernoulliSum s.2 N p)
  | .poisson mean => let s := P.split key; some (s.1, poissonOne P mean s.2)
  | .weibull a b => let s := P.split key; some (s.1, P.weibull s.2 b a)
  | .gamma k _ => let s := P.split key; some (s.1, P.gamma s.2 k)
  | .chi2 n => let s := P.split key; some (s.1, P.chisq s.2 n)

/-- Post-processing in `__call__`: random.py:362-364 (gaussian), 670-672 (gamma). -/
noncomputable def DevKind.postCall (k : DevKind) (v : ℝ) : ℝ :=
  match k with
  | .gaussian mean sigma => v * sigma + mean
  | .gamma _ theta => v * theta
  | _ => v

/-- Post-processing of the array in `generate`: random.py:350-352 (gaussian), 656-658 (gamma). -/
noncomputable def DevKind.postGenerate (k : DevKind) (v : List ℝ) : List ℝ :=
  match k with
  | .gaussian mean sigma => v.map fun x => x * sigma + mean
  | .gamma _ theta => v.map fun x => x * theta
  | _ => v

/-- `jax.lax.scan(_generate_one, key, None, length=n)`: carry and stacked outputs. -/
noncomputable def scanOne (P : Prng) (k : DevKind) : ℕ → P.Key → Option (P.Key × List ℝ)
  | 0, key => match k with
    | .base => none
    | _ => some (key, [])
  | n + 1, key => match k.generateOne P key with
    | none => none
    | some (key', v) => match scanOne P k n key' with
      | none => none
      | some (key'', vs) => some (key'', v :: vs)

/-- `jax.lax.scan(PoissonDeviate._generate_one, key, means)`: random.py:546-556. -/
noncomputable def scanPoisson (P : Prng) : List ℝ → P.Key → P.Key × List ℝ
  | [], key => (key, [])
  | m :: ms, key =>
    let s := P.split key
    let r := scanPoisson P ms s.1
    (r.1, poissonOne P m s.2 :: r.2)

/-- `_discard`: random.py:192-198 (`fori_loop`). -/
def discardKey (P : Prng) : ℕ → P.Key → P.Key
  | 0, key => key
  | n + 1, key => discardKey P n (P.split key).1

/-- Operations that draw from a deviate. -/
inductive DrawOp
  /-- `dev()` -/
  | call
  /-- `dev.generate(array)` with an array of `n` elements -/
  | generate (n : ℕ)
  /-- `dev.add_generate(array)` -/
  | addGenerate (a : List ℝ)
  /-- `dev.generate_from_variance(array)` (gaussian only) -/
  | fromVariance (a : List ℝ)
  /-- `dev.generate_from_expectation(array)` (poisson only) -/
  | fromExpectation (a : List ℝ)
  /-- `dev.discard(n)` -/
  | discard (n : ℕ)
  /-- `dev.raw()` -/
  | raw
  /-- `dev.clearCache()` -/
  | clearCache

/-- Effect of a drawing operation on the key, and the values returned (`none`: exception, key unchanged):
random.py:174-241, 350-375, 537-556. -/
noncomputable def DrawOp.run (P : Prng) (k : DevKind) (key : P.Key) : DrawOp → P.Key × Option (List ℝ)
  | .call => match k.generateOne P key with
    | none => (key, none)
    | some (key', v) => (key', some [k.postCall v])
  | .generate n => match scanOne P k n key with
    | none => (key, none)
    | some (key', vs) => (key', some (k.postGenerate vs))
  | .addGenerate a => match scanOne P k a.length key with
    | none => (key, none)
    | some (key', vs) => (key', some (List.zipWith (· + ·) (k.postGenerate vs) a))
  | .fromVariance a => match k with
    | .gaussian _ _ => match scanOne P k a.length key with
      | none => (key, none)
      | some (key', vs) => (key', some (List.zipWith (fun v s => v * Real.sqrt s) vs a))
    | _ => (key, none)
  | .fromExpectation a => match k with
    | .poisson _ => if a.any (fun m => decide (m < 0)) then (key, none) else
        let r := scanPoisson P a key
        (r.1, some r.2)
    | _ => (key, none)
  | .discard n => (discardKey P n key, some [])
  | .raw => let s := P.split key; (s.1, some [P.bits s.2])
  | .clearCache => (key, some [])

/-- `seed or secrets.randbelow(2**31)`: random.py:112, 141; `ent` is the system randomness. -/
def effSeed (seed : Option ℤ) (ent : ℤ) : ℤ :=
  match seed with
  | some s => if s ≠ 0 then s else ent
  | none => ent

/-- Heap of `_DeviateState` objects and deviates `(reference, class and parameters)`. -/
structure RngState (P : Prng) where
  cells : List P.Key
  devs : List (ℕ × DevKind)

/-- Operations of a program using deviates; `d`, `e` number the deviates in the order of creation. -/
inductive RngOp (P : Prng)
  /-- `Deviate(seed)` -/
  | new (k : DevKind) (seed : Option ℤ) (ent : ℤ)
  /-- `Deviate(other_deviate)` -/
  | newFrom (k : DevKind) (d : ℕ)
  /-- `Deviate(jax key)` -/
  | newKey (k : DevKind) (key : P.Key)
  /-- `d.duplicate()`; also a pytree round trip of `d` (random.py:260-272) -/
  | duplicate (d : ℕ)
  | draw (d : ℕ) (op : DrawOp)
  /-- `d.seed(seed)` -/
  | seed (d : ℕ) (seed : Option ℤ) (ent : ℤ)
  /-- `d.reset(seed)` -/
  | reset (d : ℕ) (seed : Option ℤ) (ent : ℤ)
  /-- `d.reset(e)` -/
  | resetFrom (d e : ℕ)

variable {P : Prng}

/-- One operation: random.py:80-83, 94-148 (construction and reseeding), 237-241 (duplicate); the drawing operations are
`DrawOp.run` on the key of the object referred to.  The output is `none` for an exception (also for a name that does not
exist). -/
noncomputable def RngState.step (s : RngState P) : RngOp P → RngState P × Option (List ℝ)
  | .new k seed ent => (⟨s.cells ++ [P.ofSeed (effSeed seed ent)], s.devs ++ [(s.cells.length, k)]⟩, some [])
  | .newFrom k d => match s.devs[d]? with
    | none => (s, none)
    | some (c, _) => (⟨s.cells, s.devs ++ [(c, k)]⟩, some [])
  | .newKey k key => (⟨s.cells ++ [key], s.devs ++ [(s.cells.length, k)]⟩, some [])
  | .duplicate d => match s.devs[d]? with
    | none => (s, none)
    | some (c, k) => match s.cells[c]? with
      | none => (s, none)
      | some key => (⟨s.cells ++ [key], s.devs ++ [(s.cells.length, k)]⟩, some [])
  | .draw d op => match s.devs[d]? with
    | none => (s, none)
    | some (c, k) => match s.cells[c]? with
      | none => (s, none)
      | some key => (⟨s.cells.set c (op.run P k key).1, s.devs⟩, (op.run P k key).2)
  | .seed d seed ent => match s.devs[d]? with
    | none => (s, none)
    | some (c, _) => (⟨s.cells.set c (P.ofSeed (effSeed seed ent)), s.devs⟩, some [])
  | .reset d seed ent => match s.devs[d]? with
    | none => (s, none)
    | some (_, k) => (⟨s.cells ++ [P.ofSeed (effSeed seed ent)], s.devs.set d (s.cells.length, k)⟩, some [])
  | .resetFrom d e => match s.devs[d]?, s.devs[e]? with
    | some (_, k), some (c, _) => (⟨s.cells, s.devs.set d (c, k)⟩, some [])
    | _, _ => (s, none)

/-- A program: outputs of the operations in order. -/
noncomputable def RngState.exec (s : RngState P) : List (RngOp P) → RngState P × List (Option (List ℝ))
  | [] => (s, [])
  | op :: ops =>
    let r := s.step op
    let t := r.1.exec ops
    (t.1, r.2 :: t.2)

/-- `jrandom.permutation(key, arr)`. -/
def permuteArr (P : Prng) (key : P.Key) {α : Type} (arr : List α) : List α :=
  List.ofFn fun i : Fin arr.length => arr.get (P.perm key arr.length i)

/-- `permute(rng, *args)`: random.py:756-771, for arrays with entries in `α`.  `none`: no array given. -/
def permute (P : Prng) (key : P.Key) {α : Type} (args : List (List α)) : Option (P.Key × List (List α)) :=
  if args.length = 0 then none
  else some (discardKey P 1 key, args.map (permuteArr P key))

end JG
