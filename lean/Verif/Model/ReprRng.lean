import Verif.Model.Noise
import Verif.Model.ReprGeom

/-!
Model of the texts made by `repr` and `serialize` of deviates and by `repr` of noises, of reading them back with `eval`, and of `==`.

As in `Model/ReprGeom.lean` a text is the expression which Python parses it to, floats are exact, exceptions are `none` and Python
ints and floats are told apart.  Parameters may be Python numbers or jax scalars.  Left out: arrays of parameters, numpy scalars,
`nan`, and `VariableGaussianNoise` (its text contains that of an image).
-/

namespace JG.Rr

open JG.Rg (Num)

/-- A number given as parameter: a Python number, or a jax scalar (with an integer or float dtype). -/
structure V where
  n : Num
  jax : Bool

/-- Python's `float`. -/
def pyF (x : ℝ) : V := ⟨.flt x, false⟩

/-- `cast_to_float`: core/utils.py:45-65. -/
def castFloat (v : V) : V := ⟨.flt v.n.val, v.jax⟩

/-- Texts: numbers, the text `Array(...)` of a jax scalar, tuples of two words, quoted texts of tuples, calls (all these texts pass
their arguments by keyword). -/
inductive Ex
  | num (n : Num)
  | arr (n : Num)
  | tup (a b : ℕ)
  | call (f : String) (args : List (String × Ex))

/-- The `_params` of each class of deviates: random.py:80-82, 291-298, 317-335, 399-402, 471-488, 571-574, 641-644, 707-709. -/
inductive Kind
  | base
  | uniform
  | gaussian (mean sigma : V)
  | binomial (N p : V)
  | poisson (mean : V)
  | weibull (a b : V)
  | gamma (k theta : V)
  | chi2 (n : V)

/-- The deviate of `Model/Random.lean`.  Simplification: a number of trials that is not an integer is rounded down. -/
noncomputable def Kind.toDev : Kind → DevKind
  | .base => .base
  | .uniform => .uniform
  | .gaussian m s => .gaussian m.n.val s.n.val
  | .binomial N p => .binomial ⌊N.n.val⌋₊ p.n.val
  | .poisson m => .poisson m.n.val
  | .weibull a b => .weibull a.n.val b.n.val
  | .gamma k t => .gamma k.n.val t.n.val
  | .chi2 n => .chi2 n.n.val

/-- `jrandom.key_data` and `wrap_key_data` (random.py:14-17, 130-135) for a generator whose keys are two words. -/
structure Codec (P : Prng) where
  data : P.Key → ℕ × ℕ
  wrap : ℕ × ℕ → P.Key
  wrap_data : ∀ k, wrap (data k) = k

/-- A deviate: class with parameters, and the key in its state. -/
structure Dev (P : Prng) where
  kind : Kind
  key : P.Key

/-- A noise: noise.py:134-141, 194-197, 284-290, 454-456.  The deviate is the one stored in `_rng`. -/
inductive Noise (P : Prng)
  | gaussian (rng : Dev P) (sigma : V)
  | poisson (rng : Dev P) (sky : V)
  | ccd (rng : Dev P) (sky gain read : V)
  | deviate (dev : Dev P)

/-- Values of expressions. -/
inductive Obj (P : Prng)
  | num (v : V)
  | tup (a b : ℕ)
  | dev (d : Dev P)
  | noise (n : Noise P)

variable {P : Prng}

/-! ### repr -/

/-- `%r` of `ensure_hashable(v)`: core/utils.py:147-162 (a jax scalar prints as the Python number of its dtype). -/
def hashable (v : V) : Ex := .num v.n

/-- `%r` of a number as it is. -/
def plain (v : V) : Ex := if v.jax then .arr v.n else .num v.n

/-- `ensure_hashable(jrandom.key_data(self._key))`: random.py:276 and the others. -/
def keyText (C : Codec P) (k : P.Key) : Ex := .tup (C.data k).1 (C.data k).2

/-- `__repr__` of the deviates: random.py:274-277, 302-305, 379-384, 451-456, 555-559, 621-626, 687-692, 747-751. -/
def Dev.repr (C : Codec P) (d : Dev P) : Ex :=
  match d.kind with
  | .base => .call "galsim.BaseDeviate" [("seed", keyText C d.key)]
  | .uniform => .call "galsim.UniformDeviate" [("seed", keyText C d.key)]
  | .gaussian m s => .call "galsim.GaussianDeviate" [("seed", keyText C d.key), ("mean", hashable m), ("sigma", hashable s)]
  | .binomial N p => .call "galsim.BinomialDeviate" [("seed", keyText C d.key), ("N", hashable N), ("p", hashable p)]
  | .poisson m => .call "galsim.PoissonDeviate" [("seed", keyText C d.key), ("mean", hashable m)]
  | .weibull a b => .call "galsim.WeibullDeviate" [("seed", keyText C d.key), ("a", hashable a), ("b", hashable b)]
  | .gamma k t => .call "galsim.GammaDeviate" [("seed", keyText C d.key), ("k", hashable k), ("theta", hashable t)]
  | .chi2 n => .call "galsim.Chi2Deviate" [("seed", keyText C d.key), ("n", hashable n)]

/-- `serialize`: random.py:158-160. -/
def Dev.serialize (C : Codec P) (d : Dev P) : Ex := keyText C d.key

/-- `__repr__` of the noises: noise.py:167-171, 262-263, 417-423, 486-487. -/
def Noise.repr (C : Codec P) : Noise P → Ex
  | .gaussian r s => .call "galsim.GaussianNoise" [("rng", r.repr C), ("sigma", hashable s)]
  | .poisson r s => .call "galsim.PoissonNoise" [("rng", r.repr C), ("sky_level", plain s)]
  | .ccd r s g n => .call "galsim.CCDNoise" [("rng", r.repr C), ("sky_level", plain s), ("gain", plain g), ("read_noise", plain n)]
  | .deviate d => .call "galsim.DeviateNoise" [("dev", d.repr C)]

/-! ### Construction -/

/-- Seeds: `None`, integers, tuples, strings (given by the expression they contain), deviates, and anything refused. -/
inductive Seed (P : Prng)
  | none
  | int (z : ℤ)
  | tup (a b : ℕ)
  | str (e : Ex)
  | dev (d : Dev P)
  | other

/-- The key set by `reset(seed)`: random.py:116-148; `ent` is the system randomness.  A string is evaluated; what is not a tuple of
two words is refused by `wrap_key_data`. -/
def resetKey (C : Codec P) (ent : ℤ) : Seed P → Option P.Key
  | .none => some (P.ofSeed (effSeed Option.none ent))
  | .int z => some (P.ofSeed (effSeed (some z) ent))
  | .tup a b => some (C.wrap (a, b))
  | .str (.tup a b) => some (C.wrap (a, b))
  | .str _ => Option.none
  | .dev d => some d.key
  | .other => Option.none

open Classical in
/-- What the constructors check of the parameters: random.py:320-332, 474-486. -/
noncomputable def Kind.ok : Kind → Bool
  | .gaussian _ s => !decide (s.n.val < 0)
  | .poisson m => !decide (m.n.val < 0)
  | _ => true

/-- The constructors of deviates: random.py:80-82 and those cited at `Kind`. -/
noncomputable def newDev (C : Codec P) (ent : ℤ) (s : Seed P) (k : Kind) : Option (Dev P) :=
  (resetKey C ent s).bind fun key => if k.ok then some ⟨k, key⟩ else none

/-- `GaussianNoise(rng, sigma)`: noise.py:134-136. -/
noncomputable def newGaussianNoise (C : Codec P) (ent : ℤ) (s : Seed P) (sigma : V) : Option (Noise P) :=
  (newDev C ent s (.gaussian (pyF 0) sigma)).map fun d => .gaussian d (castFloat sigma)

/-- `PoissonNoise(rng, sky_level)`: noise.py:194-196. -/
noncomputable def newPoissonNoise (C : Codec P) (ent : ℤ) (s : Seed P) (sky : V) : Option (Noise P) :=
  (newDev C ent s (.poisson (pyF 1))).map fun d => .poisson d (castFloat sky)

/-- The deviate that `BaseNoise.__init__` keeps: noise.py:42-50. -/
noncomputable def baseRng (C : Codec P) (ent : ℤ) : Seed P → Option (Dev P)
  | .none => newDev C ent .none .base
  | .dev d => some d
  | _ => none

/-- `CCDNoise(rng, sky_level, gain, read_noise)`: noise.py:286-290. -/
noncomputable def newCcdNoise (C : Codec P) (ent : ℤ) (s : Seed P) (sky gain read : V) : Option (Noise P) :=
  (baseRng C ent s).map fun d => .ccd d (castFloat sky) (castFloat gain) (castFloat read)

/-- `DeviateNoise(dev)`: noise.py:455-456. -/
noncomputable def newDeviateNoise (C : Codec P) (ent : ℤ) (s : Seed P) : Option (Noise P) :=
  (baseRng C ent s).map .deviate

/-! ### eval -/

/-- The value of a keyword, with the default if it is not given. -/
def kwNum (b : List (String × Obj P)) (n : String) (dflt : V) : Option V :=
  match b.lookup n with
  | none => some dflt
  | some (.num v) => some v
  | some _ => none

/-- The seed, or the deviate, of a call. -/
def kwSeed (b : List (String × Obj P)) (n : String) : Seed P :=
  match b.lookup n with
  | none => .none
  | some (.tup a b) => .tup a b
  | some (.dev d) => .dev d
  | some (.num ⟨.int z, _⟩) => .int z
  | some _ => .other

/-- Python refuses keywords which are not parameters. -/
def known (names : List String) (b : List (String × Obj P)) : Bool := b.all fun p => names.contains p.1

/-- The constructors of the deviates by name, with their parameters and defaults (cited at `Kind`). -/
noncomputable def callDev (C : Codec P) (ent : ℤ) (f : String) (b : List (String × Obj P)) : Option (Dev P) :=
  if f = "galsim.BaseDeviate" then if known ["seed"] b then newDev C ent (kwSeed b "seed") .base else none
  else if f = "galsim.UniformDeviate" then if known ["seed"] b then newDev C ent (kwSeed b "seed") .uniform else none
  else if f = "galsim.GaussianDeviate" then
    if known ["seed", "mean", "sigma"] b then
      (kwNum b "mean" (pyF 0)).bind fun m => (kwNum b "sigma" (pyF 1)).bind fun s =>
        newDev C ent (kwSeed b "seed") (.gaussian m s)
    else none
  else if f = "galsim.BinomialDeviate" then
    if known ["seed", "N", "p"] b then
      (kwNum b "N" ⟨.int 1, false⟩).bind fun m => (kwNum b "p" (pyF (1 / 2))).bind fun s =>
        newDev C ent (kwSeed b "seed") (.binomial m s)
    else none
  else if f = "galsim.PoissonDeviate" then
    if known ["seed", "mean"] b then
      (kwNum b "mean" (pyF 1)).bind fun m => newDev C ent (kwSeed b "seed") (.poisson m)
    else none
  else if f = "galsim.WeibullDeviate" then
    if known ["seed", "a", "b"] b then
      (kwNum b "a" (pyF 1)).bind fun m => (kwNum b "b" (pyF 1)).bind fun s =>
        newDev C ent (kwSeed b "seed") (.weibull m s)
    else none
  else if f = "galsim.GammaDeviate" then
    if known ["seed", "k", "theta"] b then
      (kwNum b "k" (pyF 1)).bind fun m => (kwNum b "theta" (pyF 1)).bind fun s =>
        newDev C ent (kwSeed b "seed") (.gamma m s)
    else none
  else if f = "galsim.Chi2Deviate" then
    if known ["seed", "n"] b then
      (kwNum b "n" (pyF 1)).bind fun m => newDev C ent (kwSeed b "seed") (.chi2 m)
    else none
  else none

/-- The constructors of the noises by name (cited at `newGaussianNoise` and the others). -/
noncomputable def callNoise (C : Codec P) (ent : ℤ) (f : String) (b : List (String × Obj P)) : Option (Noise P) :=
  if f = "galsim.GaussianNoise" then
    if known ["rng", "sigma"] b then
      (kwNum b "sigma" (pyF 1)).bind fun s => newGaussianNoise C ent (kwSeed b "rng") s
    else none
  else if f = "galsim.PoissonNoise" then
    if known ["rng", "sky_level"] b then
      (kwNum b "sky_level" (pyF 0)).bind fun s => newPoissonNoise C ent (kwSeed b "rng") s
    else none
  else if f = "galsim.CCDNoise" then
    if known ["rng", "sky_level", "gain", "read_noise"] b then
      (kwNum b "sky_level" (pyF 0)).bind fun s => (kwNum b "gain" (pyF 1)).bind fun g =>
        (kwNum b "read_noise" (pyF 0)).bind fun r => newCcdNoise C ent (kwSeed b "rng") s g r
    else none
  else if f = "galsim.DeviateNoise" then
    if known ["dev"] b then newDeviateNoise C ent (kwSeed b "dev") else none
  else none

/-- A call by name. -/
noncomputable def callFn (C : Codec P) (ent : ℤ) (f : String) (b : List (String × Obj P)) : Option (Obj P) :=
  match callDev C ent f b with
  | some d => some (.dev d)
  | none => (callNoise C ent f b).map .noise

mutual
/-- `eval` with the names of the package; `Array` is not one of them. -/
noncomputable def Ex.eval (C : Codec P) (ent : ℤ) : Ex → Option (Obj P)
  | .num n => some (.num ⟨n, false⟩)
  | .arr _ => none
  | .tup a b => some (.tup a b)
  | .call f args => (Ex.evalArgs C ent args).bind (callFn C ent f)
/-- The arguments of a call. -/
noncomputable def Ex.evalArgs (C : Codec P) (ent : ℤ) : List (String × Ex) → Option (List (String × Obj P))
  | [] => some []
  | (n, e) :: l => (Ex.eval C ent e).bind fun v => (Ex.evalArgs C ent l).map fun l' => (n, v) :: l'
end

/-! ### Equality -/

/-- `_params == other._params`, together with the classes: number 0 stands for `BaseDeviate`. -/
def Kind.cls : Kind → ℕ
  | .base => 0
  | .uniform => 1
  | .gaussian _ _ => 2
  | .binomial _ _ => 3
  | .poisson _ => 4
  | .weibull _ _ => 5
  | .gamma _ _ => 6
  | .chi2 _ => 7

/-- The entries of the dictionary `_params`. -/
def Kind.params : Kind → List (String × V)
  | .base => []
  | .uniform => []
  | .gaussian m s => [("mean", m), ("sigma", s)]
  | .binomial N p => [("N", N), ("p", p)]
  | .poisson m => [("mean", m)]
  | .weibull a b => [("a", a), ("b", b)]
  | .gamma k t => [("k", k), ("theta", t)]
  | .chi2 n => [("n", n)]

/-- `isinstance(other, self.__class__)`: every deviate is a `BaseDeviate`, and there is no other inheritance. -/
def isInstance (other self : Kind) : Bool := self.cls == 0 || other.cls == self.cls

/-- `__eq__`: random.py:246-253.  Numbers compare by value. -/
def Dev.dunderEq (C : Codec P) (self other : Dev P) : Prop :=
  isInstance other.kind self.kind = true ∧ C.data self.key = C.data other.key ∧
    self.kind.params.map (fun p => (p.1, p.2.n.val)) = other.kind.params.map (fun p => (p.1, p.2.n.val))

/-- `a == b`: Python asks the right operand first if its class is a proper subclass of that of the left one. -/
def Dev.eq (C : Codec P) (a b : Dev P) : Prop :=
  if a.kind.cls = 0 ∧ b.kind.cls ≠ 0 then b.dunderEq C a else a.dunderEq C b

/-- `BaseNoise.__eq__`: noise.py:108-110. -/
def Noise.eq (C : Codec P) (a b : Noise P) : Prop := a.repr C = b.repr C

/-- The parameters of a noise, as in `Model/Noise.lean`. -/
noncomputable def Noise.toNoise : Noise P → JG.Noise
  | .gaussian _ s => .gaussian s.n.val
  | .poisson _ s => .poisson s.n.val
  | .ccd _ s g r => .ccd s.n.val g.n.val r.n.val
  | .deviate d => .deviate d.kind.toDev

/-- The key of the random state of a noise. -/
def Noise.key : Noise P → P.Key
  | .gaussian r _ => r.key
  | .poisson r _ => r.key
  | .ccd r _ _ _ => r.key
  | .deviate d => d.key

/-- `applyTo(image)`: `Noise.applyTo` of `Model/Noise.lean`, where Gaussian noise draws from its own deviate (noise.py:143-146). -/
noncomputable def Noise.apply (n : Noise P) (isInt : Bool) (px : List ℝ) : Option (P.Key × List ℝ) :=
  match n with
  | .gaussian r _ => (JG.Noise.deviate r.kind.toDev).applyTo P isInt r.key px
  | n => n.toNoise.applyTo P isInt n.key px

end JG.Rr
