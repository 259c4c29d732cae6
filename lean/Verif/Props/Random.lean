import Verif.Model.Random
import Mathlib.Data.List.Basic
import Mathlib.Data.List.Perm.Basic
import Mathlib.Data.List.FinRange
import Mathlib.Tactic.Ring

/-!
Properties C33 (one reproducible stream per random state) and C34 (`permute`).
-/

namespace JG

variable {P : Prng}

/-! ### Specification: streams -/

/-- The `n`-th key of the chain that starts at `root`. -/
def chainKey (P : Prng) (root : P.Key) (n : ℕ) : P.Key := (fun k => (P.split k).1)^[n] root

/-- The `n`-th element of the random stream with root `root`. -/
def streamAt (P : Prng) (root : P.Key) (n : ℕ) : P.Key := (P.split (chainKey P root n)).2

/-- Elements `pos, …, pos+n-1` of the stream. -/
def streamFrom (P : Prng) (root : P.Key) (pos n : ℕ) : List P.Key :=
  (List.range n).map fun i => streamAt P root (pos + i)

/-- The value a deviate of the given kind makes from one stream element. -/
noncomputable def DevKind.value (P : Prng) (u : P.Key) : DevKind → ℝ
  | .base => 0
  | .uniform => P.uniform u
  | .gaussian mean sigma => mean + sigma * P.normal u
  | .binomial N p => P.bernoulliSum u N p
  | .poisson mean => if mean < 2 ^ 17 then P.poisson u mean else mean + Real.sqrt mean * P.normal u
  | .weibull a b => P.weibull u b a
  | .gamma k theta => theta * P.gamma u k
  | .chi2 n => P.chisq u n

/-- `BaseDeviate` itself cannot generate values. -/
def DevKind.isBase : DevKind → Bool
  | .base => true
  | _ => false

/-- Specification of a drawing operation on a stream at position `pos`: how many elements it consumes and what it
returns. -/
noncomputable def DrawOp.spec (P : Prng) (k : DevKind) (root : P.Key) (pos : ℕ) : DrawOp → ℕ × Option (List ℝ)
  | .call => if k.isBase then (0, none) else (1, some [k.value P (streamAt P root pos)])
  | .generate n => if k.isBase then (0, none) else (n, some ((streamFrom P root pos n).map fun u => k.value P u))
  | .addGenerate a => if k.isBase then (0, none) else
      (a.length, some (List.zipWith (fun u x => k.value P u + x) (streamFrom P root pos a.length) a))
  | .fromVariance a => match k with
    | .gaussian _ _ => (a.length,
        some (List.zipWith (fun u s => P.normal u * Real.sqrt s) (streamFrom P root pos a.length) a))
    | _ => (0, none)
  | .fromExpectation a => match k with
    | .poisson _ => if a.any (fun m => decide (m < 0)) then (0, none) else
        (a.length, some (List.zipWith (fun u m => (DevKind.poisson m).value P u) (streamFrom P root pos a.length) a))
    | _ => (0, none)
  | .discard n => (n, some [])
  | .raw => (1, some [P.bits (streamAt P root pos)])
  | .clearCache => (0, some [])

/-- Abstract state: each random state is a stream root with the number of elements consumed so far. -/
structure SpecState (P : Prng) where
  cells : List (P.Key × ℕ)
  devs : List (ℕ × DevKind)

/-- Abstract step: streams are created with count 0; deviates made from a deviate share its stream; duplicates get a
stream of their own with the same root and count; draws advance the count. -/
noncomputable def SpecState.step (s : SpecState P) : RngOp P → SpecState P × Option (List ℝ)
  | .new k seed ent => (⟨s.cells ++ [(P.ofSeed (effSeed seed ent), 0)], s.devs ++ [(s.cells.length, k)]⟩, some [])
  | .newFrom k d => match s.devs[d]? with
    | none => (s, none)
    | some (c, _) => (⟨s.cells, s.devs ++ [(c, k)]⟩, some [])
  | .newKey k key => (⟨s.cells ++ [(key, 0)], s.devs ++ [(s.cells.length, k)]⟩, some [])
  | .duplicate d => match s.devs[d]? with
    | none => (s, none)
    | some (c, k) => match s.cells[c]? with
      | none => (s, none)
      | some cell => (⟨s.cells ++ [cell], s.devs ++ [(s.cells.length, k)]⟩, some [])
  | .draw d op => match s.devs[d]? with
    | none => (s, none)
    | some (c, k) => match s.cells[c]? with
      | none => (s, none)
      | some (root, pos) =>
        (⟨s.cells.set c (root, pos + (op.spec P k root pos).1), s.devs⟩, (op.spec P k root pos).2)
  | .seed d seed ent => match s.devs[d]? with
    | none => (s, none)
    | some (c, _) => (⟨s.cells.set c (P.ofSeed (effSeed seed ent), 0), s.devs⟩, some [])
  | .reset d seed ent => match s.devs[d]? with
    | none => (s, none)
    | some (_, k) => (⟨s.cells ++ [(P.ofSeed (effSeed seed ent), 0)], s.devs.set d (s.cells.length, k)⟩, some [])
  | .resetFrom d e => match s.devs[d]?, s.devs[e]? with
    | some (_, k), some (c, _) => (⟨s.cells, s.devs.set d (c, k)⟩, some [])
    | _, _ => (s, none)

/-- Outputs of a program on the abstract machine. -/
noncomputable def SpecState.exec (s : SpecState P) : List (RngOp P) → SpecState P × List (Option (List ℝ))
  | [] => (s, [])
  | op :: ops =>
    let r := s.step op
    let t := r.1.exec ops
    (t.1, r.2 :: t.2)

/-! ### Helper lemmas -/

theorem chainKey_succ (root : P.Key) (n : ℕ) : chainKey P root (n + 1) = (P.split (chainKey P root n)).1 := by
  unfold chainKey; rw [Function.iterate_succ_apply']

theorem streamFrom_succ (root : P.Key) (pos n : ℕ) :
    streamFrom P root pos (n + 1) = streamAt P root pos :: streamFrom P root (pos + 1) n := by
  unfold streamFrom
  rw [List.range_succ_eq_map, List.map_cons, List.map_map, Nat.add_zero]
  congr 1
  apply List.map_congr_left
  intro i _
  simp only [Function.comp]; congr 1; omega

theorem streamFrom_length (root : P.Key) (pos n : ℕ) : (streamFrom P root pos n).length = n := by
  simp [streamFrom]

/-- The unprocessed value of `_generate_one`. -/
noncomputable def rawVal (P : Prng) (k : DevKind) (u : P.Key) : ℝ :=
  match k with
  | .base => 0
  | .uniform => P.uniform u
  | .gaussian _ _ => P.normal u
  | .binomial N p => P.bernoulliSum u N p
  | .poisson mean => poissonOne P mean u
  | .weibull a b => P.weibull u b a
  | .gamma k _ => P.gamma u k
  | .chi2 n => P.chisq u n

theorem generateOne_eq (k : DevKind) (hk : k.isBase = false) (key : P.Key) :
    k.generateOne P key = some ((P.split key).1, rawVal P k (P.split key).2) := by
  cases k <;> first | rfl | (simp [DevKind.isBase] at hk)

theorem postCall_eq (k : DevKind) (hk : k.isBase = false) (u : P.Key) : k.postCall (rawVal P k u) = k.value P u := by
  cases k with
  | gaussian m s => simp only [DevKind.postCall, rawVal, DevKind.value]; ring
  | gamma a t => simp only [DevKind.postCall, rawVal, DevKind.value]; ring
  | poisson m => simp only [DevKind.postCall, rawVal, DevKind.value, poissonOne]; split <;> ring
  | base => simp [DevKind.isBase] at hk
  | _ => rfl

theorem postGenerate_eq (k : DevKind) (l : List ℝ) : k.postGenerate l = l.map k.postCall := by
  cases k <;> first | rfl | exact (List.map_id l).symm

theorem scanOne_eq (k : DevKind) (hk : k.isBase = false) (root : P.Key) (n pos : ℕ) :
    scanOne P k n (chainKey P root pos) =
      some (chainKey P root (pos + n), (streamFrom P root pos n).map fun u => rawVal P k u) := by
  induction n generalizing pos with
  | zero => cases k <;> first | rfl | (simp [DevKind.isBase] at hk)
  | succ n ih =>
    rw [scanOne, generateOne_eq k hk]
    simp only
    rw [← chainKey_succ, ih (pos + 1), streamFrom_succ, List.map_cons]
    simp only
    rw [show pos + 1 + n = pos + (n + 1) by omega]; rfl

theorem scanOne_base (n : ℕ) (key : P.Key) : scanOne P .base n key = none := by
  cases n <;> rfl

theorem scanPoisson_eq (root : P.Key) (a : List ℝ) (pos : ℕ) :
    scanPoisson P a (chainKey P root pos) = (chainKey P root (pos + a.length),
      List.zipWith (fun u m => (DevKind.poisson m).value P u) (streamFrom P root pos a.length) a) := by
  induction a generalizing pos with
  | nil => rfl
  | cons m ms ih =>
    rw [scanPoisson, ← chainKey_succ, ih (pos + 1), List.length_cons, streamFrom_succ, List.zipWith_cons_cons]
    simp only
    rw [show pos + 1 + ms.length = pos + (ms.length + 1) by omega]
    congr 2
    simp only [poissonOne, DevKind.value, streamAt]
    split <;> ring

theorem discardKey_eq (root : P.Key) (n pos : ℕ) : discardKey P n (chainKey P root pos) = chainKey P root (pos + n) := by
  induction n generalizing pos with
  | zero => rfl
  | succ n ih => rw [discardKey, ← chainKey_succ, ih (pos + 1)]; congr 1; omega

/-- C33, one operation: on a state at position `pos` of the stream `root`, every drawing operation consumes and returns
what the stream specification says. -/
theorem C33_draw (k : DevKind) (root : P.Key) (pos : ℕ) (op : DrawOp) :
    op.run P k (chainKey P root pos) = (chainKey P root (pos + (op.spec P k root pos).1), (op.spec P k root pos).2) := by
  cases hb : k.isBase
  · cases op with
    | call =>
      simp only [DrawOp.run, DrawOp.spec, generateOne_eq k hb, hb, postCall_eq k hb, Bool.false_eq_true, if_false,
        ← chainKey_succ]
      rfl
    | generate n =>
      simp only [DrawOp.run, DrawOp.spec, scanOne_eq k hb, hb, Bool.false_eq_true, if_false, postGenerate_eq,
        List.map_map]
      congr 2
      apply List.map_congr_left
      intro u _; exact postCall_eq k hb u
    | addGenerate a =>
      simp only [DrawOp.run, DrawOp.spec, scanOne_eq k hb, hb, Bool.false_eq_true, if_false, postGenerate_eq,
        List.map_map]
      congr 2
      rw [List.zipWith_map_left]
      congr 1
      funext u x
      simp only [Function.comp]; rw [postCall_eq k hb u]
    | fromVariance a =>
      cases k with
      | gaussian m s =>
        simp only [DrawOp.run, DrawOp.spec, scanOne_eq _ hb, List.zipWith_map_left]
        rfl
      | _ => rfl
    | fromExpectation a =>
      cases k with
      | poisson m =>
        simp only [DrawOp.run, DrawOp.spec]
        split
        · rfl
        · rw [scanPoisson_eq]
      | _ => rfl
    | discard n => simp only [DrawOp.run, DrawOp.spec, discardKey_eq]
    | raw => simp only [DrawOp.run, DrawOp.spec, ← chainKey_succ]; rfl
    | clearCache => rfl
  · have : k = .base := by cases k <;> first | rfl | (simp [DevKind.isBase] at hb)
    subst this
    cases op with
    | discard n => simp only [DrawOp.run, DrawOp.spec, discardKey_eq]
    | raw => simp only [DrawOp.run, DrawOp.spec, ← chainKey_succ]; rfl
    | call => rfl
    | generate n => simp only [DrawOp.run, DrawOp.spec, scanOne_base, DevKind.isBase, if_true]; rfl
    | addGenerate a => simp only [DrawOp.run, DrawOp.spec, scanOne_base, DevKind.isBase, if_true]; rfl
    | fromVariance a => rfl
    | fromExpectation a => rfl
    | clearCache => rfl

/-- The abstraction relation. -/
def Abs (s : RngState P) (t : SpecState P) : Prop :=
  s.devs = t.devs ∧ s.cells = t.cells.map fun c => chainKey P c.1 c.2

theorem abs_step (s : RngState P) (t : SpecState P) (h : Abs s t) (op : RngOp P) :
    Abs (s.step op).1 (t.step op).1 ∧ (s.step op).2 = (t.step op).2 := by
  obtain ⟨hd, hc⟩ := h
  have hlen : s.cells.length = t.cells.length := by rw [hc, List.length_map]
  have hget : ∀ c : ℕ, s.cells[c]? = (t.cells[c]?).map fun c => chainKey P c.1 c.2 := by
    intro c; rw [hc, List.getElem?_map]
  cases op with
  | new k seed ent =>
    refine ⟨⟨?_, ?_⟩, rfl⟩
    · simp only [RngState.step, SpecState.step, hd, hlen]
    · simp only [RngState.step, SpecState.step, hc, List.map_append, List.map_cons, List.map_nil]; rfl
  | newKey k key =>
    refine ⟨⟨?_, ?_⟩, rfl⟩
    · simp only [RngState.step, SpecState.step, hd, hlen]
    · simp only [RngState.step, SpecState.step, hc, List.map_append, List.map_cons, List.map_nil]; rfl
  | newFrom k d =>
    simp only [RngState.step, SpecState.step, hd]
    cases t.devs[d]? with
    | none => exact ⟨⟨hd, hc⟩, rfl⟩
    | some v => exact ⟨⟨by simp, hc⟩, rfl⟩
  | duplicate d =>
    simp only [RngState.step, SpecState.step, hd]
    cases t.devs[d]? with
    | none => exact ⟨⟨hd, hc⟩, rfl⟩
    | some v =>
      simp only [hget]
      cases t.cells[v.1]? with
      | none => exact ⟨⟨hd, hc⟩, rfl⟩
      | some cell =>
        refine ⟨⟨by simp [hlen], ?_⟩, rfl⟩
        simp [hc]
  | draw d op =>
    simp only [RngState.step, SpecState.step, hd]
    cases t.devs[d]? with
    | none => exact ⟨⟨hd, hc⟩, rfl⟩
    | some v =>
      simp only [hget]
      cases t.cells[v.1]? with
      | none => exact ⟨⟨hd, hc⟩, rfl⟩
      | some cell =>
        simp only [Option.map_some, C33_draw]
        refine ⟨⟨rfl, ?_⟩, trivial⟩
        rw [hc, List.map_set]
  | seed d seed ent =>
    simp only [RngState.step, SpecState.step, hd]
    cases t.devs[d]? with
    | none => exact ⟨⟨hd, hc⟩, rfl⟩
    | some v => exact ⟨⟨rfl, by rw [hc, List.map_set]; rfl⟩, rfl⟩
  | reset d seed ent =>
    simp only [RngState.step, SpecState.step, hd]
    cases t.devs[d]? with
    | none => exact ⟨⟨hd, hc⟩, rfl⟩
    | some v => exact ⟨⟨by simp [hlen], by simp [hc]; rfl⟩, rfl⟩
  | resetFrom d e =>
    simp only [RngState.step, SpecState.step, hd]
    cases t.devs[d]? with
    | none => exact ⟨⟨hd, hc⟩, rfl⟩
    | some v => cases t.devs[e]? with
      | none => exact ⟨⟨hd, hc⟩, rfl⟩
      | some w => exact ⟨⟨rfl, hc⟩, rfl⟩

/-- C33 (refinement): every program over any number of linked, duplicated, reset deviates returns exactly what the
abstract machine of streams returns. -/
theorem C33_refines (ops : List (RngOp P)) :
    ((⟨[], []⟩ : RngState P).exec ops).2 = ((⟨[], []⟩ : SpecState P).exec ops).2 := by
  have key : ∀ (ops : List (RngOp P)) (s : RngState P) (t : SpecState P), Abs s t → (s.exec ops).2 = (t.exec ops).2 := by
    intro ops
    induction ops with
    | nil => intros; rfl
    | cons op ops ih =>
      intro s t h
      obtain ⟨h1, h2⟩ := abs_step s t h op
      simp only [RngState.exec, SpecState.exec]
      rw [h2, ih _ _ h1]
  exact key ops _ _ ⟨rfl, rfl⟩

/-! ### Consequences -/

/-- Applying the same drawing operation `n` times: final key, and all values in order. -/
noncomputable def repeatOp (P : Prng) (k : DevKind) (op : DrawOp) : ℕ → P.Key → P.Key × Option (List ℝ)
  | 0, key => (key, some [])
  | n + 1, key =>
    let r := op.run P k key
    let t := repeatOp P k op n r.1
    (t.1, match r.2, t.2 with
      | some a, some b => some (a ++ b)
      | _, _ => none)

/-- C33: generating `n` values at once is the same as `n` single calls: same values, same state afterwards. -/
theorem C33_generate (k : DevKind) (hk : k.isBase = false) (key : P.Key) (n : ℕ) :
    DrawOp.run P k key (.generate n) = repeatOp P k .call n key := by
  have h0 : key = chainKey P key 0 := rfl
  rw [h0, C33_draw]
  simp only [DrawOp.spec, hk, Bool.false_eq_true, if_false]
  have key' : ∀ n pos, repeatOp P k .call n (chainKey P key pos) =
      (chainKey P key (pos + n), some ((streamFrom P key pos n).map fun u => k.value P u)) := by
    intro n
    induction n with
    | zero => intro pos; rfl
    | succ n ih =>
      intro pos
      rw [repeatOp, C33_draw]
      simp only [DrawOp.spec, hk, Bool.false_eq_true, if_false]
      rw [ih, streamFrom_succ]
      simp only [List.map_cons, List.cons_append, List.nil_append]
      rw [show pos + 1 + n = pos + (n + 1) by omega]
  rw [key']

example : (DevKind.gaussian 1 2).isBase = false := rfl

/-- C33: discarding `n` leaves the same state as drawing `n` values and ignoring them, whatever the kind of deviate that
draws them. -/
theorem C33_discard (k k' : DevKind) (hk : k.isBase = false) (key : P.Key) (n : ℕ) :
    (DrawOp.run P k' key (.discard n)).1 = (DrawOp.run P k key (.generate n)).1 ∧
    (DrawOp.run P k' key (.discard n)).1 = (repeatOp P k' .raw n key).1 := by
  have h0 : key = chainKey P key 0 := rfl
  constructor
  · rw [h0, C33_draw, C33_draw]; simp [DrawOp.spec, hk]
  · have key' : ∀ n pos, (repeatOp P k' .raw n (chainKey P key pos)).1 = chainKey P key (pos + n) := by
      intro n
      induction n with
      | zero => intro pos; rfl
      | succ n ih =>
        intro pos
        rw [repeatOp, C33_draw]
        simp only [DrawOp.spec]
        rw [ih]; congr 1; omega
    rw [h0, C33_draw, key']; rfl

/-- A draw on deviate `d`. -/
def drawOps (l : List (ℕ × DrawOp)) : List (RngOp P) := l.map fun x => RngOp.draw x.1 x.2

theorem exec_draw_devs (l : List (ℕ × DrawOp)) (s : RngState P) : (s.exec (drawOps l)).1.devs = s.devs := by
  induction l generalizing s with
  | nil => rfl
  | cons x l ih =>
    simp only [drawOps, List.map_cons, RngState.exec]
    refine (ih _).trans ?_
    simp only [RngState.step]
    split
    · rfl
    · split <;> rfl

/-- C33: deviates built from the same deviate share one stream: single calls on them, in any order, take consecutive
elements of the stream. -/
theorem C33_shared (s : RngState P) (c : ℕ) (root : P.Key) (pos : ℕ) (hc : s.cells[c]? = some (chainKey P root pos))
    (l : List ℕ) (kinds : ℕ → DevKind) (hl : ∀ d ∈ l, s.devs[d]? = some (c, kinds d) ∧ (kinds d).isBase = false) :
    (s.exec (drawOps (l.map fun d => (d, DrawOp.call)))).2 =
      List.zipWith (fun d u => some [(kinds d).value P u]) l (streamFrom P root pos l.length) := by
  induction l generalizing s pos with
  | nil => rfl
  | cons d l ih =>
    obtain ⟨h1, h2⟩ := hl d (List.mem_cons_self)
    have hstep : s.step (.draw d .call) = (⟨s.cells.set c (chainKey P root (pos + 1)), s.devs⟩,
        some [(kinds d).value P (streamAt P root pos)]) := by
      simp only [RngState.step, h1, hc, C33_draw, DrawOp.spec, h2, Bool.false_eq_true, if_false]
    simp only [List.map_cons, drawOps, RngState.exec, hstep, List.length_cons, streamFrom_succ, List.zipWith_cons_cons]
    congr 1
    have hlt : c < s.cells.length := by
      by_contra hge
      rw [List.getElem?_eq_none (not_lt.mp hge)] at hc; cases hc
    exact ih ⟨s.cells.set c (chainKey P root (pos + 1)), s.devs⟩ (pos + 1) (by simp [hlt])
      (fun d' hd' => hl d' (List.mem_cons_of_mem _ hd'))

/-- Linking: `Deviate(d)` makes a deviate that refers to the state of `d`. -/
theorem C33_link (s : RngState P) (k kd : DevKind) (d c : ℕ) (h : s.devs[d]? = some (c, kd)) :
    (s.step (.newFrom k d)).1.devs[s.devs.length]? = some (c, k) ∧ (s.step (.newFrom k d)).1.devs[d]? = some (c, kd) ∧
    (s.step (.newFrom k d)).1.cells = s.cells := by
  have hd : d < s.devs.length := by
    by_contra hge
    rw [List.getElem?_eq_none (not_lt.mp hge)] at h; cases h
  simp only [RngState.step, h]
  refine ⟨by simp, ?_, trivial⟩
  rw [List.getElem?_append_left hd, h]

/-- Outputs of the draws on deviates that refer to cell `c`. -/
def outputsAt (devs : List (ℕ × DevKind)) (c : ℕ) : List (ℕ × DrawOp) → List (Option (List ℝ)) → List (Option (List ℝ))
  | (d, _) :: l, o :: os => if (devs[d]?).map Prod.fst = some c then o :: outputsAt devs c l os else outputsAt devs c l os
  | _, _ => []

/-- C33: draws on other random states do not influence a deviate: in any interleaving of draws, what the deviates of
cell `c` return is what they would return if the other draws were not made. -/
theorem C33_independent (s : RngState P) (c : ℕ) (l : List (ℕ × DrawOp)) :
    outputsAt s.devs c l (s.exec (drawOps l)).2 =
      (s.exec (drawOps (l.filter fun x => decide ((s.devs[x.1]?).map Prod.fst = some c)))).2 := by
  have key : ∀ (l : List (ℕ × DrawOp)) (devs : List (ℕ × DevKind)) (s s' : RngState P), s.devs = devs → s'.devs = devs →
      s.cells[c]? = s'.cells[c]? →
      outputsAt devs c l (s.exec (drawOps l)).2 =
        (s'.exec (drawOps (l.filter fun x => decide ((devs[x.1]?).map Prod.fst = some c)))).2 := by
    intro l devs
    induction l with
    | nil => intros; rfl
    | cons x l ih =>
      intro s s' h1 h2 h3
      simp only [drawOps, List.map_cons, RngState.exec]
      cases hdev : devs[x.1]? with
      | none =>
        have hstep : s.step (.draw x.1 x.2) = (s, none) := by simp only [RngState.step, h1, hdev]
        rw [hstep]
        simp only [outputsAt, hdev, Option.map_none, reduceCtorEq, if_false]
        rw [List.filter_cons_of_neg (by simp [hdev])]
        exact ih s s' h1 h2 h3
      | some v =>
        obtain ⟨c', k⟩ := v
        by_cases hcc : c' = c
        · subst hcc
          rw [List.filter_cons_of_pos (by simp [hdev])]
          simp only [List.map_cons, RngState.exec, outputsAt, hdev, Option.map_some, if_true]
          cases hcell : s.cells[c']? with
          | none =>
            have hstep : s.step (.draw x.1 x.2) = (s, none) := by simp only [RngState.step, h1, hdev, hcell]
            have hstep' : s'.step (.draw x.1 x.2) = (s', none) := by
              simp only [RngState.step, h2, hdev, ← h3, hcell]
            rw [hstep, hstep']
            congr 1
            exact ih s s' h1 h2 h3
          | some kk =>
            have hstep : s.step (.draw x.1 x.2) = (⟨s.cells.set c' (x.2.run P k kk).1, s.devs⟩, (x.2.run P k kk).2) := by
              simp only [RngState.step, h1, hdev, hcell]
            have hstep' : s'.step (.draw x.1 x.2) =
                (⟨s'.cells.set c' (x.2.run P k kk).1, s'.devs⟩, (x.2.run P k kk).2) := by
              simp only [RngState.step, h2, hdev, ← h3, hcell]
            rw [hstep, hstep']
            congr 1
            refine ih _ _ h1 h2 ?_
            have l1 : c' < s.cells.length := by
              by_contra hge
              rw [List.getElem?_eq_none (not_lt.mp hge)] at hcell; cases hcell
            have l2 : c' < s'.cells.length := by
              by_contra hge
              rw [h3, List.getElem?_eq_none (not_lt.mp hge)] at hcell; cases hcell
            simp only [List.getElem?_set_self l1, List.getElem?_set_self l2]
        · rw [List.filter_cons_of_neg (by simp [hdev, hcc])]
          simp only [outputsAt, hdev, Option.map_some, Option.some.injEq, hcc, if_false]
          refine ih _ _ ?_ h2 ?_
          · simp only [RngState.step, h1, hdev]; split
            · exact h1
            · rfl
          · simp only [RngState.step, h1, hdev]; split
            · exact h3
            · simp only [List.getElem?_set_ne hcc, h3]
  exact key l s.devs s s rfl rfl rfl

/-- C33: a duplicate produces the same future values as the original, for every sequence of draws, and refers to a state
of its own. -/
theorem C33_duplicate (s : RngState P) (d c : ℕ) (k : DevKind) (key : P.Key) (h : s.devs[d]? = some (c, k))
    (hc : s.cells[c]? = some key) (l : List DrawOp) :
    let s' := (s.step (.duplicate d)).1
    let m := s.devs.length
    (s'.exec (drawOps (l.map fun op => (m, op)))).2 = (s'.exec (drawOps (l.map fun op => (d, op)))).2 ∧
    ∃ c', c' ≠ c ∧ s'.devs[m]? = some (c', k) ∧ s'.devs[d]? = some (c, k) := by
  intro s' m
  have hd : d < s.devs.length := by
    by_contra hge
    rw [List.getElem?_eq_none (not_lt.mp hge)] at h; cases h
  have hlt : c < s.cells.length := by
    by_contra hge
    rw [List.getElem?_eq_none (not_lt.mp hge)] at hc; cases hc
  have hs' : s' = ⟨s.cells ++ [key], s.devs ++ [(s.cells.length, k)]⟩ := by
    simp only [s', RngState.step, h, hc]
  have hm : s'.devs[m]? = some (s.cells.length, k) := by rw [hs']; simp [m]
  have hd' : s'.devs[d]? = some (c, k) := by rw [hs']; simp only; rw [List.getElem?_append_left hd, h]
  refine ⟨?_, s.cells.length, by omega, hm, hd'⟩
  have gen : ∀ (l : List DrawOp) (a b : RngState P) (x y cx cy : ℕ) (key : P.Key), a.devs[x]? = some (cx, k) →
      b.devs[y]? = some (cy, k) → a.cells[cx]? = some key → b.cells[cy]? = some key →
      (a.exec (drawOps (l.map fun op => (x, op)))).2 = (b.exec (drawOps (l.map fun op => (y, op)))).2 := by
    intro l
    induction l with
    | nil => intros; rfl
    | cons op l ih =>
      intro a b x y cx cy key h1 h2 h3 h4
      simp only [List.map_cons, drawOps, RngState.exec, RngState.step, h1, h2, h3, h4]
      congr 1
      have l1 : cx < a.cells.length := by
        by_contra hge
        rw [List.getElem?_eq_none (not_lt.mp hge)] at h3; cases h3
      have l2 : cy < b.cells.length := by
        by_contra hge
        rw [List.getElem?_eq_none (not_lt.mp hge)] at h4; cases h4
      exact ih ⟨a.cells.set cx _, a.devs⟩ ⟨b.cells.set cy _, b.devs⟩ x y cx cy (op.run P k key).1 h1 h2
        (List.getElem?_set_self l1) (List.getElem?_set_self l2)
  refine gen l s' s' m d s.cells.length c key hm hd' ?_ ?_
  · rw [hs']; simp
  · rw [hs']; simp only; rw [List.getElem?_append_left hlt, hc]

/-- C33: after `reset(seed)` with a non-zero seed the deviate restarts the stream of that seed, whatever happened
before (and whatever the system randomness is). -/
theorem C33_reset (s : RngState P) (d c : ℕ) (k : DevKind) (hk : k.isBase = false) (h : s.devs[d]? = some (c, k))
    (seed ent : ℤ) (hs : seed ≠ 0) (n : ℕ) :
    ((s.step (.reset d (some seed) ent)).1.exec (drawOps ((List.replicate n d).map fun d => (d, DrawOp.call)))).2 =
      (streamFrom P (P.ofSeed seed) 0 n).map fun u => some [k.value P u] := by
  have hd : d < s.devs.length := by
    by_contra hge
    rw [List.getElem?_eq_none (not_lt.mp hge)] at h; cases h
  have := C33_shared (s.step (.reset d (some seed) ent)).1 s.cells.length (P.ofSeed seed) 0
    (by simp [RngState.step, h, effSeed, hs]; rfl) (List.replicate n d) (fun _ => k)
    (fun d' hd' => by
      rw [List.eq_of_mem_replicate hd']
      refine ⟨?_, hk⟩
      simp only [RngState.step, h]
      exact List.getElem?_set_self hd)
  rw [this, List.length_replicate]
  apply List.ext_getElem
  · simp [streamFrom_length]
  · intro i h1 h2; simp

/-- C33: `seed(s)` with a non-zero seed restarts the stream for the deviate and all deviates linked to it. -/
theorem C33_seed (s : RngState P) (d e c : ℕ) (k ke : DevKind) (hk : ke.isBase = false) (h : s.devs[d]? = some (c, k))
    (he : s.devs[e]? = some (c, ke)) (hc : c < s.cells.length) (seed ent : ℤ) (hs : seed ≠ 0) (n : ℕ) :
    ((s.step (.seed d (some seed) ent)).1.exec (drawOps ((List.replicate n e).map fun d => (d, DrawOp.call)))).2 =
      (streamFrom P (P.ofSeed seed) 0 n).map fun u => some [ke.value P u] := by
  have := C33_shared (s.step (.seed d (some seed) ent)).1 c (P.ofSeed seed) 0
    (by simp [RngState.step, h, effSeed, hs, hc]; rfl) (List.replicate n e) (fun _ => ke)
    (fun d' hd' => by
      rw [List.eq_of_mem_replicate hd']
      exact ⟨by simp [RngState.step, h, he], hk⟩)
  rw [this, List.length_replicate]
  apply List.ext_getElem
  · simp [streamFrom_length]
  · intro i h1 h2; simp

/-- A concrete program state meeting the hypotheses above. -/
example (key : P.Key) : let s : RngState P := ⟨[key], [(0, .uniform), (0, .gaussian 0 1)]⟩
    s.devs[1]? = some (0, .gaussian 0 1) ∧ s.cells[0]? = some key := ⟨rfl, rfl⟩

/-! ### C34 -/

/-- C34: `permute` of arrays of the same length rearranges all of them by one permutation, advances the random state by
exactly one, and returns as many arrays as given. -/
theorem C34_permute {α : Type} (key : P.Key) (args : List (List α)) (n : ℕ) (hne : args ≠ [])
    (hlen : ∀ a ∈ args, a.length = n) :
    ∃ (key' : P.Key) (outs : List (List α)), permute P key args = some (key', outs) ∧
      key' = (DrawOp.run P .base key (.discard 1)).1 ∧ outs.length = args.length ∧
      ∃ σ : Equiv.Perm (Fin n), ∀ (i : ℕ) (a : List α), args[i]? = some a → ∃ o, outs[i]? = some o ∧
        o.length = n ∧ ∀ j : Fin n, o[j.val]? = a[(σ j).val]? := by
  refine ⟨discardKey P 1 key, args.map (permuteArr P key), ?_, rfl, by simp, P.perm key n, ?_⟩
  · unfold permute; rw [if_neg]; simpa using hne
  · intro i a ha
    have hn : a.length = n := hlen a (List.mem_of_getElem? ha)
    subst hn
    refine ⟨permuteArr P key a, by simp [ha], by simp [permuteArr], ?_⟩
    intro j
    simp [permuteArr]

/-- C34: each output is a rearrangement of its input (any lengths). -/
theorem C34_rearrangement {α : Type} (key : P.Key) (a : List α) : (permuteArr P key a).Perm a := by
  unfold permuteArr
  have h := (Equiv.Perm.ofFn_comp_perm (P.perm key a.length) (fun i => a.get i))
  have e : (List.ofFn fun i : Fin a.length => a.get i) = a := by simp
  rw [e] at h
  exact h

/-- C34: pairing is preserved: permuting the pairs of two lists of the same length gives the pairs of the permuted lists. -/
theorem C34_pairing {α : Type} (key : P.Key) (a b : List α) (h : a.length = b.length) :
    ((permuteArr P key a).zip (permuteArr P key b)).Perm (a.zip b) := by
  have key' : (permuteArr P key a).zip (permuteArr P key b) = permuteArr P key (a.zip b) := by
    have hz : (a.zip b).length = a.length := by simp [h]
    apply List.ext_getElem
    · simp [permuteArr, h]
    · intro i h1 h2
      have gen : ∀ (n m : ℕ) (e : n = m) (i : ℕ) (hi : i < n) (hi' : i < m),
          ((P.perm key n) ⟨i, hi⟩).val = ((P.perm key m) ⟨i, hi'⟩).val := by
        intro n m e; subst e; intros; rfl
      have hia : i < a.length := by simpa [permuteArr, h] using h1
      have hib : i < b.length := by omega
      simp only [permuteArr, List.getElem_zip, List.getElem_ofFn, List.get_eq_getElem]
      congr 1
      · congr 1; exact gen _ _ hz.symm i hia (by omega)
      · congr 1; exact gen _ _ (by omega) i hib (by omega)
  rw [key']; exact C34_rearrangement key _

example : ∀ a ∈ [[1, 2, 3], [4, 5, 6]], a.length = 3 := by decide

/-- C33: a deviate built or reset with a non-zero seed does not depend on the system's randomness; with seed `0` or
`None` its stream is determined by the system's randomness only. -/
theorem C33_seeding (s : RngState P) (k : DevKind) (d : ℕ) (seed ent ent' : ℤ) :
    (seed ≠ 0 → s.step (.new k (some seed) ent) = s.step (.new k (some seed) ent') ∧
      s.step (.reset d (some seed) ent) = s.step (.reset d (some seed) ent') ∧
      s.step (.seed d (some seed) ent) = s.step (.seed d (some seed) ent')) ∧
    (ent ≠ 0 → s.step (.new k (some 0) ent) = s.step (.new k (some ent) ent') ∧
      s.step (.new k none ent) = s.step (.new k (some ent) ent') ∧
      s.step (.reset d none ent) = s.step (.reset d (some ent) ent')) := by
  refine ⟨fun h => ?_, fun h => ?_⟩
  · have e : effSeed (some seed) ent = effSeed (some seed) ent' := by simp [effSeed, h]
    simp [RngState.step, e]
  · have e : effSeed (some 0) ent = effSeed (some ent) ent' := by simp [effSeed, h]
    have e' : effSeed none ent = effSeed (some ent) ent' := by simp [effSeed, h]
    simp [RngState.step, e, e']

end JG
