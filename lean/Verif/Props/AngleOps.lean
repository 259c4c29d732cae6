import Verif.Model.AngleOps
import Mathlib.Algebra.Order.ToIntervalMod

/-!
Property C103: arithmetic of angles and units is dimensionally sound.
-/

namespace JG.AngOp

open Real

/-! ### Specification -/

/-- The kinds of values. -/
inductive Kind
  | num | ang | unit
  deriving DecidableEq

def V.kind : V → Kind
  | .num _ => .num
  | .ang _ => .ang
  | .unit _ => .unit

/-- The number behind a value, angles and units in radians. -/
def V.raw : V → ℝ
  | .num x => x
  | .ang a => a.rad
  | .unit u => u.value

/-- Which operations make sense, as documented: sums and differences of like kinds, a number times an angle or unit, an angle
divided by a number or a unit, the ratio of two units. -/
inductive HasKind : Expr → Kind → Prop
  | lit v : HasKind (.lit v) v.kind
  | add {a b k} : HasKind a k → HasKind b k → k ≠ .unit → HasKind (.add a b) k
  | sub {a b k} : HasKind a k → HasKind b k → k ≠ .unit → HasKind (.sub a b) k
  | mulN {a b} : HasKind a .num → HasKind b .num → HasKind (.mul a b) .num
  | mulNA {a b} : HasKind a .num → HasKind b .ang → HasKind (.mul a b) .ang
  | mulAN {a b} : HasKind a .ang → HasKind b .num → HasKind (.mul a b) .ang
  | mulNU {a b} : HasKind a .num → HasKind b .unit → HasKind (.mul a b) .ang
  | divN {a b} : HasKind a .num → HasKind b .num → HasKind (.div a b) .num
  | divAN {a b} : HasKind a .ang → HasKind b .num → HasKind (.div a b) .ang
  | divAU {a b} : HasKind a .ang → HasKind b .unit → HasKind (.div a b) .num
  | divUU {a b} : HasKind a .unit → HasKind b .unit → HasKind (.div a b) .num
  | neg {a k} : HasKind a k → k ≠ .unit → HasKind (.neg a) k
  | pos {a k} : HasKind a k → k ≠ .unit → HasKind (.pos a) k
  | abs {a k} : HasKind a k → k ≠ .unit → HasKind (.abs a) k
  | copy {a} : HasKind a .ang → HasKind (.copy a) .ang
  | make {a b} : HasKind a .num → HasKind b .unit → HasKind (.make a b) .ang
  | rad {a} : HasKind a .ang → HasKind (.rad a) .num
  | deg {a} : HasKind a .ang → HasKind (.deg a) .num
  | wrap {a b} : HasKind a .ang → HasKind b .ang → HasKind (.wrap a b) .ang

/-- The real number that an expression stands for, with angles in radians. -/
noncomputable def meaning : Expr → ℝ
  | .lit v => v.raw
  | .add a b => meaning a + meaning b
  | .sub a b => meaning a - meaning b
  | .mul a b => meaning a * meaning b
  | .div a b => meaning a / meaning b
  | .neg a => -meaning a
  | .pos a => meaning a
  | .abs a => |meaning a|
  | .copy a => meaning a
  | .make a b => meaning a * meaning b
  | .rad a => meaning a
  | .deg a => meaning a * (180 / π)
  | .wrap a b => toIcoMod two_pi_pos (meaning b - π) (meaning a)

/-- The expression divides by something that stands for zero. -/
def DivZero : Expr → Prop
  | .lit _ => False
  | .add a b | .sub a b | .mul a b | .make a b | .wrap a b => DivZero a ∨ DivZero b
  | .div a b => DivZero a ∨ DivZero b ∨ meaning b = 0
  | .neg a | .pos a | .abs a | .copy a | .rad a | .deg a => DivZero a

/-! ### The kinds, computed -/

def addK : Kind → Kind → Option Kind
  | .num, .num => some .num
  | .ang, .ang => some .ang
  | _, _ => none

def mulK : Kind → Kind → Option Kind
  | .num, .num => some .num
  | .num, .ang => some .ang
  | .ang, .num => some .ang
  | .num, .unit => some .ang
  | _, _ => none

def divK : Kind → Kind → Option Kind
  | .num, .num => some .num
  | .ang, .num => some .ang
  | .ang, .unit => some .num
  | .unit, .unit => some .num
  | _, _ => none

def makeK : Kind → Kind → Option Kind
  | .num, .unit => some .ang
  | _, _ => none

def wrapK : Kind → Kind → Option Kind
  | .ang, .ang => some .ang
  | _, _ => none

def signK : Kind → Option Kind
  | .unit => none
  | k => some k

def angK (r : Kind) : Kind → Option Kind
  | .ang => some r
  | _ => none

def kindOf : Expr → Option Kind
  | .lit v => some v.kind
  | .add a b | .sub a b => do addK (← kindOf a) (← kindOf b)
  | .mul a b => do mulK (← kindOf a) (← kindOf b)
  | .div a b => do divK (← kindOf a) (← kindOf b)
  | .make a b => do makeK (← kindOf a) (← kindOf b)
  | .wrap a b => do wrapK (← kindOf a) (← kindOf b)
  | .neg a | .pos a | .abs a => do signK (← kindOf a)
  | .copy a => do angK .ang (← kindOf a)
  | .rad a | .deg a => do angK .num (← kindOf a)

theorem kindOf_of {e : Expr} {k : Kind} (h : HasKind e k) : kindOf e = some k := by
  have addS : ∀ k : Kind, k ≠ .unit → addK k k = some k := by intro k h; cases k <;> first | rfl | exact absurd rfl h
  have signS : ∀ k : Kind, k ≠ .unit → signK k = some k := by intro k h; cases k <;> first | rfl | exact absurd rfl h
  induction h <;> simp_all [kindOf, mulK, divK, makeK, wrapK, angK]

theorem hasKind_of (e : Expr) : ∀ k, kindOf e = some k → HasKind e k := by
  induction e with
  | lit v => intro k h; cases h; exact .lit v
  | add a b ia ib =>
    intro k h
    rw [kindOf] at h
    obtain ⟨x, hx, h⟩ := Option.bind_eq_some_iff.mp h
    obtain ⟨y, hy, h⟩ := Option.bind_eq_some_iff.mp h
    have h1 := ia x hx
    have h2 := ib y hy
    cases x <;> cases y <;> cases h
    all_goals exact .add h1 h2 (by decide)
  | sub a b ia ib =>
    intro k h
    rw [kindOf] at h
    obtain ⟨x, hx, h⟩ := Option.bind_eq_some_iff.mp h
    obtain ⟨y, hy, h⟩ := Option.bind_eq_some_iff.mp h
    have h1 := ia x hx
    have h2 := ib y hy
    cases x <;> cases y <;> cases h
    all_goals exact .sub h1 h2 (by decide)
  | mul a b ia ib =>
    intro k h
    rw [kindOf] at h
    obtain ⟨x, hx, h⟩ := Option.bind_eq_some_iff.mp h
    obtain ⟨y, hy, h⟩ := Option.bind_eq_some_iff.mp h
    have h1 := ia x hx
    have h2 := ib y hy
    cases x <;> cases y <;> cases h
    all_goals first | exact .mulN h1 h2 | exact .mulNA h1 h2 | exact .mulAN h1 h2 | exact .mulNU h1 h2
  | div a b ia ib =>
    intro k h
    rw [kindOf] at h
    obtain ⟨x, hx, h⟩ := Option.bind_eq_some_iff.mp h
    obtain ⟨y, hy, h⟩ := Option.bind_eq_some_iff.mp h
    have h1 := ia x hx
    have h2 := ib y hy
    cases x <;> cases y <;> cases h
    all_goals first | exact .divN h1 h2 | exact .divAN h1 h2 | exact .divAU h1 h2 | exact .divUU h1 h2
  | make a b ia ib =>
    intro k h
    rw [kindOf] at h
    obtain ⟨x, hx, h⟩ := Option.bind_eq_some_iff.mp h
    obtain ⟨y, hy, h⟩ := Option.bind_eq_some_iff.mp h
    have h1 := ia x hx
    have h2 := ib y hy
    cases x <;> cases y <;> cases h
    exact .make h1 h2
  | wrap a b ia ib =>
    intro k h
    rw [kindOf] at h
    obtain ⟨x, hx, h⟩ := Option.bind_eq_some_iff.mp h
    obtain ⟨y, hy, h⟩ := Option.bind_eq_some_iff.mp h
    have h1 := ia x hx
    have h2 := ib y hy
    cases x <;> cases y <;> cases h
    exact .wrap h1 h2
  | neg a ia =>
    intro k h
    rw [kindOf] at h
    obtain ⟨x, hx, h⟩ := Option.bind_eq_some_iff.mp h
    have h1 := ia x hx
    cases x <;> cases h <;> exact .neg h1 (by decide)
  | pos a ia =>
    intro k h
    rw [kindOf] at h
    obtain ⟨x, hx, h⟩ := Option.bind_eq_some_iff.mp h
    have h1 := ia x hx
    cases x <;> cases h <;> exact .pos h1 (by decide)
  | abs a ia =>
    intro k h
    rw [kindOf] at h
    obtain ⟨x, hx, h⟩ := Option.bind_eq_some_iff.mp h
    have h1 := ia x hx
    cases x <;> cases h <;> exact .abs h1 (by decide)
  | copy a ia =>
    intro k h
    rw [kindOf] at h
    obtain ⟨x, hx, h⟩ := Option.bind_eq_some_iff.mp h
    have h1 := ia x hx
    cases x <;> cases h
    exact .copy h1
  | rad a ia =>
    intro k h
    rw [kindOf] at h
    obtain ⟨x, hx, h⟩ := Option.bind_eq_some_iff.mp h
    have h1 := ia x hx
    cases x <;> cases h
    exact .rad h1
  | deg a ia =>
    intro k h
    rw [kindOf] at h
    obtain ⟨x, hx, h⟩ := Option.bind_eq_some_iff.mp h
    have h1 := ia x hx
    cases x <;> cases h
    exact .deg h1

/-! ### Evaluation -/

theorem wrap_rad (a c : Angle) : (a.wrap c).rad = toIcoMod two_pi_pos (c.rad - π) a.rad := by
  rw [Angle.wrap]
  simp only
  rw [toIcoMod, toIcoDiv_eq_floor, zsmul_eq_mul]
  ring

/-- What has to be shown of the outcome of an expression. -/
def Sound (e : Expr) : Except Err V → Prop
  | .ok v => kindOf e = some v.kind ∧ v.raw = meaning e ∧ ¬DivZero e
  | .error .type => kindOf e = none
  | .error .zero => DivZero e

theorem sound_bin {a b : Expr} (C : Expr) (op : V → V → Except Err V) (f : Kind → Kind → Option Kind)
    (hk : kindOf C = (kindOf a).bind fun x => (kindOf b).bind fun y => f x y)
    (hz : DivZero a ∨ DivZero b → DivZero C)
    (hop : ∀ u v : V, u.raw = meaning a → v.raw = meaning b → ¬DivZero a → ¬DivZero b →
      match op u v with
      | .ok w => f u.kind v.kind = some w.kind ∧ w.raw = meaning C ∧ ¬DivZero C
      | .error .type => f u.kind v.kind = none
      | .error .zero => DivZero C)
    (ia : Sound a a.eval) (ib : Sound b b.eval) :
    Sound C (a.eval.bind fun u => b.eval.bind fun v => op u v) := by
  cases ha : a.eval with
  | error e =>
    rw [ha] at ia
    cases e with
    | type => simp only [Except.bind, Sound] at ia ⊢; rw [hk, ia]; rfl
    | zero => exact hz (.inl ia)
  | ok u =>
    rw [ha] at ia
    cases hb : b.eval with
    | error e =>
      rw [hb] at ib
      cases e with
      | type => simp only [Except.bind, Sound] at ib ⊢; rw [hk, ia.1, ib]; rfl
      | zero => exact hz (.inr ib)
    | ok v =>
      rw [hb] at ib
      have h := hop u v ia.2.1 ib.2.1 ia.2.2 ib.2.2
      simp only [Except.bind]
      have hk' : kindOf C = f u.kind v.kind := by rw [hk, ia.1, ib.1]; rfl
      cases ho : op u v with
      | ok w => rw [ho] at h; exact ⟨hk'.trans h.1, h.2⟩
      | error e =>
        rw [ho] at h
        cases e with
        | type => exact hk'.trans h
        | zero => exact h

theorem sound_un {a : Expr} (C : Expr) (op : V → Except Err V) (f : Kind → Option Kind)
    (hk : kindOf C = (kindOf a).bind f) (hz : DivZero a → DivZero C)
    (hop : ∀ u : V, u.raw = meaning a → ¬DivZero a →
      match op u with
      | .ok w => f u.kind = some w.kind ∧ w.raw = meaning C ∧ ¬DivZero C
      | .error .type => f u.kind = none
      | .error .zero => DivZero C)
    (ia : Sound a a.eval) : Sound C (a.eval.bind op) := by
  cases ha : a.eval with
  | error e =>
    rw [ha] at ia
    cases e with
    | type => simp only [Except.bind, Sound] at ia ⊢; rw [hk, ia]; rfl
    | zero => exact hz ia
  | ok u =>
    rw [ha] at ia
    have h := hop u ia.2.1 ia.2.2
    simp only [Except.bind]
    have hk' : kindOf C = f u.kind := by rw [hk, ia.1]; rfl
    cases ho : op u with
    | ok w => rw [ho] at h; exact ⟨hk'.trans h.1, h.2⟩
    | error e =>
      rw [ho] at h
      cases e with
      | type => exact hk'.trans h
      | zero => exact h

theorem sound (e : Expr) : Sound e e.eval := by
  induction e with
  | lit v => exact ⟨rfl, rfl, fun h => h⟩
  | add a b ia ib =>
    refine sound_bin (.add a b) (pyBin addL noR) addK rfl (fun h => h) ?_ ia ib
    intro u v hu hv za zb
    have hz : ¬DivZero (.add a b) := fun h => h.elim za zb
    cases u <;> cases v <;> simp_all [pyBin, addL, noR, sameCls, addK, V.kind, V.raw, meaning, Angle.add]
  | sub a b ia ib =>
    refine sound_bin (.sub a b) (pyBin subL noR) addK rfl (fun h => h) ?_ ia ib
    intro u v hu hv za zb
    have hz : ¬DivZero (.sub a b) := fun h => h.elim za zb
    cases u <;> cases v <;> simp_all [pyBin, subL, noR, sameCls, addK, V.kind, V.raw, meaning, Angle.sub]
  | mul a b ia ib =>
    refine sound_bin (.mul a b) (pyBin mulL mulR) mulK rfl (fun h => h) ?_ ia ib
    intro u v hu hv za zb
    have hz : ¬DivZero (.mul a b) := fun h => h.elim za zb
    cases u <;> cases v <;> simp_all [pyBin, mulL, mulR, sameCls, mulK, V.kind, V.raw, meaning, Angle.mul, angleInit, mkAngle,
      castFloat, Res.ofExcept, mul_comm]
  | div a b ia ib =>
    refine sound_bin (.div a b) (pyBin divL noR) divK rfl (fun h => h.elim .inl fun h => .inr (.inl h)) ?_ ia ib
    intro u v hu hv za zb
    have hz : meaning b ≠ 0 → ¬DivZero (.div a b) := fun hn h => h.elim za fun h => h.elim zb hn
    have hz' : meaning b = 0 → DivZero (.div a b) := fun h => .inr (.inr h)
    by_cases hb : meaning b = 0
    · have := hz' hb
      cases u <;> cases v <;> simp_all [pyBin, divL, noR, sameCls, divK, V.kind, V.raw, fdiv]
    · have := hz hb
      cases u <;> cases v <;> simp_all [pyBin, divL, noR, sameCls, divK, V.kind, V.raw, meaning, fdiv]
  | make a b ia ib =>
    refine sound_bin (.make a b) (fun u v => angleInit u (some v)) makeK rfl (fun h => h) ?_ ia ib
    intro u v hu hv za zb
    have hz : ¬DivZero (.make a b) := fun h => h.elim za zb
    cases u <;> cases v <;> simp_all [makeK, V.kind, V.raw, meaning, angleInit, mkAngle, castFloat]
  | wrap a b ia ib =>
    refine sound_bin (.wrap a b) (fun u v => pyWrap u (some v)) wrapK rfl (fun h => h) ?_ ia ib
    intro u v hu hv za zb
    have hz : ¬DivZero (.wrap a b) := fun h => h.elim za zb
    cases u <;> cases v <;> simp_all [wrapK, V.kind, V.raw, meaning, pyWrap, wrap_rad]
  | neg a ia =>
    refine sound_un (.neg a) pyNeg signK rfl (fun h => h) ?_ ia
    intro u hu za
    have hz : ¬DivZero (.neg a) := za
    cases u <;> simp_all [signK, V.kind, V.raw, meaning, pyNeg, Angle.neg]
  | pos a ia =>
    refine sound_un (.pos a) pyPos signK rfl (fun h => h) ?_ ia
    intro u hu za
    have hz : ¬DivZero (.pos a) := za
    cases u <;> simp_all [signK, V.kind, V.raw, meaning, pyPos]
  | abs a ia =>
    refine sound_un (.abs a) pyAbs signK rfl (fun h => h) ?_ ia
    intro u hu za
    have hz : ¬DivZero (.abs a) := za
    cases u <;> simp_all [signK, V.kind, V.raw, meaning, pyAbs, Angle.abs]
  | copy a ia =>
    refine sound_un (.copy a) (fun u => angleInit u none) (angK .ang) rfl (fun h => h) ?_ ia
    intro u hu za
    have hz : ¬DivZero (.copy a) := za
    cases u <;> simp_all [angK, V.kind, V.raw, meaning, angleInit]
  | rad a ia =>
    refine sound_un (.rad a) pyRad (angK .num) rfl (fun h => h) ?_ ia
    intro u hu za
    have hz : ¬DivZero (.rad a) := za
    cases u <;> simp_all [angK, V.kind, V.raw, meaning, pyRad]
  | deg a ia =>
    refine sound_un (.deg a) pyDeg (angK .num) rfl (fun h => h) ?_ ia
    intro u hu za
    have hz : ¬DivZero (.deg a) := za
    have hd : degrees.value ≠ 0 := by simp [degrees, pi_ne_zero]
    have hd' : ∀ x : ℝ, x / degrees.value = x * (180 / π) := fun x => by
      rw [degrees]; field_simp
    cases u <;> simp_all [angK, V.kind, V.raw, meaning, pyDeg, pyBin, divL, fdiv]

/-- C103: an expression yields a value exactly when every operation in it makes sense and nothing is divided by zero; the value is
of the right kind and stands for the number that the expression means. -/
theorem C103_value (e : Expr) (v : V) (h : e.eval = .ok v) : HasKind e v.kind ∧ v.raw = meaning e ∧ ¬DivZero e := by
  have s := sound e
  rw [h] at s
  exact ⟨hasKind_of e _ s.1, s.2⟩

/-- C103: a `TypeError` is raised only for an expression that makes no sense, whatever the numbers in it. -/
theorem C103_type_error (e : Expr) (h : e.eval = .error .type) (k : Kind) : ¬HasKind e k := by
  have s := sound e
  rw [h] at s
  intro hk
  rw [Sound, kindOf_of hk] at s
  exact absurd s (by simp)

/-- C103: an expression that makes sense and does not divide by zero has a value. -/
theorem C103_defined (e : Expr) (k : Kind) (h : HasKind e k) (hz : ¬DivZero e) : ∃ v, e.eval = .ok v := by
  have s := sound e
  cases he : e.eval with
  | ok v => exact ⟨v, rfl⟩
  | error x =>
    cases x with
    | type => exact absurd h (C103_type_error e he k)
    | zero => rw [he] at s; exact absurd s hz

/-- 45 degrees plus 2 hours, in degrees: 75. -/
example : (Expr.div (.add (.mul (.lit (.num 45)) (.lit (.unit degrees))) (.mul (.lit (.num 2)) (.lit (.unit hours))))
    (.lit (.unit degrees))).eval = .ok (.num 75) := by
  have hk : HasKind (Expr.div (.add (.mul (.lit (.num 45)) (.lit (.unit degrees))) (.mul (.lit (.num 2)) (.lit (.unit hours))))
    (.lit (.unit degrees))) .num := .divAU (.add (.mulNU (.lit _) (.lit _)) (.mulNU (.lit _) (.lit _)) (by decide)) (.lit _)
  obtain ⟨v, hv⟩ := C103_defined _ _ hk (by simp [DivZero, meaning, V.raw, degrees, pi_ne_zero])
  have h := C103_value _ v hv
  have h2 := kindOf_of h.1
  rw [kindOf_of hk] at h2
  rw [hv]
  cases v with
  | num x =>
    have : x = 75 := by
      have := h.2.1
      simp only [V.raw, meaning, degrees, hours] at this
      rw [this]
      field_simp
      norm_num
    rw [this]
  | ang a => cases h2
  | unit u => cases h2

/-- Adding a number to an angle is a `TypeError`. -/
example (x : ℝ) (a : Angle) : (Expr.add (.lit (.num x)) (.lit (.ang a))).eval = .error .type := rfl

/-! ### Independence of the measure -/

/-- The value when angles are measured in another way, `c` for what was 1. -/
def V.scale (c : ℝ) : V → V
  | .num x => .num x
  | .ang a => .ang ⟨c * a.rad⟩
  | .unit u => .unit ⟨c * u.value⟩

def Expr.scale (c : ℝ) : Expr → Expr
  | .lit v => .lit (v.scale c)
  | .add a b => .add (a.scale c) (b.scale c)
  | .sub a b => .sub (a.scale c) (b.scale c)
  | .mul a b => .mul (a.scale c) (b.scale c)
  | .div a b => .div (a.scale c) (b.scale c)
  | .neg a => .neg (a.scale c)
  | .pos a => .pos (a.scale c)
  | .abs a => .abs (a.scale c)
  | .copy a => .copy (a.scale c)
  | .make a b => .make (a.scale c) (b.scale c)
  | .rad a => .rad (a.scale c)
  | .deg a => .deg (a.scale c)
  | .wrap a b => .wrap (a.scale c) (b.scale c)

/-- The expression does not ask for radians, degrees or turns. -/
def Free : Expr → Prop
  | .lit _ => True
  | .add a b | .sub a b | .mul a b | .div a b | .make a b => Free a ∧ Free b
  | .neg a | .pos a | .abs a | .copy a => Free a
  | .rad _ | .deg _ | .wrap _ _ => False

theorem scale_bin {a b : Expr} (c : ℝ) (op : V → V → Except Err V)
    (hop : ∀ u v, op (u.scale c) (v.scale c) = (op u v).map (V.scale c))
    (ia : (a.scale c).eval = a.eval.map (V.scale c)) (ib : (b.scale c).eval = b.eval.map (V.scale c)) :
    ((a.scale c).eval.bind fun u => (b.scale c).eval.bind fun v => op u v) =
      (a.eval.bind fun u => b.eval.bind fun v => op u v).map (V.scale c) := by
  rw [ia, ib]
  cases a.eval with
  | error e => rfl
  | ok u => cases b.eval with
    | error e => rfl
    | ok v => exact hop u v

theorem scale_un {a : Expr} (c : ℝ) (op : V → Except Err V) (hop : ∀ u, op (u.scale c) = (op u).map (V.scale c))
    (ia : (a.scale c).eval = a.eval.map (V.scale c)) :
    (a.scale c).eval.bind op = (a.eval.bind op).map (V.scale c) := by
  rw [ia]
  cases a.eval with
  | error e => rfl
  | ok u => exact hop u

/-- C103: the result does not depend on angles being kept in radians: if all angles and units are measured in another way, numbers
that come out are the same and angles that come out are measured in that way. -/
theorem C103_measure (c : ℝ) (hc : 0 < c) (e : Expr) (hf : Free e) : (e.scale c).eval = e.eval.map (V.scale c) := by
  induction e with
  | lit v => rfl
  | add a b ia ib =>
    refine scale_bin c (pyBin addL noR) (fun u v => ?_) (ia hf.1) (ib hf.2)
    cases u <;> cases v <;> simp [pyBin, addL, noR, sameCls, V.scale, Except.map, Angle.add, mul_add]
  | sub a b ia ib =>
    refine scale_bin c (pyBin subL noR) (fun u v => ?_) (ia hf.1) (ib hf.2)
    cases u <;> cases v <;> simp [pyBin, subL, noR, sameCls, V.scale, Except.map, Angle.sub, mul_sub]
  | mul a b ia ib =>
    refine scale_bin c (pyBin mulL mulR) (fun u v => ?_) (ia hf.1) (ib hf.2)
    cases u <;> cases v <;> simp [pyBin, mulL, mulR, sameCls, V.scale, Except.map, Angle.mul, angleInit, castFloat, mkAngle,
      Res.ofExcept, mul_assoc, mul_left_comm]
  | div a b ia ib =>
    refine scale_bin c (pyBin divL noR) (fun u v => ?_) (ia hf.1) (ib hf.2)
    have hm : ∀ x y : ℝ, c * x / (c * y) = x / y := fun x y => mul_div_mul_left x y hc.ne'
    have hz : ∀ x : ℝ, c * x = 0 ↔ x = 0 := fun x => by simp [hc.ne']
    cases u <;> cases v <;> simp only [pyBin, divL, noR, sameCls, V.scale, Except.map, fdiv, hz, hm] <;> split_ifs <;>
      simp_all [mul_div_assoc]
  | make a b ia ib =>
    refine scale_bin c (fun u v => angleInit u (some v)) (fun u v => ?_) (ia hf.1) (ib hf.2)
    cases u <;> cases v <;> simp [V.scale, Except.map, angleInit, castFloat, mkAngle, mul_left_comm]
  | neg a ia =>
    refine scale_un c pyNeg (fun u => ?_) (ia hf)
    cases u <;> simp [pyNeg, V.scale, Except.map, Angle.neg]
  | pos a ia =>
    refine scale_un c pyPos (fun u => ?_) (ia hf)
    cases u <;> simp [pyPos, V.scale, Except.map]
  | abs a ia =>
    refine scale_un c pyAbs (fun u => ?_) (ia hf)
    cases u <;> simp [pyAbs, V.scale, Except.map, Angle.abs, abs_mul, abs_of_pos hc]
  | copy a ia =>
    refine scale_un c (fun u => angleInit u none) (fun u => ?_) (ia hf)
    cases u <;> simp [angleInit, V.scale, Except.map]
  | rad a ia => exact hf.elim
  | deg a ia => exact hf.elim
  | wrap a b ia ib => exact hf.elim

example : (Expr.scale 60 (.div (.mul (.lit (.num 3)) (.lit (.unit ⟨1 / 60⟩))) (.lit (.unit ⟨1⟩)))).eval =
    (Expr.div (.mul (.lit (.num 3)) (.lit (.unit ⟨1 / 60⟩))) (.lit (.unit ⟨1⟩))).eval.map (V.scale 60) :=
  C103_measure 60 (by norm_num) _ ⟨⟨trivial, trivial⟩, trivial⟩

/-! ### Comparison -/

/-- C103: two angles compare as their measures in any positive unit do, two numbers as they are, and everything else is a
`TypeError`, in whatever order the operands stand. -/
theorem C103_compare (c : Cmp) (a b : V) :
    (a.kind = b.kind ∧ a.kind ≠ .unit →
      ∃ p, pyCmp c a b = .ok p ∧ ∀ u : ℝ, 0 < u → (p ↔ c.on (a.raw / u) (b.raw / u))) ∧
    (¬(a.kind = b.kind ∧ a.kind ≠ .unit) → pyCmp c a b = .error .type) := by
  have hd : ∀ (x y u : ℝ), 0 < u → (c.on x y ↔ c.on (x / u) (y / u)) := by
    intro x y u hu
    cases c <;> simp only [Cmp.on, gt_iff_lt, ge_iff_le, div_lt_div_iff_of_pos_right hu, div_le_div_iff_of_pos_right hu]
  cases a <;> cases b <;> first
    | exact ⟨fun _ => ⟨_, rfl, fun u hu => hd _ _ u hu⟩, fun h => (h ⟨rfl, by simp [V.kind]⟩).elim⟩
    | exact ⟨fun h => by simp [V.kind] at h, fun _ => rfl⟩

/-- C103: `==` is an equivalence that separates the kinds and never fails, `!=` is its negation, equal values hash alike and
different values of angles and units feed different data to `hash`; of two angles exactly one of `<`, `==`, `>` holds. -/
theorem C103_equal (a b c : V) :
    (pyEq a b ↔ a.kind = b.kind ∧ a.raw = b.raw) ∧ (pyNe a b ↔ ¬pyEq a b) ∧ (pyEq a b ↔ hkey a = hkey b) ∧
      (pyEq a b → pyEq b c → pyEq a c) := by
  refine ⟨?_, Iff.rfl, ?_, ?_⟩
  · cases a <;> cases b <;> simp [pyEq, V.kind, V.raw]
  · cases a <;> cases b <;> simp [pyEq, hkey]
  · cases a <;> cases b <;> cases c <;> simp [pyEq] <;> exact fun h h' => h.trans h'

/-! ### Construction, text and names -/

/-- C103: `Angle(theta, unit)` takes an angle alone or a number with a unit; `AngleUnit(value)` takes a number. -/
theorem C103_init (t : V) (u : Option V) (v : V) :
    (angleInit t u = .ok v ↔ (u = none ∧ t = v ∧ t.kind = .ang) ∨
      ∃ x w, t = .num x ∧ u = some (.unit w) ∧ v = .ang ⟨x * w.value⟩) ∧
    (unitInit t = .ok v ↔ ∃ x, t = .num x ∧ v = .unit ⟨x⟩) := by
  constructor
  · cases t <;> rcases u with _ | (_ | _ | _) <;> simp [angleInit, castFloat, mkAngle, V.kind, eq_comm]
  · cases t <;> simp [unitInit, castFloat, eq_comm]

/-- C103: the text of a unit and of an angle reads back as an equal object. -/
theorem C103_repr (u : AngleUnit) (a : Angle) : (unitRepr u).read = some u ∧ angleReprRead a = .ok (.ang a) := by
  constructor
  · have ext : ∀ v : AngleUnit, u.value = v.value → v = u := fun v h => by cases u; cases v; cases h; rfl
    unfold unitRepr
    split_ifs with h1 h2 h3 h4 h5
    · rw [← ext _ h1]; simp [UText.read]
    · rw [← ext _ h2]; simp [UText.read]
    · rw [← ext _ h3]; simp [UText.read]
    · rw [← ext _ h4]; simp [UText.read]
    · rw [← ext _ h5]; simp [UText.read]
    · rfl
  · simp [angleReprRead, angleInit, castFloat, mkAngle, radians]

/-- Specification: the measure in radians of the units and what their names begin with. -/
noncomputable def unitTable : List (List Char × ℝ) :=
  [("rad".toList, 1), ("deg".toList, 2 * π / 360), ("hour".toList, 2 * π / 24), ("hr".toList, 2 * π / 24),
    ("arcmin".toList, 2 * π / (360 * 60)), ("arcsec".toList, 2 * π / (360 * 3600))]

theorem prefix_excl {p q s : List Char} (hp : p <+: s) (hq : q <+: s) : p <+: q ∨ q <+: p := List.prefix_or_prefix_of_prefix hp hq

/-- C103: `from_name` gives the unit of measure `m` exactly for the texts that, without the white space around them and in lower
case, begin with one of its names. -/
theorem C103_from_name (s : List Char) (m : ℝ) :
    unitFromName s = some ⟨m⟩ ↔ ∃ p ∈ unitTable, p.2 = m ∧ p.1 <+: IName.lower (IName.strip s) := by
  obtain ⟨t, ht⟩ : ∃ t, t = IName.lower (IName.strip s) := ⟨_, rfl⟩
  have e1 : hours.value = 2 * π / 24 := by rw [hours]; ring
  have e2 : degrees.value = 2 * π / 360 := by rw [degrees]; ring
  have e3 : arcmin.value = 2 * π / (360 * 60) := by rw [arcmin]; ring
  have e4 : arcsec.value = 2 * π / (360 * 3600) := by rw [arcsec]; ring
  have inj : ∀ u : AngleUnit, (some u = some ⟨m⟩ ↔ u.value = m) := fun u => by cases u; simp
  have ex : ∀ p q : List Char, p <+: t → ¬p <+: q → ¬q <+: p → ¬q <+: t := fun p q h1 h2 h3 h4 =>
    (prefix_excl h1 h4).elim h2 h3
  simp only [unitFromName, ← ht, List.isPrefixOf_iff_prefix]
  simp only [unitTable, List.mem_cons, List.not_mem_nil, or_false, exists_eq_or_imp, exists_eq_left]
  by_cases h1 : "rad".toList <+: t
  · rw [if_pos h1, inj]
    have n1 := ex _ "deg".toList h1 (by decide) (by decide)
    have n2 := ex _ "hour".toList h1 (by decide) (by decide)
    have n3 := ex _ "hr".toList h1 (by decide) (by decide)
    have n4 := ex _ "arcmin".toList h1 (by decide) (by decide)
    have n5 := ex _ "arcsec".toList h1 (by decide) (by decide)
    have hr : radians.value = 1 := rfl
    rw [hr]
    simp only [h1, n1, n2, n3, n4, n5, and_true, and_false, or_false]
  rw [if_neg h1]
  by_cases h2 : "deg".toList <+: t
  · rw [if_pos h2, inj, e2]
    have n6 := ex _ "hour".toList h2 (by decide) (by decide)
    have n7 := ex _ "hr".toList h2 (by decide) (by decide)
    have n8 := ex _ "arcmin".toList h2 (by decide) (by decide)
    have n9 := ex _ "arcsec".toList h2 (by decide) (by decide)
    simp only [h1, h2, n6, n7, n8, n9, and_true, and_false, or_false, false_or]
  rw [if_neg h2]
  by_cases h3 : "hour".toList <+: t
  · rw [if_pos h3, inj, e1]
    have n10 := ex _ "hr".toList h3 (by decide) (by decide)
    have n11 := ex _ "arcmin".toList h3 (by decide) (by decide)
    have n12 := ex _ "arcsec".toList h3 (by decide) (by decide)
    simp only [h1, h2, h3, n10, n11, n12, and_true, and_false, or_false, false_or]
  rw [if_neg h3]
  by_cases h4 : "hr".toList <+: t
  · rw [if_pos h4, inj, e1]
    have n13 := ex _ "arcmin".toList h4 (by decide) (by decide)
    have n14 := ex _ "arcsec".toList h4 (by decide) (by decide)
    simp only [h1, h2, h3, h4, n13, n14, and_true, and_false, or_false, false_or]
  rw [if_neg h4]
  by_cases h5 : "arcmin".toList <+: t
  · rw [if_pos h5, inj, e3]
    have n15 := ex _ "arcsec".toList h5 (by decide) (by decide)
    simp only [h1, h2, h3, h4, h5, n15, and_true, and_false, or_false, false_or]
  rw [if_neg h5]
  by_cases h6 : "arcsec".toList <+: t
  · rw [if_pos h6, inj, e4]
    simp only [h1, h2, h3, h4, h5, h6, and_true, and_false, false_or]
  rw [if_neg h6]
  simp only [h1, h2, h3, h4, h5, h6, and_false, or_false, reduceCtorEq]

/-- C103: the names listed as valid are the names that `from_name` looks for. -/
theorem C103_valid_names (s : List Char) : s ∈ validNames ↔ ∃ p ∈ unitTable, p.1 = s := by
  simp only [validNames, unitTable, List.mem_cons, List.not_mem_nil, or_false, exists_eq_or_imp, exists_eq_left, eq_comm (a := s)]
  tauto

example : unitFromName " Degrees ".toList = some ⟨2 * π / 360⟩ :=
  (C103_from_name _ _).mpr ⟨("deg".toList, _), by simp [unitTable], rfl, by decide⟩

/-! ### Trigonometry -/

/-- C103: sine and cosine of an angle given as a number of units are those of the angle in radians, they do not change with
`wrap`, and `sincos` is the pair. -/
theorem C103_trig (a c : Angle) (x : ℝ) (u : AngleUnit) :
    pySin (.ang (mkAngle x u)) = .ok (.num (sin (x * u.value))) ∧ pyCos (.ang (mkAngle x u)) = .ok (.num (cos (x * u.value))) ∧
      pySin (.ang (a.wrap c)) = pySin (.ang a) ∧ pyCos (.ang (a.wrap c)) = pyCos (.ang a) ∧
      ∃ s t : ℝ, pySincos (.ang a) = .ok (.num s, .num t) ∧ pySin (.ang a) = .ok (.num s) ∧ pyCos (.ang a) = .ok (.num t) ∧
        s ^ 2 + t ^ 2 = 1 := by
  have hw : ∃ n : ℤ, (a.wrap c).rad = a.rad - n * (2 * π) := ⟨_, by rw [Angle.wrap]; simp only; rw [mul_assoc]⟩
  obtain ⟨n, hn⟩ := hw
  refine ⟨rfl, rfl, ?_, ?_, _, _, rfl, rfl, rfl, sin_sq_add_cos_sq _⟩
  · rw [pySin, pySin, hn, sin_sub_int_mul_two_pi]
  · rw [pyCos, pyCos, hn, cos_sub_int_mul_two_pi]

end JG.AngOp
