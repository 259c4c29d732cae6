import Verif.Model.ImageInt
import Verif.Props.ImagePix
import Mathlib.Tactic.LinearCombination

/-!
Property C92: arithmetic of images of machine integers.
-/

namespace JG.IntIm

open JG

/-! ### Specification -/

/-- The smallest number of a dtype. -/
def IT.lo : IT → ℤ
  | .u16 | .u32 => 0
  | .i16 => -32768
  | .i32 => -2147483648
  | .i64 => -9223372036854775808

/-- The largest number of a dtype. -/
def IT.hi : IT → ℤ
  | .u16 => 65535
  | .u32 => 4294967295
  | .i16 => 32767
  | .i32 => 2147483647
  | .i64 => 9223372036854775807

/-- `n` is a number of the dtype. -/
def IT.has (t : IT) (n : ℤ) : Prop := t.lo ≤ n ∧ n ≤ t.hi

/-- `v` is the number of the dtype that differs from `n` by a multiple of the count of its numbers. -/
def IT.Stores (t : IT) (n v : ℤ) : Prop := t.has v ∧ (t.hi - t.lo + 1) ∣ v - n

/-- The operation needs a divisor. -/
def BinOp.divides : BinOp → Prop
  | .floordiv | .mod => True
  | _ => False

/-- `r` is the exact result of the operation.  Quotients are rounded down, bits are those of two's complement. -/
def BinOp.Exact (op : BinOp) (a b r : ℤ) : Prop :=
  match op with
  | .add => r = a + b
  | .sub => r = a - b
  | .mul => r = a * b
  | .floordiv => ∃ m, a = r * b + m ∧ (0 ≤ m ∧ m < b ∨ b < m ∧ m ≤ 0)
  | .mod => ∃ q, a = q * b + r ∧ (0 ≤ r ∧ r < b ∨ b < r ∧ r ≤ 0)
  | .and => ∀ k, r.testBit k = (a.testBit k && b.testBit k)
  | .or => ∀ k, r.testBit k = (a.testBit k || b.testBit k)
  | .xor => ∀ k, r.testBit k = Bool.xor (a.testBit k) (b.testBit k)

/-- A well-formed image: one of the four dtypes, an array of the announced shape with numbers of the dtype. -/
structure IImage.Good (im : IImage) : Prop where
  ty : im.ty ≠ .i64
  ok : im.bounds.OK
  defd : im.bounds.defined = true
  shape : ((im.arr.h : ℤ), (im.arr.w : ℤ)) = im.bounds.numpyShape
  px : ∀ i j, im.ty.has (im.arr.at' i j)

/-- The operand can be used with the image: an image of the same shape, or a Python integer, which for divisions is one of the
dtype. -/
def Rhs.Fits (op : BinOp) (im : IImage) : Rhs → Prop
  | .image o => o.Good ∧ o.arr.h = im.arr.h ∧ o.arr.w = im.arr.w
  | .pyInt n => op.divides → im.ty.has n

/-! ### Machine numbers -/

theorem card_eq (t : IT) : t.hi - t.lo + 1 = 2 ^ t.bits := by
  cases t <;> rfl

theorem cast_has (t : IT) (n : ℤ) : t.has (t.cast n) := by
  cases t
  · have h1 := Int.emod_nonneg n (b := 2 ^ 16) (by norm_num)
    have h2 := Int.emod_lt_of_pos n (b := 2 ^ 16) (by norm_num)
    exact ⟨h1, by simp only [IT.cast, IT.signed, IT.bits, IT.hi]; norm_num at h2 ⊢; omega⟩
  · have h1 := Int.emod_nonneg n (b := 2 ^ 32) (by norm_num)
    have h2 := Int.emod_lt_of_pos n (b := 2 ^ 32) (by norm_num)
    exact ⟨h1, by simp only [IT.cast, IT.signed, IT.bits, IT.hi]; norm_num at h2 ⊢; omega⟩
  · have h1 := Int.le_bmod (x := n) (m := 2 ^ 16) (by norm_num)
    have h2 := Int.bmod_lt (x := n) (m := 2 ^ 16) (by norm_num)
    simp only [IT.has, IT.cast, IT.signed, IT.bits, IT.hi, IT.lo, if_true]
    norm_num at h1 h2 ⊢; omega
  · have h1 := Int.le_bmod (x := n) (m := 2 ^ 32) (by norm_num)
    have h2 := Int.bmod_lt (x := n) (m := 2 ^ 32) (by norm_num)
    simp only [IT.has, IT.cast, IT.signed, IT.bits, IT.hi, IT.lo, if_true]
    norm_num at h1 h2 ⊢; omega
  · have h1 := Int.le_bmod (x := n) (m := 2 ^ 64) (by norm_num)
    have h2 := Int.bmod_lt (x := n) (m := 2 ^ 64) (by norm_num)
    simp only [IT.has, IT.cast, IT.signed, IT.bits, IT.hi, IT.lo, if_true]
    norm_num at h1 h2 ⊢; omega

theorem cast_dvd (t : IT) (n : ℤ) : (2 ^ t.bits : ℤ) ∣ t.cast n - n := by
  unfold IT.cast
  split_ifs
  · have := Int.dvd_self_sub_bmod (x := n) (m := 2 ^ t.bits)
    push_cast at this
    rw [← neg_sub]
    exact (dvd_neg).mpr this
  · rw [← neg_sub]
    exact (dvd_neg).mpr (Int.dvd_self_sub_emod)

theorem stores_cast (t : IT) (n : ℤ) : t.Stores n (t.cast n) := ⟨cast_has t n, by rw [card_eq]; exact cast_dvd t n⟩

theorem stores_unique {t : IT} {n m v v' : ℤ} (h : t.Stores n v) (h' : t.Stores m v') (e : (2 ^ t.bits : ℤ) ∣ n - m) : v = v' := by
  obtain ⟨⟨a, b⟩, c⟩ := h
  obtain ⟨⟨a', b'⟩, c'⟩ := h'
  rw [← card_eq] at e
  have d : (t.hi - t.lo + 1) ∣ v - v' := by
    have := (c.add e).sub c'
    have e2 : v - n + (n - m) - (v' - m) = v - v' := by ring
    rwa [e2] at this
  have := Int.eq_zero_of_abs_lt_dvd d (by rw [abs_lt]; constructor <;> linarith)
  linarith

theorem stores_self {t : IT} {n : ℤ} (h : t.has n) : t.Stores n n := ⟨h, by simp⟩

theorem cast_of_has {t : IT} {n : ℤ} (h : t.has n) : t.cast n = n := stores_unique (stores_cast t n) (stores_self h) (by simp)

/-! ### Bits -/

theorem bodd_dvd {n : ℕ} {x y : ℤ} (h : (2 ^ (n + 1) : ℤ) ∣ x - y) : x.bodd = y.bodd ∧ (2 ^ n : ℤ) ∣ x.div2 - y.div2 := by
  have hx := Int.bodd_add_div2 x
  have hy := Int.bodd_add_div2 y
  obtain ⟨k, hk⟩ := h
  rw [pow_succ] at hk
  obtain ⟨K, hK⟩ : ∃ K : ℤ, K = 2 ^ n * k := ⟨_, rfl⟩
  have hk' : x - y = 2 * K := by rw [hk, hK]; ring
  have e : x.bodd = y.bodd := by
    cases e1 : x.bodd <;> cases e2 : y.bodd <;> rw [e1] at hx <;> rw [e2] at hy <;>
      simp only [cond_true, cond_false] at hx hy <;> first | rfl | (exfalso; omega)
  refine ⟨e, k, ?_⟩
  rw [e] at hx
  rw [← hK]
  omega

theorem bitwise_dvd (f : Bool → Bool → Bool) (n : ℕ) : ∀ {x x' y y' : ℤ}, (2 ^ n : ℤ) ∣ x - x' → (2 ^ n : ℤ) ∣ y - y' →
    (2 ^ n : ℤ) ∣ Int.bitwise f x y - Int.bitwise f x' y' := by
  induction n with
  | zero => intro x x' y y' _ _; simp
  | succ n ih =>
    intro x x' y y' hx hy
    obtain ⟨bx, dx⟩ := bodd_dvd hx
    obtain ⟨by', dy⟩ := bodd_dvd hy
    have key : ∀ a b : ℤ, Int.bitwise f a b = Int.bit (f a.bodd b.bodd) (Int.bitwise f a.div2 b.div2) := by
      intro a b
      conv_lhs => rw [← Int.bit_decomp a, ← Int.bit_decomp b]
      rw [Int.bitwise_bit]
    rw [key x y, key x' y', bx, by', Int.bit_val, Int.bit_val]
    obtain ⟨k, hk⟩ := ih dx dy
    refine ⟨k, ?_⟩
    rw [pow_succ]
    linear_combination 2 * hk

theorem eval_dvd (z : ℤ → ℤ) {op : BinOp} (h : ¬ op.divides) {n : ℕ} {x x' y y' : ℤ} (hx : (2 ^ n : ℤ) ∣ x - x')
    (hy : (2 ^ n : ℤ) ∣ y - y') : (2 ^ n : ℤ) ∣ op.eval z x y - op.eval z x' y' := by
  cases op with
  | add => have := hx.add hy; simpa [BinOp.eval, add_sub_add_comm] using this
  | sub =>
    have := hx.sub hy
    have e : x - x' - (y - y') = x - y - (x' - y') := by ring
    rwa [e] at this
  | mul =>
    have := (hx.mul_right y).add (hy.mul_left x')
    have e : (x - x') * y + x' * (y - y') = x * y - x' * y' := by ring
    rwa [e] at this
  | floordiv => exact absurd trivial h
  | mod => exact absurd trivial h
  | and => simpa only [BinOp.eval, ← Int.bitwise_and] using bitwise_dvd _ n hx hy
  | or => simpa only [BinOp.eval, ← Int.bitwise_or] using bitwise_dvd _ n hx hy
  | xor => simpa only [BinOp.eval, ← Int.bitwise_xor] using bitwise_dvd _ n hx hy

theorem eval_exact (z : ℤ → ℤ) (op : BinOp) (a b : ℤ) (h : op.divides → b ≠ 0) : op.Exact a b (op.eval z a b) := by
  have dm : ∀ b : ℤ, b ≠ 0 → (0 ≤ a.fmod b ∧ a.fmod b < b ∨ b < a.fmod b ∧ a.fmod b ≤ 0) := by
    intro b hb
    rcases lt_or_gt_of_ne hb with h | h
    · right
      have h1 := Int.fmod_nonneg_of_pos (-a) (b := -b) (by omega)
      have h2 := Int.fmod_lt_of_pos (-a) (b := -b) (by omega)
      rw [Int.neg_fmod_neg] at h1 h2
      omega
    · left
      exact ⟨Int.fmod_nonneg_of_pos a h, Int.fmod_lt_of_pos a h⟩
  cases op with
  | add => rfl
  | sub => rfl
  | mul => rfl
  | floordiv =>
    have hb := h trivial
    simp only [BinOp.eval, if_neg hb]
    exact ⟨a.fmod b, by have := Int.mul_fdiv_add_fmod a b; linarith, dm b hb⟩
  | mod =>
    have hb := h trivial
    simp only [BinOp.eval, if_neg hb]
    exact ⟨a.fdiv b, by have := Int.mul_fdiv_add_fmod a b; linarith, dm b hb⟩
  | and => exact fun k => Int.testBit_land a b k
  | or => exact fun k => Int.testBit_lor a b k
  | xor => exact fun k => Int.testBit_lxor a b k

theorem testBit_mixed (m n : ℕ) (h : ∀ k, (Int.ofNat m).testBit k = (Int.negSucc n).testBit k) : False := by
  have := h (m + n)
  have h1 : m.testBit (m + n) = false :=
    Nat.testBit_lt_two_pow (lt_of_lt_of_le Nat.lt_two_pow_self (Nat.pow_le_pow_right (by norm_num) (by omega)))
  have h2 : n.testBit (m + n) = false :=
    Nat.testBit_lt_two_pow (lt_of_lt_of_le Nat.lt_two_pow_self (Nat.pow_le_pow_right (by norm_num) (by omega)))
  simp only [Int.testBit, h1, h2] at this
  exact absurd this (by decide)

theorem testBit_ext {x y : ℤ} (h : ∀ k, x.testBit k = y.testBit k) : x = y := by
  cases x with
  | ofNat m =>
    cases y with
    | ofNat n => exact congrArg Int.ofNat (Nat.eq_of_testBit_eq h)
    | negSucc n => exact (testBit_mixed m n h).elim
  | negSucc m =>
    cases y with
    | ofNat n => exact (testBit_mixed n m fun k => (h k).symm).elim
    | negSucc n =>
      refine congrArg Int.negSucc (Nat.eq_of_testBit_eq fun k => ?_)
      have := h k
      simp only [Int.testBit] at this
      exact Bool.not_inj this

theorem xor_twice (x y : ℤ) : Int.bitwise Bool.xor (Int.bitwise Bool.xor x y) y = x := by
  refine testBit_ext fun k => ?_
  rw [Int.testBit_bitwise, Int.testBit_bitwise]
  cases x.testBit k <;> cases y.testBit k <;> rfl

theorem promote_bits (t u : IT) : t.bits ≤ (promote t u).bits ∧ u.bits ≤ (promote t u).bits ∧ (imType (promote t u)).bits ≤ (promote t u).bits := by
  cases t <;> cases u <;> decide

theorem promote_has {t u : IT} {n : ℤ} : (t.has n → (promote t u).has n) ∧ (u.has n → (promote t u).has n) := by
  cases t <;> cases u <;> simp only [promote, IT.has, IT.lo, IT.hi] <;> constructor <;> intro h <;> omega

theorem promote_self (t : IT) : promote t t = t := by cases t <;> rfl

/-- A result computed in a dtype `T` and stored in one with at most as many bits. -/
theorem stored (z : ℤ → ℤ) (op : BinOp) {t T : IT} (hb : t.bits ≤ T.bits) {a b : ℤ} (h : op.divides → T.has a ∧ T.has b) :
    t.Stores (op.eval z a b) (t.cast (mach z T op a b)) := by
  have key : (2 ^ T.bits : ℤ) ∣ mach z T op a b - op.eval z a b := by
    unfold mach
    by_cases hd : op.divides
    · rw [cast_of_has (h hd).1, cast_of_has (h hd).2]
      exact cast_dvd _ _
    · have h1 := cast_dvd T (op.eval z (T.cast a) (T.cast b))
      have h2 := eval_dvd z hd (cast_dvd T a) (cast_dvd T b)
      have := h1.add h2
      rwa [sub_add_sub_cancel] at this
  refine ⟨cast_has _ _, ?_⟩
  rw [card_eq]
  have h1 := cast_dvd t (mach z T op a b)
  have h2 : (2 ^ t.bits : ℤ) ∣ mach z T op a b - op.eval z a b := (pow_dvd_pow 2 hb).trans key
  have := h1.add h2
  rwa [sub_add_sub_cancel] at this

/-- The operands of a division are numbers of the dtype in which it is computed. -/
theorem operands {op : BinOp} {im : IImage} (h : im.Good) {o : Rhs} (ho : o.Fits op im) (i j : ℕ) :
    op.divides → (promote im.ty (o.ty im.ty)).has (im.arr.at' i j) ∧ (promote im.ty (o.ty im.ty)).has (o.at i j) := by
  intro hd
  refine ⟨promote_has.1 (h.px i j), ?_⟩
  cases o with
  | image o => exact promote_has.2 (ho.1.px i j)
  | pyInt n => exact promote_has.2 (ho hd)

theorem consistent_fits {op : BinOp} {im : IImage} {o : Rhs} (ho : o.Fits op im) : consistent im o = true := by
  cases o with
  | image o => simp [consistent, ho.2.1, ho.2.2]
  | pyInt n => rfl

theorem inplace_eq (z : ℤ → ℤ) (op : BinOp) {im : IImage} {o : Rhs} (ho : o.Fits op im) :
    inplace z op im o = ({ im with arr := ⟨im.arr.h, im.arr.w, fun i j =>
      im.ty.cast (mach z (promote im.ty (o.ty im.ty)) op (im.arr.at' i j) (o.at i j))⟩ }, none) := by
  have same : sameType im o = true → ∀ i j, mach z im.ty op (im.arr.at' i j) (o.at i j) =
      im.ty.cast (mach z (promote im.ty (o.ty im.ty)) op (im.arr.at' i j) (o.at i j)) := by
    intro hs i j
    have e : o.ty im.ty = im.ty := by
      cases o with
      | image o => simp only [sameType, beq_iff_eq] at hs; exact hs.symm
      | pyInt n => rfl
    rw [e, promote_self]
    unfold mach
    rw [cast_of_has (cast_has _ _)]
  unfold inplace
  rw [consistent_fits ho]
  simp only [Bool.not_true, Bool.false_eq_true, if_false]
  have two : (if sameType im o = true then
        (({ im with arr := ⟨im.arr.h, im.arr.w, fun i j => mach z im.ty op (im.arr.at' i j) (o.at i j)⟩ } : IImage), (none : Option ImErr))
      else ({ im with arr := ⟨im.arr.h, im.arr.w, fun i j =>
        im.ty.cast (mach z (promote im.ty (o.ty im.ty)) op (im.arr.at' i j) (o.at i j))⟩ }, none)) =
      ({ im with arr := ⟨im.arr.h, im.arr.w, fun i j =>
        im.ty.cast (mach z (promote im.ty (o.ty im.ty)) op (im.arr.at' i j) (o.at i j))⟩ }, none) := by
    split_ifs with hs
    · simp only [same hs]
    · rfl
  cases op <;> first | rfl | exact two

theorem construct_ok (t : IT) {im : IImage} (h : im.Good) (g : ℕ → ℕ → ℤ) :
    ∃ r, construct t ⟨im.arr.h, im.arr.w, g⟩ im.bounds = .ok r ∧ r.ty = imType t ∧ r.isConst = false ∧ r.arr.h = im.arr.h ∧
      r.arr.w = im.arr.w ∧ r.bounds.xmin = im.bounds.xmin ∧ r.bounds.ymin = im.bounds.ymin ∧
      (∀ i j, r.arr.at' i j = (imType t).cast (g i j)) ∧ r.Good := by
  have hs := h.shape
  simp only [Bounds.numpyShape, h.defd, if_true, Prod.mk.injEq] at hs
  have hp := h.ok.1.mp h.defd
  refine ⟨⟨imType t, ⟨im.arr.h, im.arr.w, fun i j => (imType t).cast (g i j)⟩, Bounds.mkDelta clsI ⟨im.bounds.xmin, im.bounds.posPy⟩
    ⟨im.arr.w, true⟩ ⟨im.bounds.ymin, im.bounds.posPy⟩ ⟨im.arr.h, true⟩, false⟩, ?_, rfl, rfl, rfl, rfl, rfl, rfl, fun _ _ => rfl, ?_⟩
  · unfold construct
    rw [if_pos h.defd, if_neg (by simp; omega), if_neg (by simp; omega)]
  · have d : (Bounds.mkDelta clsI ⟨im.bounds.xmin, im.bounds.posPy⟩ ⟨im.arr.w, true⟩ ⟨im.bounds.ymin, im.bounds.posPy⟩
        (⟨im.arr.h, true⟩ : Scal ℤ)).defined = true := by
      have e1 : ¬ ((im.arr.w : ℤ) < 1) := by omega
      have e2 : ¬ ((im.arr.h : ℤ) < 1) := by omega
      simp [Bounds.mkDelta, Bounds.finish, clsI, e1, e2]
    refine ⟨by cases t <;> simp [imType], ⟨⟨fun _ => ?_, fun _ => d⟩, .inl rfl⟩, d, ?_, fun i j => cast_has _ _⟩
    · simp only [Bounds.mkDelta, Bounds.finish]; omega
    · simp only [Bounds.numpyShape, d, if_true]; rfl

/-! ### C92 -/

/-- C92: an in-place operation keeps the dtype, the place and the mutability of the image, and every pixel becomes the number of
the dtype that the exact result is stored as. -/
theorem C92_inplace (z : ℤ → ℤ) (op : BinOp) (im : IImage) (h : im.Good) (o : Rhs) (ho : o.Fits op im) :
    ∃ r, inplace z op im o = (r, none) ∧ r.Good ∧ r.ty = im.ty ∧ r.bounds = im.bounds ∧ r.isConst = im.isConst ∧
      ∀ i j, (op.divides → o.at i j ≠ 0) →
        ∃ e, op.Exact (im.arr.at' i j) (o.at i j) e ∧ im.ty.Stores e (r.arr.at' i j) := by
  refine ⟨_, inplace_eq z op ho, ⟨h.ty, h.ok, h.defd, h.shape, fun i j => cast_has _ _⟩, rfl, rfl, rfl, ?_⟩
  intro i j hz
  exact ⟨_, eval_exact z op _ _ hz, stored z op (promote_bits _ _).1 (operands h ho i j)⟩

/-- C92: a binary operation gives a new, mutable image at the same place, of the dtype of the mixture (32 bits where jax would use
64), and every pixel is the number of the dtype that the exact result is stored as. -/
theorem C92_binary (z : ℤ → ℤ) (op : BinOp) (im : IImage) (h : im.Good) (o : Rhs) (ho : o.Fits op im) :
    ∃ r, binary z op im o = .ok r ∧ r.Good ∧ r.ty = imType (promote im.ty (o.ty im.ty)) ∧ r.isConst = false ∧
      r.arr.h = im.arr.h ∧ r.arr.w = im.arr.w ∧ r.bounds.xmin = im.bounds.xmin ∧ r.bounds.ymin = im.bounds.ymin ∧
      ∀ i j, (op.divides → o.at i j ≠ 0) →
        ∃ e, op.Exact (im.arr.at' i j) (o.at i j) e ∧ r.ty.Stores e (r.arr.at' i j) := by
  obtain ⟨r, c1, c2, c3, c4, c5, c6, c7, c8, c9⟩ := construct_ok (promote im.ty (o.ty im.ty)) h fun i j =>
    mach z (promote im.ty (o.ty im.ty)) op (im.arr.at' i j) (o.at i j)
  refine ⟨r, ?_, c9, c2, c3, c4, c5, c6, c7, ?_⟩
  · unfold binary
    rw [consistent_fits ho]
    exact c1
  · intro i j hz
    refine ⟨_, eval_exact z op _ _ hz, ?_⟩
    rw [c8, c2]
    exact stored z op (promote_bits _ _).2.2 (operands h ho i j)

/-- C92: with a Python integer on the left the operands are exchanged. -/
theorem C92_reflected (z : ℤ → ℤ) (op : BinOp) (n : ℤ) (im : IImage) (h : im.Good) (hn : op.divides → im.ty.has n) :
    ∃ r, reflected z op n im = .ok r ∧ r.Good ∧ r.ty = im.ty ∧ r.isConst = false ∧ r.bounds.xmin = im.bounds.xmin ∧
      r.bounds.ymin = im.bounds.ymin ∧ ∀ i j, (op.divides → im.arr.at' i j ≠ 0) →
        ∃ e, op.Exact n (im.arr.at' i j) e ∧ r.ty.Stores e (r.arr.at' i j) := by
  have ty : imType im.ty = im.ty := by
    have := h.ty
    cases e : im.ty <;> first | rfl | (exact absurd e this)
  have main : ∃ r, construct im.ty ⟨im.arr.h, im.arr.w, fun i j => mach z im.ty op n (im.arr.at' i j)⟩ im.bounds = .ok r ∧ r.Good ∧
      r.ty = im.ty ∧ r.isConst = false ∧ r.bounds.xmin = im.bounds.xmin ∧
      r.bounds.ymin = im.bounds.ymin ∧ ∀ i j, (op.divides → im.arr.at' i j ≠ 0) →
        ∃ e, op.Exact n (im.arr.at' i j) e ∧ r.ty.Stores e (r.arr.at' i j) := by
    obtain ⟨r, c1, c2, c3, c4, c5, c6, c7, c8, c9⟩ := construct_ok im.ty h fun i j => mach z im.ty op n (im.arr.at' i j)
    refine ⟨r, c1, c9, c2.trans ty, c3, c6, c7, ?_⟩
    intro i j hz
    refine ⟨_, eval_exact z op _ _ hz, ?_⟩
    rw [c8, c2, ty]
    exact stored z op le_rfl fun hd => ⟨hn hd, h.px i j⟩
  have comm : ∀ hc : (∀ a b e, op.Exact a b e → op.Exact b a e), ¬ op.divides → reflected z op n im = binary z op im (.pyInt n) →
      ∃ r, reflected z op n im = .ok r ∧ r.Good ∧ r.ty = im.ty ∧ r.isConst = false ∧ r.bounds.xmin = im.bounds.xmin ∧
      r.bounds.ymin = im.bounds.ymin ∧ ∀ i j, (op.divides → im.arr.at' i j ≠ 0) →
        ∃ e, op.Exact n (im.arr.at' i j) e ∧ r.ty.Stores e (r.arr.at' i j) := by
    intro hc nd e
    obtain ⟨r, b1, b2, b3, b4, b5, b6, b7, b8, b9⟩ := C92_binary z op im h (.pyInt n) hn
    refine ⟨r, e.trans b1, b2, ?_, b4, b7, b8, ?_⟩
    · rw [b3]; simp only [Rhs.ty, promote_self, ty]
    · intro i j _
      obtain ⟨v, e1, e2⟩ := b9 i j fun hd => absurd hd nd
      exact ⟨v, hc _ _ _ e1, e2⟩
  cases op with
  | sub => exact main
  | floordiv => exact main
  | mod => exact main
  | add => exact comm (fun a b e he => by simp only [BinOp.Exact] at he ⊢; rw [he, add_comm]) (fun h => h) rfl
  | mul => exact comm (fun a b e he => by simp only [BinOp.Exact] at he ⊢; rw [he, mul_comm]) (fun h => h) rfl
  | and => exact comm (fun a b e he k => by rw [he k, Bool.and_comm]) (fun h => h) rfl
  | or => exact comm (fun a b e he k => by rw [he k, Bool.or_comm]) (fun h => h) rfl
  | xor => exact comm (fun a b e he k => by rw [he k, Bool.xor_comm]) (fun h => h) rfl

/-- C92: operands of different shapes are refused, and the image stays as it is. -/
theorem C92_shape (z : ℤ → ℤ) (op : BinOp) (im o : IImage) (h : ¬ (im.arr.h = o.arr.h ∧ im.arr.w = o.arr.w)) :
    inplace z op im (.image o) = (im, some .incompatible) ∧ binary z op im (.image o) = .error .incompatible := by
  have c : consistent im (.image o) = false := by
    simp only [consistent, Bool.and_eq_false_iff, beq_eq_false_iff_ne]
    tauto
  constructor
  · unfold inplace; rw [c]; rfl
  · unfold binary; rw [c]; rfl

/-! #### Sequences of operations -/

/-- A sequence of in-place operations. -/
def run (z : ℤ → ℤ) (im : IImage) (ops : List (BinOp × Rhs)) : IImage := ops.foldl (fun im p => (inplace z p.1 im p.2).1) im

/-- The exact results of the sequence in a pixel, for sums, differences and products. -/
def exactRun (i j : ℕ) (a : ℤ) (ops : List (BinOp × Rhs)) : ℤ :=
  ops.foldl (fun a p => match p.1 with
    | .add => a + p.2.at i j
    | .sub => a - p.2.at i j
    | _ => a * p.2.at i j) a

/-- C92: after any sequence of in-place sums, differences and products with images of any dtypes and integers, every pixel is the
number that the exact result is stored as: nothing is lost by overflows on the way. -/
theorem C92_run (z : ℤ → ℤ) (im : IImage) (h : im.Good) (ops : List (BinOp × Rhs))
    (ho : ∀ p ∈ ops, (p.1 = .add ∨ p.1 = .sub ∨ p.1 = .mul) ∧ p.2.Fits p.1 im) :
    (run z im ops).Good ∧ (run z im ops).ty = im.ty ∧ (run z im ops).bounds = im.bounds ∧
      ∀ i j, im.ty.Stores (exactRun i j (im.arr.at' i j) ops) ((run z im ops).arr.at' i j) := by
  suffices H : ∀ (ops : List (BinOp × Rhs)) (cur : IImage) (e : ℕ → ℕ → ℤ), cur.Good → cur.ty = im.ty → cur.bounds = im.bounds →
      cur.arr.h = im.arr.h → cur.arr.w = im.arr.w → (∀ i j, im.ty.Stores (e i j) (cur.arr.at' i j)) →
      (∀ p ∈ ops, (p.1 = .add ∨ p.1 = .sub ∨ p.1 = .mul) ∧ p.2.Fits p.1 im) →
      (run z cur ops).Good ∧ (run z cur ops).ty = im.ty ∧ (run z cur ops).bounds = im.bounds ∧
      ∀ i j, im.ty.Stores (exactRun i j (e i j) ops) ((run z cur ops).arr.at' i j) from
    H ops im (fun i j => im.arr.at' i j) h rfl rfl rfl rfl (fun i j => stores_self (h.px i j)) ho
  intro ops
  induction ops with
  | nil => intro cur e g t b _ _ st _; exact ⟨g, t, b, st⟩
  | cons p ops ih =>
    intro cur e g t b eh ew st ho
    obtain ⟨hp, hf⟩ := ho p (List.mem_cons_self ..)
    have hf' : p.2.Fits p.1 cur := by
      revert hf
      cases p.2 with
      | image o => intro hf; exact ⟨hf.1, hf.2.1.trans eh.symm, hf.2.2.trans ew.symm⟩
      | pyInt n => intro hf hd; rw [t]; exact hf hd
    have nd : ¬ p.1.divides := by rcases hp with e | e | e <;> rw [e] <;> exact id
    have eq := inplace_eq z p.1 hf'
    obtain ⟨r, r1, r2, r3, r4, r5, r6⟩ := C92_inplace z p.1 cur g p.2 hf'
    have er := r1.symm.trans eq
    have er' := congrArg Prod.fst er
    simp only at er'
    have st' : ∀ i j, im.ty.Stores (p.1.eval z (e i j) (p.2.at i j)) (r.arr.at' i j) := by
      intro i j
      have s1 : cur.ty.Stores (p.1.eval z (cur.arr.at' i j) (p.2.at i j)) (r.arr.at' i j) := by
        rw [er']
        exact stored z p.1 (promote_bits _ _).1 fun hd => absurd hd nd
      rw [t] at s1
      refine ⟨s1.1, ?_⟩
      have s2 := s1.2
      rw [card_eq] at s2 ⊢
      have s3 := (st i j).2
      rw [card_eq] at s3
      have := s2.add (eval_dvd z nd s3 (y := p.2.at i j) (y' := p.2.at i j) (by simp))
      rwa [sub_add_sub_cancel] at this
    have H := ih r (fun i j => p.1.eval z (e i j) (p.2.at i j)) r2 (r3.trans t) (r4.trans b) (by rw [er']; exact eh)
      (by rw [er']; exact ew) st' fun q hq => ho q (List.mem_cons_of_mem _ hq)
    have f1 : run z cur (p :: ops) = run z r ops := by
      show run z (inplace z p.1 cur p.2).1 ops = _
      rw [r1]
    have f2 : ∀ i j, exactRun i j (e i j) (p :: ops) = exactRun i j (p.1.eval z (e i j) (p.2.at i j)) ops := by
      intro i j
      rcases hp with q | q | q <;> simp only [exactRun, List.foldl_cons, q, BinOp.eval]
    rw [f1]
    simp only [f2]
    exact H

/-- C92: adding and then subtracting the same operand, or flipping the same bits twice, restores every pixel. -/
theorem C92_restore (z : ℤ → ℤ) (im : IImage) (h : im.Good) (o : Rhs) (op op' : BinOp) (ho : o.Fits op im)
    (hop : op = .add ∧ op' = .sub ∨ op = .sub ∧ op' = .add ∨ op = .xor ∧ op' = .xor) (i j : ℕ) :
    (run z im [(op, o), (op', o)]).arr.at' i j = im.arr.at' i j := by
  have nd : ¬ op.divides ∧ ¬ op'.divides := by rcases hop with e | e | e <;> rw [e.1, e.2] <;> exact ⟨id, id⟩
  obtain ⟨r, r1, r2, r3, r4, r5, r6⟩ := C92_inplace z op im h o ho
  have er := congrArg Prod.fst (r1.symm.trans (inplace_eq z op ho))
  simp only at er
  have ho' : o.Fits op' r := by
    revert ho
    cases o with
    | image o => intro ho; rw [er]; exact ho
    | pyInt n => intro _ hd; exact absurd hd nd.2
  have e2 := inplace_eq z op' ho'
  have f : run z im [(op, o), (op', o)] = (inplace z op' r o).1 := by
    show (inplace z op' (inplace z op im o).1 o).1 = _
    rw [r1]
  rw [f, e2]
  simp only
  have s1 := stored z op (t := im.ty) (promote_bits im.ty (o.ty im.ty)).1 (a := im.arr.at' i j) (b := o.at i j) fun hd => absurd hd nd.1
  have s2 := stored z op' (t := r.ty) (promote_bits r.ty (o.ty r.ty)).1 (a := r.arr.at' i j) (b := o.at i j) fun hd => absurd hd nd.2
  have a1 : r.arr.at' i j = im.ty.cast (mach z (promote im.ty (o.ty im.ty)) op (im.arr.at' i j) (o.at i j)) := by rw [er]
  rw [← a1] at s1
  have s0 : r.ty.Stores (im.arr.at' i j) (im.arr.at' i j) := stores_self (r3 ▸ h.px i j)
  refine stores_unique s2 s0 ?_
  have d1 := s1.2
  rw [card_eq, ← r3] at d1
  have d2 := eval_dvd z nd.2 d1 (y := o.at i j) (y' := o.at i j) (by simp)
  have back : op'.eval z (op.eval z (im.arr.at' i j) (o.at i j)) (o.at i j) = im.arr.at' i j := by
    rcases hop with e | e | e <;> rw [e.1, e.2] <;> simp only [BinOp.eval]
    · ring
    · ring
    · rw [← Int.bitwise_xor]
      exact xor_twice _ _
  rwa [back] at d2

/-- C92: the negative image stores the negative numbers. -/
theorem C92_neg (z : ℤ → ℤ) (im : IImage) (h : im.Good) :
    ∃ r, neg z im = .ok r ∧ r.Good ∧ r.ty = im.ty ∧ r.isConst = false ∧ r.bounds.xmin = im.bounds.xmin ∧
      r.bounds.ymin = im.bounds.ymin ∧ ∀ i j, im.ty.Stores (-im.arr.at' i j) (r.arr.at' i j) := by
  have ty : imType im.ty = im.ty := by
    have := h.ty
    cases e : im.ty <;> first | rfl | (exact absurd e this)
  obtain ⟨c, c1, c2, c3, c4, c5, c6, c7, c8, c9⟩ := construct_ok im.ty h im.arr.at'
  rw [ty] at c2 c8
  obtain ⟨r, r1, r2, r3, r4, r5, r6⟩ := C92_inplace z .mul c c9 (.pyInt (-1)) (fun h => h.elim)
  refine ⟨r, ?_, r2, r3.trans c2, r5.trans c3, by rw [r4]; exact c6, by rw [r4]; exact c7, ?_⟩
  · unfold neg
    have : construct im.ty im.arr im.bounds = .ok c := c1
    rw [this]
    simp only [r1]
  · intro i j
    obtain ⟨e, e1, e2⟩ := r6 i j fun h => h.elim
    simp only [BinOp.Exact, Rhs.at] at e1
    rw [c8, cast_of_has (h.px i j)] at e1
    rw [c2, e1] at e2
    rwa [mul_neg, mul_one] at e2

/-- C92: quotient times divisor plus remainder gives back the pixels, for two images of one dtype. -/
theorem C92_divmod (z : ℤ → ℤ) (a b : IImage) (ha : a.Good) (hb : b.Good) (ht : b.ty = a.ty) (hs : b.arr.h = a.arr.h ∧ b.arr.w = a.arr.w)
    (hz : ∀ i j, b.arr.at' i j ≠ 0) :
    ∃ q m p s, binary z .floordiv a (.image b) = .ok q ∧ binary z .mod a (.image b) = .ok m ∧
      binary z .mul q (.image b) = .ok p ∧ binary z .add p (.image m) = .ok s ∧ s.ty = a.ty ∧
      ∀ i j, s.arr.at' i j = a.arr.at' i j := by
  have ty : imType a.ty = a.ty := by
    have := ha.ty
    cases e : a.ty <;> first | rfl | (exact absurd e this)
  obtain ⟨q, q1, q2, q3, q4, q5, q6, q7, q8, q9⟩ := C92_binary z .floordiv a ha (.image b) ⟨hb, hs⟩
  obtain ⟨m, m1, m2, m3, m4, m5, m6, m7, m8, m9⟩ := C92_binary z .mod a ha (.image b) ⟨hb, hs⟩
  simp only [Rhs.ty, ht, promote_self, ty] at q3 m3
  obtain ⟨p, p1, p2, p3, p4, p5, p6, p7, p8, p9⟩ := C92_binary z .mul q q2 (.image b) ⟨hb, hs.1.trans q5.symm, hs.2.trans q6.symm⟩
  simp only [Rhs.ty, ht, q3, promote_self, ty] at p3
  obtain ⟨s, s1, s2, s3, s4, s5, s6, s7, s8, s9⟩ := C92_binary z .add p p2 (.image m)
    ⟨m2, m5.trans (p5.trans q5).symm, m6.trans (p6.trans q6).symm⟩
  simp only [Rhs.ty, m3, p3, promote_self, ty] at s3
  refine ⟨q, m, p, s, q1, m1, p1, s1, s3, ?_⟩
  intro i j
  obtain ⟨Q, ⟨rq, hq1, hq2⟩, hq3⟩ := q9 i j fun _ => hz i j
  obtain ⟨R, ⟨qr, hr1, hr2⟩, hr3⟩ := m9 i j fun _ => hz i j
  obtain ⟨P, hP, hP3⟩ := p9 i j fun h => h.elim
  obtain ⟨S, hS, hS3⟩ := s9 i j fun h => h.elim
  simp only [BinOp.Exact, Rhs.at] at hP hS hq1 hq2 hr1 hr2
  rw [q3] at hq3
  rw [m3] at hr3
  rw [p3] at hP3
  rw [s3] at hS3
  have same : rq = R := by
    have e : (qr - Q) * b.arr.at' i j = rq - R := by linear_combination hq1 - hr1
    have d : b.arr.at' i j ∣ rq - R := ⟨qr - Q, by rw [← e]; ring⟩
    have := Int.eq_zero_of_abs_lt_dvd ((abs_dvd _ _).mpr d) (by
      rw [abs_lt]
      rcases hq2 with u | u <;> rcases hr2 with v | v <;> constructor <;>
        first | (rw [abs_of_pos (by omega)]; omega) | (rw [abs_of_neg (by omega)]; omega))
    omega
  refine stores_unique hS3 (stores_self (ha.px i j)) ?_
  obtain ⟨k1, e1⟩ := hq3.2
  obtain ⟨k2, e2⟩ := hr3.2
  obtain ⟨k3, e3⟩ := hP3.2
  rw [card_eq] at e1 e2 e3
  refine ⟨k3 + k1 * b.arr.at' i j + k2, ?_⟩
  rw [hS]
  rw [hP] at e3
  linear_combination e3 + e1 * b.arr.at' i j + e2 - hq1 - same

/-- C92: the in-place quotient of integers is the nearest integer to the quotient, the even one of two, where it is a number of the
dtype. -/
theorem C92_idiv (t : IT) (a b : ℤ) (hb : b ≠ 0) :
    ∃ n : ℤ, NearestEven ((a : ℝ) / b) n ∧ (∀ m, NearestEven ((a : ℝ) / b) m → m = n) ∧
      ∃ v, idivPixel t a b = some v ∧ t.Stores n v := by
  obtain ⟨n, h1, h2, h3⟩ := C21_rounding ((a : ℝ) / b)
  simp only [safeCast, if_true, Int.cast_inj] at h1
  refine ⟨n, h2, h3, t.cast n, ?_, stores_cast t n⟩
  simp only [idivPixel, if_neg hb, h1]

theorem dvd_of_stores {t : IT} {n v : ℤ} (h : t.Stores n v) : (2 ^ t.bits : ℤ) ∣ v - n := by rw [← card_eq]; exact h.2

theorem stores_mul (z : ℤ → ℤ) {t : IT} {a b x y : ℤ} (hx : (2 ^ t.bits : ℤ) ∣ x - a) (hy : (2 ^ t.bits : ℤ) ∣ y - b) :
    t.Stores (a * b) (mach z t .mul x y) := by
  refine ⟨cast_has _ _, ?_⟩
  rw [card_eq]
  have h1 := cast_dvd t (t.cast x * t.cast y)
  have h2 := (cast_dvd t x).add hx
  have h3 := (cast_dvd t y).add hy
  have e : mach z t .mul x y - a * b = (t.cast (t.cast x * t.cast y) - t.cast x * t.cast y) +
      ((t.cast x - x + (x - a)) * t.cast y + a * (t.cast y - y + (y - b))) := by
    simp only [mach, BinOp.eval]; ring
  rw [e]
  exact h1.add ((h2.mul_right _).add (h3.mul_left _))

theorem stores_pow (z : ℤ → ℤ) (t : IT) (n : ℕ) : ∀ a x : ℤ, (2 ^ t.bits : ℤ) ∣ x - a → t.Stores (a ^ n) (machPow z t x n) := by
  induction n using Nat.strong_induction_on with
  | _ n ih =>
    intro a x hx
    unfold machPow
    by_cases h : n = 0
    · rw [dif_pos h, h, pow_zero]; exact stores_cast t 1
    · rw [dif_neg h]
      have h1 := ih (n / 2) (by omega) (a * a) (mach z t .mul x x) (dvd_of_stores (stores_mul z hx hx))
      by_cases h2 : n % 2 = 1
      · simp only [if_pos h2]
        have e : a ^ n = a * (a * a) ^ (n / 2) := by
          rw [← pow_two, ← pow_mul, ← pow_succ']; congr 1; omega
        rw [e]
        exact stores_mul z hx (dvd_of_stores h1)
      · simp only [if_neg h2]
        have e : a ^ n = (a * a) ^ (n / 2) := by
          rw [← pow_two, ← pow_mul]; congr 1; omega
        rw [e]
        exact h1

/-- C92: a power of an image with an exponent that is a non-negative integer, by `**` and by `**=`, stores the exact power of each
pixel in the dtype of the image, within the same bounds; it is the image that successive multiplications by the image itself
give. -/
theorem C92_pow (z : ℤ → ℤ) (im : IImage) (h : im.Good) (n : ℕ) :
    (∃ r, pow z im n = .ok r ∧ r.Good ∧ r.ty = im.ty ∧ r.isConst = false ∧ r.bounds.xmin = im.bounds.xmin ∧
      r.bounds.ymin = im.bounds.ymin ∧ r.arr.h = im.arr.h ∧ r.arr.w = im.arr.w ∧
      ∀ i j, im.ty.Stores (im.arr.at' i j ^ n) (r.arr.at' i j)) ∧
    (∃ f, ipow z im (.int n) = .ok f ∧ ∀ i j, ∃ v, f i j = some v ∧ im.ty.Stores (im.arr.at' i j ^ n) v ∧
      ∀ m, n = m + 1 → v = (run z im (List.replicate m (.mul, .image im))).arr.at' i j) := by
  have ty : imType im.ty = im.ty := by
    have := h.ty
    cases e : im.ty <;> first | rfl | (exact absurd e this)
  have hp : ∀ i j, im.ty.Stores (im.arr.at' i j ^ n) (machPow z im.ty (im.arr.at' i j) n) :=
    fun i j => stores_pow z im.ty n _ _ (by simp)
  obtain ⟨r, c1, c2, c3, c4, c5, c6, c7, c8, c9⟩ := construct_ok im.ty h fun i j => machPow z im.ty (im.arr.at' i j) n
  refine ⟨?_, fun i j => some (machPow z im.ty (im.arr.at' i j) n), rfl, fun i j => ⟨_, rfl, hp i j, ?_⟩⟩
  · refine ⟨r, c1, c9, c2.trans ty, c3, c6, c7, c4, c5, fun i j => ?_⟩
    rw [c8, ty, cast_of_has (hp i j).1]
    exact hp i j
  · rintro m rfl
    have hr := C92_run z im h (List.replicate m (.mul, .image im)) (by
      intro p hp
      rw [List.eq_of_mem_replicate hp]
      exact ⟨.inr (.inr rfl), h, rfl, rfl⟩)
    have he : ∀ (m : ℕ) (a : ℤ), exactRun i j a (List.replicate m (.mul, .image im)) = a * im.arr.at' i j ^ m := by
      intro m
      induction m with
      | zero => intro a; simp [exactRun]
      | succ m ih =>
        intro a
        rw [List.replicate_succ]
        show exactRun i j (a * im.arr.at' i j) (List.replicate m (.mul, .image im)) = _
        rw [ih]; ring
    have := hr.2.2.2 i j
    rw [he, ← pow_succ'] at this
    exact stores_unique (hp i j) this (by simp)

/-- C92: `**=` with a float exponent rounds the power of each pixel to the nearest integer, ties to even, and stores that; anything
but an int or a float is refused. -/
theorem C92_ipow_float (z : ℤ → ℤ) (im : IImage) (x : ℝ) (i j : ℕ) (ha : 0 < im.arr.at' i j ∨ (im.arr.at' i j = 0 ∧ 0 ≤ x)) :
    (∃ f n v, ipow z im (.flt x) = .ok f ∧ NearestEven ((im.arr.at' i j : ℝ) ^ x) n ∧ f i j = some v ∧ im.ty.Stores n v) ∧
    ipow z im .other = .error .typeError := by
  refine ⟨?_, rfl⟩
  obtain ⟨n, h1, h2, h3⟩ := C21_rounding ((im.arr.at' i j : ℝ) ^ x)
  simp only [safeCast, if_true, Int.cast_inj] at h1
  refine ⟨_, n, im.ty.cast n, rfl, h2, ?_, stores_cast _ n⟩
  have hn : ¬ (im.arr.at' i j < 0 ∨ (im.arr.at' i j = 0 ∧ x < 0)) := by
    rcases ha with ha | ha
    · push Not; exact ⟨ha.le, fun h0 => absurd h0 ha.ne'⟩
    · push Not; exact ⟨ha.1.ge, fun _ => ha.2⟩
  simp only [if_neg hn, h1]

/-! ### Examples and counterexamples -/

/-- A row of pixels. -/
def exRow (t : IT) (l : List ℤ) : IImage := ⟨t, ⟨1, 3, fun _ j => l.getD j 0⟩, pyB 1 3 1 1, false⟩

theorem exRow_good {t : IT} {l : List ℤ} (ht : t ≠ .i64) (h : ∀ n ∈ l, t.has n) : (exRow t l).Good := by
  refine ⟨ht, mk4_ok _ _ _ _, rfl, rfl, ?_⟩
  intro i j
  simp only [exRow]
  by_cases hj : j < l.length
  · rw [List.getD_eq_getElem _ _ hj]; exact h _ (List.getElem_mem hj)
  · rw [List.getD_eq_default _ _ (by omega)]
    cases t <;> simp [IT.has, IT.lo, IT.hi]

/-- `C92_run` and `C92_binary` apply to unsigned pixels with signed operands, and overflow as they say: `65535 + 1 = 0`. -/
example : (exRow .u16 [65535, 7, 0]).Good ∧ (Rhs.image (exRow .i32 [1, -8, 70000])).Fits .add (exRow .u16 [65535, 7, 0]) ∧
    (List.range 3).map ((inplace id .add (exRow .u16 [65535, 7, 0]) (.image (exRow .i32 [1, -8, 70000]))).1.arr.at' 0) = [0, 65535, 4464] := by
  refine ⟨exRow_good (by decide) (by simp [IT.has, IT.lo, IT.hi]),
    ⟨exRow_good (by decide) (by simp [IT.has, IT.lo, IT.hi]), rfl, rfl⟩, by decide +kernel⟩

/-- `C92_divmod` applies at the end of the range, where the quotient overflows. -/
example : (exRow .i16 [-32768, 7, -7]).Good ∧ (exRow .i16 [-1, -2, 2]).Good ∧
    (List.range 3).map (fun j => mach id .i16 .floordiv ((exRow .i16 [-32768, 7, -7]).arr.at' 0 j) ((exRow .i16 [-1, -2, 2]).arr.at' 0 j)) =
      [-32768, -4, -4] := by
  refine ⟨exRow_good (by decide) (by simp [IT.has, IT.lo, IT.hi]), exRow_good (by decide) (by simp [IT.has, IT.lo, IT.hi]), by decide +kernel⟩

/-- `C92_pow` where the power overflows: `300 ** 2 = 90000` is stored as `24464` in 16 bits; `C92_ipow_float` for a square root. -/
example : (exRow .u16 [300, 7, 0]).Good ∧ IT.u16.Stores (300 ^ 2) 24464 ∧
    (0 < (exRow .u16 [300, 7, 0]).arr.at' 0 1 ∨ ((exRow .u16 [300, 7, 0]).arr.at' 0 1 = 0 ∧ (0 : ℝ) ≤ 1 / 2)) := by
  refine ⟨exRow_good (by decide) (by simp [IT.has, IT.lo, IT.hi]), ⟨by simp [IT.has, IT.lo, IT.hi], ?_⟩, .inl (by decide)⟩
  simp only [IT.hi, IT.lo]; norm_num

/-- Disagreement: dividing an unsigned image by a negative Python integer takes the divisor modulo the size of the dtype:
`ImageUS([12, ...]) // -5` is `0`, the number stored for `-3` would be `65533`. -/
theorem C92_counterexample_divisor (z : ℤ → ℤ) :
    ((inplace z .floordiv (exRow .u16 [12, 0, 0]) (.pyInt (-5))).1.arr.at' 0 0) = 0 ∧ BinOp.floordiv.Exact 12 (-5) (-3) ∧
      ¬ IT.u16.Stores (-3) 0 := by
  refine ⟨?_, ⟨-3, by norm_num, .inr (by norm_num)⟩, ?_⟩
  · show IT.u16.cast (mach z .u16 .floordiv 12 (-5)) = 0
    unfold mach BinOp.eval
    simp only
    rw [if_neg (by decide +kernel)]
    decide +kernel
  · intro h
    have := h.2
    simp only [IT.hi, IT.lo] at this
    omega

/-- A sum of an image of `uint32` and one of `int32` is computed in 64 bits and cut to `int32`: `4000000000 + 0` comes out
negative. -/
example (z : ℤ → ℤ) : ∃ r, binary z .add (exRow .u32 [4000000000, 0, 0]) (.image (exRow .i32 [0, 0, 0])) = .ok r ∧
    r.arr.at' 0 0 = -294967296 := by
  refine ⟨_, rfl, ?_⟩
  show IT.i32.cast (IT.i64.cast (IT.i64.cast 4000000000 + IT.i64.cast 0)) = -294967296
  decide +kernel

end JG.IntIm
