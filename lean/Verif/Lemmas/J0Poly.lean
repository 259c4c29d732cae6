import Verif.Lemmas.SiClose
import Verif.Model.BesselJ0

/-! # Polynomial inequalities for the approximations of the Bessel function of order zero -/

namespace JG.J0

open JG.BesK JG.Si

theorem polyval_eq (z : ℝ) (l : List ℚ) : polyval l.reverse z = evQ z l := by
  rw [polyval, List.foldl_reverse]
  induction l with
  | nil => rfl
  | cons a l ih => rw [List.foldr_cons, ih, evQ]; ring

theorem rational_eq (z : ℝ) (p q : List ℚ) : rational z p q = evQ z p / evQ z q := by
  rw [rational, ratio, polyval_eq, polyval_eq]

/-- Composition of polynomials. -/
def compQ : List ℚ → List ℚ → List ℚ
  | [], _ => []
  | a :: l, m => addQ [a] (mulQ m (compQ l m))

theorem evQ_comp (x : ℝ) (l m : List ℚ) : evQ x (compQ l m) = evQ (evQ x m) l := by
  induction l with
  | nil => rfl
  | cons a l ih => rw [compQ, evQ_add, evQ_mul, ih]; simp [evQ]

/-- Two-sided bound from positivity of `den ± num` on intervals. -/
theorem br_bound {lo : ℚ} {bs : List ℚ} {M : ℚ} {num den : List ℚ}
    (hp : posBr lo bs (addQ (scQ M den) (scQ 1 num)) = true) (hm : posBr lo bs (addQ (scQ M den) (scQ (-1) num)) = true)
    {x : ℝ} (h0 : (lo : ℝ) ≤ x) {b : ℚ} (hb : b ∈ bs) (h1 : x ≤ b) : |evQ x num| ≤ M * evQ x den := by
  have p := posBr_pos hp h0 hb h1
  have m := posBr_pos hm h0 hb h1
  rw [evQ_add, evQ_sc, evQ_sc] at p m
  push_cast at p m
  rw [abs_le]
  constructor <;> linarith

/-! ### Up to 8 -/

/-- Coefficients of the Taylor polynomial of `J_0` in the square of the argument. -/
def jQ : List ℚ := (List.range 25).map fun k : ℕ => (-1) ^ k / (4 ^ k * (k.factorial : ℚ) ^ 2)

def z1 : ℚ := x11 / 256 + x12
def z2 : ℚ := x21 / 256 + x22

def r1 : List ℚ := addQ (mulQ [-(x1 * z1), 1] p1) (scQ (-1) (mulQ jQ q1))

theorem r1_bound {y : ℝ} (h0 : 0 ≤ y) (h1 : y ≤ 16) : |evQ y r1| ≤ (1 / 10 ^ 18 : ℚ) * evQ y q1 :=
  br_bound (lo := 0) (bs := [4, 8, 12, 16]) (by decide +kernel) (by decide +kernel) (by simpa using h0) (b := 16) (by decide +kernel)
    (by push_cast; linarith)

theorem p1_bound {y : ℝ} (h0 : 0 ≤ y) (h1 : y ≤ 16) : |evQ y p1| ≤ (1 : ℚ) * evQ y q1 :=
  br_bound (lo := 0) (bs := [16]) (by decide +kernel) (by decide +kernel) (by simpa using h0) (b := 16) (by decide +kernel)
    (by push_cast; linarith)

theorem q1_pos {y : ℝ} (h0 : 0 ≤ y) : 0 < evQ y q1 := by
  have h : q1 = 2.3883787996332290397e12 :: q1.tail := rfl
  rw [h, evQ]
  have := mul_nonneg h0 (evQ_nonneg (l := q1.tail) (by decide +kernel) h0)
  push_cast
  linarith

def nq2 : List ℚ := scQ (-1) q2
def r2 : List ℚ := addQ (mulQ (addQ [-(x2 * z2)] [64, -64]) p2) (scQ (-1) (mulQ (compQ jQ [64, -64]) q2))

theorem r2_bound {y : ℝ} (h0 : 0 ≤ y) (h1 : y ≤ 3 / 4) : |evQ y r2| ≤ (1 / 10 ^ 18 : ℚ) * evQ y nq2 :=
  br_bound (lo := 0) (bs := [3/32, 3/16, 9/32, 3/8, 9/16, 21/32, 45/64, 93/128, 3/4]) (by decide +kernel) (by decide +kernel)
    (by simpa using h0) (b := 3 / 4) (by decide +kernel) (by push_cast; linarith)

theorem p2_bound {y : ℝ} (h0 : 0 ≤ y) (h1 : y ≤ 3 / 4) : |evQ y p2| ≤ (1 : ℚ) * evQ y nq2 :=
  br_bound (lo := 0) (bs := [3 / 4]) (by decide +kernel) (by decide +kernel) (by simpa using h0) (b := 3 / 4) (by decide +kernel)
    (by push_cast; linarith)

theorem nq2_pos {y : ℝ} (h0 : 0 ≤ y) (h1 : y ≤ 3 / 4) : 0 < evQ y nq2 :=
  posBr_pos (lo := 0) (bs := [3 / 4]) (by decide +kernel) (by simpa using h0) (b := 3 / 4) (by decide +kernel) (by push_cast; linarith)

/-! ### Above 8 -/

/-- Numerator of the derivative of a quotient, over the square of the denominator. -/
def d1 (p q : List ℚ) : List ℚ := addQ (mulQ (dQ p) q) (scQ (-1) (mulQ p (dQ q)))

/-- Numerator of the second derivative of a quotient, over the cube of the denominator. -/
def d2 (p q : List ℚ) : List ℚ := addQ (mulQ (dQ (d1 p q)) q) (scQ (-2) (mulQ (d1 p q) (dQ q)))

theorem quot_deriv (p q : List ℚ) {z : ℝ} (h : evQ z q ≠ 0) :
    HasDerivAt (fun z => evQ z p / evQ z q) (evQ z (d1 p q) / evQ z q ^ 2) z := by
  refine ((evQ_hasDerivAt p z).fun_div (evQ_hasDerivAt q z) h).congr_deriv ?_
  rw [d1, evQ_add, evQ_sc, evQ_mul, evQ_mul]
  push_cast
  ring

theorem quot_deriv2 (p q : List ℚ) {z : ℝ} (h : evQ z q ≠ 0) :
    HasDerivAt (fun z => evQ z (d1 p q) / evQ z q ^ 2) (evQ z (d2 p q) / evQ z q ^ 3) z := by
  refine ((evQ_hasDerivAt (d1 p q) z).fun_div ((evQ_hasDerivAt q z).fun_pow 2) (pow_ne_zero 2 h)).congr_deriv ?_
  rw [d2, evQ_add, evQ_sc, evQ_mul, evQ_mul]
  push_cast
  field_simp
  ring

def n1 : List ℚ :=
  addQ (mulQ (addQ (addQ (mulQ [0, 3 / 32] (mulQ (d1 pC qC) qC)) (mulQ [0, 0, 2 / 32] (d2 pC qC))) (scQ (1 / 256) (mulQ pC (mulQ qC qC))))
    (mulQ qS qS)) (mulQ (addQ (scQ (1 / 4) (mulQ pS qS)) (mulQ [0, 1 / 2] (d1 pS qS))) (mulQ qC (mulQ qC qC)))

def den1 : List ℚ := mulQ (mulQ qC (mulQ qC qC)) (mulQ qS qS)

theorem n1_bound {z : ℝ} (h0 : 0 ≤ z) (h1 : z ≤ 1) : |evQ z n1| ≤ (5 / 10 ^ 16 : ℚ) * evQ z den1 :=
  br_bound (lo := 0) (bs := [1/8, 1/4, 3/8, 1/2, 5/8, 3/4, 7/8, 15/16, 1]) (by decide +kernel) (by decide +kernel)
    (by simpa using h0) (b := 1) (by decide +kernel) (by push_cast; linarith)

def n2 : List ℚ :=
  addQ (mulQ (addQ (addQ (scQ (9 / 256) (mulQ pS (mulQ qS qS))) (mulQ [0, 10 / 64] (mulQ (d1 pS qS) qS))) (mulQ [0, 0, 4 / 64] (d2 pS qS)))
    (mulQ qC qC)) (scQ (-1 / 2) (mulQ (d1 pC qC) (mulQ qS (mulQ qS qS))))

def den2 : List ℚ := mulQ (mulQ qS (mulQ qS qS)) (mulQ qC qC)

theorem n2_bound {z : ℝ} (h0 : 0 ≤ z) (h1 : z ≤ 1) : |evQ z n2| ≤ (4 / 10 ^ 16 : ℚ) * evQ z den2 :=
  br_bound (lo := 0) (bs := [1/16, 1/8, 1/4, 3/8, 1/2, 5/8, 3/4, 7/8, 15/16, 1]) (by decide +kernel) (by decide +kernel)
    (by simpa using h0) (b := 1) (by decide +kernel) (by push_cast; linarith)

theorem qC_pos {z : ℝ} (h0 : 0 ≤ z) : 0 < evQ z qC := by
  have h : qC = 2.2779090197304684318e4 :: qC.tail := rfl
  rw [h, evQ]
  have := mul_nonneg h0 (evQ_nonneg (l := qC.tail) (by decide +kernel) h0)
  push_cast
  linarith

theorem qS_pos {z : ℝ} (h0 : 0 ≤ z) : 0 < evQ z qS := by
  have h : qS = 5.7105024128512061905e3 :: qS.tail := rfl
  rw [h, evQ]
  have := mul_nonneg h0 (evQ_nonneg (l := qS.tail) (by decide +kernel) h0)
  push_cast
  linarith

end JG.J0
