import Verif.Model.Profile
import Verif.Lemmas.Shear
import Mathlib.Tactic.Linarith
import Mathlib.Tactic.Ring
import Mathlib.Tactic.FieldSimp
import Mathlib.Tactic.Positivity
import Mathlib.Tactic.NormNum

/-! Helper lemmas for 2×2 matrices and profiles. -/

namespace JG

theorem Mat2.det_mul (m n : Mat2) : (m.mul n).det = m.det * n.det := by
  simp only [Mat2.mul, Mat2.det]; ring

theorem Mat2.app_mul (m n : Mat2) (v : ℝ × ℝ) : (m.mul n).app v = m.app (n.app v) := by
  ext <;> simp only [Mat2.mul, Mat2.app] <;> ring

theorem Mat2.app_tr_mul (m n : Mat2) (v : ℝ × ℝ) : (m.mul n).tr.app v = n.tr.app (m.tr.app v) := by
  ext <;> simp only [Mat2.mul, Mat2.app, Mat2.tr] <;> ring

theorem Mat2.app_add (m : Mat2) (v w : ℝ × ℝ) : m.app (v + w) = m.app v + m.app w := by
  ext <;> simp only [Mat2.app, Prod.fst_add, Prod.snd_add] <;> ring

theorem Mat2.app_sub (m : Mat2) (v w : ℝ × ℝ) : m.app (v - w) = m.app v - m.app w := by
  ext <;> simp only [Mat2.app, Prod.fst_sub, Prod.snd_sub] <;> ring

theorem Mat2.one_app (v : ℝ × ℝ) : Mat2.one.app v = v := by
  ext <;> simp [Mat2.one, Mat2.app]

theorem Mat2.det_one : Mat2.one.det = 1 := by simp [Mat2.one, Mat2.det]

theorem Mat2.one_mul (m : Mat2) : Mat2.one.mul m = m := by
  apply Mat2.ext' <;> simp [Mat2.one, Mat2.mul]

theorem Mat2.mul_one (m : Mat2) : m.mul Mat2.one = m := by
  apply Mat2.ext' <;> simp [Mat2.one, Mat2.mul]

theorem Mat2.mul_assoc (m n q : Mat2) : (m.mul n).mul q = m.mul (n.mul q) := by
  apply Mat2.ext' <;> simp only [Mat2.mul] <;> ring

theorem Mat2.inv_none {m : Mat2} (h : m.det = 0) : m.inv = none := by unfold Mat2.inv; rw [if_pos h]

/-- The inverse of a regular matrix. -/
noncomputable def Mat2.inv' (m : Mat2) : Mat2 := ⟨m.d / m.det, -m.b / m.det, -m.c / m.det, m.a / m.det⟩

theorem Mat2.inv_some {m : Mat2} (h : m.det ≠ 0) : m.inv = some m.inv' := by
  unfold Mat2.inv; rw [if_neg h]; rfl

theorem Mat2.inv'_app {m : Mat2} (h : m.det ≠ 0) (v : ℝ × ℝ) : m.inv'.app (m.app v) = v := by
  ext <;> simp only [Mat2.inv', Mat2.app] <;> field_simp <;> simp only [Mat2.det] <;> ring

theorem Mat2.app_inv' {m : Mat2} (h : m.det ≠ 0) (v : ℝ × ℝ) : m.app (m.inv'.app v) = v := by
  ext <;> simp only [Mat2.inv', Mat2.app] <;> field_simp <;> simp only [Mat2.det] <;> ring

theorem Mat2.app_inj {m : Mat2} (h : m.det ≠ 0) {v w : ℝ × ℝ} (e : m.app v = m.app w) : v = w := by
  rw [← Mat2.inv'_app h v, e, Mat2.inv'_app h]

theorem Mat2.det_inv' {m : Mat2} (h : m.det ≠ 0) : m.inv'.det = 1 / m.det := by
  have e : m.inv'.det = (m.a * m.d - m.b * m.c) / (m.det * m.det) := by
    simp only [Mat2.det, Mat2.inv']; field_simp
  have : m.a * m.d - m.b * m.c = m.det := rfl
  rw [e, this]; field_simp

theorem Mat2.inv'_mul_app {m n : Mat2} (hm : m.det ≠ 0) (hn : n.det ≠ 0) (v : ℝ × ℝ) :
    (m.mul n).inv'.app v = n.inv'.app (m.inv'.app v) := by
  have h : (m.mul n).det ≠ 0 := by rw [Mat2.det_mul]; exact mul_ne_zero hm hn
  apply Mat2.app_inj h
  rw [Mat2.app_inv' h, Mat2.app_mul, Mat2.app_inv' hn, Mat2.app_inv' hm]

theorem rowMul_eq (k : ℝ × ℝ) (J : Mat2) : rowMul k J = J.tr.app k := by
  ext <;> simp only [rowMul, Mat2.app, Mat2.tr] <;> ring

/-! ### Collapsing constructors -/

theorem xValue_mk (p : Prof) (J : Mat2) (off : ℝ × ℝ) (r : ℝ) (x : ℝ × ℝ) :
    (mkTransform p J off r).xValue x =
      J.inv.bind fun Ji => (p.xValue (Ji.app (x - off))).map fun v => v * r := by
  cases p with
  | trans o J2 o2 r2 =>
    simp only [mkTransform, Prof.xValue]
    by_cases h : J.det = 0
    · rw [Mat2.inv_none h, Mat2.inv_none (by rw [Mat2.det_mul, h, zero_mul])]; rfl
    · rw [Mat2.inv_some h]
      by_cases h2 : J2.det = 0
      · rw [Mat2.inv_none h2, Mat2.inv_none (by rw [Mat2.det_mul, h2, mul_zero])]; rfl
      · rw [Mat2.inv_some h2, Mat2.inv_some (by rw [Mat2.det_mul]; exact mul_ne_zero h h2)]
        simp only [Option.bind_some, Option.map_map]
        rw [Mat2.inv'_mul_app h h2]
        have e : J.inv'.app (x - (off + J.app o2)) = J.inv'.app (x - off) - o2 := by
          rw [← sub_sub, Mat2.app_sub, Mat2.inv'_app h]
        rw [e]
        congr 1
        funext v; simp only [Function.comp]; ring
  | _ => rfl

theorem flux_mk (p : Prof) (J : Mat2) (off : ℝ × ℝ) (r : ℝ) :
    (mkTransform p J off r).flux = |J.det| * r * p.flux := by
  cases p with
  | trans o J2 o2 r2 =>
    simp only [mkTransform, Prof.flux, fluxScaling, Mat2.det_mul, abs_mul]; ring
  | _ => rfl

theorem maxSb_mk (p : Prof) (J : Mat2) (off : ℝ × ℝ) (r : ℝ) :
    (mkTransform p J off r).maxSb = r * p.maxSb := by
  cases p with
  | trans o J2 o2 r2 => simp only [mkTransform, Prof.maxSb]; ring
  | _ => simp only [mkTransform, Prof.maxSb]

theorem posneg_mk (p : Prof) (J : Mat2) (off : ℝ × ℝ) (r : ℝ) :
    (mkTransform p J off r).posneg = (|J.det| * r * p.posneg.1, |J.det| * r * p.posneg.2) := by
  cases p with
  | trans o J2 o2 r2 =>
    simp only [mkTransform, Prof.posneg, fluxScaling, Mat2.det_mul, abs_mul, Prod.mk.injEq]
    constructor <;> ring
  | _ => simp only [mkTransform, Prof.posneg, fluxScaling]

theorem kFactor_mul (J J2 : Mat2) (off o2 : ℝ × ℝ) (r r2 : ℝ) (k : ℝ × ℝ) :
    kFactor (J.mul J2) (off + J.app o2) (r * r2) k = kFactor J2 o2 r2 (J.tr.app k) * kFactor J off r k := by
  unfold kFactor
  rw [show ∀ a b c d : ℂ, a * Complex.exp b * (c * Complex.exp d) = (a * c) * Complex.exp (b + d) from
    fun a b c d => by rw [Complex.exp_add]; ring]
  congr 1
  · simp only [fluxScaling, Mat2.det_mul, abs_mul]; push_cast; ring
  · congr 1
    simp only [Mat2.app, Mat2.tr, Prod.fst_add, Prod.snd_add]; push_cast; ring

theorem kValue_mk (p : Prof) (J : Mat2) (off : ℝ × ℝ) (r : ℝ) (k : ℝ × ℝ) :
    (mkTransform p J off r).kValue k = p.kValue (J.tr.app k) * kFactor J off r k := by
  cases p with
  | trans o J2 o2 r2 =>
    simp only [mkTransform, Prof.kValue, kFactor_mul, Mat2.app_tr_mul]; ring
  | _ => rfl

theorem centroid_mk (p : Prof) (J : Mat2) (off : ℝ × ℝ) (r : ℝ) :
    (mkTransform p J off r).centroid = p.centroid.map fun c => J.app c + off := by
  cases p with
  | trans o J2 o2 r2 =>
    simp only [mkTransform, Prof.centroid, Option.map_map]
    congr 1; funext c
    simp only [Function.comp, Mat2.app_mul, Mat2.app_add]; abel
  | _ => rfl

theorem xValueL_append (l m : List Prof) (x : ℝ × ℝ) :
    Prof.xValueL (l ++ m) x = (Prof.xValueL l x).bind fun a => (Prof.xValueL m x).map fun b => a + b := by
  induction l with
  | nil => simp [Prof.xValueL]
  | cons o l ih =>
    simp only [List.cons_append, Prof.xValueL, ih]
    cases o.xValue x <;> cases Prof.xValueL l x <;> cases Prof.xValueL m x <;> simp [add_assoc]

theorem xValueL_terms (p : Prof) (x : ℝ × ℝ) : Prof.xValueL (sumTerms p) x = p.xValue x := by
  cases p with
  | sum l => rfl
  | _ => simp only [sumTerms, Prof.xValueL]; generalize Prof.xValue _ _ = o; cases o <;> simp

theorem kSum_append (l m : List Prof) (k : ℝ × ℝ) :
    Prof.kSum (l ++ m) k = Prof.kSum l k + Prof.kSum m k := by
  induction l with
  | nil => simp [Prof.kSum]
  | cons o l ih => simp only [List.cons_append, Prof.kSum, ih]; ring

theorem kSum_terms (p : Prof) (k : ℝ × ℝ) : Prof.kSum (sumTerms p) k = p.kValue k := by
  cases p with
  | sum l => rfl
  | _ => simp only [sumTerms, Prof.kSum, add_zero]

theorem fluxSum_append (l m : List Prof) : Prof.fluxSum (l ++ m) = Prof.fluxSum l + Prof.fluxSum m := by
  induction l with
  | nil => simp [Prof.fluxSum]
  | cons o l ih => simp only [List.cons_append, Prof.fluxSum, ih]; ring

theorem fluxSum_terms (p : Prof) : Prof.fluxSum (sumTerms p) = p.flux := by
  cases p with
  | sum l => rfl
  | _ => simp only [sumTerms, Prof.fluxSum, add_zero]

theorem pnSum_append (l m : List Prof) : Prof.pnSum (l ++ m) = Prof.pnSum l + Prof.pnSum m := by
  induction l with
  | nil => simp [Prof.pnSum]
  | cons o l ih => simp only [List.cons_append, Prof.pnSum, ih]; ext <;> simp <;> ring

theorem pnSum_terms (p : Prof) : Prof.pnSum (sumTerms p) = p.posneg := by
  cases p with
  | sum l => simp only [sumTerms, Prof.posneg]
  | _ => simp only [sumTerms, Prof.pnSum, add_zero]

end JG
