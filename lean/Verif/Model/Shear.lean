import Verif.Model.Position
import Verif.Model.Angle
import Mathlib.Analysis.SpecialFunctions.Artanh
import Mathlib.Analysis.SpecialFunctions.Complex.Arg
import Mathlib.Analysis.SpecialFunctions.Complex.Log

/-!
Model of `/repo/jax_galsim/shear.py`.  Scalars are exact complex/real numbers; constructors that
raise (eagerly or through `equinox.error_if`) return `none`.  A `Shear` is its attribute `_g`.
-/

namespace JG

open Complex

/-- A `Shear`: shear.py:20, attribute `_g`. -/
structure Shear where
  g : ℂ

namespace Shear

/-- `_g2e`: shear.py:241-242. -/
noncomputable def g2e (absgsq : ℝ) : ℝ := 2 / (1 + absgsq)
/-- `_e2g`: shear.py:244-250. -/
noncomputable def e2g (absesq : ℝ) : ℝ :=
  if absesq > 1/10000 then 1 / (1 + Real.sqrt (1 - absesq))
  else 0.5 + absesq * (0.125 + absesq * (0.0625 + absesq * 0.0390625))
/-- `_g2eta`: shear.py:252-260. -/
noncomputable def g2eta (absg : ℝ) : ℝ :=
  if absg > 1/10000 then 2 * Real.artanh absg / absg
  else 2 + absg * absg * (2/3 + absg * absg * 0.4)
/-- `_eta2g`: shear.py:262-268. -/
noncomputable def eta2g (abseta : ℝ) : ℝ :=
  if abseta > 1/10000 then Real.tanh (0.5 * abseta) / abseta
  else 0.5 + abseta * abseta * (-1/24 + abseta * abseta * (1/240))

/-- `Shear(g1=, g2=)`: shear.py:50-58. -/
noncomputable def ofG (g1 g2 : ℝ) : Option Shear :=
  if ‖(⟨g1, g2⟩ : ℂ)‖ > 1 then none else some ⟨⟨g1, g2⟩⟩
/-- `Shear(e1=, e2=)`: shear.py:61-70. -/
noncomputable def ofE (e1 e2 : ℝ) : Option Shear :=
  if e1 ^ 2 + e2 ^ 2 > 1 then none else some ⟨⟨e1, e2⟩ * (e2g (e1 ^ 2 + e2 ^ 2) : ℂ)⟩
/-- `Shear(eta1=, eta2=)`: shear.py:73-78. -/
noncomputable def ofEta (eta1 eta2 : ℝ) : Option Shear :=
  some ⟨⟨eta1, eta2⟩ * (eta2g ‖(⟨eta1, eta2⟩ : ℂ)‖ : ℂ)⟩
/-- `exp(2j * beta.rad)`. -/
noncomputable def phase (beta : Angle) : ℂ := Complex.exp (2 * I * (beta.rad : ℂ))
/-- `Shear(g=, beta=)`: shear.py:81-97. -/
noncomputable def ofGB (g : ℝ) (beta : Angle) : Option Shear :=
  if g > 1 ∨ g < 0 then none else some ⟨g * phase beta⟩
/-- `Shear(e=, beta=)`: shear.py:100-116. -/
noncomputable def ofEB (e : ℝ) (beta : Angle) : Option Shear :=
  if e > 1 ∨ e < 0 then none else some ⟨(e2g (e ^ 2) : ℂ) * e * phase beta⟩
/-- `Shear(eta=, beta=)`: shear.py:119-135. -/
noncomputable def ofEtaB (eta : ℝ) (beta : Angle) : Option Shear :=
  if eta < 0 then none else some ⟨(eta2g eta : ℂ) * eta * phase beta⟩
/-- `Shear(q=, beta=)`: shear.py:138-155. -/
noncomputable def ofQB (q : ℝ) (beta : Angle) : Option Shear :=
  if q ≤ 0 ∨ q > 1 then none
  else some ⟨(eta2g (-Real.log q) : ℂ) * ((-Real.log q : ℝ) : ℂ) * phase beta⟩

/-- `g1`, `g2`: shear.py:174-182. -/
def g1 (s : Shear) : ℝ := s.g.re
/-- shear.py:179-182. -/
def g2 (s : Shear) : ℝ := s.g.im
/-- `g`: shear.py:184-187. -/
noncomputable def absg (s : Shear) : ℝ := ‖s.g‖
/-- `beta`: shear.py:189-192. -/
noncomputable def beta (s : Shear) : Angle := ⟨0.5 * s.g.arg⟩
/-- `e1`: shear.py:199-202. -/
noncomputable def e1 (s : Shear) : ℝ := s.g.re * g2e (s.absg ^ 2)
/-- `e2`: shear.py:204-207. -/
noncomputable def e2 (s : Shear) : ℝ := s.g.im * g2e (s.absg ^ 2)
/-- `e`: shear.py:209-212. -/
noncomputable def e (s : Shear) : ℝ := s.absg * g2e (s.absg ^ 2)
/-- `eta1`: shear.py:219-222. -/
noncomputable def eta1 (s : Shear) : ℝ := s.g.re * g2eta s.absg
/-- `eta2`: shear.py:224-227. -/
noncomputable def eta2 (s : Shear) : ℝ := s.g.im * g2eta s.absg
/-- `eta`: shear.py:229-232. -/
noncomputable def eta (s : Shear) : ℝ := s.absg * g2eta s.absg
/-- `q`: shear.py:234-237. -/
noncomputable def q (s : Shear) : ℝ := (1 - s.absg) / (1 + s.absg)

/-- `__neg__`: shear.py:271-272. -/
noncomputable def neg (s : Shear) : Shear := ⟨-s.g⟩
/-- `__add__`: shear.py:274-276. -/
noncomputable def add (s t : Shear) : Shear :=
  ⟨(s.g + t.g) / (1 + (starRingEnd ℂ) s.g * t.g)⟩
/-- `__sub__`: shear.py:279-280. -/
noncomputable def sub (s t : Shear) : Shear := s.add t.neg

/-- `getMatrix`: shear.py:288-292. -/
noncomputable def matrix (s : Shear) : Mat2 :=
  let n := Real.sqrt (1 - s.absg ^ 2)
  ⟨(1 + s.g1) / n, s.g2 / n, s.g2 / n, (1 - s.g1) / n⟩

end Shear

/-- Product of 2×2 matrices. -/
noncomputable def Mat2.mul (m n : Mat2) : Mat2 :=
  ⟨m.a * n.a + m.b * n.c, m.a * n.b + m.b * n.d, m.c * n.a + m.d * n.c, m.c * n.b + m.d * n.d⟩
/-- Determinant. -/
noncomputable def Mat2.det (m : Mat2) : ℝ := m.a * m.d - m.b * m.c

/-- `arctan2(y, x)`. -/
noncomputable def arctan2 (y x : ℝ) : ℝ := Complex.arg ⟨x, y⟩

/-- `rotationWith`: shear.py:294-300 (only the first column of the product is formed). -/
noncomputable def Shear.rotationWith (s t : Shear) : Angle :=
  let S3 := s.matrix.app (t.matrix.a, t.matrix.c)
  let R := ((s.add t).neg).matrix.app S3
  ⟨arctan2 R.2 R.1 * radians.value⟩

end JG
