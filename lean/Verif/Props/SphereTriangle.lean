import Verif.Props.Celestial

/-! C69 and C70: angles and areas of spherical triangles, points along great circles. -/

namespace JG

open Real

theorem sin_distanceTo (p q : Coord) :
    0 ≤ sin (p.distanceTo q) ∧ sin (p.distanceTo q) ^ 2 = 1 - (p.xyz.dot q.xyz) ^ 2 := by
  obtain ⟨h, h0, h1⟩ := cos_distanceTo p q
  refine ⟨Real.sin_nonneg_of_nonneg_of_le_pi h0 h1, ?_⟩
  rw [← h]; linarith [Real.sin_sq_add_cos_sq (p.distanceTo q)]

theorem altTriple_eq (p q r : Coord) :
    altTriple p.xyz q.xyz r.xyz = q.xyz.dot r.xyz - p.xyz.dot q.xyz * p.xyz.dot r.xyz := by
  unfold altTriple
  rw [rawDsq_eq, rawDsq_eq, rawDsq_eq]; ring

theorem tripleProd_eq_det (p q r : V3) : tripleProd p q r = q.det p r := rfl

/-- The Gram determinant of three unit vectors. -/
theorem det_sq (p q r : Coord) : (q.xyz.det p.xyz r.xyz) ^ 2 =
    1 - (p.xyz.dot q.xyz) ^ 2 - (p.xyz.dot r.xyz) ^ 2 - (q.xyz.dot r.xyz) ^ 2
      + 2 * p.xyz.dot q.xyz * p.xyz.dot r.xyz * q.xyz.dot r.xyz := by
  have hp := xyz_unit p
  have hq := xyz_unit q
  have hr := xyz_unit r
  have gram : (q.xyz.det p.xyz r.xyz) ^ 2 =
      p.xyz.dot p.xyz * q.xyz.dot q.xyz * r.xyz.dot r.xyz
      - (p.xyz.dot q.xyz) ^ 2 * r.xyz.dot r.xyz - (p.xyz.dot r.xyz) ^ 2 * q.xyz.dot q.xyz
      - (q.xyz.dot r.xyz) ^ 2 * p.xyz.dot p.xyz
      + 2 * p.xyz.dot q.xyz * p.xyz.dot r.xyz * q.xyz.dot r.xyz := by
    simp only [V3.det, V3.dot]; ring
  rw [gram, hp, hq, hr]; ring

/-! ### C69: angles -/

/-- C69: `angleBetween` at `p` from `q` to `r` obeys the spherical law of cosines, and its sine has
the sign of the orientation (`det(q, p, r)`) with the size given by the law of sines; it lies in
`(-π, π]`.  For every triple, degenerate ones included. -/
theorem C69_angle (p q r : Coord) :
    cos (q.distanceTo r) = cos (p.distanceTo q) * cos (p.distanceTo r) +
      sin (p.distanceTo q) * sin (p.distanceTo r) * cos (p.angleBetween q r) ∧
    sin (p.distanceTo q) * sin (p.distanceTo r) * sin (p.angleBetween q r) =
      q.xyz.det p.xyz r.xyz ∧
    -π < p.angleBetween q r ∧ p.angleBetween q r ≤ π := by
  obtain ⟨hs1, hq1⟩ := sin_distanceTo p q
  obtain ⟨hs2, hq2⟩ := sin_distanceTo p r
  have hdet := det_sq p q r
  rw [(cos_distanceTo q r).1, (cos_distanceTo p q).1, (cos_distanceTo p r).1]
  unfold Coord.angleBetween
  rw [altTriple_eq, tripleProd_eq_det]
  refine ⟨?_, ?_, Complex.neg_pi_lt_arg _, Complex.arg_le_pi _⟩ <;>
  · rcases (mul_nonneg hs1 hs2).eq_or_lt with h | h
    · have hz : sin (p.distanceTo q) ^ 2 * sin (p.distanceTo r) ^ 2 = 0 := by
        rw [← mul_pow, ← h]; norm_num
      rw [hq1, hq2] at hz
      have hG : (q.xyz.dot r.xyz - p.xyz.dot q.xyz * p.xyz.dot r.xyz) ^ 2 +
          (q.xyz.det p.xyz r.xyz) ^ 2 = 0 := by rw [hdet]; linarith
      have h1 : q.xyz.dot r.xyz - p.xyz.dot q.xyz * p.xyz.dot r.xyz = 0 := by
        nlinarith [sq_nonneg (q.xyz.dot r.xyz - p.xyz.dot q.xyz * p.xyz.dot r.xyz),
          sq_nonneg (q.xyz.det p.xyz r.xyz)]
      have h2 : q.xyz.det p.xyz r.xyz = 0 := by
        nlinarith [sq_nonneg (q.xyz.dot r.xyz - p.xyz.dot q.xyz * p.xyz.dot r.xyz),
          sq_nonneg (q.xyz.det p.xyz r.xyz)]
      rw [← h]
      linarith
    · have hn : (q.xyz.dot r.xyz - p.xyz.dot q.xyz * p.xyz.dot r.xyz) ^ 2 +
          (q.xyz.det p.xyz r.xyz) ^ 2 = (sin (p.distanceTo q) * sin (p.distanceTo r)) ^ 2 := by
        rw [hdet, mul_pow, hq1, hq2]; ring
      obtain ⟨hc, hsn⟩ := arctan2_trig h hn
      first
        | (rw [hc, mul_div_cancel₀ _ h.ne']; ring)
        | (rw [hsn, mul_div_cancel₀ _ h.ne'])

/-! ### C69: areas -/

/-- The interior angle of the triangle at its first vertex. -/
noncomputable def interiorAngle (p q r : Coord) : ℝ := |p.angleBetween q r|

/-- Spherical excess, the sum of the interior angles less `π`: the area of the triangle. -/
noncomputable def sphericalExcess (p q r : Coord) : ℝ :=
  interiorAngle p q r + interiorAngle q r p + interiorAngle r p q - π

/-- `1 + cos a + cos b + cos c`, positive exactly for triangles of area less than `π`. -/
noncomputable def halfCos (p q r : Coord) : ℝ := 1 + cosSep p q + cosSep p r + cosSep q r

theorem det_cyclic (a b c : V3) : a.det b c = c.det a b := by simp only [V3.det]; ring

theorem interior_trig (p q r : Coord) (h : q.xyz.det p.xyz r.xyz ≠ 0) :
    0 < sin (p.distanceTo q) ∧ 0 < sin (p.distanceTo r) ∧
    sin (p.distanceTo q) * sin (p.distanceTo r) * cos (interiorAngle p q r) =
      q.xyz.dot r.xyz - p.xyz.dot q.xyz * p.xyz.dot r.xyz ∧
    sin (p.distanceTo q) * sin (p.distanceTo r) * sin (interiorAngle p q r) =
      |q.xyz.det p.xyz r.xyz| ∧ 0 < interiorAngle p q r ∧ interiorAngle p q r < π := by
  obtain ⟨hc, hs, hl, hu⟩ := C69_angle p q r
  obtain ⟨hs1, hq1⟩ := sin_distanceTo p q
  obtain ⟨hs2, hq2⟩ := sin_distanceTo p r
  have hne : sin (p.distanceTo q) * sin (p.distanceTo r) * sin (p.angleBetween q r) ≠ 0 := by
    rw [hs]; exact h
  have h1 : 0 < sin (p.distanceTo q) := by
    rcases hs1.eq_or_lt with e | e
    · rw [← e] at hne; simp at hne
    · exact e
  have h2 : 0 < sin (p.distanceTo r) := by
    rcases hs2.eq_or_lt with e | e
    · rw [← e] at hne; simp at hne
    · exact e
  have h3 : sin (p.angleBetween q r) ≠ 0 := right_ne_zero_of_mul hne
  rw [(cos_distanceTo q r).1, (cos_distanceTo p q).1, (cos_distanceTo p r).1] at hc
  have hlt : p.angleBetween q r < π := by
    rcases hu.lt_or_eq with e | e
    · exact e
    · rw [e, Real.sin_pi] at h3; exact absurd rfl h3
  have h0 : p.angleBetween q r ≠ 0 := by
    intro e; rw [e, Real.sin_zero] at h3; exact h3 rfl
  refine ⟨h1, h2, ?_, ?_, abs_pos.mpr h0, abs_lt.mpr ⟨hl, hlt⟩⟩
  · unfold interiorAngle; rw [Real.cos_abs]; linarith
  · unfold interiorAngle
    rw [← hs, abs_mul, abs_of_pos (mul_pos h1 h2)]
    congr 1
    rcases lt_or_gt_of_ne h0 with e | e
    · rw [abs_of_neg e, Real.sin_neg, abs_of_neg (Real.sin_neg_of_neg_of_neg_pi_lt e hl)]
    · rw [abs_of_pos e, abs_of_pos (Real.sin_pos_of_pos_of_lt_pi e hlt)]

theorem excess_algebra {x y z f a b c A B C : ℝ} (ha : 0 < a) (hb : 0 < b) (hc : 0 < c)
    (qa : a ^ 2 = 1 - x ^ 2) (qb : b ^ 2 = 1 - y ^ 2) (qc : c ^ 2 = 1 - z ^ 2)
    (hf : f ^ 2 = 1 - x ^ 2 - y ^ 2 - z ^ 2 + 2 * x * y * z)
    (cA : a * b * cos A = z - x * y) (sA : a * b * sin A = f)
    (cB : c * a * cos B = y - z * x) (sB : c * a * sin B = f)
    (cC : b * c * cos C = x - y * z) (sC : b * c * sin C = f) :
    ((1 + x + y + z) ^ 2 + f ^ 2) * cos (A + B + C - π) = (1 + x + y + z) ^ 2 - f ^ 2 ∧
    ((1 + x + y + z) ^ 2 + f ^ 2) * sin (A + B + C - π) = 2 * (1 + x + y + z) * f := by
  have hK : (1 - x) * (1 - y) * (1 - z) ≠ 0 := by
    intro e
    have h0 : a ^ 2 * b ^ 2 * c ^ 2 = 0 := by
      rw [qa, qb, qc]
      linear_combination (1 + x) * (1 + y) * (1 + z) * e
    have : 0 < a ^ 2 * b ^ 2 * c ^ 2 := by positivity
    linarith
  have hD : (1 + x + y + z) ^ 2 + f ^ 2 = 2 * ((1 + x) * (1 + y) * (1 + z)) := by rw [hf]; ring
  have hK2 : a ^ 2 * b ^ 2 * c ^ 2 = (1 - x) * (1 - y) * (1 - z) * ((1 + x) * (1 + y) * (1 + z)) := by
    rw [qa, qb, qc]; ring
  have hcos : a ^ 2 * b ^ 2 * c ^ 2 * cos (A + B + C) =
      (z - x * y) * (y - z * x) * (x - y * z) - f ^ 2 * ((z - x * y) + (y - z * x) + (x - y * z)) := by
    have e : a ^ 2 * b ^ 2 * c ^ 2 * cos (A + B + C) =
        (a * b * cos A) * (c * a * cos B) * (b * c * cos C)
        - (a * b * sin A) * (c * a * sin B) * (b * c * cos C)
        - (a * b * sin A) * (c * a * cos B) * (b * c * sin C)
        - (a * b * cos A) * (c * a * sin B) * (b * c * sin C) := by
      rw [Real.cos_add, Real.cos_add, Real.sin_add]; ring
    rw [e, cA, cB, cC, sA, sB, sC]; ring
  have hsin : a ^ 2 * b ^ 2 * c ^ 2 * sin (A + B + C) =
      f * ((z - x * y) * (y - z * x) + (z - x * y) * (x - y * z) + (y - z * x) * (x - y * z))
        - f ^ 2 * f := by
    have e : a ^ 2 * b ^ 2 * c ^ 2 * sin (A + B + C) =
        (a * b * sin A) * (c * a * cos B) * (b * c * cos C)
        + (a * b * cos A) * (c * a * sin B) * (b * c * cos C)
        + (a * b * cos A) * (c * a * cos B) * (b * c * sin C)
        - (a * b * sin A) * (c * a * sin B) * (b * c * sin C) := by
      rw [Real.sin_add, Real.sin_add, Real.cos_add]; ring
    rw [e, cA, cB, cC, sA, sB, sC]; ring
  rw [Real.cos_sub_pi, Real.sin_sub_pi, hD]
  rw [hK2] at hcos hsin
  constructor
  · apply mul_left_cancel₀ hK
    rw [hf] at hcos ⊢
    linear_combination -2 * hcos
  · apply mul_left_cancel₀ hK
    rw [hf] at hsin
    linear_combination -2 * hsin

/-- Sine and cosine of the spherical excess. -/
theorem excess_trig (p q r : Coord) (h : q.xyz.det p.xyz r.xyz ≠ 0) :
    let F := q.xyz.det p.xyz r.xyz
    let D := halfCos p q r
    (D ^ 2 + F ^ 2) * cos (sphericalExcess p q r) = D ^ 2 - F ^ 2 ∧
    (D ^ 2 + F ^ 2) * sin (sphericalExcess p q r) = 2 * D * |F| ∧ 0 < D ^ 2 + F ^ 2 ∧
    -π < sphericalExcess p q r ∧ sphericalExcess p q r < 2 * π := by
  intro F D
  have hq : r.xyz.det q.xyz p.xyz = F := (det_cyclic _ _ _).symm
  have hr : p.xyz.det r.xyz q.xyz = F := det_cyclic _ _ _
  obtain ⟨sa, sb, cA, sA, A0, A1⟩ := interior_trig p q r h
  obtain ⟨sc, sa', cB, sB, B0, B1⟩ := interior_trig q r p (by rw [hq]; exact h)
  obtain ⟨sb', sc', cC, sC, C0, C1⟩ := interior_trig r p q (by rw [hr]; exact h)
  rw [C49_symm q p] at cB sB
  rw [C49_symm r p, C49_symm r q] at cC sC
  rw [hq] at sB
  rw [hr] at sC
  rw [dot_comm' r.xyz p.xyz, dot_comm' q.xyz p.xyz] at cB
  rw [dot_comm' r.xyz q.xyz, dot_comm' r.xyz p.xyz] at cC
  have hF2 : |F| ^ 2 = 1 - (p.xyz.dot q.xyz) ^ 2 - (p.xyz.dot r.xyz) ^ 2 - (q.xyz.dot r.xyz) ^ 2
      + 2 * p.xyz.dot q.xyz * p.xyz.dot r.xyz * q.xyz.dot r.xyz := by
    rw [sq_abs]; exact det_sq p q r
  have hD : D = 1 + p.xyz.dot q.xyz + p.xyz.dot r.xyz + q.xyz.dot r.xyz := by
    rw [dot_eq_cosSep, dot_eq_cosSep, dot_eq_cosSep]; rfl
  have q1 := (sin_distanceTo p q).2
  have q2 := (sin_distanceTo p r).2
  have q3 := (sin_distanceTo q r).2
  have hsq : F ^ 2 = |F| ^ 2 := (sq_abs F).symm
  have hFpos : 0 < |F| := abs_pos.mpr h
  obtain ⟨k1, k2⟩ := excess_algebra sa sb sc q1 q2 q3 hF2 cA sA cB sB cC sC
  rw [hsq, hD]
  refine ⟨k1, k2, by positivity, ?_, ?_⟩ <;> unfold sphericalExcess <;> linarith

theorem den_eq (p q r : Coord) :
    0.25 * (4 - rawDsq p.xyz q.xyz) * (4 - rawDsq p.xyz r.xyz) + altTriple p.xyz q.xyz r.xyz =
      halfCos p q r := by
  rw [altTriple_eq, rawDsq_eq, rawDsq_eq, dot_eq_cosSep, dot_eq_cosSep, dot_eq_cosSep]
  unfold halfCos; ring

theorem two_arctan_trig (F D : ℝ) (hD : D ≠ 0) :
    (D ^ 2 + F ^ 2) * cos (2 * arctan |F / D|) = D ^ 2 - F ^ 2 ∧
    (D ^ 2 + F ^ 2) * sin (2 * arctan |F / D|) = 2 * |D| * |F| ∧
    0 ≤ 2 * arctan |F / D| ∧ 2 * arctan |F / D| < π := by
  have hD2 : 0 < |D| := abs_pos.mpr hD
  have hs : √(1 + |F / D| ^ 2) ^ 2 = 1 + |F / D| ^ 2 := Real.sq_sqrt (by positivity)
  have hsp : 0 < √(1 + |F / D| ^ 2) := Real.sqrt_pos.mpr (by positivity)
  have hd : |D| ^ 2 = D ^ 2 := sq_abs D
  have hf : |F| ^ 2 = F ^ 2 := sq_abs F
  have habs : |F / D| = |F| / |D| := abs_div F D
  have hc : cos (arctan |F / D|) ^ 2 = D ^ 2 / (D ^ 2 + F ^ 2) := by
    rw [Real.cos_arctan, div_pow, hs, habs, div_pow, hd, hf]
    field_simp
  have hpos : 0 < D ^ 2 + F ^ 2 := by positivity
  have htan : sin (arctan |F / D|) = |F / D| * cos (arctan |F / D|) := by
    have hcp := Real.cos_arctan_pos |F / D|
    have := Real.tan_arctan |F / D|
    rw [Real.tan_eq_sin_div_cos, div_eq_iff hcp.ne'] at this
    exact this
  refine ⟨?_, ?_, ?_, ?_⟩
  · rw [Real.cos_two_mul, hc]; field_simp; ring
  · rw [Real.sin_two_mul, htan]
    have : 2 * (|F / D| * cos (arctan |F / D|)) * cos (arctan |F / D|) =
        2 * |F / D| * cos (arctan |F / D|) ^ 2 := by ring
    rw [this, hc, habs, ← hd]
    field_simp
  · have := Real.arctan_nonneg.mpr (abs_nonneg (F / D))
    linarith
  · have := Real.arctan_lt_pi_div_two |F / D|
    linarith

theorem area_eq (p q r : Coord) (hD : halfCos p q r ≠ 0) :
    p.area q r = 2 * arctan |q.xyz.det p.xyz r.xyz / halfCos p q r| := by
  have hden := den_eq p q r
  unfold Coord.area
  simp only
  rw [if_neg (by rw [hden]; exact hD), hden, tripleProd_eq_det]

/-- C69: `area` is the spherical excess for every non-degenerate triangle of area less than `π`
(`1 + cos a + cos b + cos c > 0`).  Missing: larger triangles, for which the claim is false. -/
theorem C69_area_partial (p q r : Coord) (h : q.xyz.det p.xyz r.xyz ≠ 0) (hD : 0 < halfCos p q r) :
    p.area q r = sphericalExcess p q r := by
  obtain ⟨c1, s1, hpos, hl, hu⟩ := excess_trig p q r h
  obtain ⟨c2, s2, h0, h1⟩ := two_arctan_trig (q.xyz.det p.xyz r.xyz) (halfCos p q r) hD.ne'
  rw [area_eq p q r hD.ne']
  rw [abs_of_pos hD] at s2
  obtain ⟨n, hn⟩ := angle_eq_of_trig (mul_left_cancel₀ hpos.ne' (c1.trans c2.symm))
    (mul_left_cancel₀ hpos.ne' (s1.trans s2.symm))
  have hpi := Real.pi_pos
  have e1 : (n : ℝ) * (2 * π) < 1 * (2 * π) := by linarith
  have e2 : (-1 : ℝ) * (2 * π) < n * (2 * π) := by linarith
  have e1' : n < 1 := by exact_mod_cast lt_of_mul_lt_mul_right e1 (by positivity)
  have e2' : -1 < n := by exact_mod_cast lt_of_mul_lt_mul_right e2 (by positivity)
  have : n = 0 := by omega
  rw [this] at hn
  push_cast at hn
  linarith

/-- C69: `area` does not depend on the order of the vertices, and lies in `[0, π]`. -/
theorem C69_area_symm (p q r : Coord) :
    p.area q r = q.area r p ∧ p.area q r = p.area r q ∧ 0 ≤ p.area q r ∧ p.area q r ≤ π := by
  have hs : ∀ a b : Coord, cosSep a b = cosSep b a := fun a b => by
    rw [← dot_eq_cosSep, ← dot_eq_cosSep, dot_comm']
  have h1 : halfCos q r p = halfCos p q r := by
    unfold halfCos; rw [hs q p, hs r p]; ring
  have h2 : halfCos p r q = halfCos p q r := by
    unfold halfCos; rw [hs r q]; ring
  have hpi := Real.pi_pos
  by_cases hD : halfCos p q r = 0
  · have : ∀ a b c : Coord, halfCos a b c = 0 → a.area b c = π := by
      intro a b c h
      unfold Coord.area
      simp only
      rw [if_pos (by rw [den_eq]; exact h)]
    rw [this _ _ _ hD, this _ _ _ (h1.trans hD), this _ _ _ (h2.trans hD)]
    exact ⟨rfl, rfl, hpi.le, le_refl _⟩
  · have b := two_arctan_trig (q.xyz.det p.xyz r.xyz) (halfCos p q r) hD
    rw [area_eq p q r hD, area_eq q r p (by rw [h1]; exact hD), area_eq p r q (by rw [h2]; exact hD),
      h1, h2]
    refine ⟨?_, ?_, b.2.2.1, b.2.2.2.le⟩
    · rw [det_cyclic q.xyz p.xyz r.xyz]
    · have : r.xyz.det p.xyz q.xyz = -q.xyz.det p.xyz r.xyz := by simp only [V3.det]; ring
      rw [this, neg_div, abs_neg]

/-- Disagreement: for a triangle of area greater than `π`, `area` returns `2π` less the area (up to
full turns), never the area: `arctan |F / D|` loses the sign of `D`. -/
theorem C69_counterexample_large (p q r : Coord) (h : q.xyz.det p.xyz r.xyz ≠ 0)
    (hD : halfCos p q r < 0) : p.area q r ≠ sphericalExcess p q r ∧
      ∃ n : ℤ, p.area q r = -sphericalExcess p q r + n * (2 * π) := by
  obtain ⟨c1, s1, hpos, hl, hu⟩ := excess_trig p q r h
  obtain ⟨c2, s2, h0, h1⟩ := two_arctan_trig (q.xyz.det p.xyz r.xyz) (halfCos p q r) hD.ne
  rw [area_eq p q r hD.ne]
  rw [abs_of_neg hD] at s2
  constructor
  · intro e
    rw [e] at s2
    have : 2 * halfCos p q r * |q.xyz.det p.xyz r.xyz| = 2 * -halfCos p q r * |q.xyz.det p.xyz r.xyz| :=
      s1.symm.trans s2
    have hf : 0 < |q.xyz.det p.xyz r.xyz| := abs_pos.mpr h
    nlinarith
  · refine angle_eq_of_trig (mul_left_cancel₀ hpos.ne' ?_) (mul_left_cancel₀ hpos.ne' ?_)
    · rw [Real.cos_neg]; exact c2.trans c1.symm
    · rw [Real.sin_neg]; linarith

/-- Such triangles exist: two points on the equator a quarter turn apart and one opposite them. -/
example : ∃ p q r : Coord, q.xyz.det p.xyz r.xyz ≠ 0 ∧ halfCos p q r < 0 := by
  refine ⟨⟨0, 0⟩, ⟨π / 2, 0⟩, ⟨π + π / 4, π / 6⟩, ?_, ?_⟩
  · simp [V3.det, Coord.xyz]
  · have h2 : √(2:ℝ) ^ 2 = 2 := Real.sq_sqrt (by norm_num)
    have h3 : √(3:ℝ) ^ 2 = 3 := Real.sq_sqrt (by norm_num)
    have p2 : 0 < √(2:ℝ) := by positivity
    have p3 : 0 < √(3:ℝ) := by positivity
    have e1 : π / 2 - (π + π / 4) = -(π / 2 + π / 4) := by ring
    simp only [halfCos, cosSep, Real.sin_zero, Real.cos_zero, zero_sub, Real.cos_neg, e1,
      Real.cos_pi_div_two, Real.cos_pi_div_six, zero_mul, zero_add, one_mul, mul_zero, add_zero]
    rw [show π + π / 4 = π / 4 + π by ring, Real.cos_add_pi, show π / 2 + π / 4 = π / 4 + π / 2 by ring,
      Real.cos_add_pi_div_two, Real.cos_pi_div_four, Real.sin_pi_div_four]
    have : 2 < √2 * √3 := by
      by_contra hcon
      push Not at hcon
      have h6 : (√2 * √3) ^ 2 = 6 := by rw [mul_pow, h2, h3]; norm_num
      nlinarith [mul_pos p2 p3]
    nlinarith

/-- An octant has three right angles and area `π / 2`. -/
example : Coord.area ⟨0, 0⟩ ⟨π / 2, 0⟩ ⟨0, π / 2⟩ = π / 2 := by
  have h : halfCos ⟨0, 0⟩ ⟨π / 2, 0⟩ ⟨0, π / 2⟩ = 1 := by simp [halfCos, cosSep]
  rw [area_eq _ _ _ (by rw [h]; norm_num), h]
  have : |V3.det (Coord.mk (π / 2) 0).xyz (Coord.mk 0 0).xyz (Coord.mk 0 (π / 2)).xyz / 1| = 1 := by
    simp [V3.det, Coord.xyz]
  rw [this, Real.arctan_one]; ring

/-! ### C70: great circles -/

/-- C70: `greatCirclePoint(q, theta)` fails exactly if `q` is `p` or its antipode.  Otherwise it is
the point of the great circle through `p` and `q` (its vector is in their plane) reached by turning
`theta` towards `q`: it is at distance `theta` for `theta ∈ [0, π]`, on the side of `q`, and for
`theta = distanceTo q` it is `q`. -/
theorem C70_greatCircle (p q : Coord) (hq : q.Valid) :
    (∀ t, p.greatCirclePoint q t = none ↔ (p.distanceTo q = 0 ∨ p.distanceTo q = π)) ∧
    (∀ t r, p.greatCirclePoint q t = some r →
      p.xyz.det q.xyz r.xyz = 0 ∧ p.xyz.dot r.xyz = cos t ∧
      sin (p.distanceTo q) * q.xyz.dot r.xyz =
        sin (p.distanceTo q) * cos (p.distanceTo q - t) ∧
      (0 ≤ t → t ≤ π → p.distanceTo r = t)) ∧
    (∀ r, p.greatCirclePoint q (p.distanceTo q) = some r → SamePoint r q) := by
  obtain ⟨hcd, hd0, hd1⟩ := cos_distanceTo p q
  obtain ⟨hs0, hs2⟩ := sin_distanceTo p q
  have hp := xyz_unit p
  have hqu := xyz_unit q
  have hdsq := rawDsq_eq p q
  obtain ⟨d, hd⟩ : ∃ d, d = p.distanceTo q := ⟨_, rfl⟩
  rw [← hd] at hcd hd0 hd1 hs0 hs2 ⊢
  rw [← hcd] at hs2 hdsq
  simp only [V3.dot] at hcd hp hqu
  have hw : ∀ t, p.greatCirclePoint q t = if sin d = 0 then none else
      fromXYZ ⟨p.xyz.x * cos t + (q.xyz.x - p.xyz.x * cos d) / sin d * sin t,
        p.xyz.y * cos t + (q.xyz.y - p.xyz.y * cos d) / sin d * sin t,
        p.xyz.z * cos t + (q.xyz.z - p.xyz.z * cos d) / sin d * sin t⟩ := by
    intro t
    unfold Coord.greatCirclePoint
    simp only
    rw [hdsq]
    have ex : ∀ a b : ℝ, a - b + b * (2 - 2 * cos d) / 2 = a - b * cos d := by intro a b; ring
    rw [ex, ex, ex]
    have en : (q.xyz.x - p.xyz.x * cos d) ^ 2 + (q.xyz.y - p.xyz.y * cos d) ^ 2 +
        (q.xyz.z - p.xyz.z * cos d) ^ 2 = sin d ^ 2 := by
      rw [hs2]
      linear_combination hqu + (cos d) ^ 2 * hp + 2 * cos d * hcd
    rw [en, Real.sqrt_sq hs0]
  have hsin : sin d = 0 ↔ (d = 0 ∨ d = π) := by
    constructor
    · intro e
      rcases hd0.eq_or_lt with h | h
      · exact Or.inl h.symm
      · rcases hd1.eq_or_lt with h' | h'
        · exact Or.inr h'
        · exact absurd e (Real.sin_pos_of_pos_of_lt_pi h h').ne'
    · rintro (e | e) <;> rw [e] <;> simp
  -- the point reached
  have hpt : ∀ t, sin d ≠ 0 → ∃ r, p.greatCirclePoint q t = some r ∧ r.Valid ∧
      r.xyz = ⟨p.xyz.x * cos t + (q.xyz.x - p.xyz.x * cos d) / sin d * sin t,
        p.xyz.y * cos t + (q.xyz.y - p.xyz.y * cos d) / sin d * sin t,
        p.xyz.z * cos t + (q.xyz.z - p.xyz.z * cos d) / sin d * sin t⟩ := by
    intro t hne
    obtain ⟨r, hr, hx, -, -, h3, h4⟩ := fromXYZ_unit
      ⟨p.xyz.x * cos t + (q.xyz.x - p.xyz.x * cos d) / sin d * sin t,
        p.xyz.y * cos t + (q.xyz.y - p.xyz.y * cos d) / sin d * sin t,
        p.xyz.z * cos t + (q.xyz.z - p.xyz.z * cos d) / sin d * sin t⟩
      (by
        have ht := Real.sin_sq_add_cos_sq t
        simp only [V3.dot]
        field_simp
        linear_combination (cos t * sin d - cos d * sin t) ^ 2 * hp + sin t ^ 2 * hqu
          - 2 * (cos t * sin d - cos d * sin t) * sin t * hcd + sin d ^ 2 * ht - sin t ^ 2 * hs2)
    exact ⟨r, by rw [hw, if_neg hne, hr], ⟨h3, h4⟩, hx⟩
  refine ⟨?_, ?_, ?_⟩
  · intro t
    rw [← hsin]
    constructor
    · intro h
      by_contra hne
      obtain ⟨r, hr, -⟩ := hpt t hne
      rw [h] at hr
      exact nomatch hr
    · intro h; rw [hw, if_pos h]
  · intro t r hr
    have hne : sin d ≠ 0 := by
      intro e; rw [hw, if_pos e] at hr; exact nomatch hr
    obtain ⟨r', hr', -, hx⟩ := hpt t hne
    rw [hr'] at hr
    obtain rfl : r' = r := Option.some.inj hr
    have h2 : p.xyz.dot r'.xyz = cos t := by
      rw [hx]
      simp only [V3.dot]
      field_simp
      linear_combination (cos t * sin d - sin t * cos d) * hp - sin t * hcd
    refine ⟨?_, h2, ?_, ?_⟩
    · rw [hx]
      simp only [V3.det]
      field_simp
      ring
    · rw [hx, Real.cos_sub]
      simp only [V3.dot]
      field_simp
      linear_combination sin t * hqu - (cos t * sin d - sin t * cos d) * hcd - sin t * hs2
    · intro h0 h1
      rw [distanceTo_eq_arccos, h2, Real.arccos_cos h0 h1]
  · intro r hr
    have hne : sin d ≠ 0 := by
      intro e; rw [hw, if_pos e] at hr; exact nomatch hr
    obtain ⟨r', hr', hv, hx⟩ := hpt d hne
    rw [hr'] at hr
    obtain rfl : r' = r := Option.some.inj hr
    refine (samePoint_iff hv hq).mpr ?_
    rw [hx]
    apply V3.ext <;> simp only <;> field_simp <;> ring

/-- A concrete case: half way from the equator to the pole. -/
example : ∃ r, Coord.greatCirclePoint ⟨0, 0⟩ ⟨0, π / 2⟩ (π / 4) = some r ∧
    Coord.distanceTo ⟨0, 0⟩ r = π / 4 := by
  have hpi := Real.pi_pos
  have hq : (⟨0, π / 2⟩ : Coord).Valid := ⟨by simp only; linarith, le_refl _⟩
  obtain ⟨h1, h2, -⟩ := C70_greatCircle ⟨0, 0⟩ ⟨0, π / 2⟩ hq
  have hd : Coord.distanceTo ⟨0, 0⟩ ⟨0, π / 2⟩ = π / 2 :=
    ((C49_cosine ⟨0, 0⟩ ⟨0, π / 2⟩).2.2.2 (π / 2) (by positivity) (by linarith) (by simp [cosSep])).symm
  cases h : Coord.greatCirclePoint ⟨0, 0⟩ ⟨0, π / 2⟩ (π / 4) with
  | none =>
    exfalso
    rw [h1, hd] at h
    rcases h with h | h <;> linarith
  | some r => exact ⟨r, rfl, (h2 _ r h).2.2.2 (by positivity) (by linarith)⟩

end JG
