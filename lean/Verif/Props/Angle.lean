import Verif.Lemmas.Dms

/-! Properties C08 and C09: angles. -/

namespace JG

open Real

/-! ### C08 -/

/-- C08: the wrapped angle lies in `[center - π, center + π)` and differs from the original by a
whole number of turns. -/
theorem C08_wrap_range (a c : Angle) :
    c.rad - π ≤ (a.wrap c).rad ∧ (a.wrap c).rad < c.rad + π ∧
      ∃ n : ℤ, a.rad = (a.wrap c).rad + n * (2 * π) := by
  have hpi : 0 < 2 * π := by positivity
  simp only [Angle.wrap]
  set t := (a.rad - (c.rad - π)) / (2 * π) with ht
  have e : a.rad - (c.rad - π) = t * (2 * π) := by rw [ht]; field_simp
  have h1 := Int.floor_le t
  have h2 := Int.lt_floor_add_one t
  refine ⟨?_, ?_, ⌊t⌋, by ring⟩
  · nlinarith
  · nlinarith

/-- C08: it is the only angle in that range congruent to the original; hence wrapping depends only
on the angle modulo a turn. -/
theorem C08_wrap_unique (a c : Angle) (r : ℝ) (n : ℤ) (h1 : c.rad - π ≤ r) (h2 : r < c.rad + π)
    (h : a.rad = r + n * (2 * π)) : (a.wrap c).rad = r := by
  have hpi : 0 < 2 * π := by positivity
  obtain ⟨g1, g2, m, g⟩ := C08_wrap_range a c
  have e : ((m - n : ℤ) : ℝ) * (2 * π) = r - (a.wrap c).rad := by push_cast; linarith
  have l1 : ((m - n : ℤ) : ℝ) < 1 := by
    by_contra hc
    push Not at hc
    nlinarith
  have l2 : (-1 : ℝ) < ((m - n : ℤ) : ℝ) := by
    by_contra hc
    push Not at hc
    nlinarith
  have l3 : m - n < 1 := by exact_mod_cast l1
  have l4 : -1 < m - n := by exact_mod_cast l2
  have : m - n = 0 := by omega
  rw [this] at e
  simp at e
  linarith

/-- C08: unchanged if already in range; idempotent; invariant under whole turns. -/
theorem C08_wrap_fixed (a c : Angle) :
    (c.rad - π ≤ a.rad → a.rad < c.rad + π → a.wrap c = a) ∧
    (a.wrap c).wrap c = a.wrap c ∧
    (∀ n : ℤ, (Angle.mk (a.rad + n * (2 * π))).wrap c = a.wrap c) := by
  have ext : ∀ x y : Angle, x.rad = y.rad → x = y := by intro x y h; cases x; cases y; simp_all
  obtain ⟨g1, g2, m, g⟩ := C08_wrap_range a c
  refine ⟨?_, ?_, ?_⟩
  · intro h1 h2
    exact ext _ _ (C08_wrap_unique a c a.rad 0 h1 h2 (by simp))
  · exact ext _ _ (C08_wrap_unique _ c _ 0 g1 g2 (by simp))
  · intro n
    apply ext
    apply C08_wrap_unique _ c _ (m + n) g1 g2
    simp only
    push_cast
    linarith

/-- C08: wrapping changes neither sine nor cosine. -/
theorem C08_wrap_trig (a c : Angle) : Real.sin (a.wrap c).rad = Real.sin a.rad ∧
    Real.cos (a.wrap c).rad = Real.cos a.rad := by
  obtain ⟨_, _, n, g⟩ := C08_wrap_range a c
  rw [g, Real.sin_add_int_mul_two_pi, Real.cos_add_int_mul_two_pi]
  exact ⟨rfl, rfl⟩

/-- C08: units: making an angle in a unit and dividing by that unit gives back the number; the
unit ratios are as documented (60 arcmin per degree, 3600 arcsec, 15 degrees per hour). -/
theorem C08_units (x : ℝ) (u v : AngleUnit) (hu : u.value ≠ 0) :
    (mkAngle x u).divU u = x ∧ (mkAngle x u).divU v = x * u.div v ∧
    degrees.div arcmin = 60 ∧ degrees.div arcsec = 3600 ∧ hours.div degrees = 15 ∧
    (mkAngle 180 degrees).rad = π := by
  have hp : π ≠ 0 := Real.pi_ne_zero
  refine ⟨?_, ?_, ?_, ?_, ?_, ?_⟩
  · simp only [mkAngle, Angle.divU]; field_simp
  · simp only [mkAngle, Angle.divU, AngleUnit.div]; ring
  · simp only [AngleUnit.div, degrees, arcmin]; field_simp; norm_num
  · simp only [AngleUnit.div, degrees, arcsec]; field_simp; norm_num
  · simp only [AngleUnit.div, degrees, hours]; field_simp; norm_num
  · simp only [mkAngle, degrees]; ring

example : ((Angle.mk (7 * π / 2)).wrap).rad = -(π/2) := by
  apply C08_wrap_unique _ _ _ 2
  · simp; linarith [Real.pi_pos]
  · simp; linarith [Real.pi_pos]
  · simp; ring

/-! ### C09 -/

/-- Specification: the number denoted by a sign and a count of units of the last digit. -/
noncomputable def dmsValue (x : ℝ) (p : ℕ) : ℚ :=
  (if x < 0 then -1 else 1) * (dmsRound x p : ℚ) / (3600 * 10 ^ p)

/-- C09: the printed number is within half a unit of the last printed digit of the true one. -/
theorem C09_rounding (x : ℝ) (p : ℕ) : |((dmsValue x p : ℚ) : ℝ) - x| ≤ 1 / 2 / (3600 * 10 ^ p) := by
  have hD : (0:ℝ) < 3600 * 10 ^ p := by positivity
  have key : |(dmsRound x p : ℝ) - 3600 * 10 ^ p * (abs x)| ≤ 1/2 := by
    unfold dmsRound
    have h0 : 0 ≤ 3600 * (10:ℝ) ^ p * |x| + 1/2 := by positivity
    have h1 := Nat.floor_le h0
    have h2 := Nat.lt_floor_add_one (3600 * (10:ℝ) ^ p * |x| + 1/2)
    rw [abs_le]
    constructor <;> linarith
  have e : (((dmsValue x p : ℚ) : ℝ) - x) * (3600 * 10 ^ p)
      = (if x < 0 then -1 else 1) * ((dmsRound x p : ℝ) - 3600 * 10 ^ p * |x|) := by
    unfold dmsValue
    split
    · rename_i h
      rw [abs_of_neg h]; push_cast; field_simp; ring
    · rename_i h
      rw [abs_of_nonneg (not_lt.mp h)]; push_cast; field_simp
  have e2 : |((dmsValue x p : ℚ) : ℝ) - x| * (3600 * 10 ^ p)
      = |(dmsRound x p : ℝ) - 3600 * 10 ^ p * (abs x)| := by
    have := congrArg abs e
    rw [abs_mul _ (3600 * (10:ℝ) ^ p), abs_of_pos hD, abs_mul] at this
    rw [this]
    split <;> simp
  rw [le_div_iff₀ hD, e2]
  exact key

/-- C09: the printed minutes and seconds are below 60, the fraction has `p` digits, and together they
make up the rounded number exactly. -/
theorem C09_components (n p : ℕ) :
    let c := dmsParts n p
    c.2.1 < 60 ∧ c.2.2.1 < 60 ∧ c.2.2.2 < 10 ^ p ∧
      (n : ℚ) / (3600 * 10 ^ p) = c.1 + c.2.1 / 60 + (c.2.2.1 + c.2.2.2 / 10 ^ p) / 3600 := by
  intro c
  obtain ⟨h, h1, h2, h3⟩ := dmsParts_spec n p
  refine ⟨h1, h2, h3, ?_⟩
  have : (n : ℚ) = c.1 * (3600 * 10 ^ p) + c.2.1 * (60 * 10 ^ p) + c.2.2.1 * 10 ^ p + c.2.2.2 := by
    exact_mod_cast h
  rw [this]
  have hD : (10:ℚ) ^ p ≠ 0 := by positivity
  field_simp
  ring

/-- C09: with a precision `p` the seconds are printed with exactly `p` decimal digits, and without a dot
when `p` is zero. -/
theorem C09_digits (sg s1 s2 s3 : List Char) (n p : ℕ) (pad : Bool) :
    ∃ pre S, S ≠ [] ∧ (∀ c ∈ S, c.isDigit = true) ∧
      (p = 0 → dmsFormat sg n s1 s2 s3 (some p) pad = pre ++ S ++ s3) ∧
      (p ≠ 0 → ∃ F, F.length = p ∧ (∀ c ∈ F, c.isDigit = true) ∧
        dmsFormat sg n s1 s2 s3 (some p) pad = pre ++ S ++ ['.'] ++ F ++ s3) := by
  obtain ⟨_, _, hfr, _⟩ := C09_components n p
  obtain ⟨Sne, Sd, _⟩ := compStr_props pad (dmsParts n p).2.2.1
  refine ⟨sg ++ compStr pad (dmsParts n p).1 ++ s1 ++ compStr pad (dmsParts n p).2.1 ++ s2,
    compStr pad (dmsParts n p).2.2.1, Sne, Sd, ?_, ?_⟩
  · rintro rfl
    have h0 : (dmsParts n 0).2.2.2 = 0 := by simpa using hfr
    have hp : padStr 0 0 = ['0'] := by simp [padStr, decStr]
    obtain ⟨s0, sl, hs⟩ : ∃ s0 sl, compStr pad (dmsParts n 0).2.2.1 = s0 ++ [sl] :=
      ⟨_, _, (List.dropLast_append_getLast Sne).symm⟩
    have hsl : sl.isDigit = true := Sd sl (by rw [hs]; simp)
    simp only [dmsFormat, Option.getD_some, h0, hp, hs, dmsStrip, or_true, if_true]
    generalize sg ++ compStr pad (dmsParts n 0).1 ++ s1 ++ compStr pad (dmsParts n 0).2.1 ++ s2 = pre
    have e1 : pre ++ (s0 ++ [sl]) ++ ['.'] ++ ['0'] = (pre ++ (s0 ++ [sl])) ++ '.' :: ['0'] := by simp
    rw [e1, rdropWhile_append_last _ _ _ _ (by decide)]
    have e2 : List.rdropWhile (fun x => x == '0') ['0'] = [] := by decide
    rw [e2, List.rdropWhile_concat_pos _ _ _ (by decide)]
    have e3 : pre ++ (s0 ++ [sl]) = (pre ++ s0) ++ sl :: [] := by simp
    rw [e3, rdropWhile_append_last (fun x => x == '.') _ _ _ (isDigit_ne_dot hsl)]
    simp
  · intro hp
    refine ⟨padStr p (dmsParts n p).2.2.2, padStr_length _ _ (Nat.one_le_iff_ne_zero.2 hp) hfr,
      padStr_digit _ _, ?_⟩
    simp [dmsFormat, dmsStrip, hp]

/-- Separators usable for parsing back: non-empty first two, and no digit or dot anywhere. -/
structure GoodSeps (s1 s2 s3 : List Char) : Prop where
  ne1 : s1 ≠ []
  ne2 : s2 ≠ []
  c1 : ∀ c ∈ s1, isTok c = false
  c2 : ∀ c ∈ s2, isTok c = false
  c3 : ∀ c ∈ s3, isTok c = false

theorem parse_format (neg plus : Bool) (n : ℕ) (s1 s2 s3 : List Char) (prec : Option ℕ) (pad : Bool)
    (hs : GoodSeps s1 s2 s3) :
    parseDms (dmsFormat (if neg then ['-'] else if plus then ['+'] else []) n s1 s2 s3 prec pad)
      = some ((if neg then -1 else 1) * (n : ℚ) / (3600 * 10 ^ (prec.getD 8))) := by
  set p := prec.getD 8 with hp
  obtain ⟨hm, hsec, hfr, hval⟩ := C09_components n p
  set c := dmsParts n p with hc
  obtain ⟨Dne, Dd, Dv⟩ := compStr_props pad c.1
  obtain ⟨Mne, Md, Mv⟩ := compStr_props pad c.2.1
  obtain ⟨Sne, Sd, Sv⟩ := compStr_props pad c.2.2.1
  set D := compStr pad c.1
  set M := compStr pad c.2.1
  set S := compStr pad c.2.2.1
  have hF := padStr_digit p c.2.2.2
  have hFv := padStr_val p c.2.2.2
  -- value of the fraction
  have hfrac : (digitsVal (padStr p c.2.2.2) : ℚ) / 10 ^ (padStr p c.2.2.2).length
      = (c.2.2.2 : ℚ) / 10 ^ p := by
    rw [hFv]
    by_cases h1 : 1 ≤ p
    · rw [padStr_length _ _ h1 hfr]
    · have : c.2.2.2 = 0 := by
        have h0 : p = 0 := by omega
        rw [h0] at hfr; simpa using hfr
      rw [this]; simp
  set sg : List Char := if neg then ['-'] else if plus then ['+'] else [] with hsg
  obtain ⟨T, t0, tl, hstrip, Tne, Tt, hTl, hTv⟩ :=
    dmsStrip_spec prec (sg ++ D ++ s1 ++ M ++ s2) S (padStr p c.2.2.2) Sne Sd hF
  have hstr : dmsFormat sg n s1 s2 s3 prec pad = sg ++ D ++ s1 ++ M ++ s2 ++ T ++ s3 := by
    simp only [dmsFormat]
    rw [← hp, ← hc]
    change dmsStrip prec (sg ++ D ++ s1 ++ M ++ s2 ++ S ++ ['.'] ++ padStr p c.2.2.2) ++ s3 = _
    rw [hstrip]
  rw [hstr]
  -- strip
  have htl : isTok tl = true := Tt tl (by rw [hTl]; simp)
  set s3' := s3.rdropWhile Char.isWhitespace with hs3'
  have hs3t : ∀ c ∈ s3', isTok c = false := fun c hc' => hs.c3 c (rdropWhile_sub _ _ c hc')
  have hpy : pyStrip (sg ++ D ++ s1 ++ M ++ s2 ++ T ++ s3) = sg ++ D ++ s1 ++ M ++ s2 ++ T ++ s3' := by
    have hd : (sg ++ D ++ s1 ++ M ++ s2 ++ T ++ s3).dropWhile Char.isWhitespace
        = sg ++ D ++ s1 ++ M ++ s2 ++ T ++ s3 := by
      have : ∃ x xs, sg ++ D ++ s1 ++ M ++ s2 ++ T ++ s3 = x :: xs ∧ x.isWhitespace = false := by
        obtain ⟨d0, ds, hD⟩ := List.exists_cons_of_ne_nil Dne
        by_cases h1 : neg = true
        · refine ⟨'-', _, by simp [hsg, h1]; rfl, by decide⟩
        · by_cases h2 : plus = true
          · refine ⟨'+', _, by simp [hsg, h1, h2]; rfl, by decide⟩
          · refine ⟨d0, _, by simp [hsg, h1, h2, hD]; rfl, ?_⟩
            exact isTok_not_ws (isDigit_isTok (Dd d0 (by rw [hD]; simp)))
      obtain ⟨x, xs, hx, hw⟩ := this
      rw [hx, List.dropWhile_cons_of_neg (by simp [hw])]
    rw [pyStrip, hd, hTl]
    have e : sg ++ D ++ s1 ++ M ++ s2 ++ (t0 ++ [tl]) ++ s3
        = (sg ++ D ++ s1 ++ M ++ s2 ++ t0) ++ tl :: s3 := by simp
    rw [e, rdropWhile_append_last _ _ _ _ (isTok_not_ws htl)]
    simp [hs3']
  -- tokens of the unsigned part
  have headTok : ∀ (l r : List Char) (b : Bool), l ≠ [] → (∀ c ∈ l, isTok c = b) →
      ∀ c cs, l ++ r = c :: cs → isTok c ≠ !b := by
    intro l r b hne hl c cs hcs
    obtain ⟨x, xs, hx⟩ := List.exists_cons_of_ne_nil hne
    rw [hx] at hcs
    simp at hcs
    rw [← hcs.1, hl x (by rw [hx]; simp)]
    cases b <;> simp
  have hDt : ∀ c ∈ D, isTok c = true := fun c h => isDigit_isTok (Dd c h)
  have hMt : ∀ c ∈ M, isTok c = true := fun c h => isDigit_isTok (Md c h)
  have tok : tokens (D ++ (s1 ++ (M ++ (s2 ++ (T ++ s3'))))) =
      D :: s1 :: M :: s2 :: T :: tokens s3' := by
    rw [tokens_run true D _ Dne hDt (headTok s1 _ false hs.ne1 hs.c1),
      tokens_run false s1 _ hs.ne1 hs.c1 (headTok M _ true Mne hMt),
      tokens_run true M _ Mne hMt (headTok s2 _ false hs.ne2 hs.c2),
      tokens_run false s2 _ hs.ne2 hs.c2 (headTok T _ true Tne Tt),
      tokens_run true T _ Tne Tt]
    intro x xs hx
    rw [hs3t x (by rw [hx]; simp)]
    simp
  have tok3 : tokens s3' = [] ∨ ∃ g, tokens s3' = [g] := by
    by_cases h : s3' = []
    · left; rw [h]; rfl
    · right
      have := tokens_run false s3' [] h hs3t (by simp)
      rw [List.append_nil] at this
      exact ⟨s3', by rw [this]; rfl⟩
  have rest : ∀ sgn : ℚ, parseRest sgn (D :: s1 :: M :: s2 :: T :: tokens s3') (c.1 : ℚ) =
      some (sgn * (n : ℚ) / (3600 * 10 ^ p)) := by
    intro sgn
    have hMf : floatTok M = some (c.2.1 : ℚ) := by rw [floatTok_digits Mne Md, Mv]
    have hTf : floatTok T = some (c.2.2.1 + c.2.2.2 / 10 ^ p : ℚ) := by rw [hTv, Sv, hfrac]
    have hv : sgn * (n : ℚ) / (3600 * 10 ^ p) = sgn * ((c.1 : ℚ) + c.2.1 / 60
        + (c.2.2.1 + c.2.2.2 / 10 ^ p) / 3600) := by
      rw [mul_div_assoc, hval]
    rw [hv]
    rcases tok3 with h | ⟨g, h⟩ <;> rw [h] <;> simp [parseRest, hMf, hTf]
  have hDf : floatTok D = some (c.1 : ℚ) := by rw [floatTok_digits Dne Dd, Dv]
  unfold parseDms
  rw [hpy]
  by_cases h1 : neg = true
  · have e : sg = ['-'] := by simp [hsg, h1]
    have t2 : tokens (sg ++ D ++ s1 ++ M ++ s2 ++ T ++ s3') =
        ['-'] :: D :: s1 :: M :: s2 :: T :: tokens s3' := by
      rw [← tok, ← tokens_run false ['-'] _ (by simp) (by intro c hc; simp at hc; subst hc; decide)
        (headTok D _ true Dne hDt), e]
      simp
    rw [t2]
    have hf : floatTok ['-'] = none := by decide
    have hstr : pyStrip ['-'] = ['-'] := by decide
    simp only [hf, hstr, hDf, if_true, h1]
    rw [if_neg (by simp), rest]
  · by_cases h2 : plus = true
    · have e : sg = ['+'] := by simp [hsg, h1, h2]
      have t2 : tokens (sg ++ D ++ s1 ++ M ++ s2 ++ T ++ s3') =
          ['+'] :: D :: s1 :: M :: s2 :: T :: tokens s3' := by
        rw [← tok, ← tokens_run false ['+'] _ (by simp) (by intro c hc; simp at hc; subst hc; decide)
          (headTok D _ true Dne hDt), e]
        simp
      rw [t2]
      have hf : floatTok ['+'] = none := by decide
      have hstr : pyStrip ['+'] ≠ ['-'] := by decide
      simp only [hf, hDf, if_neg hstr, h1]
      rw [if_neg (by simp), rest]
      simp
    · have e : sg = [] := by simp [hsg, h1, h2]
      have t2 : tokens (sg ++ D ++ s1 ++ M ++ s2 ++ T ++ s3') =
          D :: s1 :: M :: s2 :: T :: tokens s3' := by
        rw [← tok, e]; simp
      rw [t2]
      simp only [hDf, h1]
      rw [rest]
      simp

/-- C09: parsing the string printed for any angle (any sign, precision, padding, plus sign and
usable separators) gives exactly the printed number, sign included. -/
theorem C09_print_parse (x : ℝ) (sep : List (List Char)) (prec : Option ℕ) (pad plus : Bool)
    (s1 s2 s3 : List Char) (hsep : pickSeps sep = some (s1, s2, s3)) (hs : GoodSeps s1 s2 s3) :
    ∃ str, makeDms x sep prec pad plus = some str ∧
      parseDms str = some (dmsValue x (prec.getD 8)) := by
  refine ⟨_, by rw [makeDms, hsep]; rfl, ?_⟩
  have := parse_format (decide (x < 0)) plus (dmsRound x (prec.getD 8)) s1 s2 s3 prec pad hs
  simp only [decide_eq_true_eq] at this
  rw [dmsValue]
  exact this

/-- C09: reading back a printed angle (degrees or hours) is within half a unit of the last digit. -/
theorem C09_roundtrip (a : Angle) (sep : List (List Char)) (prec : Option ℕ) (pad plus : Bool)
    (s1 s2 s3 : List Char) (hsep : pickSeps sep = some (s1, s2, s3)) (hs : GoodSeps s1 s2 s3) :
    (∃ str b, a.dms sep prec pad plus = some str ∧ fromDms str = some b ∧
      |b.rad - a.rad| ≤ degrees.value * (1 / 2 / (3600 * 10 ^ (prec.getD 8)))) ∧
    (∃ str b, a.hms sep prec pad plus = some str ∧ fromHms str = some b ∧
      |b.rad - a.rad| ≤ hours.value * (1 / 2 / (3600 * 10 ^ (prec.getD 8)))) := by
  have key : ∀ u : AngleUnit, 0 < u.value →
      |((dmsValue (a.divU u) (prec.getD 8) : ℚ) : ℝ) * u.value - a.rad|
        ≤ u.value * (1 / 2 / (3600 * 10 ^ (prec.getD 8))) := by
    intro u hu
    have h := C09_rounding (a.divU u) (prec.getD 8)
    have e : ((dmsValue (a.divU u) (prec.getD 8) : ℚ) : ℝ) * u.value - a.rad
        = u.value * (((dmsValue (a.divU u) (prec.getD 8) : ℚ) : ℝ) - a.divU u) := by
      have : a.rad = u.value * a.divU u := by unfold Angle.divU; field_simp
      conv_lhs => rw [this]
      ring
    rw [e, abs_mul, abs_of_pos hu]
    exact mul_le_mul_of_nonneg_left h hu.le
  constructor
  · obtain ⟨str, h1, h2⟩ := C09_print_parse (a.divU degrees) sep prec pad plus s1 s2 s3 hsep hs
    exact ⟨str, _, h1, by rw [fromDms, h2]; rfl, key degrees (by unfold degrees; positivity)⟩
  · obtain ⟨str, h1, h2⟩ := C09_print_parse (a.divU hours) sep prec pad plus s1 s2 s3 hsep hs
    exact ⟨str, _, h1, by rw [fromHms, h2]; rfl, key hours (by unfold hours; positivity)⟩

/-- The hypotheses hold for the default separator and for a `dms`-style triple. -/
example : pickSeps [[':']] = some ([':'], [':'], []) ∧ GoodSeps [':'] [':'] [] :=
  ⟨rfl, ⟨by simp, by simp, by intro c hc; simp at hc; subst hc; decide,
    by intro c hc; simp at hc; subst hc; decide, by simp⟩⟩
example : GoodSeps ['d'] ['m', ' '] ['s', ' '] :=
  ⟨by simp, by simp, by intro c hc; simp at hc; subst hc; decide,
    by intro c hc; simp at hc; rcases hc with rfl | rfl <;> decide,
    by intro c hc; simp at hc; rcases hc with rfl | rfl <;> decide⟩
/-- `-0:00:30.5` style: the sign survives when the degrees are zero. -/
example : parseDms "-00:00:30.5".toList = some (-(61/7200)) := by
  decide +kernel

end JG
