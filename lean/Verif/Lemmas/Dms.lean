import Verif.Model.Angle
import Mathlib.Data.Nat.Digits.Lemmas
import Mathlib.Tactic.Linarith
import Mathlib.Tactic.Ring
import Mathlib.Tactic.FieldSimp
import Mathlib.Tactic.IntervalCases

/-! Helper lemmas for DMS strings (C09). -/

namespace JG

theorem tokens_cons (c : Char) (cs : List Char) : ∃ g gs, tokens (c :: cs) = (c :: g) :: gs := by
  unfold tokens
  split
  · exact ⟨_, _, rfl⟩
  · exact ⟨_, _, rfl⟩
  · split
    · exact ⟨_, _, rfl⟩
    · exact ⟨_, _, rfl⟩

/-- A maximal run at the front is the first token. -/
theorem tokens_run (b : Bool) (A B : List Char) (hA : A ≠ []) (ha : ∀ c ∈ A, isTok c = b)
    (hB : ∀ c cs, B = c :: cs → isTok c ≠ b) : tokens (A ++ B) = A :: tokens B := by
  induction A with
  | nil => exact absurd rfl hA
  | cons c cs ih =>
    have hc := ha c (by simp)
    cases cs with
    | nil =>
      cases B with
      | nil => simp [tokens]
      | cons d ds =>
        obtain ⟨g, gs, h⟩ := tokens_cons d ds
        have hd := hB d ds rfl
        simp only [List.cons_append, List.nil_append]
        rw [tokens, h]
        simp only
        rw [if_neg (by rw [hc]; exact fun h => hd h.symm)]
    | cons c' cs' =>
      have := ih (by simp) (fun x hx => ha x (by simp [hx]))
      have hc' := ha c' (by simp)
      rw [List.cons_append, tokens, this]
      simp only
      rw [if_pos (by rw [hc, hc'])]

theorem digitChar_lt (d : ℕ) (h : d < 10) :
    (Nat.digitChar d).isDigit = true ∧ (Nat.digitChar d).toNat - 48 = d := by
  interval_cases d <;> decide

theorem digitsVal_foldl (l : List Char) (a : ℕ) :
    l.foldl (fun acc c => 10 * acc + (c.toNat - 48)) a = a * 10 ^ l.length + digitsVal l := by
  induction l generalizing a with
  | nil => simp [digitsVal]
  | cons c cs ih =>
    simp only [digitsVal, List.foldl_cons, List.length_cons]
    rw [ih, ih (10 * 0 + (c.toNat - 48))]
    ring

theorem digitsVal_append (l r : List Char) :
    digitsVal (l ++ r) = digitsVal l * 10 ^ r.length + digitsVal r := by
  conv_lhs => unfold digitsVal
  rw [List.foldl_append, digitsVal_foldl]
  rfl

theorem digitsVal_digits (l : List ℕ) (h : ∀ d ∈ l, d < 10) :
    digitsVal (l.reverse.map Nat.digitChar) = Nat.ofDigits 10 l := by
  induction l with
  | nil => simp [digitsVal]
  | cons d ds ih =>
    rw [List.reverse_cons, List.map_append, digitsVal_append, ih (fun x hx => h x (by simp [hx])),
      Nat.ofDigits_cons]
    have := (digitChar_lt d (h d (by simp))).2
    simp [digitsVal, this]
    ring

theorem digitsVal_zeros (k : ℕ) : digitsVal (List.replicate k '0') = 0 := by
  induction k with
  | zero => rfl
  | succ k ih =>
    rw [List.replicate_succ', digitsVal_append, ih]
    decide

theorem decStr_val (n : ℕ) : digitsVal (decStr n) = n := by
  unfold decStr
  split
  · rename_i h; subst h; decide
  · rw [digitsVal_digits _ (fun d hd => Nat.digits_lt_base (by norm_num) hd), Nat.ofDigits_digits]

theorem decStr_digit (n : ℕ) : ∀ c ∈ decStr n, c.isDigit = true := by
  unfold decStr
  split
  · intro c hc; simp at hc; subst hc; decide
  · intro c hc
    simp only [List.mem_map, List.mem_reverse] at hc
    obtain ⟨d, hd, rfl⟩ := hc
    exact (digitChar_lt d (Nat.digits_lt_base (by norm_num) hd)).1

theorem decStr_ne (n : ℕ) : decStr n ≠ [] := by
  unfold decStr
  split
  · simp
  · rename_i h
    simp [Nat.digits_eq_nil_iff_eq_zero, h]

theorem padStr_val (w n : ℕ) : digitsVal (padStr w n) = n := by
  rw [padStr, digitsVal_append, digitsVal_zeros, decStr_val]; ring

theorem padStr_digit (w n : ℕ) : ∀ c ∈ padStr w n, c.isDigit = true := by
  intro c hc
  rw [padStr, List.mem_append] at hc
  rcases hc with hc | hc
  · rw [List.eq_of_mem_replicate hc]; decide
  · exact decStr_digit n c hc

theorem padStr_ne (w n : ℕ) : padStr w n ≠ [] := by
  simp [padStr, decStr_ne]

theorem decStr_length (n w : ℕ) (hw : 1 ≤ w) (h : n < 10 ^ w) : (decStr n).length ≤ w := by
  unfold decStr
  split
  · simpa using hw
  · simp only [List.length_map, List.length_reverse]
    exact (Nat.digits_length_le_iff (by norm_num) n).mpr h

theorem padStr_length (n w : ℕ) (hw : 1 ≤ w) (h : n < 10 ^ w) : (padStr w n).length = w := by
  have := decStr_length n w hw h
  simp [padStr]; omega

theorem compStr_props (pad : Bool) (n : ℕ) : compStr pad n ≠ [] ∧
    (∀ c ∈ compStr pad n, c.isDigit = true) ∧ digitsVal (compStr pad n) = n := by
  unfold compStr
  split
  · exact ⟨padStr_ne _ _, padStr_digit _ _, padStr_val _ _⟩
  · exact ⟨decStr_ne _, decStr_digit _, decStr_val _⟩

theorem takeWhile_all {l : List Char} (h : ∀ c ∈ l, c.isDigit = true) (r : List Char)
    (hr : ∀ c cs, r = c :: cs → c.isDigit = false) :
    (l ++ r).takeWhile Char.isDigit = l ∧ (l ++ r).dropWhile Char.isDigit = r := by
  induction l with
  | nil =>
    cases r with
    | nil => simp
    | cons c cs => simp [hr c cs rfl]
  | cons c cs ih =>
    have := ih (fun x hx => h x (by simp [hx]))
    simp [h c (by simp), this.1, this.2]

theorem floatTok_digits {l : List Char} (hne : l ≠ []) (h : ∀ c ∈ l, c.isDigit = true) :
    floatTok l = some (digitsVal l : ℚ) := by
  have := takeWhile_all h [] (by simp)
  rw [List.append_nil] at this
  unfold floatTok
  rw [this.1, this.2]
  simp [hne]

theorem floatTok_frac {l f : List Char} (hne : l ≠ []) (h : ∀ c ∈ l, c.isDigit = true)
    (hf : ∀ c ∈ f, c.isDigit = true) :
    floatTok (l ++ '.' :: f) = some (digitsVal l + digitsVal f / (10:ℚ) ^ f.length) := by
  have := takeWhile_all h ('.' :: f) (by intro c cs hc; cases hc; decide)
  unfold floatTok
  rw [this.1, this.2]
  have hall : f.all Char.isDigit = true := by simpa [List.all_eq_true] using hf
  simp [hall, hne]

theorem rdropWhile_append_last (p : Char → Bool) (l : List Char) (x : Char) (r : List Char)
    (hx : p x = false) : (l ++ x :: r).rdropWhile p = l ++ x :: r.rdropWhile p := by
  induction r using List.reverseRecOn with
  | nil =>
    rw [List.rdropWhile_nil, List.rdropWhile_concat_neg _ _ _ (by simp [hx])]
  | append_singleton r y ih =>
    have e : l ++ x :: (r ++ [y]) = (l ++ x :: r) ++ [y] := by simp
    rw [e]
    by_cases hy : p y = true
    · rw [List.rdropWhile_concat_pos _ _ _ hy, List.rdropWhile_concat_pos _ _ _ hy, ih]
    · rw [List.rdropWhile_concat_neg _ _ _ hy, List.rdropWhile_concat_neg _ _ _ hy]
      simp

/-- Stripping trailing zeros does not change a decimal fraction. -/
theorem frac_strip (f : List Char) :
    (digitsVal (f.rdropWhile (· == '0')) : ℚ) / (10:ℚ) ^ (f.rdropWhile (· == '0')).length
      = digitsVal f / (10:ℚ) ^ f.length := by
  induction f using List.reverseRecOn with
  | nil => simp
  | append_singleton r y ih =>
    by_cases hy : (y == '0') = true
    · rw [List.rdropWhile_concat_pos (fun x => x == '0') _ _ hy, ih]
      have : y = '0' := by simpa using hy
      subst this
      rw [digitsVal_append]
      have : digitsVal ['0'] = 0 := by decide
      rw [this]
      simp only [List.length_append, List.length_cons, List.length_nil]
      push_cast
      field_simp
      ring
    · rw [List.rdropWhile_concat_neg (fun x => x == '0') _ _ hy]

theorem rdropWhile_sub (p : Char → Bool) (f : List Char) : ∀ c ∈ f.rdropWhile p, c ∈ f := by
  intro c hc
  exact (List.rdropWhile_prefix p f).subset hc

theorem isDigit_isTok {c : Char} (h : c.isDigit = true) : isTok c = true := by simp [isTok, h]

theorem isDigit_ne_dot {c : Char} (h : c.isDigit = true) : (c == '.') = false := by
  by_contra hc
  rw [Bool.not_eq_false] at hc
  have : c = '.' := by simpa using hc
  subst this
  exact absurd h (by decide)

/-- The seconds token after optional stripping. -/
theorem dmsStrip_spec (prec : Option ℕ) (pre S F : List Char) (hS : S ≠ [])
    (hSd : ∀ c ∈ S, c.isDigit = true) (hF : ∀ c ∈ F, c.isDigit = true) :
    ∃ T t0 tl, dmsStrip prec (pre ++ S ++ ['.'] ++ F) = pre ++ T ∧ T ≠ [] ∧ (∀ c ∈ T, isTok c = true) ∧
      T = t0 ++ [tl] ∧
      floatTok T = some (digitsVal S + digitsVal F / (10:ℚ) ^ F.length) := by
  have hlast : ∀ T : List Char, T ≠ [] → ∃ t0 tl, T = t0 ++ [tl] := by
    intro T hT
    exact ⟨T.dropLast, T.getLast hT, (List.dropLast_append_getLast hT).symm⟩
  unfold dmsStrip
  split
  · have e : pre ++ S ++ ['.'] ++ F = (pre ++ S) ++ '.' :: F := by simp
    rw [e, rdropWhile_append_last _ _ _ _ (by decide)]
    set F' := F.rdropWhile (· == '0') with hF'
    have hF'd : ∀ c ∈ F', c.isDigit = true := fun c hc => hF c (rdropWhile_sub _ _ c hc)
    by_cases hnil : F' = []
    · rw [hnil]
      obtain ⟨s0, sl, hs⟩ := hlast S hS
      have hsl : sl.isDigit = true := hSd sl (by rw [hs]; simp)
      have e2 : pre ++ S ++ ['.'] = (pre ++ S) ++ ['.'] := rfl
      refine ⟨S, s0, sl, ?_, hS, fun c hc => isDigit_isTok (hSd c hc), hs, ?_⟩
      · rw [e2, List.rdropWhile_concat_pos _ _ _ (by decide)]
        rw [hs]
        have e3 : pre ++ (s0 ++ [sl]) = (pre ++ s0) ++ sl :: [] := by simp
        rw [e3, rdropWhile_append_last (fun x => x == '.') _ _ _ (isDigit_ne_dot hsl)]
        simp
      · rw [floatTok_digits hS hSd, ← frac_strip F, ← hF', hnil]
        simp [digitsVal]
    · obtain ⟨f0, fl, hf⟩ := hlast F' hnil
      have hfl : fl.isDigit = true := hF'd fl (by rw [hf]; simp)
      refine ⟨S ++ '.' :: F', S ++ '.' :: f0, fl, ?_, by simp, ?_, ?_, ?_⟩
      · rw [hf]
        have e3 : pre ++ S ++ '.' :: (f0 ++ [fl]) = (pre ++ S ++ '.' :: f0) ++ fl :: [] := by simp
        rw [e3, rdropWhile_append_last (fun x => x == '.') _ _ _ (isDigit_ne_dot hfl)]
        simp
      · intro c hc
        simp only [List.mem_append, List.mem_cons] at hc
        rcases hc with hc | rfl | hc
        · exact isDigit_isTok (hSd c hc)
        · decide
        · exact isDigit_isTok (hF'd c hc)
      · rw [hf]; simp
      · rw [floatTok_frac hS hSd hF'd, ← frac_strip F, ← hF']
  · obtain ⟨t0, tl, ht⟩ := hlast (S ++ '.' :: F) (by simp)
    refine ⟨S ++ '.' :: F, t0, tl, by simp, by simp, ?_, ht, floatTok_frac hS hSd hF⟩
    intro c hc
    simp only [List.mem_append, List.mem_cons] at hc
    rcases hc with hc | rfl | hc
    · exact isDigit_isTok (hSd c hc)
    · decide
    · exact isDigit_isTok (hF c hc)

theorem isTok_not_ws {c : Char} (h : isTok c = true) : c.isWhitespace = false := by
  by_contra hc
  rw [Bool.not_eq_false] at hc
  simp only [Char.isWhitespace, Bool.or_eq_true, decide_eq_true_eq] at hc
  rcases hc with ((hc | hc) | hc) | hc <;> · subst hc; revert h; decide

/-- Arithmetic of the base-60 split. -/
theorem dmsParts_spec (n p : ℕ) :
    n = (dmsParts n p).1 * (3600 * 10 ^ p) + (dmsParts n p).2.1 * (60 * 10 ^ p)
      + (dmsParts n p).2.2.1 * 10 ^ p + (dmsParts n p).2.2.2 ∧
    (dmsParts n p).2.1 < 60 ∧ (dmsParts n p).2.2.1 < 60 ∧ (dmsParts n p).2.2.2 < 10 ^ p := by
  have hD : 0 < 10 ^ p := Nat.pow_pos (by norm_num)
  simp only [dmsParts]
  generalize hDg : 10 ^ p = D at *
  have h1 := Nat.div_add_mod n (3600 * D)
  have h2 := Nat.mod_lt n (y := 3600 * D) (by positivity)
  have e1 : n - n / (3600 * D) * (3600 * D) = n % (3600 * D) := by
    rw [Nat.mul_comm]; omega
  rw [e1]
  generalize n % (3600 * D) = r at *
  have h3 := Nat.div_add_mod r (60 * D)
  have h4 := Nat.mod_lt r (y := 60 * D) (by positivity)
  have e2 : r - r / (60 * D) * (60 * D) = r % (60 * D) := by
    rw [Nat.mul_comm]; omega
  rw [e2]
  have hm : r / (60 * D) < 60 := by
    rw [Nat.div_lt_iff_lt_mul (by positivity)]; linarith
  generalize r % (60 * D) = t at *
  have h5 := Nat.div_add_mod t D
  have h6 := Nat.mod_lt t hD
  have e3 : t - t / D * D = t % D := by rw [Nat.mul_comm]; omega
  rw [e3]
  have hs : t / D < 60 := by
    rw [Nat.div_lt_iff_lt_mul hD]; linarith
  refine ⟨?_, hm, hs, h6⟩
  generalize n / (3600 * D) = d at *
  generalize r / (60 * D) = m at *
  generalize t / D = s at *
  calc n = 3600 * D * d + r := h1.symm
    _ = 3600 * D * d + (60 * D * m + (D * s + t % D)) := by rw [h5, h3]
    _ = _ := by ring

end JG
