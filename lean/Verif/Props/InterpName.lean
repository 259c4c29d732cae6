import Verif.Model.InterpName

/-!
C101: the name of an interpolant, in any capitalisation, gives that interpolant with the `gsparams` in use; every other string is
refused; changing the parameters changes nothing else; equal interpolants hash equal.
-/

namespace JG.IName

set_option autoImplicit false

/-- Specification: the ways to write an interpolant, in lower case. -/
def Spelling : Cls → List Char → Prop
  | .quintic, t => t = "quintic".toList
  | .linear, t => t = "linear".toList
  | .cubic, t => t = "cubic".toList
  | .nearest, t => t = "nearest".toList
  | .delta, t => t = "delta".toList
  | .sinc, t => t = "sinc".toList
  | .lanczos n true, t => t = "lanczos".toList ++ Nat.toDigits 10 n.toNat ∨ t = "lanczos".toList ++ Nat.toDigits 10 n.toNat ++ ['t']
  | .lanczos n false, t => t = "lanczos".toList ++ Nat.toDigits 10 n.toNat ++ ['f']

/-- Specification: the interpolants that exist. -/
def Exists : Cls → Prop
  | .lanczos n _ => 1 ≤ n ∧ n ≤ 30
  | _ => True

theorem lowerC_dig {c d : Char} (hd : d.isDigit = true) (h : lowerC c = d) : c = d := by
  unfold lowerC at h
  split_ifs at h with hc
  · exfalso
    obtain ⟨h1, h2⟩ := hc
    have h1 : 65 ≤ c.toNat := h1
    have h2 : c.toNat ≤ 90 := h2
    have hv : (c.toNat + 32).isValidChar := Or.inl (by omega)
    have e : d.toNat = c.toNat + 32 := by
      rw [← h, Char.ofNat, dif_pos hv]
      rfl
    simp only [Char.isDigit, ge_iff_le, Bool.and_eq_true, decide_eq_true_eq] at hd
    have h3 : d.toNat ≤ 57 := hd.2
    omega
  · exact h

theorem lower_digs {s ds : List Char} (hd : ∀ c ∈ ds, c.isDigit = true) (h : lower s = ds) : s = ds := by
  induction s generalizing ds with
  | nil => exact h
  | cons a s ih =>
    cases ds with
    | nil => cases h
    | cons d ds =>
      simp only [lower, List.map_cons, List.cons.injEq] at h
      rw [lowerC_dig (hd d (by simp)) h.1, ih (fun c hc => hd c (by simp [hc])) h.2]

theorem digits_digs (ds : List Char) (hd : ∀ c ∈ ds, c.isDigit = true) (b : Bool) (acc : ℕ) (hb : b = true ∨ ds ≠ []) :
    digits ds b acc = some (Nat.ofDigitChars 10 ds acc) := by
  induction ds generalizing b acc with
  | nil => simp_all [digits, Nat.ofDigitChars]
  | cons c cs ih =>
    have hc := hd c (by simp)
    rw [digits, if_pos hc, ih (fun x hx => hd x (by simp [hx])) _ _ (Or.inl rfl)]
    simp [Nat.ofDigitChars, digVal]

theorem isSpace_dig {c : Char} (h : c.isDigit = true) : isSpace c = false := by
  simp only [Char.isDigit, ge_iff_le, Bool.and_eq_true, decide_eq_true_eq] at h
  have h1 : 48 ≤ c.toNat := h.1
  have h2 : c.toNat ≤ 57 := h.2
  simp only [isSpace, Bool.or_eq_false_iff, Bool.and_eq_false_iff, decide_eq_false_iff_not, beq_eq_false_iff_ne, ne_eq, not_le]
  refine ⟨⟨?_, by omega⟩, by omega⟩
  rintro rfl
  revert h1
  decide

theorem strip_digs {ds : List Char} (hd : ∀ c ∈ ds, c.isDigit = true) : strip ds = ds := by
  have h : ∀ l : List Char, (∀ c ∈ l, c.isDigit = true) → l.dropWhile isSpace = l := by
    intro l hl
    cases l with
    | nil => rfl
    | cons a l => rw [List.dropWhile_cons_of_neg]; simp [isSpace_dig (hl a (by simp))]
  rw [strip, h ds hd, h _ (by simpa using hd), List.reverse_reverse]

theorem pyInt_digs {ds : List Char} (hd : ∀ c ∈ ds, c.isDigit = true) (h0 : ds ≠ []) :
    pyInt ds = some (Nat.ofDigitChars 10 ds 0 : ℤ) := by
  unfold pyInt
  rw [strip_digs hd]
  split
  · exact absurd (hd '-' (by simp)) (by decide)
  · exact absurd (hd '+' (by simp)) (by decide)
  · rw [digits_digs ds hd _ _ (Or.inr h0)]; rfl

theorem pyInt_toDigits (n : ℕ) : pyInt (Nat.toDigits 10 n) = some (n : ℤ) := by
  rw [pyInt_digs (fun c hc => Nat.isDigit_of_mem_toDigits (by norm_num) (by norm_num) hc) Nat.toDigits_ne_nil,
    Nat.ofDigitChars_toDigits (by norm_num) (by norm_num)]

theorem fromName_lanczos {G : Type} (s t : List Char) (g : G) (h : lower s = "lanczos".toList ++ t) :
    fromName s g = lanczosName s g := by
  rw [fromName, h, if_neg, if_pos]
  · simp
  · simp

theorem lower_split {s a b : List Char} (h : lower s = a ++ b) : ∃ x y, s = x ++ y ∧ lower x = a ∧ lower y = b := by
  obtain ⟨x, y, h1, h2, h3⟩ := List.map_eq_append_iff.1 h
  exact ⟨x, y, h1, h2, h3⟩

theorem drop_seven {x y : List Char} (h : lower x = "lanczos".toList) : (x ++ y).drop 7 = y := by
  have : x.length = 7 := by
    have := congrArg List.length h
    simpa [lower] using this
  rw [← this, List.drop_left]

theorem lanczosName_plain {G : Type} {s ds : List Char} (g : G) (hd : ∀ c ∈ ds, c.isDigit = true) (h0 : ds ≠ [])
    (h : lower s = "lanczos".toList ++ ds) : lanczosName s g = mkLanczos (Nat.ofDigitChars 10 ds 0 : ℤ) true g := by
  obtain ⟨x, y, rfl, hx, hy⟩ := lower_split h
  obtain rfl := lower_digs hd hy
  obtain ⟨z, c, hzc⟩ := List.eq_nil_or_concat y |>.resolve_left h0
  rw [List.concat_eq_append] at hzc
  subst hzc
  have hc : c.isDigit = true := hd c (by simp)
  have e : (x ++ (z ++ [c])).getLastD ' ' = c := by
    rw [← List.append_assoc]; simp
  have hl : lowerC c = c := by
    have hlow : lower (z ++ [c]) = z ++ [c] := hy
    simpa [lower] using (List.append_inj' (by simpa [lower] using hlow : lower z ++ [lowerC c] = z ++ [c]) rfl).2
  have n1 : (c == 't') = false := by
    rw [beq_eq_false_iff_ne]; rintro rfl; exact absurd hc (by decide)
  have n2 : (c == 'f') = false := by
    rw [beq_eq_false_iff_ne]; rintro rfl; exact absurd hc (by decide)
  simp only [lanczosName, e, hl, n1, n2, Bool.or_false, Bool.false_eq_true, if_false, drop_seven hx]
  rw [pyInt_digs hd h0]

theorem lanczosName_tf {G : Type} {s ds : List Char} (g : G) (hd : ∀ c ∈ ds, c.isDigit = true) (h0 : ds ≠ []) (dc : Bool)
    (h : lower s = "lanczos".toList ++ ds ++ [if dc then 't' else 'f']) :
    lanczosName s g = mkLanczos (Nat.ofDigitChars 10 ds 0 : ℤ) dc g := by
  obtain ⟨w, v, rfl, hw, hv⟩ := lower_split h
  obtain ⟨x, y, rfl, hx, hy⟩ := lower_split hw
  obtain rfl := lower_digs hd hy
  obtain ⟨c, rfl, hc⟩ : ∃ c, v = [c] ∧ lowerC c = if dc then 't' else 'f' := by
    match v, hv with
    | [c], hv => exact ⟨c, rfl, by simpa [lower] using hv⟩
    | [], hv => cases hv
    | _ :: _ :: _, hv => simp [lower] at hv
  have e : (x ++ y ++ [c]).getLastD ' ' = c := by simp
  have e2 : (x ++ y ++ [c]).dropLast = x ++ y := by simp
  simp only [lanczosName, e, e2, hc]
  cases dc
  · simp [drop_seven hx, pyInt_digs hd h0]
  · simp [drop_seven hx, pyInt_digs hd h0]

/-- C101: the name of an interpolant, in any capitalisation, gives that interpolant with the `gsparams` in use. -/
theorem C101_name {G : Type} (c : Cls) (hc : Exists c) (s : List Char) (h : Spelling c (lower s)) (g : G) :
    fromName s g = .ok ⟨c, g⟩ := by
  have hdig : ∀ n : ℕ, ∀ c ∈ Nat.toDigits 10 n, c.isDigit = true := fun n c hc =>
    Nat.isDigit_of_mem_toDigits (by norm_num) (by norm_num) hc
  have hn : ∀ {n : ℤ}, 1 ≤ n → ((Nat.ofDigitChars 10 (Nat.toDigits 10 n.toNat) 0 : ℕ) : ℤ) = n := by
    intro n hn
    rw [Nat.ofDigitChars_toDigits (by norm_num) (by norm_num)]
    omega
  match c, hc, h with
  | .quintic, _, h => exact if_pos h
  | .linear, _, h => simp only [Spelling] at h; rw [fromName, h]; rfl
  | .cubic, _, h => simp only [Spelling] at h; rw [fromName, h]; rfl
  | .nearest, _, h => simp only [Spelling] at h; rw [fromName, h]; rfl
  | .delta, _, h => simp only [Spelling] at h; rw [fromName, h]; rfl
  | .sinc, _, h => simp only [Spelling] at h; rw [fromName, h]; rfl
  | .lanczos n true, hc, h =>
    rcases h with h | h
    · rw [fromName_lanczos s _ g h, lanczosName_plain g (hdig _) Nat.toDigits_ne_nil h, hn hc.1]
      exact if_pos hc
    · rw [fromName_lanczos s _ g (by rw [h, List.append_assoc]), lanczosName_tf g (hdig _) Nat.toDigits_ne_nil true h, hn hc.1]
      exact if_pos hc
  | .lanczos n false, hc, h =>
    rw [fromName_lanczos s _ g (by rw [h, List.append_assoc]), lanczosName_tf g (hdig _) Nat.toDigits_ne_nil false h, hn hc.1]
    exact if_pos hc

example : fromName "LaNcZoS5f".toList () = .ok ⟨.lanczos 5 false, ()⟩ :=
  C101_name (.lanczos 5 false) ⟨by norm_num, by norm_num⟩ "LaNcZoS5f".toList
    (show lower "LaNcZoS5f".toList = "lanczos".toList ++ Nat.toDigits 10 (5 : ℤ).toNat ++ ['f'] by decide) ()

/-- Specification: a string without what `int` skips: white space, underscores and a plus sign. -/
def keep (c : Char) : Bool := !(isSpace c || c == '_' || c == '+')

/-- The string in lower case, without those. -/
def clean (s : List Char) : List Char := (lower s).filter keep

/-- Specification: the ways to write an interpolant when `int` skips characters and leading zeros: some decimal of `n`. -/
def Loose : Cls → List Char → Prop
  | .lanczos n dc, t => ∃ ds : List Char, ds ≠ [] ∧ (∀ c ∈ ds, c.isDigit = true) ∧ (Nat.ofDigitChars 10 ds 0 : ℤ) = n ∧
      ((dc = true ∧ t = "lanczos".toList ++ ds) ∨ t = "lanczos".toList ++ ds ++ [if dc then 't' else 'f'])
  | c, t => Spelling c t

theorem lowerC_of_dig {c : Char} (h : c.isDigit = true) : lowerC c = c := by
  unfold lowerC
  rw [if_neg]
  rintro ⟨h1, -⟩
  have h1 : 65 ≤ c.toNat := h1
  simp only [Char.isDigit, ge_iff_le, Bool.and_eq_true, decide_eq_true_eq] at h
  have h3 : c.toNat ≤ 57 := h.2
  omega

theorem lowerC_of_space {c : Char} (h : isSpace c = true) : lowerC c = c := by
  unfold lowerC
  rw [if_neg]
  rintro ⟨h1, -⟩
  have h1 : 65 ≤ c.toNat := h1
  simp only [isSpace, Bool.or_eq_true, Bool.and_eq_true, decide_eq_true_eq, beq_iff_eq] at h
  rcases h with (rfl | h) | h
  · revert h1; decide
  · omega
  · omega

theorem keep_dig {c : Char} (h : c.isDigit = true) : keep c = true := by
  simp only [keep, isSpace_dig h, Bool.false_or, Bool.not_eq_true', Bool.or_eq_false_iff, beq_eq_false_iff_ne]
  constructor <;> rintro rfl <;> exact absurd h (by decide)

theorem clean_append (a b : List Char) : clean (a ++ b) = clean a ++ clean b := by
  simp [clean, lower]

theorem clean_cons (c : Char) (b : List Char) : clean (c :: b) = (if keep (lowerC c) then [lowerC c] else []) ++ clean b := by
  simp only [clean, lower, List.map_cons, List.filter_cons]
  split_ifs <;> simp

theorem clean_dropWhile (s : List Char) : clean (s.dropWhile isSpace) = clean s := by
  induction s with
  | nil => rfl
  | cons a s ih =>
    by_cases h : isSpace a = true
    · rw [List.dropWhile_cons_of_pos h, ih, clean_cons, lowerC_of_space h, if_neg (by simp [keep, h]), List.nil_append]
    · rw [List.dropWhile_cons_of_neg h]

theorem clean_reverse (s : List Char) : clean s.reverse = (clean s).reverse := by
  simp [clean, lower, List.filter_reverse]

theorem clean_strip (s : List Char) : clean (strip s) = clean s := by
  rw [strip, clean_reverse, clean_dropWhile, clean_reverse, List.reverse_reverse, clean_dropWhile]

theorem digits_sound (t : List Char) (d : Bool) (acc m : ℕ) (h : digits t d acc = some m) :
    (∀ c ∈ clean t, c.isDigit = true) ∧ m = Nat.ofDigitChars 10 (clean t) acc ∧ (d = true ∨ clean t ≠ []) := by
  induction t generalizing d acc with
  | nil =>
    rw [digits] at h
    split_ifs at h with hd
    · obtain rfl := Option.some.inj h
      exact ⟨by simp [clean, lower], by simp [clean, lower, Nat.ofDigitChars], Or.inl hd⟩
  | cons c cs ih =>
    rw [digits] at h
    split_ifs at h with hc hu
    · obtain ⟨h1, h2, -⟩ := ih _ _ h
      rw [clean_cons, lowerC_of_dig hc, if_pos (keep_dig hc)]
      refine ⟨?_, ?_, Or.inr (by simp)⟩
      · intro x hx
        simp only [List.cons_append, List.nil_append, List.mem_cons] at hx
        rcases hx with rfl | hx
        · exact hc
        · exact h1 x hx
      · rw [h2]; simp [Nat.ofDigitChars, digVal]
    · simp only [Bool.and_eq_true, beq_iff_eq] at hu
      obtain ⟨rfl, hd⟩ := hu
      have : clean ('_' :: cs) = clean cs := by rw [clean_cons, if_neg (by decide), List.nil_append]
      rw [this]
      obtain ⟨h1, h2, h3⟩ := ih _ _ h
      exact ⟨h1, h2, Or.inl hd⟩

theorem pyInt_sound {s : List Char} {n : ℤ} (h : pyInt s = some n) (hn : 1 ≤ n) :
    clean s ≠ [] ∧ (∀ c ∈ clean s, c.isDigit = true) ∧ (Nat.ofDigitChars 10 (clean s) 0 : ℤ) = n := by
  rw [← clean_strip]
  unfold pyInt at h
  split at h
  · obtain ⟨m, -, hm⟩ := Option.map_eq_some_iff.1 h
    omega
  · rename_i t ht
    obtain ⟨m, hm, rfl⟩ := Option.map_eq_some_iff.1 h
    obtain ⟨h1, h2, h3⟩ := digits_sound _ _ _ _ hm
    have : clean ('+' :: t) = clean t := by rw [clean_cons, if_neg (by decide), List.nil_append]
    rw [ht, this]
    exact ⟨by simpa using h3, h1, by rw [h2]⟩
  · obtain ⟨m, hm, rfl⟩ := Option.map_eq_some_iff.1 h
    obtain ⟨h1, h2, h3⟩ := digits_sound _ _ _ _ hm
    exact ⟨by simpa using h3, h1, by rw [h2]⟩

theorem take_clean {x : List Char} (h : lower x = "lanczos".toList) : clean x = "lanczos".toList := by
  rw [clean, h]; decide

theorem lower_take (s : List Char) (n : ℕ) : (lower s).take n = lower (s.take n) := by simp [lower, List.map_take]

theorem mkLanczos_ok {G : Type} {n : ℤ} {dc : Bool} {g : G} {i : Interp G} (h : mkLanczos n dc g = .ok i) :
    (1 ≤ n ∧ n ≤ 30) ∧ i = ⟨.lanczos n dc, g⟩ := by
  unfold mkLanczos at h
  split_ifs at h with h1
  exact ⟨h1, (Except.ok.inj h).symm⟩

theorem lanczosName_sound {G : Type} {s : List Char} {g : G} {i : Interp G} (hs : (lower s).take 7 = "lanczos".toList)
    (h : lanczosName s g = .ok i) : i.gs = g ∧ Exists i.cls ∧ Loose i.cls (clean s) := by
  rw [lower_take] at hs
  obtain ⟨last, hlast⟩ : ∃ l, l = lowerC (s.getLastD ' ') := ⟨_, rfl⟩
  simp only [lanczosName, ← hlast] at h
  by_cases htf : (last == 't' || last == 'f') = true
  · rw [if_pos htf, if_pos htf] at h
    have hlen : 7 ≤ s.length := by
      have := congrArg List.length hs
      simp [lower] at this
      omega
    have hne : s ≠ [] := by rintro rfl; simp at hlen
    obtain ⟨z, c, hzc⟩ := List.eq_nil_or_concat s |>.resolve_left hne
    rw [List.concat_eq_append] at hzc
    subst hzc
    have hc : lowerC c = last := by rw [hlast]; simp
    have h8 : 7 ≤ z.length := by
      by_contra hz
      have : z.length = 6 := by simp at hlen; omega
      have e : (z ++ [c]).take 7 = z ++ [c] := List.take_of_length_le (by simp [this])
      rw [e] at hs
      have : lower (z ++ [c]) = lower z ++ [lowerC c] := by simp [lower]
      rw [this, hc, show "lanczos".toList = "lanczo".toList ++ ['s'] by decide] at hs
      have := (List.append_inj' hs rfl).2
      simp only [List.cons.injEq, and_true] at this
      rw [this] at htf
      exact absurd htf (by decide)
    have hx : lower (z.take 7) = "lanczos".toList := by
      rw [List.take_append_of_le_length h8] at hs; exact hs
    rw [List.dropLast_concat] at h
    have hz : clean (z ++ [c]) = "lanczos".toList ++ clean (z.drop 7) ++ [last] := by
      rw [clean_append]
      conv_lhs => rw [← List.take_append_drop 7 z, clean_append]
      rw [take_clean hx, clean_cons, hc]
      have : keep last = true := by
        simp only [Bool.or_eq_true, beq_iff_eq] at htf
        rcases htf with rfl | rfl <;> decide
      rw [if_pos this]
      simp [clean, lower]
    cases hp : pyInt (z.drop 7) with
    | none => rw [hp] at h; cases h
    | some n =>
      rw [hp] at h
      obtain ⟨hn, rfl⟩ := mkLanczos_ok h
      obtain ⟨h1, h2, h3⟩ := pyInt_sound hp hn.1
      refine ⟨rfl, hn, clean (z.drop 7), h1, h2, h3, Or.inr ?_⟩
      rw [hz]
      simp only [Bool.or_eq_true, beq_iff_eq] at htf
      rcases htf with rfl | rfl <;> rfl
  · rw [if_neg htf, if_neg htf] at h
    cases hp : pyInt (s.drop 7) with
    | none => rw [hp] at h; cases h
    | some n =>
      rw [hp] at h
      obtain ⟨hn, rfl⟩ := mkLanczos_ok h
      obtain ⟨h1, h2, h3⟩ := pyInt_sound hp hn.1
      refine ⟨rfl, hn, clean (s.drop 7), h1, h2, h3, Or.inl ⟨rfl, ?_⟩⟩
      conv_lhs => rw [← List.take_append_drop 7 s, clean_append]
      rw [take_clean hs]

/-- C101: a string that gives an interpolant is a way to write it, and the `gsparams` are those in use.  Every other string is
refused with an exception. -/
theorem C101_only {G : Type} (s : List Char) (g : G) (i : Interp G) (h : fromName s g = .ok i) :
    i.gs = g ∧ Exists i.cls ∧ (Spelling i.cls (lower s) ∨ Loose i.cls (clean s)) := by
  unfold fromName at h
  split_ifs at h with h1 h2 h3 h4 h5 h6 h7
  · obtain rfl := Except.ok.inj h; exact ⟨rfl, trivial, Or.inl h1⟩
  · obtain ⟨a, b, c⟩ := lanczosName_sound h2 h
    exact ⟨a, b, Or.inr c⟩
  · obtain rfl := Except.ok.inj h; exact ⟨rfl, trivial, Or.inl h3⟩
  · obtain rfl := Except.ok.inj h; exact ⟨rfl, trivial, Or.inl h4⟩
  · obtain rfl := Except.ok.inj h; exact ⟨rfl, trivial, Or.inl h5⟩
  · obtain rfl := Except.ok.inj h; exact ⟨rfl, trivial, Or.inl h6⟩
  · obtain rfl := Except.ok.inj h; exact ⟨rfl, trivial, Or.inl h7⟩

example : fromName "lanczos 0_7T".toList () = .ok ⟨.lanczos 7 true, ()⟩ := rfl
example : fromName "lanczosT".toList () = .error .value := rfl
example : fromName "gaussian".toList () = .error .value := rfl

/-- C101: names which are no name of a class are refused with `GalSimValueError`. -/
theorem C101_unknown {G : Type} (s : List Char) (g : G) (hl : (lower s).take 7 ≠ "lanczos".toList)
    (h : ∀ c, ¬ Spelling c (lower s)) : fromName s g = .error .value := by
  have h1 := h .quintic
  have h3 := h .linear
  have h4 := h .cubic
  have h5 := h .nearest
  have h6 := h .delta
  have h7 := h .sinc
  simp only [Spelling] at h1 h3 h4 h5 h6 h7
  unfold fromName
  rw [if_neg h1, if_neg hl, if_neg h3, if_neg h4, if_neg h5, if_neg h6, if_neg h7]

/-- Disagreement: a Lanczos kernel of an order which is not in the tables (above 30, or 0) is refused with a bare `KeyError`
instead of an exception of the package: the name is `lanczosN` with an integer `N`, as the message of the other exception asks
for. -/
theorem C101_counterexample_order {G : Type} (n : ℕ) (hn : n = 0 ∨ 30 < n) (g : G) :
    fromName ("lanczos".toList ++ Nat.toDigits 10 n) g = .error .key := by
  have hdig : ∀ c ∈ Nat.toDigits 10 n, c.isDigit = true := fun c hc =>
    Nat.isDigit_of_mem_toDigits (by norm_num) (by norm_num) hc
  have hl : lower ("lanczos".toList ++ Nat.toDigits 10 n) = "lanczos".toList ++ Nat.toDigits 10 n := by
    have : lower (Nat.toDigits 10 n) = Nat.toDigits 10 n := by
      conv_rhs => rw [← List.map_id (Nat.toDigits 10 n)]
      exact List.map_congr_left fun c hc => lowerC_of_dig (hdig c hc)
    rw [lower, List.map_append]
    change lower "lanczos".toList ++ lower (Nat.toDigits 10 n) = _
    rw [this]
    rfl
  rw [fromName_lanczos _ _ g hl, lanczosName_plain g hdig Nat.toDigits_ne_nil hl,
    Nat.ofDigitChars_toDigits (by norm_num) (by norm_num), mkLanczos, if_neg (by omega)]

/-- C101: `tol` sets `kvalue_accuracy` and leaves the other parameters at their defaults; without it the given parameters are used,
or the default ones. -/
theorem C101_gsparams (dflt : GSP) (tol : Option ℝ) (gs : Option GSP) :
    (∀ t, tol = some t → useGS dflt tol gs .kvalue_accuracy = t ∧ ∀ f, f ≠ .kvalue_accuracy → useGS dflt tol gs f = dflt f) ∧
    (tol = none → ∀ g, gs = some g → useGS dflt tol gs = g) ∧ (tol = none → gs = none → useGS dflt tol gs = dflt) := by
  refine ⟨?_, ?_, ?_⟩
  · rintro t rfl
    exact ⟨by simp [useGS], fun f hf => by simp [useGS, hf]⟩
  · rintro rfl g rfl; rfl
  · rintro rfl rfl; rfl

/-- Specification: `g` with the parameters named in `kw` replaced, the last value of each winning; no unknown name. -/
def Updated (g : GSP) (kw : List (String × ℝ)) (g' : GSP) : Prop :=
  (∀ p ∈ kw, ∃ f : GSField, f.name = p.1) ∧
  ∀ f : GSField, g' f = ((kw.filter fun p => p.1 = f.name).getLast?.map Prod.snd).getD (g f)

theorem name_inj {a b : GSField} (h : a.name = b.name) : a = b := by
  cases a <;> cases b <;> first | rfl | exact absurd h (by decide)

theorem mem_all (f : GSField) : f ∈ GSField.all := by cases f <;> simp [GSField.all]

theorem withParams_spec (g g' : GSP) (kw : List (String × ℝ)) (h : g.withParams kw = some g') : Updated g kw g' := by
  induction kw generalizing g with
  | nil => obtain rfl := Option.some.inj h; exact ⟨by simp, by simp⟩
  | cons p kw ih =>
    obtain ⟨k, v⟩ := p
    rw [GSP.withParams] at h
    cases hf : GSField.all.find? (fun f => f.name = k) with
    | none => rw [hf] at h; cases h
    | some f =>
      rw [hf] at h
      have hk : f.name = k := by simpa using List.find?_some hf
      obtain ⟨h1, h2⟩ := ih _ h
      refine ⟨?_, fun f' => ?_⟩
      · intro p hp
        rcases List.mem_cons.1 hp with rfl | hp
        · exact ⟨f, hk⟩
        · exact h1 p hp
      · rw [h2 f', List.filter_cons]
        by_cases e : f' = f
        · subst e
          rw [if_pos (by simp [hk]), List.getLast?_cons]
          cases (kw.filter fun p => decide (p.1 = f'.name)).getLast? <;> simp
        · have : ¬ k = f'.name := fun hh => e (name_inj (hk.trans hh).symm)
          rw [if_neg (by simpa using this)]
          simp [e]

/-- C101: `withGSParams` keeps the class and the parameters of the interpolant, and sets the accuracy parameters to the given ones,
updated by the keywords.  The premise excludes the case of the next theorem. -/
theorem C101_withGSParams_partial (dflt : GSP) (i : Interp GSP) (hi : Exists i.cls) (gs : Option GSP) (kw : List (String × ℝ))
    (hk : kw = [] ∨ gs ≠ some i.gs) (r : Except Err (Interp GSP)) (h : i.withGSParams dflt gs kw = some r) :
    ∃ g, r = .ok ⟨i.cls, g⟩ ∧ Updated (gs.getD i.gs) kw g := by
  unfold Interp.withGSParams at h
  split_ifs at h with hs
  · obtain rfl := Option.some.inj h
    obtain rfl := hk.resolve_right (by simpa using hs)
    exact ⟨i.gs, rfl, by simp, by simp [hs]⟩
  · obtain ⟨g, hg, rfl⟩ := Option.map_eq_some_iff.1 h
    refine ⟨g, ?_, ?_⟩
    · cases hc : i.cls with
      | lanczos n dc => rw [hc] at hi; exact if_pos hi
      | _ => rfl
    · have := withParams_spec _ _ _ hg
      cases gs <;> exact this

/-- Disagreement: `withGSParams(i.gsparams, kvalue_accuracy=v)` ignores the keyword: the parameters given are the ones the object
has, so it is returned as it is.  The same test is in every `withGSParams` of the profiles. -/
theorem C101_counterexample_withGSParams (dflt : GSP) (i : Interp GSP) (v : ℝ) (hv : i.gs .kvalue_accuracy ≠ v) :
    ∃ r, i.withGSParams dflt (some i.gs) [("kvalue_accuracy", v)] = some (.ok r) ∧
      ¬ Updated i.gs [("kvalue_accuracy", v)] r.gs := by
  refine ⟨i, by simp [Interp.withGSParams], fun h => hv ?_⟩
  have := h.2 .kvalue_accuracy
  simpa [GSField.name] using this

/-- C101: two interpolants are equal exactly when they are of the same class, with the same order and flag and equal values of the
accuracy parameters. -/
theorem C101_eq (a b : Interp EqH.GSP) : a.eq b = true ↔ a.cls = b.cls ∧ a.gs.map Prod.snd = b.gs.map Prod.snd := by
  obtain ⟨c, g⟩ := a
  obtain ⟨c', g'⟩ := b
  cases c <;> cases c' <;> simp [Interp.eq, EqH.GSP.eq, and_comm, and_assoc]

/-- C101: equal interpolants whose parameters are numbers of the same python types hash equal. -/
theorem C101_hash_partial (a b : Interp EqH.GSP) (h : a.eq b = true) (hk : a.gs.map Prod.fst = b.gs.map Prod.fst) :
    a.hkey = b.hkey := by
  obtain ⟨h1, h2⟩ := (C101_eq a b).1 h
  have : a.gs = b.gs := by
    have : ∀ l l' : List (EqH.Kind × ℝ), l.map Prod.fst = l'.map Prod.fst → l.map Prod.snd = l'.map Prod.snd → l = l' := by
      intro l
      induction l with
      | nil => intro l' h _; cases l' with
        | nil => rfl
        | cons _ _ => cases h
      | cons p l ih =>
        intro l' h h'
        cases l' with
        | nil => cases h
        | cons q l' =>
          simp only [List.map_cons, List.cons.injEq] at h h'
          rw [ih l' h.2 h'.2, Prod.ext h.1 h'.1]
    exact this _ _ hk h2
  simp only [Interp.hkey, h1, this]

/-- Disagreement: interpolants are hashed by their text, so two equal ones whose parameters were given as `5` and as `5.0` have
different hashes. -/
theorem C101_counterexample_hash (c : Cls) : ∃ a b : Interp EqH.GSP, a.cls = c ∧ b.cls = c ∧ a.eq b = true ∧ a.hkey ≠ b.hkey := by
  refine ⟨⟨c, [(.pyInt, 0), (.pyInt, 0), (.pyInt, 1)]⟩, ⟨c, [(.pyInt, 0), (.pyInt, 0), (.pyFloat, 1)]⟩, rfl, rfl,
    (C101_eq _ _).2 ⟨rfl, rfl⟩, ?_⟩
  cases c <;> simp [Interp.hkey, EqH.GSP.hkey, EqH.GSP.isD]

/-- C101: different interpolants with the same parameters hash different. -/
theorem C101_hash_class (a b : Interp EqH.GSP) (h : a.hkey = b.hkey) : a.cls = b.cls := by
  obtain ⟨c, g⟩ := a
  obtain ⟨c', g'⟩ := b
  cases c <;> cases c' <;> simp_all [Interp.hkey]

/-- C101: flattening and unflattening gives the interpolant back. -/
theorem C101_roundtrip {G : Type} (i : Interp G) (hi : Exists i.cls) : unflatten i.cls i.gs = .ok i := by
  obtain ⟨c, g⟩ := i
  cases c with
  | lanczos n dc => exact if_pos hi
  | _ => rfl

end JG.IName
