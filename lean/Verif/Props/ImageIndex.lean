import Verif.Model.ImageIndex
import Verif.Props.ImagePix
import Verif.Props.Utilities

/-!
Property C105: every way of naming a pixel reads and writes the same pixel.
-/

namespace JG

/-! ### Specification -/

/-- The statements that change pixels by naming them. -/
inductive IStmt
  | item (k : Key) (r : IRhs)
  | setValue (args : List PArg) (kw : List (String × PArg))
  | addValue (args : List PArg) (kw : List (String × PArg))

/-- The statement as the code runs it. -/
noncomputable def IStmt.exec (im : Image) : IStmt → Image × Option IxErr
  | .item k r => im.setitem k r
  | .setValue args kw => im.setValueArgs args kw
  | .addValue args kw => im.addValueArgs args kw

/-- The call that a statement stands for, as documented: the pixel is named by a `PositionI`, a pair, two numbers or keywords. -/
inductive IStmt.Means : IStmt → Op → Prop
  | posI (p : Pos ℤ) (v : ℝ) : Means (.item (.posI p) (.num v)) (.setValue p v)
  | pair (a b : INum) (p : Pos ℤ) (v : ℝ) : a.val = p.x → b.val = p.y → Means (.item (.tup [a, b]) (.num v)) (.setValue p v)
  | bounds (b : Bounds ℤ) (r : Image) : Means (.item (.bounds b) (.image r)) (.setSubImage b r)
  | setValue (args kw) (p : Pos ℤ) (v : ℝ) : (kw.map Prod.fst).Nodup → CleanArgs args →
      Spelling "x" "y" true ["value"] args kw p.x p.y [.num v] → Means (.setValue args kw) (.setValue p v)
  | addValue (args kw) (p : Pos ℤ) (v : ℝ) : (kw.map Prod.fst).Nodup → CleanArgs args →
      Spelling "x" "y" true ["value"] args kw p.x p.y [.num v] → Means (.addValue args kw) (.addValue p v)

/-- The ways to read a pixel. -/
inductive IRead
  | item (k : Key)
  | call (args : List PArg) (kw : List (String × PArg))

/-- The read as the code runs it, `none` for something that is not a number. -/
noncomputable def IRead.exec (im : Image) : IRead → Except IxErr (Option ℝ)
  | .item k => (im.getitem k).map Sum.getLeft?
  | .call args kw => (im.call args kw).map some

/-- The pixel that a read names. -/
inductive IRead.Names : IRead → Pos ℤ → Prop
  | posI (p : Pos ℤ) : Names (.item (.posI p)) p
  | pair (p : Pos ℤ) : Names (.item (.tup [.int p.x, .int p.y])) p
  | call (args kw) (p : Pos ℤ) : (kw.map Prod.fst).Nodup → CleanArgs args → Spelling "x" "y" true [] args kw p.x p.y [] →
      Names (.call args kw) p

/-! ### Helpers -/

theorem includesR_int (b : Bounds ℤ) (p : Pos ℤ) : b.includesR p.x p.y ↔ b.includesP clsI p = true := by
  simp [Bounds.includesR, Bounds.includesP, and_assoc]

theorem getValueN_int (im : Image) (p : Pos ℤ) :
    im.getValueN (.int p.x) (.int p.y) = (im.getValue p).mapError IxErr.im := by
  have h := includesR_int im.bounds p
  unfold Image.getValueN Image.getValue
  by_cases hd : im.bounds.defined = true
  · by_cases hi : im.bounds.includesP clsI p = true
    · simp [hd, INum.val, h, hi, Except.mapError]
    · simp [hd, INum.val, h, hi, Except.mapError]
  · simp [hd, Except.mapError]

theorem updArgs_pixel (im : Image) (args : List PArg) (kw : List (String × PArg)) (p : Pos ℤ) (v : ℝ) (f : PArg → Option (ℝ → ℝ))
    (g : ℝ → ℝ) (hf : f (.num v) = some g)
    (hp : parsePosArgs args kw "x" "y" true ["value"] = .ok (.I p.x p.y, [.num v])) :
    im.updArgs args kw f = liftErr (im.guarded (im.updPixel p g)) := by
  unfold Image.updArgs Image.guarded Image.updPixel liftErr
  rw [hp]
  rcases im.isConst with _ | _ | _
  · rfl
  · by_cases hd : im.bounds.defined = true
    · by_cases hi : im.bounds.includesP clsI p = true
      · simp [hd, hi, hf]
      · simp [hd, hi]
    · simp [hd]
  · rfl

theorem parse_spelling {args : List PArg} {kw : List (String × PArg)} {others : List String} {vals : List PArg} (p : Pos ℤ)
    (hk : (kw.map Prod.fst).Nodup) (hc : CleanArgs args) (h : Spelling "x" "y" true others args kw p.x p.y vals) :
    parsePosArgs args kw "x" "y" true others = .ok (.I p.x p.y, vals) :=
  (C13_parse_iff_partial args kw "x" "y" true others hk hc _ _).2 ⟨_, _, h, by
    unfold posFor
    exact ⟨p.x, p.y, rfl, rfl, rfl⟩⟩

/-! ### Theorems -/

/-- C105: a statement does what the call it stands for does: the same new image, the same exception. -/
theorem C105_write (im : Image) (s : IStmt) (o : Op) (h : s.Means o) : s.exec im = liftErr (im.step o) := by
  cases h with
  | posI p v =>
    refine updArgs_pixel im _ _ p v _ _ rfl (parse_spelling p (by simp) trivial ?_)
    exact Spelling.posI p.x p.y [.num v] [] [] (by simp) ⟨rfl, by simp⟩
  | pair a b p v ha hb =>
    refine updArgs_pixel im _ _ p v _ _ rfl (parse_spelling p (by simp) rfl ?_)
    have := Spelling.pair (name1 := "x") (name2 := "y") (integer := true) (others := ["value"]) a.val b.val [.num v] [] []
      (by simp) ⟨rfl, by simp⟩
    rw [ha, hb] at this
    simpa [ha, hb] using this
  | bounds b r => rfl
  | setValue args kw p v hk hc hs => exact updArgs_pixel im _ _ p v _ _ rfl (parse_spelling p hk hc hs)
  | addValue args kw p v hk hc hs => exact updArgs_pixel im _ _ p v _ _ rfl (parse_spelling p hk hc hs)

/-- C105: a read gives the value of the pixel it names, or the exception of `getValue`. -/
theorem C105_read (im : Image) (r : IRead) (p : Pos ℤ) (h : r.Names p) :
    r.exec im = ((im.getValue p).map some).mapError IxErr.im := by
  have key : ∀ e : Except ImErr ℝ, (e.mapError IxErr.im).map some = (e.map some).mapError IxErr.im := by
    intro e; cases e <;> rfl
  have key2 : ∀ e : Except ImErr ℝ, (((e.mapError IxErr.im).map Sum.inl : Except IxErr (ℝ ⊕ Image)).map Sum.getLeft?) =
      (e.map some).mapError IxErr.im := by
    intro e; cases e <;> rfl
  cases h with
  | posI =>
    have hp := parse_spelling (args := [.pos (.I p.x p.y)]) (kw := []) (others := []) (vals := []) p (by simp) trivial
      (Spelling.posI p.x p.y [] [] [] (by simp) ⟨rfl, by simp⟩)
    simp only [IRead.exec, Image.getitem, Image.call, hp, getValueN_int]
    exact key2 _
  | pair =>
    simp only [IRead.exec, Image.getitem, getValueN_int]
    exact key2 _
  | call args kw _ hk hc hs =>
    simp only [IRead.exec, Image.call, parse_spelling p hk hc hs, getValueN_int]
    exact key _

/-- C105: after any program of such statements, each in any of its spellings, a read in any spelling gives what the latest write
to that pixel left there; outside of the image it raises. -/
theorem C105_program (im : Image) (h : im.Live) (prog : List (IStmt × Op)) (hm : ∀ s ∈ prog, s.1.Means s.2 ∧ s.2.Covered)
    (r : IRead) (p : Pos ℤ) (hr : r.Names p) :
    r.exec (prog.foldl (fun i s => (s.1.exec i).1) im) =
      match specRun im.isInt (coordMap im) (prog.map Prod.snd) p.x p.y with
      | some v => .ok (some v)
      | none => .error (.im .outOfBounds) := by
  have e : ∀ (l : List (IStmt × Op)) (i : Image), (∀ s ∈ l, s.1.Means s.2 ∧ s.2.Covered) →
      l.foldl (fun i s => (s.1.exec i).1) i = i.run (l.map Prod.snd) := by
    intro l
    induction l with
    | nil => intros; rfl
    | cons s l ih =>
      intro i hl
      have h1 : (s.1.exec i).1 = (i.step s.2).1 := by
        rw [C105_write i s.1 s.2 (hl s (by simp)).1]
        rfl
      simp only [List.foldl_cons, List.map_cons, h1]
      rw [ih _ fun t ht => hl t (by simp [ht])]
      rfl
  rw [e prog im hm, C105_read _ r p hr, C20_reads_latest_write im h _ (by
    intro o ho
    obtain ⟨s, hs, rfl⟩ := List.mem_map.1 ho
    exact (hm s hs).2)]
  cases specRun im.isInt (coordMap im) (prog.map Prod.snd) p.x p.y <;> rfl

/-- C105: a part of an image is read and written by its bounds. -/
theorem C105_bounds (im : Image) (b : Bounds ℤ) (s : Image) :
    (im.getitem (.bounds b) = .ok (.inr s) ↔ im.subImage b = .ok s) ∧
    im.setitem (.bounds b) (.image s) = liftErr (im.step (.setSubImage b s)) := by
  refine ⟨?_, rfl⟩
  simp only [Image.getitem]
  cases im.subImage b <;> simp

/-- C105 (partial): an index that is not a `BoundsI`, a `PositionI` or a tuple is refused, for reading and for writing, and so is a
tuple of one number or none, a number for a part of an image and an image for a pixel; the image is left as it is.  The full claim
would refuse every tuple that is not a pair: see `C105_counterexample_tuple`. -/
theorem C105_refused_partial (im : Image) (r : IRhs) (x y v : ℝ) (b : Bounds ℤ) (s : Image) (k : Key) :
    im.getitem .other = .error (.im .typeError) ∧ im.setitem .other r = (im, some (.im .typeError)) ∧
    im.getitem (.posD x y) = .error (.im .typeError) ∧ im.setitem (.posD x y) r = (im, some (.im .typeError)) ∧
    (∀ l : List INum, l.length ≠ 2 → im.getitem (.tup l) = .error (.im .typeError)) ∧
    (∀ l : List INum, l.length < 2 → (im.setitem (.tup l) r).1 = im ∧ (im.setitem (.tup l) r).2 ≠ none) ∧
    ((im.setitem (.bounds b) (.num v)).1 = im ∧ (im.setitem (.bounds b) (.num v)).2 ≠ none) ∧
    ((∀ b, k ≠ .bounds b) → (im.setitem k (.image s)).1 = im ∧ (im.setitem k (.image s)).2 ≠ none) := by
  have upd : ∀ args kw, (im.updArgs args kw fun _ => none).1 = im ∧ (im.updArgs args kw fun _ => none).2 ≠ none := by
    intro args kw
    unfold Image.updArgs
    rcases im.isConst with _ | _ | _
    · simp
    · by_cases hd : im.bounds.defined = true
      · simp only [hd, Bool.not_true, Bool.false_eq_true, if_false]
        split
        · split <;> simp
        · simp
        · simp
      · simp [hd]
    · simp
  refine ⟨rfl, by cases r <;> rfl, rfl, by cases r <;> rfl, ?_, ?_, ?_, ?_⟩
  · intro l hl
    match l, hl with
    | [], _ => rfl
    | [_], _ => rfl
    | _ :: _ :: _ :: _, _ => rfl
  · intro l hl
    have hp : ∀ w : PArg, parsePosArgs [.seq (l.map INum.val), w] [] "x" "y" true ["value"] = .error .keyError := by
      intro w
      match l, hl with
      | [], _ => simp [parsePosArgs, asPosArg, canIndex, parseTwo, parseFinish, popOthers, popKw]
      | [_], _ => simp [parsePosArgs, asPosArg, canIndex, parseTwo, parseFinish, popOthers, popKw]
    cases r with
    | image s => exact upd _ _
    | num v =>
      simp only [Image.setitem, Key.arg, Image.setValueArgs, Image.updArgs, hp]
      rcases im.isConst with _ | _ | _ <;> simp
      by_cases hd : im.bounds.defined = true <;> simp [hd]
  · simp only [Image.setitem, liftErr, Image.guarded]
    rcases im.isConst with _ | _ | _ <;> simp
    split_ifs <;> simp
  · intro hk
    cases k with
    | bounds b => exact absurd rfl (hk b)
    | posI p => exact upd _ _
    | tup l => exact upd _ _
    | posD x y => simp [Image.setitem, Key.arg]
    | other => simp [Image.setitem, Key.arg]

/-- Disagreement: an assignment to `im[x, y, z]` changes the pixel `(x, y)` and drops `z` silently, while reading `im[x, y, z]` is a
`TypeError`. -/
theorem C105_counterexample_tuple (im : Image) (p : Pos ℤ) (z : INum) (v : ℝ) :
    im.setitem (.tup [.int p.x, .int p.y, z]) (.num v) = im.setitem (.posI p) (.num v) ∧
    im.getitem (.tup [.int p.x, .int p.y, z]) = .error (.im .typeError) := by
  refine ⟨?_, rfl⟩
  have h1 := C105_write im _ _ (.posI p v)
  have hp : parsePosArgs [.seq [(p.x : ℝ), (p.y : ℝ), z.val], .num v] [] "x" "y" true ["value"] = .ok (.I p.x p.y, [.num v]) := by
    simp [parsePosArgs, asPosArg, canIndex, parseFinish, popOthers, mkPosArgs, mkPosI, asInt]
  have h2 := updArgs_pixel im _ _ p v (fun w => match w with | .num v => some fun _ => rawCast im.isInt v | _ => none)
    (fun _ => rawCast im.isInt v) rfl hp
  exact h2.trans h1.symm

/-- Disagreement: `im[x, y] = v` accepts floats that are whole numbers, but reading `im[x, y]` with the same floats is a
`TypeError`, while `im(x, y)` accepts them. -/
theorem C105_counterexample_float (im : Image) (h : im.Live) (p : Pos ℤ) (hp : inRect im.bounds p.x p.y) (v : ℝ) :
    (im.setitem (.tup [.flt p.x, .flt p.y]) (.num v)).2 = none ∧
    im.getitem (.tup [.flt p.x, .flt p.y]) = .error (.im .typeError) ∧
    ∃ u, im.call [.num p.x, .num p.y] [] = .ok u := by
  have hin : im.bounds.includesP clsI p = true := (includesP_iff_rect _ _).2 ⟨h.defd, hp⟩
  refine ⟨?_, ?_, ?_⟩
  · have := C105_write im _ _ (.pair (.flt p.x) (.flt p.y) p v rfl rfl)
    simp only [IStmt.exec] at this
    rw [this]
    simp [liftErr, Image.step, Image.guarded, h.mutbl, Image.updPixel, h.defd, hin]
  · simp [Image.getitem, Image.getValueN, INum.val, includesR_int, hin, h.defd, Except.map]
  · have hpar := parse_spelling (args := [.num p.x, .num p.y]) (kw := []) (others := []) (vals := []) p (by simp) trivial
      (Spelling.twoScalars p.x p.y [] [] [] (by simp) ⟨rfl, by simp⟩)
    simp [Image.call, hpar, getValueN_int, Image.getValue, h.defd, hin, Except.mapError]

/-! ### Views -/

/-- C105: the views of a complex image: it is `real + i imag`, the conjugate has the same real and the opposite imaginary part; the
bounds are kept; the imaginary part of a real image is zero and cannot be written to, the conjugate always can; the parts are real images. -/
theorem C105_views (im : CImage) :
    (∀ i j, im.arr.at' i j = im.real.arr.at' i j + Complex.I * im.imag.arr.at' i j) ∧
    (∀ i j, im.conjugate.arr.at' i j = im.real.arr.at' i j - Complex.I * im.imag.arr.at' i j) ∧
    (im.real.bounds = im.bounds ∧ im.imag.bounds = im.bounds ∧ im.conjugate.bounds = im.bounds) ∧
    (im.real.arr.h = im.arr.h ∧ im.real.arr.w = im.arr.w ∧ im.imag.arr.h = im.arr.h ∧ im.imag.arr.w = im.arr.w ∧
      im.conjugate.arr.h = im.arr.h ∧ im.conjugate.arr.w = im.arr.w) ∧
    im.real.const = im.const ∧ im.conjugate.const = false ∧
    (im.real.cplx = false ∧ im.imag.cplx = false ∧ im.conjugate.cplx = im.cplx) ∧
    (im.imag.const = false ↔ im.const = false ∧ im.cplx = true) ∧
    im.conjugate.conjugate.arr = im.arr ∧
    ((∀ i j, (im.arr.at' i j).im = 0) → im.conjugate.arr = im.arr ∧ im.real.arr = im.arr ∧ ∀ i j, im.imag.arr.at' i j = 0) := by
  refine ⟨fun i j => ?_, fun i j => ?_, ⟨rfl, rfl, rfl⟩, ⟨rfl, rfl, rfl, rfl, rfl, rfl⟩, rfl, rfl, ⟨rfl, rfl, rfl⟩, ?_, ?_, fun h => ⟨?_, ?_, ?_⟩⟩
  · apply Complex.ext <;> simp [CImage.real, CImage.imag]
  · apply Complex.ext <;> simp [CImage.real, CImage.imag, CImage.conjugate]
  · simp [CImage.imag]
  · simp [CImage.conjugate]
  · have : ∀ i j, (starRingEnd ℂ) (im.arr.at' i j) = im.arr.at' i j := fun i j => by
      apply Complex.ext <;> simp [h]
    simp [CImage.conjugate, this]
  · have : ∀ i j, ((im.arr.at' i j).re : ℂ) = im.arr.at' i j := fun i j => by
      apply Complex.ext <;> simp [h]
    simp [CImage.real, this]
  · intro i j
    simp [CImage.imag, h]

/-- C105: the centre of the pixel that is stored in row `i` and column `j` is where `getValue` finds it, and it lies inside of the
outer bounds, half a pixel or more from their edges. -/
theorem C105_centers (im : Image) (h : im.Live) (i j : ℕ) (hi : i < im.arr.h) (hj : j < im.arr.w) :
    ∃ p : Pos ℤ, im.pixelCenters.1 i j = p.x ∧ im.pixelCenters.2 i j = p.y ∧ im.getValue p = .ok (im.arr.at' i j) ∧
      im.outerBounds.1 + 0.5 ≤ p.x ∧ p.x ≤ im.outerBounds.2.1 - 0.5 ∧
      im.outerBounds.2.2.1 + 0.5 ≤ p.y ∧ p.y ≤ im.outerBounds.2.2.2 - 0.5 := by
  have h1 := h.h
  have h2 := h.w
  have hin : inRect im.bounds (j + im.bounds.xmin) (i + im.bounds.ymin) := by
    unfold inRect
    omega
  refine ⟨⟨j + im.bounds.xmin, i + im.bounds.ymin⟩, by simp [Image.pixelCenters], by simp [Image.pixelCenters], ?_, ?_⟩
  · rw [getValue_eq h.defd h.shape]
    simp [coordMap, h.defd, hin]
  · have a1 : (j : ℝ) + 1 ≤ im.bounds.deltax := by exact_mod_cast (by omega : (j : ℤ) + 1 ≤ im.bounds.deltax)
    have a2 : (i : ℝ) + 1 ≤ im.bounds.deltay := by exact_mod_cast (by omega : (i : ℤ) + 1 ≤ im.bounds.deltay)
    have b1 : (0 : ℝ) ≤ j := Nat.cast_nonneg j
    have b2 : (0 : ℝ) ≤ i := Nat.cast_nonneg i
    simp only [Image.outerBounds, xmaxI, ymaxI]
    push_cast
    refine ⟨?_, ?_, ?_, ?_⟩ <;> linarith

/-! ### A concrete image -/

/-- A program on the image of C20, which covers x = 10..12 and y = -1..0: three spellings write, a fourth one reads. -/
example : (IRead.call [] [("y", .num 0), ("x", .num 11)]).exec
    ((((((exIm false).setitem (.tup [.int 11, .int 0]) (.num 5)).1).addValueArgs [.pos (.I 11 0), .num 2] []).1).setitem
      (.posI ⟨12, 0⟩) (.num 9)).1 = .ok (some 7) := by
  have h := C105_program (exIm false) (exIm_live false)
    [(.item (.tup [.int 11, .int 0]) (.num 5), .setValue ⟨11, 0⟩ 5), (.addValue [.pos (.I 11 0), .num 2] [], .addValue ⟨11, 0⟩ 2),
      (.item (.posI ⟨12, 0⟩) (.num 9), .setValue ⟨12, 0⟩ 9)]
    (by
      intro s hs
      simp only [List.mem_cons, List.not_mem_nil, or_false] at hs
      rcases hs with rfl | rfl | rfl
      · exact ⟨.pair _ _ _ _ (by simp [INum.val]) (by simp [INum.val]), trivial⟩
      · exact ⟨.addValue _ _ ⟨11, 0⟩ 2 (by simp) trivial (Spelling.posI 11 0 [.num 2] [] [] (by simp) ⟨rfl, by simp⟩), trivial⟩
      · exact ⟨.posI _ _, trivial⟩)
    (.call [] [("y", .num 0), ("x", .num 11)]) ⟨11, 0⟩
    (.call _ _ ⟨11, 0⟩ (by simp) trivial (by
      have := Spelling.keywords (name1 := "x") (name2 := "y") (integer := true) (others := []) 11 0 []
        [("y", .num 0), ("x", .num 11)] ⟨rfl, List.Perm.swap _ _ _⟩
      simpa using this))
  have hm : ∃ v, coordMap (exIm false) 11 0 = some v := ⟨_, rfl⟩
  obtain ⟨v, hv⟩ := hm
  have e : specRun (exIm false).isInt (coordMap (exIm false)) [.setValue ⟨11, 0⟩ 5, .addValue ⟨11, 0⟩ 2, .setValue ⟨12, 0⟩ 9] 11 0 =
      some 7 := by
    have hi : (exIm false).isInt = false := rfl
    obtain ⟨w, hw⟩ : ∃ w, coordMap (exIm false) 12 0 = some w := ⟨_, rfl⟩
    simp [specRun, specStep, hv, hw, rawCast, hi]
    norm_num
  simp only [List.map_cons, List.map_nil] at h
  rw [e] at h
  exact h

example : inRect (exIm false).bounds 11 0 := by decide

end JG
