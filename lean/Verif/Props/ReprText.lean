import Verif.Model.ReprText
import Verif.Props.Pytree

/-!
C111: the text that `repr` makes of a profile reads back as an equal profile.
-/

namespace JG.Tree

/-- The fields printed with `%d` hold integers, as their annotations say (gsparams.py:11-12, 18). -/
def Ints (g : GSP) : Prop :=
  (∃ n : ℤ, g .minimum_fft_size = n) ∧ (∃ n : ℤ, g .maximum_fft_size = n) ∧ ∃ n : ℤ, g .table_spacing = n

mutual
/-- The `gsparams` of an object and of all its parts. -/
def PObj.gsAll : PObj → List GSP
  | .elem e => [e.gs]
  | .trans o _ _ _ g _ => g :: o.gsAll
  | .sum l g _ => g :: PObj.gsAllList l
  | .conv l _ g _ _ => g :: PObj.gsAllList l
  | .deconv o g _ => g :: o.gsAll
def PObj.gsAllList : List PObj → List GSP
  | [] => []
  | o :: l => o.gsAll ++ PObj.gsAllList l
end

/-- The object is a `Transformation`. -/
def PObj.IsTrans : PObj → Prop
  | .trans _ _ _ _ _ _ => True
  | _ => False

/-- Objects that exist: built by the constructors and `withGSParams`, with any `propagate_gsparams`.  Excluded: a propagating
transformation of a transformation that does not propagate (`C111_counterexample_propagate`). -/
inductive Built (hard analytic : PObj → Bool) : PObj → Prop
  | elem (e : El) (h : e.Built) : Built hard analytic (.elem e)
  | trans (o o' : PObj) (J : Mat2) (off : ℝ × ℝ) (r : ℝ) (gs : Option GSP) (p : Bool) (ho : Built hard analytic o)
      (hp : p = true → ∀ a J2 f2 r2 g2, o ≠ .trans a J2 f2 r2 g2 false)
      (h : o.mkTrans J off r gs p = some o') : Built hard analytic o'
  | sum (l : List PObj) (o' : PObj) (gs : Option GSP) (p : Bool) (hl : ∀ o ∈ l, Built hard analytic o)
      (h : PObj.mkSum l gs p = some o') : Built hard analytic o'
  | conv (l : List PObj) (o' : PObj) (gs : Option GSP) (p : Bool) (rs : Option Bool) (hl : ∀ o ∈ l, Built hard analytic o)
      (h : PObj.mkConv hard analytic l gs p rs = some o') : Built hard analytic o'
  | deconv (o o' : PObj) (gs : Option GSP) (p : Bool) (ho : Built hard analytic o)
      (h : o.mkDeconv gs p = some o') : Built hard analytic o'
  | withGS (o o' : PObj) (g : GSP) (ho : Built hard analytic o) (h : o.withGS g = some o') : Built hard analytic o'

/-- The invariant: parts of a propagating object carry its `gsparams`, no term of a sum is a sum, no transformation wraps a
transformation. -/
inductive Neat : PObj → Prop
  | elem (e : El) (h : e.Valid) : Neat (.elem e)
  | trans (o : PObj) (J : Mat2) (off : ℝ × ℝ) (r : ℝ) (g : GSP) (p : Bool) (ho : Neat o) (ht : ¬ o.IsTrans)
      (hg : p = true → o.gs = g) : Neat (.trans o J off r g p)
  | sum (l : List PObj) (g : GSP) (p : Bool) (hl : ∀ o ∈ l, Neat o) (hg : p = true → ∀ o ∈ l, o.gs = g)
      (hs : ∀ o ∈ l, ¬ o.IsSum) : Neat (.sum l g p)
  | conv (l pl : List PObj) (g : GSP) (p : Bool) (hl : ∀ o ∈ l, Neat o) (hg : p = true → ∀ o ∈ l, o.gs = g) :
      Neat (.conv l pl g p false)
  | deconv (o : PObj) (g : GSP) (p : Bool) (ho : Neat o) (hg : p = true → o.gs = g) : Neat (.deconv o g p)

theorem withGS_isTrans {o o' : PObj} {g : GSP} (h : o.withGS g = some o') : o'.IsTrans ↔ o.IsTrans := by
  cases o <;> simp only [PObj.withGS] at h
  case elem e =>
    simp only [Option.map_eq_some_iff] at h
    obtain ⟨e', h, rfl⟩ := h
    rfl
  all_goals
    split_ifs at h
    · obtain rfl := Option.some.inj h; rfl
    · simp only [Option.map_eq_some_iff] at h
      obtain ⟨_, _, rfl⟩ := h
      rfl
    · obtain rfl := Option.some.inj h; rfl

/-- The invariant is kept by `withGSParams`. -/
theorem Neat.withGS {o : PObj} (ho : Neat o) : ∀ (o1 : PObj) (g : GSP), o.withGS g = some o1 → Neat o1 := by
  induction ho with
  | elem e he =>
    intro o1 g h
    simp only [PObj.withGS, Option.map_eq_some_iff] at h
    obtain ⟨e1, h, rfl⟩ := h
    rw [withGS_valid e he] at h
    split_ifs at h with hv
    obtain rfl := Option.some.inj h
    exact .elem _ hv
  | trans o J off r gs p ho ht hg ih =>
    intro o1 g h
    simp only [PObj.withGS] at h
    split_ifs at h with h1 h2
    · rw [← Option.some.inj h]
      exact .trans o J off r gs p ho ht hg
    · simp only [Option.map_eq_some_iff] at h
      obtain ⟨o', h, rfl⟩ := h
      exact .trans o' J off r g p (ih _ _ h) (by rw [withGS_isTrans h]; exact ht) fun _ => withGS_gs h
    · rw [← Option.some.inj h]
      exact .trans o J off r g p ho ht fun h3 => absurd h3 h2
  | sum l gs p hl hg hs ih =>
    intro o1 g h
    simp only [PObj.withGS] at h
    split_ifs at h with h1 h2
    · rw [← Option.some.inj h]
      exact .sum l gs p hl hg hs
    · simp only [Option.map_eq_some_iff] at h
      obtain ⟨l', h, rfl⟩ := h
      rw [withGSList_some] at h
      refine .sum l' g p ?_ ?_ ?_
      · intro o ho
        obtain ⟨x, hx, hr⟩ := forall₂_mem_right h ho
        exact ih x hx _ _ hr
      · intro _ o ho
        obtain ⟨x, hx, hr⟩ := forall₂_mem_right h ho
        exact withGS_gs hr
      · intro o ho
        obtain ⟨x, hx, hr⟩ := forall₂_mem_right h ho
        rw [withGS_isSum hr]
        exact hs x hx
    · rw [← Option.some.inj h]
      exact .sum l g p hl (fun h3 => absurd h3 h2) hs
  | conv l pl gs p hl hg ih =>
    intro o1 g h
    simp only [PObj.withGS] at h
    split_ifs at h with h1 h2
    · rw [← Option.some.inj h]
      exact .conv l pl gs p hl hg
    · simp only [Option.map_eq_some_iff] at h
      obtain ⟨l', h, rfl⟩ := h
      rw [withGSList_some] at h
      refine .conv l' pl g p ?_ ?_
      · intro o ho
        obtain ⟨x, hx, hr⟩ := forall₂_mem_right h ho
        exact ih x hx _ _ hr
      · intro _ o ho
        obtain ⟨x, hx, hr⟩ := forall₂_mem_right h ho
        exact withGS_gs hr
    · rw [← Option.some.inj h]
      exact .conv l pl g p hl fun h3 => absurd h3 h2
  | deconv o gs p ho hg ih =>
    intro o1 g h
    simp only [PObj.withGS] at h
    split_ifs at h with h1 h2
    · rw [← Option.some.inj h]
      exact .deconv o gs p ho hg
    · simp only [Option.map_eq_some_iff] at h
      obtain ⟨o', h, rfl⟩ := h
      exact .deconv o' g p (ih _ _ h) fun _ => withGS_gs h
    · rw [← Option.some.inj h]
      exact .deconv o g p ho fun h3 => absurd h3 h2

theorem Neat.prop {l l' : List PObj} {g : GSP} {p : Bool} (hl : ∀ o ∈ l, Neat o)
    (h : (if p = true then PObj.withGSList l g else some l) = some l') :
    (∀ o ∈ l', Neat o) ∧ (p = true → ∀ o ∈ l', o.gs = g) ∧ ((∀ o ∈ l, ¬ o.IsSum) → ∀ o ∈ l', ¬ o.IsSum) := by
  split_ifs at h with hp
  · rw [withGSList_some] at h
    refine ⟨fun o ho => ?_, fun _ o ho => ?_, fun hs o ho => ?_⟩ <;> obtain ⟨x, hx, hr⟩ := forall₂_mem_right h ho
    · exact (hl x hx).withGS _ _ hr
    · exact withGS_gs hr
    · rw [withGS_isSum hr]
      exact hs x hx
  · obtain rfl := Option.some.inj h
    exact ⟨hl, fun h => absurd h hp, id⟩

/-- Every existing object satisfies the invariant. -/
theorem Built.neat {hard analytic : PObj → Bool} {o : PObj} (h : Built hard analytic o) : Neat o := by
  induction h with
  | elem e h => exact .elem e h.valid
  | trans o o' J off r gs p ho hp h ih =>
    simp only [PObj.mkTrans, Option.map_eq_some_iff] at h
    obtain ⟨a, h, rfl⟩ := h
    obtain ⟨g, hg⟩ : ∃ g, g = gs.getD o.gs := ⟨_, rfl⟩
    rw [← hg] at h ⊢
    have ha : Neat a ∧ (p = true → a.gs = g) ∧ (p = true → ∀ b J2 f2 r2 g2, a ≠ .trans b J2 f2 r2 g2 false) := by
      by_cases h2 : p = true
      · rw [if_pos h2] at h
        refine ⟨ih.withGS _ _ h, fun _ => withGS_gs h, fun _ b J2 f2 r2 g2 e => ?_⟩
        rw [e] at h
        cases o <;> simp only [PObj.withGS] at h
        case elem e => simp at h
        case trans x y z w gs' q =>
          cases q with
          | false => exact hp h2 _ _ _ _ _ rfl
          | true => split_ifs at h <;> simp at h
        all_goals split_ifs at h <;> simp at h
      · rw [if_neg h2] at h
        obtain rfl := Option.some.inj h
        exact ⟨ih, fun h => absurd h h2, fun h => absurd h h2⟩
    obtain ⟨hn, h1, h2⟩ := ha
    cases a with
    | trans b J2 f2 r2 g2 q =>
      cases hn with
      | trans _ _ _ _ _ _ hb ht hq =>
        refine .trans b _ _ _ g p hb ht fun e => ?_
        cases q with
        | false => exact absurd rfl (h2 e _ _ _ _ _)
        | true => rw [hq rfl]; exact h1 e
    | elem e => exact .trans _ J off r g p hn id h1
    | sum => exact .trans _ J off r g p hn id h1
    | conv => exact .trans _ J off r g p hn id h1
    | deconv => exact .trans _ J off r g p hn id h1
  | sum l o' gs p hl h ih =>
    simp only [PObj.mkSum, Option.bind_eq_some_iff, Option.map_eq_some_iff] at h
    obtain ⟨g, -, l', h, rfl⟩ := h
    have ht : ∀ o ∈ l.flatMap PObj.terms, Neat o ∧ ¬ o.IsSum := by
      intro o ho
      obtain ⟨a, ha, ho⟩ := List.mem_flatMap.1 ho
      have hga := ih a ha
      cases hga with
      | elem e he => rw [List.mem_singleton.1 ho]; exact ⟨.elem e he, id⟩
      | trans b J2 o2 r2 g p hb hn hg => rw [List.mem_singleton.1 ho]; exact ⟨.trans b J2 o2 r2 g p hb hn hg, id⟩
      | sum l g p hl hg hs => exact ⟨hl o ho, hs o ho⟩
      | conv l pl g p hl hg => rw [List.mem_singleton.1 ho]; exact ⟨.conv l pl g p hl hg, id⟩
      | deconv b g p hb hg => rw [List.mem_singleton.1 ho]; exact ⟨.deconv b g p hb hg, id⟩
    have hG := Neat.prop (fun o ho => (ht o ho).1) h
    exact .sum l' g p hG.1 hG.2.1 (hG.2.2 fun o ho => (ht o ho).2)
  | conv l o' gs p rs hl h ih =>
    simp only [PObj.mkConv, Option.bind_eq_some_iff, Option.map_eq_some_iff] at h
    obtain ⟨_, -, g, -, l', h, rfl⟩ := h
    have hG := Neat.prop ih h
    exact .conv l' l' g p hG.1 hG.2.1
  | deconv o o' gs p ho h ih =>
    simp only [PObj.mkDeconv, Option.map_eq_some_iff] at h
    obtain ⟨a, h, rfl⟩ := h
    split_ifs at h with hp
    · exact .deconv a _ p (ih.withGS _ _ h) fun _ => withGS_gs h
    · obtain rfl := Option.some.inj h
      exact .deconv o _ p ih fun e => absurd e hp
  | withGS o o' g ho h ih => exact ih.withGS _ _ h

mutual
/-- The text does not show the hidden lists. -/
theorem repr_view : ∀ o : PObj, o.view.repr = o.repr
  | .elem e => by rw [PObj.view]
  | .trans o J off r g p => by rw [PObj.view, PObj.repr, PObj.repr, repr_view o]
  | .sum l g p => by rw [PObj.view, PObj.repr, PObj.repr, repr_viewList l]
  | .conv l pl g p rs => by rw [PObj.view, PObj.repr, PObj.repr, repr_viewList l]
  | .deconv o g p => by rw [PObj.view, PObj.repr, PObj.repr, repr_view o]
theorem repr_viewList : ∀ l : List PObj, PObj.reprList (PObj.viewList l) = PObj.reprList l
  | [] => by rw [PObj.viewList]
  | o :: l => by rw [PObj.viewList, PObj.reprList, PObj.reprList, repr_view o, repr_viewList l]
end

/-! ### Reading texts back -/

theorem pctD_int {x : ℝ} (h : ∃ n : ℤ, x = n) : pctD x = x := by
  obtain ⟨n, rfl⟩ := h
  simp [pctD]

section
variable (hard analytic : PObj → Bool) (dflt : GSP)

/-- C111: the text of `GSParams` reads back. -/
theorem C111_gsparams_partial (g : GSP) (h : Ints g) : (gsRepr g).eval hard analytic dflt = some (.gsp g) := by
  have e1 : ∀ l : List (ℝ), Exp.evalArgs hard analytic dflt (l.map .num) = some (l.map fun x => (none, .num x)) := by
    intro l
    induction l with
    | nil => simp [Exp.evalArgs]
    | cons x l ih => simp [Exp.evalArgs, Exp.eval, ih]
  have e2 := e1 [pctD (g .minimum_fft_size), pctD (g .maximum_fft_size), g .folding_threshold, g .stepk_minimum_hlr,
    g .maxk_threshold, g .kvalue_accuracy, g .xvalue_accuracy, pctD (g .table_spacing), g .realspace_relerr, g .realspace_abserr,
    g .integration_relerr, g .integration_abserr, g .shoot_accuracy]
  simp only [List.map_cons, List.map_nil] at e2
  rw [gsRepr, Exp.eval, e2]
  rw [pctD_int h.1, pctD_int h.2.1, pctD_int h.2.2]
  simp only [Option.bind_some, callFn, if_true, callGSParams, gsFields, List.map_cons, List.map_nil, bindArgs, Option.map_some,
    asNumKw, Option.some.injEq, Val.gsp.injEq]
  funext f
  cases f <;> simp [gsName, gsFields, kwGet]

theorem eval_pos (p : ℝ × ℝ) : (posRepr p).eval hard analytic dflt = some (.pos p) := by
  simp [posRepr, Exp.eval, Exp.evalArgs, callFn, callPosition, posArgs, kwArgs, kwOk, kwGet]

theorem eval_kws (l : List (String × ℝ)) (g : GSP) (hg : Ints g) :
    Exp.evalArgs hard analytic dflt (l.map (fun p => .kw p.1 (.num p.2)) ++ [.kw "gsparams" (gsRepr g)]) =
      some (l.map (fun p => (some p.1, .num p.2)) ++ [(some "gsparams", .gsp g)]) := by
  induction l with
  | nil => simp [Exp.evalArgs, C111_gsparams_partial hard analytic dflt g hg]
  | cons x l ih => simp [Exp.evalArgs, Exp.eval, ih]

theorem call_elem (f : String) (c : ElCls) (hc : elClass f = some c) (args : List (Option String × Val)) :
    callFn hard analytic dflt f args = callElem dflt c args := by
  have h : f ≠ "galsim.GSParams" ∧ f ≠ "galsim.PositionD" ∧ f ≠ "galsim.Transformation" ∧ f ≠ "galsim.Sum" ∧
      f ≠ "galsim.Convolution" ∧ f ≠ "galsim.Deconvolution" := by
    refine ⟨?_, ?_, ?_, ?_, ?_, ?_⟩ <;> rintro rfl <;> simp [elClass, kwGet] at hc
  obtain ⟨h1, h2, h3, h4, h5, h6⟩ := h
  rw [callFn, if_neg h1, if_neg h2, if_neg h3, if_neg h4, if_neg h5, if_neg h6, hc]
  rfl

/-- The text of a call of a concrete class. -/
theorem eval_class (f : String) (c : ElCls) (hc : elClass f = some c) (l : List (String × ℝ)) (g : GSP) (hg : Ints g) (e : El)
    (hl : l.all fun p => p.1 ≠ "gsparams")
    (hb : bindArgs (c.names ++ ["gsparams"]) (l.map (fun p => (some p.1, .num p.2)) ++ [(some "gsparams", .gsp g)]) =
      some (l.map (fun p => (p.1, .num p.2)) ++ [("gsparams", .gsp g)]))
    (hi : El.init c l g = some e) :
    (Exp.call f (l.map (fun p => .kw p.1 (.num p.2)) ++ [.kw "gsparams" (gsRepr g)])).eval hard analytic dflt =
      some (.obj (.elem e)) := by
  have h1 : ∀ l : List (String × ℝ), (l.all fun p => p.1 ≠ "gsparams") = true →
      kwGet (l.map (fun p => (p.1, Val.num p.2)) ++ [("gsparams", .gsp g)]) "gsparams" = some (.gsp g) ∧
      asNumKw ((l.map (fun p : String × ℝ => (p.1, Val.num p.2)) ++ [("gsparams", Val.gsp g)]).filter fun p => p.1 ≠ "gsparams") =
        some l := by
    intro l hl
    induction l with
    | nil => simp [kwGet, asNumKw]
    | cons x l ih =>
      simp only [List.all_cons, Bool.and_eq_true, decide_eq_true_eq] at hl
      obtain ⟨i1, i2⟩ := ih hl.2
      constructor
      · simp only [List.map_cons, List.cons_append, kwGet, if_neg hl.1]
        exact i1
      · rw [List.map_cons, List.cons_append, List.filter_cons_of_pos (by simpa using hl.1), asNumKw, i2]
        rfl
  rw [Exp.eval, eval_kws hard analytic dflt l g hg, Option.bind_some, call_elem hard analytic dflt f c hc, callElem, hb,
    Option.bind_some, kwGS, (h1 l hl).1]
  simp only [Option.bind_some, (h1 l hl).2, Option.getD_some, hi, Option.map_some]

theorem eval_elem (e : El) (h : e.Valid) (hg : Ints e.gs) : e.repr.eval hard analytic dflt = some (.obj (.elem e)) := by
  cases e with
  | gaussian x =>
    refine eval_class hard analytic dflt "galsim.Gaussian" .gaussian rfl [("sigma", x.sigma), ("flux", x.flux)] _ hg _ ?_ ?_ ?_
    · simp
    · simp [bindArgs, ElCls.names]
    · simp [El.init, kwOk, ElCls.names, kwGet, Elt.Gaussian.init, El.gs]
  | exponential x =>
    refine eval_class hard analytic dflt "galsim.Exponential" .exponential rfl [("scale_radius", x.r0), ("flux", x.flux)] _ hg _
      ?_ ?_ ?_
    · simp
    · simp [bindArgs, ElCls.names]
    · simp [El.init, kwOk, ElCls.names, kwGet, Elt.Exponential.init, El.gs]
  | box x =>
    refine eval_class hard analytic dflt "galsim.Box" .box rfl [("width", x.width), ("height", x.height), ("flux", x.flux)] _ hg _
      ?_ ?_ ?_
    · simp
    · simp [bindArgs, ElCls.names]
    · simp [El.init, kwOk, ElCls.names, kwGet, El.gs]
  | pixel s f g =>
    refine eval_class hard analytic dflt "galsim.Pixel" .pixel rfl [("scale", s), ("flux", f)] _ hg _ ?_ ?_ ?_
    · simp
    · simp [bindArgs, ElCls.names]
    · simp [El.init, kwOk, ElCls.names, kwGet, El.gs]
  | delta x =>
    refine eval_class hard analytic dflt "galsim.DeltaFunction" .delta rfl [("flux", x.flux)] _ hg _ ?_ ?_ ?_
    · simp
    · simp [bindArgs, ElCls.names]
    · simp [El.init, kwOk, ElCls.names, kwGet, El.gs]
  | moffat x =>
    refine eval_class hard analytic dflt "galsim.Moffat" .moffat rfl
      [("beta", x.beta), ("scale_radius", x.r0), ("trunc", 0), ("flux", x.flux)] _ hg _ ?_ ?_ ?_
    · simp
    · simp [bindArgs, ElCls.names]
    · simp only [El.Valid] at h
      simp [El.init, kwOk, ElCls.names, kwGet, Elt.Moffat.init, not_le.2 h.1, not_lt.2 h.2, El.gs]
  | spergel x =>
    refine eval_class hard analytic dflt "galsim.Spergel" .spergel rfl
      [("nu", x.nu), ("scale_radius", x.r0), ("flux", x.flux)] _ hg _ ?_ ?_ ?_
    · simp
    · simp [bindArgs, ElCls.names]
    · simp [El.init, kwOk, ElCls.names, kwGet, Elt.Spergel.init, El.gs]

theorem evalArgs_pos (e : Exp) (v : Val) (he : e.eval hard analytic dflt = some v) (l : List Exp)
    (l' : List (Option String × Val)) (hl : Exp.evalArgs hard analytic dflt l = some l') :
    Exp.evalArgs hard analytic dflt (e :: l) = some ((none, v) :: l') := by
  cases e <;> first
    | (simp [Exp.eval] at he; done)
    | (rw [Exp.evalArgs, he, hl]
       · rfl
       · simp)

theorem evalArgs_kw (n : String) (e : Exp) (v : Val) (he : e.eval hard analytic dflt = some v) (l : List Exp)
    (l' : List (Option String × Val)) (hl : Exp.evalArgs hard analytic dflt l = some l') :
    Exp.evalArgs hard analytic dflt (.kw n e :: l) = some ((some n, v) :: l') := by
  rw [Exp.evalArgs, he, hl]
  rfl

theorem evalArgs_nil : Exp.evalArgs hard analytic dflt [] = some [] := by rw [Exp.evalArgs]

theorem asObjs_map (l : List PObj) : asObjs (l.map .obj) = some l := by
  induction l with
  | nil => rfl
  | cons o l ih => simp [asObjs, ih]

/-- Lists of texts. -/
theorem eval_list {l : List PObj} (h : ∀ o ∈ l, ∃ o', o.repr.eval hard analytic dflt = some (.obj o') ∧ o'.view = o.view) :
    ∃ l', (Exp.seq (PObj.reprList l)).eval hard analytic dflt = some (.seq (l'.map .obj)) ∧
      PObj.viewList l' = PObj.viewList l := by
  have : ∃ l', Exp.evalSeq hard analytic dflt (PObj.reprList l) = some (l'.map .obj) ∧ PObj.viewList l' = PObj.viewList l := by
    induction l with
    | nil => exact ⟨[], by simp [PObj.reprList, Exp.evalSeq]⟩
    | cons o l ih =>
      obtain ⟨l', h1, h2⟩ := ih fun o' ho' => h o' (List.mem_cons_of_mem _ ho')
      obtain ⟨o', h3, h4⟩ := h o List.mem_cons_self
      exact ⟨o' :: l', by simp [PObj.reprList, Exp.evalSeq, h1, h3], by simp [PObj.viewList, h2, h4]⟩
  obtain ⟨l', h1, h2⟩ := this
  exact ⟨l', by rw [Exp.eval, h1]; rfl, h2⟩

theorem call_sum (l : List PObj) (g : GSP) (p : Bool) :
    callFn hard analytic dflt "galsim.Sum" [(none, .seq (l.map .obj)), (some "gsparams", .gsp g),
      (some "propagate_gsparams", .bool p)] = (PObj.mkSum l (some g) p).map .obj := by
  simp [callFn, callSum, kwArgs, posArgs, kwOk, starArgs, asObjs_map, kwGS, kwGet, kwBool]

theorem call_conv (l : List PObj) (g : GSP) (p rs : Bool) :
    callFn hard analytic dflt "galsim.Convolution" [(none, .seq (l.map .obj)), (some "real_space", .bool rs),
      (some "gsparams", .gsp g), (some "propagate_gsparams", .bool p)] =
      (PObj.mkConv hard analytic l (some g) p (some rs)).map .obj := by
  simp [callFn, callConv, kwArgs, posArgs, kwOk, starArgs, asObjs_map, kwGS, kwGet, kwBool, realSpaceOf]

theorem call_deconv (o : PObj) (g : GSP) (p : Bool) :
    callFn hard analytic dflt "galsim.Deconvolution" [(none, .obj o), (some "gsparams", .gsp g),
      (some "propagate_gsparams", .bool p)] = (o.mkDeconv (some g) p).map .obj := by
  have hb : bindArgs ["obj", "gsparams", "propagate_gsparams"] [(none, .obj o), (some "gsparams", .gsp g),
      (some "propagate_gsparams", .bool p)] =
      some [("obj", .obj o), ("gsparams", .gsp g), ("propagate_gsparams", .bool p)] := by
    simp [bindArgs]
  obtain ⟨b, eb⟩ : ∃ b, b = [("obj", Val.obj o), ("gsparams", .gsp g), ("propagate_gsparams", .bool p)] := ⟨_, rfl⟩
  have k1 : kwGet b "obj" = some (.obj o) := by rw [eb]; simp [kwGet]
  have k2 : kwGS b = some (some g) := by rw [eb]; simp [kwGS, kwGet]
  have k3 : kwBool b "propagate_gsparams" true = some p := by rw [eb]; simp [kwBool, kwGet]
  have hf : callFn hard analytic dflt "galsim.Deconvolution" = callDeconv := by
    funext args
    simp [callFn]
  rw [hf, callDeconv, hb, ← eb, Option.bind_some, k1]
  simp only [k2, k3, Option.bind_some]

theorem call_trans (o : PObj) (J : Mat2) (off : ℝ × ℝ) (r : ℝ) (g : GSP) (p : Bool) :
    callFn hard analytic dflt "galsim.Transformation" [(none, .obj o), (some "jac", .seq [.num J.a, .num J.b, .num J.c, .num J.d]),
      (some "offset", .pos off), (some "flux_ratio", .num r), (some "gsparams", .gsp g), (some "propagate_gsparams", .bool p)] =
      (o.mkTrans J off r (some g) p).map .obj := by
  have hb : bindArgs ["obj", "jac", "offset", "flux_ratio", "gsparams", "propagate_gsparams"] [(none, .obj o),
      (some "jac", .seq [.num J.a, .num J.b, .num J.c, .num J.d]), (some "offset", .pos off), (some "flux_ratio", .num r),
      (some "gsparams", .gsp g), (some "propagate_gsparams", .bool p)] =
      some [("obj", .obj o), ("jac", .seq [.num J.a, .num J.b, .num J.c, .num J.d]), ("offset", .pos off), ("flux_ratio", .num r),
        ("gsparams", .gsp g), ("propagate_gsparams", .bool p)] := by
    simp [bindArgs]
  have hf : callFn hard analytic dflt "galsim.Transformation" = callTrans := by
    funext args
    simp [callFn]
  obtain ⟨b, eb⟩ : ∃ b, b = [("obj", Val.obj o), ("jac", .seq [.num J.a, .num J.b, .num J.c, .num J.d]), ("offset", .pos off),
      ("flux_ratio", .num r), ("gsparams", .gsp g), ("propagate_gsparams", .bool p)] := ⟨_, rfl⟩
  have k1 : kwGet b "obj" = some (.obj o) := by rw [eb]; simp [kwGet]
  have k2 : kwGS b = some (some g) := by rw [eb]; simp [kwGS, kwGet]
  have k3 : kwBool b "propagate_gsparams" true = some p := by rw [eb]; simp [kwBool, kwGet]
  have k4 : jacOf b = some J := by rw [eb]; simp [jacOf, kwGet, asNums]
  have k5 : offsetOf b = some off := by rw [eb]; simp [offsetOf, kwGet]
  have k6 : kwReal b "flux_ratio" 1 = some r := by rw [eb]; simp [kwReal, kwGet]
  rw [hf, callTrans, hb, ← eb, Option.bind_some, k1]
  simp only [k2, k3, k4, k5, k6, Option.bind_some]

theorem gsAll_list {l : List PObj} {o : PObj} (h : o ∈ l) {g : GSP} (hg : g ∈ o.gsAll) : g ∈ PObj.gsAllList l := by
  induction l with
  | nil => exact absurd h List.not_mem_nil
  | cons a l ih =>
    rw [PObj.gsAllList, List.mem_append]
    rcases List.mem_cons.1 h with rfl | h
    · exact .inl hg
    · exact .inr (ih h)

theorem eval_neat (o : PObj) (h : Neat o) : (∀ g ∈ o.gsAll, Ints g) →
    ∃ o', o.repr.eval hard analytic dflt = some (.obj o') ∧ o'.view = o.view := by
  induction h with
  | elem e he =>
    intro hi
    exact ⟨.elem e, by rw [PObj.repr]; exact eval_elem hard analytic dflt e he (hi _ (by simp [PObj.gsAll])), rfl⟩
  | trans o J off r g p ho ht hg ih =>
    intro hi
    have hg1 := hi g (by simp [PObj.gsAll])
    obtain ⟨o', h1, h2⟩ := ih fun g' hg' => hi g' (by simp [PObj.gsAll, hg'])
    have e1 := evalArgs_pos hard analytic dflt _ _ h1 _ _ <|
      evalArgs_kw hard analytic dflt "jac" (.seq [.num J.a, .num J.b, .num J.c, .num J.d])
        (.seq [.num J.a, .num J.b, .num J.c, .num J.d]) (by simp [Exp.eval, Exp.evalSeq]) _ _ <|
      evalArgs_kw hard analytic dflt "offset" _ _ (eval_pos hard analytic dflt off) _ _ <|
      evalArgs_kw hard analytic dflt "flux_ratio" (.num r) (.num r) (by rw [Exp.eval]) _ _ <|
      evalArgs_kw hard analytic dflt "gsparams" _ _ (C111_gsparams_partial hard analytic dflt g hg1) _ _ <|
      evalArgs_kw hard analytic dflt "propagate_gsparams" (.bool p) (.bool p) (by rw [Exp.eval]) _ _
        (evalArgs_nil hard analytic dflt)
    have ht' : ¬ o'.IsTrans := by
      intro h
      apply ht
      cases o' with
      | trans =>
        cases o <;> simp [PObj.view] at h2
        trivial
      | _ => exact absurd h id
    have hw : (if p = true then o'.withGS g else some o') = some o' := by
      split_ifs with hp
      · rw [← hg hp, ← view_gs, ← h2, view_gs]
        exact withGS_self o'
      · rfl
    have e2 : o'.mkTrans J off r (some g) p = some (.trans o' J off r g p) := by
      simp only [PObj.mkTrans, Option.getD_some, hw, Option.map_some]
      cases o' <;> first | rfl | exact absurd trivial ht'
    refine ⟨.trans o' J off r g p, ?_, by rw [PObj.view, PObj.view, h2]⟩
    rw [PObj.repr, Exp.eval, e1, Option.bind_some, call_trans, e2]
    rfl
  | sum l g p hl hg hs ih =>
    intro hi
    have hg1 := hi g (by simp [PObj.gsAll])
    obtain ⟨l', h1, h2⟩ := eval_list hard analytic dflt (l := l) fun o ho =>
      ih o ho fun g' hg' => hi g' (by simp [PObj.gsAll, gsAll_list ho hg'])
    have e1 := evalArgs_pos hard analytic dflt _ _ h1 _ _ <|
      evalArgs_kw hard analytic dflt "gsparams" _ _ (C111_gsparams_partial hard analytic dflt g hg1) _ _ <|
      evalArgs_kw hard analytic dflt "propagate_gsparams" (.bool p) (.bool p) (by rw [Exp.eval]) _ _
        (evalArgs_nil hard analytic dflt)
    have hm := viewList_mem h2
    have hterms : l'.flatMap PObj.terms = l' := by
      have : ∀ o ∈ l', o.terms = [o] := by
        intro o' ho'
        obtain ⟨o, ho, e⟩ := hm o' ho'
        have hns : ¬ o'.IsSum := by
          rw [← view_isSum, e, view_isSum]
          exact hs o ho
        cases o' <;> first | rfl | exact absurd trivial hns
      rw [List.flatMap_congr this]
      simp
    have hw : (if p = true then PObj.withGSList l' g else some l') = some l' := by
      split_ifs with hp
      · apply withGSList_self
        intro o' ho'
        obtain ⟨o, ho, e⟩ := hm o' ho'
        rw [← view_gs, e, view_gs]
        exact hg hp o ho
      · rfl
    refine ⟨.sum l' g p, ?_, by rw [PObj.view, PObj.view, h2]⟩
    rw [PObj.repr, Exp.eval, e1, Option.bind_some, call_sum]
    simp only [PObj.mkSum, hterms, compositeGS, Option.bind_some, hw, Option.map_some]
  | conv l pl g p hl hg ih =>
    intro hi
    have hg1 := hi g (by simp [PObj.gsAll])
    obtain ⟨l', h1, h2⟩ := eval_list hard analytic dflt (l := l) fun o ho =>
      ih o ho fun g' hg' => hi g' (by simp [PObj.gsAll, gsAll_list ho hg'])
    have e1 := evalArgs_pos hard analytic dflt _ _ h1 _ _ <|
      evalArgs_kw hard analytic dflt "real_space" (.bool false) (.bool false) (by rw [Exp.eval]) _ _ <|
      evalArgs_kw hard analytic dflt "gsparams" _ _ (C111_gsparams_partial hard analytic dflt g hg1) _ _ <|
      evalArgs_kw hard analytic dflt "propagate_gsparams" (.bool p) (.bool p) (by rw [Exp.eval]) _ _
        (evalArgs_nil hard analytic dflt)
    have hm := viewList_mem h2
    have hw : (if p = true then PObj.withGSList l' g else some l') = some l' := by
      split_ifs with hp
      · apply withGSList_self
        intro o' ho'
        obtain ⟨o, ho, e⟩ := hm o' ho'
        rw [← view_gs, e, view_gs]
        exact hg hp o ho
      · rfl
    refine ⟨.conv l' l' g p false, ?_, by rw [PObj.view, PObj.view, h2]⟩
    rw [PObj.repr, Exp.eval, e1, Option.bind_some, call_conv]
    simp only [PObj.mkConv, convolveCtor, compositeGS, Option.bind_some, hw, Option.map_some, Bool.false_eq_true, if_false]
  | deconv o g p ho hg ih =>
    intro hi
    have hg1 := hi g (by simp [PObj.gsAll])
    obtain ⟨o', h1, h2⟩ := ih fun g' hg' => hi g' (by simp [PObj.gsAll, hg'])
    have e1 := evalArgs_pos hard analytic dflt _ _ h1 _ _ <|
      evalArgs_kw hard analytic dflt "gsparams" _ _ (C111_gsparams_partial hard analytic dflt g hg1) _ _ <|
      evalArgs_kw hard analytic dflt "propagate_gsparams" (.bool p) (.bool p) (by rw [Exp.eval]) _ _
        (evalArgs_nil hard analytic dflt)
    have hw : (if p = true then o'.withGS g else some o') = some o' := by
      split_ifs with hp
      · rw [← hg hp, ← view_gs, ← h2, view_gs]
        exact withGS_self o'
      · rfl
    refine ⟨.deconv o' g p, ?_, by rw [PObj.view, PObj.view, h2]⟩
    rw [PObj.repr, Exp.eval, e1, Option.bind_some, call_deconv]
    simp only [PObj.mkDeconv, Option.getD_some, hw, Option.map_some]

/-- C111: `eval(repr(o)) == o` for every existing profile: any nesting of transformations, sums, convolutions and deconvolutions of
concrete profiles, with any `propagate_gsparams` and `gsparams` changed in any way.  Partial: `Built` and `Ints` exclude the two
cases where the code fails; interpolated images are left out. -/
theorem C111_roundtrip_partial (o : PObj) (h : Built hard analytic o) (hi : ∀ g ∈ o.gsAll, Ints g) :
    ∃ o', o.repr.eval hard analytic dflt = some (.obj o') ∧ o'.view = o.view :=
  eval_neat hard analytic dflt o h.neat hi

/-- C111: two existing profiles have the same text exactly when they are equal. -/
theorem C111_injective_partial (o1 o2 : PObj) (h1 : Built hard analytic o1) (h2 : Built hard analytic o2)
    (i1 : ∀ g ∈ o1.gsAll, Ints g) (i2 : ∀ g ∈ o2.gsAll, Ints g) : o1.repr = o2.repr ↔ o1.view = o2.view := by
  constructor
  · intro e
    obtain ⟨a, ha, va⟩ := eval_neat hard analytic (fun _ => 0) o1 h1.neat i1
    obtain ⟨b, hb, vb⟩ := eval_neat hard analytic (fun _ => 0) o2 h2.neat i2
    rw [e, hb] at ha
    obtain rfl : b = a := by simpa using ha
    rw [← va, vb]
  · intro e
    have key : ∀ o : PObj, o.view.repr = o.repr := repr_view
    rw [← key o1, ← key o2, e]

/-- Parameters with `table_spacing = 1/2`. -/
noncomputable def halfGS : GSP := fun f => if f = .table_spacing then 1 / 2 else 1

/-- Disagreement: `GSParams.__repr__` prints `table_spacing` (and the two FFT sizes) with `%d` (gsparams.py:141-145), so a value that
is not an integer is cut off and the text reads back as other parameters. -/
theorem C111_counterexample_gsparams :
    ∃ g', (gsRepr halfGS).eval hard analytic dflt = some (.gsp g') ∧ g' .table_spacing = 0 ∧ g' ≠ halfGS := by
  have h0 : pctD (1 / 2) = 0 := by
    have : ⌊(1 / 2 : ℝ)⌋ = 0 := by rw [Int.floor_eq_zero_iff]; constructor <;> norm_num
    simp only [pctD, this]
    norm_num
  have h1 : pctD 1 = 1 := pctD_int ⟨1, by simp⟩
  obtain ⟨g', hg'⟩ : ∃ g' : GSP, g' = fun f => if f = .table_spacing then 0 else 1 := ⟨_, rfl⟩
  have e : gsRepr halfGS = gsRepr g' := by
    have hz : pctD 0 = 0 := pctD_int ⟨0, by simp⟩
    simp [gsRepr, halfGS, hg', h1, hz]
    simpa using h0
  refine ⟨g', ?_, by simp [hg'], ?_⟩
  · rw [e]
    refine C111_gsparams_partial hard analytic dflt g' ⟨⟨1, by simp [hg']⟩, ⟨1, by simp [hg']⟩, ⟨0, by simp [hg']⟩⟩
  · intro h
    have := congrFun h .table_spacing
    norm_num [hg', halfGS] at this

/-- Disagreement: a propagating transformation of a transformation that does not propagate keeps the parameters of the innermost
profile (transform.py:63-65, 77-87), although its text says that they are propagated: read back, the innermost profile has other
parameters. -/
theorem C111_counterexample_propagate (g0 gA : GSP) (h0 : g0 ≠ gA) (i0 : Ints g0) (iA : Ints gA) :
    ∃ o o', ((cxG g0).mkTrans .one 0 1 (some gA) false).bind (fun t => t.mkTrans .one 0 1 none true) = some o ∧
      o.repr.eval hard analytic dflt = some (.obj o') ∧ o'.view ≠ o.view := by
  have e1 : (cxG g0).mkTrans .one 0 1 (some gA) false = some (.trans (cxG g0) .one 0 1 gA false) := by
    simp [PObj.mkTrans, cxG]
  have e2 : (PObj.trans (cxG g0) .one 0 1 gA false).mkTrans .one 0 1 none true = some (cxT g0 gA) := by
    have := withGS_self (.trans (cxG g0) .one 0 1 gA false)
    simp only [PObj.gs] at this
    simp only [PObj.mkTrans, Option.getD_none, if_true, PObj.gs, this, Option.map_some, cxT]
  obtain ⟨J, hJ⟩ : ∃ J, J = Mat2.one.mul .one := ⟨_, rfl⟩
  obtain ⟨off, hoff⟩ : ∃ off, off = (0 : ℝ × ℝ) + Mat2.one.app 0 := ⟨_, rfl⟩
  have et : cxT g0 gA = .trans (cxG g0) J off (1 * 1) gA true := by rw [cxT, hJ, hoff]
  have eg : (cxG g0).repr.eval hard analytic dflt = some (.obj (cxG g0)) := by
    rw [cxG, PObj.repr]
    exact eval_elem hard analytic dflt _ trivial i0
  refine ⟨cxT g0 gA, .trans (cxG gA) J off (1 * 1) gA true, by rw [e1, Option.bind_some, e2], ?_, ?_⟩
  · have a1 := evalArgs_pos hard analytic dflt _ _ eg _ _ <|
      evalArgs_kw hard analytic dflt "jac" (.seq [.num J.a, .num J.b, .num J.c, .num J.d])
        (.seq [.num J.a, .num J.b, .num J.c, .num J.d]) (by simp [Exp.eval, Exp.evalSeq]) _ _ <|
      evalArgs_kw hard analytic dflt "offset" _ _ (eval_pos hard analytic dflt off) _ _ <|
      evalArgs_kw hard analytic dflt "flux_ratio" (.num (1 * 1)) (.num (1 * 1)) (by rw [Exp.eval]) _ _ <|
      evalArgs_kw hard analytic dflt "gsparams" _ _ (C111_gsparams_partial hard analytic dflt gA iA) _ _ <|
      evalArgs_kw hard analytic dflt "propagate_gsparams" (.bool true) (.bool true) (by rw [Exp.eval]) _ _
        (evalArgs_nil hard analytic dflt)
    rw [et, PObj.repr, Exp.eval, a1, Option.bind_some, call_trans]
    simp only [PObj.mkTrans, Option.getD_some, if_true, cx_gauss, Option.map_some]
    rfl
  · rw [et]
    intro h
    simp only [cxG, PObj.view, PObj.trans.injEq, PObj.elem.injEq, El.gaussian.injEq, Elt.Gaussian.mk.injEq] at h
    exact h0 h.1.2.2.symm

end

/-- A Gaussian of a shifted sum with its own parameters that it does not propagate: built, integer parameters, and read back. -/
example (hard analytic : PObj → Bool) (dflt : GSP) :
    ∃ o o', Built hard analytic o ∧ (∃ g1 ∈ o.gsAll, ∃ g2 ∈ o.gsAll, g1 ≠ g2) ∧
      o.repr.eval hard analytic dflt = some (.obj o') ∧ o'.view = o.view := by
  obtain ⟨g1, h1⟩ : ∃ g : GSP, g = fun _ => 1 := ⟨_, rfl⟩
  obtain ⟨g2, h2⟩ : ∃ g : GSP, g = fun _ => 2 := ⟨_, rfl⟩
  have hne : g1 ≠ g2 := fun h => by
    have := congrFun h .maxk_threshold
    norm_num [h1, h2] at this
  have i1 : Ints g1 := ⟨⟨1, by simp [h1]⟩, ⟨1, by simp [h1]⟩, ⟨1, by simp [h1]⟩⟩
  have i2 : Ints g2 := ⟨⟨2, by simp [h2]⟩, ⟨2, by simp [h2]⟩, ⟨2, by simp [h2]⟩⟩
  have m1 : Built hard analytic (.elem (.gaussian ⟨2, 1, g1⟩)) :=
    .elem _ ⟨.gaussian, [("sigma", 2)], g1, by simp [El.init, kwOk, ElCls.names, kwGet, Elt.Gaussian.init]⟩
  have m2 : Built hard analytic (.sum [.elem (.gaussian ⟨2, 1, g1⟩)] g2 false) :=
    .sum [.elem (.gaussian ⟨2, 1, g1⟩)] _ (some g2) false (by simp [m1]) (by simp [PObj.mkSum, PObj.terms, compositeGS])
  have m3 : Built hard analytic (.trans (.sum [.elem (.gaussian ⟨2, 1, g1⟩)] g2 false) .one (1, 2) 3 g2 true) :=
    .trans _ _ .one (1, 2) 3 none true m2 (by simp) (by simp [PObj.mkTrans, PObj.withGS, PObj.gs])
  have ha : PObj.gsAll (.trans (.sum [.elem (.gaussian ⟨2, 1, g1⟩)] g2 false) .one (1, 2) 3 g2 true) = [g2, g2, g1] := by
    simp [PObj.gsAll, PObj.gsAllList, El.gs]
  obtain ⟨o', h3, h4⟩ := C111_roundtrip_partial hard analytic dflt _ m3 (by
    rw [ha]
    intro g hg
    simp only [List.mem_cons, List.not_mem_nil, or_false] at hg
    rcases hg with rfl | rfl | rfl <;> assumption)
  exact ⟨_, o', m3, ⟨g1, by simp [ha], g2, by simp [ha], hne⟩, h3, h4⟩

end JG.Tree
