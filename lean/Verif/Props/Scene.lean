import Verif.Props.DrawImage

/-!
Property C112: drawing several objects onto one image adds up their images, in any order.
-/

namespace JG

/-- Repeated `drawImage` (gsobject.py:587-820): drawing a list of objects one after the other onto the same image with
`add_to_image=True` (`none`: one of the calls
raised). -/
noncomputable def drawScene (g : DrawGS) (phot : PhotDraw) : DrawImg → List (Prof × DrawArgs) → Option DrawImg
  | im, [] => some im
  | im, e :: l =>
    match (drawImage g phot e.1 { e.2 with image := some im, addTo := true }).2 with
    | .ok r => drawScene g phot r l
    | .error _ => none

/-- Specification: the object is drawn without photons, on the wcs `W`, onto the image `im`. -/
def Plain (im : DrawImg) (W : WCS) (a : DrawArgs) : Prop :=
  a.method ≠ .phot ∧ a.setupOnly = false ∧ ({ a with image := some im } : DrawArgs).askedWcs = some W

/-- The light of one object on the pixels of an image with bounds `b`. -/
def Light (g : DrawGS) (o : Prof) (a : DrawArgs) (W : WCS) (b : Bounds ℤ) (v : ℕ → ℕ → ℝ) (f : ℝ) : Prop :=
  a.check = none ∧ (a.wcs.isSome && a.scale.isSome) = false ∧
  (a.bounds.isSome || a.nx.isSome || a.ny.isSome) = false ∧ (a.sensor || a.photonOps) = false ∧
  ∃ p q oc b0,
    W.profileToImage o (fluxScale a W.localWCS) ((adjustOffset b (a.place 0)).x, (adjustOffset b (a.place 0)).y) = some p ∧
    convolvePixel g a.method p = some q ∧ b.centerI = some oc ∧ setCenterB b ⟨0, 0⟩ = some b0 ∧
    (if q.analyticX then drawRealArr q b0 else drawFFTArr g q b0) = .ok v ∧
    f = arrSum b0 v / fluxScale a W.localWCS

theorem after_bounds {b b0 : Bounds ℤ} {oc : Pos ℤ} (hd : b.defined = true) (hx : 1 ≤ b.deltax) (hy : 1 ≤ b.deltay)
    (h1 : b.centerI = some oc) (h2 : setCenterB b ⟨0, 0⟩ = some b0) :
    b0.shift clsI oc false = { b with posPy := false } := by
  unfold setCenterB at h2
  rw [h1] at h2
  simp only [Option.map_some, Option.some.injEq] at h2
  subst h2
  have e1 : decide (b.deltax < 1) = false := by simpa using hx
  have e2 : decide (b.deltay < 1) = false := by simpa using hy
  simp only [Bounds.shift, Bounds.finish, clsI, e1, e2, Bool.and_false, Bool.or_false, Bool.not_false, Bool.and_true]
  rw [Bounds.mk.injEq]
  refine ⟨by ring, by ring, rfl, rfl, rfl, rfl, hd.symm⟩

theorem light_posPy {g : DrawGS} {o : Prof} {a : DrawArgs} {W : WCS} {b : Bounds ℤ} {v : ℕ → ℕ → ℝ} {f : ℝ} (p : Bool) :
    Light g o a W { b with posPy := p } v f ↔ Light g o a W b v f := by
  have e1 : ({ b with posPy := p } : Bounds ℤ).centerI = b.centerI := rfl
  have e2 : setCenterB { b with posPy := p } ⟨0, 0⟩ = setCenterB b ⟨0, 0⟩ := by
    unfold setCenterB
    rw [e1]
    simp [Bounds.shift, Bounds.finish]
  have e3 : adjustOffset { b with posPy := p } (a.place 0) = adjustOffset b (a.place 0) := rfl
  unfold Light
  rw [e1, e2, e3]

theorem determine_asked {n : ℝ} {a : DrawArgs} {W : WCS} (h : a.askedWcs = some W)
    (hW : ∀ s, W = .loc (.pix s) → 0 < s) (hno : (a.wcs.isSome && a.scale.isSome) = false) :
    determineWcs n a.scale a.wcs (a.image.bind (·.wcs)) = .ok W := by
  have hp := (positiveScale_spec n W).1 hW
  unfold DrawArgs.askedWcs at h
  unfold determineWcs
  cases hw : a.wcs with
  | some w =>
    rw [hw] at h hno
    simp only [Option.isSome_some, Bool.true_and] at hno
    simp only [Option.some.injEq] at h
    simp [hno, h, hp]
  | none =>
    rw [hw] at h
    cases hs : a.scale with
    | some s =>
      rw [hs] at h
      simp only [Option.some.injEq] at h
      simp [h, hp]
    | none =>
      rw [hs] at h
      simp only at h
      simp only
      rw [h]
      simp [hp]

/-- What a call that draws onto a given image does. -/
theorem draw_iff (g : DrawGS) (phot : PhotDraw) (o : Prof) (a : DrawArgs) (t : Bool) (im : DrawImg) (W : WCS)
    (hP : Plain im W a) (hW : ∀ s, W = .loc (.pix s) → 0 < s) (hd : im.bounds.defined = true)
    (hx : 1 ≤ im.bounds.deltax) (hy : 1 ≤ im.bounds.deltay) (x : Option DrawImg) (r : DrawImg) :
    drawImage g phot o { a with image := some im, addTo := t } = (x, .ok r) ↔
      ∃ v f, Light g o a W im.bounds v f ∧ x = some r ∧
        r = ⟨{ im.bounds with posPy := false }, some W, storeArr t im.arr v, some f⟩ := by
  obtain ⟨hm, hs, hask⟩ := hP
  obtain ⟨a', ha'⟩ : ∃ a', a' = ({ a with image := some im, addTo := t } : DrawArgs) := ⟨_, rfl⟩
  have c1 : a'.check = a.check := by rw [ha']; rfl
  have c2 : a'.scale = a.scale := by rw [ha']
  have c3 : a'.wcs = a.wcs := by rw [ha']
  have c4 : a'.image = some im := by rw [ha']
  have c5 : a'.method = a.method := by rw [ha']
  have c6 : ∀ l, fluxScale a' l = fluxScale a l := by rw [ha']; intro l; rfl
  have c7 : ∀ nb n, adjustOffset nb (a'.place n) = adjustOffset nb (a.place 0) := by rw [ha']; intro l n; rfl
  have c8 : getNewBounds (a'.place 0) = some im.bounds := by
    rw [ha']; simp [getNewBounds, DrawArgs.place, hd]
  have c9 : ∀ n, setupImage (a'.place n) =
      if (a.bounds.isSome || a.nx.isSome || a.ny.isSome) = true then none else some im.bounds := by
    rw [ha']; intro n; simp [setupImage, DrawArgs.place, hd]
  have c10 : a'.setupOnly = false := by rw [ha']; exact hs
  have c11 : (a'.sensor || a'.photonOps) = (a.sensor || a.photonOps) := by rw [ha']
  have c12 : a'.addTo = t := by rw [ha']
  have c13 : a'.askedWcs = some W := by rw [ha']; exact hask
  rw [← ha']
  constructor
  · intro h
    unfold drawImage at h
    split at h
    · simp at h
    rename_i hck
    by_cases hno : (a.wcs.isSome && a.scale.isSome) = true
    · exfalso
      rw [Bool.and_eq_true, Option.isSome_iff_exists] at hno
      obtain ⟨⟨w, hw⟩, hsc⟩ := hno
      rw [c3, c2, hw] at h
      simp [determineWcs, hsc] at h
    have hno : (a.wcs.isSome && a.scale.isSome) = false := by simpa using hno
    rw [determine_asked c13 hW (by rw [c2, c3]; exact hno)] at h
    simp only at h
    rw [c8] at h
    simp only at h
    rw [c6, c7, c5] at h
    split at h
    · simp at h
    rename_i p hp
    split at h
    · simp at h
    rename_i q hq
    unfold drawFinish at h
    rw [c9] at h
    split at h
    · simp at h
    rename_i b hb
    split at hb
    · simp at hb
    rename_i hbn
    simp only [Option.some.injEq] at hb
    subst hb
    rw [c10] at h
    simp only [Bool.false_eq_true, if_false] at h
    split at h
    swap
    · simp at h
    rename_i oc b0 hoc hb0
    have hab := after_bounds hd hx hy hoc hb0
    unfold drawStep at h
    rw [if_neg (by rw [c5]; exact hm), c11] at h
    by_cases hsen : (a.sensor || a.photonOps) = true
    · rw [hsen] at h; simp at h
    have hsen : (a.sensor || a.photonOps) = false := by simpa using hsen
    rw [hsen] at h
    simp only [Bool.false_eq_true, if_false] at h
    obtain ⟨D, hD⟩ : ∃ D, D = (if q.analyticX then drawRealArr q b0 else drawFFTArr g q b0) := ⟨_, rfl⟩
    have harr : (setupImg (a'.image.map (clearWcs a'.scale a'.wcs)) im.bounds W).arr = im.arr := by
      rw [c4]
      simp only [Option.map_some, setupImg]
      unfold clearWcs
      split_ifs <;> simp_all
    rw [← hD] at h
    cases D with
    | error e => simp at h
    | ok v =>
      simp only [Prod.mk.injEq, Except.ok.injEq] at h
      obtain ⟨h1, h2⟩ := h
      refine ⟨v, arrSum b0 v / fluxScale a W.localWCS,
        ⟨by rw [← c1]; exact hck, hno, by simpa using hbn, hsen, p, q, oc, b0, hp, hq, hoc, hb0, hD.symm, rfl⟩, ?_, ?_⟩
      · rw [← h1, ← h2, c4]; rfl
      · rw [← h2, hab, harr, c12]
  · rintro ⟨v, f, ⟨hck, hno, hbn, hsen, p, q, oc, b0, hp, hq, hoc, hb0, hD, hf⟩, hxr, hr⟩
    have hab := after_bounds hd hx hy hoc hb0
    have harr : (setupImg (a'.image.map (clearWcs a'.scale a'.wcs)) im.bounds W).arr = im.arr := by
      rw [c4]
      simp only [Option.map_some, setupImg]
      unfold clearWcs
      split_ifs <;> simp_all
    have hst : drawStep g phot a' q { setupImg (a'.image.map (clearWcs a'.scale a'.wcs)) im.bounds W with
        bounds := b0, wcs := some (.loc (.pix 1)) } = (storeArr t im.arr v, .ok (arrSum b0 v)) := by
      unfold drawStep
      rw [if_neg (by rw [c5]; exact hm), c11, hsen]
      simp only [Bool.false_eq_true, if_false]
      rw [hD, harr, c12]
    unfold drawImage
    rw [c1, hck]
    simp only
    rw [determine_asked c13 hW (by rw [c2, c3]; exact hno)]
    simp only
    rw [c8]
    simp only
    rw [c6, c7, c5, hp]
    simp only
    rw [hq]
    simp only
    unfold drawFinish
    rw [c9, hbn]
    simp only [Bool.false_eq_true, if_false]
    rw [c10]
    simp only [Bool.false_eq_true, if_false]
    rw [hoc, hb0]
    simp only
    rw [hst]
    simp only
    rw [hab, hxr, hr, hf, c4]
    rfl

/-- Specification: the pixels of one object drawn alone (no `add_to_image`) onto the image. -/
noncomputable def aloneArr (g : DrawGS) (phot : PhotDraw) (im : DrawImg) (e : Prof × DrawArgs) : ℕ → ℕ → ℝ :=
  match (drawImage g phot e.1 { e.2 with image := some im, addTo := false }).2 with
  | .ok s => s.arr
  | .error _ => fun _ _ => 0

/-- Specification: the object can be drawn alone onto the image. -/
def DrawsAlone (g : DrawGS) (phot : PhotDraw) (im : DrawImg) (e : Prof × DrawArgs) : Prop :=
  ∃ s, drawImage g phot e.1 { e.2 with image := some im, addTo := false } = (some s, .ok s)

theorem plain_of {im cur : DrawImg} {W : WCS} {a : DrawArgs} (h : Plain im W a) (hc : cur.wcs = some W) : Plain cur W a := by
  obtain ⟨h1, h2, h3⟩ := h
  refine ⟨h1, h2, ?_⟩
  unfold DrawArgs.askedWcs at h3 ⊢
  simp only at h3 ⊢
  cases hw : a.wcs with
  | some w => rw [hw] at h3; exact h3
  | none =>
    rw [hw] at h3
    cases hs : a.scale with
    | some s => rw [hs] at h3; exact h3
    | none => simp [hc]

/-- The same call on an image with the same rectangle and wcs. -/
theorem draw_again (g : DrawGS) (phot : PhotDraw) (im cur : DrawImg) (W : WCS) (e : Prof × DrawArgs)
    (hP : Plain im W e.2) (hPc : Plain cur W e.2) (hW : ∀ s, W = .loc (.pix s) → 0 < s) (hd : im.bounds.defined = true)
    (hx : 1 ≤ im.bounds.deltax) (hy : 1 ≤ im.bounds.deltay)
    (hb : ∃ p, cur.bounds = { im.bounds with posPy := p }) :
    (DrawsAlone g phot im e → ∃ r, (drawImage g phot e.1 { e.2 with image := some cur, addTo := true }).2 = .ok r) ∧
    (∀ r, (drawImage g phot e.1 { e.2 with image := some cur, addTo := true }).2 = .ok r →
      DrawsAlone g phot im e ∧ r.wcs = some W ∧ r.bounds = { im.bounds with posPy := false } ∧
      ∀ i j, r.arr i j = cur.arr i j + aloneArr g phot im e i j) := by
  obtain ⟨p, hp⟩ := hb
  have ic := draw_iff g phot e.1 e.2 true cur W hPc hW (by rw [hp]; exact hd) (by rw [hp]; exact hx) (by rw [hp]; exact hy)
  have ii := draw_iff g phot e.1 e.2 false im W hP hW hd hx hy
  constructor
  · rintro ⟨s, hs⟩
    obtain ⟨v, f, hL, -, -⟩ := (ii _ _).mp hs
    have := (ic _ _).mpr ⟨v, f, by rw [hp]; exact (light_posPy p).mpr hL, rfl, rfl⟩
    exact ⟨_, by rw [this]⟩
  · intro r hr
    obtain ⟨v, f, hL, -, hre⟩ := (ic _ r).mp (Prod.ext rfl hr)
    rw [hp] at hL
    have hs := (ii _ _).mpr ⟨v, f, (light_posPy p).mp hL, rfl, rfl⟩
    refine ⟨⟨_, hs⟩, by rw [hre], by rw [hre, hp], fun i j => ?_⟩
    unfold aloneArr
    rw [hs, hre]
    simp [storeArr]

theorem scene_again (g : DrawGS) (phot : PhotDraw) (im : DrawImg) (W : WCS)
    (hW : ∀ s, W = .loc (.pix s) → 0 < s) (hd : im.bounds.defined = true)
    (hx : 1 ≤ im.bounds.deltax) (hy : 1 ≤ im.bounds.deltay) (l : List (Prof × DrawArgs)) :
    ∀ cur : DrawImg, (∃ p, cur.bounds = { im.bounds with posPy := p }) → (∀ e ∈ l, Plain im W e.2 ∧ Plain cur W e.2) →
      ((∀ e ∈ l, DrawsAlone g phot im e) → ∃ r, drawScene g phot cur l = some r) ∧
      ∀ r, drawScene g phot cur l = some r →
        (∀ e ∈ l, DrawsAlone g phot im e) ∧
        (l ≠ [] → r.wcs = some W ∧ r.bounds = { im.bounds with posPy := false }) ∧
        ∀ i j, r.arr i j = cur.arr i j + (l.map fun e => aloneArr g phot im e i j).sum := by
  induction l with
  | nil =>
    intro cur hb hP
    refine ⟨fun _ => ⟨cur, rfl⟩, fun r hr => ?_⟩
    obtain rfl : cur = r := by simpa [drawScene] using hr
    refine ⟨by simp, by simp, by simp⟩
  | cons e l ih =>
    intro cur hb hP
    have hPe := hP e (by simp)
    obtain ⟨d1, d2⟩ := draw_again g phot im cur W e hPe.1 hPe.2 hW hd hx hy hb
    have next : ∀ c, (drawImage g phot e.1 { e.2 with image := some cur, addTo := true }).2 = .ok c →
        (∃ p, c.bounds = { im.bounds with posPy := p }) ∧ (∀ e' ∈ l, Plain im W e'.2 ∧ Plain c W e'.2) := by
      intro c hc
      obtain ⟨-, h2, h3, -⟩ := d2 c hc
      exact ⟨⟨_, h3⟩, fun e' he' => ⟨(hP e' (by simp [he'])).1, plain_of (hP e' (by simp [he'])).1 h2⟩⟩
    constructor
    · intro hal
      obtain ⟨c, hc⟩ := d1 (hal e (by simp))
      obtain ⟨n1, n2⟩ := next c hc
      obtain ⟨r, hr⟩ := (ih c n1 n2).1 fun e' he' => hal e' (by simp [he'])
      refine ⟨r, ?_⟩
      rw [drawScene, hc]
      exact hr
    · intro r hr
      rw [drawScene] at hr
      cases hc : (drawImage g phot e.1 { e.2 with image := some cur, addTo := true }).2 with
      | error er => rw [hc] at hr; simp at hr
      | ok c =>
        rw [hc] at hr
        simp only at hr
        obtain ⟨n1, n2⟩ := next c hc
        obtain ⟨e1, e2, e3, e4⟩ := d2 c hc
        obtain ⟨s1, s2, s3⟩ := (ih c n1 n2).2 r hr
        refine ⟨?_, fun _ => ?_, fun i j => ?_⟩
        · intro e' he'
          rcases List.mem_cons.mp he' with rfl | h
          · exact e1
          · exact s1 e' h
        · by_cases hl : l = []
          · subst hl
            obtain rfl : c = r := by simpa [drawScene] using hr
            exact ⟨e2, e3⟩
          · exact s2 hl
        · rw [s3, e4, List.map_cons, List.sum_cons, add_assoc]

/-- C112: objects drawn one after the other onto one image with `add_to_image=True`, by FFT or in real space, whatever
their places and methods: the calls succeed exactly if each object can be drawn alone, and every pixel is the old pixel
plus the sum of the pixels of the objects drawn alone.  Missing: photon shooting, where the pixels are random. -/
theorem C112_scene_partial (g : DrawGS) (phot : PhotDraw) (im : DrawImg) (W : WCS) (l : List (Prof × DrawArgs))
    (hW : ∀ s, W = .loc (.pix s) → 0 < s) (hd : im.bounds.defined = true)
    (hx : 1 ≤ im.bounds.deltax) (hy : 1 ≤ im.bounds.deltay) (hl : ∀ e ∈ l, Plain im W e.2) :
    ((∃ r, drawScene g phot im l = some r) ↔ ∀ e ∈ l, DrawsAlone g phot im e) ∧
    ∀ r, drawScene g phot im l = some r →
      (l ≠ [] → r.wcs = some W) ∧
      (r.bounds.xmin = im.bounds.xmin ∧ r.bounds.ymin = im.bounds.ymin ∧ r.bounds.deltax = im.bounds.deltax ∧
        r.bounds.deltay = im.bounds.deltay ∧ r.bounds.defined = true) ∧
      ∀ i j, r.arr i j = im.arr i j + (l.map fun e => aloneArr g phot im e i j).sum := by
  obtain ⟨h1, h2⟩ := scene_again g phot im W hW hd hx hy l im ⟨im.bounds.posPy, rfl⟩ fun e he => ⟨hl e he, hl e he⟩
  refine ⟨⟨fun ⟨r, hr⟩ => (h2 r hr).1, h1⟩, fun r hr => ?_⟩
  obtain ⟨-, s2, s3⟩ := h2 r hr
  refine ⟨fun h => (s2 h).1, ?_, s3⟩
  by_cases h : l = []
  · subst h
    obtain rfl : im = r := by simpa [drawScene] using hr
    exact ⟨rfl, rfl, rfl, rfl, hd⟩
  · rw [(s2 h).2]
    exact ⟨rfl, rfl, rfl, rfl, hd⟩

/-- C112, the order in which the objects are drawn does not matter. -/
theorem C112_order_partial (g : DrawGS) (phot : PhotDraw) (im : DrawImg) (W : WCS) (l l' : List (Prof × DrawArgs))
    (hW : ∀ s, W = .loc (.pix s) → 0 < s) (hd : im.bounds.defined = true)
    (hx : 1 ≤ im.bounds.deltax) (hy : 1 ≤ im.bounds.deltay) (hl : ∀ e ∈ l, Plain im W e.2) (hp : l.Perm l')
    (r : DrawImg) (hr : drawScene g phot im l = some r) :
    ∃ r', drawScene g phot im l' = some r' ∧ r'.bounds = r.bounds ∧ r'.wcs = r.wcs ∧ r'.arr = r.arr := by
  have hl' : ∀ e ∈ l', Plain im W e.2 := fun e he => hl e (hp.mem_iff.mpr he)
  obtain ⟨-, h2⟩ := scene_again g phot im W hW hd hx hy l im ⟨im.bounds.posPy, rfl⟩ fun e he => ⟨hl e he, hl e he⟩
  obtain ⟨h1', h2'⟩ := scene_again g phot im W hW hd hx hy l' im ⟨im.bounds.posPy, rfl⟩ fun e he => ⟨hl' e he, hl' e he⟩
  obtain ⟨s1, s2, s3⟩ := h2 r hr
  obtain ⟨r', hr'⟩ := h1' fun e he => s1 e (hp.mem_iff.mpr he)
  obtain ⟨-, t2, t3⟩ := h2' r' hr'
  refine ⟨r', hr', ?_, ?_, ?_⟩
  · by_cases h : l = []
    · subst h
      obtain rfl := hp.nil_eq
      rw [hr] at hr'
      rw [Option.some.inj hr']
    · rw [(s2 h).2, (t2 fun h' => h (by rw [h'] at hp; exact hp.eq_nil)).2]
  · by_cases h : l = []
    · subst h
      obtain rfl := hp.nil_eq
      rw [hr] at hr'
      rw [Option.some.inj hr']
    · rw [(s2 h).1, (t2 fun h' => h (by rw [h'] at hp; exact hp.eq_nil)).1]
  · funext i j
    rw [s3, t3, (hp.map _).sum_eq]

theorem sbL_sum (es : List Expr) (y : ℝ × ℝ) (v : ℝ) (h : Expr.sbL es y = some v) (f : Expr → ℝ)
    (hf : ∀ d ∈ es, d.sb y = some (f d)) : v = (es.map f).sum := by
  induction es generalizing v with
  | nil => simpa [Expr.sbL] using h.symm
  | cons d es ih =>
    rw [Expr.sbL, hf d (by simp)] at h
    simp only [Option.bind_some, Option.map_eq_some_iff] at h
    obtain ⟨b, hb, rfl⟩ := h
    rw [ih b hb fun d' hd' => hf d' (by simp [hd'])]
    simp

/-- One object drawn alone in real space onto a given image. -/
theorem alone_pixel (g : DrawGS) (phot : PhotDraw) (im : DrawImg) (W : WCS) (a : DrawArgs) (e : Expr)
    (hW : ∀ s, W = .loc (.pix s) → 0 < s) (hN : W.Nondeg) (hd : im.bounds.defined = true)
    (hx : 1 ≤ im.bounds.deltax) (hy : 1 ≤ im.bounds.deltay) (hP : Plain im W a)
    (hm : a.method = .noPixel ∨ a.method = .sb) (ha : e.build.analyticX = true) (s : DrawImg)
    (hs : drawImage g phot e.build { a with image := some im, addTo := false } = (some s, .ok s)) (i j : ℕ)
    (hi : (i : ℤ) < im.bounds.deltay) (hj : (j : ℤ) < im.bounds.deltax) :
    ∃ v, e.sb (W.docMap (((im.bounds.xmin + j : ℤ) : ℝ), ((im.bounds.ymin + i : ℤ) : ℝ)) -
            W.docMap (requestedPos (({ a with image := some im, addTo := false } : DrawArgs).place 0)
              { im.bounds with posPy := false })) = some v ∧
          s.arr i j = a.counts * (if a.method = .sb then 1 else W.localWCS.docArea) * v := by
  obtain ⟨w, h1, h2, h3, h4, h5⟩ := C81_real_partial g phot e _ _ _ hs hP.2.1
    (by intro i' hi' hf; simp only [Option.some.injEq] at hi'; rw [← hi', hd] at hf; cases hf) hm ha
  have hw : w = W := h1.1 W hP.2.2 hW
  subst hw
  obtain ⟨_, f, -, -, hre⟩ := (draw_iff g phot e.build a false im w hP hW hd hx hy _ _).mp hs
  have hb : s.bounds = { im.bounds with posPy := false } := by rw [hre]
  obtain ⟨v, hv1, hv2⟩ := (h5 hN).1 i j (by rw [hb]; exact hi) (by rw [hb]; exact hj)
  rw [hb] at hv1
  refine ⟨v, hv1, ?_⟩
  rw [hv2]
  simp [DrawArgs.oldPixel, DrawArgs.counts]

/-- C112, a sum of objects drawn in real space: every pixel of its image is the sum of the pixels of the images of the
summands.  Missing: drawing by FFT, where the sum and its terms are drawn with grids of different sizes. -/
theorem C112_sum_partial (g : DrawGS) (phot : PhotDraw) (im : DrawImg) (W : WCS) (a : DrawArgs) (e : Expr) (es : List Expr)
    (hW : ∀ s, W = .loc (.pix s) → 0 < s) (hN : W.Nondeg) (hd : im.bounds.defined = true)
    (hx : 1 ≤ im.bounds.deltax) (hy : 1 ≤ im.bounds.deltay) (hP : Plain im W a)
    (hm : a.method = .noPixel ∨ a.method = .sb) (ha : ∀ d ∈ e :: es, d.build.analyticX = true)
    (hall : ∀ d ∈ e :: es, DrawsAlone g phot im (d.build, a))
    (hsum : DrawsAlone g phot im ((Expr.add e es).build, a)) (i j : ℕ)
    (hi : (i : ℤ) < im.bounds.deltay) (hj : (j : ℤ) < im.bounds.deltax) :
    aloneArr g phot im ((Expr.add e es).build, a) i j =
      ((e :: es).map fun d => aloneArr g phot im (d.build, a) i j).sum := by
  have hbl : ∀ l : List Expr, (∀ d ∈ l, d.build.analyticX = true) → ∀ o ∈ Expr.buildL l, o.analyticX = true := by
    intro l
    induction l with
    | nil => intro _ o ho; simp [Expr.buildL] at ho
    | cons d l ih =>
      intro h o ho
      simp only [Expr.buildL, List.mem_cons] at ho
      rcases ho with rfl | ho
      · exact h d (by simp)
      · exact ih (fun d' hd' => h d' (by simp [hd'])) o ho
  have hA : (Expr.add e es).build.analyticX = true := by
    rw [Expr.build]
    refine (C44_flags _).2.mpr fun o ho => ?_
    rcases List.mem_cons.mp ho with rfl | ho
    · exact ha e (by simp)
    · exact hbl es (fun d hd' => ha d (by simp [hd'])) o ho
  obtain ⟨K, hK⟩ : ∃ K, K = a.counts * (if a.method = .sb then 1 else W.localWCS.docArea) := ⟨_, rfl⟩
  obtain ⟨Y, hY⟩ : ∃ Y, Y = W.docMap (((im.bounds.xmin + j : ℤ) : ℝ), ((im.bounds.ymin + i : ℤ) : ℝ)) -
            W.docMap (requestedPos (({ a with image := some im, addTo := false } : DrawArgs).place 0)
              { im.bounds with posPy := false }) := ⟨_, rfl⟩
  have one : ∀ d : Expr, d.build.analyticX = true → DrawsAlone g phot im (d.build, a) →
      ∃ v, d.sb Y = some v ∧ aloneArr g phot im (d.build, a) i j = K * v := by
    rintro d hda ⟨s, hs⟩
    obtain ⟨v, h1, h2⟩ := alone_pixel g phot im W a d hW hN hd hx hy hP hm hda s hs i j hi hj
    refine ⟨v, by rw [hY]; exact h1, ?_⟩
    unfold aloneArr
    simp only at hs ⊢
    rw [hs]
    rw [hK]
    exact h2
  obtain ⟨V, hV1, hV2⟩ := one _ hA hsum
  have hex : ∃ f : Expr → ℝ, ∀ d ∈ e :: es, d.sb Y = some (f d) ∧ aloneArr g phot im (d.build, a) i j = K * f d := by
    refine ⟨fun d => (d.sb Y).getD 0, fun d hd' => ?_⟩
    obtain ⟨v, h1, h2⟩ := one d (ha d hd') (hall d hd')
    simp only [h1, Option.getD_some]
    exact ⟨trivial, h2⟩
  obtain ⟨f, hf⟩ := hex
  have hVs : V = ((e :: es).map f).sum := by
    refine sbL_sum (e :: es) Y V ?_ f fun d hd' => (hf d hd').1
    rw [← hV1]; rfl
  rw [hV2, hVs, ← List.sum_map_mul_left]
  congr 1
  exact List.map_congr_left fun d hd' => (hf d hd').2.symm

/-- C112: objects with a surface brightness everywhere can be drawn alone, without the pixel and at any offset, on an
image of any size and scale, so the theorems above apply to them. -/
theorem C112_draws (g : DrawGS) (phot : PhotDraw) (e : Expr) (ha : e.build.analyticX = true)
    (hv : ∀ y, (e.sb y).isSome = true) (nx ny : ℤ) (hx : 0 < nx) (hy : 0 < ny) (s : ℝ) (hs : 0 < s)
    (arr : ℕ → ℕ → ℝ) (off : Pos ℝ) :
    Plain ⟨boundsFrom1 nx ny, some (.loc (.pix s)), arr, none⟩ (.loc (.pix s)) { method := .noPixel, offset := off } ∧
    DrawsAlone g phot ⟨boundsFrom1 nx ny, some (.loc (.pix s)), arr, none⟩
      (e.build, { method := .noPixel, offset := off }) := by
  have hP : Plain ⟨boundsFrom1 nx ny, some (.loc (.pix s)), arr, none⟩ (.loc (.pix s))
      { method := .noPixel, offset := off } := ⟨by simp, rfl, rfl⟩
  refine ⟨hP, ?_⟩
  obtain ⟨hc, b0, hb0, -⟩ := boundsFrom1_center hx hy
  have h1 : ¬ nx < 1 := by omega
  have h2 : ¬ ny < 1 := by omega
  have hd : (boundsFrom1 nx ny).defined = true := by
    simp [boundsFrom1, Bounds.mkDelta, Bounds.finish, clsI, h1, h2]
  have hck : ({ method := .noPixel, offset := off } : DrawArgs).check = none := by
    have h1 : ¬ ((1 : ℝ) ≤ 0) := by norm_num
    simp [DrawArgs.check, h1]
  have key : ∀ x r, drawImage g phot e.build
      { ({ method := .noPixel, offset := off } : DrawArgs) with
        image := some ⟨boundsFrom1 nx ny, some (.loc (.pix s)), arr, none⟩, addTo := false } = (x, .ok r) ↔ _ :=
    draw_iff g phot e.build { method := .noPixel, offset := off } false
      ⟨boundsFrom1 nx ny, some (.loc (.pix s)), arr, none⟩ (.loc (.pix s)) hP
      (by intro s' hs'; simp only [WCS.loc.injEq, LocalWCS.pix.injEq] at hs'; rw [← hs']; exact hs) hd hx hy
  obtain ⟨o, ho⟩ : ∃ o, o = adjustOffset (boundsFrom1 nx ny)
    (({ method := .noPixel, offset := off } : DrawArgs).place 0) := ⟨_, rfl⟩
  obtain ⟨fs, hfs⟩ : ∃ fs, fs = fluxScale { method := .noPixel, offset := off } (LocalWCS.pix s) := ⟨_, rfl⟩
  have hq : mkTransform e.build ⟨1 / s, 0, 0, 1 / s⟩ (o.x, o.y) (s ^ 2 * fs) =
    (Expr.tr e ⟨1 / s, 0, 0, 1 / s⟩ (o.x, o.y) (s ^ 2 * fs)).build := rfl
  have hreal : ∃ v, drawRealArr (mkTransform e.build ⟨1 / s, 0, 0, 1 / s⟩ (o.x, o.y) (s ^ 2 * fs)) b0 = .ok v := by
    unfold drawRealArr
    rw [if_pos]
    · exact ⟨_, rfl⟩
    intro i j _ _
    rw [hq]
    simp only
    rw [C48_drawReal_plain]
    simp only [Option.isSome_map, Expr.sb]
    rw [if_neg (by simp [hs.ne'])]
    simp [hv]
  obtain ⟨v, hv'⟩ := hreal
  have hqa : (mkTransform e.build ⟨1 / s, 0, 0, 1 / s⟩ (o.x, o.y) (s ^ 2 * fs)).analyticX = true := by
    rw [analyticX_mk, ha]
  refine ⟨_, (key _ _).mpr ⟨v, arrSum b0 v / fs,
    ⟨hck, rfl, rfl, rfl, mkTransform e.build ⟨1 / s, 0, 0, 1 / s⟩ (o.x, o.y) (s ^ 2 * fs),
      mkTransform e.build ⟨1 / s, 0, 0, 1 / s⟩ (o.x, o.y) (s ^ 2 * fs), _, b0, ?_, rfl, hc, hb0, ?_, ?_⟩, rfl, rfl⟩⟩
  · simp only [WCS.profileToImage, WCS.localWCS, LocalWCS.profileToImage, if_neg hs.ne']
    rw [← ho, ← hfs]
  · rw [if_pos hqa, hv']
  · rw [hfs]; rfl

/-- Two objects at different places, drawn onto a 32 by 48 image, in either order. -/
example (g : DrawGS) (phot : PhotDraw) (arr : ℕ → ℕ → ℝ) :
    ∃ r r', drawScene g phot ⟨boundsFrom1 32 48, some (.loc (.pix 2)), arr, none⟩
        [((Expr.leaf sampleLeaf).build, { method := .noPixel, offset := ⟨3, 1 / 2⟩ }),
         ((Expr.tr (.leaf sampleLeaf) ⟨2, 0, 0, 1⟩ 0 1).build, { method := .noPixel, offset := ⟨-5, 0⟩ })] = some r ∧
      drawScene g phot ⟨boundsFrom1 32 48, some (.loc (.pix 2)), arr, none⟩
        [((Expr.tr (.leaf sampleLeaf) ⟨2, 0, 0, 1⟩ 0 1).build, { method := .noPixel, offset := ⟨-5, 0⟩ }),
         ((Expr.leaf sampleLeaf).build, { method := .noPixel, offset := ⟨3, 1 / 2⟩ })] = some r' ∧
      r'.arr = r.arr := by
  have a1 := C112_draws g phot (.leaf sampleLeaf) rfl (fun y => by simp [Expr.sb, sampleLeaf]) 32 48 (by norm_num)
    (by norm_num) 2 (by norm_num) arr ⟨3, 1 / 2⟩
  have a2 := C112_draws g phot (.tr (.leaf sampleLeaf) ⟨2, 0, 0, 1⟩ 0 1) rfl (fun y => by simp [Expr.sb, sampleLeaf]) 32 48
    (by norm_num) (by norm_num) 2 (by norm_num) arr ⟨-5, 0⟩
  have hl : ∀ e ∈ [((Expr.leaf sampleLeaf).build, ({ method := .noPixel, offset := ⟨3, 1 / 2⟩ } : DrawArgs)),
         ((Expr.tr (.leaf sampleLeaf) ⟨2, 0, 0, 1⟩ 0 1).build, { method := .noPixel, offset := ⟨-5, 0⟩ })],
      Plain ⟨boundsFrom1 32 48, some (.loc (.pix 2)), arr, none⟩ (.loc (.pix 2)) e.2 := by
    intro e he
    simp only [List.mem_cons, List.not_mem_nil, or_false] at he
    rcases he with rfl | rfl
    · exact a1.1
    · exact a2.1
  have hW : ∀ s, WCS.loc (.pix 2) = .loc (.pix s) → 0 < s := by
    intro s h
    simp only [WCS.loc.injEq, LocalWCS.pix.injEq] at h
    rw [← h]; norm_num
  have b1 : (boundsFrom1 32 48).defined = true := by decide
  have b2 : 1 ≤ (boundsFrom1 32 48).deltax := by decide
  have b3 : 1 ≤ (boundsFrom1 32 48).deltay := by decide
  obtain ⟨r, hr⟩ := ((C112_scene_partial g phot _ _ _ hW b1 b2 b3 hl).1).mpr (by
    intro e he
    simp only [List.mem_cons, List.not_mem_nil, or_false] at he
    rcases he with rfl | rfl
    · exact a1.2
    · exact a2.2)
  obtain ⟨r', hr', -, -, h⟩ := C112_order_partial g phot _ _ _ _ hW b1 b2 b3 hl
    (List.Perm.swap _ _ []) r hr
  exact ⟨r, r', hr, hr', h⟩

end JG
