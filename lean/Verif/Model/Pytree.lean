import Verif.Model.Elementary
import Verif.Model.Profile
import Verif.Model.GSParams

/-!
Model of the `tree_flatten` / `tree_unflatten` pairs of deviates, noise objects, images, photon arrays and profiles.

A Python call `cls(**kwargs)` is `kwOk` (all names are parameters of the constructor, otherwise `TypeError`) followed by
looking up each parameter.  Exceptions are `none`.  Objects are values: that two objects share one random state (and no
longer share it after unflattening) is not represented here, see `Model/Random.lean`.
-/

namespace JG.Tree

/-- Every keyword is a parameter of the called constructor (Python's `TypeError: unexpected keyword argument`). -/
def kwOk {V : Type} (names : List String) (kw : List (String × V)) : Bool := kw.all fun p => names.contains p.1

/-- The value of a keyword, if given. -/
def kwGet {V : Type} : List (String × V) → String → Option V
  | [], _ => none
  | (m, v) :: rest, n => if m = n then some v else kwGet rest n

/-! ### Deviates -/

/-- The deviate classes of random.py:291-757. -/
inductive DevCls
  | base | uniform | gaussian | binomial | poisson | weibull | gamma | chi2
  deriving DecidableEq

/-- Names and defaults of the constructor parameters other than `seed`: random.py:81-83 (base and uniform), 312-317,
400-403, 466-469, 572-575, 642-645, 708-710. -/
noncomputable def DevCls.sig : DevCls → List (String × ℝ)
  | .base => []
  | .uniform => []
  | .gaussian => [("mean", 0), ("sigma", 1)]
  | .binomial => [("N", 1), ("p", 0.5)]
  | .poisson => [("mean", 1)]
  | .weibull => [("a", 1), ("b", 1)]
  | .gamma => [("k", 1), ("theta", 1)]
  | .chi2 => [("n", 1)]

/-- A deviate: class, random state and the dictionary `_params` (random.py:81-83 and the constructors above). -/
structure Dev (K : Type) where
  cls : DevCls
  state : K
  params : List (String × ℝ)

/-- The values the constructors reject: a negative `sigma` (random.py:320-331), a negative Poisson mean (473-484). -/
noncomputable def DevCls.rejects (c : DevCls) (params : List (String × ℝ)) : Bool :=
  match c with
  | .gaussian => (kwGet params "sigma").any fun s => decide (s < 0)
  | .poisson => (kwGet params "mean").any fun s => decide (s < 0)
  | _ => false

/-- `cls(seed, **kwargs)` where the seed is a random state (random.py:117-121): the constructors cited at `sig`. -/
noncomputable def Dev.init {K : Type} (c : DevCls) (state : K) (kw : List (String × ℝ)) : Option (Dev K) :=
  if kwOk (c.sig.map Prod.fst) kw then
    let params := c.sig.map fun p => (p.1, (kwGet kw p.1).getD p.2)
    if c.rejects params then none else some ⟨c, state, params⟩
  else none

/-- `tree_flatten`: random.py:260-267. -/
def Dev.flatten {K : Type} (d : Dev K) : K × List (String × ℝ) := (d.state, d.params)
/-- `tree_unflatten`: random.py:269-272. -/
noncomputable def Dev.unflatten {K : Type} (c : DevCls) (children : K × List (String × ℝ)) : Option (Dev K) :=
  Dev.init c children.1 children.2

/-! ### Noise -/

/-- The noise classes of noise.py. -/
inductive NoiseCls
  | base | gaussian | poisson | ccd | deviate | variable
  deriving DecidableEq

/-- Argument and attribute values of noise objects: a deviate, a number or an image (abstract type `I`). -/
inductive NVal (K I : Type)
  | dev (d : Dev K)
  | num (x : ℝ)
  | img (im : I)

/-- A noise object: `_rng` and the other attributes by their constructor name. -/
structure NoiseObj (K I : Type) where
  cls : NoiseCls
  rng : Dev K
  attrs : List (String × NVal K I)

/-- Constructor parameter names: noise.py:43, 135, 194, 286, 455, 510. -/
def NoiseCls.names : NoiseCls → List String
  | .base => ["rng"]
  | .gaussian => ["rng", "sigma"]
  | .poisson => ["rng", "sky_level"]
  | .ccd => ["rng", "sky_level", "gain", "read_noise"]
  | .deviate => ["dev"]
  | .variable => ["rng", "var_image"]

/-- The deviate among the keyword arguments.  Simplification: `rng=None` (a deviate with a fresh random seed) is not
modelled, so a missing one is `none`. -/
def kwDev {K I : Type} (kw : List (String × NVal K I)) (n : String) : Option (Dev K) :=
  match kwGet kw n with
  | some (.dev d) => some d
  | _ => none
/-- A numerical keyword argument with its default; a value of the wrong type raises. -/
def kwNum {K I : Type} (kw : List (String × NVal K I)) (n : String) (default : ℝ) : Option ℝ :=
  match kwGet kw n with
  | none => some default
  | some (.num x) => some x
  | some _ => none
/-- An image among the keyword arguments. -/
def kwImg {K I : Type} (kw : List (String × NVal K I)) (n : String) : Option I :=
  match kwGet kw n with
  | some (.img im) => some im
  | _ => none

/-- The constructors: noise.py:43-51, 135-137, 194-196, 286-290, 455-456, 510-514.  `ImageD(var_image)` is taken as a
plain copy. -/
noncomputable def NoiseObj.init {K I : Type} (c : NoiseCls) (kw : List (String × NVal K I)) : Option (NoiseObj K I) :=
  if kwOk c.names kw then
    match c with
    | .base => (kwDev kw "rng").map fun d => ⟨.base, d, []⟩
    | .gaussian =>
      (kwDev kw "rng").bind fun d => (kwNum kw "sigma" 1).bind fun s =>
        (Dev.init .gaussian d.state [("sigma", s)]).map fun g => ⟨.gaussian, g, [("sigma", .num s)]⟩
    | .poisson =>
      (kwDev kw "rng").bind fun d => (kwNum kw "sky_level" 0).bind fun s =>
        (Dev.init .poisson d.state []).map fun g => ⟨.poisson, g, [("sky_level", .num s)]⟩
    | .ccd =>
      (kwDev kw "rng").bind fun d => (kwNum kw "sky_level" 0).bind fun s => (kwNum kw "gain" 1).bind fun g =>
        (kwNum kw "read_noise" 0).map fun r =>
          ⟨.ccd, d, [("sky_level", .num s), ("gain", .num g), ("read_noise", .num r)]⟩
    | .deviate => (kwDev kw "dev").map fun d => ⟨.deviate, d, []⟩
    | .variable =>
      (kwDev kw "rng").bind fun d => (kwImg kw "var_image").bind fun im =>
        (Dev.init .gaussian d.state []).map fun g => ⟨.variable, g, [("var_image", .img im)]⟩
  else none

/-- The children in the order of `tree_flatten`: noise.py:117-124, 176-183, 268-275, 432-439, 492-499, 573-580. -/
def NoiseObj.flatten {K I : Type} (n : NoiseObj K I) : List (NVal K I) :=
  let at' (k : String) : List (NVal K I) := (kwGet n.attrs k).toList
  match n.cls with
  | .base => [.dev n.rng]
  | .gaussian => at' "sigma" ++ [.dev n.rng]
  | .poisson => at' "sky_level" ++ [.dev n.rng]
  | .ccd => [.dev n.rng] ++ at' "sky_level" ++ at' "gain" ++ at' "read_noise"
  | .deviate => [.dev n.rng]
  | .variable => [.dev n.rng] ++ at' "var_image"

/-- The keywords under which `tree_unflatten` passes the children: noise.py:126-130, 185-189, 277-281, 441-449, 501-505,
582-586 (positional, so the first two parameters). -/
def NoiseCls.unflattenNames : NoiseCls → List String
  | .base => ["rng"]
  | .gaussian => ["sigma", "rng"]
  | .poisson => ["sky_level", "rng"]
  | .ccd => ["rng", "sky_level", "gain", "read_noise"]
  | .deviate => ["rng"]
  | .variable => ["rng", "var_image"]

/-- `tree_unflatten`: lines as for `unflattenNames`. -/
noncomputable def NoiseObj.unflatten {K I : Type} (c : NoiseCls) (children : List (NVal K I)) : Option (NoiseObj K I) :=
  NoiseObj.init c (c.unflattenNames.zip children)

/-! ### Photon arrays and images -/

/-- The attributes of a photon array: photon_array.py:91-122.  `A` is the type of JAX arrays. -/
@[ext] structure PhotObj (A : Type) where
  ntot : ℕ
  x : A
  y : A
  flux : A
  nokeep : A
  dxdz : A
  dydz : A
  wave : A
  pupilU : A
  pupilV : A
  time : A
  isCorr : A

/-- The children and the static data of `tree_flatten`: photon_array.py:228-243. -/
def PhotObj.flatten {A : Type} (p : PhotObj A) : (List A × List (String × A)) × ℕ :=
  (([p.x, p.y, p.flux, p.nokeep],
    [("dxdz", p.dxdz), ("dydz", p.dydz), ("wavelength", p.wave), ("pupil_u", p.pupilU), ("pupil_v", p.pupilV),
      ("time", p.time), ("is_corr", p.isCorr)]), p.ntot)

/-- `tree_unflatten`: photon_array.py:245-262; `none`: `IndexError` or `KeyError`. -/
def PhotObj.unflatten {A : Type} (t : (List A × List (String × A)) × ℕ) : Option (PhotObj A) :=
  (t.1.1[0]?).bind fun x => (t.1.1[1]?).bind fun y => (t.1.1[2]?).bind fun fl => (t.1.1[3]?).bind fun nk =>
    (kwGet t.1.2 "dxdz").bind fun dxdz => (kwGet t.1.2 "dydz").bind fun dydz =>
    (kwGet t.1.2 "wavelength").bind fun wave => (kwGet t.1.2 "pupil_u").bind fun pu =>
    (kwGet t.1.2 "pupil_v").bind fun pv => (kwGet t.1.2 "time").bind fun time =>
    (kwGet t.1.2 "is_corr").map fun ic => ⟨t.2, x, y, fl, nk, dxdz, dydz, wave, pu, pv, time, ic⟩

/-- A child of an image: the pixel array, the coordinate system (or `None`), dynamic bounds, the added flux, a photon
array. -/
inductive ImVal (A W : Type)
  | array (a : A)
  | wcs (w : Option W)
  | bounds (xmin xmax ymin ymax : ℤ)
  | flux (x : ℝ)
  | photons (p : PhotObj A)

/-- The attributes of an image: image.py:198-230; `added_flux`, `header` and `photons` are set on the fly (`none`: not
set).  `static`: `bounds.isStatic()` (bounds.py).  The attributes `arr`, `wcs` and `addedFlux`, `photons` hold children
since unflattening stores whatever child it is given. -/
structure ImObj (A W H : Type) where
  arr : ImVal A W
  wcs : ImVal A W
  bounds : ImVal A W
  static : Bool
  dtype : String
  isconst : Bool
  addedFlux : Option (ImVal A W)
  header : Option H
  photons : Option (ImVal A W)

/-- The static data of an image: image.py:1246-1266.  `bounds = none`: no such key. -/
structure ImAux (A W H : Type) where
  dtype : String
  isconst : Bool
  bounds : Option (ImVal A W)
  header : Option H

/-- `tree_flatten`: image.py:1242-1266. -/
def ImObj.flatten {A W H : Type} (im : ImObj A W H) : List (ImVal A W) × ImAux A W H :=
  let children := if im.static then [im.arr, im.wcs] else [im.arr, im.wcs, im.bounds]
  (children ++ im.addedFlux.toList ++ im.photons.toList,
    ⟨im.dtype, im.isconst, if im.static then some im.bounds else none, im.header⟩)

/-- `tree_unflatten`: image.py:1268-1292; `none`: `IndexError`. -/
def ImObj.unflatten {A W H : Type} (aux : ImAux A W H) (children : List (ImVal A W)) : Option (ImObj A W H) :=
  (children[0]?).bind fun arr => (children[1]?).bind fun wcs =>
    match aux.bounds with
    | some b => some ⟨arr, wcs, b, true, aux.dtype, aux.isconst, children[2]?, aux.header, children[3]?⟩
    | none => (children[2]?).map fun b =>
        ⟨arr, wcs, b, false, aux.dtype, aux.isconst, children[3]?, aux.header, children[4]?⟩

/-! ### Elementary profiles -/

/-- A concrete profile object. -/
inductive El
  | gaussian (g : Elt.Gaussian)
  | exponential (e : Elt.Exponential)
  | box (b : Elt.Box)
  | pixel (scale flux : ℝ) (gs : GSP)
  | delta (d : Elt.Delta)
  | moffat (m : Elt.Moffat)
  | spergel (s : Elt.Spergel)

/-- Its class. -/
inductive ElCls
  | gaussian | exponential | box | pixel | delta | moffat | spergel
  deriving DecidableEq

def El.cls : El → ElCls
  | .gaussian _ => .gaussian
  | .exponential _ => .exponential
  | .box _ => .box
  | .pixel _ _ _ => .pixel
  | .delta _ => .delta
  | .moffat _ => .moffat
  | .spergel _ => .spergel

/-- `gsparams`: gsobject.py:60-63. -/
def El.gs : El → GSP
  | .gaussian g => g.gs
  | .exponential e => e.gs
  | .box b => b.gs
  | .pixel _ _ g => g
  | .delta d => d.gs
  | .moffat m => m.gs
  | .spergel s => s.gs

/-- Children: the dictionary `params`, or a tuple (`Pixel`). -/
inductive ElChildren
  | kw (l : List (String × ℝ))
  | pos (l : List ℝ)

/-- `tree_flatten` (children): gsobject.py:1376-1382 with the `params` of gaussian.py:63, exponential.py:53, box.py:20,
deltafunction.py:25, moffat.py:120-122, spergel.py:305-307; `Pixel`: box.py:159-162. -/
def El.children : El → ElChildren
  | .gaussian g => .kw [("sigma", g.sigma), ("flux", g.flux)]
  | .exponential e => .kw [("scale_radius", e.r0), ("flux", e.flux)]
  | .box b => .kw [("width", b.width), ("height", b.height), ("flux", b.flux)]
  | .pixel s f _ => .pos [s, f]
  | .delta d => .kw [("flux", d.flux)]
  | .moffat m => .kw [("beta", m.beta), ("scale_radius", m.r0), ("flux", m.flux)]
  | .spergel s => .kw [("nu", s.nu), ("scale_radius", s.r0), ("flux", s.flux)]

/-- Constructor parameters other than `gsparams`: gaussian.py:26-33, exponential.py:29-35, box.py:19, 131,
deltafunction.py:24, moffat.py:47-56, spergel.py:272-279. -/
def ElCls.names : ElCls → List String
  | .gaussian => ["half_light_radius", "sigma", "fwhm", "flux"]
  | .exponential => ["half_light_radius", "scale_radius", "flux"]
  | .box => ["width", "height", "flux"]
  | .pixel => ["scale", "flux"]
  | .delta => ["flux"]
  | .moffat => ["beta", "scale_radius", "half_light_radius", "fwhm", "trunc", "flux"]
  | .spergel => ["nu", "half_light_radius", "scale_radius", "flux"]

/-- `cls(**kwargs, gsparams=gs)`: the constructors cited at `names`.  A missing parameter without default: `none`. -/
noncomputable def El.init (c : ElCls) (kw : List (String × ℝ)) (gs : GSP) : Option El :=
  if kwOk c.names kw then
    let flux := (kwGet kw "flux").getD 1
    match c with
    | .gaussian =>
      (Elt.Gaussian.init (kwGet kw "half_light_radius") (kwGet kw "sigma") (kwGet kw "fwhm") flux gs).map .gaussian
    | .exponential =>
      (Elt.Exponential.init (kwGet kw "half_light_radius") (kwGet kw "scale_radius") flux gs).map .exponential
    | .box => (kwGet kw "width").bind fun w => (kwGet kw "height").map fun h => .box ⟨w, h, flux, gs⟩
    | .pixel => (kwGet kw "scale").map fun s => .pixel s flux gs
    | .delta => some (.delta ⟨flux, gs⟩)
    | .moffat =>
      (kwGet kw "beta").bind fun beta =>
        (Elt.Moffat.init beta (kwGet kw "scale_radius") (kwGet kw "half_light_radius") (kwGet kw "fwhm")
          ((kwGet kw "trunc").getD 0) flux gs).map .moffat
    | .spergel =>
      (kwGet kw "nu").bind fun nu =>
        (Elt.Spergel.init nu (kwGet kw "scale_radius") (kwGet kw "half_light_radius") flux gs).map .spergel
  else none

/-- `tree_unflatten`: gsobject.py:1384-1388, box.py:108-116 (`Box`), 164-167 (`Pixel`, positional). -/
noncomputable def El.unflatten (c : ElCls) (ch : ElChildren) (gs : GSP) : Option El :=
  match c, ch with
  | .box, .kw l =>
    (kwGet l "width").bind fun w => (kwGet l "height").bind fun h => (kwGet l "flux").bind fun f =>
      El.init .box [("width", w), ("height", h), ("flux", f)] gs
  | .pixel, .pos l => El.init .pixel (["scale", "flux"].zip l) gs
  | c, .kw l => El.init c l gs
  | _, .pos _ => none

open Classical in
/-- `GSObject.withGSParams(gsparams)`: gsobject.py:227-236. -/
noncomputable def El.withGS (e : El) (g : GSP) : Option El :=
  if g = e.gs then some e else El.unflatten e.cls e.children g

/-! ### Composite profiles -/

/-- A profile object with the attributes which flattening and `withGSParams` read: concrete profile, `Transformation`
(`_original`, `_params`, `_gsparams`, `_propagate_gsparams`: transform.py:53-89), `Sum` (sum.py:26-69), `Convolution`
(`_obj_list`, the list in `_params`, `_real_space`: convolve.py:40-140), `Deconvolution` (convolve.py:357-369). -/
inductive PObj
  | elem (e : El)
  | trans (orig : PObj) (jac : Mat2) (offset : ℝ × ℝ) (ratio : ℝ) (gs : GSP) (prop : Bool)
  | sum (objs : List PObj) (gs : GSP) (prop : Bool)
  | conv (objs params : List PObj) (gs : GSP) (prop realSpace : Bool)
  | deconv (orig : PObj) (gs : GSP) (prop : Bool)

/-- `gsparams`: gsobject.py:60-63. -/
def PObj.gs : PObj → GSP
  | .elem e => e.gs
  | .trans _ _ _ _ g _ => g
  | .sum _ g _ => g
  | .conv _ _ g _ _ => g
  | .deconv _ g _ => g

open Classical in
mutual
/-- `withGSParams(gsparams)`: gsobject.py:227-236, transform.py:141-158, sum.py:82-91, convolve.py:152-162, 388-397.
`Sum` calls its constructor; the terms of a `Sum` are never sums (`C64_sum_flat`), so that the consolidation there does
nothing. -/
noncomputable def PObj.withGS : PObj → GSP → Option PObj
  | .elem e, g => (e.withGS g).map .elem
  | .trans o J off r gs p, g =>
    if g = gs then some (.trans o J off r gs p)
    else if p then (o.withGS g).map fun o' => .trans o' J off r g p
    else some (.trans o J off r g p)
  | .sum l gs p, g =>
    if g = gs then some (.sum l gs p)
    else if p then (PObj.withGSList l g).map fun l' => .sum l' g p
    else some (.sum l g p)
  | .conv l pl gs p rs, g =>
    if g = gs then some (.conv l pl gs p rs)
    else if p then (PObj.withGSList l g).map fun l' => .conv l' pl g p rs
    else some (.conv l pl g p rs)
  | .deconv o gs p, g =>
    if g = gs then some (.deconv o gs p)
    else if p then (o.withGS g).map fun o' => .deconv o' g p
    else some (.deconv o g p)
/-- `[obj.withGSParams(g) for obj in l]`. -/
noncomputable def PObj.withGSList : List PObj → GSP → Option (List PObj)
  | [], _ => some []
  | o :: l, g => (o.withGS g).bind fun o' => (PObj.withGSList l g).map fun l' => o' :: l'
end

/-- `Transformation.__init__`: transform.py:53-89 (`GSParams.check(gsparams, obj.gsparams)`: gsparams.py:67-80). -/
noncomputable def PObj.mkTrans (o : PObj) (J : Mat2) (off : ℝ × ℝ) (r : ℝ) (gs : Option GSP) (p : Bool) : Option PObj :=
  let g := gs.getD o.gs
  (if p then o.withGS g else some o).map fun o' =>
    match o' with
    | .trans orig J2 o2 r2 _ _ => .trans orig (J.mul J2) (off + J.app o2) (r * r2) g p
    | o' => .trans o' J off r g p

/-- sum.py:44-50: the terms contributed by one argument. -/
def PObj.terms : PObj → List PObj
  | .sum l _ _ => l
  | o => [o]

/-- The `gsparams` of a composite: sum.py:57-63, convolve.py:121-127. -/
noncomputable def compositeGS (l : List PObj) (gs : Option GSP) : Option GSP :=
  match gs with
  | none => GSP.combine (l.map PObj.gs)
  | some g => some g

/-- `Sum.__init__`: sum.py:26-69 (a list as single argument, which may be empty). -/
noncomputable def PObj.mkSum (args : List PObj) (gs : Option GSP) (p : Bool) : Option PObj :=
  let l := args.flatMap PObj.terms
  (compositeGS l gs).bind fun g => (if p then PObj.withGSList l g else some l).map fun l' => .sum l' g p

/-- `Convolution.__init__`: convolve.py:40-140; the choice of `real_space` is `JG.convolveCtor` of `Model/Profile.lean`,
`hard` and `analytic` are the attributes of the arguments. -/
noncomputable def PObj.mkConv (hard analytic : PObj → Bool) (args : List PObj) (gs : Option GSP) (p : Bool)
    (realSpace : Option Bool) : Option PObj :=
  (convolveCtor (args.map hard) (args.map analytic) realSpace).bind fun _ =>
    (compositeGS args gs).bind fun g => (if p then PObj.withGSList args g else some args).map fun l => .conv l l g p false

/-- `Deconvolution.__init__`: convolve.py:357-369. -/
noncomputable def PObj.mkDeconv (o : PObj) (gs : Option GSP) (p : Bool) : Option PObj :=
  let g := gs.getD o.gs
  (if p then o.withGS g else some o).map fun o' => .deconv o' g p

/-- What `tree_flatten` returns: the children and the static data. -/
inductive Node
  | elem (cls : ElCls) (ch : ElChildren) (gs : GSP)
  | trans (orig : PObj) (jac : Mat2) (offset : ℝ × ℝ) (ratio : ℝ) (gs : GSP) (prop : Bool)
  | sum (objs : List PObj) (gs : GSP) (prop : Bool)
  | conv (objs : List PObj) (gs : GSP) (prop realSpace : Bool)
  | deconv (orig : PObj) (gs : GSP) (prop : Bool)

/-- `tree_flatten`: gsobject.py:1376-1382, transform.py:402-412, sum.py:242-252, convolve.py:322-333 (the list in
`_params`), 514-524. -/
def PObj.flatten : PObj → Node
  | .elem e => .elem e.cls e.children e.gs
  | .trans o J off r g p => .trans o J off r g p
  | .sum l g p => .sum l g p
  | .conv _ pl g p rs => .conv pl g p rs
  | .deconv o g p => .deconv o g p

/-- `tree_unflatten`: gsobject.py:1384-1388, transform.py:414-421, sum.py:254-257, convolve.py:335-338, 526-529. -/
noncomputable def PObj.unflatten (hard analytic : PObj → Bool) : Node → Option PObj
  | .elem c ch g => (El.unflatten c ch g).map .elem
  | .trans o J off r g p => some (.trans o J off r g p)
  | .sum l g p => PObj.mkSum l (some g) p
  | .conv l g p rs => PObj.mkConv hard analytic l (some g) p (some rs)
  | .deconv o g p => PObj.mkDeconv o (some g) p

mutual
/-- What `jax.tree_util` does to an object passed through `jit`: flatten it and its children down to arrays, then
unflatten from the leaves up. -/
noncomputable def PObj.through (hard analytic : PObj → Bool) : PObj → Option PObj
  | .elem e => PObj.unflatten hard analytic (PObj.flatten (.elem e))
  | .trans o J off r g p =>
    (PObj.through hard analytic o).bind fun o' => PObj.unflatten hard analytic (PObj.flatten (.trans o' J off r g p))
  | .sum l g p =>
    (PObj.throughList hard analytic l).bind fun l' => PObj.unflatten hard analytic (PObj.flatten (.sum l' g p))
  | .conv l pl g p rs =>
    (PObj.throughList hard analytic pl).bind fun pl' =>
      PObj.unflatten hard analytic (PObj.flatten (.conv l pl' g p rs))
  | .deconv o g p =>
    (PObj.through hard analytic o).bind fun o' => PObj.unflatten hard analytic (PObj.flatten (.deconv o' g p))
/-- The same for a list. -/
noncomputable def PObj.throughList (hard analytic : PObj → Bool) : List PObj → Option (List PObj)
  | [] => some []
  | o :: l =>
    (PObj.through hard analytic o).bind fun o' => (PObj.throughList hard analytic l).map fun l' => o' :: l'
end

/-! ### Interpolated images -/

/-- `_InterpolatedImageImpl`: the image, the other constructor arguments and `gsparams` (interpolatedimage.py:395-448);
everything else is computed from them. -/
structure ImplObj (I O : Type) where
  image : I
  opts : O
  gs : GSP

/-- `InterpolatedImage`: the arguments kept in `_jax_children`, `_jax_aux_data` and the wrapped object
(interpolatedimage.py:126-200). -/
structure IIObj (I O : Type) where
  image : I
  opts : O
  gs : GSP
  obj : ImplObj I O

/-- `_InterpolatedImageImpl.__init__`: interpolatedimage.py:395-515; `ok`: the checks of the arguments. -/
def ImplObj.init {I O : Type} (ok : I → O → Bool) (image : I) (opts : O) (gs : GSP) : Option (ImplObj I O) :=
  if ok image opts then some ⟨image, opts, gs⟩ else none

open Classical in
/-- `withGSParams` of it: interpolatedimage.py:526-537, through 539-551. -/
noncomputable def ImplObj.withGS {I O : Type} (ok : I → O → Bool) (o : ImplObj I O) (g : GSP) : Option (ImplObj I O) :=
  if g = o.gs then some o else ImplObj.init ok o.image o.opts g

/-- `InterpolatedImage.__init__`: interpolatedimage.py:90-200; `gs = none` is the default (`classDefault`), `obj` the
hidden argument `_obj`. -/
noncomputable def IIObj.init {I O : Type} (ok : I → O → Bool) (classDefault : GSP) (image : I) (opts : O)
    (gs : Option GSP) (obj : Option (ImplObj I O)) : Option (IIObj I O) :=
  let kept := gs.getD classDefault
  (match obj with
    | some o => some o
    | none => ImplObj.init ok image opts kept).bind fun o =>
      (o.withGS ok (gs.getD o.gs)).map fun o' => ⟨image, opts, kept, o'⟩

/-- `tree_flatten` of both classes and `tree_unflatten`: interpolatedimage.py:343-355, 539-551.  The wrapped object is a
child, which is flattened and restored itself. -/
noncomputable def IIObj.through {I O : Type} (ok : I → O → Bool) (classDefault : GSP) (o : IIObj I O) :
    Option (IIObj I O) :=
  (ImplObj.init ok o.obj.image o.obj.opts o.obj.gs).bind fun obj =>
    IIObj.init ok classDefault o.image o.opts (some o.gs) (some obj)

open Classical in
/-- `withGSParams`: interpolatedimage.py:357-370. -/
noncomputable def IIObj.withGS {I O : Type} (ok : I → O → Bool) (classDefault : GSP) (o : IIObj I O) (g : GSP) :
    Option (IIObj I O) :=
  if g = o.gs then some o else IIObj.init ok classDefault o.image o.opts (some g) (some o.obj)

end JG.Tree
