import Verif.Model.Shear
import Mathlib.Analysis.SpecialFunctions.Log.Basic
import Mathlib.Analysis.SpecialFunctions.Pow.Real

/-!
Model of the profile combinators: `/repo/jax_galsim/transform.py`, `sum.py`, `convolve.py`, the operations of
`gsobject.py` that build them, and drawing by sampling (`core/draw.py`).

Concrete profiles (`Gaussian`, `Box`, `InterpolatedImage`, ...) are leaves with arbitrary observables.  Numbers are
exact; `none` stands for an exception or a non-finite value.  Simplification: all components carry the same
`gsparams`, so that propagating them (transform.py:62-65, sum.py:55-66, convolve.py:122-137) changes nothing.
-/

namespace JG

/-- Observables of a concrete profile: the properties of gsobject.py:60-150.  `photons K` is the expectation of
`K position (flux * number of photons)` for a photon of `_shoot`. -/
structure Leaf where
  flux : ℝ
  xv : ℝ × ℝ → Option ℝ
  kv : ℝ × ℝ → ℂ
  cen : ℝ × ℝ
  pos : ℝ
  neg : ℝ
  maxk : ℝ
  stepk : ℝ
  maxSb : ℝ
  hard : Bool
  analyticX : Bool
  photons : (ℝ × ℝ → ℝ → ℝ) → ℝ := fun _ => 0

/-- A profile object: a concrete one, `Transformation` (attributes `_original`, `_jac`, `_offset`, `_flux_ratio`:
transform.py:67-89), `Sum` (`obj_list`: sum.py:69), `Convolution` (`obj_list`: convolve.py:130-140). -/
inductive Prof
  | leaf (L : Leaf)
  | trans (orig : Prof) (jac : Mat2) (offset : ℝ × ℝ) (fluxRatio : ℝ)
  | sum (l : List Prof)
  | conv (l : List Prof)

/-- Identity matrix. -/
noncomputable def Mat2.one : Mat2 := ⟨1, 0, 0, 1⟩
/-- Transpose. -/
def Mat2.tr (m : Mat2) : Mat2 := ⟨m.a, m.c, m.b, m.d⟩
/-- `jnp.linalg.inv`; a singular matrix has no finite inverse. -/
noncomputable def Mat2.inv (m : Mat2) : Option Mat2 :=
  if m.det = 0 then none else some ⟨m.d / m.det, -m.b / m.det, -m.c / m.det, m.a / m.det⟩

/-! ### Constructors -/

/-- `Transformation.__init__`: transform.py:53-89 (a transformation of a transformation is collapsed). -/
noncomputable def mkTransform : Prof → Mat2 → ℝ × ℝ → ℝ → Prof
  | .trans o J2 o2 r2, J, off, r => .trans o (J.mul J2) (off + J.app o2) (r * r2)
  | p, J, off, r => .trans p J off r

/-- sum.py:44-50: the terms contributed by one argument. -/
def sumTerms : Prof → List Prof
  | .sum l => l
  | p => [p]

/-- `Sum.__init__`: sum.py:26-69. -/
def mkSum (l : List Prof) : Prof := .sum (l.flatMap sumTerms)

/-- `Convolution.__init__(.., real_space=False)`: convolve.py:40-140. -/
def mkConv (l : List Prof) : Prof := .conv l

/-! ### Observables -/

mutual
/-- `_xValue`: transform.py:348-351, sum.py:155-157, convolve.py:291-292 (raises). -/
noncomputable def Prof.xValue : Prof → ℝ × ℝ → Option ℝ
  | .leaf L, p => L.xv p
  | .trans o J off r, p => J.inv.bind fun Ji => (o.xValue (Ji.app (p - off))).map fun v => v * r
  | .sum l, p => Prof.xValueL l p
  | .conv _, _ => none
/-- The `jnp.sum` of sum.py:156-157. -/
noncomputable def Prof.xValueL : List Prof → ℝ × ℝ → Option ℝ
  | [], _ => some 0
  | o :: l, p => (o.xValue p).bind fun a => (Prof.xValueL l p).map fun b => a + b
end

/-- `_flux_scaling`: transform.py:265-267. -/
noncomputable def fluxScaling (J : Mat2) (r : ℝ) : ℝ := |J.det| * r

/-- `_kfactor`: transform.py:281-285. -/
noncomputable def kFactor (J : Mat2) (off : ℝ × ℝ) (r : ℝ) (k : ℝ × ℝ) : ℂ :=
  (fluxScaling J r : ℂ) * Complex.exp ((k.1 : ℂ) * (-Complex.I * off.1) + (k.2 : ℂ) * (-Complex.I * off.2))

mutual
/-- `_kValue` at one position: transform.py:353-355, sum.py:159-161, convolve.py:294-298. -/
noncomputable def Prof.kValue : Prof → ℝ × ℝ → ℂ
  | .leaf L, k => L.kv k
  | .trans o J off r, k => o.kValue (J.tr.app k) * kFactor J off r k
  | .sum l, k => Prof.kSum l k
  | .conv l, k => Prof.kProd l k
/-- sum.py:160-161. -/
noncomputable def Prof.kSum : List Prof → ℝ × ℝ → ℂ
  | [], _ => 0
  | o :: l, k => o.kValue k + Prof.kSum l k
/-- convolve.py:295-298. -/
noncomputable def Prof.kProd : List Prof → ℝ × ℝ → ℂ
  | [], _ => 1
  | o :: l, k => o.kValue k * Prof.kProd l k
end

/-- `Convolution._kValue` with arrays in the position: `jnp.prod(jnp.array(kv_list))` reduces over all axes, so the
result is one number: convolve.py:294-298. -/
noncomputable def convKValueArray (l : List Prof) (ks : List (ℝ × ℝ)) : ℂ :=
  (l.map fun o => (ks.map o.kValue).prod).prod

mutual
/-- `flux`: transform.py:137-139, sum.py:78-80, convolve.py:246-249. -/
noncomputable def Prof.flux : Prof → ℝ
  | .leaf L => L.flux
  | .trans o J _ r => fluxScaling J r * o.flux
  | .sum l => Prof.fluxSum l
  | .conv l => Prof.fluxProd l
/-- sum.py:79-80. -/
noncomputable def Prof.fluxSum : List Prof → ℝ
  | [] => 0
  | o :: l => o.flux + Prof.fluxSum l
/-- convolve.py:248-249. -/
noncomputable def Prof.fluxProd : List Prof → ℝ
  | [] => 1
  | o :: l => o.flux * Prof.fluxProd l
end

mutual
/-- `centroid`: transform.py:325-330, sum.py:144-148, convolve.py:240-244; `none` when it is not finite (a sum with
total flux 0). -/
noncomputable def Prof.centroid : Prof → Option (ℝ × ℝ)
  | .leaf L => some L.cen
  | .trans o J off _ => o.centroid.map fun c => J.app c + off
  | .sum l => (Prof.cenFlux l).bind fun m =>
      if Prof.fluxSum l = 0 then none else some (m.1 / Prof.fluxSum l, m.2 / Prof.fluxSum l)
  | .conv l => Prof.cenSum l
/-- The flux-weighted sums of sum.py:146-147. -/
noncomputable def Prof.cenFlux : List Prof → Option (ℝ × ℝ)
  | [] => some (0, 0)
  | o :: l => o.centroid.bind fun c => (Prof.cenFlux l).map fun m => (c.1 * o.flux + m.1, c.2 * o.flux + m.2)
/-- convolve.py:241-244. -/
noncomputable def Prof.cenSum : List Prof → Option (ℝ × ℝ)
  | [] => some (0, 0)
  | o :: l => o.centroid.bind fun c => (Prof.cenSum l).map fun m => c + m
end

/-- The loop of `_calc_pn`: convolve.py:256-258. -/
noncomputable def pnStep (s q : ℝ × ℝ) : ℝ × ℝ := (s.1 * q.1 + s.2 * q.2, s.1 * q.2 + s.2 * q.1)

mutual
/-- `(positive_flux, negative_flux)`: transform.py:332-338, sum.py:177-185, convolve.py:251-267. -/
noncomputable def Prof.posneg : Prof → ℝ × ℝ
  | .leaf L => (L.pos, L.neg)
  | .trans o J _ r => (fluxScaling J r * o.posneg.1, fluxScaling J r * o.posneg.2)
  | .sum l => Prof.pnSum l
  | .conv [] => (1, 0)
  | .conv (o :: l) => Prof.pnConv l o.posneg
/-- sum.py:178-185. -/
noncomputable def Prof.pnSum : List Prof → ℝ × ℝ
  | [] => (0, 0)
  | o :: l => (o.posneg.1 + (Prof.pnSum l).1, o.posneg.2 + (Prof.pnSum l).2)
/-- convolve.py:252-259, the loop with accumulator `(p_net, n_net)`. -/
noncomputable def Prof.pnConv : List Prof → ℝ × ℝ → ℝ × ℝ
  | [], s => s
  | o :: l, s => Prof.pnConv l (pnStep s o.posneg)
end

/-- `positive_flux`. -/
noncomputable def Prof.positiveFlux (o : Prof) : ℝ := o.posneg.1
/-- `negative_flux`. -/
noncomputable def Prof.negativeFlux (o : Prof) : ℝ := o.posneg.2

/-- `_calculate_flux_per_photon`: gsobject.py:133-139 (non-finite if both fluxes vanish). -/
noncomputable def Prof.fluxPerPhoton (o : Prof) : Option ℝ :=
  if o.positiveFlux + o.negativeFlux = 0 then none
  else some (1 - 2 * (o.negativeFlux / (o.positiveFlux + o.negativeFlux)))

/-! ### Photons -/

mutual
/-- The expectation of `K position (flux * N)` for a photon of `_shoot`, in an array of `N` photons without mask:
transform.py:394-400, sum.py:191-240, convolve.py:303-313.  Deviates drawn one after another are independent; a photon
of a sum comes from the object `i` with probability `p[i]` (`jax.random.choice`), and the shuffling of correlated
photons in `PhotonArray.convolve` does not change the law of a single photon. -/
noncomputable def Prof.photons : Prof → (ℝ × ℝ → ℝ → ℝ) → ℝ
  | .leaf L, K => L.photons K
  | .trans o J off r, K => o.photons fun p f => K (J.app p + off) (f * fluxScaling J r)
  | .sum l, K => Prof.photonsSum l ((Prof.pnSum l).1 + (Prof.pnSum l).2) K
  | .conv [], K => K 0 1
  | .conv (o :: l), K => o.photons fun p f => Prof.photonsConv l p f K
/-- sum.py:192-240: the choice of an object with probabilities `fluxes / tot_flux`, its photon rescaled by
`tot_flux / fluxes[i]`. -/
noncomputable def Prof.photonsSum : List Prof → ℝ → (ℝ × ℝ → ℝ → ℝ) → ℝ
  | [], _, _ => 0
  | o :: l, tot, K =>
    (o.posneg.1 + o.posneg.2) / tot * o.photons (fun p f => K p (f * (tot / (o.posneg.1 + o.posneg.2)))) +
      Prof.photonsSum l tot K
/-- convolve.py:309-313: the loop over the further objects, for a photon at `p` with flux `f / N`;
`PhotonArray.convolve` adds the positions and multiplies the fluxes and `N`: photon_array.py:693-815. -/
noncomputable def Prof.photonsConv : List Prof → ℝ × ℝ → ℝ → (ℝ × ℝ → ℝ → ℝ) → ℝ
  | [], p, f, K => K p f
  | o :: l, p, f, K => o.photons fun q g => Prof.photonsConv l (p + q) (f * g) K
end

/-- `_compute_major_minor_from_jacobian`: transform.py:16-21. -/
noncomputable def majorMinor (J : Mat2) : ℝ × ℝ :=
  let h1 := Real.sqrt ((J.a + J.d) ^ 2 + (J.b - J.c) ^ 2)
  let h2 := Real.sqrt ((J.a - J.d) ^ 2 + (J.b + J.c) ^ 2)
  (1 / 2 * |h1 + h2|, 1 / 2 * |h1 - h2|)

/-- `_stepk` of a transformation: transform.py:292-302. -/
noncomputable def transStepk (J : Mat2) (off : ℝ × ℝ) (stepk : ℝ) : ℝ :=
  Real.pi / (Real.pi / (stepk / (majorMinor J).1) + Real.sqrt (off.1 ^ 2 + off.2 ^ 2))

mutual
/-- `maxk`: transform.py:287-290, sum.py:114-117, convolve.py:201-204. -/
noncomputable def Prof.maxk : Prof → ℝ
  | .leaf L => L.maxk
  | .trans o J _ _ => o.maxk / (majorMinor J).2
  | .sum [] => 0
  | .sum (o :: l) => Prof.maxkMax l o.maxk
  | .conv [] => 0
  | .conv (o :: l) => Prof.maxkMin l o.maxk
/-- `jnp.max`. -/
noncomputable def Prof.maxkMax : List Prof → ℝ → ℝ
  | [], m => m
  | o :: l, m => Prof.maxkMax l (max m o.maxk)
/-- `jnp.min`. -/
noncomputable def Prof.maxkMin : List Prof → ℝ → ℝ
  | [], m => m
  | o :: l, m => Prof.maxkMin l (min m o.maxk)
end

mutual
/-- `stepk`: transform.py:292-302, sum.py:119-122, convolve.py:206-214. -/
noncomputable def Prof.stepk : Prof → ℝ
  | .leaf L => L.stepk
  | .trans o J off _ => transStepk J off o.stepk
  | .sum [] => 0
  | .sum (o :: l) => Prof.stepkMin l o.stepk
  | .conv l => 1 / Real.sqrt (Prof.invStepkSq l)
/-- `jnp.min`. -/
noncomputable def Prof.stepkMin : List Prof → ℝ → ℝ
  | [], m => m
  | o :: l, m => Prof.stepkMin l (min m o.stepk)
/-- convolve.py:211-214. -/
noncomputable def Prof.invStepkSq : List Prof → ℝ
  | [] => 0
  | o :: l => 1 / o.stepk ^ 2 + Prof.invStepkSq l
end

mutual
/-- `max_sb`: transform.py:344-346, sum.py:150-153, convolve.py:273-289. -/
noncomputable def Prof.maxSb : Prof → ℝ
  | .leaf L => L.maxSb
  | .trans o _ _ r => r * o.maxSb
  | .sum l => Prof.maxSbSum l
  | .conv l => Prof.fluxProd l / Prof.areaSum l
/-- sum.py:152-153. -/
noncomputable def Prof.maxSbSum : List Prof → ℝ
  | [] => 0
  | o :: l => o.maxSb + Prof.maxSbSum l
/-- convolve.py:288-289. -/
noncomputable def Prof.areaSum : List Prof → ℝ
  | [] => 0
  | o :: l => o.flux / o.maxSb + Prof.areaSum l
end

mutual
/-- `has_hard_edges`: transform.py:304-306, sum.py:124-127, convolve.py:216-218. -/
def Prof.hardEdges : Prof → Bool
  | .leaf L => L.hard
  | .trans o _ _ _ => o.hardEdges
  | .sum l => Prof.anyHard l
  | .conv [] => false
  | .conv [o] => o.hardEdges
  | .conv (_ :: _ :: _) => false
/-- `np.any`. -/
def Prof.anyHard : List Prof → Bool
  | [] => false
  | o :: l => o.hardEdges || Prof.anyHard l
end

mutual
/-- `is_analytic_x`: transform.py:317-319, sum.py:134-137, convolve.py:225-233 (never `real_space`). -/
def Prof.analyticX : Prof → Bool
  | .leaf L => L.analyticX
  | .trans o _ _ _ => o.analyticX
  | .sum l => Prof.allAnalyticX l
  | .conv [o] => o.analyticX
  | .conv _ => false
/-- `np.all`. -/
def Prof.allAnalyticX : List Prof → Bool
  | [] => true
  | o :: l => o.analyticX && Prof.allAnalyticX l
end

/-- The choice of `real_space` in `Convolution.__init__`: convolve.py:64-120.  `none`: `NotImplementedError`;
`some w`: built, with (`w = true`) or without a warning.  `hard`, `analytic`: attributes of the arguments. -/
def convolveCtor (hard analytic : List Bool) (realSpace : Option Bool) : Option Bool :=
  let hardEdge := hard.all id
  let rs := match realSpace with
    | none => if hard.length ≤ 2 then hardEdge else false
    | some b => b
  let warn1 := !rs && hardEdge
  if rs then
    if hard.length > 2 then some true
    else if analytic.all id then none else some true
  else some warn1

/-! ### Operations of `GSObject` -/

/-- `withScaledFlux`, `*`: gsobject.py:243-247, 172-184. -/
noncomputable def Prof.withScaledFlux (o : Prof) (r : ℝ) : Prof := mkTransform o .one 0 r
/-- `withFlux` of the base class: gsobject.py:239-241 (non-finite ratio for flux 0). -/
noncomputable def Prof.withFlux (o : Prof) (f : ℝ) : Option Prof :=
  if o.flux = 0 then none else some (o.withScaledFlux (f / o.flux))
/-- `expand`: gsobject.py:248-252. -/
noncomputable def Prof.expand (o : Prof) (s : ℝ) : Prof := mkTransform o ⟨s, 0, 0, s⟩ 0 1
/-- `dilate`: gsobject.py:254-259 (`scale**-2` is not finite at 0). -/
noncomputable def Prof.dilate (o : Prof) (s : ℝ) : Option Prof :=
  if s = 0 then none else some (mkTransform o ⟨s, 0, 0, s⟩ 0 (1 / s ^ 2))
/-- `magnify`: gsobject.py:261-263 (`sqrt` of a negative number is NaN). -/
noncomputable def Prof.magnify (o : Prof) (mu : ℝ) : Option Prof :=
  if mu < 0 then none else some (o.expand (Real.sqrt mu))
/-- `shear`: gsobject.py:265-288 (`|g| = 1` has no finite matrix). -/
noncomputable def Prof.shear (o : Prof) (s : Shear) : Option Prof :=
  if s.absg < 1 then some (mkTransform o s.matrix 0 1) else none
/-- Multiplication of a matrix by a number. -/
noncomputable def Mat2.smul (t : ℝ) (m : Mat2) : Mat2 := ⟨t * m.a, t * m.b, t * m.c, t * m.d⟩
/-- `lens`: gsobject.py:296-302. -/
noncomputable def Prof.lens (o : Prof) (g1 g2 mu : ℝ) : Option Prof :=
  (Shear.ofG g1 g2).bind fun s =>
    if s.absg < 1 ∧ 0 ≤ mu then some (mkTransform o (s.matrix.smul (Real.sqrt mu)) 0 1) else none
/-- `rotate`: gsobject.py:312-321. -/
noncomputable def Prof.rotate (o : Prof) (theta : Angle) : Prof :=
  mkTransform o ⟨Real.cos theta.rad, -Real.sin theta.rad, Real.sin theta.rad, Real.cos theta.rad⟩ 0 1
/-- `transform`: gsobject.py:323-327. -/
noncomputable def Prof.transform (o : Prof) (J : Mat2) : Prof := mkTransform o J 0 1
/-- `shift`: gsobject.py:329-334. -/
noncomputable def Prof.shift (o : Prof) (d : ℝ × ℝ) : Prof := mkTransform o .one d 1
/-- `+`: gsobject.py:152-159. -/
def Prof.add (o p : Prof) : Prof := mkSum [o, p]
/-- `-o`: gsobject.py:196-197. -/
noncomputable def Prof.neg (o : Prof) : Prof := o.withScaledFlux (-1)
/-- `-`: gsobject.py:162-169. -/
noncomputable def Prof.sub (o p : Prof) : Prof := mkSum [o, p.withScaledFlux (-1)]
/-- `/`: gsobject.py:190-194 (division by zero). -/
noncomputable def Prof.div (o : Prof) (r : ℝ) : Option Prof := if r = 0 then none else some (o.withScaledFlux (1 / r))

/-! ### Drawing by sampling -/

/-- One pixel of `draw_by_xValue`: core/draw.py:9-40, for a float image; `s` is the pixel scale. -/
noncomputable def drawByX (xv : ℝ × ℝ → Option ℝ) (s : ℝ) (px : ℝ × ℝ) (J : Mat2) (off : ℝ × ℝ) (fs : ℝ) : Option ℝ :=
  J.inv.bind fun Ji => (xv (Ji.app (px.1 * s - off.1, px.2 * s - off.2))).map fun v =>
    v * (fs * s ^ 2 * Real.exp (Real.log |Ji.det|))

mutual
/-- One pixel of `_drawReal(image, jac, offset, flux_scaling)` on a float image: e.g. gaussian.py:138-140,
transform.py:357-374, sum.py:163-168, convolve.py:300-301 (raises). -/
noncomputable def Prof.drawReal : Prof → ℝ → ℝ × ℝ → Option Mat2 → ℝ × ℝ → ℝ → Option ℝ
  | .leaf L, s, px, jac, off, fs => drawByX L.xv s px (jac.getD .one) off fs
  | .trans o J o1 r, s, px, jac, off, fs =>
    let off' := match jac with
      | some j => off + j.app o1
      | none => off + o1
    let J' := match jac with
      | some j => j.mul J
      | none => J
    o.drawReal s px (some J') off' (fs * fluxScaling J r)
  | .sum l, s, px, jac, off, fs => Prof.drawRealL l s px jac off fs
  | .conv _, _, _, _, _, _ => none
/-- The loop of sum.py:164-168. -/
noncomputable def Prof.drawRealL : List Prof → ℝ → ℝ × ℝ → Option Mat2 → ℝ × ℝ → ℝ → Option ℝ
  | [], _, _, _, _, _ => some 0
  | o :: l, s, px, jac, off, fs =>
    (o.drawReal s px jac off fs).bind fun a => (Prof.drawRealL l s px jac off fs).map fun b => a + b
end

/-- One pixel of `_drawReal` on an integer image: the concrete profile rounds (core/draw.py:38-43) but returns an image
with a float array, so that in a sum only the first term is rounded (sum.py:164-168). -/
noncomputable def Prof.drawRealInt : Prof → ℝ → ℝ × ℝ → Option Mat2 → ℝ × ℝ → ℝ → Option ℝ
  | .leaf L, s, px, jac, off, fs => (drawByX L.xv s px (jac.getD .one) off fs).map fun v => (roundHalfEven v : ℝ)
  | .trans o J o1 r, s, px, jac, off, fs =>
    let off' := match jac with
      | some j => off + j.app o1
      | none => off + o1
    let J' := match jac with
      | some j => j.mul J
      | none => J
    o.drawRealInt s px (some J') off' (fs * fluxScaling J r)
  | .sum [], _, _, _, _, _ => some 0
  | .sum (o :: l), s, px, jac, off, fs =>
    (o.drawRealInt s px jac off fs).bind fun a => (Prof.drawRealL l s px jac off fs).map fun b => a + b
  | .conv _, _, _, _, _, _ => none

/-- One pixel set by `drawReal(image)` on an integer image: gsobject.py:823-841. -/
noncomputable def Prof.drawRealPixelInt (o : Prof) (s : ℝ) (px : ℝ × ℝ) : Option ℤ :=
  (o.drawRealInt s px none 0 1).map roundHalfEven

/-- `arr @ J` for a row vector. -/
noncomputable def rowMul (k : ℝ × ℝ) (J : Mat2) : ℝ × ℝ := (k.1 * J.a + k.2 * J.c, k.1 * J.b + k.2 * J.d)

/-- One pixel of `draw_by_kValue`: core/draw.py:50-66. -/
noncomputable def drawByK (kv : ℝ × ℝ → ℂ) (s : ℝ) (px : ℝ × ℝ) (J : Mat2) : ℂ := kv (rowMul (px.1 * s, px.2 * s) J)

/-- The factor multiplied into a pixel by `apply_kImage_phases`: core/draw.py:69-93. -/
noncomputable def kPhase (off : ℝ × ℝ) (s : ℝ) (px : ℝ × ℝ) (J : Mat2) : ℂ :=
  let k := rowMul (px.1 * s, px.2 * s) J
  let arg := -(k.1 * off.1 + k.2 * off.2)
  (Real.cos arg : ℂ) + Complex.I * (Real.sin arg : ℂ)

mutual
/-- One pixel of `_drawKImage(image, jac)`: e.g. gaussian.py:142-144, transform.py:376-392, sum.py:170-175,
convolve.py:315-320. -/
noncomputable def Prof.drawK : Prof → ℝ → ℝ × ℝ → Option Mat2 → ℂ
  | .leaf L, s, px, jac => drawByK L.kv s px (jac.getD .one)
  | .trans o J o1 r, s, px, jac =>
    let J' := match jac with
      | some j => j.mul J
      | none => J
    o.drawK s px (some J') * kPhase o1 s px (jac.getD .one) * (fluxScaling J r : ℂ)
  | .sum l, s, px, jac => Prof.drawKSum l s px jac
  | .conv l, s, px, jac => Prof.drawKProd l s px jac
/-- sum.py:171-175. -/
noncomputable def Prof.drawKSum : List Prof → ℝ → ℝ × ℝ → Option Mat2 → ℂ
  | [], _, _, _ => 0
  | o :: l, s, px, jac => o.drawK s px jac + Prof.drawKSum l s px jac
/-- convolve.py:316-320. -/
noncomputable def Prof.drawKProd : List Prof → ℝ → ℝ × ℝ → Option Mat2 → ℂ
  | [], _, _, _ => 1
  | o :: l, s, px, jac => o.drawK s px jac * Prof.drawKProd l s px jac
end

/-! ### Deconvolution -/

/-- `_min_acc_kvalue`: convolve.py:374-376; `acc` is `gsparams.kvalue_accuracy`. -/
noncomputable def minAccK (o : Prof) (acc : ℝ) : ℝ := o.flux * acc

/-- `Deconvolution._kValue`: convolve.py:476-485. -/
noncomputable def deconvKValue (o : Prof) (acc : ℝ) (k : ℝ × ℝ) : ℂ :=
  if ‖o.kValue k‖ < minAccK o acc then 1 / (minAccK o acc : ℂ) else 1 / o.kValue k

/-- One pixel of `Deconvolution._drawKImage`: convolve.py:487-512. -/
noncomputable def deconvDrawK (o : Prof) (acc : ℝ) (s : ℝ) (px : ℝ × ℝ) (jac : Option Mat2) : ℂ :=
  let v := o.drawK s px jac
  let w := if ‖v‖ > minAccK o acc then 1 / v else 1 / (minAccK o acc : ℂ)
  let j := jac.getD .one
  let kx := j.a * px.1 + j.c * px.2
  let ky := j.b * px.1 + j.d * px.2
  if (kx ^ 2 + ky ^ 2) * s ^ 2 > o.maxk ^ 2 then 0 else w

/-- `Deconvolution._flux`: convolve.py:455-457 (not finite for flux 0). -/
noncomputable def deconvFlux (o : Prof) : Option ℝ := if o.flux = 0 then none else some (1 / o.flux)
/-- `Deconvolution._centroid`: convolve.py:451-453. -/
noncomputable def deconvCentroid (o : Prof) : Option (ℝ × ℝ) := o.centroid.map fun c => -c

end JG
