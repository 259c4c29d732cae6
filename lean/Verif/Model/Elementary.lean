import Verif.Model.Profile
import Verif.Model.GSParams
import Verif.Model.Akima
import Verif.Model.Bisect
import Mathlib.Analysis.SpecialFunctions.Gamma.Basic
import Mathlib.MeasureTheory.Integral.IntervalIntegral.Basic
import Mathlib.Probability.Distributions.Gaussian.Real
import Mathlib.Analysis.SpecialFunctions.Trigonometric.Sinc

/-!
Model of the elementary profiles: `/repo/jax_galsim/gaussian.py`, `exponential.py`, `box.py`, `deltafunction.py`,
`moffat.py`, `spergel.py`.

Numbers are exact reals; a float literal stands for its decimal value.  Simplifications: `jnp.pi` is `π`; the modified
Bessel function `kv` (bessel.py) is the exact function, defined here by an integral; the rational fit of `maxk` for the
Moffat profile (moffat.py:434-568) is an arbitrary function
here (its coefficients are in `Model/MoffatFit.lean`); NaN and infinity are not represented, so theorems assume
positive sizes.
-/

namespace JG.Elt

/-! ### Library functions -/

/-- The modified Bessel function of the second kind, which `jax_galsim.bessel.kv` approximates (its algorithm is
in `Verif.Model.BesselK`): `K_ν(z) = ½ (z/2)^(-ν) ∫₀^∞ t^(ν-1) exp(-t - z²/(4t)) dt`. -/
noncomputable def kv (nu z : ℝ) : ℝ :=
  1 / 2 * (z / 2) ^ (-nu) * ∫ t in Set.Ioi (0 : ℝ), t ^ (nu - 1) * Real.exp (-t - z ^ 2 / (4 * t))

/-- `jnp.linspace(a, b, n)[i]`. -/
noncomputable def linspace (a b : ℝ) (n i : ℕ) : ℝ := a + i * (b - a) / (n - 1)

/-- `jnp.interp(t, xp, fp)` for arrays of length `n`: clamps outside the table, linear interpolation between the
entries around the index found by `searchsorted(side="right")`, and `fp[i-1]` where two abscissae coincide. -/
noncomputable def jnpInterp (n : ℕ) (xp fp : ℕ → ℝ) (t : ℝ) : ℝ :=
  let i := (clipI (searchsortedRight n xp t) 1 (n - 1)).toNat
  let df := fp i - fp (i - 1)
  let dx := xp i - xp (i - 1)
  let delta := t - xp (i - 1)
  let f := if dx = 0 then fp (i - 1) else fp (i - 1) + delta / dx * df
  let f := if t < xp 0 then fp 0 else f
  if t > xp (n - 1) then fp (n - 1) else f

/-- `jnp.sinc`. -/
noncomputable def npSinc (x : ℝ) : ℝ := Real.sinc (Real.pi * x)

/-- `safe_sqrt`: core/math.py:6-10. -/
noncomputable def safeSqrt (x : ℝ) : ℝ := if x > 0 then Real.sqrt x else 0

/-! ### Gaussian -/

/-- `Gaussian`: its parameters (gaussian.py:38-63). -/
structure Gaussian where
  sigma : ℝ
  flux : ℝ
  gs : GSP

/-- gaussian.py:15. -/
noncomputable def gaussFwhmFactor : ℝ := 2.3548200450309493
/-- gaussian.py:17. -/
noncomputable def gaussHlrFactor : ℝ := 1.1774100225154747
/-- gaussian.py:19 and exponential.py:22. -/
noncomputable def invTwoPi : ℝ := 0.15915494309189535

/-- `Gaussian.__init__`: gaussian.py:26-63; `none`: `GalSimIncompatibleValuesError`. -/
noncomputable def Gaussian.init (hlr sigma fwhm : Option ℝ) (flux : ℝ) (gs : GSP) : Option Gaussian :=
  match fwhm with
  | some w => if sigma.isSome || hlr.isSome then none else some ⟨w / gaussFwhmFactor, flux, gs⟩
  | none =>
    match hlr with
    | some h => if sigma.isSome then none else some ⟨h / gaussHlrFactor, flux, gs⟩
    | none =>
      match sigma with
      | none => none
      | some s => some ⟨s, flux, gs⟩

/-- gaussian.py:70-73. -/
noncomputable def Gaussian.hlr (g : Gaussian) : ℝ := g.sigma * gaussHlrFactor
/-- gaussian.py:75-78. -/
noncomputable def Gaussian.fwhm (g : Gaussian) : ℝ := g.sigma * gaussFwhmFactor
/-- gaussian.py:80-82. -/
noncomputable def Gaussian.sigsq (g : Gaussian) : ℝ := g.sigma ^ 2
/-- gaussian.py:84-86. -/
noncomputable def Gaussian.invSigsq (g : Gaussian) : ℝ := 1 / g.sigsq
/-- gaussian.py:88-90. -/
noncomputable def Gaussian.norm (g : Gaussian) : ℝ := g.flux * g.invSigsq * invTwoPi
/-- gaussian.py:115-117. -/
noncomputable def Gaussian.maxk (g : Gaussian) : ℝ := Real.sqrt (-2 * Real.log (g.gs .maxk_threshold)) / g.sigma
/-- gaussian.py:119-124. -/
noncomputable def Gaussian.stepk (g : Gaussian) : ℝ :=
  let R := Real.sqrt (-2 * Real.log (g.gs .folding_threshold))
  let R := max R (g.gs .stepk_minimum_hlr * gaussHlrFactor)
  Real.pi / (R * g.sigma)
/-- gaussian.py:130-132. -/
noncomputable def Gaussian.xValue (g : Gaussian) (p : ℝ × ℝ) : ℝ :=
  let rsq := p.1 ^ 2 + p.2 ^ 2
  g.norm * Real.exp (-0.5 * rsq * g.invSigsq)
/-- gaussian.py:134-136. -/
noncomputable def Gaussian.kValue (g : Gaussian) (k : ℝ × ℝ) : ℝ :=
  let ksq := (k.1 ^ 2 + k.2 ^ 2) * g.sigsq
  g.flux * Real.exp (-0.5 * ksq)
/-- gaussian.py:146-148. -/
noncomputable def Gaussian.withFlux (g : Gaussian) (f : ℝ) : Option Gaussian :=
  Gaussian.init none (some g.sigma) none f g.gs
/-- `_shoot`: the position of a photon from two standard normal draws: gaussian.py:150-156, random.py:353-355 with the
default mean. -/
noncomputable def Gaussian.shoot (g : Gaussian) (z w : ℝ) : ℝ × ℝ := (z * g.sigma + 0, w * g.sigma + 0)

/-! ### Exponential -/

/-- `Exponential`: exponential.py:29-53. -/
structure Exponential where
  r0 : ℝ
  flux : ℝ
  gs : GSP

/-- exponential.py:20. -/
noncomputable def expHlrFactor : ℝ := 1.6783469900166605

/-- `Exponential.__init__`: exponential.py:29-53; `none`: `GalSimIncompatibleValuesError`. -/
noncomputable def Exponential.init (hlr scale : Option ℝ) (flux : ℝ) (gs : GSP) : Option Exponential :=
  match hlr with
  | some h => if scale.isSome then none else some ⟨h / expHlrFactor, flux, gs⟩
  | none =>
    match scale with
    | none => none
    | some s => some ⟨s, flux, gs⟩

/-- exponential.py:64-66. -/
noncomputable def Exponential.invR0 (e : Exponential) : ℝ := 1 / e.r0
/-- exponential.py:68-70. -/
noncomputable def Exponential.norm (e : Exponential) : ℝ := e.flux * invTwoPi * e.invR0 ^ 2
/-- exponential.py:72-75. -/
noncomputable def Exponential.hlr (e : Exponential) : ℝ := e.r0 * expHlrFactor
/-- exponential.py:100-103. -/
noncomputable def Exponential.maxk (e : Exponential) : ℝ := e.gs .maxk_threshold ^ (-(1 / 3) : ℝ) / e.r0
/-- The loop body of exponential.py:118-119. -/
noncomputable def expStepIter (logx R : ℝ) : ℝ := Real.log (1 + R) - logx
/-- exponential.py:105-124. -/
noncomputable def Exponential.stepk (e : Exponential) : ℝ :=
  let logx := Real.log (e.gs .folding_threshold)
  let R := (expStepIter logx)^[3] (-logx)
  let R := max R (e.gs .stepk_minimum_hlr * expHlrFactor)
  Real.pi / R * e.invR0
/-- exponential.py:130-132. -/
noncomputable def Exponential.xValue (e : Exponential) (p : ℝ × ℝ) : ℝ :=
  let r := Real.sqrt (p.1 ^ 2 + p.2 ^ 2)
  e.norm * Real.exp (-r * e.invR0)
/-- exponential.py:134-136. -/
noncomputable def Exponential.kValue (e : Exponential) (k : ℝ × ℝ) : ℝ :=
  let q := (k.1 ^ 2 + k.2 ^ 2) * e.r0 ^ 2 + 1
  e.flux / (q * Real.sqrt q)
/-- exponential.py:146-150. -/
noncomputable def Exponential.withFlux (e : Exponential) (f : ℝ) : Option Exponential :=
  Exponential.init none (some e.r0) f e.gs

/-- `_umax`: exponential.py:205-206. -/
noncomputable def expUmax (acc : ℝ) : ℝ := 1 - Real.exp (-(-Real.log acc))
/-- `_u_cdf`: exponential.py:207. -/
noncomputable def expU (acc : ℝ) (i : ℕ) : ℝ := linspace 0 (expUmax acc) 10000 i
/-- `_cdf` before it is normalised: exponential.py:208. -/
noncomputable def expRawCdf (acc : ℝ) (i : ℕ) : ℝ := expU acc i - (expU acc i - 1) * Real.log (1 - expU acc i)
/-- `_cdf`: exponential.py:209. -/
noncomputable def expCdf (acc : ℝ) (i : ℕ) : ℝ := expRawCdf acc i / expRawCdf acc 9999
/-- The radius of a photon whose first deviate is `v`: exponential.py:157-164. -/
noncomputable def Exponential.shootR (e : Exponential) (v : ℝ) : ℝ :=
  let acc := e.gs .shoot_accuracy
  let u := jnpInterp 10000 (expCdf acc) (expU acc) v;
  (-Real.log (1 - u)) * e.r0
/-- The position of a photon with deviates `v` and `w`: exponential.py:157-170. -/
noncomputable def Exponential.shoot (e : Exponential) (v w : ℝ) : ℝ × ℝ :=
  let ang := w * 2 * Real.pi;
  (e.shootR v * Real.cos ang, e.shootR v * Real.sin ang)

/-! ### Box and delta function -/

/-- `Box` (box.py:19-20); a `Pixel` is a box of equal sides (box.py:131-136). -/
structure Box where
  width : ℝ
  height : ℝ
  flux : ℝ
  gs : GSP

/-- `Pixel.__init__`: box.py:131-136. -/
def Box.pixel (scale flux : ℝ) (gs : GSP) : Box := ⟨scale, scale, flux, gs⟩
/-- box.py:69-71, 22-24. -/
noncomputable def Box.maxk (b : Box) : ℝ := 2 / (b.gs .maxk_threshold * min b.width b.height)
/-- box.py:73-75, 26-28. -/
noncomputable def Box.stepk (b : Box) : ℝ := Real.pi / max b.width b.height
/-- box.py:77-79. -/
noncomputable def Box.maxSb (b : Box) : ℝ := b.flux / (b.width * b.height)
/-- box.py:81-87. -/
noncomputable def Box.xValue (b : Box) (p : ℝ × ℝ) : ℝ :=
  let norm := b.flux / (b.width * b.height)
  if 2 * |p.1| < b.width then if 2 * |p.2| < b.height then norm else 0 else 0
/-- box.py:89-92. -/
noncomputable def Box.kValue (b : Box) (k : ℝ × ℝ) : ℝ :=
  let wo2pi := b.width / (2 * Real.pi)
  let ho2pi := b.height / (2 * Real.pi)
  b.flux * npSinc (k.1 * wo2pi) * npSinc (k.2 * ho2pi)
/-- The position of a photon with deviates `v` and `w`: box.py:117-125. -/
noncomputable def Box.shoot (b : Box) (v w : ℝ) : ℝ × ℝ := ((v - 0.5) * b.width, (w - 0.5) * b.height)

/-- `DeltaFunction`: deltafunction.py:24-25. -/
structure Delta where
  flux : ℝ
  gs : GSP

/-- `_mock_inf`: deltafunction.py:15-17. -/
noncomputable def mockInf : ℝ := 1e300
open Classical in
/-- deltafunction.py:56-61. -/
noncomputable def Delta.xValue (_ : Delta) (p : ℝ × ℝ) : ℝ := if p.1 = 0 ∧ p.2 = 0 then mockInf else 0
/-- deltafunction.py:63-66. -/
noncomputable def Delta.kValue (d : Delta) (k : ℝ × ℝ) : ℂ := d.flux + k.1 * (0 + 0 * Complex.I)

/-! ### Moffat -/

/-- `Moffat`: moffat.py:47-122. -/
structure Moffat where
  beta : ℝ
  r0 : ℝ
  flux : ℝ
  gs : GSP

/-- `Moffat.__init__`: moffat.py:47-128; `none`: an exception (truncation, `beta`, sizes, `maxk_threshold`).  `trunc`
is the constant argument. -/
noncomputable def Moffat.init (beta : ℝ) (scale hlr fwhm : Option ℝ) (trunc flux : ℝ) (gs : GSP) : Option Moffat :=
  if trunc ≠ 0 then none
  else if beta ≤ 1.1 then none
  else
    let built : Option Moffat :=
      match hlr with
      | some h =>
        if scale.isSome || fwhm.isSome then none
        else some ⟨beta, h / Real.sqrt ((0.5 : ℝ) ^ (1 / (1 - beta)) - 1), flux, gs⟩
      | none =>
        match fwhm with
        | some w =>
          if scale.isSome then none
          else some ⟨beta, w / (2 * Real.sqrt ((2 : ℝ) ^ (1 / beta) - 1)), flux, gs⟩
        | none =>
          match scale with
          | none => none
          | some s => some ⟨beta, s, flux, gs⟩
    built.bind fun m => if m.gs .maxk_threshold > 0.1 then none else some m

/-- moffat.py:154-156. -/
noncomputable def Moffat.invR0 (m : Moffat) : ℝ := 1 / m.r0
/-- moffat.py:162-164. -/
noncomputable def Moffat.invR0sq (m : Moffat) : ℝ := m.invR0 * m.invR0
/-- `_maxRrD`: moffat.py:166-171. -/
noncomputable def Moffat.maxRrD (m : Moffat) : ℝ := Real.sqrt (m.gs .xvalue_accuracy ^ (1 / (1 - m.beta)) - 1)
/-- `_maxR`: moffat.py:173-176. -/
noncomputable def Moffat.maxR (m : Moffat) : ℝ := m.maxRrD * m.r0
/-- `_fluxFactor`: moffat.py:182-184. -/
noncomputable def Moffat.fluxFactor (_ : Moffat) : ℝ := 1
/-- moffat.py:186-191. -/
noncomputable def Moffat.hlr (m : Moffat) : ℝ :=
  m.r0 * Real.sqrt ((1 - 0.5 * m.fluxFactor) ^ (1 / (1 - m.beta)) - 1)
/-- moffat.py:193-196. -/
noncomputable def Moffat.fwhm (m : Moffat) : ℝ := m.r0 * (2 * Real.sqrt ((2 : ℝ) ^ (1 / m.beta) - 1))
/-- `_norm`: moffat.py:198-201. -/
noncomputable def Moffat.norm (m : Moffat) : ℝ := m.flux * (m.beta - 1) / (Real.pi * m.fluxFactor * m.r0 ^ 2)
/-- `_knorm`: moffat.py:203-206. -/
noncomputable def Moffat.knorm (m : Moffat) : ℝ := m.flux
/-- `_knorm_bis`: moffat.py:208-214. -/
noncomputable def Moffat.knormBis (m : Moffat) : ℝ :=
  m.flux * 4 / ((2 : ℝ) ^ m.beta * Real.exp (Real.log |Real.Gamma (m.beta - 1)|))
/-- `_maxk`: moffat.py:262-274; `fit` stands for `_logmaxk_psuedo_pade_approx`. -/
noncomputable def Moffat.maxk (fit : ℝ → ℝ → ℝ) (m : Moffat) : ℝ :=
  Real.exp (fit (Real.log m.beta) (Real.log (m.gs .maxk_threshold))) / m.r0
/-- `_stepk` for `beta > 1.1`: moffat.py:283-305. -/
noncomputable def Moffat.stepkHigh (m : Moffat) : ℝ :=
  let R := m.gs .folding_threshold ^ (0.5 / (1 - m.beta)) * m.r0
  let R := min R m.maxR
  let R5hlr := m.gs .stepk_minimum_hlr * m.hlr
  let R := max R R5hlr
  Real.pi / R
/-- `_stepk`: moffat.py:276-305. -/
noncomputable def Moffat.stepk (m : Moffat) : ℝ := if m.beta ≤ 1.1 then Real.pi / m.maxR else m.stepkHigh
/-- `_xValue`: moffat.py:311-317. -/
noncomputable def Moffat.xValue (m : Moffat) (p : ℝ × ℝ) : ℝ :=
  let rsq := (p.1 ^ 2 + p.2 ^ 2) * m.invR0sq
  if rsq > m.maxRrD * m.maxRrD then 0 else m.norm * (1 + rsq) ^ (-m.beta)
/-- `_kValue_untrunc_func`: moffat.py:319-330. -/
noncomputable def Moffat.kUntrunc (m : Moffat) (k : ℝ) : ℝ :=
  let kr0 := (if k > 0 then k else 1) * m.r0
  if k > 0 then m.knormBis * kr0 ^ (m.beta - 1) * kv (m.beta - 1) kr0 else m.knorm
/-- `_kValue_untrunc_asymp_func`: moffat.py:332-341. -/
noncomputable def Moffat.kAsymp (m : Moffat) (k : ℝ) : ℝ :=
  let kr0 := k * m.r0
  m.knormBis * kr0 ^ (m.beta - 1) * Real.exp (-kr0) * Real.sqrt (Real.pi / 2 / kr0)
/-- The table of frequencies: moffat.py:344-347. -/
noncomputable def Moffat.kNode (fit : ℝ → ℝ → ℝ) (m : Moffat) (i : ℕ) : ℝ := linspace 0 (m.maxk fit) 700 i
/-- `slp`: moffat.py:360-363. -/
noncomputable def Moffat.slp (fit : ℝ → ℝ → ℝ) (m : Moffat) : ℝ :=
  (m.kUntrunc (m.kNode fit 699) / m.kAsymp (m.kNode fit 699) - 1) * m.kNode fit 699 * m.r0
/-- `_kValue` at the radius `k`: moffat.py:379-392. -/
noncomputable def Moffat.kRadial (fit : ℝ → ℝ → ℝ) (m : Moffat) (k : ℝ) : ℝ :=
  let res := akimaInterp true 700 (m.kNode fit) (fun i => m.kUntrunc (m.kNode fit i)) k
  let kmsk := if k > 0 then k else m.kNode fit 1
  if k > m.kNode fit 699 then m.kAsymp kmsk * (1 + m.slp fit / kmsk / m.r0) else res
/-- `_kValue`: moffat.py:367-392. -/
noncomputable def Moffat.kValue (fit : ℝ → ℝ → ℝ) (m : Moffat) (k : ℝ × ℝ) : ℝ :=
  m.kRadial fit (safeSqrt (k.1 ^ 2 + k.2 ^ 2))
/-- `withFlux`: moffat.py:402-410. -/
noncomputable def Moffat.withFlux (m : Moffat) (f : ℝ) : Option Moffat :=
  Moffat.init m.beta (some m.r0) none none 0 f m.gs
/-- The radius of a photon whose second deviate is `v`: moffat.py:418-428. -/
noncomputable def Moffat.shootR (m : Moffat) (v : ℝ) : ℝ :=
  let newRsq := (1 - v * m.fluxFactor) ^ (1 / (1 - m.beta)) - 1
  m.r0 * Real.sqrt newRsq
/-- The position of a photon with deviates `w` (angle) and `v`: moffat.py:413-430. -/
noncomputable def Moffat.shoot (m : Moffat) (w v : ℝ) : ℝ × ℝ :=
  let theta := w * 2 * Real.pi;
  (m.shootR v * Real.cos theta, m.shootR v * Real.sin theta)

/-! ### Spergel -/

/-- `gamma`: spergel.py:14-18; `lgamma` is `log |Γ|`. -/
noncomputable def gammaF (x : ℝ) : ℝ := Real.exp (Real.log |Real.Gamma x|)
open Classical in
/-- `_gamma`: spergel.py:21-28.  At 0 the code gives `inf`, here 0. -/
noncomputable def gammaJ (nu : ℝ) : ℝ :=
  if nu = 0 then 0 else if nu = 1 then 1 else if nu = 2 then 1 else if nu = 3 then 2 else if nu = 4 then 6
  else if nu = 5 then 24 else gammaF nu
/-- `_gammap1`: spergel.py:31-34. -/
noncomputable def gammaP1 (nu : ℝ) : ℝ := gammaJ (nu + 1)
/-- `z2lz`: spergel.py:37-40. -/
noncomputable def z2lz (z : ℝ) : ℝ := if z ≤ 1e-40 then 0 else z * z * Real.log z
/-- `f0`: spergel.py:43-51. -/
noncomputable def f0 (z : ℝ) : ℝ :=
  let z2 := z * z
  let z4 := z2 * z2
  0.11593151565841244881 + 0.27898287891460311220 * z2 + 0.025248929932162694513 * z4
    - (1 + 0.125 * z2) ^ (2 : ℕ) * Real.log z
/-- `f1`: spergel.py:54-62. -/
noncomputable def f1 (z : ℝ) : ℝ :=
  let z2 := z * z
  let z4 := z2 * z2
  1 - 0.30796575782920622441 * z2 - 0.08537071972865077805 * z4 + z2lz z * (0.5 + 0.0625 * z2)
/-- `f2`: spergel.py:65-72. -/
noncomputable def f2 (z : ℝ) : ℝ :=
  let z2 := z * z
  let z4 := z2 * z2
  2 - 0.5 * z2 + 0.10824143945730155610 * z4 - 0.125 * (z2lz z * z2)
/-- `f3`: spergel.py:75-80. -/
noncomputable def f3 (z : ℝ) : ℝ := 8 - z * z + 0.125 * (z * z * (z * z))
/-- `f4`: spergel.py:83-88. -/
noncomputable def f4 (z : ℝ) : ℝ := 48 - 4 * (z * z) + 0.25 * (z * z * (z * z))
/-- `f5`: spergel.py:91-96. -/
noncomputable def f5 (z : ℝ) : ℝ := 384 - 24 * (z * z) + z * z * (z * z)
/-- `fnu` inside `fsmallz_nu`: spergel.py:101-113. -/
noncomputable def fnuSmall (z nu' : ℝ) : ℝ :=
  let nu := nu' + 1e-10
  let z2 := z * z
  let z4 := z2 * z2
  let c1 := (2 : ℝ) ^ (-6 - nu)
  let c2 := gammaJ (-2 - nu)
  let c3 := gammaJ (-2 + nu)
  let c4 := z ^ (2 * nu)
  let c5 := z4 * 8 * z2 * (2 + nu) + 32 * (1 + nu) * (2 + nu)
  let c6 := z2 * (16 + z2 - 8 * nu) * c3
  c1 * (c4 * c5 * c2 + (4 : ℝ) ^ nu * (c6 + 32 * gammaJ nu))
open Classical in
/-- `fsmallz_nu`: spergel.py:99-119. -/
noncomputable def fsmallzNu (z nu : ℝ) : ℝ :=
  if nu = 0 then f0 z else if nu = 1 then f1 z else if nu = 2 then f2 z else if nu = 3 then f3 z
  else if nu = 4 then f4 z else fnuSmall z nu
/-- `fz_nu`: spergel.py:122-125. -/
noncomputable def fzNu (z nu : ℝ) : ℝ := if z ≤ 1e-10 then fsmallzNu z nu else z ^ nu * kv nu z
/-- `fnu` inside `fsmallz_nup1`: spergel.py:130-140. -/
noncomputable def fnuSmallP1 (z nu : ℝ) : ℝ :=
  let z2 := z * z
  let z4 := z2 * z2
  let c1 := -(2 : ℝ) ^ (-4 - nu)
  let c2 := gammaJ (-2 - nu)
  let c3 := c1 * c2 * (8 + 4 * nu + z2) * z ^ (2 * (1 + nu))
  let c4 := (2 : ℝ) ^ nu
  let c5 := gammaP1 nu
  let c6 := c4 * c5 * (1 - 0.25 * z2 / nu + z4 * 0.03125 / (nu * (nu - 1)))
  c3 + c6
open Classical in
/-- `fsmallz_nup1`: spergel.py:128-146. -/
noncomputable def fsmallzNup1 (z nu : ℝ) : ℝ :=
  if nu = 0 then f1 z else if nu = 1 then f2 z else if nu = 2 then f3 z else if nu = 3 then f4 z
  else if nu = 4 then f5 z else fnuSmallP1 z nu
/-- `fz_nup1`: spergel.py:149-154. -/
noncomputable def fzNup1 (z nu : ℝ) : ℝ := if z ≤ 1e-10 then fsmallzNup1 z nu else z ^ (nu + 1) * kv (nu + 1) z
/-- `fluxfractionFunc`: spergel.py:157-160. -/
noncomputable def fluxFraction (z nu alpha : ℝ) : ℝ := 1 - fzNup1 z nu / ((2 : ℝ) ^ nu * gammaP1 nu) - alpha
/-- `reducedfluxfractionFunc`: spergel.py:163-166. -/
noncomputable def reducedFluxFraction (z nu norm : ℝ) : ℝ := fluxFraction z nu 0 / norm
/-- `calculateFluxRadius(alpha, nu, zmin=0, zmax)`: spergel.py:169-192. -/
noncomputable def fluxRadius (alpha nu zmax : ℝ) : ℝ := bisectForRoot (fun z => fluxFraction z nu alpha) 0 zmax 75

/-- Numerator of `_spergel_hlr_pade`: spergel.py:201-220. -/
noncomputable def padeNum (x : ℝ) : ℝ :=
  1.2571513771129166 + x * (3.7059053890269102 + x * (2.8577090425861944 + x * (-0.30570486567039273 + x * (
    0.6589831675940833 + x * (3.375577680133867 + x * (2.8143565844741403 + x * (0.9292378858457211 + x * (
      0.12096941981286179 + x * 0.004206502758293099))))))))
/-- Denominator of `_spergel_hlr_pade`: spergel.py:221-240. -/
noncomputable def padeDen (x : ℝ) : ℝ :=
  1 + x * (2.1939178810491837 + x * (0.8281034080784796 + x * (-0.5163329765186994 + x * (
    0.9164871490929886 + x * (1.8988551389326231 + x * (1.042688817291684 + x * (0.22580140592548198 + x * (
      0.01681923980317362 + x * 0.00018168506955933716))))))))
/-- `_spergel_hlr_pade`: spergel.py:195-241. -/
noncomputable def hlrPade (x : ℝ) : ℝ := padeNum x / padeDen x

/-- `Spergel`: spergel.py:272-307. -/
structure Spergel where
  nu : ℝ
  r0 : ℝ
  flux : ℝ
  gs : GSP

/-- `Spergel.__init__`: spergel.py:272-307; `none`: `GalSimIncompatibleValuesError`. -/
noncomputable def Spergel.init (nu : ℝ) (scale hlr : Option ℝ) (flux : ℝ) (gs : GSP) : Option Spergel :=
  match hlr with
  | some h => if scale.isSome then none else some ⟨nu, h / hlrPade nu, flux, gs⟩
  | none =>
    match scale with
    | none => none
    | some s => some ⟨nu, s, flux, gs⟩

/-- spergel.py:323-325. -/
noncomputable def Spergel.invR0 (s : Spergel) : ℝ := 1 / s.r0
/-- spergel.py:335-338. -/
noncomputable def Spergel.hlr (s : Spergel) : ℝ := s.r0 * hlrPade s.nu
/-- `_shootxnorm`: spergel.py:340-343. -/
noncomputable def Spergel.shootxnorm (s : Spergel) : ℝ := 1 / (2 * Real.pi * (2 : ℝ) ^ s.nu * gammaP1 s.nu)
/-- `_xnorm`: spergel.py:345-348. -/
noncomputable def Spergel.xnorm (s : Spergel) : ℝ := s.shootxnorm * s.flux * (s.invR0 * s.invR0)
/-- `_xnorm0` for `nu > 0` (otherwise the code gives `inf`): spergel.py:350-355. -/
noncomputable def Spergel.xnorm0 (s : Spergel) : ℝ := gammaJ s.nu * (2 : ℝ) ^ (s.nu - 1)
/-- spergel.py:361-363. -/
noncomputable def Spergel.integratedFlux (s : Spergel) (r : ℝ) : ℝ := fluxFraction (r / s.r0) s.nu 0
/-- `_maxk`: spergel.py:394-398. -/
noncomputable def Spergel.maxk (s : Spergel) : ℝ :=
  let res := s.gs .maxk_threshold ^ (-1 / (1 + s.nu)) - 1
  Real.sqrt res / s.r0
/-- `_stepk`: spergel.py:400-406. -/
noncomputable def Spergel.stepk (s : Spergel) : ℝ :=
  let R := fluxRadius (1 - s.gs .folding_threshold) s.nu 40
  let R := R * s.r0
  let R := max R (s.gs .stepk_minimum_hlr * s.hlr)
  Real.pi / R
open Classical in
/-- `_xValue`: spergel.py:413-417; `none` where the value is infinite. -/
noncomputable def Spergel.xValue (s : Spergel) (p : ℝ × ℝ) : Option ℝ :=
  let r := Real.sqrt (p.1 ^ 2 + p.2 ^ 2) * s.invR0
  if r = 0 then (if s.nu > 0 then some (s.xnorm * s.xnorm0) else none) else some (s.xnorm * fzNu r s.nu)
/-- `_kValue`: spergel.py:419-422. -/
noncomputable def Spergel.kValue (s : Spergel) (k : ℝ × ℝ) : ℝ :=
  let ksq := (k.1 ^ 2 + k.2 ^ 2) * (s.r0 * s.r0)
  s.flux * (1 + ksq) ^ (-1 - s.nu)
/-- `withFlux`: spergel.py:432-439. -/
noncomputable def Spergel.withFlux (s : Spergel) (f : ℝ) : Option Spergel :=
  Spergel.init s.nu (some s.r0) none f s.gs

/-- `zmax` of the sampling tables: spergel.py:443-445, 476-478. -/
noncomputable def Spergel.shootZmax (s : Spergel) : ℝ := fluxRadius (1 - s.gs .shoot_accuracy) s.nu 30
/-- `z_cdf`: spergel.py:450, 503. -/
noncomputable def Spergel.zCdf (s : Spergel) (i : ℕ) : ℝ := linspace 0 s.shootZmax 10000 i
/-- `_shoot_pos_cdf`: spergel.py:441-452. -/
noncomputable def Spergel.posCdf (s : Spergel) (i : ℕ) : ℝ :=
  reducedFluxFraction (s.zCdf i) s.nu (fluxFraction s.shootZmax s.nu 0)
/-- `_shoot_pos`: spergel.py:454-459. -/
noncomputable def Spergel.shootPos (s : Spergel) (u : ℝ) : ℝ := jnpInterp 10000 s.posCdf s.zCdf u * s.r0

/-- `shoot_rmin`: spergel.py:479-480. -/
noncomputable def Spergel.shootRmin (s : Spergel) : ℝ := fluxRadius (s.gs .shoot_accuracy) s.nu 40
/-- `b`: spergel.py:481-485. -/
noncomputable def Spergel.negB (s : Spergel) : ℝ :=
  let knur := fzNu s.shootRmin s.nu
  let b := knur - s.gs .shoot_accuracy / (Real.pi * s.shootRmin * s.shootRmin * s.shootxnorm)
  3 * b / s.shootRmin
/-- `a`: spergel.py:486. -/
noncomputable def Spergel.negA (s : Spergel) : ℝ := fzNu s.shootRmin s.nu - s.shootRmin * s.negB
/-- `cumulflux`: spergel.py:488-496. -/
noncomputable def cumulFlux (z a b zmin nu norm : ℝ) : ℝ :=
  let fluxMin := a / 3 * zmin * zmin * zmin + b / 2 * zmin * zmin
  let c1 := fzNup1 zmin nu
  let res := if z ≤ zmin then a / 3 * z * z * z + b / 2 * z * z else fluxMin + c1 - fzNup1 z nu
  res / norm
/-- `_shoot_neg_cdf`: spergel.py:461-504. -/
noncomputable def Spergel.negCdf (s : Spergel) (i : ℕ) : ℝ :=
  cumulFlux (s.zCdf i) s.negA s.negB s.shootRmin s.nu
    (cumulFlux s.shootZmax s.negA s.negB s.shootRmin s.nu 1)
/-- `_shoot_neg`: spergel.py:506-511. -/
noncomputable def Spergel.shootNeg (s : Spergel) (u : ℝ) : ℝ := jnpInterp 10000 s.negCdf s.zCdf u * s.r0
/-- The radius of a photon whose first deviate is `u`: spergel.py:515-517. -/
noncomputable def Spergel.shootR (s : Spergel) (u : ℝ) : ℝ := if s.nu > 0 then s.shootPos u else s.shootNeg u
/-- `_shoot`: the position of a photon with deviates `u` (radius) and `w` (angle): spergel.py:515-521. -/
noncomputable def Spergel.shoot (s : Spergel) (u w : ℝ) : ℝ × ℝ :=
  let ang := w * 2 * Real.pi;
  (s.shootR u * Real.cos ang, s.shootR u * Real.sin ang)

/-! ### Elementary profiles as leaves -/

/-- An elementary profile. -/
inductive Elem
  | gaussian (g : Gaussian)
  | exponential (e : Exponential)
  | box (b : Box)
  | delta (d : Delta)
  | moffat (fit : ℝ → ℝ → ℝ) (m : Moffat)
  | spergel (s : Spergel)

/-- The `flux` parameter: gsobject.py:46-54. -/
def Elem.flux : Elem → ℝ
  | .gaussian g => g.flux
  | .exponential e => e.flux
  | .box b => b.flux
  | .delta d => d.flux
  | .moffat _ m => m.flux
  | .spergel s => s.flux

/-- The expectation over the photons of `_shoot` (each with flux `flux / N`): gaussian.py:151-158,
exponential.py:155-170, box.py:119-125, deltafunction.py:68-73, moffat.py:411-431, spergel.py:514-522.  The uniform and
normal deviates are independent reals of these distributions. -/
noncomputable def Elem.photons : Elem → (ℝ × ℝ → ℝ → ℝ) → ℝ
  | .gaussian g, K => ∫ z, (∫ w, K (g.shoot z w) g.flux ∂ProbabilityTheory.gaussianReal 0 1)
      ∂ProbabilityTheory.gaussianReal 0 1
  | .exponential e, K => ∫ v in (0 : ℝ)..1, ∫ w in (0 : ℝ)..1, K (e.shoot v w) e.flux
  | .box b, K => ∫ v in (0 : ℝ)..1, ∫ w in (0 : ℝ)..1, K (b.shoot v w) b.flux
  | .delta d, K => K (0, 0) d.flux
  | .moffat _ m, K => ∫ v in (0 : ℝ)..1, ∫ w in (0 : ℝ)..1, K (m.shoot w v) m.flux
  | .spergel s, K => ∫ v in (0 : ℝ)..1, ∫ w in (0 : ℝ)..1, K (s.shoot v w) s.flux

/-- The observables of an elementary profile; centroid, positive and negative flux are those of the base class,
gsobject.py:99-131.  The surface brightness bound of a `Spergel` with `nu ≤ 0` is infinite in the code. -/
noncomputable def Elem.leaf (e : Elem) : Leaf where
  flux := e.flux
  xv := match e with
    | .gaussian g => fun p => some (g.xValue p)
    | .exponential e => fun p => some (e.xValue p)
    | .box b => fun p => some (b.xValue p)
    | .delta d => fun p => some (d.xValue p)
    | .moffat _ m => fun p => some (m.xValue p)
    | .spergel s => s.xValue
  kv := match e with
    | .gaussian g => fun k => (g.kValue k : ℂ)
    | .exponential e => fun k => (e.kValue k : ℂ)
    | .box b => fun k => (b.kValue k : ℂ)
    | .delta d => d.kValue
    | .moffat fit m => fun k => (m.kValue fit k : ℂ)
    | .spergel s => fun k => (s.kValue k : ℂ)
  cen := (0, 0)
  pos := e.flux + 0
  neg := 0
  maxk := match e with
    | .gaussian g => g.maxk
    | .exponential e => e.maxk
    | .box b => b.maxk
    | .delta _ => mockInf
    | .moffat fit m => m.maxk fit
    | .spergel s => s.maxk
  stepk := match e with
    | .gaussian g => g.stepk
    | .exponential e => e.stepk
    | .box b => b.stepk
    | .delta _ => mockInf
    | .moffat _ m => m.stepk
    | .spergel s => s.stepk
  maxSb := match e with
    | .gaussian g => g.norm
    | .exponential e => e.norm
    | .box b => b.maxSb
    | .delta _ => mockInf
    | .moffat _ m => m.norm
    | .spergel s => |s.xnorm| * s.xnorm0
  hard := match e with
    | .box _ => true
    | _ => false
  analyticX := match e with
    | .delta _ => false
    | _ => true
  photons := e.photons

end JG.Elt
