import Verif.Props.ProfileFourier
import Mathlib.Analysis.Convolution
import Mathlib.MeasureTheory.Measure.Lebesgue.EqHaar
import Mathlib.LinearAlgebra.Matrix.ToLin
import Mathlib.LinearAlgebra.Determinant

/-!
C76 for trees of profiles: Fourier values are transforms of the surface brightness.
-/

open MeasureTheory Set

namespace JG.Elt

/-! ### Linear maps of the plane -/

/-- The linear map of a matrix. -/
noncomputable def linMap (m : Mat2) : ℝ × ℝ →ₗ[ℝ] ℝ × ℝ :=
  Matrix.toLin (Module.Basis.finTwoProd ℝ) (Module.Basis.finTwoProd ℝ) !![m.a, m.b; m.c, m.d]

theorem linMap_app (m : Mat2) (p : ℝ × ℝ) : linMap m p = m.app p := by
  rw [linMap, Matrix.toLin_finTwoProd_apply]
  rfl

theorem linMap_det (m : Mat2) : LinearMap.det (linMap m) = m.det := by
  rw [linMap, LinearMap.det_toLin, Matrix.det_fin_two_of]
  rfl

theorem continuous_app (m : Mat2) : Continuous m.app := by
  unfold Mat2.app
  fun_prop

theorem map_app (m : Mat2) (h : m.det ≠ 0) :
    Measure.map m.app (volume : Measure (ℝ × ℝ)) = ENNReal.ofReal |m.det⁻¹| • volume := by
  have e : m.app = ⇑(linMap m) := funext fun p => (linMap_app m p).symm
  rw [e, Measure.map_linearMap_addHaar_eq_smul_addHaar _ (by rwa [linMap_det]), linMap_det]

theorem app_embedding (m : Mat2) (h : m.det ≠ 0) : MeasurableEmbedding m.app := by
  have e : m.app = ⇑((LinearMap.equivOfDetNeZero (linMap m) (by rwa [linMap_det])).toContinuousLinearEquiv).toHomeomorph :=
    funext fun p => (linMap_app m p).symm
  rw [e]
  exact Homeomorph.measurableEmbedding _

/-- The change of variables `q = m (p - off)`. -/
theorem integral_affine {E : Type*} [NormedAddCommGroup E] [NormedSpace ℝ E] (m : Mat2) (h : m.det ≠ 0) (off : ℝ × ℝ)
    (g : ℝ × ℝ → E) : ∫ p, g (m.app (p - off)) = |m.det⁻¹| • ∫ q, g q := by
  rw [integral_sub_right_eq_self (fun p => g (m.app p)) off, ← (app_embedding m h).integral_map, map_app m h,
    integral_smul_measure, ENNReal.toReal_ofReal (abs_nonneg _)]

theorem integrable_affine (m : Mat2) (h : m.det ≠ 0) (off : ℝ × ℝ) {g : ℝ × ℝ → ℝ} (hg : Integrable g) :
    Integrable (fun p => g (m.app (p - off))) := by
  have : Integrable (fun p => g (m.app p)) := by
    have h1 : Integrable g (Measure.map m.app volume) := by
      rw [map_app m h]
      exact hg.smul_measure ENNReal.ofReal_ne_top
    exact (app_embedding m h).integrable_map_iff.1 h1
  exact this.comp_sub_right off

theorem inv_det {m n : Mat2} (h : m.inv = some n) : m.det ≠ 0 ∧ n.det = m.det⁻¹ := by
  unfold Mat2.inv at h
  split_ifs at h with hd
  refine ⟨hd, ?_⟩
  obtain rfl := Option.some.inj h
  simp only [Mat2.det] at *
  field_simp
  try ring

theorem inv_app {m n : Mat2} (h : m.inv = some n) (p : ℝ × ℝ) : m.app (n.app p) = p := by
  unfold Mat2.inv at h
  split_ifs at h with hd
  obtain rfl := Option.some.inj h
  obtain ⟨D, hD⟩ : ∃ D, D = m.det := ⟨_, rfl⟩
  rw [← hD] at hd ⊢
  rw [Mat2.det] at hD
  ext <;> simp only [Mat2.app] <;> field_simp <;> rw [hD] <;> ring

/-! ### Convolutions -/

/-- Specification: the convolution integral. -/
noncomputable def convolve (f g : ℝ × ℝ → ℝ) (p : ℝ × ℝ) : ℝ := ∫ q, f q * g (p - q)

theorem convolve_eq (f g : ℝ × ℝ → ℝ) : convolve f g = MeasureTheory.convolution f g (ContinuousLinearMap.mul ℝ ℝ) volume := by
  funext p
  rfl

theorem convolve_integrable {f g : ℝ × ℝ → ℝ} (hf : Integrable f) (hg : Integrable g) : Integrable (convolve f g) := by
  rw [convolve_eq]
  exact hf.integrable_convolution _ hg

theorem wave_add (k p q : ℝ × ℝ) : wave k (p + q) = wave k p * wave k q := by
  unfold wave
  rw [← Complex.exp_add]
  congr 1
  simp only [Prod.fst_add, Prod.snd_add]
  push_cast
  ring

theorem transform_convolve {f g : ℝ × ℝ → ℝ} (hf : Integrable f) (hg : Integrable g) (k : ℝ × ℝ) :
    transform (convolve f g) k = transform f k * transform g k := by
  have h := integral_convolution (μ := volume) (ν := volume) (ContinuousLinearMap.mul ℝ ℂ) (transform_integrable hf k)
    (transform_integrable hg k)
  rw [transform_eq, transform_eq, transform_eq]
  rw [ContinuousLinearMap.mul_apply'] at h
  rw [← h]
  refine integral_congr_ae (Filter.Eventually.of_forall fun p => ?_)
  simp only [convolve, MeasureTheory.convolution, ContinuousLinearMap.mul_apply']
  rw [← integral_complex_ofReal, ← integral_mul_const]
  refine integral_congr_ae (Filter.Eventually.of_forall fun q => ?_)
  simp only
  have : wave k p = wave k q * wave k (p - q) := by rw [← wave_add, add_sub_cancel]
  rw [this]
  push_cast
  ring

/-! ### Trees -/

/-- Specification: `f` is the surface brightness of a profile.  A concrete profile has a given integrable `f`; a
transformation moves the light of `o` at `q` to `J q + off` and multiplies its surface brightness by `r`; sums add; the
brightness of a convolution is the convolution integral of those of its components. -/
inductive Bright (leafB : Leaf → (ℝ × ℝ → ℝ) → Prop) : Prof → (ℝ × ℝ → ℝ) → Prop
  | leaf {L f} : leafB L f → Bright leafB (.leaf L) f
  | trans {o f J off r g} : Bright leafB o f → J.det ≠ 0 → (∀ q, g (J.app q + off) = r * f q) →
      Bright leafB (.trans o J off r) g
  | sumNil : Bright leafB (.sum []) (fun _ => 0)
  | sumCons {o l f g} : Bright leafB o f → Bright leafB (.sum l) g → Bright leafB (.sum (o :: l)) (fun p => f p + g p)
  | convOne {o f} : Bright leafB o f → Bright leafB (.conv [o]) f
  | convCons {o l f g} : Bright leafB o f → Bright leafB (.conv l) g → Bright leafB (.conv (o :: l)) (convolve f g)

/-- C76: in every tree of transformations, sums and convolutions of profiles whose Fourier values are the transforms of
their surface brightness, the Fourier value is the transform of the surface brightness. -/
theorem C76_tree (p : Prof) (f : ℝ × ℝ → ℝ)
    (h : Bright (fun L f => Integrable f ∧ ∀ k, L.kv k = transform f k) p f) :
    Integrable f ∧ ∀ k, p.kValue k = transform f k := by
  induction h with
  | leaf h => exact ⟨h.1, fun k => by rw [Prof.kValue]; exact h.2 k⟩
  | @trans o f J off r g h hd hg ih =>
    obtain ⟨Ji, hJi⟩ : ∃ Ji, J.inv = some Ji := ⟨_, if_neg hd⟩
    obtain ⟨_, hdet⟩ := inv_det hJi
    have hdi : Ji.det ≠ 0 := by rw [hdet]; exact inv_ne_zero hd
    have hg' : ∀ p, g p = r * f (Ji.app (p - off)) := by
      intro p
      rw [← hg, inv_app hJi, sub_add_cancel]
    have e : g = fun p => r * f (Ji.app (p - off)) := funext hg'
    refine ⟨?_, fun k => ?_⟩
    · rw [e]
      exact (integrable_affine Ji hdi off ih.1).const_mul r
    · rw [Prof.kValue, ih.2, e, transform_const_mul, transform_eq, transform_eq]
      have hw : ∀ p : ℝ × ℝ, wave k p = wave k off * wave (J.tr.app k) (Ji.app (p - off)) := by
        intro p
        have e1 : wave (J.tr.app k) (Ji.app (p - off)) = wave k (J.app (Ji.app (p - off))) := by
          unfold wave
          congr 3
          simp only [Mat2.app, Mat2.tr]
          ring
        rw [e1, inv_app hJi, ← wave_add, add_sub_cancel]
      have e0 : (fun p : ℝ × ℝ => (f (Ji.app (p - off)) : ℂ) * wave k p) =
          fun p => (f (Ji.app (p - off)) : ℂ) * (wave k off * wave (J.tr.app k) (Ji.app (p - off))) :=
        funext fun p => by rw [← hw p]
      rw [e0]
      have := integral_affine Ji hdi off (fun q => (f q : ℂ) * (wave k off * wave (J.tr.app k) q))
      rw [this, hdet, inv_inv]
      have e2 : (fun q => (f q : ℂ) * (wave k off * wave (J.tr.app k) q)) =
          fun q => wave k off * ((f q : ℂ) * wave (J.tr.app k) q) := by
        funext q
        ring
      rw [e2, integral_const_mul, kFactor, fluxScaling, Complex.real_smul]
      have e3 : Complex.exp ((k.1 : ℂ) * (-Complex.I * off.1) + (k.2 : ℂ) * (-Complex.I * off.2)) = wave k off := by
        unfold wave
        congr 1
        push_cast
        ring
      rw [e3]
      push_cast
      ring
  | sumNil =>
    refine ⟨integrable_zero _ _ _, fun k => ?_⟩
    simp [Prof.kValue, Prof.kSum, transform]
  | @sumCons o l f g _ _ ih1 ih2 =>
    refine ⟨ih1.1.add ih2.1, fun k => ?_⟩
    have h2 := ih2.2 k
    rw [Prof.kValue] at h2
    rw [Prof.kValue, Prof.kSum, ih1.2, h2, transform_eq, transform_eq, transform_eq,
      ← integral_add (transform_integrable ih1.1 k) (transform_integrable ih2.1 k)]
    refine integral_congr_ae (Filter.Eventually.of_forall fun q => ?_)
    simp only
    push_cast
    ring
  | convOne _ ih =>
    refine ⟨ih.1, fun k => ?_⟩
    rw [Prof.kValue, Prof.kProd, Prof.kProd, mul_one, ih.2]
  | @convCons o l f g _ _ ih1 ih2 =>
    refine ⟨convolve_integrable ih1.1 ih2.1, fun k => ?_⟩
    have h2 := ih2.2 k
    rw [Prof.kValue] at h2
    rw [Prof.kValue, Prof.kProd, ih1.2, h2, transform_convolve ih1.1 ih2.1]

/-- Profiles without convolutions, the ones with a surface brightness in the code. -/
inductive Plain : Prof → Prop
  | leaf {L} : Plain (.leaf L)
  | trans {o J off r} : Plain o → Plain (.trans o J off r)
  | sum {l} : (∀ o ∈ l, Plain o) → Plain (.sum l)

/-- C76: the surface brightness of `C76_tree` is the `xValue` of the code for every tree without convolutions. -/
theorem C76_tree_xValue (p : Prof) (hp : Plain p) (f : ℝ × ℝ → ℝ)
    (h : Bright (fun L f => ∀ q, L.xv q = some (f q)) p f) (q : ℝ × ℝ) : p.xValue q = some (f q) := by
  induction h generalizing q with
  | leaf h => rw [Prof.xValue]; exact h q
  | @trans o f J off r g h hd hg ih =>
    cases hp with
    | trans hp =>
    obtain ⟨Ji, hJi⟩ : ∃ Ji, J.inv = some Ji := ⟨_, if_neg hd⟩
    rw [Prof.xValue, hJi, Option.bind_some, ih hp, Option.map_some, mul_comm, ← hg, inv_app hJi, sub_add_cancel]
  | sumNil => rfl
  | @sumCons o l f g _ _ ih1 ih2 =>
    cases hp with
    | sum hp =>
    have h2 := ih2 (.sum fun a ha => hp a (by simp [ha])) q
    rw [Prof.xValue] at h2
    rw [Prof.xValue, Prof.xValueL, ih1 (hp o (by simp)), h2]
    rfl
  | convOne => cases hp
  | convCons => cases hp

theorem bright_mono {A B : Leaf → (ℝ × ℝ → ℝ) → Prop} (hAB : ∀ L f, A L f → B L f) {p : Prof} {f : ℝ × ℝ → ℝ}
    (h : Bright A p f) : Bright B p f := by
  induction h with
  | leaf h => exact .leaf (hAB _ _ h)
  | trans _ hd hg ih => exact .trans ih hd hg
  | sumNil => exact .sumNil
  | sumCons _ _ ih1 ih2 => exact .sumCons ih1 ih2
  | convOne _ ih => exact .convOne ih
  | convCons _ _ ih1 ih2 => exact .convCons ih1 ih2

/-- Specification: a profile of the elementary kinds whose brightness and Fourier values match exactly. -/
inductive BoxLeaf : Leaf → (ℝ × ℝ → ℝ) → Prop
  | box {b : Box} : 0 < b.width → 0 < b.height → BoxLeaf (Elem.leaf (.box b)) b.xValue

/-- C76: for every tree of boxes and pixels without convolutions, the Fourier value of the code is the transform of the
surface brightness of the code. -/
theorem C76_boxes (p : Prof) (hp : Plain p) (f : ℝ × ℝ → ℝ) (h : Bright BoxLeaf p f) :
    (∀ q, p.xValue q = some (f q)) ∧ Integrable f ∧ ∀ k, p.kValue k = transform f k := by
  refine ⟨C76_tree_xValue p hp f (bright_mono ?_ h), C76_tree p f (bright_mono ?_ h)⟩
  · rintro L f ⟨hw, hh⟩ q
    rfl
  · rintro L f ⟨hw, hh⟩
    rename_i b
    exact ⟨(C76_box b hw hh).1, fun k => ((C76_box b hw hh).2 k).symm⟩

/-- The analytic brightness of an elementary profile: that of the code up to the rounding of `1/(2π)` and the series of
the Spergel profile (`C76_gaussian`, `C76_exponential`, `C76_spergel_partial`). -/
inductive IdealLeaf : Leaf → (ℝ × ℝ → ℝ) → Prop
  | gaussian {g : Gaussian} : 0 < g.sigma →
      IdealLeaf (Elem.leaf (.gaussian g)) fun p => (2 * Real.pi * invTwoPi)⁻¹ * g.xValue p
  | exponential {e : Exponential} : 0 < e.r0 →
      IdealLeaf (Elem.leaf (.exponential e)) fun p => (2 * Real.pi * invTwoPi)⁻¹ * e.xValue p
  | box {b : Box} : 0 < b.width → 0 < b.height → IdealLeaf (Elem.leaf (.box b)) b.xValue
  | spergel {s : Spergel} : -1 < s.nu → 0 < s.r0 → IdealLeaf (Elem.leaf (.spergel s)) s.ideal

theorem norm_ne : (2 * Real.pi * invTwoPi) ≠ 0 := by
  have := Real.pi_pos
  unfold invTwoPi
  positivity

/-- C76: for every tree of transformations, sums and convolutions of Gaussian, exponential, box and Spergel profiles,
the Fourier value is the transform of the surface brightness. -/
theorem C76_elementary_tree (p : Prof) (f : ℝ × ℝ → ℝ) (h : Bright IdealLeaf p f) :
    Integrable f ∧ ∀ k, p.kValue k = transform f k := by
  refine C76_tree p f (bright_mono ?_ h)
  intro L f hL
  cases hL with
  | @gaussian g hs =>
    have h := C76_gaussian g hs
    refine ⟨h.1.const_mul _, fun k => ?_⟩
    rw [transform_const_mul, h.2.1, ← mul_assoc, ← Complex.ofReal_mul, inv_mul_cancel₀ norm_ne]
    simp [Elem.leaf]
  | @exponential e hr =>
    have h := C76_exponential e hr
    refine ⟨h.1.const_mul _, fun k => ?_⟩
    rw [transform_const_mul, h.2.1, ← mul_assoc, ← Complex.ofReal_mul, inv_mul_cancel₀ norm_ne]
    simp [Elem.leaf]
  | @box b hw hh => exact ⟨(C76_box b hw hh).1, fun k => ((C76_box b hw hh).2 k).symm⟩
  | @spergel s hn hr =>
    have h := C76_spergel_partial s hn hr
    exact ⟨h.2.2.1, fun k => (h.2.2.2 k).symm⟩

/-- A galaxy seen through a pixel: the convolution of a sheared, shifted exponential profile with a box. -/
example (gs : GSP) (k : ℝ × ℝ) :
    (mkConv [mkTransform (.leaf (Elem.leaf (.exponential ⟨1, 3, gs⟩))) ⟨2, 0, 1, 1⟩ (5, 7) 2,
      .leaf (Elem.leaf (.box ⟨1, 1, 1, gs⟩))]).kValue k =
    transform (convolve (fun p => 2 * ((2 * Real.pi * invTwoPi)⁻¹ *
      Exponential.xValue ⟨1, 3, gs⟩ (p.1 / 2 - 5 / 2, p.2 - 7 - (p.1 / 2 - 5 / 2)))) (Box.xValue ⟨1, 1, 1, gs⟩)) k := by
  refine (C76_elementary_tree _ _ (.convCons (.trans (.leaf (.exponential (by norm_num)))
    (by simp [Mat2.det]) fun q => ?_) (.convOne (.leaf (.box (by norm_num) (by norm_num)))))).2 k
  have : ((Mat2.app ⟨2, 0, 1, 1⟩ q + ((5, 7) : ℝ × ℝ)).1 / 2 - 5 / 2,
      (Mat2.app ⟨2, 0, 1, 1⟩ q + ((5, 7) : ℝ × ℝ)).2 - 7 -
        ((Mat2.app ⟨2, 0, 1, 1⟩ q + ((5, 7) : ℝ × ℝ)).1 / 2 - 5 / 2)) = q := by
    ext <;> simp [Mat2.app] <;> ring
  simp only [this]

end JG.Elt
