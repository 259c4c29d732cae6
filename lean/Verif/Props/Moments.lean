import Verif.Model.Moments
import Verif.Props.ImageConst
import Mathlib.Algebra.BigOperators.Finprod
import Mathlib.Algebra.Order.BigOperators.Group.Finset
import Mathlib.Algebra.BigOperators.Field
import Mathlib.Algebra.Order.BigOperators.Ring.Finset
import Mathlib.Tactic.FieldSimp
import Mathlib.Tactic.LinearCombination
import Mathlib.Tactic.Positivity
import Mathlib.Analysis.SpecialFunctions.Trigonometric.Basic

/-!
Property C84: `unweighted_moments` and `unweighted_shape` are the moments of the light of the image.
-/

namespace JG

/-! ### Specification: the light of an image as masses at the pixel coordinates -/

/-- The sum of `f` over the light of a map from coordinates to values. -/
noncomputable def pixelSum (m : CMap) (f : ℤ × ℤ → ℝ) : ℝ := ∑ᶠ p : ℤ × ℤ, f p * (m p.1 p.2).getD 0
/-- The total light. -/
noncomputable def light (m : CMap) : ℝ := pixelSum m fun _ => 1
/-- The mean of `f` over the light. -/
noncomputable def lightMean (m : CMap) (f : ℤ × ℤ → ℝ) : ℝ := pixelSum m f / light m
/-- The mean of the product of the deviations of `f` and `g` from their means. -/
noncomputable def lightCov (m : CMap) (f g : ℤ × ℤ → ℝ) : ℝ :=
  lightMean m fun p => (f p - lightMean m f) * (g p - lightMean m g)

/-- The coordinates of a pixel. -/
def pixX (p : ℤ × ℤ) : ℝ := p.1
def pixY (p : ℤ × ℤ) : ℝ := p.2

/-- `M` are the moments of the light with the first moments measured from `o`. -/
structure MomentsOf (m : CMap) (o : ℝ × ℝ) (M : Moments) : Prop where
  m0 : M.M0 = light m
  mx : M.Mx = lightMean m pixX - o.1
  my : M.My = lightMean m pixY - o.2
  mxx : M.Mxx = lightCov m pixX pixX
  myy : M.Myy = lightCov m pixY pixY
  mxy : M.Mxy = lightCov m pixX pixY

/-! ### Sums over pixels -/

/-- Only finitely many coordinates carry light. -/
abbrev FinMap (m : CMap) : Prop := {p : ℤ × ℤ | m p.1 p.2 ≠ none}.Finite

theorem finMap_coordMap (im : Image) : FinMap (coordMap im) := by
  refine ((Finset.Ico im.bounds.xmin (im.bounds.xmin + im.bounds.deltax) ×ˢ
    Finset.Ico im.bounds.ymin (im.bounds.ymin + im.bounds.deltay)).finite_toSet).subset ?_
  rintro ⟨x, y⟩ h
  simp only [Set.mem_ofPred_eq, coordMap] at h
  by_cases hd : im.bounds.defined = true ∧ inRect im.bounds x y
  · simpa [inRect] using hd.2
  · exact absurd (if_neg hd) h

theorem pixelSum_eq {m : CMap} (h : FinMap m) (f : ℤ × ℤ → ℝ) :
    pixelSum m f = ∑ p ∈ h.toFinset, f p * (m p.1 p.2).getD 0 := by
  refine finsum_eq_sum_of_support_subset _ fun p hp => ?_
  rw [Set.Finite.coe_toFinset]
  intro h0
  exact hp (by simp only [h0, Option.getD_none, mul_zero])

theorem pixelSum_add {m : CMap} (h : FinMap m) (f g : ℤ × ℤ → ℝ) :
    pixelSum m (fun p => f p + g p) = pixelSum m f + pixelSum m g := by
  simp only [pixelSum_eq h, add_mul, Finset.sum_add_distrib]

theorem pixelSum_smul {m : CMap} (h : FinMap m) (c : ℝ) (f : ℤ × ℤ → ℝ) :
    pixelSum m (fun p => c * f p) = c * pixelSum m f := by
  simp only [pixelSum_eq h, mul_assoc, Finset.mul_sum]

theorem pixelSum_const {m : CMap} (h : FinMap m) (c : ℝ) : pixelSum m (fun _ => c) = c * light m := by
  rw [light, ← pixelSum_smul h]; simp

theorem lightMean_add {m : CMap} (h : FinMap m) (f g : ℤ × ℤ → ℝ) :
    lightMean m (fun p => f p + g p) = lightMean m f + lightMean m g := by
  rw [lightMean, pixelSum_add h, add_div]; rfl

theorem lightMean_smul {m : CMap} (h : FinMap m) (c : ℝ) (f : ℤ × ℤ → ℝ) :
    lightMean m (fun p => c * f p) = c * lightMean m f := by
  rw [lightMean, pixelSum_smul h, mul_div_assoc]; rfl

theorem lightMean_const {m : CMap} (h : FinMap m) (hl : light m ≠ 0) (c : ℝ) : lightMean m (fun _ => c) = c := by
  rw [lightMean, pixelSum_const h, mul_div_assoc, div_self hl, mul_one]

/-- The second moments about the mean are the mean products less the product of the means. -/
theorem lightCov_eq {m : CMap} (h : FinMap m) (hl : light m ≠ 0) (f g : ℤ × ℤ → ℝ) :
    lightCov m f g = lightMean m (fun p => f p * g p) - lightMean m f * lightMean m g := by
  rw [lightCov]
  have e : (fun p => (f p - lightMean m f) * (g p - lightMean m g)) = fun p => f p * g p +
      ((-lightMean m g) * f p + ((-lightMean m f) * g p + lightMean m f * lightMean m g)) := by
    funext p; ring
  rw [e, lightMean_add h, lightMean_add h, lightMean_add h, lightMean_smul h, lightMean_smul h, lightMean_const h hl]
  ring

/-- The grid sums of the code are sums over the light. -/
theorem gridSum_pixelSum (im : Image) (hd : im.bounds.defined = true) (hs : im.ShapeOK) (f : ℤ × ℤ → ℝ) :
    gridSum im.arr.h im.arr.w (fun i j => f (im.bounds.xmin + j, im.bounds.ymin + i) * im.arr.at' i j) =
      pixelSum (coordMap im) f := by
  have hsh := hs hd
  simp only [Bounds.numpyShape, hd, if_true, Prod.mk.injEq] at hsh
  obtain ⟨hh, hw⟩ := hsh
  rw [gridSum, Finset.sum_sigma', pixelSum]
  have key := finsum_eq_sum_of_support_subset (fun p : ℤ × ℤ => f p * (coordMap im p.1 p.2).getD 0)
    (s := ((Finset.range im.arr.h).sigma fun _ => Finset.range im.arr.w).image
      fun q => (im.bounds.xmin + (q.2 : ℤ), im.bounds.ymin + (q.1 : ℤ))) (by
    rintro ⟨x, y⟩ hp
    by_cases hr : inRect im.bounds x y
    · simp only [Finset.coe_image, Set.mem_image, Finset.mem_coe, Finset.mem_sigma, Finset.mem_range, Prod.mk.injEq]
      obtain ⟨⟨h1, h2⟩, h3, h4⟩ := hr
      exact ⟨⟨(y - im.bounds.ymin).toNat, (x - im.bounds.xmin).toNat⟩, ⟨by simp only; omega, by simp only; omega⟩,
        by simp only; omega, by simp only; omega⟩
    · exact absurd (by simp [coordMap, hr]) hp)
  rw [key, Finset.sum_image]
  · refine Finset.sum_congr rfl ?_
    rintro ⟨i, j⟩ hq
    simp only [Finset.mem_sigma, Finset.mem_range] at hq
    have hr : inRect im.bounds (im.bounds.xmin + (j : ℤ)) (im.bounds.ymin + (i : ℤ)) := ⟨⟨by omega, by omega⟩, by omega, by omega⟩
    simp only [coordMap, hd, hr, and_self, if_true, Option.getD_some, add_sub_cancel_left, Int.toNat_natCast]
  · rintro ⟨i, j⟩ - ⟨k, l⟩ - e
    simp only [Prod.mk.injEq] at e
    obtain ⟨e1, e2⟩ := e
    have : i = k := by omega
    have : j = l := by omega
    subst_vars; rfl

/-! ### C84 -/

/-- C84: the moments exist exactly when the total light is not zero, and then they are the total light, the mean position
seen from the given origin (by default `(0, 0)`) and the second moments about the mean position. -/
theorem C84_moments (im : Image) (hd : im.bounds.defined = true) (hs : im.ShapeOK) (origin : Option Position) :
    (light (coordMap im) = 0 → unweightedMoments im origin = none) ∧
    (light (coordMap im) ≠ 0 → ∃ M, unweightedMoments im origin = some M ∧
      MomentsOf (coordMap im) ((origin.map Position.val).getD (0, 0)) M) := by
  have hM0 : gridSum im.arr.h im.arr.w im.arr.at' = light (coordMap im) := by
    rw [light, ← gridSum_pixelSum im hd hs]; simp
  obtain ⟨o, ho⟩ : ∃ o, o = (origin.map Position.val).getD ((0 : ℝ), (0 : ℝ)) := ⟨_, rfl⟩
  have hoff : (Position.sub (.I im.bounds.xmin im.bounds.ymin) (origin.getD (.D 0 0))).val =
      ((im.bounds.xmin : ℝ) - o.1, (im.bounds.ymin : ℝ) - o.2) := by
    rcases origin with - | ⟨x, y⟩ | ⟨x, y⟩ <;> simp [Position.sub, Position.val, ho]
  rw [← ho]
  constructor
  · intro h0
    simp only [unweightedMoments, hM0, h0, if_true]
  · intro h0
    have hfin := finMap_coordMap im
    have hx : gridSum im.arr.h im.arr.w (fun i j => ((j : ℝ) + ((im.bounds.xmin : ℝ) - o.1)) * im.arr.at' i j) /
        light (coordMap im) = lightMean (coordMap im) pixX - o.1 := by
      have e := gridSum_pixelSum im hd hs fun p => pixX p + (-o.1)
      have e2 : (fun i j : ℕ => ((j : ℝ) + ((im.bounds.xmin : ℝ) - o.1)) * im.arr.at' i j) =
          fun i j : ℕ => (pixX (im.bounds.xmin + (j : ℤ), im.bounds.ymin + (i : ℤ)) + (-o.1)) * im.arr.at' i j := by
        funext i j; simp only [pixX]; push_cast; ring
      rw [e2, e]
      show lightMean _ _ = _
      rw [lightMean_add hfin, lightMean_const hfin h0]; ring
    have hy : gridSum im.arr.h im.arr.w (fun i j => ((i : ℝ) + ((im.bounds.ymin : ℝ) - o.2)) * im.arr.at' i j) /
        light (coordMap im) = lightMean (coordMap im) pixY - o.2 := by
      have e := gridSum_pixelSum im hd hs fun p => pixY p + (-o.2)
      have e2 : (fun i j : ℕ => ((i : ℝ) + ((im.bounds.ymin : ℝ) - o.2)) * im.arr.at' i j) =
          fun i j : ℕ => (pixY (im.bounds.xmin + (j : ℤ), im.bounds.ymin + (i : ℤ)) + (-o.2)) * im.arr.at' i j := by
        funext i j; simp only [pixY]; push_cast; ring
      rw [e2, e]
      show lightMean _ _ = _
      rw [lightMean_add hfin, lightMean_const hfin h0]; ring
    have h2 : ∀ (F : ℕ → ℕ → ℝ) (f : ℤ × ℤ → ℝ),
        (∀ i j : ℕ, F i j = f (im.bounds.xmin + (j : ℤ), im.bounds.ymin + (i : ℤ))) →
        gridSum im.arr.h im.arr.w (fun i j => F i j * im.arr.at' i j) / light (coordMap im) = lightMean (coordMap im) f := by
      intro F f hF
      rw [lightMean, ← gridSum_pixelSum im hd hs]
      simp only [hF]
    simp only [unweightedMoments, hM0, if_neg h0, hoff, hx, hy]
    refine ⟨_, rfl, rfl, rfl, rfl, ?_, ?_, ?_⟩
    · exact h2 _ _ fun i j => by simp only [pixX]; push_cast; ring
    · exact h2 _ _ fun i j => by simp only [pixY]; push_cast; ring
    · exact h2 _ _ fun i j => by simp only [pixX, pixY]; push_cast; ring

/-- C84: measuring from another origin moves the first moments and nothing else. -/
theorem C84_origin (im : Image) (hd : im.bounds.defined = true) (hs : im.ShapeOK) (M : Moments)
    (hM : unweightedMoments im none = some M) (p : Position) :
    unweightedMoments im (some p) = some { M with Mx := M.Mx - p.val.1, My := M.My - p.val.2 } := by
  have h0 : light (coordMap im) ≠ 0 := fun h => by
    rw [(C84_moments im hd hs none).1 h] at hM; cases hM
  obtain ⟨M1, h1, g1⟩ := (C84_moments im hd hs none).2 h0
  obtain ⟨M2, h2, g2⟩ := (C84_moments im hd hs (some p)).2 h0
  rw [h1] at hM
  obtain rfl := Option.some.inj hM
  rw [h2]
  congr 1
  ext
  · rw [g2.m0, g1.m0]
  · rw [g2.mx, g1.mx]; simp
  · rw [g2.my, g1.my]; simp
  · rw [g2.mxx, g1.mxx]
  · rw [g2.myy, g1.myy]
  · rw [g2.mxy, g1.mxy]

/-! ### Moving the pixels -/

theorem pixelSum_equiv (m m' : CMap) (σ : ℤ × ℤ ≃ ℤ × ℤ) (h : ∀ p, m' (σ p).1 (σ p).2 = m p.1 p.2) (f : ℤ × ℤ → ℝ) :
    pixelSum m' f = pixelSum m fun p => f (σ p) := by
  rw [pixelSum, pixelSum, ← finsum_comp_equiv σ]
  simp only [h]

/-- Specification: the pixels of `m'` are those of `m` moved by the integer affine map with matrix `a b / c d` and
shift `(s, t)`. -/
def MovedBy (a b c d s t : ℤ) (m m' : CMap) : Prop :=
  ∃ σ : ℤ × ℤ ≃ ℤ × ℤ, (∀ p, σ p = (a * p.1 + b * p.2 + s, c * p.1 + d * p.2 + t)) ∧ ∀ p, m' (σ p).1 (σ p).2 = m p.1 p.2

/-- What the moments of light become when the light is moved by that map: the centroid moves along, the matrix of
second moments becomes `A Q Aᵀ`. -/
def MomentsMoved (a b c d s t : ℝ) (M M' : Moments) : Prop :=
  M'.M0 = M.M0 ∧ M'.Mx = a * M.Mx + b * M.My + s ∧ M'.My = c * M.Mx + d * M.My + t ∧
  M'.Mxx = a ^ 2 * M.Mxx + 2 * a * b * M.Mxy + b ^ 2 * M.Myy ∧
  M'.Myy = c ^ 2 * M.Mxx + 2 * c * d * M.Mxy + d ^ 2 * M.Myy ∧
  M'.Mxy = a * c * M.Mxx + (a * d + b * c) * M.Mxy + b * d * M.Myy

theorem lightCov_comm (m : CMap) (f g : ℤ × ℤ → ℝ) : lightCov m f g = lightCov m g f := by
  simp only [lightCov, mul_comm]

theorem lightCov_lin {m : CMap} (h : FinMap m) (hl : light m ≠ 0) (a b s : ℝ) (f g k : ℤ × ℤ → ℝ) :
    lightCov m (fun p => a * f p + b * g p + s) k = a * lightCov m f k + b * lightCov m g k := by
  rw [lightCov_eq h hl, lightCov_eq h hl, lightCov_eq h hl]
  have e : (fun p => (a * f p + b * g p + s) * k p) = fun p => a * (f p * k p) + (b * (g p * k p) + s * k p) := by
    funext p; ring
  have e2 : (fun p => a * f p + b * g p + s) = fun p => a * f p + (b * g p + s) := by funext p; ring
  rw [e, e2, lightMean_add h, lightMean_add h, lightMean_add h, lightMean_add h, lightMean_smul h, lightMean_smul h,
    lightMean_smul h, lightMean_smul h, lightMean_smul h, lightMean_const h hl]
  ring

/-- C84: moving the pixels of an image moves its moments. -/
theorem C84_moved (im im' : Image) (hd : im.bounds.defined = true) (hs : im.ShapeOK) (hd' : im'.bounds.defined = true)
    (hs' : im'.ShapeOK) (a b c d s t : ℤ) (h : MovedBy a b c d s t (coordMap im) (coordMap im')) (M : Moments)
    (hM : unweightedMoments im none = some M) :
    ∃ M', unweightedMoments im' none = some M' ∧ MomentsMoved a b c d s t M M' := by
  obtain ⟨σ, hσ, hm⟩ := h
  have h0 : light (coordMap im) ≠ 0 := fun h => by
    rw [(C84_moments im hd hs none).1 h] at hM; cases hM
  have hps := pixelSum_equiv _ _ σ hm
  have hl : light (coordMap im') = light (coordMap im) := hps _
  obtain ⟨M1, h1, g1⟩ := (C84_moments im hd hs none).2 h0
  obtain ⟨M2, h2, g2⟩ := (C84_moments im' hd' hs' none).2 (hl ▸ h0)
  rw [h1] at hM
  obtain rfl := Option.some.inj hM
  have hmean : ∀ f, lightMean (coordMap im') f = lightMean (coordMap im) fun p => f (σ p) := fun f => by
    rw [lightMean, hl, hps]; rfl
  have hcov : ∀ f g, lightCov (coordMap im') f g = lightCov (coordMap im) (fun p => f (σ p)) (fun p => g (σ p)) :=
    fun f g => by simp only [lightCov, hmean]
  have ex : (fun p => pixX (σ p)) = fun p => (a : ℝ) * pixX p + b * pixY p + s := by
    funext p; rw [hσ]; simp only [pixX, pixY]; push_cast; ring
  have ey : (fun p => pixY (σ p)) = fun p => (c : ℝ) * pixX p + d * pixY p + t := by
    funext p; rw [hσ]; simp only [pixX, pixY]; push_cast; ring
  have hf := finMap_coordMap im
  have hlin : ∀ u v w : ℝ, lightMean (coordMap im) (fun p => u * pixX p + v * pixY p + w) =
      u * lightMean (coordMap im) pixX + v * lightMean (coordMap im) pixY + w := fun u v w => by
    have e2 : (fun p => u * pixX p + v * pixY p + w) = fun p => u * pixX p + (v * pixY p + w) := by funext p; ring
    rw [e2, lightMean_add hf, lightMean_add hf, lightMean_smul hf, lightMean_smul hf, lightMean_const hf h0]; ring
  refine ⟨M2, h2, ?_, ?_, ?_, ?_, ?_, ?_⟩
  · rw [g2.m0, g1.m0, hl]
  · rw [g2.mx, g1.mx, g1.my, hmean, ex, hlin, Option.map_none, Option.getD_none]; ring
  · rw [g2.my, g1.mx, g1.my, hmean, ey, hlin, Option.map_none, Option.getD_none]; ring
  · rw [g2.mxx, g1.mxx, g1.myy, g1.mxy, hcov, ex, lightCov_lin hf h0, lightCov_comm _ pixX, lightCov_comm _ pixY,
      lightCov_lin hf h0, lightCov_lin hf h0, lightCov_comm _ pixY pixX]; ring
  · rw [g2.myy, g1.mxx, g1.myy, g1.mxy, hcov, ey, lightCov_lin hf h0, lightCov_comm _ pixX, lightCov_comm _ pixY,
      lightCov_lin hf h0, lightCov_lin hf h0, lightCov_comm _ pixY pixX]; ring
  · rw [g2.mxy, g1.mxx, g1.myy, g1.mxy, hcov, ex, ey, lightCov_lin hf h0, lightCov_comm _ pixX, lightCov_comm _ pixY,
      lightCov_lin hf h0, lightCov_lin hf h0, lightCov_comm _ pixY pixX]; ring

/-- The lattice point obtained by an integer matrix of determinant `±1` and a shift, as a bijection. -/
theorem movedBy_of (a b c d s t : ℤ) (e : ℤ) (he : e = 1 ∨ e = -1) (hdet : a * d - b * c = e) (m m' : CMap)
    (h : ∀ x y, m' (a * x + b * y + s) (c * x + d * y + t) = m x y) : MovedBy a b c d s t m m' := by
  have hee : e * e = 1 := by rcases he with rfl | rfl <;> norm_num
  refine ⟨⟨fun p => (a * p.1 + b * p.2 + s, c * p.1 + d * p.2 + t),
    fun p => (e * (d * (p.1 - s) - b * (p.2 - t)), e * (-c * (p.1 - s) + a * (p.2 - t))), ?_, ?_⟩, fun p => rfl,
    fun p => h p.1 p.2⟩
  · rintro ⟨x, y⟩
    simp only [Prod.mk.injEq]
    constructor
    · linear_combination e * x * hdet + x * hee
    · linear_combination e * y * hdet + y * hee
  · rintro ⟨x, y⟩
    simp only [Prod.mk.injEq]
    constructor
    · linear_combination e * (x - s) * hdet + (x - s) * hee
    · linear_combination e * (y - t) * hdet + (y - t) * hee

theorem coordMap_congr {im im' : Image} {x y x' y' : ℤ} (hd : im'.bounds.defined = im.bounds.defined)
    (hr : inRect im'.bounds x' y' ↔ inRect im.bounds x y)
    (hv : inRect im.bounds x y → im'.arr.at' (y' - im'.bounds.ymin).toNat (x' - im'.bounds.xmin).toNat =
      im.arr.at' (y - im.bounds.ymin).toNat (x - im.bounds.xmin).toNat) :
    coordMap im' x' y' = coordMap im x y := by
  by_cases h : inRect im.bounds x y
  · simp only [coordMap, hd, hr.2 h, h, hv h]
  · simp only [coordMap, hd, h, mt hr.1 h, and_false, if_false]

/-- C84: shifting, transposing, flipping and turning an image move its moments accordingly; `xmin + xmax` and
`ymin + ymax` are twice the centre about which the flips reflect. -/
theorem C84_symmetries (im : Image) (hok : im.bounds.OK) (hd : im.bounds.defined = true) (hs : im.ShapeOK) (M : Moments)
    (hM : unweightedMoments im none = some M) :
    let sx : ℤ := im.bounds.xmin + im.bounds.xmax clsI
    let sy : ℤ := im.bounds.ymin + im.bounds.ymax clsI
    (∀ (p : Pos ℤ) (py : Bool), ∃ M', unweightedMoments (im.shiftBy p py) none = some M' ∧
      MomentsMoved 1 0 0 1 p.x p.y M M') ∧
    (∃ M', unweightedMoments im.transpose none = some M' ∧ MomentsMoved 0 1 1 0 0 0 M M') ∧
    (∃ M', unweightedMoments im.flipLR none = some M' ∧ MomentsMoved (-1) 0 0 1 sx 0 M M') ∧
    (∃ M', unweightedMoments im.flipUD none = some M' ∧ MomentsMoved 1 0 0 (-1) 0 sy M M') ∧
    (∃ M', unweightedMoments im.rot180 none = some M' ∧ MomentsMoved (-1) 0 0 (-1) sx sy M M') ∧
    (∃ M', unweightedMoments im.rotCW none = some M' ∧ MomentsMoved 0 1 (-1) 0 0 sx M M') ∧
    (∃ M', unweightedMoments im.rotCCW none = some M' ∧ MomentsMoved 0 (-1) 1 0 sy 0 M M') := by
  intro sx sy
  obtain ⟨hb1, hb2⟩ := C23_bounds im hok
  have hsh := hs hd
  simp only [Bounds.numpyShape, hd, if_true, Prod.mk.injEq] at hsh
  obtain ⟨hh, hw⟩ := hsh
  have hxm := xmaxI im.bounds
  have hym := ymaxI im.bounds
  have key : ∀ (im' : Image) (a b c d s t : ℤ), (a * d - b * c = 1 ∨ a * d - b * c = -1) →
      im'.bounds.defined = im.bounds.defined → im'.ShapeOK →
      (∀ x y, coordMap im' (a * x + b * y + s) (c * x + d * y + t) = coordMap im x y) →
      ∃ M', unweightedMoments im' none = some M' ∧ MomentsMoved a b c d s t M M' :=
    fun im' a b c d s t hdet hdef hs' hc =>
      C84_moved im im' hd hs (hdef.trans hd) hs' a b c d s t (movedBy_of a b c d s t _ hdet rfl _ _ hc) M hM
  refine ⟨fun p py => ?_, ?_, ?_, ?_, ?_, ?_, ?_⟩
  · have hdef : (im.shiftBy p py).bounds.defined = im.bounds.defined := shift_defined hok p py
    have := key (im.shiftBy p py) 1 0 0 1 p.x p.y (Or.inl rfl) hdef (fun h => by
        have e1 : (im.shiftBy p py).bounds.deltax = im.bounds.deltax := rfl
        have e2 : (im.shiftBy p py).bounds.deltay = im.bounds.deltay := rfl
        have e3 : (im.shiftBy p py).arr = im.arr := rfl
        simp only [Bounds.numpyShape, h, if_true, e1, e2, e3, hh, hw])
      (fun x y => coordMap_congr hdef (by
          simp only [inRect, Image.shiftBy, Bounds.shift, Bounds.finish]; constructor <;> intro h <;> omega)
        fun _ => by
          show im.arr.at' (0 * x + 1 * y + p.y - (im.bounds.ymin + p.y)).toNat
            (1 * x + 0 * y + p.x - (im.bounds.xmin + p.x)).toNat = _
          congr 2 <;> ring)
    simpa using this
  · obtain ⟨e0, e1, e2, e3, e4⟩ := hb1 im.transpose (by simp)
    have := key im.transpose 0 1 1 0 0 0 (Or.inr rfl) e0 (fun h => by
        simp only [Bounds.numpyShape, h, if_true, e3, e4, ← hh, ← hw]; rfl)
      (fun x y => coordMap_congr e0 (by simp only [inRect, e1, e2, e3, e4]; constructor <;> intro h <;> omega)
        fun _ => by
          rw [e1, e2]
          show im.arr.at' (0 * x + 1 * y + 0 - im.bounds.ymin).toNat (1 * x + 0 * y + 0 - im.bounds.xmin).toNat = _
          congr 2 <;> ring)
    simpa using this
  · have eb := hb2 im.flipLR (by simp)
    have := key im.flipLR (-1) 0 0 1 sx 0 (Or.inr rfl) (by rw [eb]) (fun _ => hs hd)
      (fun x y => coordMap_congr (by rw [eb])
        (by simp only [inRect, eb, sx]; constructor <;> intro h <;> omega) fun hr => by
          rw [eb]
          obtain ⟨⟨h1, h2⟩, h3, h4⟩ := hr
          show im.arr.at' (0 * x + 1 * y + 0 - im.bounds.ymin).toNat
            (im.arr.w - 1 - (-1 * x + 0 * y + sx - im.bounds.xmin).toNat) = _
          congr 1 <;> omega)
    simpa using this
  · have eb := hb2 im.flipUD (by simp)
    have := key im.flipUD 1 0 0 (-1) 0 sy (Or.inr rfl) (by rw [eb]) (fun _ => hs hd)
      (fun x y => coordMap_congr (by rw [eb])
        (by simp only [inRect, eb, sy]; constructor <;> intro h <;> omega) fun hr => by
          rw [eb]
          obtain ⟨⟨h1, h2⟩, h3, h4⟩ := hr
          show im.arr.at' (im.arr.h - 1 - (0 * x + -1 * y + sy - im.bounds.ymin).toNat)
            (1 * x + 0 * y + 0 - im.bounds.xmin).toNat = _
          congr 1 <;> omega)
    simpa using this
  · have eb := hb2 im.rot180 (by simp)
    have := key im.rot180 (-1) 0 0 (-1) sx sy (Or.inl rfl) (by rw [eb]) (fun _ => hs hd)
      (fun x y => coordMap_congr (by rw [eb])
        (by simp only [inRect, eb, sx, sy]; constructor <;> intro h <;> omega) fun hr => by
          rw [eb]
          obtain ⟨⟨h1, h2⟩, h3, h4⟩ := hr
          show im.arr.at' (im.arr.h - 1 - (0 * x + -1 * y + sy - im.bounds.ymin).toNat)
            (im.arr.w - 1 - (-1 * x + 0 * y + sx - im.bounds.xmin).toNat) = _
          congr 1 <;> omega)
    simpa using this
  · obtain ⟨e0, e1, e2, e3, e4⟩ := hb1 im.rotCW (by simp)
    have := key im.rotCW 0 1 (-1) 0 0 sx (Or.inl rfl) e0 (fun h => by
        simp only [Bounds.numpyShape, h, if_true, e3, e4, ← hh, ← hw]; rfl)
      (fun x y => coordMap_congr e0 (by simp only [inRect, e1, e2, e3, e4, sx]; constructor <;> intro h <;> omega)
        fun hr => by
          rw [e1, e2]
          obtain ⟨⟨h1, h2⟩, h3, h4⟩ := hr
          show im.arr.at' (0 * x + 1 * y + 0 - im.bounds.ymin).toNat
            (im.arr.w - 1 - (-1 * x + 0 * y + sx - im.bounds.xmin).toNat) = _
          congr 1 <;> omega)
    simpa using this
  · obtain ⟨e0, e1, e2, e3, e4⟩ := hb1 im.rotCCW (by simp)
    have := key im.rotCCW 0 (-1) 1 0 sy 0 (Or.inl rfl) e0 (fun h => by
        simp only [Bounds.numpyShape, h, if_true, e3, e4, ← hh, ← hw]; rfl)
      (fun x y => coordMap_congr e0 (by simp only [inRect, e1, e2, e3, e4, sy]; constructor <;> intro h <;> omega)
        fun hr => by
          rw [e1, e2]
          obtain ⟨⟨h1, h2⟩, h3, h4⟩ := hr
          show im.arr.at' (im.arr.h - 1 - (0 * x + -1 * y + sy - im.bounds.ymin).toNat)
            (1 * x + 0 * y + 0 - im.bounds.xmin).toNat = _
          congr 1 <;> omega)
    simpa using this

/-! ### Images without negative pixels, brightness, sums -/

/-- Specification: no pixel is negative. -/
def NoNegative (m : CMap) : Prop := ∀ x y v, m x y = some v → 0 ≤ v

theorem lightMean_mono {m : CMap} (h : FinMap m) (hn : NoNegative m) {f g : ℤ × ℤ → ℝ}
    (hfg : ∀ p, m p.1 p.2 ≠ none → f p ≤ g p) : lightMean m f ≤ lightMean m g := by
  have h0 : ∀ p : ℤ × ℤ, 0 ≤ (m p.1 p.2).getD 0 := by
    intro p
    cases e : m p.1 p.2 with
    | none => simp
    | some v => exact hn _ _ _ e
  have hl : 0 ≤ light m := by
    rw [light, pixelSum_eq h]
    exact Finset.sum_nonneg fun p _ => by rw [one_mul]; exact h0 p
  refine div_le_div_of_nonneg_right ?_ hl
  rw [pixelSum_eq h, pixelSum_eq h]
  exact Finset.sum_le_sum fun p hp => mul_le_mul_of_nonneg_right (hfg p (by simpa using hp)) (h0 p)

/-- C84: for an image without negative pixels and with some light the centroid lies inside the image, the variances are
not negative, the matrix of second moments is positive semi-definite, and the ellipticity is at most one. -/
theorem C84_positive (im : Image) (hd : im.bounds.defined = true) (hs : im.ShapeOK) (hn : NoNegative (coordMap im))
    (M : Moments) (hM : unweightedMoments im none = some M) :
    0 < M.M0 ∧
    ((im.bounds.xmin : ℝ) ≤ M.Mx ∧ M.Mx ≤ im.bounds.xmax clsI ∧ (im.bounds.ymin : ℝ) ≤ M.My ∧ M.My ≤ im.bounds.ymax clsI) ∧
    0 ≤ M.Mxx ∧ 0 ≤ M.Myy ∧ M.Mxy ^ 2 ≤ M.Mxx * M.Myy ∧
    (∀ e, unweightedShape M = some e → 0 < e.rsqr ∧ e.e1 ^ 2 + e.e2 ^ 2 ≤ 1) := by
  have h0 : light (coordMap im) ≠ 0 := fun h => by
    rw [(C84_moments im hd hs none).1 h] at hM; cases hM
  obtain ⟨M1, h1, g1⟩ := (C84_moments im hd hs none).2 h0
  rw [h1] at hM
  obtain rfl := Option.some.inj hM
  have hf := finMap_coordMap im
  have hin : ∀ p : ℤ × ℤ, coordMap im p.1 p.2 ≠ none → inRect im.bounds p.1 p.2 := by
    intro p hp
    by_contra hr
    exact hp (by simp [coordMap, hr])
  have hlo : ∀ (c : ℝ) (f : ℤ × ℤ → ℝ), (∀ p : ℤ × ℤ, inRect im.bounds p.1 p.2 → c ≤ f p) → c ≤ lightMean (coordMap im) f := by
    intro c f h
    have := lightMean_mono hf hn (f := fun _ => c) (g := f) fun p hp => h p (hin p hp)
    rwa [lightMean_const hf h0] at this
  have hhi : ∀ (c : ℝ) (f : ℤ × ℤ → ℝ), (∀ p : ℤ × ℤ, inRect im.bounds p.1 p.2 → f p ≤ c) → lightMean (coordMap im) f ≤ c := by
    intro c f h
    have := lightMean_mono hf hn (f := f) (g := fun _ => c) fun p hp => h p (hin p hp)
    rwa [lightMean_const hf h0] at this
  have hpos : 0 < M1.M0 := by
    rw [g1.m0]
    refine lt_of_le_of_ne ?_ (Ne.symm h0)
    rw [light, pixelSum_eq hf]
    refine Finset.sum_nonneg fun p _ => ?_
    rw [one_mul]
    cases e : coordMap im p.1 p.2 with
    | none => simp
    | some v => exact hn _ _ _ e
  have hxm := xmaxI im.bounds
  have hym := ymaxI im.bounds
  -- the variance of any combination of the coordinates is not negative
  have hq : ∀ u v : ℝ, 0 ≤ u ^ 2 * M1.Mxx + 2 * u * v * M1.Mxy + v ^ 2 * M1.Myy := by
    intro u v
    have e : u ^ 2 * M1.Mxx + 2 * u * v * M1.Mxy + v ^ 2 * M1.Myy =
        lightCov (coordMap im) (fun p => u * pixX p + v * pixY p + 0) (fun p => u * pixX p + v * pixY p + 0) := by
      rw [lightCov_lin hf h0 u v 0 pixX pixY, lightCov_comm _ pixX (fun p => _), lightCov_comm _ pixY (fun p => _),
        lightCov_lin hf h0 u v 0 pixX pixY, lightCov_lin hf h0 u v 0 pixX pixY, lightCov_comm _ pixY pixX,
        g1.mxx, g1.mxy, g1.myy]; ring
    rw [e, lightCov]
    exact hlo 0 _ fun p _ => mul_self_nonneg _
  have hxx : 0 ≤ M1.Mxx := by simpa using hq 1 0
  have hyy : 0 ≤ M1.Myy := by simpa using hq 0 1
  have hdet : M1.Mxy ^ 2 ≤ M1.Mxx * M1.Myy := by
    rcases eq_or_lt_of_le hyy with h | h
    · have hxy : M1.Mxy = 0 := by
        by_contra hne
        have := hq 1 (-(M1.Mxx + 1) / (2 * M1.Mxy))
        rw [← h] at this
        have e : (1 : ℝ) ^ 2 * M1.Mxx + 2 * 1 * (-(M1.Mxx + 1) / (2 * M1.Mxy)) * M1.Mxy +
            (-(M1.Mxx + 1) / (2 * M1.Mxy)) ^ 2 * 0 = -1 := by field_simp; ring
        rw [e] at this
        linarith
      rw [hxy, ← h]; norm_num
    · have := hq M1.Myy (-M1.Mxy)
      have h2 : 0 ≤ M1.Myy * (M1.Mxx * M1.Myy - M1.Mxy ^ 2) := by nlinarith
      have := (mul_nonneg_iff_of_pos_left h).1 h2
      linarith
  refine ⟨hpos, ⟨?_, ?_, ?_, ?_⟩, hxx, hyy, hdet, ?_⟩
  · rw [g1.mx]
    have := hlo (im.bounds.xmin : ℝ) pixX fun p hp => by simp only [pixX]; exact_mod_cast hp.1.1
    simpa using this
  · rw [g1.mx]
    have := hhi ((im.bounds.xmax clsI : ℤ) : ℝ) pixX fun p hp => by
      simp only [pixX]; exact_mod_cast (by have := hp.1.2; omega : p.1 ≤ im.bounds.xmax clsI)
    simpa using this
  · rw [g1.my]
    have := hlo (im.bounds.ymin : ℝ) pixY fun p hp => by simp only [pixY]; exact_mod_cast hp.2.1
    simpa using this
  · rw [g1.my]
    have := hhi ((im.bounds.ymax clsI : ℤ) : ℝ) pixY fun p hp => by
      simp only [pixY]; exact_mod_cast (by have := hp.2.2; omega : p.2 ≤ im.bounds.ymax clsI)
    simpa using this
  · intro e he
    simp only [unweightedShape] at he
    by_cases hr : M1.Mxx + M1.Myy = 0
    · rw [if_pos hr] at he; cases he
    · rw [if_neg hr] at he
      obtain rfl := Option.some.inj he
      have hr' : 0 < M1.Mxx + M1.Myy := lt_of_le_of_ne (by linarith) (Ne.symm hr)
      refine ⟨hr', ?_⟩
      simp only [div_pow]
      rw [← add_div, div_le_one (by positivity)]
      nlinarith

/-- C84: multiplying every pixel by a number other than zero multiplies the total light and changes no other moment. -/
theorem C84_brightness (im im' : Image) (hd : im.bounds.defined = true) (hs : im.ShapeOK) (hd' : im'.bounds.defined = true)
    (hs' : im'.ShapeOK) (k : ℝ) (hk : k ≠ 0) (h : ∀ x y, coordMap im' x y = (coordMap im x y).map (k * ·))
    (M : Moments) (hM : unweightedMoments im none = some M) :
    unweightedMoments im' none = some { M with M0 := k * M.M0 } := by
  have h0 : light (coordMap im) ≠ 0 := fun h => by
    rw [(C84_moments im hd hs none).1 h] at hM; cases hM
  obtain ⟨M1, h1, g1⟩ := (C84_moments im hd hs none).2 h0
  rw [h1] at hM
  obtain rfl := Option.some.inj hM
  have hps : ∀ f, pixelSum (coordMap im') f = k * pixelSum (coordMap im) f := by
    intro f
    rw [← pixelSum_smul (finMap_coordMap im)]
    simp only [pixelSum, h]
    refine finsum_congr fun p => ?_
    cases coordMap im p.1 p.2 <;> (simp; try ring)
  have hl : light (coordMap im') = k * light (coordMap im) := hps _
  have hmean : ∀ f, lightMean (coordMap im') f = lightMean (coordMap im) f := fun f => by
    rw [lightMean, hl, hps, mul_div_mul_left _ _ hk]; rfl
  have hcov : ∀ f g, lightCov (coordMap im') f g = lightCov (coordMap im) f g := fun f g => by
    simp only [lightCov, hmean]
  obtain ⟨M2, h2, g2⟩ := (C84_moments im' hd' hs' none).2 (by rw [hl]; exact mul_ne_zero hk h0)
  rw [h2]
  congr 1
  ext
  · rw [g2.m0, hl, g1.m0]
  · rw [g2.mx, g1.mx, hmean]
  · rw [g2.my, g1.my, hmean]
  · rw [g2.mxx, g1.mxx, hcov]
  · rw [g2.myy, g1.myy, hcov]
  · rw [g2.mxy, g1.mxy, hcov]

/-- C84: the light of a sum of two images: totals add, centroids are weighted by the totals, and so are the second
moments once the squared distance of the centroids is included. -/
theorem C84_sum (im₁ im₂ im : Image) (hd₁ : im₁.bounds.defined = true) (hs₁ : im₁.ShapeOK)
    (hd₂ : im₂.bounds.defined = true) (hs₂ : im₂.ShapeOK) (hd : im.bounds.defined = true) (hs : im.ShapeOK)
    (h : ∀ x y, (coordMap im x y).getD 0 = (coordMap im₁ x y).getD 0 + (coordMap im₂ x y).getD 0)
    (M₁ M₂ M : Moments) (h₁ : unweightedMoments im₁ none = some M₁) (h₂ : unweightedMoments im₂ none = some M₂)
    (hM : unweightedMoments im none = some M) :
    M.M0 = M₁.M0 + M₂.M0 ∧ M.Mx = (M₁.M0 * M₁.Mx + M₂.M0 * M₂.Mx) / M.M0 ∧
    M.My = (M₁.M0 * M₁.My + M₂.M0 * M₂.My) / M.M0 ∧
    M.Mxx = (M₁.M0 * M₁.Mxx + M₂.M0 * M₂.Mxx) / M.M0 + M₁.M0 * M₂.M0 / M.M0 ^ 2 * (M₁.Mx - M₂.Mx) ^ 2 ∧
    M.Myy = (M₁.M0 * M₁.Myy + M₂.M0 * M₂.Myy) / M.M0 + M₁.M0 * M₂.M0 / M.M0 ^ 2 * (M₁.My - M₂.My) ^ 2 ∧
    M.Mxy = (M₁.M0 * M₁.Mxy + M₂.M0 * M₂.Mxy) / M.M0 +
      M₁.M0 * M₂.M0 / M.M0 ^ 2 * ((M₁.Mx - M₂.Mx) * (M₁.My - M₂.My)) := by
  have gen : ∀ (i : Image) (hd : i.bounds.defined = true) (hs : i.ShapeOK) (N : Moments),
      unweightedMoments i none = some N → N.M0 ≠ 0 ∧ N.M0 = light (coordMap i) ∧
      N.Mx * N.M0 = pixelSum (coordMap i) pixX ∧ N.My * N.M0 = pixelSum (coordMap i) pixY ∧
      (N.Mxx + N.Mx ^ 2) * N.M0 = pixelSum (coordMap i) (fun p => pixX p * pixX p) ∧
      (N.Myy + N.My ^ 2) * N.M0 = pixelSum (coordMap i) (fun p => pixY p * pixY p) ∧
      (N.Mxy + N.Mx * N.My) * N.M0 = pixelSum (coordMap i) (fun p => pixX p * pixY p) := by
    intro i hd hs N hN
    have h0 : light (coordMap i) ≠ 0 := fun h => by
      rw [(C84_moments i hd hs none).1 h] at hN; cases hN
    obtain ⟨M1, h1, g1⟩ := (C84_moments i hd hs none).2 h0
    rw [h1] at hN
    obtain rfl := Option.some.inj hN
    have hf := finMap_coordMap i
    have hm : ∀ f, lightMean (coordMap i) f * light (coordMap i) = pixelSum (coordMap i) f := fun f =>
      div_mul_cancel₀ _ h0
    rw [g1.m0, g1.mx, g1.my, g1.mxx, g1.myy, g1.mxy, lightCov_eq hf h0, lightCov_eq hf h0, lightCov_eq hf h0]
    simp only [Option.map_none, Option.getD_none, sub_zero]
    refine ⟨h0, trivial, hm _, hm _, ?_, ?_, ?_⟩
    · rw [← hm]; ring
    · rw [← hm]; ring
    · rw [← hm]; ring
  have hadd : ∀ f, pixelSum (coordMap im) f = pixelSum (coordMap im₁) f + pixelSum (coordMap im₂) f := by
    intro f
    rw [pixelSum, pixelSum, pixelSum, ← finsum_add_distrib]
    · exact finsum_congr fun p => by rw [h, mul_add]
    · exact (finMap_coordMap im₁).subset fun p hp h0 => hp (by simp only [h0, Option.getD_none, mul_zero])
    · exact (finMap_coordMap im₂).subset fun p hp h0 => hp (by simp only [h0, Option.getD_none, mul_zero])
  obtain ⟨a0, a1, a2, a3, a4, a5, a6⟩ := gen im₁ hd₁ hs₁ M₁ h₁
  obtain ⟨b0, b1, b2, b3, b4, b5, b6⟩ := gen im₂ hd₂ hs₂ M₂ h₂
  obtain ⟨c0, c1, c2, c3, c4, c5, c6⟩ := gen im hd hs M hM
  have e0 : M.M0 = M₁.M0 + M₂.M0 := by rw [c1, a1, b1]; exact hadd _
  have e1 : M.Mx = (M₁.M0 * M₁.Mx + M₂.M0 * M₂.Mx) / M.M0 := by
    rw [eq_div_iff c0, c2, hadd, ← a2, ← b2]; ring
  have e2 : M.My = (M₁.M0 * M₁.My + M₂.M0 * M₂.My) / M.M0 := by
    rw [eq_div_iff c0, c3, hadd, ← a3, ← b3]; ring
  rw [hadd, ← a4, ← b4] at c4
  rw [hadd, ← a5, ← b5] at c5
  rw [hadd, ← a6, ← b6] at c6
  have f1 : M.Mx * M.M0 = M₁.M0 * M₁.Mx + M₂.M0 * M₂.Mx := by rw [e1, div_mul_cancel₀ _ c0]
  have f2 : M.My * M.M0 = M₁.M0 * M₁.My + M₂.M0 * M₂.My := by rw [e2, div_mul_cancel₀ _ c0]
  have gen2 : ∀ P P₁ P₂ x x₁ x₂ y y₁ y₂ : ℝ, (P + x * y) * M.M0 = (P₁ + x₁ * y₁) * M₁.M0 + (P₂ + x₂ * y₂) * M₂.M0 →
      x * M.M0 = M₁.M0 * x₁ + M₂.M0 * x₂ → y * M.M0 = M₁.M0 * y₁ + M₂.M0 * y₂ →
      P = (M₁.M0 * P₁ + M₂.M0 * P₂) / M.M0 + M₁.M0 * M₂.M0 / M.M0 ^ 2 * ((x₁ - x₂) * (y₁ - y₂)) := by
    intro P P₁ P₂ x x₁ x₂ y y₁ y₂ hP hx hy
    rw [div_add' _ _ _ c0, eq_div_iff c0]
    have : M₁.M0 * M₂.M0 / M.M0 ^ 2 * ((x₁ - x₂) * (y₁ - y₂)) * M.M0 = M₁.M0 * M₂.M0 * ((x₁ - x₂) * (y₁ - y₂)) / M.M0 := by
      field_simp
    rw [this]
    have key : (P * M.M0 - (M₁.M0 * P₁ + M₂.M0 * P₂)) * M.M0 = M₁.M0 * M₂.M0 * ((x₁ - x₂) * (y₁ - y₂)) := by
      have hxy : (x * M.M0) * (y * M.M0) = (M₁.M0 * x₁ + M₂.M0 * x₂) * (M₁.M0 * y₁ + M₂.M0 * y₂) := by rw [hx, hy]
      have : P * M.M0 * M.M0 = ((P₁ + x₁ * y₁) * M₁.M0 + (P₂ + x₂ * y₂) * M₂.M0) * M.M0 - (x * M.M0) * (y * M.M0) := by
        rw [← hP]; ring
      rw [sub_mul, this, hxy, e0]; ring
    rw [← key, mul_div_assoc, div_self c0]; ring
  refine ⟨e0, e1, e2, ?_, ?_, gen2 _ _ _ _ _ _ _ _ _ c6 f1 f2⟩
  · rw [pow_two (M₁.Mx - M₂.Mx)]
    exact gen2 _ _ _ _ _ _ _ _ _ (by rw [← pow_two, ← pow_two, ← pow_two]; exact c4) f1 f1
  · rw [pow_two (M₁.My - M₂.My)]
    exact gen2 _ _ _ _ _ _ _ _ _ (by rw [← pow_two, ← pow_two, ← pow_two]; exact c5) f2 f2

/-- C84: the shape.  For light whose second moments are those of an ellipse with semi-axes `a`, `b` (root mean square) and
the `a` axis at angle `β` from the x axis, the size is `a² + b²` and the ellipticity is the distortion
`(a² - b²) / (a² + b²)` at position angle `β`. -/
theorem C84_shape (M : Moments) (a b β : ℝ) (h0 : a ^ 2 + b ^ 2 ≠ 0)
    (hxx : M.Mxx = (a * Real.cos β) ^ 2 + (b * Real.sin β) ^ 2)
    (hyy : M.Myy = (a * Real.sin β) ^ 2 + (b * Real.cos β) ^ 2)
    (hxy : M.Mxy = (a ^ 2 - b ^ 2) * (Real.sin β * Real.cos β)) :
    unweightedShape M = some ⟨a ^ 2 + b ^ 2, (a ^ 2 - b ^ 2) / (a ^ 2 + b ^ 2) * Real.cos (2 * β),
      (a ^ 2 - b ^ 2) / (a ^ 2 + b ^ 2) * Real.sin (2 * β)⟩ := by
  have hr : M.Mxx + M.Myy = a ^ 2 + b ^ 2 := by
    rw [hxx, hyy]; linear_combination (a ^ 2 + b ^ 2) * Real.sin_sq_add_cos_sq β
  simp only [unweightedShape, hr, if_neg h0, Option.some.injEq, Shape.mk.injEq, true_and]
  constructor
  · rw [hxx, hyy, Real.cos_two_mul, div_mul_eq_mul_div]
    congr 1
    linear_combination (b ^ 2 - a ^ 2) * Real.sin_sq_add_cos_sq β
  · rw [hxy, Real.sin_two_mul, div_mul_eq_mul_div]
    congr 1
    ring

/-- C84: every image without negative pixels has such an ellipse, so that its shape is the one of `C84_shape`; the shape is
missing only when all light is in one pixel. -/
theorem C84_shape_image (im : Image) (hd : im.bounds.defined = true) (hs : im.ShapeOK) (hn : NoNegative (coordMap im))
    (M : Moments) (hM : unweightedMoments im none = some M) (x₀ y₀ x₁ y₁ : ℤ) (v₀ v₁ : ℝ)
    (h₀ : coordMap im x₀ y₀ = some v₀) (h₁ : coordMap im x₁ y₁ = some v₁) (hv₀ : v₀ ≠ 0) (hv₁ : v₁ ≠ 0)
    (hne : (x₀, y₀) ≠ (x₁, y₁)) : ∃ e, unweightedShapeIm im = some e ∧ e.e1 ^ 2 + e.e2 ^ 2 ≤ 1 := by
  have hl : light (coordMap im) ≠ 0 := fun h => by
    rw [(C84_moments im hd hs none).1 h] at hM; cases hM
  obtain ⟨M1, h1, g1⟩ := (C84_moments im hd hs none).2 hl
  obtain ⟨hpos, -, hxx, hyy, -, he⟩ := C84_positive im hd hs hn M hM
  rw [h1] at hM
  obtain rfl := Option.some.inj hM
  have hf := finMap_coordMap im
  have hr : M1.Mxx + M1.Myy ≠ 0 := by
    intro h
    -- the mean squared distance to the centroid vanishes, so every pixel with light sits at the centroid
    obtain ⟨cx, hcx⟩ : ∃ c, c = lightMean (coordMap im) pixX := ⟨_, rfl⟩
    obtain ⟨cy, hcy⟩ : ∃ c, c = lightMean (coordMap im) pixY := ⟨_, rfl⟩
    have hsum : lightMean (coordMap im) (fun p => (pixX p - cx) * (pixX p - cx) + (pixY p - cy) * (pixY p - cy)) = 0 := by
      rw [lightMean_add hf, hcx, hcy]
      have := h
      rw [g1.mxx, g1.myy] at this
      exact this
    rw [lightMean, div_eq_zero_iff, or_iff_left hl, pixelSum_eq hf] at hsum
    have hterm := (Finset.sum_eq_zero_iff_of_nonneg (fun p hp => by
      refine mul_nonneg (add_nonneg (mul_self_nonneg _) (mul_self_nonneg _)) ?_
      cases e : coordMap im p.1 p.2 with
      | none => simp
      | some v => exact hn _ _ _ e)).1 hsum
    have hat : ∀ x y v, coordMap im x y = some v → v ≠ 0 → (x : ℝ) = cx ∧ (y : ℝ) = cy := by
      intro x y v hxy hv
      have := hterm (x, y) (by simp [hxy])
      rw [hxy, Option.getD_some, mul_eq_zero, or_iff_left hv] at this
      simp only [pixX, pixY] at this
      have a1 := mul_self_nonneg ((x : ℝ) - cx)
      have a2 := mul_self_nonneg ((y : ℝ) - cy)
      exact ⟨by have := mul_self_eq_zero.1 (by linarith : ((x : ℝ) - cx) * (x - cx) = 0); linarith,
        by have := mul_self_eq_zero.1 (by linarith : ((y : ℝ) - cy) * (y - cy) = 0); linarith⟩
    obtain ⟨q1, q2⟩ := hat _ _ _ h₀ hv₀
    obtain ⟨q3, q4⟩ := hat _ _ _ h₁ hv₁
    refine hne (Prod.ext ?_ ?_)
    · exact_mod_cast q1.trans q3.symm
    · exact_mod_cast q2.trans q4.symm
  obtain ⟨e, hE⟩ : ∃ e, unweightedShape M1 = some e := by
    simp only [unweightedShape, if_neg hr]; exact ⟨_, rfl⟩
  exact ⟨e, by rw [unweightedShapeIm, h1, Option.bind_some, hE], (he e hE).2⟩

/-! ### Cases -/

/-- The moments of the 3 x 2 image with the pixels `0 1 2 / 10 11 12` and the lower left corner `(10, -1)`. -/
theorem exIm_moments : unweightedMoments (exIm false) none = some ⟨36, 100 / 9, -1 / 12, 53 / 81, 11 / 144, -5 / 108⟩ := by
  have h : gridSum (exIm false).arr.h (exIm false).arr.w (exIm false).arr.at' = 36 := by
    simp [gridSum, exIm, Finset.sum_range_succ]; norm_num
  simp only [unweightedMoments, h]
  rw [if_neg (by norm_num)]
  simp [gridSum, exIm, Finset.sum_range_succ, Position.sub, Position.val, pyB, Bounds.mk4, Bounds.finish]
  norm_num

theorem exIm_noNegative : NoNegative (coordMap (exIm false)) := by
  intro x y v h
  simp only [coordMap] at h
  by_cases hr : (exIm false).bounds.defined = true ∧ inRect (exIm false).bounds x y
  · rw [if_pos hr] at h
    obtain rfl := Option.some.inj h
    exact Nat.cast_nonneg _
  · rw [if_neg hr] at h; cases h

example : unweightedMoments (exIm false) (some (.D 11 0)) = some ⟨36, 1 / 9, -1 / 12, 53 / 81, 11 / 144, -5 / 108⟩ := by
  rw [C84_origin _ rfl (exIm_live false).shape _ exIm_moments]
  norm_num [Position.val]

example : ∃ M', unweightedMoments (exIm false).rotCW none = some M' ∧ M'.Mx = -1 / 12 ∧ M'.My = 22 - 100 / 9 ∧
    M'.Mxx = 11 / 144 := by
  obtain ⟨-, -, -, -, -, ⟨M', h, h0, h1, h2, h3, h4, h5⟩, -⟩ :=
    C84_symmetries _ (exIm_live false).ok rfl (exIm_live false).shape _ exIm_moments
  refine ⟨M', h, by rw [h1]; norm_num, ?_, by rw [h3]; norm_num⟩
  rw [h2]
  have e : ((exIm false).bounds.xmin + Bounds.xmax clsI (exIm false).bounds : ℤ) = 22 := rfl
  rw [e]; norm_num

example : ∃ e, unweightedShapeIm (exIm false) = some e ∧ e.e1 ^ 2 + e.e2 ^ 2 ≤ 1 :=
  C84_shape_image _ rfl (exIm_live false).shape exIm_noNegative _ exIm_moments 11 (-1) 12 0 1 12
    (by simp [coordMap, exIm, inRect, pyB, Bounds.mk4, Bounds.finish, clsI])
    (by norm_num [coordMap, exIm, inRect, pyB, Bounds.mk4, Bounds.finish, clsI, show Int.toNat 2 = 2 from rfl])
    (by norm_num) (by norm_num) (by decide)

/-- Light of one sign only is needed for a sensible shape: the 3 x 1 image `-1 3 -1` has a negative variance. -/
example : ∃ M, unweightedMoments ⟨⟨1, 3, fun _ j => if j = 1 then 3 else -1⟩, pyB 0 2 0 0, some false, false⟩ none = some M ∧
    M.Mxx < 0 := by
  have h : gridSum 1 3 (fun _ j => if j = 1 then (3 : ℝ) else -1) = 1 := by
    simp [gridSum, Finset.sum_range_succ]; norm_num
  simp only [unweightedMoments, h]
  rw [if_neg (by norm_num)]
  refine ⟨_, rfl, ?_⟩
  simp [gridSum, Finset.sum_range_succ, Position.sub, Position.val, pyB, Bounds.mk4, Bounds.finish]
  norm_num

/-- The shape of a line of light along the diagonal: `e1 = 0`, `e2 = 1`. -/
example : unweightedShape ⟨1, 0, 0, 1 / 2, 1 / 2, 1 / 2⟩ = some ⟨1, 0, 1⟩ := by
  have hc : Real.cos (Real.pi / 4) ^ 2 = 1 / 2 := by
    rw [Real.cos_pi_div_four, div_pow, Real.sq_sqrt (by norm_num)]; norm_num
  have hs : Real.sin (Real.pi / 4) ^ 2 = 1 / 2 := by
    rw [Real.sin_pi_div_four, div_pow, Real.sq_sqrt (by norm_num)]; norm_num
  have h := C84_shape ⟨1, 0, 0, 1 / 2, 1 / 2, 1 / 2⟩ 1 0 (Real.pi / 4) (by norm_num)
    (by rw [one_mul, hc]; norm_num) (by rw [one_mul, hs]; norm_num) (by
      rw [Real.sin_pi_div_four, ← Real.cos_pi_div_four, ← pow_two, hc]; norm_num)
  rw [h]
  have e : 2 * (Real.pi / 4) = Real.pi / 2 := by ring
  rw [e]; norm_num

end JG
