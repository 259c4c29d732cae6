import Verif.Props.InterpWorld
import Verif.Props.LanczosK

/-!
C54, C87: what `InterpolatedImage` shows for every kernel, including those whose window is too narrow, and how much light it holds.
-/

open MeasureTheory Real JG.Si

namespace JG.Interp

/-- Specification: the part of a kernel that a window of `r` pixels on either side of the pixel below the point can show. -/
noncomputable def cut (f : ℝ → ℝ) (r : ℤ) (t : ℝ) : ℝ := if -(r : ℝ) ≤ t ∧ t < r + 1 then f t else 0

theorem sum_weightX_cut (f : ℝ → ℝ) (r : ℤ) (n : ℕ) (xmin : ℤ) (x : ℝ) (g : ℤ → ℝ) :
    ∑ io ∈ Finset.Icc (-r) r, weightX f ⌊x - xmin⌋ ((⌊x - xmin⌋ : ℝ) + xmin) x n io * g (⌊x - xmin⌋ + io) =
      ∑ j ∈ Finset.range n, cut f r (x - (xmin + j)) * g j := by
  have hl := Int.floor_le (x - xmin)
  have hu := Int.lt_floor_add_one (x - xmin)
  generalize ⌊x - xmin⌋ = m at *
  have h1 : ∑ io ∈ Finset.Icc (-r) r, weightX f m ((m : ℝ) + xmin) x n io * g (m + io) =
      ∑ l ∈ Finset.Icc (m - r) (m + r), if 0 ≤ l ∧ l < n then cut f r (x - (xmin + l)) * g l else 0 := by
    refine Finset.sum_bij (fun io _ => m + io) ?_ ?_ ?_ ?_
    · intro a ha; rw [Finset.mem_Icc] at *; omega
    · intro a _ b _ h; omega
    · intro l hl; rw [Finset.mem_Icc] at hl
      exact ⟨l - m, by rw [Finset.mem_Icc]; omega, by omega⟩
    · intro a ha
      rw [Finset.mem_Icc] at ha
      have ha1 : -(r : ℝ) ≤ a := by exact_mod_cast ha.1
      have ha2 : (a : ℝ) ≤ r := by exact_mod_cast ha.2
      unfold weightX
      simp only
      split_ifs with hc
      · rw [show x - ((m:ℝ) + xmin + a) = x - (xmin + ((m + a : ℤ) : ℝ)) by push_cast; ring, cut, if_pos]
        push_cast
        constructor <;> linarith
      · rw [zero_mul]
  rw [h1, sum_masked n _ (fun l => cut f r (x - (xmin + l)) * g l)]
  · simp
  · intro j h0 hn hj
    show cut f r (x - (xmin + j)) * g j = 0
    rw [cut, if_neg, zero_mul]
    rintro ⟨c1, c2⟩
    rw [Finset.mem_Icc, not_and_or] at hj
    rcases hj with hj | hj
    · have : (j:ℝ) + 1 ≤ m - r := by exact_mod_cast (by omega : j + 1 ≤ m - r)
      linarith
    · have : (m:ℝ) + r + 1 ≤ j := by exact_mod_cast (by omega : m + r + 1 ≤ j)
      linarith

/-- C54: for every kernel, the value at any point is the sum over all pixels of the image of pixel value times the part of the
kernel that the window shows. -/
theorem C54_kernel_seen (f : ℝ → ℝ) (ix : ℤ) (z : Arr ℝ) (xmin ymin : ℤ) (x y : ℝ) :
    drawXval f ix z xmin ymin x y = kernelSum (cut f (ix / 2)) z xmin ymin x y := by
  unfold drawXval
  simp only
  have h1 : ∀ jo : ℤ, ∑ io ∈ Finset.Icc (-(ix / 2)) (ix / 2),
      weightX f ⌊x - xmin⌋ ((⌊x - xmin⌋ : ℝ) + xmin) x z.w io *
        weightX f ⌊y - ymin⌋ ((⌊y - ymin⌋ : ℝ) + ymin) y z.h jo * z.get (⌊y - ymin⌋ + jo) (⌊x - xmin⌋ + io) =
      weightX f ⌊y - ymin⌋ ((⌊y - ymin⌋ : ℝ) + ymin) y z.h jo *
        ∑ j ∈ Finset.range z.w, cut f (ix / 2) (x - (xmin + j)) * z.get (⌊y - ymin⌋ + jo) j := by
    intro jo
    rw [← sum_weightX_cut f (ix / 2) z.w xmin x (fun l => z.get (⌊y - ymin⌋ + jo) l), Finset.mul_sum]
    exact Finset.sum_congr rfl fun _ _ => by ring
  rw [Finset.sum_congr rfl fun jo _ => h1 jo]
  rw [sum_weightX_cut f (ix / 2) z.h ymin y
    (fun l => ∑ j ∈ Finset.range z.w, cut f (ix / 2) (x - (xmin + j)) * z.get l j)]
  unfold kernelSum
  refine Finset.sum_congr rfl fun i hi => ?_
  rw [Finset.mul_sum]
  refine Finset.sum_congr rfl fun j hj => ?_
  rw [Finset.mem_range] at hi hj
  rw [get_nat z i j hi hj]
  ring

/-- The kernel as the window of `InterpolatedImage` shows it. -/
noncomputable def Kernel.seen (K : ℕ → ℕ → ℝ) (k : Kernel) : ℝ → ℝ := cut (k.xval K) (k.ixrange / 2)

/-- For the kernels whose window is wide enough this is the kernel. -/
theorem seen_local (K : ℕ → ℕ → ℝ) {k : Kernel} (hk : k.Local) : k.seen K = k.xval K := by
  funext t
  rw [Kernel.seen, cut]
  split_ifs with h
  · rfl
  · symm
    by_contra hc
    have h1 := not_lt.mp fun h => hc (local_window K k hk t h)
    rw [abs_le] at h1
    exact h ⟨h1.1, by linarith [h1.2]⟩

/-- C87: for every kernel, the brightness at the world position of the image displacement `q` is the value at the reference point
plus `q` of the pixels spread with the visible part of the kernel, scaled to the wanted flux and divided by the area of a pixel. -/
theorem C87_light (K : ℕ → ℕ → ℝ) (o : II) (h : o.Good) (q : ℝ × ℝ) :
    o.xValue K ((WCS.loc o.wcs).docMap q) =
      .ok (o.wanted / light (coordMap o.args.im) / o.wcs.docArea *
        spread (coordMap o.args.im) (o.args.kernel.seen K) (o.ref + q)) := by
  have hw : ∀ (p : ℝ × ℝ) (d : Pos ℝ), o.offset = .ok d →
      o.innerXValue K p = .ok (spread (coordMap (workImage true o.args.im)) (o.args.kernel.seen K) (p.1 + d.x, p.2 + d.y)) := by
    intro p d hd
    obtain ⟨s, s1, s2, s3, s4⟩ := padImage_ok h
    rw [II.innerXValue, hd, s1]
    simp only [Except.bind, Except.map]
    congr 1
    rw [C54_kernel_seen, ← s4]
    rw [spread, ← gridSum_pixelSum s s2 s3]
    unfold kernelSum gridSum Kernel.seen
    refine Finset.sum_congr rfl fun i _ => Finset.sum_congr rfl fun j _ => ?_
    push_cast
    ring
  have hx : ∀ p : ℝ × ℝ, o.innerXValue K p = .ok (spread (coordMap o.args.im) (o.args.kernel.seen K) (o.ref.1 + p.1, o.ref.2 + p.2)) := by
    intro p
    obtain ⟨d, d1, d2, d3⟩ := offset_ok h
    rw [hw p d d1, spread, work_sum h, spread]
    congr 2
    funext q
    simp only
    rw [← d2, ← d3]
    congr 2 <;> push_cast <;> ring
  rw [docMap_jac, II.xValue, sub_zero, sub_zero, Prod.mk.eta, solve2_eq, Mat2.inv'_app (jac_ne h), hx, fluxRatio_ok h]
  simp only [Except.bind, Except.map]
  rw [mul_comm]
  rfl

/-! ### The integral -/

/-- What is used of a kernel: it is integrable with its first moment; its integral and first moment. -/
structure Mom (f : ℝ → ℝ) (a b : ℝ) : Prop where
  int : Integrable f
  int1 : Integrable fun x => f x * x
  zero : ∫ x, f x = a
  one : ∫ x, f x * x = b

theorem plane_mom {f : ℝ → ℝ} {A B : ℝ} (h : Mom f A B) (α β γ a b : ℝ) :
    Integrable (fun q : ℝ × ℝ => (α + β * q.1 + γ * q.2) * (f (a + q.1) * f (b + q.2))) ∧
    ∫ q : ℝ × ℝ, (α + β * q.1 + γ * q.2) * (f (a + q.1) * f (b + q.2)) = (α - β * a - γ * b) * A ^ 2 + (β + γ) * (A * B) := by
  have e : (fun q : ℝ × ℝ => (α + β * q.1 + γ * q.2) * (f (a + q.1) * f (b + q.2))) =
      fun q => (fun p : ℝ × ℝ => (α - β * a - γ * b) * (f p.1 * f p.2) +
        (β * ((f p.1 * p.1) * f p.2) + γ * (f p.1 * (f p.2 * p.2)))) ((a, b) + q) := by
    funext q
    simp only [Prod.fst_add, Prod.snd_add]
    ring
  have i0 := (h.int.mul_prod h.int).const_mul (α - β * a - γ * b)
  have i1 := (h.int1.mul_prod h.int).const_mul β
  have i2 := (h.int.mul_prod h.int1).const_mul γ
  rw [← Measure.volume_eq_prod] at i0 i1 i2
  have i3 : Integrable (fun p : ℝ × ℝ => β * ((f p.1 * p.1) * f p.2) + γ * (f p.1 * (f p.2 * p.2))) := i1.add i2
  rw [e]
  refine ⟨(i0.add i3).comp_add_left (a, b), ?_⟩
  rw [integral_add_left_eq_self (fun p : ℝ × ℝ => (α - β * a - γ * b) * (f p.1 * f p.2) +
        (β * ((f p.1 * p.1) * f p.2) + γ * (f p.1 * (f p.2 * p.2)))) (a, b),
    integral_add i0 i3, integral_add i1 i2, integral_const_mul, integral_const_mul, integral_const_mul,
    Measure.volume_eq_prod, integral_prod_mul (fun x => f x) (fun x => f x),
    integral_prod_mul (fun x => f x * x) (fun x => f x), integral_prod_mul (fun x => f x) (fun x => f x * x), h.one, h.zero]
  ring

theorem spread_mom (m : CMap) (hm : FinMap m) {f : ℝ → ℝ} {A B : ℝ} (hf : Mom f A B) (c : ℝ × ℝ) (α β γ : ℝ) :
    Integrable (fun q : ℝ × ℝ => (α + β * q.1 + γ * q.2) * spread m f (c + q)) ∧
    ∫ q : ℝ × ℝ, (α + β * q.1 + γ * q.2) * spread m f (c + q) =
      (α * light m + β * (pixelSum m pixX - c.1 * light m) + γ * (pixelSum m pixY - c.2 * light m)) * A ^ 2 +
        (β + γ) * (A * B) * light m := by
  have e : (fun q : ℝ × ℝ => (α + β * q.1 + γ * q.2) * spread m f (c + q)) = fun q => ∑ p ∈ hm.toFinset,
      (m p.1 p.2).getD 0 * ((α + β * q.1 + γ * q.2) * (f (c.1 - p.1 + q.1) * f (c.2 - p.2 + q.2))) := by
    funext q
    rw [spread, pixelSum_eq hm, Finset.mul_sum]
    refine Finset.sum_congr rfl fun p _ => ?_
    simp only [Prod.fst_add, Prod.snd_add]
    rw [show c.1 + q.1 - (p.1:ℝ) = c.1 - p.1 + q.1 by ring, show c.2 + q.2 - (p.2:ℝ) = c.2 - p.2 + q.2 by ring]
    ring
  have hi := fun p : ℤ × ℤ => plane_mom hf α β γ (c.1 - p.1) (c.2 - p.2)
  rw [e]
  refine ⟨integrable_finsetSum _ fun p _ => (hi p).1.const_mul _, ?_⟩
  rw [integral_finsetSum _ fun p _ => (hi p).1.const_mul _]
  simp only [integral_const_mul, (hi _).2, light, pixelSum_eq hm, Finset.mul_sum]
  rw [← Finset.sum_sub_distrib, ← Finset.sum_sub_distrib, Finset.mul_sum, Finset.mul_sum, ← Finset.sum_add_distrib,
    ← Finset.sum_add_distrib, Finset.sum_mul, ← Finset.sum_add_distrib]
  refine Finset.sum_congr rfl fun p _ => ?_
  simp only [pixX, pixY]
  ring

/-- C87: the integral of the brightness is the wanted flux times the square of the integral of the visible kernel, and the mean
position is that of the pixels, moved by the mean of the visible kernel. -/
theorem C87_integral (K : ℕ → ℕ → ℝ) (o : II) (h : o.Good) (A B : ℝ) (hk : Mom (o.args.kernel.seen K) A B) (x : ℝ × ℝ → ℝ)
    (hx : ∀ p, o.xValue K p = .ok (x p)) :
    Integrable x ∧ ∫ p, x p = o.wanted * A ^ 2 ∧
      ∫ p, p.1 * x p = o.wanted * (A ^ 2 * o.lightCentre.1 + A * B * (o.jac.app (1, 1)).1) ∧
      ∫ p, p.2 * x p = o.wanted * (A ^ 2 * o.lightCentre.2 + A * B * (o.jac.app (1, 1)).2) := by
  obtain ⟨m, hm⟩ : ∃ m, m = coordMap o.args.im := ⟨_, rfl⟩
  have hfin : FinMap m := by rw [hm]; exact finMap_coordMap _
  have hJ := jac_ne h
  have hl := h.light
  rw [← hm] at hl
  have hA : |o.jac.det| ≠ 0 := abs_ne_zero.mpr hJ
  obtain ⟨C, hC⟩ : ∃ C, C = o.wanted / light m / |o.jac.det| := ⟨_, rfl⟩
  have hx' : ∀ p, x p = C * spread m (o.args.kernel.seen K) (o.ref + o.jac.inv'.app p) := by
    intro p
    have h1 := C87_light K o h (o.jac.inv'.app p)
    rw [docMap_jac, Mat2.app_inv' hJ, hx p, docArea_eq] at h1
    rw [Except.ok.inj h1, hC, hm]
    rfl
  have hdi : o.jac.inv'.det ≠ 0 := by rw [Mat2.det_inv' hJ]; exact one_div_ne_zero hJ
  have key : ∀ α β γ : ℝ, Integrable (fun p : ℝ × ℝ => (α + β * p.1 + γ * p.2) * x p) ∧
      ∫ p : ℝ × ℝ, (α + β * p.1 + γ * p.2) * x p = |o.jac.det| * C *
        ((α * light m + (β * o.jac.a + γ * o.jac.c) * (pixelSum m pixX - o.ref.1 * light m) +
          (β * o.jac.b + γ * o.jac.d) * (pixelSum m pixY - o.ref.2 * light m)) * A ^ 2 +
          ((β * o.jac.a + γ * o.jac.c) + (β * o.jac.b + γ * o.jac.d)) * (A * B) * light m) := by
    intro α β γ
    have h1 := spread_mom m hfin hk o.ref α (β * o.jac.a + γ * o.jac.c) (β * o.jac.b + γ * o.jac.d)
    have e : (fun p : ℝ × ℝ => (α + β * p.1 + γ * p.2) * x p) = fun p => (fun q : ℝ × ℝ => C * ((α +
        (β * o.jac.a + γ * o.jac.c) * q.1 + (β * o.jac.b + γ * o.jac.d) * q.2) *
          spread m (o.args.kernel.seen K) (o.ref + q))) (o.jac.inv'.app (p - 0)) := by
      funext p
      obtain ⟨q, hq⟩ : ∃ q, q = o.jac.inv'.app p := ⟨_, rfl⟩
      have hp : p = o.jac.app q := by rw [hq, Mat2.app_inv' hJ]
      rw [hx' p]
      simp only [sub_zero, ← hq]
      rw [hp]
      simp only [Mat2.app]
      ring
    rw [e]
    refine ⟨Elt.integrable_affine _ hdi 0 (h1.1.const_mul C), ?_⟩
    rw [Elt.integral_affine o.jac.inv' hdi 0 (fun q : ℝ × ℝ => C * ((α +
        (β * o.jac.a + γ * o.jac.c) * q.1 + (β * o.jac.b + γ * o.jac.d) * q.2) *
          spread m (o.args.kernel.seen K) (o.ref + q))), integral_const_mul, h1.2, Mat2.det_inv' hJ, one_div, inv_inv, smul_eq_mul]
    ring
  have hAC : |o.jac.det| * C * light m = o.wanted := by rw [hC]; field_simp
  have k0 := key 1 0 0
  have k1 := key 0 1 0
  have k2 := key 0 0 1
  simp only [zero_mul, add_zero, one_mul, zero_add] at k0 k1 k2
  have c1 : o.lightCentre.1 * light m = o.jac.a * (pixelSum m pixX - o.ref.1 * light m) +
      o.jac.b * (pixelSum m pixY - o.ref.2 * light m) := by
    rw [II.lightCentre, docMap_jac, ← hm]
    simp only [Mat2.app, Prod.fst_sub, Prod.snd_sub, lightMean]
    field_simp
  have c2 : o.lightCentre.2 * light m = o.jac.c * (pixelSum m pixX - o.ref.1 * light m) +
      o.jac.d * (pixelSum m pixY - o.ref.2 * light m) := by
    rw [II.lightCentre, docMap_jac, ← hm]
    simp only [Mat2.app, Prod.fst_sub, Prod.snd_sub, lightMean]
    field_simp
  refine ⟨k0.1, ?_, ?_, ?_⟩
  · rw [k0.2, ← hAC]; ring
  · rw [k1.2, ← c1, ← hAC]; simp only [Mat2.app]; ring
  · rw [k2.2, ← c2, ← hAC]; simp only [Mat2.app]; ring

/-! ### The kernels with a narrow window -/

/-- A constant on `[0, r]`, zero elsewhere. -/
theorem box_mom {f : ℝ → ℝ} {c r : ℝ} (hr : 0 ≤ r) (h1 : ∀ t, 0 ≤ t → t ≤ r → f t = c) (h2 : ∀ t, t < 0 ∨ r < t → f t = 0) :
    Mom f (c * r) (c * r ^ 2 / 2) := by
  have e : f = (Set.Icc 0 r).indicator fun _ => c := by
    funext t
    by_cases ht : t ∈ Set.Icc 0 r
    · rw [Set.indicator_of_mem ht, h1 t ht.1 ht.2]
    · rw [Set.indicator_of_notMem ht]
      refine h2 t ?_
      rw [Set.mem_Icc, not_and_or, not_le, not_le] at ht
      exact ht
  have e1 : (fun t => f t * t) = (Set.Icc 0 r).indicator fun t => c * t := by
    funext t
    rw [e]
    by_cases ht : t ∈ Set.Icc 0 r
    · rw [Set.indicator_of_mem ht, Set.indicator_of_mem ht]
    · rw [Set.indicator_of_notMem ht, Set.indicator_of_notMem ht, zero_mul]
  have m : MeasurableSet (Set.Icc 0 r) := measurableSet_Icc
  refine ⟨?_, ?_, ?_, ?_⟩
  · rw [e, integrable_indicator_iff m]
    exact continuousOn_const.integrableOn_compact isCompact_Icc
  · rw [e1, integrable_indicator_iff m]
    exact (by fun_prop : Continuous fun t : ℝ => c * t).continuousOn.integrableOn_compact isCompact_Icc
  · rw [e, integral_indicator m, integral_Icc_eq_integral_Ioc, ← intervalIntegral.integral_of_le hr,
      intervalIntegral.integral_const, smul_eq_mul]
    ring
  · rw [e1, integral_indicator m, integral_Icc_eq_integral_Ioc, ← intervalIntegral.integral_of_le hr,
      intervalIntegral.integral_const_mul, integral_id]
    ring

theorem cut_in {f : ℝ → ℝ} {t : ℝ} (h0 : 0 ≤ t) (h1 : t < 1) : cut f 0 t = f t := by
  rw [cut, if_pos]; push_cast; constructor <;> linarith

theorem cut_neg {f : ℝ → ℝ} {t : ℝ} (h0 : t < 0) : cut f 0 t = 0 := by
  rw [cut, if_neg]; push_cast; rintro ⟨h, -⟩; linarith

theorem cut_out {f : ℝ → ℝ} {t : ℝ} (h0 : f t = 0) : cut f 0 t = 0 := by
  rw [cut]; split_ifs <;> simp [h0]

theorem seen_nearest (K : ℕ → ℕ → ℝ) : Mom (Kernel.nearest.seen K) (1 / 2) (1 / 8) := by
  have e : Kernel.nearest.seen K = cut (Kernel.nearest.xval K) 0 := rfl
  rw [e]
  have h := box_mom (f := cut (Kernel.nearest.xval K) 0) (c := 1) (r := 1 / 2) (by norm_num) ?_ ?_
  · rwa [show (1:ℝ) * (1 / 2) = 1 / 2 by norm_num, show (1:ℝ) * (1 / 2) ^ 2 / 2 = 1 / 8 by norm_num] at h
  · intro t h0 h1
    rw [cut_in h0 (by linarith)]
    exact if_neg (by rw [abs_of_nonneg h0]; norm_num; linarith)
  · rintro t (ht | ht)
    · exact cut_neg ht
    · exact cut_out (if_pos (by rw [abs_of_pos (by linarith)]; norm_num; linarith))

theorem seen_delta (K : ℕ → ℕ → ℝ) (v : ℝ) (h0 : 0 < v) (h2 : v < 2) : Mom ((Kernel.delta v).seen K) (1 / 2) (v / 8) := by
  have e : (Kernel.delta v).seen K = cut ((Kernel.delta v).xval K) 0 := rfl
  rw [e]
  have h := box_mom (f := cut ((Kernel.delta v).xval K) 0) (c := 1 / v) (r := v / 2) (by linarith) ?_ ?_
  · rwa [show 1 / v * (v / 2) = 1 / 2 by field_simp, show 1 / v * (v / 2) ^ 2 / 2 = v / 8 by field_simp; norm_num] at h
  · intro t h0 h1
    rw [cut_in h0 (by linarith)]
    exact if_neg (by rw [abs_of_nonneg h0]; norm_num; linarith)
  · rintro t (ht | ht)
    · exact cut_neg ht
    · exact cut_out (if_pos (by rw [abs_of_pos (by linarith)]; norm_num; linarith))

/-- Disagreement: with `Nearest` or `Delta` the object drawn in real space holds a quarter of its flux, whatever the image: the
window of `_draw_with_interpolant_xval` has only the pixel below the point (interpolatedimage.py:1020-1021 with `ixrange` 1 and 0),
so half of the kernel is cut off in each direction.  With `Nearest` the light is also moved by a quarter of a pixel. -/
theorem C87_counterexample_quarter (K : ℕ → ℕ → ℝ) (o : II) (h : o.Good)
    (hk : o.args.kernel = .nearest ∨ ∃ v, o.args.kernel = .delta v ∧ 0 < v ∧ v < 2) (x : ℝ × ℝ → ℝ)
    (hx : ∀ p, o.xValue K p = .ok (x p)) :
    Integrable x ∧ ∫ p, x p = o.wanted / 4 ∧
      (o.args.kernel = .nearest → ∫ p, p.1 * x p = o.wanted / 4 * (o.lightCentre.1 + (o.jac.app (1 / 4, 1 / 4)).1)) := by
  rcases hk with hk | ⟨v, hk, h0, h2⟩
  · have := C87_integral K o h (1 / 2) (1 / 8) (by rw [hk]; exact seen_nearest K) x hx
    refine ⟨this.1, by rw [this.2.1]; ring, fun _ => ?_⟩
    rw [this.2.2.1]
    simp only [Mat2.app]
    ring
  · have := C87_integral K o h (1 / 2) (v / 8) (by rw [hk]; exact seen_delta K v h0 h2) x hx
    refine ⟨this.1, by rw [this.2.1]; ring, fun hc => ?_⟩
    rw [hk] at hc
    cases hc

/-! ### The Lanczos kernels -/

/-- The divisor used with `conserve_dc` stays away from zero. -/
theorem divisor_ge (si : ℝ → ℝ) (e : ℝ) (hsi : ∀ y, |si y - sineIntegral y| ≤ e) (n : ℕ) (hn : 2 ≤ n)
    (he : 20 * (e * (22 * n + 2) / π) ≤ 1 / 100) (x : ℝ) : 4 / 5 ≤ dcSeries (lanczosK si n) x := by
  have hn1 : 1 ≤ n := by omega
  have hn' : (2 : ℝ) ≤ n := by exact_mod_cast hn
  have e0 : 0 ≤ e := (abs_nonneg _).trans (hsi 0)
  have hp := Real.pi_pos
  obtain ⟨δ, hδ⟩ : ∃ δ, δ = e * (22 * n + 2) / π := ⟨_, rfl⟩
  rw [← hδ] at he
  have hK : ∀ j, 1 ≤ j → j ≤ 5 → |lanczosK si n j - lanczosK sineIntegral n j| ≤ δ := by
    intro j h1 h5
    obtain ⟨i, rfl⟩ : ∃ i, j = i + 1 := ⟨j - 1, by omega⟩
    rw [lanczosK, lanczosK, C98_raw (fun _ _ => 0) n hn1, hδ]
    refine (C98_raw_error (fun _ _ => 0) si e hsi n hn1 _).trans ?_
    have : |(i : ℝ) + 1| ≤ 5 := by
      rw [abs_of_nonneg (by positivity)]
      exact_mod_cast h5
    gcongr
    have : (n : ℝ) * |(i : ℝ) + 1| ≤ n * 5 := by gcongr
    linarith
  have d1 := (abs_le.mp (dcSeries_diff _ _ hK x)).1
  have s := C98_small n hn
  have g := (abs_le.mp (dcSeries_ge (lanczosK sineIntegral n) x)).1
  have hA1 : 1 / 22 / ((n : ℝ) - 1) ^ 3 ≤ 1 / 22 := by
    refine div_le_self (by norm_num) (one_le_pow₀ (by linarith))
  linarith

/-- An even kernel that is continuous up to its end at `n` and zero beyond. -/
theorem mom_of_cont {f g : ℝ → ℝ} {n : ℝ} (hg : ContinuousOn g (Set.Icc (-n) n)) (h1 : ∀ x, |x| ≤ n → f x = g x)
    (h2 : ∀ x, n < |x| → f x = 0) (he : ∀ x, f (-x) = f x) : Mom f (∫ x, f x) 0 := by
  have m : MeasurableSet (Set.Icc (-n) n) := measurableSet_Icc
  have e : f = (Set.Icc (-n) n).indicator g := by
    funext t
    by_cases ht : t ∈ Set.Icc (-n) n
    · rw [Set.indicator_of_mem ht, h1 t (abs_le.mpr ht)]
    · rw [Set.indicator_of_notMem ht]
      exact h2 t (not_le.mp fun h => ht (abs_le.mp h))
  have e1 : (fun t => f t * t) = (Set.Icc (-n) n).indicator fun t => g t * t := by
    funext t
    rw [e]
    by_cases ht : t ∈ Set.Icc (-n) n
    · rw [Set.indicator_of_mem ht, Set.indicator_of_mem ht]
    · rw [Set.indicator_of_notMem ht, Set.indicator_of_notMem ht, zero_mul]
  refine ⟨?_, ?_, rfl, ?_⟩
  · rw [e, integrable_indicator_iff m]
    exact hg.integrableOn_compact isCompact_Icc
  · rw [e1, integrable_indicator_iff m]
    exact (hg.mul continuousOn_id).integrableOn_compact isCompact_Icc
  · exact odd_integral _ fun x => by rw [he]; ring

theorem lanczos_zero (K : ℕ → ℕ → ℝ) (n : ℕ) (dc : Bool) (x : ℝ) (h : (n : ℝ) < |x|) : (Kernel.lanczos n dc).xval K x = 0 := by
  rw [Kernel.xval, lanczosXval, if_neg (not_lt.mpr h.le)]

/-- The integral of a kernel is the mean of the weight it gives to a constant image. -/
theorem integral_weightSum {f : ℝ → ℝ} (n : ℕ) (hf : Integrable f) (h2 : ∀ x : ℝ, (n : ℝ) < |x| → f x = 0) (c ε : ℝ)
    (hw : ∀ x, |weightSum f x - c| ≤ ε) : |(∫ x, f x) - c| ≤ ε := by
  obtain ⟨S, hS⟩ : ∃ S : Finset ℤ, S = Finset.Icc (-(n + 1 : ℤ)) (n + 1) := ⟨_, rfl⟩
  have hz : ∀ x : ℝ, 0 ≤ x → x ≤ 1 → ∀ j : ℤ, j ∉ S → f (x + j) = 0 := by
    intro x h0 h1 j hj
    refine h2 _ ?_
    rw [hS, Finset.mem_Icc, not_and_or] at hj
    rcases hj with hj | hj
    · have : (j : ℝ) + 1 ≤ -(n + 1) := by exact_mod_cast (by omega : j + 1 ≤ -(n + 1 : ℤ))
      rw [lt_abs]; right; linarith
    · have : (n : ℝ) + 1 + 1 ≤ j := by exact_mod_cast (by omega : (n + 1 : ℤ) + 1 ≤ j)
      rw [lt_abs]; left; linarith
  have hs : ∀ x : ℝ, 0 ≤ x → x ≤ 1 → weightSum f x = ∑ j ∈ S, f (x + j) := fun x h0 h1 =>
    tsum_eq_sum fun j hj => hz x h0 h1 j hj
  have h1 := hf.hasSum_intervalIntegral_comp_add_int
  have h3 : HasSum (fun j : ℤ => ∫ x in (0 : ℝ)..1, f (x + j)) (∑ j ∈ S, ∫ x in (0 : ℝ)..1, f (x + j)) := by
    refine hasSum_sum_of_ne_finset_zero fun j hj => ?_
    rw [intervalIntegral.integral_congr (g := fun _ => 0) fun x hx => ?_]
    · simp
    · rw [Set.uIcc_of_le zero_le_one] at hx
      exact hz x hx.1 hx.2 j hj
  have hi : ∀ j ∈ S, IntervalIntegrable (fun x : ℝ => f (x + j)) volume 0 1 := fun j _ =>
    (hf.comp_add_right (j : ℝ)).intervalIntegrable
  rw [h1.unique h3, ← intervalIntegral.integral_finsetSum hi]
  have hc : c = ∫ _ in (0 : ℝ)..1, c := by simp
  have hsum : IntervalIntegrable (fun x : ℝ => ∑ j ∈ S, f (x + j)) volume 0 1 := by
    have := IntervalIntegrable.sum S hi
    rwa [show (∑ i ∈ S, fun x : ℝ => f (x + i)) = fun x : ℝ => ∑ j ∈ S, f (x + j) by funext x; rw [Finset.sum_apply]] at this
  rw [hc, ← intervalIntegral.integral_sub hsum intervalIntegrable_const]
  have := intervalIntegral.norm_integral_le_of_norm_le_const (a := 0) (b := 1) (C := ε)
    (f := fun x => ∑ j ∈ S, f (x + j) - c) fun x hx => ?_
  · simpa using this
  · rw [Set.uIoc_of_le zero_le_one] at hx
    rw [← hs x hx.1.le hx.2]
    exact hw x

/-- With `conserve_dc`, the kernel has unit integral to within the error of `C98_constant`. -/
theorem seen_lanczos (si : ℝ → ℝ) (e : ℝ) (hsi : ∀ y, |si y - sineIntegral y| ≤ e) (n : ℕ) (hn : 2 ≤ n)
    (he : 20 * (e * (22 * n + 2) / π) ≤ 1 / 100) :
    ∃ A, Mom ((Kernel.lanczos n true).seen (lanczosK si)) A 0 ∧ |A - 1| ≤ 1 / 1100 / (n - 1) ^ 3 + 30 * (e * (22 * n + 2) / π) := by
  have hn1 : 1 ≤ n := by omega
  have hm : Mom ((Kernel.lanczos n true).xval (lanczosK si)) (∫ x, (Kernel.lanczos n true).xval (lanczosK si) x) 0 := by
    refine mom_of_cont (n := n) (g := fun x => sinc x * sinc (x / n) / dcSeries (lanczosK si n) x) ?_ (fun x hx => dc_eq _ hn1 hx)
      (lanczos_zero _ n true) (C53_even _ _)
    exact ((plain_continuous n).div (dcSeries_continuous _) fun x => by
      have := divisor_ge si e hsi n hn he x
      linarith).continuousOn
  refine ⟨_, ?_, integral_weightSum n hm.int (lanczos_zero _ n true) 1 _ (C98_constant si e hsi n hn he)⟩
  rw [seen_local]
  · exact hm
  · trivial

/-- Without `conserve_dc`, the integral of the kernel is the transform at 0, `_raw_uval` with the exact sine integral. -/
theorem seen_plain (K : ℕ → ℕ → ℝ) (n : ℕ) (hn : 1 ≤ n) :
    Mom ((Kernel.lanczos n false).seen K) (gsRawUval sineIntegral 0 n) 0 := by
  have hm : Mom ((Kernel.lanczos n false).xval K) (∫ x, (Kernel.lanczos n false).xval K x) 0 :=
    mom_of_cont (n := n) (g := fun x => sinc x * sinc (x / n)) (plain_continuous n).continuousOn (fun x hx => plain_eq _ hn hx)
      (lanczos_zero _ n false) (C53_even _ _)
  rw [seen_local]
  · have : gsRawUval sineIntegral 0 n = ∫ x, (Kernel.lanczos n false).xval K x := by
      rw [C98_raw K n hn, transform]
      simp only [mul_zero, zero_mul, Real.cos_zero, mul_one]
      rw [intervalIntegral.integral_of_le (by have : (0:ℝ) ≤ n := Nat.cast_nonneg n
                                              linarith), ← integral_Icc_eq_integral_Ioc]
      refine setIntegral_eq_integral_of_forall_compl_eq_zero fun x hx => lanczos_zero K n false x ?_
      exact not_le.mp fun h => hx (abs_le.mp h)
    rw [this]
    exact hm
  · trivial

/-- C87: with a Lanczos kernel that conserves a constant, the light is the wanted flux to within a small error, and it is centred
exactly on the light of the pixels; `e` is the error of the sine integral with which the numbers `K` were computed. -/
theorem C87_integral_lanczos (si : ℝ → ℝ) (e : ℝ) (hsi : ∀ y, |si y - sineIntegral y| ≤ e) (n : ℕ) (hn : 2 ≤ n)
    (he : 20 * (e * (22 * n + 2) / π) ≤ 1 / 100) (o : II) (h : o.Good) (hk : o.args.kernel = .lanczos n true) (x : ℝ × ℝ → ℝ)
    (hx : ∀ p, o.xValue (lanczosK si) p = .ok (x p)) :
    Integrable x ∧
      |(∫ p, x p) - o.wanted| ≤ |o.wanted| * (3 * (1 / 1100 / (n - 1) ^ 3 + 30 * (e * (22 * n + 2) / π))) ∧
      ∫ p, p.1 * x p = (∫ p, x p) * o.lightCentre.1 ∧ ∫ p, p.2 * x p = (∫ p, x p) * o.lightCentre.2 := by
  obtain ⟨A, hA, hA1⟩ := seen_lanczos si e hsi n hn he
  obtain ⟨i0, i1, i2, i3⟩ := C87_integral (lanczosK si) o h A 0 (by rw [hk]; exact hA) x hx
  have hn' : (2 : ℝ) ≤ n := by exact_mod_cast hn
  obtain ⟨ε, hε⟩ : ∃ ε, ε = 1 / 1100 / ((n : ℝ) - 1) ^ 3 + 30 * (e * (22 * n + 2) / π) := ⟨_, rfl⟩
  have hε1 : ε ≤ 1 := by
    have : 1 / 1100 / ((n : ℝ) - 1) ^ 3 ≤ 1 / 1100 := div_le_self (by norm_num) (one_le_pow₀ (by linarith))
    rw [hε]; linarith
  rw [← hε] at hA1 ⊢
  refine ⟨i0, ?_, ?_, ?_⟩
  · have e1 : (∫ p, x p) - o.wanted = o.wanted * (A ^ 2 - 1) := by rw [i1]; ring
    rw [e1, abs_mul]
    refine mul_le_mul_of_nonneg_left ?_ (abs_nonneg _)
    have h2 := abs_le.mp hA1
    rw [show A ^ 2 - 1 = (A - 1) * (A + 1) by ring, abs_mul]
    have h3 : |A + 1| ≤ 3 := by rw [abs_le]; constructor <;> linarith [h2.1, h2.2]
    calc |A - 1| * |A + 1| ≤ ε * 3 := mul_le_mul hA1 h3 (abs_nonneg _) ((abs_nonneg _).trans hA1)
      _ = 3 * ε := by ring
  · rw [i2, i1]; ring
  · rw [i3, i1]; ring

/-- C87: with a plain Lanczos kernel the light is the wanted flux times the square of the transform of the kernel at 0. -/
theorem C87_integral_plain (K : ℕ → ℕ → ℝ) (n : ℕ) (hn : 1 ≤ n) (o : II) (h : o.Good) (hk : o.args.kernel = .lanczos n false)
    (x : ℝ × ℝ → ℝ) (hx : ∀ p, o.xValue K p = .ok (x p)) :
    Integrable x ∧ ∫ p, x p = o.wanted * gsRawUval sineIntegral 0 n ^ 2 ∧
      ∫ p, p.1 * x p = (∫ p, x p) * o.lightCentre.1 ∧ ∫ p, p.2 * x p = (∫ p, x p) * o.lightCentre.2 := by
  obtain ⟨i0, i1, i2, i3⟩ := C87_integral K o h _ 0 (by rw [hk]; exact seen_plain K n hn) x hx
  exact ⟨i0, i1, by rw [i2, i1]; ring, by rw [i3, i1]; ring⟩

/-! ### Non-trivial cases -/

/-- The hypotheses `hx` above can always be met. -/
theorem xValue_total (K : ℕ → ℕ → ℝ) (o : II) (h : o.Good) : ∃ x : ℝ × ℝ → ℝ, ∀ p, o.xValue K p = .ok (x p) := by
  have hx : ∀ p, ∃ v, o.xValue K p = .ok v := by
    intro p
    have h1 := C87_light K o h (o.jac.inv'.app p)
    rw [docMap_jac, Mat2.app_inv' (jac_ne h)] at h1
    exact ⟨_, h1⟩
  choose x hx using hx
  exact ⟨x, hx⟩

/-- A row of three pixels of total light 7, shown with the kernel `k` on pixels of scale 2. -/
noncomputable def exKernel (k : Kernel) : II := ⟨{ defaultArgs exRow (.pix 2) 4 with kernel := k }, .pix 2⟩

theorem exKernel_good (k : Kernel) : (exKernel k).Good :=
  let g := exRow_good (.pix 2) two_ne_zero 4 le_rfl
  ⟨g.ok, g.shape, g.defd, g.static, g.small, g.small', g.plain, g.light, g.wcs⟩

theorem exKernel_wanted (k : Kernel) : (exKernel k).wanted = 7 := by
  simp only [exKernel, II.wanted, defaultArgs, lower_flux, exRow_light]
  rfl

/-- `Nearest`: the image of total light 7 is shown with 7/4. -/
example (K : ℕ → ℕ → ℝ) : ∃ x : ℝ × ℝ → ℝ, (∀ p, (exKernel .nearest).xValue K p = .ok (x p)) ∧ ∫ p, x p = 7 / 4 := by
  obtain ⟨x, hx⟩ := xValue_total K _ (exKernel_good .nearest)
  refine ⟨x, hx, ?_⟩
  rw [(C87_counterexample_quarter K _ (exKernel_good _) (.inl rfl) x hx).2.1, exKernel_wanted]

/-- `Lanczos(5)` with the sine integral of `bessel.py`: the light is 7 to within 5e-4. -/
example : ∃ x : ℝ × ℝ → ℝ, (∀ p, (exKernel (.lanczos 5 true)).xValue (lanczosK JG.Si.si) p = .ok (x p)) ∧
    |(∫ p, x p) - 7| ≤ 5e-4 := by
  obtain ⟨x, hx⟩ := xValue_total (lanczosK JG.Si.si) _ (exKernel_good (.lanczos 5 true))
  refine ⟨x, hx, ?_⟩
  have hp := Real.pi_gt_three
  have q : 7 / 10 ^ 15 * (22 * (5 : ℕ) + 2) / π ≤ 7 / 10 ^ 15 * (22 * (5 : ℕ) + 2) / 3 := by gcongr
  have h := (C87_integral_lanczos JG.Si.si _ JG.Si.C94_accuracy 5 (by norm_num) (by norm_num at q ⊢; linarith) _
    (exKernel_good _) rfl x hx).2.1
  rw [exKernel_wanted] at h
  refine h.trans ?_
  rw [abs_of_pos (by norm_num)]
  norm_num at q ⊢
  linarith

end JG.Interp
