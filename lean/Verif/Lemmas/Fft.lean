import Verif.Model.Fft
import Verif.Props.Wrap
import Verif.Props.InterpImage
import Mathlib.RingTheory.RootsOfUnity.Complex

/-! Lemmas on discrete Fourier sums. -/

namespace JG.Fft
open Finset JG.Interp

theorem root_add (n : ℕ) (s t : ℤ) : root n (s + t) = root n s * root n t := by
  unfold root; rw [← Complex.exp_add]; congr 1; push_cast; ring

theorem root_zero (n : ℕ) : root n 0 = 1 := by unfold root; simp

theorem root_star (n : ℕ) (t : ℤ) : star (root n t) = root n (-t) := by
  unfold root
  have : star (Complex.exp ((2 * Real.pi * t / n : ℝ) * Complex.I)) =
      Complex.exp (starRingEnd ℂ ((2 * Real.pi * t / n : ℝ) * Complex.I)) := (Complex.exp_conj _).symm
  rw [this, map_mul, Complex.conj_ofReal, Complex.conj_I]
  congr 1; push_cast; ring

theorem root_dvd (n : ℕ) (hn : 0 < n) (t : ℤ) : root n (n * t) = 1 := by
  unfold root
  rw [Complex.exp_eq_one_iff]
  refine ⟨t, ?_⟩
  have : (n:ℂ) ≠ 0 := by exact_mod_cast hn.ne'
  push_cast; field_simp

theorem root_period (n : ℕ) (hn : 0 < n) (s t : ℤ) : root n (s + n * t) = root n s := by
  rw [root_add, root_dvd n hn, mul_one]

theorem root_emod (n : ℕ) (hn : 0 < n) (s : ℤ) : root n (s % n) = root n s := by
  conv_rhs => rw [← Int.emod_add_mul_ediv s n, root_period n hn]

theorem root_mul_nat (n : ℕ) (t : ℤ) (k : ℕ) : root n (k * t) = root n t ^ k := by
  unfold root; rw [← Complex.exp_nat_mul]; congr 1; push_cast; ring

theorem root_half (m : ℕ) (hm : 0 < m) (x : ℕ) : root (2 * m) (m * x) = (-1) ^ x := by
  have h : root (2 * m) m = -1 := by
    unfold root
    rw [← Complex.exp_pi_mul_I]
    congr 2
    have : (m:ℝ) ≠ 0 := by positivity
    congr 1
    push_cast; field_simp
  rw [← h, ← root_mul_nat, mul_comm (m:ℤ)]

theorem root_eq_one_iff (n : ℕ) (hn : 0 < n) (t : ℤ) : root n t = 1 ↔ (n:ℤ) ∣ t := by
  constructor
  · intro h
    unfold root at h
    rw [Complex.exp_eq_one_iff] at h
    obtain ⟨m, hm⟩ := h
    have hI : (2 * (Real.pi:ℂ) * Complex.I) ≠ 0 := Complex.two_pi_I_ne_zero
    have hn' : (n:ℂ) ≠ 0 := by exact_mod_cast hn.ne'
    have e : (t:ℂ) = n * m := by
      have : (t:ℂ) / n * (2 * Real.pi * Complex.I) = m * (2 * Real.pi * Complex.I) := by
        rw [← hm]; push_cast; ring
      have := mul_right_cancel₀ hI this
      field_simp at this
      linear_combination this
    exact ⟨m, by exact_mod_cast e⟩
  · rintro ⟨m, rfl⟩; exact root_dvd n hn m

/-- Orthogonality. -/
theorem root_sum (n : ℕ) (hn : 0 < n) (t : ℤ) :
    ∑ k ∈ range n, root n (k * t) = if (n:ℤ) ∣ t then (n:ℂ) else 0 := by
  split_ifs with h
  · obtain ⟨m, rfl⟩ := h
    have : ∀ k ∈ range n, root n (k * (n * m)) = 1 := fun k _ => by
      rw [show (k:ℤ) * (n * m) = n * (k * m) by ring, root_dvd n hn]
    rw [sum_congr rfl this]; simp
  · have hr : root n t ≠ 1 := fun e => h ((root_eq_one_iff n hn t).mp e)
    have : ∑ k ∈ range n, root n (k * t) = ∑ k ∈ range n, root n t ^ k :=
      sum_congr rfl fun k _ => root_mul_nat n t k
    rw [this, geom_sum_eq hr, ← root_mul_nat, root_dvd n hn, sub_self, zero_div]

/-- The sum over a period does not depend on where the period starts. -/
theorem period_sum (n : ℕ) (hn : 0 < n) (f : ℤ → ℂ) (hf : ∀ t, f (t + n) = f t) (c : ℤ) :
    ∑ t ∈ range n, f t = ∑ t ∈ Ico c (c + n), f t := by
  have hper : ∀ (m : ℤ) t, f (t + m * n) = f t := by
    intro m
    induction m with
    | zero => intro t; simp
    | succ m ih => intro t; rw [← ih t, ← hf (t + m * n)]; congr 1; ring
    | pred m ih => intro t; rw [← ih t, ← hf (t + (-(m:ℤ) - 1) * n)]; congr 1; ring
  have h0 := sum_congr1 f 0 n n hn c
  have h1 : ∑ t ∈ range n, f t = ∑ t ∈ Ico (0:ℤ) (0 + n), f t := by
    refine sum_bij (fun j _ => (j:ℤ)) ?_ ?_ ?_ ?_
    · intro j hj; rw [mem_range] at hj; rw [mem_Ico]; omega
    · intro a _ b _ h; exact_mod_cast h
    · intro m hm; rw [mem_Ico] at hm; exact ⟨m.toNat, by rw [mem_range]; omega, by omega⟩
    · intro j _; rfl
  rw [h1, ← h0]
  refine sum_congr rfl fun X _ => ?_
  have hn' : (0:ℤ) < n := by exact_mod_cast hn
  have : congr1 0 n n X = {X % n} := by
    ext t
    unfold congr1
    rw [mem_filter, mem_Ico, mem_singleton]
    have m0 := Int.emod_nonneg X hn'.ne'
    have m1 := Int.emod_lt_of_pos X hn'
    have m2 := Int.emod_add_mul_ediv X n
    constructor
    · rintro ⟨⟨a1, a2⟩, d⟩
      have : (t % n) = X % n := Int.emod_eq_emod_iff_emod_sub_eq_zero.mpr (Int.emod_eq_zero_of_dvd d)
      rw [← this, Int.emod_eq_of_lt a1 (by omega)]
    · rintro rfl
      refine ⟨⟨m0, by omega⟩, ⟨-(X / n), ?_⟩⟩
      linarith
  rw [this, sum_singleton]
  have := hper (X / n) (X % n)
  rw [show X % n + X / n * n = X by rw [mul_comm]; exact Int.emod_add_mul_ediv X n] at this
  exact this.symm

theorem period_neg (n : ℕ) (hn : 0 < n) (f : ℤ → ℂ) (hf : ∀ t, f (t + n) = f t) :
    ∑ t ∈ range n, f (-t) = ∑ t ∈ range n, f t := by
  rw [period_sum n hn f hf (1 - n)]
  refine sum_bij (fun j _ => -(j:ℤ)) ?_ ?_ ?_ ?_
  · intro j hj; rw [mem_range] at hj; rw [mem_Ico]; omega
  · intro a _ b _ h; have : -(a:ℤ) = -b := h; omega
  · intro m hm; rw [mem_Ico] at hm; exact ⟨(-m).toNat, by rw [mem_range]; omega, by omega⟩
  · intro j _; rfl

/-- Splitting a symmetric period. -/
theorem split_period (m : ℕ) (hm : 1 ≤ m) (g : ℤ → ℂ) :
    ∑ k ∈ Ico (1 - (m:ℤ)) (m + 1), g k = g 0 + g m + ∑ k ∈ Ico 1 m, (g (k:ℕ) + g (-(k:ℕ))) := by
  induction m, hm using Nat.le_induction with
  | base =>
    have : Ico (1 - ((1:ℕ):ℤ)) ((1:ℕ) + 1) = {0, 1} := by decide
    rw [this, sum_pair (by decide)]; simp
  | succ m hm ih =>
    have e : Ico (1 - ((m + 1 : ℕ):ℤ)) ((m + 1 : ℕ) + 1) =
        insert (-(m:ℤ)) (insert ((m:ℤ) + 1) (Ico (1 - (m:ℤ)) (m + 1))) := by
      ext t; simp only [mem_Ico, mem_insert]; push_cast; omega
    rw [e, sum_insert (by simp only [mem_Ico, mem_insert]; omega), sum_insert (by simp only [mem_Ico]; omega), ih,
      sum_Ico_succ_top hm]
    push_cast
    ring

theorem re_of_star {z : ℂ} (h : star z = z) : ((z.re : ℝ) : ℂ) = z := Complex.conj_eq_iff_re.mp h

/-- `irfft2` of the stored half of a Hermitian periodic image is the full inverse sum. -/
theorem irfft2_eq (m : ℕ) (hm : 0 < m) (F : ℤ → ℤ → ℂ) (hF : HermPeriodic F ((2 * m : ℕ) : ℤ)) (z : Arr ℂ) (hh : z.h = 2 * m)
    (hz : ∀ j i : ℕ, j < 2 * m → i ≤ m → z.at' j i = F j i) (y x : ℕ) :
    (((irfft2 z m).at' y x : ℝ) : ℂ) =
      (∑ ky ∈ range (2 * m), ∑ kx ∈ range (2 * m), F ky kx * root (2 * m) (kx * x + ky * y)) / (2 * m : ℕ) ^ 2 := by
  have hN : 0 < 2 * m := by omega
  obtain ⟨c, hc⟩ : ∃ c : ℤ → ℂ, c = fun k => (∑ ky ∈ range (2 * m), F ky k * root (2 * m) (ky * y)) / (2 * m : ℕ) := ⟨_, rfl⟩
  have cz : ∀ k : ℕ, k ≤ m → (ifft0 z).at' y k = c k := by
    intro k hk
    rw [hc]
    unfold ifft0
    simp only [hh]
    congr 1
    refine sum_congr rfl fun ky hky => ?_
    rw [mem_range] at hky
    rw [hz ky k hky hk]
  have cper : ∀ k, c (k + (2 * m : ℕ)) = c k := by
    intro k; rw [hc]; simp only; congr 1
    exact sum_congr rfl fun ky _ => by rw [hF.perX]
  have cstar : ∀ k, star (c k) = c (-k) := by
    intro k
    rw [hc]
    simp only
    rw [star_div₀, star_natCast, star_sum]
    congr 1
    have h2 : ∀ ky ∈ range (2 * m), star (F ky k * root (2 * m) (ky * y)) =
        (fun t : ℤ => F t (-k) * root (2 * m) (t * y)) (-(ky:ℤ)) := by
      intro ky _
      rw [star_mul', root_star, ← hF.herm]
      simp only
      congr 2; ring
    rw [sum_congr rfl h2, period_neg (2 * m) hN (fun t : ℤ => F t (-k) * root (2 * m) (t * y))]
    intro t
    rw [hF.perY, show (t + ((2 * m : ℕ):ℤ)) * y = t * y + (2 * m : ℕ) * y by ring, root_period _ hN]
  have hsum : (∑ ky ∈ range (2 * m), ∑ kx ∈ range (2 * m), F ky kx * root (2 * m) (kx * x + ky * y)) / (2 * m : ℕ) ^ 2 =
      (∑ k ∈ range (2 * m), c k * root (2 * m) (k * x)) / (2 * m : ℕ) := by
    rw [sum_comm, hc, pow_two, ← div_div]
    congr 1
    rw [sum_div]
    refine sum_congr rfl fun k _ => ?_
    simp only
    rw [sum_div, sum_div, sum_mul]
    refine sum_congr rfl fun ky _ => ?_
    rw [root_add]; ring
  rw [hsum, period_sum (2 * m) hN (fun k => c k * root (2 * m) (k * x)) _ (1 - m)]
  · rw [show (1 - (m:ℤ)) + (2 * m : ℕ) = m + 1 by push_cast; ring, split_period m hm]
    unfold irfft2 irfft1
    simp only
    push_cast
    congr 1
    rw [cz 0 (Nat.zero_le _), cz m le_rfl]
    have c0 : ((c ((0:ℕ):ℤ)).re : ℂ) = c 0 := by
      apply re_of_star; rw [cstar]; simp
    have cm : ((c m).re : ℂ) = c m := by
      apply re_of_star; rw [cstar, ← cper]; congr 1; push_cast; ring
    rw [c0, cm, zero_mul, root_zero, mul_one, root_half m hm, mul_sum]
    congr 1
    refine sum_congr rfl fun k hk => ?_
    rw [mem_Ico] at hk
    rw [cz k (by omega)]
    have : c (-(k:ℤ)) * root (2 * m) (-(k:ℤ) * x) = star (c k * root (2 * m) (k * x)) := by
      rw [star_mul', cstar, root_star]; congr 2; ring
    rw [this]
    have := Complex.add_conj (c k * root (2 * m) (k * x))
    rw [show star (c k * root (2 * m) (k * x)) = starRingEnd ℂ (c k * root (2 * m) (k * x)) from rfl, this]
    push_cast; ring
  · intro t
    rw [cper, show (t + ((2 * m : ℕ):ℤ)) * x = t * x + (2 * m : ℕ) * x by ring, root_period _ hN]

end JG.Fft
