import Verif.Model.Quadrature
import Verif.Lemmas.Dft
import Verif.Lemmas.Loops
import Verif.Spec.Sphere

namespace S2fft
open Spec

theorem continuous_cis : Continuous cis := by
  unfold cis; fun_prop

theorem continuous_cis_mul (k : ℤ) : Continuous fun θ : ℝ => cis (k * θ) :=
  continuous_cis.comp (by fun_prop)

/-- Integral of `e^{ikθ}`. -/
theorem integral_cis (k : ℤ) (hk : k ≠ 0) (a b : ℝ) :
    ∫ θ in a..b, cis (k * θ) = (cis (k * b) - cis (k * a)) / (k * Complex.I) := by
  have h : (k : ℂ) * Complex.I ≠ 0 := by
    simp [Complex.I_ne_zero, hk]
  have := integral_exp_mul_complex (a := a) (b := b) h
  unfold cis
  rw [← show ((k : ℂ) * Complex.I * b) = ((k * b : ℝ) : ℂ) * Complex.I by push_cast; ring,
    ← show ((k : ℂ) * Complex.I * a) = ((k * a : ℝ) : ℂ) * Complex.I by push_cast; ring, ← this]
  congr 1; ext θ; congr 1; push_cast; ring

theorem integral_cis_pi (k : ℤ) :
    ∫ θ in (0 : ℝ)..Real.pi, cis (k * θ) =
      if k = 0 then (Real.pi : ℂ) else if k % 2 = 0 then 0 else -2 / (k * Complex.I) := by
  by_cases h : k = 0
  · subst h; simp [cis]
  · rw [integral_cis k h, if_neg h, mul_comm, cis_pi_int]
    simp only [mul_zero]
    rw [show cis 0 = 1 by simp [cis]]
    split_ifs with h2
    · rw [Even.neg_one_zpow (Int.even_iff.2 h2)]; simp
    · rw [Odd.neg_one_zpow (Int.odd_iff.2 (by omega))]; norm_num

theorem integral_cis_two_pi (k : ℤ) :
    ∫ θ in (0 : ℝ)..(2 * Real.pi), cis (k * θ) = if k = 0 then 2 * (Real.pi : ℂ) else 0 := by
  by_cases h : k = 0
  · subst h; simp [cis]
  · rw [integral_cis k h, if_neg h, mul_comm, cis_two_pi_int]
    simp [cis]

theorem sin_cis (θ : ℝ) : (Real.sin θ : ℂ) = (cis θ - cis (-θ)) / (2 * Complex.I) := by
  rw [cis_eq, cis_eq]
  have : (2 * Complex.I) ≠ 0 := by simp
  field_simp
  simp
  ring

theorem cis_mul_sin (m : ℤ) (θ : ℝ) : cis (m * θ) * (Real.sin θ : ℂ)
    = (cis ((m + 1 : ℤ) * θ) - cis ((m - 1 : ℤ) * θ)) / (2 * Complex.I) := by
  rw [sin_cis]
  have h1 : cis ((m + 1 : ℤ) * θ) = cis (m * θ) * cis θ := by
    rw [← cis_add]; congr 1; push_cast; ring
  have h2 : cis ((m - 1 : ℤ) * θ) = cis (m * θ) * cis (-θ) := by
    rw [← cis_add]; congr 1; push_cast; ring
  rw [h1, h2]; ring

/-- `mw_weights` is the integral it is documented to be. -/
theorem mw_weights_eq (m : ℤ) :
    mw_weights m = ∫ θ in (0 : ℝ)..Real.pi, cis (m * θ) * (Real.sin θ : ℂ) := by
  simp only [cis_mul_sin]
  rw [intervalIntegral.integral_div, intervalIntegral.integral_sub
    ((continuous_cis_mul _).intervalIntegrable _ _) ((continuous_cis_mul _).intervalIntegrable _ _),
    integral_cis_pi, integral_cis_pi]
  unfold mw_weights
  have hI : Complex.I ≠ 0 := Complex.I_ne_zero
  have hII : Complex.I ^ 2 = -1 := Complex.I_sq
  by_cases h1 : m = 1
  · subst h1; norm_num
    field_simp
    linear_combination hII
  by_cases h2 : m = -1
  · subst h2; norm_num
    field_simp
    linear_combination -hII
  rw [if_neg h1, if_neg h2, if_neg (show m + 1 ≠ 0 by omega), if_neg (show m - 1 ≠ 0 by omega)]
  by_cases h3 : m % 2 = 0
  · rw [if_pos h3, if_neg (show ¬ (m + 1) % 2 = 0 by omega),
      if_neg (show ¬ (m - 1) % 2 = 0 by omega)]
    have e1 : ((m : ℂ) + 1) ≠ 0 := by exact_mod_cast (show m + 1 ≠ 0 by omega)
    have e2 : ((m : ℂ) - 1) ≠ 0 := by exact_mod_cast (show m - 1 ≠ 0 by omega)
    have e3 : (1 - (m : ℂ) ^ 2) ≠ 0 := by
      rw [show (1 - (m : ℂ) ^ 2) = -((m + 1) * (m - 1)) by ring]
      exact neg_ne_zero.2 (mul_ne_zero e1 e2)
    push_cast
    field_simp
    rw [hII]; ring
  · rw [if_neg h3, if_pos (show (m + 1) % 2 = 0 by omega), if_pos (show (m - 1) % 2 = 0 by omega)]
    simp

theorem conj_mw_weights (m : ℤ) : (starRingEnd ℂ) (mw_weights m) = mw_weights (-m) := by
  unfold mw_weights
  by_cases h1 : m = 1
  · subst h1; simp [Complex.conj_ofNat]
  by_cases h2 : m = -1
  · subst h2; simp [Complex.conj_ofNat]
  rw [if_neg h1, if_neg h2, if_neg (show -m ≠ 1 by omega), if_neg (show -m ≠ -1 by omega)]
  by_cases h3 : m % 2 = 0
  · rw [if_pos h3, if_pos (show -m % 2 = 0 by omega)]
    simp [Complex.conj_ofNat]
  · rw [if_neg h3, if_neg (show ¬ -m % 2 = 0 by omega)]; simp

/-! ## Trigonometric polynomials -/

theorem continuous_trigPoly (L : ℤ) (c : ℤ → ℂ) : Continuous (trigPoly L c) := by
  unfold trigPoly
  exact continuous_finset_sum _ fun k _ => continuous_const.mul (continuous_cis_mul k)

theorem integral_trigPoly (L : ℤ) (c : ℤ → ℂ) :
    ∫ θ in (0 : ℝ)..Real.pi, trigPoly L c θ * (Real.sin θ : ℂ)
      = ∑ k ∈ Finset.Ioo (-L) L, c k * mw_weights k := by
  unfold trigPoly
  simp only [Finset.sum_mul, mul_assoc]
  rw [intervalIntegral.integral_finset_sum]
  · apply Finset.sum_congr rfl; intro k _
    rw [intervalIntegral.integral_const_mul, mw_weights_eq]
  · intro k _
    apply Continuous.intervalIntegrable
    exact continuous_const.mul ((continuous_cis_mul k).mul (by fun_prop))

theorem sum_Ioo_neg {M : Type*} [AddCommMonoid M] (L : ℤ) (f : ℤ → M) :
    ∑ k ∈ Finset.Ioo (-L) L, f (-k) = ∑ k ∈ Finset.Ioo (-L) L, f k := by
  apply Finset.sum_bij (fun k _ => -k)
  · intro a ha; simp at ha ⊢; omega
  · intro a _ b _ h; simpa using h
  · intro b hb; exact ⟨-b, by simp at hb ⊢; omega, by simp⟩
  · intro a _; rfl

theorem sum_Ioo_eq_Ico {M : Type*} [AddCommMonoid M] (L : ℤ) (f : ℤ → M) :
    ∑ k ∈ Finset.Ioo (-L) L, f k = ∑ j ∈ Finset.Ico 0 (2 * L - 1), f (j - (L - 1)) := by
  rw [show Finset.Ioo (-L) L = Finset.Ico (0 + (-(L - 1))) ((2 * L - 1) + (-(L - 1))) by
    ext x; simp only [Finset.mem_Ioo, Finset.mem_Ico]; omega, sum_Ico_shift]
  rfl

/-- Parity of a trigonometric polynomial continued to `[π, 2π]`. -/
theorem trigPoly_reflect {L : ℤ} {c : ℤ → ℂ} {e : ℤ} (hc : ∀ k, c (-k) = (-1) ^ e * c k) (θ : ℝ) :
    trigPoly L c (2 * Real.pi - θ) = (-1) ^ e * trigPoly L c θ := by
  unfold trigPoly
  rw [← sum_Ioo_neg, Finset.mul_sum]
  apply Finset.sum_congr rfl; intro k _
  rw [hc, mul_assoc]
  congr 2
  rw [show (((-k : ℤ) : ℝ) * (2 * Real.pi - θ)) = 2 * Real.pi * (-k : ℤ) + k * θ by push_cast; ring,
    cis_add, cis_two_pi_int, one_mul]

theorem trigPoly_two_pi (L : ℤ) (c : ℤ → ℂ) (θ : ℝ) :
    trigPoly L c (θ + 2 * Real.pi) = trigPoly L c θ := by
  unfold trigPoly
  apply Finset.sum_congr rfl; intro k _
  rw [show ((k : ℝ) * (θ + 2 * Real.pi)) = 2 * Real.pi * k + k * θ by ring, cis_add,
    cis_two_pi_int, one_mul]

/-! ## Weights on the extended MW and MWSS grids -/

theorem mw_w_array (L : ℤ) (j : ℤ) (h0 : 0 ≤ j) (h1 : j < 2 * L - 1) :
    forRange (-(L - 1)) L (fun i w => set1 w (i + L - 1) (mw_weights i)) (0 : ℤ → ℂ) j
      = mw_weights (j - (L - 1)) := by
  refine forRange_write _ _ _ _ (fun g : ℤ → ℂ => g j) (j - (L - 1)) _ (by omega) (by omega) ?_ ?_
  · intro s; simp [set1]; intro h; omega
  · intro i s _ _ h; exact set1_ne _ _ (by omega)

theorem mwss_w_array (L : ℤ) (j : ℤ) (h0 : 0 ≤ j) (h1 : j < 2 * L) :
    forRange (-(L - 1) + 1) (L + 1) (fun i w => set1 w (i + L - 1) (mw_weights (i - 1)))
      (0 : ℤ → ℂ) j = if j = 0 then 0 else mw_weights (j - L) := by
  split_ifs with h
  · subst h
    refine (forRange_frame _ _ _ _ (fun g : ℤ → ℂ => g 0) ?_).trans rfl
    intro i s h2 h3; exact set1_ne _ _ (by omega)
  · refine forRange_write _ _ _ _ (fun g : ℤ → ℂ => g j) (j - L + 1) _ (by omega) (by omega) ?_ ?_
    · intro s; simp [set1]; intro h; omega
    · intro i s _ _ h; exact set1_ne _ _ (by omega)

/-- Centred transform of `fft ∘ ifftshift`. -/
theorem fft_ifftshift {n : ℤ} (hn : 0 < n) (x : ℤ → ℂ) (p : ℤ) :
    fft n (ifftshift n x) p = ∑ i ∈ Finset.Ico 0 n, x i * tw n (-((i - n / 2) * p)) := by
  have := ifft_fwd_ifftshift hn x (-p)
  rw [ifft_fwd_eq] at this
  rw [fft_eq]
  convert this using 2
  · congr 2; ring
  · congr 2; ring

/-- A conjugate-symmetric sum is real. -/
theorem sum_re_of_conj {L : ℤ} {f : ℤ → ℂ} (h : ∀ k, (starRingEnd ℂ) (f k) = f (-k)) :
    (((∑ k ∈ Finset.Ioo (-L) L, f k).re : ℝ) : ℂ) = ∑ k ∈ Finset.Ioo (-L) L, f k := by
  rw [← Complex.conj_eq_iff_re, map_sum]
  simp only [h]
  exact sum_Ioo_neg L f

theorem mw_wr_eq {L : ℤ} (hL : 1 ≤ L) (t : ℤ) :
    (mw_wr L t : ℂ) = (∑ k ∈ Finset.Ioo (-L) L,
      mw_weights k * cis (-(k * ((2 * t + 1) * Real.pi / (2 * L - 1))))) / (2 * L - 1) := by
  have key : fft (2 * L - 1) (ifftshift (2 * L - 1) (fun j =>
      forRange (-(L - 1)) L (fun i w => set1 w (i + L - 1) (mw_weights i)) (0 : ℤ → ℂ) j *
        cis (-(((j - (L - 1) : ℤ) : ℝ) * Real.pi / (2 * (L : ℝ) - 1))))) t
      = ∑ k ∈ Finset.Ioo (-L) L,
        mw_weights k * cis (-(k * ((2 * t + 1) * Real.pi / (2 * L - 1)))) := by
    rw [fft_ifftshift (by omega), sum_Ioo_eq_Ico]
    apply Finset.sum_congr rfl
    intro j hj
    rw [Finset.mem_Ico] at hj
    rw [mw_w_array L j hj.1 hj.2, mul_assoc, tw, ← cis_add]
    congr 2
    rw [show (2 * L - 1) / 2 = L - 1 by omega]
    push_cast
    field_simp
    ring
  unfold mw_wr
  simp only
  rw [key]
  push_cast
  rw [sum_re_of_conj]
  intro k
  rw [map_mul, conj_mw_weights, conj_cis]
  congr 2; push_cast; ring

theorem mwss_wr_eq {L : ℤ} (hL : 1 ≤ L) (t : ℤ) :
    (mwss_wr L t : ℂ) = (∑ k ∈ Finset.Ioo (-L) L,
      mw_weights k * cis (-(k * (2 * t * Real.pi / (2 * L))))) / (2 * L) := by
  have key : fft (2 * L) (ifftshift (2 * L)
      (forRange (-(L - 1) + 1) (L + 1) (fun i w => set1 w (i + L - 1) (mw_weights (i - 1)))
        (0 : ℤ → ℂ))) t
      = ∑ k ∈ Finset.Ioo (-L) L, mw_weights k * cis (-(k * (2 * t * Real.pi / (2 * L)))) := by
    rw [fft_ifftshift (by omega), sum_Ico_bot (by omega), mwss_w_array L 0 (by omega) (by omega),
      if_pos rfl, zero_mul, zero_add]
    rw [show Finset.Ioo (-L) L = Finset.Ico ((0 + 1) + (-L)) (2 * L + (-L)) by
      ext x; simp only [Finset.mem_Ioo, Finset.mem_Ico]; omega, sum_Ico_shift]
    apply Finset.sum_congr rfl
    intro j hj
    rw [Finset.mem_Ico] at hj
    rw [mwss_w_array L j (by omega) hj.2, if_neg (by omega), tw]
    congr 2
    rw [show 2 * L / 2 = L by omega]
    push_cast
    have : (L : ℝ) ≠ 0 := by exact_mod_cast (show L ≠ 0 by omega)
    field_simp
    ring
  unfold mwss_wr
  simp only
  rw [key]
  push_cast
  rw [sum_re_of_conj]
  intro k
  rw [map_mul, conj_mw_weights, conj_cis]
  congr 2; push_cast; ring

/-- Orthogonality of exponentials on an equally spaced grid. -/
theorem grid_orth {n : ℤ} (hn : 0 < n) (α : ℝ) (k k' : ℤ) :
    ∑ t ∈ Finset.Ico 0 n, cis (k * (α + 2 * Real.pi * t / n)) *
        cis (-(k' * (α + 2 * Real.pi * t / n)))
      = if n ∣ k - k' then n * cis ((k - k' : ℤ) * α) else 0 := by
  have h : ∀ t : ℤ, cis (k * (α + 2 * Real.pi * t / n)) *
        cis (-(k' * (α + 2 * Real.pi * t / n))) = cis ((k - k' : ℤ) * α) * tw n (t * (k - k')) := by
    intro t
    rw [← cis_add, tw, ← cis_add]; congr 1; push_cast; ring
  simp only [h]
  rw [← Finset.mul_sum, sum_tw hn]
  split_ifs <;> ring

/-- A rule whose values are the inverse transform of `w` integrates trigonometric polynomials
against `w`. -/
theorem grid_rule {n L : ℤ} (hL : 1 ≤ L) (hn : 2 * L - 1 ≤ n) (α : ℝ) (w c : ℤ → ℂ) (wr : ℤ → ℂ)
    (hwr : ∀ t, wr t =
      (∑ k ∈ Finset.Ioo (-L) L, w k * cis (-(k * (α + 2 * Real.pi * t / n)))) / n) :
    ∑ t ∈ Finset.Ico 0 n, wr t * trigPoly L c (α + 2 * Real.pi * t / n)
      = ∑ k ∈ Finset.Ioo (-L) L, c k * w k := by
  have hn' : (n : ℂ) ≠ 0 := by exact_mod_cast (show n ≠ 0 by omega)
  have h1 : ∀ t : ℤ, wr t * trigPoly L c (α + 2 * Real.pi * t / n)
      = ∑ k ∈ Finset.Ioo (-L) L, ∑ k' ∈ Finset.Ioo (-L) L, c k * w k' / n *
        (cis (k * (α + 2 * Real.pi * t / n)) * cis (-(k' * (α + 2 * Real.pi * t / n)))) := by
    intro t
    rw [hwr, trigPoly, Finset.mul_sum]
    apply Finset.sum_congr rfl; intro k _
    rw [Finset.sum_div, Finset.sum_mul]
    apply Finset.sum_congr rfl; intro k' _
    ring
  simp only [h1]
  rw [Finset.sum_comm]
  apply Finset.sum_congr rfl; intro k hk
  rw [Finset.sum_comm]
  simp only [← Finset.mul_sum]
  have h2 : ∀ k' ∈ Finset.Ioo (-L) L, c k * w k' / n *
      ∑ t ∈ Finset.Ico 0 n, cis (k * (α + 2 * Real.pi * t / n)) *
        cis (-(k' * (α + 2 * Real.pi * t / n))) = if k' = k then c k * w k else 0 := by
    intro k' hk'
    rw [grid_orth (by omega)]
    rw [Finset.mem_Ioo] at hk hk'
    by_cases h : k' = k
    · subst h; simp [cis]; field_simp
    · rw [if_neg h, if_neg, mul_zero]
      intro hd
      rcases lt_or_gt_of_ne h with h3 | h3
      · have := Int.le_of_dvd (by omega) hd; omega
      · have := Int.le_of_dvd (by omega) ((dvd_neg.2 hd)); omega
  rw [Finset.sum_congr rfl h2, Finset.sum_ite_eq' _ k, if_pos hk]

/-- The MW rule on the `θ` circle. -/
theorem mw_wr_exact {L : ℤ} (hL : 1 ≤ L) (c : ℤ → ℂ) :
    ∑ t ∈ Finset.Ico 0 (2 * L - 1),
        (mw_wr L t : ℂ) * trigPoly L c ((2 * t + 1) * Real.pi / (2 * L - 1))
      = ∑ k ∈ Finset.Ioo (-L) L, c k * mw_weights k := by
  have hθ : ∀ t : ℤ, ((2 * t + 1) * Real.pi / (2 * L - 1) : ℝ) =
      Real.pi / (2 * L - 1) + 2 * Real.pi * t / (2 * L - 1 : ℤ) := by
    intro t; push_cast; ring
  rw [← grid_rule hL le_rfl (Real.pi / (2 * L - 1)) mw_weights c (fun t => (mw_wr L t : ℂ))]
  · apply Finset.sum_congr rfl; intro t _; rw [hθ]
  · intro t
    rw [mw_wr_eq hL]
    push_cast
    congr 1
    apply Finset.sum_congr rfl; intro k _; rw [hθ]; push_cast; rfl

/-- The MWSS rule on the `θ` circle. -/
theorem mwss_wr_exact {L : ℤ} (hL : 1 ≤ L) (c : ℤ → ℂ) :
    ∑ t ∈ Finset.Ico 0 (2 * L), (mwss_wr L t : ℂ) * trigPoly L c (2 * t * Real.pi / (2 * L))
      = ∑ k ∈ Finset.Ioo (-L) L, c k * mw_weights k := by
  have hθ : ∀ t : ℤ, (2 * t * Real.pi / (2 * L) : ℝ) = 0 + 2 * Real.pi * t / (2 * L : ℤ) := by
    intro t; push_cast; ring
  rw [← grid_rule (n := 2 * L) hL (by omega) 0 mw_weights c (fun t => (mwss_wr L t : ℂ))]
  · apply Finset.sum_congr rfl; intro t _; rw [hθ]
  · intro t
    rw [mwss_wr_eq hL]
    push_cast
    congr 1
    apply Finset.sum_congr rfl; intro k _; rw [hθ]; push_cast; rfl

theorem fold_mw {M : Type*} [AddCommMonoid M] {L : ℤ} (hL : 1 ≤ L) (F : ℤ → M) :
    ∑ t ∈ Finset.Ico 0 (2 * L - 1), F t
      = ∑ t ∈ Finset.Ico 0 L, if t < L - 1 then F t + F (2 * L - 1 - 1 - t) else F t := by
  obtain ⟨K, rfl⟩ : ∃ K, L = K + 1 := ⟨L - 1, by ring⟩
  rw [sum_Ico_consec (b := K + 1) (by omega) (by omega), sum_Ico_succ_top' (by omega),
    sum_Ico_succ_top' (by omega), if_neg (by omega)]
  have h : ∑ t ∈ Finset.Ico (K + 1) (2 * (K + 1) - 1), F t
      = ∑ t ∈ Finset.Ico 0 K, F (2 * (K + 1) - 1 - 1 - t) := by
    rw [sum_Ico_reflect']; congr 2 <;> ring
  rw [h, add_right_comm, ← Finset.sum_add_distrib]
  congr 1
  apply Finset.sum_congr rfl; intro t ht
  rw [Finset.mem_Ico] at ht
  rw [if_pos (by omega)]

theorem fold_mwss {M : Type*} [AddCommMonoid M] {L : ℤ} (hL : 1 ≤ L) (F : ℤ → M) :
    ∑ t ∈ Finset.Ico 0 (2 * L), F t
      = ∑ t ∈ Finset.Ico 0 (L + 1),
        if 1 ≤ t ∧ t < L then F t + F (2 * L - 1 - (t - 1)) else F t := by
  rw [sum_Ico_consec (b := L + 1) (by omega) (by omega), sum_Ico_succ_top' (by omega),
    sum_Ico_succ_top' (by omega), if_neg (by omega), sum_Ico_bot (show (0 : ℤ) < L by omega) F,
    sum_Ico_bot (show (0 : ℤ) < L by omega) (fun t => if 1 ≤ t ∧ t < L then _ else _),
    if_neg (by omega)]
  have h : ∑ t ∈ Finset.Ico (L + 1) (2 * L), F t
      = ∑ t ∈ Finset.Ico (0 + 1) L, F (2 * L - 1 - (t - 1)) := by
    have := sum_Ico_reflect' (0 + 1) L (2 * L) F
    rw [show 2 * L - L + 1 = L + 1 by ring, show 2 * L - (0 + 1) + 1 = 2 * L by ring] at this
    rw [← this]
    apply Finset.sum_congr rfl; intro t _; congr 1; ring
  have h2 : ∑ t ∈ Finset.Ico (0 + 1) L,
      (if 1 ≤ t ∧ t < L then F t + F (2 * L - 1 - (t - 1)) else F t)
      = ∑ t ∈ Finset.Ico (0 + 1) L, F t + ∑ t ∈ Finset.Ico (0 + 1) L, F (2 * L - 1 - (t - 1)) := by
    rw [← Finset.sum_add_distrib]
    apply Finset.sum_congr rfl; intro t ht
    rw [Finset.mem_Ico] at ht
    rw [if_pos (by omega)]
  rw [h, h2]
  abel

/-- `quad_weights_mw_theta_only` integrates over `[0, π]` exactly. -/
theorem quad_mw_exact {L : ℤ} (hL : 1 ≤ L) (spin : ℤ) (c : ℤ → ℂ)
    (hc : ∀ k, c (-k) = (-1) ^ spin * c k) :
    ∑ t ∈ Finset.Ico 0 L, (quad_weights_mw_theta_only L spin t : ℂ) *
        trigPoly L c ((2 * t + 1) * Real.pi / (2 * L - 1))
      = ∫ θ in (0 : ℝ)..Real.pi, trigPoly L c θ * (Real.sin θ : ℂ) := by
  rw [integral_trigPoly, ← mw_wr_exact hL c, fold_mw hL]
  apply Finset.sum_congr rfl; intro t ht
  rw [quad_weights_mw_theta_only]
  split_ifs with h
  · have h0 : (2 * (L : ℝ) - 1) ≠ 0 := by
      have : (1 : ℝ) ≤ L := by exact_mod_cast hL
      linarith
    have h1 : ((2 * ((2 * L - 1 - 1 - t : ℤ) : ℝ) + 1) * Real.pi / (2 * L - 1))
        = 2 * Real.pi - (2 * t + 1) * Real.pi / (2 * L - 1) := by
      push_cast; field_simp; ring
    rw [h1, trigPoly_reflect hc]
    push_cast; ring
  · rfl

/-- `quad_weights_mwss_theta_only` integrates over `[0, π]` exactly. -/
theorem quad_mwss_exact {L : ℤ} (hL : 1 ≤ L) (spin : ℤ) (c : ℤ → ℂ)
    (hc : ∀ k, c (-k) = (-1) ^ spin * c k) :
    ∑ t ∈ Finset.Ico 0 (L + 1), (quad_weights_mwss_theta_only L spin t : ℂ) *
        trigPoly L c (2 * t * Real.pi / (2 * L))
      = ∫ θ in (0 : ℝ)..Real.pi, trigPoly L c θ * (Real.sin θ : ℂ) := by
  rw [integral_trigPoly, ← mwss_wr_exact hL c, fold_mwss hL]
  apply Finset.sum_congr rfl; intro t ht
  rw [quad_weights_mwss_theta_only]
  split_ifs with h
  · have h0 : (L : ℝ) ≠ 0 := by exact_mod_cast (show L ≠ 0 by omega)
    have h1 : (2 * ((2 * L - 1 - (t - 1) : ℤ) : ℝ) * Real.pi / (2 * L))
        = 2 * Real.pi - 2 * t * Real.pi / (2 * L) := by
      push_cast; field_simp; ring
    rw [h1, trigPoly_reflect hc]
    push_cast; ring
  · rfl

/-! ## DH -/

theorem dh_w_eq (θ : ℝ) (L : ℤ) : quad_weight_dh_theta_only θ L =
    (∑ k ∈ Finset.Ico 0 L, Real.sin ((2 * k + 1) * θ) / (2 * k + 1)) *
      (2 / L * Real.sin θ) := by
  unfold quad_weight_dh_theta_only
  have := forRange_sum 0 L (fun k w => w + Real.sin ((2 * (k : ℝ) + 1) * θ) / (2 * k + 1))
    (0 : ℝ) id (fun k => Real.sin ((2 * (k : ℝ) + 1) * θ) / (2 * k + 1)) (by intros; rfl)
  simp only [id] at this
  rw [this, zero_add]

theorem sum_Ioo_succ {M : Type*} [AddCommMonoid M] {N : ℤ} (hN : 1 ≤ N) (f : ℤ → M) :
    ∑ k ∈ Finset.Ioo (-(N + 1)) (N + 1), f k = ∑ k ∈ Finset.Ioo (-N) N, f k + (f N + f (-N)) := by
  rw [show Finset.Ioo (-(N + 1)) (N + 1) = insert N (insert (-N) (Finset.Ioo (-N) N)) by
    ext x; simp only [Finset.mem_Ioo, Finset.mem_insert]; omega,
    Finset.sum_insert (by simp; omega), Finset.sum_insert (by simp)]
  abel

theorem sum_Ioo_one {M : Type*} [AddCommMonoid M] (f : ℤ → M) :
    ∑ k ∈ Finset.Ioo (-1) 1, f k = f 0 := by
  rw [show Finset.Ioo (-1 : ℤ) 1 = {0} by decide, Finset.sum_singleton]

theorem sum_Ioo_even {M : Type*} [AddCommMonoid M] (L : ℤ) (f : ℤ → M) :
    ∑ k ∈ Finset.Ioo (-(2 * L)) (2 * L), (if k % 2 = 0 then f k else 0)
      = ∑ j ∈ Finset.Ioo (-L) L, f (2 * j) := by
  rw [← Finset.sum_filter]
  symm
  apply Finset.sum_bij (fun j _ => 2 * j)
  · intro a ha; simp at ha ⊢; omega
  · intro a _ b _ h; simpa using h
  · intro b hb; simp at hb; exact ⟨b / 2, by simp; omega, by omega⟩
  · intro a _; rfl

theorem cos_cis (x : ℝ) : cis x + cis (-x) = ((2 * Real.cos x : ℝ) : ℂ) := by
  rw [cis_eq, cis_eq]; push_cast; rw [Complex.cos_neg, Complex.sin_neg]; ring

theorem dh_sum (θ : ℝ) {L : ℤ} (hL : 1 ≤ L) :
    (((∑ k ∈ Finset.Ico 0 L, Real.sin ((2 * k + 1) * θ) / (2 * k + 1)) * (2 * Real.sin θ) : ℝ) : ℂ)
      = ∑ j ∈ Finset.Ioo (-L) L, cis (-((2 * j : ℤ) * θ)) / (1 - 4 * (j : ℂ) ^ 2)
        - ((Real.cos (2 * L * θ) / (2 * L - 1) : ℝ) : ℂ) := by
  obtain ⟨n, rfl⟩ : ∃ n : ℕ, L = 1 + n := ⟨(L - 1).toNat, by omega⟩
  clear hL
  induction n with
  | zero =>
    have : Finset.Ico (0 : ℤ) (1 + (0 : ℕ)) = {0} := by decide
    rw [this, Finset.sum_singleton, show (1 + ((0 : ℕ) : ℤ)) = 1 by simp, sum_Ioo_one]
    simp [cis]
    have h2 := Complex.cos_two_mul (θ : ℂ)
    have h3 := Complex.sin_sq_add_cos_sq (θ : ℂ)
    norm_num
    rw [h2]
    linear_combination (2 : ℂ) * h3
  | succ n ih =>
    set N : ℤ := 1 + n with hN
    rw [show (1 + ((n + 1 : ℕ) : ℤ)) = N + 1 by push_cast; ring, sum_Ico_succ_top' (by omega),
      sum_Ioo_succ (by omega), add_mul, Complex.ofReal_add, ih]
    have hN1 : (1 : ℝ) ≤ N := by exact_mod_cast (show (1 : ℤ) ≤ N by omega)
    have e1 : (2 * (N : ℝ) - 1) ≠ 0 := by linarith
    have e2 : (2 * (N : ℝ) + 1) ≠ 0 := by linarith
    have e3 : (1 - 4 * (N : ℝ) ^ 2) ≠ 0 := by nlinarith
    have hc : cis (-((2 * N : ℤ) * θ)) / (1 - 4 * (N : ℂ) ^ 2)
        + cis (-((2 * -N : ℤ) * θ)) / (1 - 4 * ((-N : ℤ) : ℂ) ^ 2)
        = ((2 * Real.cos (2 * N * θ) / (1 - 4 * (N : ℝ) ^ 2) : ℝ) : ℂ) := by
      have := cos_cis (2 * N * θ)
      rw [show -(((2 * -N : ℤ) : ℝ) * θ) = 2 * N * θ by push_cast; ring,
        show -(((2 * N : ℤ) : ℝ) * θ) = -(2 * N * θ) by push_cast; ring]
      push_cast at this ⊢
      rw [neg_sq, ← add_div, add_comm, this]
    have hs : Real.sin ((2 * N + 1) * θ) * (2 * Real.sin θ)
        = Real.cos (2 * N * θ) - Real.cos (2 * (N + 1) * θ) := by
      have a := Real.cos_sub ((2 * N + 1) * θ) θ
      have b := Real.cos_add ((2 * N + 1) * θ) θ
      rw [show (2 * (N : ℝ) + 1) * θ - θ = 2 * N * θ by ring] at a
      rw [show (2 * (N : ℝ) + 1) * θ + θ = 2 * (N + 1) * θ by ring] at b
      rw [a, b]; ring
    rw [hc, show Real.sin ((2 * (N : ℝ) + 1) * θ) / (2 * N + 1) * (2 * Real.sin θ)
      = (Real.cos (2 * N * θ) - Real.cos (2 * (N + 1) * θ)) / (2 * N + 1) by rw [← hs]; ring]
    have : (Real.cos (2 * N * θ) - Real.cos (2 * (N + 1) * θ)) / (2 * N + 1)
        = 2 * Real.cos (2 * N * θ) / (1 - 4 * (N : ℝ) ^ 2) + Real.cos (2 * N * θ) / (2 * N - 1)
          - Real.cos (2 * (N + 1) * θ) / (2 * N + 1) := by
      have e4 : (1 - 4 * (N : ℝ) ^ 2) = -((2 * N - 1) * (2 * N + 1)) := by ring
      rw [e4]
      field_simp
      ring
    rw [this]
    push_cast
    rw [show (2 * ((N : ℂ) + 1) - 1) = 2 * N + 1 by ring]
    ring

/-- `quad_weights_dh` (the `θ` part) integrates over `[0, π]` exactly, up to degree `2 L - 1`. -/
theorem quad_dh_exact {L : ℤ} (hL : 1 ≤ L) (c : ℤ → ℂ) (hc : ∀ k, c (-k) = c k) :
    ∑ t ∈ Finset.Ico 0 (2 * L),
        (quad_weight_dh_theta_only ((2 * t + 1) * Real.pi / (4 * L)) L : ℂ) *
        trigPoly (2 * L) c ((2 * t + 1) * Real.pi / (4 * L))
      = ∫ θ in (0 : ℝ)..Real.pi, trigPoly (2 * L) c θ * (Real.sin θ : ℂ) := by
  have hL0 : (L : ℝ) ≠ 0 := by exact_mod_cast (show L ≠ 0 by omega)
  have hLc : (L : ℂ) ≠ 0 := by exact_mod_cast (show L ≠ 0 by omega)
  set w' : ℤ → ℂ := fun k => if k % 2 = 0 then 2 / (1 - (k : ℂ) ^ 2) else 0 with hw'
  have hθ : ∀ t : ℤ, ((2 * t + 1) * Real.pi / (4 * L) : ℝ) =
      Real.pi / (4 * L) + 2 * Real.pi * t / (4 * L : ℤ) := by
    intro t; push_cast; field_simp; ring
  have hdh : ∀ t : ℤ, (quad_weight_dh_theta_only ((2 * t + 1) * Real.pi / (4 * L)) L : ℂ) / 2
      = (∑ k ∈ Finset.Ioo (-(2 * L)) (2 * L), w' k *
        cis (-(k * (Real.pi / (4 * L) + 2 * Real.pi * t / (4 * L : ℤ))))) / (4 * L : ℤ) := by
    intro t
    have h1 : ∀ k ∈ Finset.Ioo (-(2 * L)) (2 * L), w' k *
        cis (-(k * (Real.pi / (4 * L) + 2 * Real.pi * t / (4 * L : ℤ))))
        = if k % 2 = 0 then 2 / (1 - (k : ℂ) ^ 2) *
          cis (-(k * ((2 * t + 1) * Real.pi / (4 * L)))) else 0 := by
      intro k _
      rw [hw', hθ]; simp only; split_ifs <;> simp
    rw [Finset.sum_congr rfl h1, sum_Ioo_even L (fun k => 2 / (1 - (k : ℂ) ^ 2) *
      cis (-(k * ((2 * t + 1) * Real.pi / (4 * L)))))]
    have h2 := dh_sum ((2 * t + 1) * Real.pi / (4 * L)) hL
    have h3 : Real.cos (2 * L * ((2 * t + 1) * Real.pi / (4 * L))) = 0 := by
      rw [Real.cos_eq_zero_iff]
      exact ⟨t, by field_simp; ring⟩
    rw [h3, zero_div, Complex.ofReal_zero, sub_zero] at h2
    rw [dh_w_eq]
    have h4 : ∑ j ∈ Finset.Ioo (-L) L, 2 / (1 - ((2 * j : ℤ) : ℂ) ^ 2) *
        cis (-((2 * j : ℤ) * ((2 * t + 1) * Real.pi / (4 * L))))
        = 2 * ∑ j ∈ Finset.Ioo (-L) L, cis (-((2 * j : ℤ) * ((2 * t + 1) * Real.pi / (4 * L)))) /
          (1 - 4 * (j : ℂ) ^ 2) := by
      rw [Finset.mul_sum]
      apply Finset.sum_congr rfl; intro j _
      push_cast
      rw [show (1 - (2 * (j : ℂ)) ^ 2) = 1 - 4 * (j : ℂ) ^ 2 by ring]
      ring
    rw [h4, ← h2]
    generalize (∑ k ∈ Finset.Ico 0 L, Real.sin ((2 * (k : ℝ) + 1) *
      ((2 * t + 1) * Real.pi / (4 * L))) / (2 * k + 1)) = S
    generalize Real.sin ((2 * t + 1) * Real.pi / (4 * L)) = σ
    push_cast
    field_simp
    ring
  have key := grid_rule (n := 4 * L) (L := 2 * L) (by omega) (by omega) (Real.pi / (4 * L)) w' c
    (fun t => (quad_weight_dh_theta_only ((2 * t + 1) * Real.pi / (4 * L)) L : ℂ) / 2) hdh
  have hsum : ∑ k ∈ Finset.Ioo (-(2 * L)) (2 * L), c k * w' k
      = ∑ k ∈ Finset.Ioo (-(2 * L)) (2 * L), c k * mw_weights k := by
    have e1 : ∑ k ∈ Finset.Ioo (-(2 * L)) (2 * L), c k * mw_weights k
        = ∑ k ∈ Finset.Ioo (-(2 * L)) (2 * L), c k * mw_weights (-k) := by
      rw [← sum_Ioo_neg]; apply Finset.sum_congr rfl; intro k _; rw [hc]
    have e2 : ∑ k ∈ Finset.Ioo (-(2 * L)) (2 * L), c k * mw_weights k
        = ∑ k ∈ Finset.Ioo (-(2 * L)) (2 * L), (c k * mw_weights k + c k * mw_weights (-k)) / 2 := by
      rw [← Finset.sum_div, Finset.sum_add_distrib, ← e1]; ring
    rw [e2]
    apply Finset.sum_congr rfl; intro k _
    rw [hw']
    simp only [mw_weights]
    by_cases h1 : k = 1
    · subst h1; norm_num; ring
    by_cases h2 : k = -1
    · subst h2; norm_num; ring
    rw [if_neg h1, if_neg h2, if_neg (show ¬ -k = 1 by omega), if_neg (show ¬ -k = -1 by omega)]
    by_cases h3 : k % 2 = 0
    · rw [if_pos h3, if_pos (show -k % 2 = 0 by omega)]; push_cast; ring
    · rw [if_neg h3, if_neg (show ¬ -k % 2 = 0 by omega)]; simp
  rw [integral_trigPoly, ← hsum, ← key,
    sum_Ico_consec (a := 0) (b := 2 * L) (c := 4 * L) (by omega) (by omega)]
  have hrefl : ∑ t ∈ Finset.Ico (2 * L) (4 * L),
      (quad_weight_dh_theta_only ((2 * t + 1) * Real.pi / (4 * L)) L : ℂ) / 2 *
        trigPoly (2 * L) c (Real.pi / (4 * L) + 2 * Real.pi * t / (4 * L : ℤ))
      = ∑ t ∈ Finset.Ico 0 (2 * L),
      (quad_weight_dh_theta_only ((2 * t + 1) * Real.pi / (4 * L)) L : ℂ) / 2 *
        trigPoly (2 * L) c (Real.pi / (4 * L) + 2 * Real.pi * t / (4 * L : ℤ)) := by
    have := sum_Ico_reflect' 0 (2 * L) (4 * L - 1) (fun t : ℤ =>
      (quad_weight_dh_theta_only ((2 * t + 1) * Real.pi / (4 * L)) L : ℂ) / 2 *
        trigPoly (2 * L) c (Real.pi / (4 * L) + 2 * Real.pi * t / (4 * L : ℤ)))
    rw [show 4 * L - 1 - 2 * L + 1 = 2 * L by ring, show 4 * L - 1 - 0 + 1 = 4 * L by ring] at this
    rw [← this]
    apply Finset.sum_congr rfl; intro t _
    rw [← hθ, ← hθ]
    have h1 : ((2 * ((4 * L - 1 - t : ℤ) : ℝ) + 1) * Real.pi / (4 * L))
        = 2 * Real.pi - (2 * t + 1) * Real.pi / (4 * L) := by
      push_cast; field_simp; ring
    rw [h1, trigPoly_reflect (e := 0) (by simpa using hc)]
    have h2 : ∀ x : ℝ, quad_weight_dh_theta_only (2 * Real.pi - x) L
        = quad_weight_dh_theta_only x L := by
      intro x
      rw [dh_w_eq, dh_w_eq, Real.sin_two_pi_sub]
      have : ∀ k ∈ Finset.Ico 0 L, Real.sin ((2 * (k : ℝ) + 1) * (2 * Real.pi - x)) / (2 * k + 1)
          = - (Real.sin ((2 * (k : ℝ) + 1) * x) / (2 * k + 1)) := by
        intro k _
        rw [show (2 * (k : ℝ) + 1) * (2 * Real.pi - x)
          = ((2 * k + 1 : ℤ) : ℝ) * (2 * Real.pi) - (2 * k + 1) * x by push_cast; ring,
          Real.sin_int_mul_two_pi_sub]
        ring
      rw [Finset.sum_congr rfl this, Finset.sum_neg_distrib]
      ring
    rw [h2]
    simp
  rw [hrefl, ← Finset.sum_add_distrib]
  apply Finset.sum_congr rfl; intro t _
  rw [← hθ]
  ring

/-! ## Over the sphere -/

/-- Equally spaced sums over `φ` pick order 0. -/
theorem sum_phi {K M n : ℤ} (hM : 1 ≤ M) (hn : M ≤ n) (F : ℤ → ℤ → ℂ) (θ : ℝ) :
    ∑ p ∈ Finset.Ico 0 n, sphSignal K M F θ (2 * p * Real.pi / n) = n * trigPoly K (F 0) θ := by
  have hn0 : (0 : ℤ) < n := by omega
  unfold sphSignal
  rw [Finset.sum_comm]
  have h : ∀ m ∈ Finset.Ioo (-M) M, ∑ p ∈ Finset.Ico 0 n, trigPoly K (F m) θ *
      cis (m * (2 * p * Real.pi / n)) = if m = 0 then n * trigPoly K (F 0) θ else 0 := by
    intro m hm
    rw [Finset.mem_Ioo] at hm
    rw [← Finset.mul_sum]
    have h1 : ∀ p ∈ Finset.Ico 0 n, cis (m * (2 * (p : ℝ) * Real.pi / n)) = tw n (p * m) := by
      intro p _; rw [tw]; congr 1; push_cast; ring
    rw [Finset.sum_congr rfl h1, sum_tw hn0]
    by_cases h2 : m = 0
    · subst h2; simp; ring
    · rw [if_neg h2, if_neg, mul_zero]
      intro hd
      rcases lt_or_gt_of_ne h2 with h3 | h3
      · have := Int.le_of_dvd (by omega) (dvd_neg.2 hd); omega
      · have := Int.le_of_dvd (by omega) hd; omega
  rw [Finset.sum_congr rfl h, Finset.sum_ite_eq', if_pos (by simp; omega)]

theorem sphIntegral_eq {K M : ℤ} (hM : 1 ≤ M) (F : ℤ → ℤ → ℂ) :
    sphIntegral (sphSignal K M F) =
      2 * Real.pi * ∫ θ in (0 : ℝ)..Real.pi, trigPoly K (F 0) θ * (Real.sin θ : ℂ) := by
  unfold sphIntegral
  have h : ∀ θ : ℝ, ∫ φ in (0 : ℝ)..(2 * Real.pi), sphSignal K M F θ φ
      = 2 * Real.pi * trigPoly K (F 0) θ := by
    intro θ
    unfold sphSignal
    rw [intervalIntegral.integral_finset_sum]
    · simp only [intervalIntegral.integral_const_mul, integral_cis_two_pi]
      rw [show ∑ x ∈ Finset.Ioo (-M) M, (trigPoly K (F x) θ * if x = 0 then 2 * (Real.pi : ℂ) else 0)
        = ∑ x ∈ Finset.Ioo (-M) M, (if x = 0 then 2 * (Real.pi : ℂ) * trigPoly K (F 0) θ else 0) by
          apply Finset.sum_congr rfl; intro x _; split_ifs with h
          · subst h; ring
          · simp]
      rw [Finset.sum_ite_eq', if_pos (by simp; omega)]
    · intro m _
      exact ((continuous_const.mul (continuous_cis_mul m))).intervalIntegrable _ _
  simp only [h, mul_assoc]
  rw [intervalIntegral.integral_const_mul, intervalIntegral.integral_const_mul]

/-- A `θ` rule exact for order 0 gives a rule exact on the sphere. -/
theorem sphere_rule {K M n nt : ℤ} (hM : 1 ≤ M) (hn : M ≤ n) (F : ℤ → ℤ → ℂ) (q : ℤ → ℝ)
    (θ : ℤ → ℝ)
    (h : ∑ t ∈ Finset.Ico 0 nt, (q t : ℂ) * trigPoly K (F 0) (θ t)
      = ∫ θ in (0 : ℝ)..Real.pi, trigPoly K (F 0) θ * (Real.sin θ : ℂ)) :
    ∑ t ∈ Finset.Ico 0 nt, ∑ p ∈ Finset.Ico 0 n,
        ((q t * 2 * Real.pi / n : ℝ) : ℂ) * sphSignal K M F (θ t) (2 * p * Real.pi / n)
      = sphIntegral (sphSignal K M F) := by
  have hn0 : (n : ℂ) ≠ 0 := by exact_mod_cast (show n ≠ 0 by omega)
  rw [sphIntegral_eq hM, ← h, Finset.mul_sum]
  apply Finset.sum_congr rfl; intro t _
  rw [← Finset.mul_sum, sum_phi hM hn]
  push_cast
  field_simp

end S2fft
