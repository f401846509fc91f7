import Verif.Lemmas.Quadrature
import Verif.Model.Resampling

/-! # Lemmas for resampling -/

namespace S2fft
open Spec

/-- `fft` only reads the `n` entries. -/
theorem fft_congr {n : ℤ} {x y : ℤ → ℂ} (h : ∀ j, 0 ≤ j → j < n → x j = y j) (k : ℤ) :
    fft n x k = fft n y k := by
  unfold fft
  apply Finset.sum_congr rfl; intro j hj
  rw [Finset.mem_Ico] at hj
  rw [h j hj.1 hj.2]

theorem conjFft_eq {n : ℤ} (hn : 0 < n) (x : ℤ → ℂ) (p : ℤ) :
    conjFft n x p = ifft_fwd n (ifftshift n x) p := by
  unfold conjFft
  rw [fft_ifftshift hn, ifft_fwd_ifftshift hn, map_sum]
  apply Finset.sum_congr rfl; intro i _
  rw [map_mul, Complex.conj_conj, conj_tw, neg_neg]

/-- Spectrum of a sampled trigonometric polynomial. -/
theorem fft_trig {n L : ℤ} (hn : 0 < n) (α : ℝ) (c : ℤ → ℂ) (k : ℤ) :
    fft n (fun t => trigPoly L c (α + 2 * Real.pi * t / n)) k
      = ∑ k' ∈ Finset.Ioo (-L) L, if n ∣ k' - k then n * (c k' * cis (k' * α)) else 0 := by
  rw [fft_eq]
  unfold trigPoly
  simp only [Finset.sum_mul]
  rw [Finset.sum_comm]
  apply Finset.sum_congr rfl; intro k' _
  have h : ∀ t : ℤ, c k' * cis (k' * (α + 2 * Real.pi * t / n)) * tw n (-(t * k))
      = c k' * cis (k' * α) * tw n (t * (k' - k)) := by
    intro t
    rw [mul_assoc (c k'), mul_assoc (c k'), tw, tw, ← cis_add, ← cis_add]; congr 2; push_cast; ring
  simp only [h]
  rw [← Finset.mul_sum, sum_tw hn]
  split_ifs
  · ring
  · ring

theorem fft_trig_in {n L : ℤ} (hn : 2 * L - 1 ≤ n) (α : ℝ) (c : ℤ → ℂ) {k : ℤ}
    (h0 : -L < k) (h1 : k < L) :
    fft n (fun t => trigPoly L c (α + 2 * Real.pi * t / n)) k = n * (c k * cis (k * α)) := by
  rw [fft_trig (by omega), Finset.sum_eq_single k]
  · simp
  · intro k' hk' hne
    rw [Finset.mem_Ioo] at hk'
    rw [if_neg]
    rintro ⟨q, hq⟩
    rcases lt_trichotomy q 0 with h | h | h
    · nlinarith
    · subst h; omega
    · nlinarith
  · intro h; simp at h; omega

theorem fft_trig_out {L : ℤ} (hL : 1 ≤ L) (α : ℝ) (c : ℤ → ℂ) :
    fft (2 * L) (fun t => trigPoly L c (α + 2 * Real.pi * t / (2 * L : ℤ))) (-L) = 0 := by
  rw [fft_trig (by omega)]
  apply Finset.sum_eq_zero
  intro k' hk'
  rw [Finset.mem_Ioo] at hk'
  rw [if_neg]
  rintro ⟨q, hq⟩
  rcases le_or_gt q 0 with h | h
  · nlinarith
  · nlinarith

/-- Inverse transform of a centred spectrum with odd length. -/
theorem ifft_trig_odd {L : ℤ} (hL : 1 ≤ L) (y c : ℤ → ℂ)
    (h : ∀ k, -L < k → k < L → y (k + (L - 1)) = c k) (p : ℤ) :
    ifft_fwd (2 * L - 1) (ifftshift (2 * L - 1) y) p
      = trigPoly L c (2 * Real.pi * p / (2 * L - 1 : ℤ)) := by
  rw [ifft_fwd_ifftshift (by omega), trigPoly, sum_Ioo_eq_Ico]
  apply Finset.sum_congr rfl; intro j hj
  rw [Finset.mem_Ico] at hj
  rw [← h _ (by omega) (by omega), show (2 * L - 1) / 2 = L - 1 by omega, tw]
  congr 2
  · ring
  · push_cast; ring

/-- Inverse transform of a centred spectrum with even length `2 M ≥ 2 L`. -/
theorem ifft_trig_even {L M : ℤ} (hL : 1 ≤ L) (hM : L ≤ M) (y c : ℤ → ℂ)
    (h : ∀ k, -L < k → k < L → y (k + M) = c k)
    (h0 : ∀ k, -M ≤ k → k ≤ -L → y (k + M) = 0) (h1 : ∀ k, L ≤ k → k < M → y (k + M) = 0) (p : ℤ) :
    ifft_fwd (2 * M) (ifftshift (2 * M) y) p = trigPoly L c (2 * Real.pi * p / (2 * M : ℤ)) := by
  rw [ifft_fwd_ifftshift (by omega), trigPoly,
    show Finset.Ico 0 (2 * M) = Finset.Ico (-M + M) (M + M) by congr 1 <;> ring, sum_Ico_shift]
  symm
  apply Finset.sum_subset_zero_on_sdiff
  · intro k hk; simp only [Finset.mem_Ioo, Finset.mem_Ico] at hk ⊢; omega
  · intro k hk
    simp only [Finset.mem_sdiff, Finset.mem_Ioo, Finset.mem_Ico] at hk
    rcases le_or_gt k (-L) with hk' | hk'
    · rw [h0 k (by omega) hk', zero_mul]
    · rw [h1 k (by omega) (by omega), zero_mul]
  · intro k hk
    rw [Finset.mem_Ioo] at hk
    rw [h k hk.1 hk.2, show 2 * M / 2 = M by omega, tw]
    congr 2
    push_cast; ring

theorem ifft_ifftshift_fftshift_fft {n : ℤ} (hn : 0 < n) (x : ℤ → ℂ) {p : ℤ} (h0 : 0 ≤ p)
    (h1 : p < n) : ifft n (ifftshift n (fftshift n (fft n x))) p = x p := by
  rw [← ifft_fft hn x h0 h1]
  congr 1
  ext k
  unfold ifftshift
  rw [fftshift_fft hn, ← fft_periodic hn.ne' x k, ← fft_periodic hn.ne']
  congr 1
  rw [Int.emod_sub_emod, add_sub_cancel_right]

theorem sphSignal_eq_trig (K M : ℤ) (F : ℤ → ℤ → ℂ) (θ φ : ℝ) :
    sphSignal K M F θ φ = trigPoly M (fun m => trigPoly K (F m) θ) φ := rfl

theorem sphSignal_eq_trig' (K M : ℤ) (F : ℤ → ℤ → ℂ) (θ φ : ℝ) :
    sphSignal K M F θ φ
      = trigPoly K (fun k => ∑ m ∈ Finset.Ioo (-M) M, F m k * cis (m * φ)) θ := by
  unfold sphSignal trigPoly
  simp only [Finset.sum_mul]
  rw [Finset.sum_comm]
  apply Finset.sum_congr rfl; intro k _
  apply Finset.sum_congr rfl; intro m _
  ring

theorem negOne_natAbs (k : ℤ) : (-1 : ℂ) ^ k.natAbs = (-1) ^ k := by
  rcases Int.natAbs_eq k with h | h
  · conv_rhs => rw [h]
    rw [zpow_natCast]
  · conv_rhs => rw [h]
    rw [zpow_neg, zpow_natCast, ← inv_pow, inv_neg_one]

/-- The rows of the MW periodic extension. -/
theorem extensionRows_mw (L : ℤ) (f : ℤ → ℤ → ℤ → ℂ) (spin : ℤ → ℤ) (b t j : ℤ)
    (t0 : 0 ≤ t) (t1 : t < 2 * L - 1) (j0 : 0 ≤ j) (j1 : j < 2 * L - 1) :
    extensionRows L L (2 * L - 1) 0 f spin b t j =
      if t < L then fftshift (2 * L - 1) (fft (2 * L - 1) (f b t)) j
      else (-1) ^ (j - (L - 1) + spin b) *
        fftshift (2 * L - 1) (fft (2 * L - 1) (f b (2 * L - 2 - t))) j := by
  unfold extensionRows
  simp only
  by_cases h : t < L
  · simp only [show ¬ (L + 0 ≤ t ∧ t < 2 * L - 1 + 0 ∧ 0 ≤ j ∧ j < 2 * L - 1 + 0) by omega, h,
      if_false, if_true]
  · simp only [show (L + 0 ≤ t ∧ t < 2 * L - 1 + 0 ∧ 0 ≤ j ∧ j < 2 * L - 1 + 0) ↔ True by
        rw [iff_true]; omega, h, if_false, if_true,
      show L - 1 + 0 - 1 - (t - (L + 0)) = 2 * L - 2 - t by ring, negOne_natAbs,
      show 2 * L - 2 - t < L by omega]
    rw [show -(L - 1) + (j - 0) = j - (L - 1) by ring, zpow_add₀ (show (-1 : ℂ) ≠ 0 by norm_num)]
    ring

/-- The rows of the MWSS periodic extension. -/
theorem extensionRows_mwss (L : ℤ) (f : ℤ → ℤ → ℤ → ℂ) (spin : ℤ → ℤ) (b t j : ℤ)
    (t0 : 0 ≤ t) (t1 : t < 2 * L) (j0 : 0 ≤ j) (j1 : j < 2 * L) :
    extensionRows L (L + 1) (2 * L) 1 f spin b t j =
      if t ≤ L then fftshift (2 * L) (fft (2 * L) (f b t)) j
      else if j = 0 then 0 else (-1) ^ (j - L + spin b) *
        fftshift (2 * L) (fft (2 * L) (f b (2 * L - t))) j := by
  unfold extensionRows
  simp only
  by_cases h : t ≤ L
  · simp only [show ¬ (L + 1 ≤ t ∧ t < 2 * L - 1 + 1 ∧ 1 ≤ j ∧ j < 2 * L - 1 + 1) by omega, h,
      show t < L + 1 by omega, if_false, if_true]
  · by_cases hj : j = 0
    · simp only [show ¬ (L + 1 ≤ t ∧ t < 2 * L - 1 + 1 ∧ 1 ≤ j ∧ j < 2 * L - 1 + 1) by omega, h, hj,
        show ¬ t < L + 1 by omega, if_false, if_true]
      unfold fftshift fft; simp
    · simp only [show (L + 1 ≤ t ∧ t < 2 * L - 1 + 1 ∧ 1 ≤ j ∧ j < 2 * L - 1 + 1) ↔ True by
          rw [iff_true]; omega, h, hj, if_false, if_true,
        show L - 1 + 1 - 1 - (t - (L + 1)) = 2 * L - t by ring, negOne_natAbs,
        show 2 * L - t < L + 1 by omega]
      rw [show -(L - 1) + (j - 1) = j - L by ring, zpow_add₀ (show (-1 : ℂ) ≠ 0 by norm_num)]
      ring

theorem extensionSizes_mw (L : ℤ) : extensionSizes L sMW = .ok (L, 2 * L - 1, 2 * L - 1, 0) := rfl
theorem extensionSizes_mwss (L : ℤ) : extensionSizes L sMWSS = .ok (L + 1, 2 * L, 2 * L, 1) := rfl

theorem mw_theta_reflect {L : ℤ} (hL : 1 ≤ L) (t : ℤ) :
    Real.pi / (2 * L - 1) + 2 * Real.pi * ((2 * L - 2 - t : ℤ) : ℝ) / ((2 * L - 1 : ℤ) : ℝ)
      = 2 * Real.pi - (Real.pi / (2 * L - 1) + 2 * Real.pi * t / ((2 * L - 1 : ℤ) : ℝ)) := by
  have : (2 * (L : ℝ) - 1) ≠ 0 := by
    have : (1 : ℝ) ≤ L := by exact_mod_cast hL
    linarith
  push_cast; field_simp; ring

/-- The MW extension of a sampled band-limited signal is the signal sampled on `[0, 2π)`. -/
theorem extension_mw_signal {L : ℤ} (hL : 1 ≤ L) (F : ℤ → ℤ → ℤ → ℂ) (spin : ℤ → ℤ) (b : ℤ)
    (hF : PoleParity (spin b) (F b)) (f : ℤ → ℤ → ℤ → ℂ)
    (hf : ∀ t p, 0 ≤ t → t < L → 0 ≤ p → p < 2 * L - 1 → f b t p = sphSignal L L (F b)
      (Real.pi / (2 * L - 1) + 2 * Real.pi * t / ((2 * L - 1 : ℤ) : ℝ))
      (2 * Real.pi * p / ((2 * L - 1 : ℤ) : ℝ)))
    (t p : ℤ) (t0 : 0 ≤ t) (t1 : t < 2 * L - 1) :
    ifft (2 * L - 1) (ifftshift (2 * L - 1) (extensionRows L L (2 * L - 1) 0 f spin b t)) p
      = sphSignal L L (F b) (Real.pi / (2 * L - 1) + 2 * Real.pi * t / ((2 * L - 1 : ℤ) : ℝ))
        (2 * Real.pi * p / ((2 * L - 1 : ℤ) : ℝ)) := by
  have hn : ((2 * L - 1 : ℤ) : ℂ) ≠ 0 := by exact_mod_cast (show 2 * L - 1 ≠ 0 by omega)
  have hspec : ∀ t', 0 ≤ t' → t' < L → ∀ m, -L < m → m < L →
      fft (2 * L - 1) (f b t') m = (2 * L - 1 : ℤ) * trigPoly L (F b m)
        (Real.pi / (2 * L - 1) + 2 * Real.pi * t' / ((2 * L - 1 : ℤ) : ℝ)) := by
    intro t' a1 a2 m m0 m1
    have := fft_trig_in (n := 2 * L - 1) le_rfl 0 (fun m => trigPoly L (F b m)
      (Real.pi / (2 * L - 1) + 2 * Real.pi * t' / ((2 * L - 1 : ℤ) : ℝ))) m0 m1
    rw [mul_zero, cis_zero, mul_one] at this
    rw [← this]
    apply fft_congr
    intro j j0 j1
    rw [hf t' j a1 a2 j0 j1, zero_add]
    rfl
  have key := ifft_trig_odd hL (extensionRows L L (2 * L - 1) 0 f spin b t)
    (fun m => (2 * L - 1 : ℤ) * trigPoly L (F b m)
      (Real.pi / (2 * L - 1) + 2 * Real.pi * t / ((2 * L - 1 : ℤ) : ℝ))) (by
    intro m m0 m1
    rw [extensionRows_mw L f spin b t _ t0 t1 (by omega) (by omega)]
    rw [fftshift_fft (by omega), fftshift_fft (by omega),
      show m + (L - 1) - (2 * L - 1) / 2 = m by omega, add_sub_cancel_right]
    split_ifs with h
    · exact hspec t t0 h m m0 m1
    · rw [hspec _ (by omega) (by omega) m m0 m1, mw_theta_reflect hL,
        trigPoly_reflect (e := m + spin b) (fun k => hF m k)]
      have : ((-1 : ℂ) ^ (m + spin b)) * (-1) ^ (m + spin b) = 1 := by
        rw [← mul_zpow]; norm_num
      linear_combination (((2 * L - 1 : ℤ) : ℂ) * trigPoly L (F b m)
        (Real.pi / (2 * L - 1) + 2 * Real.pi * t / ((2 * L - 1 : ℤ) : ℝ))) * this) p
  unfold ifft
  rw [key, sphSignal_eq_trig]
  unfold trigPoly
  rw [Finset.sum_div]
  apply Finset.sum_congr rfl; intro m _
  rw [mul_assoc, mul_div_cancel_left₀ _ hn]

/-- `θ` part of `mw_to_mwss` on a sampled signal. -/
theorem theta_signal {L : ℤ} (hL : 1 ≤ L) (c : ℤ → ℂ) (x : ℤ → ℂ)
    (hx : ∀ t, 0 ≤ t → t < 2 * L - 1 →
      x t = trigPoly L c (Real.pi / (2 * L - 1) + 2 * Real.pi * t / ((2 * L - 1 : ℤ) : ℝ)))
    (y : ℤ → ℂ) (hy0 : y 0 = 0)
    (hy : ∀ j, 1 ≤ j → j < 2 * L → y j =
      fftshift (2 * L - 1) (fft_fwd (2 * L - 1) x) (j - 1)
        * cis (-(((-(L - 1) + (j - 1) : ℤ) : ℝ) * Real.pi / (2 * (L : ℝ) - 1)))) (t : ℤ) :
    ifft_fwd (2 * L) (ifftshift (2 * L) y) t = trigPoly L c (2 * Real.pi * t / ((2 * L : ℤ) : ℝ)) := by
  have hn : ((2 * L - 1 : ℤ) : ℂ) ≠ 0 := by exact_mod_cast (show 2 * L - 1 ≠ 0 by omega)
  refine ifft_trig_even hL le_rfl y c ?_ ?_ (by intro k a b; omega) t
  · intro k k0 k1
    rw [hy _ (by omega) (by omega)]
    have h1 : fftshift (2 * L - 1) (fft_fwd (2 * L - 1) x) (k + L - 1)
        = fft (2 * L - 1) x k / (2 * L - 1 : ℤ) := by
      rw [show fft_fwd (2 * L - 1) x = fun k => fft (2 * L - 1) x k / (2 * L - 1 : ℤ) from rfl]
      change fftshift (2 * L - 1) (fft (2 * L - 1) x) (k + L - 1) / _ = _
      rw [fftshift_fft (by omega)]
      congr 2; omega
    rw [h1, fft_congr (y := fun t => trigPoly L c (Real.pi / (2 * L - 1)
      + 2 * Real.pi * t / ((2 * L - 1 : ℤ) : ℝ))) (fun j a b => hx j a b),
      fft_trig_in le_rfl _ _ k0 k1, mul_div_cancel_left₀ _ hn, mul_assoc, ← cis_add]
    rw [show (k : ℝ) * (Real.pi / (2 * L - 1))
      + -(((-(L - 1) + (k + L - 1) : ℤ) : ℝ) * Real.pi / (2 * (L : ℝ) - 1)) = 0 by
        push_cast; ring, cis_zero, mul_one]
  · intro k a b
    rw [show k + L = 0 by omega, hy0]

/-- `φ` part of `mw_to_mwss` on a sampled signal. -/
theorem phi_signal {L : ℤ} (hL : 1 ≤ L) (c : ℤ → ℂ) (x : ℤ → ℂ)
    (hx : ∀ p, 0 ≤ p → p < 2 * L - 1 → x p = trigPoly L c (2 * Real.pi * p / ((2 * L - 1 : ℤ) : ℝ)))
    (p : ℤ) :
    ifft_fwd (2 * L) (ifftshift (2 * L) (fun j => if 1 ≤ j then
      fftshift (2 * L - 1) (fft_fwd (2 * L - 1) x) (j - 1) else 0)) p
      = trigPoly L c (2 * Real.pi * p / ((2 * L : ℤ) : ℝ)) := by
  have hn : ((2 * L - 1 : ℤ) : ℂ) ≠ 0 := by exact_mod_cast (show 2 * L - 1 ≠ 0 by omega)
  refine ifft_trig_even hL le_rfl _ c ?_ ?_ (by intro k a b; omega) p
  · intro k k0 k1
    simp only [show 1 ≤ k + L by omega, if_true]
    have h1 : fftshift (2 * L - 1) (fft_fwd (2 * L - 1) x) (k + L - 1)
        = fft (2 * L - 1) x k / (2 * L - 1 : ℤ) := by
      rw [show fft_fwd (2 * L - 1) x = fun k => fft (2 * L - 1) x k / (2 * L - 1 : ℤ) from rfl]
      change fftshift (2 * L - 1) (fft (2 * L - 1) x) (k + L - 1) / _ = _
      rw [fftshift_fft (by omega)]
      congr 2; omega
    rw [h1, fft_congr (y := fun p => trigPoly L c (0 + 2 * Real.pi * p / ((2 * L - 1 : ℤ) : ℝ)))
      (fun j a b => by rw [hx j a b, zero_add]),
      fft_trig_in le_rfl _ _ k0 k1, mul_div_cancel_left₀ _ hn, mul_zero, cis_zero, mul_one]
  · intro k a b
    simp only [show ¬ 1 ≤ k + L by omega, if_false]

/-- Upsampling of a sampled trigonometric polynomial. -/
theorem upsample_ext_signal {L : ℤ} (hL : 1 ≤ L) (c : ℤ → ℂ) (g : ℤ → ℤ → ℤ → ℂ) (b p : ℤ)
    (hx : ∀ t, 0 ≤ t → t < 2 * L → g b t p = trigPoly L c (2 * Real.pi * t / ((2 * L : ℤ) : ℝ)))
    (t : ℤ) :
    upsample_by_two_mwss_ext g L b t p
      = trigPoly L c (2 * Real.pi * t / ((2 * (2 * L) : ℤ) : ℝ)) := by
  have hn : ((2 * L : ℤ) : ℂ) ≠ 0 := by exact_mod_cast (show 2 * L ≠ 0 by omega)
  have hs : ∀ k : ℤ, fftshift (2 * L) (fft_fwd (2 * L) (fun t => g b t p)) (k + L)
      = fft (2 * L) (fun t => trigPoly L c (0 + 2 * Real.pi * t / ((2 * L : ℤ) : ℝ))) k
        / (2 * L : ℤ) := by
    intro k
    rw [show fft_fwd (2 * L) (fun t => g b t p)
      = fun k => fft (2 * L) (fun t => g b t p) k / (2 * L : ℤ) from rfl]
    change fftshift (2 * L) (fft (2 * L) (fun t => g b t p)) (k + L) / _ = _
    rw [fftshift_fft (by omega), show k + L - 2 * L / 2 = k by omega]
    congr 1
    apply fft_congr
    intro j a b'; rw [hx j a b', zero_add]
  unfold upsample_by_two_mwss_ext
  refine ifft_trig_even hL (by omega) _ c ?_ ?_ ?_ t
  · intro k k0 k1
    simp only [show L ≤ k + 2 * L ∧ k + 2 * L < 2 * L + L by omega, and_self, if_true]
    rw [show k + 2 * L - L = k + L by ring, hs, fft_trig_in (by omega) _ _ k0 k1,
      mul_div_cancel_left₀ _ hn, mul_zero, cis_zero, mul_one]
  · intro k a b'
    simp only
    split_ifs with h
    · rw [show k + 2 * L - L = -L + L by omega, hs, fft_trig_out hL, zero_div]
    · rfl
  · intro k a b'
    simp only [show ¬ (L ≤ k + 2 * L ∧ k + 2 * L < 2 * L + L) by omega, if_false]

/-- The upsampled signal contains the original samples, whatever they are. -/
theorem upsample_ext_keeps {L : ℤ} (hL : 1 ≤ L) (g : ℤ → ℤ → ℤ → ℂ) (b p : ℤ) (t : ℤ)
    (t0 : 0 ≤ t) (t1 : t < 2 * L) :
    upsample_by_two_mwss_ext g L b (2 * t) p = g b t p := by
  have hn : ((2 * L : ℤ) : ℂ) ≠ 0 := by exact_mod_cast (show 2 * L ≠ 0 by omega)
  rw [← ifft_ifftshift_fftshift_fft (n := 2 * L) (by omega) (fun t => g b t p) t0 t1]
  unfold ifft upsample_by_two_mwss_ext
  rw [ifft_fwd_ifftshift (by omega), ifft_fwd_ifftshift (by omega), Finset.sum_div,
    sum_Ico_consec (a := 0) (b := L) (c := 2 * (2 * L)) (by omega) (by omega),
    sum_Ico_consec (a := L) (b := 2 * L + L) (c := 2 * (2 * L)) (by omega) (by omega),
    Finset.sum_eq_zero (s := Finset.Ico 0 L), Finset.sum_eq_zero (s := Finset.Ico (2 * L + L) _),
    zero_add, add_zero,
    show Finset.Ico L (2 * L + L) = Finset.Ico (0 + L) (2 * L + L) by rw [zero_add], sum_Ico_shift]
  · apply Finset.sum_congr rfl; intro j hj
    rw [Finset.mem_Ico] at hj
    simp only [show L ≤ j + L ∧ j + L < 2 * L + L by omega, and_self, if_true]
    rw [show j + L - L = j by ring, show 2 * (2 * L) / 2 = 2 * L by omega,
      show 2 * L / 2 = L by omega,
      show fft_fwd (2 * L) (fun t => g b t p)
      = fun k => fft (2 * L) (fun t => g b t p) k / (2 * L : ℤ) from rfl]
    change fftshift (2 * L) (fft (2 * L) (fun t => g b t p)) j / _ * _ = _
    have : tw (2 * (2 * L)) ((j + L - 2 * L) * (2 * t)) = tw (2 * L) ((j - L) * t) := by
      unfold tw
      congr 1
      have : (L : ℝ) ≠ 0 := by exact_mod_cast (show L ≠ 0 by omega)
      push_cast; field_simp; ring
    rw [this]; ring
  · intro j hj
    rw [Finset.mem_Ico] at hj
    simp only [show ¬ (L ≤ j ∧ j < 2 * L + L) by omega, if_false, zero_mul]
  · intro j hj
    rw [Finset.mem_Ico] at hj
    simp only [show ¬ (L ≤ j ∧ j < 2 * L + L) by omega, if_false, zero_mul]

/-- The spatial extension of a sampled band-limited signal. -/
theorem spatial_signal {L : ℤ} (hL : 1 ≤ L) (F : ℤ → ℤ → ℤ → ℂ) (spin : ℤ → ℤ) (b : ℤ)
    (hF : PoleParity (spin b) (F b)) (f : ℤ → ℤ → ℤ → ℂ)
    (hf : ∀ t p, 0 ≤ t → t < L + 1 → 0 ≤ p → p < 2 * L → f b t p = sphSignal L L (F b)
      (2 * Real.pi * t / ((2 * L : ℤ) : ℝ)) (2 * Real.pi * p / ((2 * L : ℤ) : ℝ)))
    (t p : ℤ) (t0 : 0 ≤ t) (t1 : t < 2 * L) (p0 : 0 ≤ p) (p1 : p < 2 * L) :
    periodic_extension_spatial_mwss f L spin b t p
      = sphSignal L L (F b) (2 * Real.pi * t / ((2 * L : ℤ) : ℝ))
          (2 * Real.pi * p / ((2 * L : ℤ) : ℝ)) := by
  have hL0 : (L : ℝ) ≠ 0 := by exact_mod_cast (show L ≠ 0 by omega)
  unfold periodic_extension_spatial_mwss
  split_ifs with h
  · exact hf t p t0 h p0 p1
  · unfold fftshift
    have hq0 := Int.emod_nonneg (p - 2 * L / 2) (show 2 * L ≠ 0 by omega)
    have hq1 := Int.emod_lt_of_pos (p - 2 * L / 2) (show 0 < 2 * L by omega)
    rw [hf _ _ (by omega) (by omega) hq0 hq1]
    obtain ⟨e, he⟩ : ∃ e, (p - 2 * L / 2) % (2 * L) = p - L + 2 * L * e :=
      ⟨-((p - L) / (2 * L)), by
        have := Int.emod_add_mul_ediv (p - L) (2 * L)
        rw [show 2 * L / 2 = L by omega]; linarith⟩
    rw [he]
    unfold sphSignal
    rw [negOne_natAbs, Finset.mul_sum]
    apply Finset.sum_congr rfl; intro m _
    have h1 : (2 * Real.pi * ((L - 1 - (t - (L + 1)) : ℤ) : ℝ) / ((2 * L : ℤ) : ℝ))
        = 2 * Real.pi - 2 * Real.pi * t / ((2 * L : ℤ) : ℝ) := by
      push_cast; field_simp; ring
    have h2 : (m : ℝ) * (2 * Real.pi * ((p - L + 2 * L * e : ℤ) : ℝ) / ((2 * L : ℤ) : ℝ))
        = m * (2 * Real.pi * p / ((2 * L : ℤ) : ℝ)) + (Real.pi * ((-m : ℤ) : ℝ)
          + 2 * Real.pi * ((m * e : ℤ) : ℝ)) := by
      push_cast; field_simp; ring
    rw [h1, trigPoly_reflect (e := m + spin b) (fun k => hF m k), h2, cis_add, cis_add,
      cis_two_pi_int, mul_one, cis_pi_int, zpow_neg, ← inv_zpow, inv_neg_one,
      zpow_add₀ (by norm_num)]
    have a1 : ((-1 : ℂ) ^ m) * (-1) ^ m = 1 := by rw [← mul_zpow]; norm_num
    have a2 : ((-1 : ℂ) ^ spin b) * (-1) ^ spin b = 1 := by rw [← mul_zpow]; norm_num
    linear_combination (trigPoly L (F b m) (2 * Real.pi * t / ((2 * L : ℤ) : ℝ)) *
      cis (m * (2 * Real.pi * p / ((2 * L : ℤ) : ℝ)))) * (a2 * ((-1) ^ m * (-1) ^ m) + a1)

theorem unextend_mw (L : ℤ) (e : ℤ → ℤ → ℤ → ℂ) :
    unextend (2 * L - 1) e L sMW = .ok (L, e) := by
  simp [unextend, ntheta_extension, show lower sMW = sMW from rfl, Except.bind, bind, pure,
    Except.pure]

theorem unextend_mwss (L : ℤ) (e : ℤ → ℤ → ℤ → ℂ) :
    unextend (2 * L) e L sMWSS = .ok (L + 1, e) := by
  simp [unextend, ntheta_extension, show lower sMWSS = sMWSS from rfl,
      show sMWSS ≠ sMW by decide, Except.bind, bind, pure, Except.pure]

/-- The values computed by `mw_to_mwss`. -/
noncomputable def mwssValues (f : ℤ → ℤ → ℤ → ℂ) (L : ℤ) (spin : ℤ → ℤ) : ℤ → ℤ → ℤ → ℂ :=
  mw_to_mwss_phi (fun b t p => ifft_fwd (2 * L) (ifftshift (2 * L)
    (mwssThetaRows (fun b t => ifft (2 * L - 1) (ifftshift (2 * L - 1)
      (extensionRows L L (2 * L - 1) 0 f spin b t))) L b p)) t) L

theorem mw_to_mwss_theta_eq (f : ℤ → ℤ → ℤ → ℂ) (L : ℤ) (spin : ℤ → ℤ) :
    mw_to_mwss_theta f L spin = .ok (L + 1, fun b t p => ifft_fwd (2 * L) (ifftshift (2 * L)
    (mwssThetaRows (fun b t => ifft (2 * L - 1) (ifftshift (2 * L - 1)
      (extensionRows L L (2 * L - 1) 0 f spin b t))) L b p)) t) := by
  unfold mw_to_mwss_theta periodic_extension
  rw [extensionSizes_mw]
  simp only [bind, Except.bind, pure, Except.pure]
  exact unextend_mwss _ _

theorem mw_to_mwss_d3 (B r c : ℤ) (f : ℤ → ℤ → ℤ → ℂ) (L : ℤ) (spin : ℤ → ℤ) :
    mw_to_mwss (.d3 B r c f) L spin = .ok (.d3 B (L + 1) (2 * L) (mwssValues f L spin)) := by
  simp only [mw_to_mwss, mw_to_mwss_theta_eq]; rfl

theorem mw_to_mwss_d2 (r c : ℤ) (f : ℤ → ℤ → ℂ) (L : ℤ) (spin : ℤ → ℤ) :
    mw_to_mwss (.d2 r c f) L spin
      = .ok (.d2 (L + 1) (2 * L) (mwssValues (fun _ => f) L spin 0)) := by
  simp only [mw_to_mwss, mw_to_mwss_theta_eq]; rfl

/-- The values computed by `upsample_by_two_mwss`. -/
noncomputable def upsampleValues (f : ℤ → ℤ → ℤ → ℂ) (L : ℤ) (spin : ℤ → ℤ) : ℤ → ℤ → ℤ → ℂ :=
  upsample_by_two_mwss_ext (periodic_extension_spatial_mwss f L spin) L

theorem upsample_d3 (B r c : ℤ) (f : ℤ → ℤ → ℤ → ℂ) (L : ℤ) (spin : ℤ → ℤ) :
    upsample_by_two_mwss (.d3 B r c f) L spin
      = .ok (if B = 1 then .d2 (2 * L + 1) (2 * L) (upsampleValues f L spin 0)
          else .d3 B (2 * L + 1) (2 * L) (upsampleValues f L spin)) := by
  simp only [upsample_by_two_mwss, unextend_mwss]; rfl

theorem upsample_d2 (r c : ℤ) (f : ℤ → ℤ → ℂ) (L : ℤ) (spin : ℤ → ℤ) :
    upsample_by_two_mwss (.d2 r c f) L spin
      = .ok (.d2 (2 * L + 1) (2 * L) (upsampleValues (fun _ => f) L spin 0)) := by
  simp only [upsample_by_two_mwss, unextend_mwss]; rfl

end S2fft
