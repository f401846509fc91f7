import Verif.Lemmas.Healpix

/-! # C06: HEALPix rings tile the pixel vector -/

namespace S2fft
open Spec

/-- `nphi_ring` returns four pixels per step from the nearer pole, at most `4 nside`; the sizes
are symmetric about the equator and sum to the length of the pixel vector. -/
theorem C06_ring_sizes (nside : ℤ) (hn : 1 ≤ nside) (L : Option ℤ) (s : PyStr)
    (hs : lower s = sHP) :
    (∀ t, 0 ≤ t → t < 4 * nside - 1 → nphi_ring t nside = .ok (ringSize nside t) ∧
      0 < ringSize nside t ∧ ringSize nside (4 * nside - 2 - t) = ringSize nside t) ∧
    ntheta L s (some nside) = .ok (4 * nside - 1) ∧
    f_shape L s (some nside) = .ok [∑ t ∈ Finset.Ico 0 (4 * nside - 1), ringSize nside t] := by
  refine ⟨?_, ?_, ?_⟩
  · intro t h0 h1
    refine ⟨nphi_ring_ok h0 h1, ?_, ?_⟩
    · unfold ringSize
      have := lt_min (show 0 < t + 1 by omega)
        (lt_min (show 0 < nside by omega) (show 0 < 4 * nside - 1 - t by omega))
      omega
    · unfold ringSize
      congr 1
      rw [show 4 * nside - 2 - t + 1 = 4 * nside - 1 - t by ring,
        show 4 * nside - 1 - (4 * nside - 2 - t) = t + 1 by ring]
      rw [min_left_comm, min_comm (4 * nside - 1 - t), ← min_left_comm]
  · simp [ntheta, hs]
  · have := ringStart_total nside hn
    unfold ringStart at this
    rw [this]
    simp [f_shape, hs]

/-- Rings outside `0, …, 4 nside - 2` are rejected. -/
theorem C06_reject (nside t : ℤ) (hn : 1 ≤ nside) (h : t < 0 ∨ 4 * nside - 1 ≤ t) :
    nphi_ring t nside = .error .valueError ∧ phis_ring t nside = .error .valueError := by
  have : nphi_ring t nside = .error .valueError := by
    unfold nphi_ring
    rw [if_neg (by omega), if_neg (by omega), if_neg (by omega)]
  refine ⟨this, ?_⟩
  unfold phis_ring; rw [this]; rfl

/-- `nphi_equitorial_band` is the size of the rings from `nside - 1` to `3 nside - 1`, and no other ring
has as many samples. -/
theorem C06_equatorial (nside t n : ℤ) (hn : 1 ≤ nside) (h : nphi_ring t nside = .ok n) :
    n ≤ nphi_equitorial_band nside ∧
    (n = nphi_equitorial_band nside ↔ nside - 1 ≤ t ∧ t ≤ 3 * nside - 1) := by
  unfold nphi_ring at h
  unfold nphi_equitorial_band
  split_ifs at h <;> injection h <;> omega

example : nphi_ring 2 3 = .ok 12 := by decide

/-- Each ring's longitudes are `nphi` equally spaced angles in `[0, 2π)`, starting within the
first pixel. -/
theorem C06_ring_phis (nside t : ℤ) (hn : 1 ≤ nside) (h0 : 0 ≤ t) (h1 : t < 4 * nside - 1) :
    ∃ phi, phis_ring t nside = .ok (ringSize nside t, phi) ∧
      (∀ p, phi p = phi 0 + 2 * Real.pi * p / ringSize nside t) ∧
      (∀ p, 0 ≤ p → p < ringSize nside t → 0 ≤ phi p ∧ phi p < 2 * Real.pi) := by
  have hpi := Real.pi_pos
  refine ⟨fun p => p2phi_ring t p nside, ?_, ?_⟩
  · unfold phis_ring
    rw [nphi_ring_ok h0 h1]; rfl
  have key : ∃ (c : ℝ), 0 ≤ c ∧ c ≤ 1 / 2 ∧ ∀ p : ℤ, p2phi_ring t p nside
      = 2 * Real.pi * (p + c) / ringSize nside t := by
    unfold p2phi_ring
    split_ifs with h2 h3
    · rw [ringSize_mid (by omega) (by omega)]
      have hn' : (nside : ℝ) ≠ 0 := by exact_mod_cast (by omega : nside ≠ 0)
      refine ⟨1 / 2 * (((t - nside + 2) % 2 : ℤ) : ℝ), ?_, ?_, ?_⟩
      · have : (0 : ℝ) ≤ (((t - nside + 2) % 2 : ℤ) : ℝ) := by
          exact_mod_cast (by omega : 0 ≤ (t - nside + 2) % 2)
        linarith
      · have : (((t - nside + 2) % 2 : ℤ) : ℝ) ≤ 1 := by
          exact_mod_cast (by omega : (t - nside + 2) % 2 ≤ 1)
        linarith
      · intro p; push_cast; field_simp; norm_num; ring
    · rw [ringSize_south (by omega) (by omega)]
      have hn' : (4 * (nside : ℝ) - t - 1) ≠ 0 := by
        have : 4 * nside - t - 1 ≠ 0 := by omega
        exact_mod_cast this
      have hn2 : (4 * (nside : ℝ) - 1 - t) ≠ 0 := by
        have : 4 * nside - 1 - t ≠ 0 := by omega
        exact_mod_cast this
      refine ⟨1 / 2, by norm_num, by norm_num, ?_⟩
      intro p; push_cast
      rw [show (4 * (nside : ℝ) - t - 1) = 4 * nside - 1 - t by ring]
      field_simp; norm_num
    · rw [ringSize_north (by omega) h0]
      have hn' : (t : ℝ) + 1 ≠ 0 := by
        have : t + 1 ≠ 0 := by omega
        exact_mod_cast this
      refine ⟨1 / 2, by norm_num, by norm_num, ?_⟩
      intro p; push_cast; field_simp; norm_num; ring
  obtain ⟨c, hc0, hc1, hc⟩ := key
  constructor
  · intro p
    show p2phi_ring t p nside = p2phi_ring t 0 nside + _
    rw [hc p, hc 0]; push_cast; ring
  · intro p hp0 hp1
    show 0 ≤ p2phi_ring t p nside ∧ p2phi_ring t p nside < _
    rw [hc p]
    have hs : (0 : ℝ) < ringSize nside t := by exact_mod_cast (by omega : 0 < ringSize nside t)
    have hp0' : (0 : ℝ) ≤ p := by exact_mod_cast hp0
    have hp1' : (p : ℝ) + 1 ≤ ringSize nside t := by exact_mod_cast hp1
    constructor
    · positivity
    · rw [div_lt_iff₀ hs]
      nlinarith

/-- Ring colatitudes lie strictly between the poles, strictly increase with the ring index and
are symmetric about the equator. -/
theorem C06_ring_thetas (nside : ℤ) (hn : 1 ≤ nside) (lg : ℤ → ℤ → ℝ) (L : Option ℤ) (s : PyStr)
    (hs : lower s = sHP) :
    ∃ θ, thetas lg L s (some nside) = .ok (4 * nside - 1, θ) ∧
      (∀ t, 0 ≤ t → t < 4 * nside - 1 → 0 < θ t ∧ θ t < Real.pi) ∧
      (∀ t, 0 ≤ t → t + 1 < 4 * nside - 1 → θ t < θ (t + 1)) ∧
      (∀ t, 0 ≤ t → t < 4 * nside - 1 → θ (4 * nside - 2 - t) = Real.pi - θ t) := by
  refine ⟨fun t => t2theta_healpix t nside, ?_, ?_, ?_, ?_⟩
  · unfold thetas
    have : ¬ sHP = sGL := by decide
    simp [hs, this, ntheta, t2theta]
    rfl
  · intro t h0 h1
    have hb := ringZ_lt hn h0 h1
    simp only [t2theta_healpix_eq h1]
    exact ⟨Real.arccos_pos.2 hb.2, by
      rcases lt_or_eq_of_le (Real.arccos_le_pi (ringZ nside t)) with h | h
      · exact h
      · rw [Real.arccos_eq_pi] at h; linarith⟩
  · intro t h0 h1
    simp only [t2theta_healpix_eq h1, t2theta_healpix_eq (show t < 4 * nside - 1 by omega)]
    have a := ringZ_lt hn h0 (by omega : t < 4 * nside - 1)
    have b := ringZ_lt hn (by omega : 0 ≤ t + 1) h1
    exact Real.arccos_lt_arccos b.1.le (ringZ_anti hn h0 h1) a.2.le
  · intro t h0 h1
    simp only [t2theta_healpix_eq h1,
      t2theta_healpix_eq (show 4 * nside - 2 - t < 4 * nside - 1 by omega)]
    rw [← Real.arccos_neg]
    congr 1
    have hn0 : (nside : ℝ) ≠ 0 := by exact_mod_cast (by omega : nside ≠ 0)
    rcases le_or_gt (t + 1) nside with h | h
    · rw [ringZ_north h0 h, ringZ_south hn (by omega) (by omega)]
      push_cast
      rw [show 4 * (nside : ℝ) - 1 - (4 * nside - 2 - t) = t + 1 by ring]
    · rcases lt_or_ge (t + 1) (3 * nside) with h' | h'
      · rw [ringZ_mid (by omega) (by omega), ringZ_mid (by omega) (by omega)]
        push_cast; field_simp; ring
      · rw [ringZ_south hn h1 h', ringZ_north (by omega) (by omega)]
        push_cast
        rw [show 4 * (nside : ℝ) - 2 - t + 1 = 4 * nside - 1 - t by ring]; ring

/-- Witness: `nside = 2` has rings of sizes 4,8,8,8,8,8,4, 48 pixels. -/
example : (1 : ℤ) ≤ 2 ∧ ringSize 2 0 = 4 ∧ ringSize 2 1 = 8 ∧ ringSize 2 6 = 4 ∧
    ∑ t ∈ Finset.Ico 0 (4 * 2 - 1 : ℤ), ringSize 2 t = 48 ∧
    lower ['H', 'e', 'a', 'l', 'p', 'i', 'x'] = sHP := by decide

end S2fft
