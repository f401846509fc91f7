import Verif.Lemmas.Healpix

/-! # C05: sampling grids are well formed -/

namespace S2fft

/-- The colatitude samples of the equiangular schemes: as many as `ntheta`, inside `[0, π]`,
strictly increasing; which of the poles are sampled. -/
theorem C05_thetas (L : ℤ) (hL : 1 ≤ L) (s : PyStr) (nside : Option ℤ) (lg : ℤ → ℤ → ℝ)
    (hs : lower s = sMW ∨ lower s = sMWSS ∨ lower s = sDH) :
    ∃ n θ, thetas lg (some L) s nside = .ok (n, θ) ∧ ntheta (some L) s nside = .ok n ∧
      (∀ t, 0 ≤ t → t < n → 0 ≤ θ t ∧ θ t ≤ Real.pi) ∧
      (∀ t u, t < u → θ t < θ u) ∧
      (lower s = sMW → n = L ∧ 0 < θ 0 ∧ θ (n - 1) = Real.pi) ∧
      (lower s = sMWSS → n = L + 1 ∧ θ 0 = 0 ∧ θ (n - 1) = Real.pi) ∧
      (lower s = sDH → n = 2 * L ∧ 0 < θ 0 ∧ θ (n - 1) < Real.pi) := by
  have hpi := Real.pi_pos
  have hL' : (1 : ℝ) ≤ L := by exact_mod_cast hL
  rcases hs with hs | hs | hs
  · refine ⟨L, fun t => (2 * (t : ℝ) + 1) * Real.pi / (2 * (L : ℝ) - 1), ?_, ?_, ?_, ?_, ?_, ?_, ?_⟩
    · have h1 : ¬ sMW = sGL := by decide
      have h2 : ¬ sMW = sHP := by decide
      simp [thetas, ntheta, t2theta, hs, h1, h2]; rfl
    · have h2 : ¬ sMW = sHP := by decide
      simp [ntheta, hs, h2]
    · intro t h0 h1
      have h0' : (0 : ℝ) ≤ t := by exact_mod_cast h0
      have h1' : (t : ℝ) + 1 ≤ L := by exact_mod_cast h1
      refine ⟨div_nonneg (by positivity) (by linarith), ?_⟩
      rw [div_le_iff₀ (by linarith)]; nlinarith
    · intro t u h
      have h' : (t : ℝ) < u := by exact_mod_cast h
      apply div_lt_div_of_pos_right _ (by linarith); nlinarith
    · intro _
      refine ⟨rfl, by simp; exact div_pos hpi (by linarith), ?_⟩
      simp only
      have : (2 * (L : ℝ) - 1) ≠ 0 := by linarith
      push_cast; field_simp; ring
    · intro h; rw [hs] at h; exact absurd h (by decide)
    · intro h; rw [hs] at h; exact absurd h (by decide)
  · refine ⟨L + 1, fun t => 2 * (t : ℝ) * Real.pi / (2 * (L : ℝ)), ?_, ?_, ?_, ?_, ?_, ?_, ?_⟩
    · have h1 : ¬ sMWSS = sGL := by decide
      have h2 : ¬ sMWSS = sHP := by decide
      have h3 : ¬ sMWSS = sMW := by decide
      simp [thetas, ntheta, t2theta, hs, h1, h2, h3]; rfl
    · have h1 : ¬ sMWSS = sGL := by decide
      have h2 : ¬ sMWSS = sHP := by decide
      have h3 : ¬ sMWSS = sMW := by decide
      simp [ntheta, hs, h1, h2, h3]
    · intro t h0 h1
      have h0' : (0 : ℝ) ≤ t := by exact_mod_cast h0
      have h1' : (t : ℝ) ≤ L := by exact_mod_cast (by omega : t ≤ L)
      refine ⟨by positivity, ?_⟩
      rw [div_le_iff₀ (by linarith)]; nlinarith
    · intro t u h
      have h' : (t : ℝ) < u := by exact_mod_cast h
      apply div_lt_div_of_pos_right _ (by linarith); nlinarith
    · intro h; rw [hs] at h; exact absurd h (by decide)
    · intro _
      refine ⟨rfl, by simp, ?_⟩
      simp only
      have : (L : ℝ) ≠ 0 := by linarith
      push_cast; field_simp; ring
    · intro h; rw [hs] at h; exact absurd h (by decide)
  · refine ⟨2 * L, fun t => (2 * (t : ℝ) + 1) * Real.pi / (4 * (L : ℝ)), ?_, ?_, ?_, ?_, ?_, ?_, ?_⟩
    · have h1 : ¬ sDH = sGL := by decide
      have h2 : ¬ sDH = sHP := by decide
      have h3 : ¬ sDH = sMW := by decide
      have h4 : ¬ sDH = sMWSS := by decide
      simp [thetas, ntheta, t2theta, hs, h1, h2, h3, h4]; rfl
    · have h1 : ¬ sDH = sGL := by decide
      have h2 : ¬ sDH = sHP := by decide
      have h3 : ¬ sDH = sMW := by decide
      have h4 : ¬ sDH = sMWSS := by decide
      simp [ntheta, hs, h1, h2, h3, h4]
    · intro t h0 h1
      have h0' : (0 : ℝ) ≤ t := by exact_mod_cast h0
      have h1' : (t : ℝ) + 1 ≤ 2 * L := by exact_mod_cast h1
      refine ⟨div_nonneg (by positivity) (by linarith), ?_⟩
      rw [div_le_iff₀ (by linarith)]; nlinarith
    · intro t u h
      have h' : (t : ℝ) < u := by exact_mod_cast h
      apply div_lt_div_of_pos_right _ (by linarith); nlinarith
    · intro h; rw [hs] at h; exact absurd h (by decide)
    · intro h; rw [hs] at h; exact absurd h (by decide)
    · intro _
      refine ⟨rfl, by simp; positivity, ?_⟩
      simp only
      push_cast
      rw [div_lt_iff₀ (by linarith)]; nlinarith

/-- Gauss–Legendre: given `L` strictly increasing nodes inside `(-1, 1)`, the colatitudes are
strictly increasing inside `(0, π)` and number `ntheta`. -/
theorem C05_thetas_gl (L : ℤ) (s : PyStr) (nside : Option ℤ) (lg : ℤ → ℤ → ℝ)
    (hs : lower s = sGL)
    (hnodes : ∀ i, 0 ≤ i → i < L → -1 < lg L i ∧ lg L i < 1)
    (hmono : ∀ i j, 0 ≤ i → i < j → j < L → lg L i < lg L j) :
    ∃ θ, thetas lg (some L) s nside = .ok (L, θ) ∧ ntheta (some L) s nside = .ok L ∧
      (∀ t, 0 ≤ t → t < L → 0 < θ t ∧ θ t < Real.pi) ∧
      (∀ t u, 0 ≤ t → t < u → u < L → θ t < θ u) := by
  refine ⟨fun t => Real.arccos (lg L (L - 1 - t)), ?_, ?_, ?_, ?_⟩
  · simp [thetas, hs]
  · have h2 : ¬ sGL = sHP := by decide
    simp [ntheta, hs, h2]
  · intro t h0 h1
    have hb := hnodes (L - 1 - t) (by omega) (by omega)
    refine ⟨Real.arccos_pos.2 hb.2, ?_⟩
    rcases lt_or_eq_of_le (Real.arccos_le_pi (lg L (L - 1 - t))) with h | h
    · exact h
    · rw [Real.arccos_eq_pi] at h; linarith
  · intro t u h0 h1 h2
    have ha := hnodes (L - 1 - t) (by omega) (by omega)
    have hb := hnodes (L - 1 - u) (by omega) (by omega)
    exact Real.arccos_lt_arccos hb.1.le (hmono _ _ (by omega) (by omega) (by omega)) ha.2.le

/-- The longitude samples of the equiangular schemes: as many as `nphi_equiang`, equally spaced
over `[0, 2π)` starting at 0. -/
theorem C05_phis (L : ℤ) (hL : 1 ≤ L) (s : PyStr)
    (hs : lower s = sMW ∨ lower s = sMWSS ∨ lower s = sDH ∨ lower s = sGL) :
    ∃ n φ, phis_equiang L s = .ok (n, φ) ∧ nphi_equiang L s = .ok n ∧
      n = (if lower s = sMWSS then 2 * L else 2 * L - 1) ∧
      (∀ p, φ p = 2 * Real.pi * p / n) ∧
      (∀ p, 0 ≤ p → p < n → 0 ≤ φ p ∧ φ p < 2 * Real.pi) ∧
      (∀ p q, p < q → φ p < φ q) := by
  have hpi := Real.pi_pos
  have key : ∃ n φ, phis_equiang L s = .ok (n, φ) ∧ nphi_equiang L s = .ok n ∧
      n = (if lower s = sMWSS then 2 * L else 2 * L - 1) ∧
      (∀ p : ℤ, φ p = 2 * Real.pi * p / n) := by
    rcases hs with hs | hs | hs | hs
    · have h1 : ¬ sMW = sMWSS := by decide
      refine ⟨2 * L - 1, fun p => 2 * (p : ℝ) * Real.pi / (2 * (L : ℝ) - 1), ?_, ?_, ?_, ?_⟩
      · simp [phis_equiang, nphi_equiang, p2phi_equiang, hs]
      · simp [nphi_equiang, hs]
      · simp [hs, h1]
      · intro p; push_cast; ring
    · have h1 : ¬ sMWSS = sMW := by decide
      have h2 : ¬ sMWSS = sGL := by decide
      refine ⟨2 * L, fun p => 2 * (p : ℝ) * Real.pi / (2 * (L : ℝ)), ?_, ?_, ?_, ?_⟩
      · simp [phis_equiang, nphi_equiang, p2phi_equiang, hs, h1, h2]
      · simp [nphi_equiang, hs, h1, h2]
      · simp [hs]
      · intro p; push_cast; ring
    · have h1 : ¬ sDH = sMW := by decide
      have h2 : ¬ sDH = sGL := by decide
      have h3 : ¬ sDH = sMWSS := by decide
      refine ⟨2 * L - 1, fun p => 2 * (p : ℝ) * Real.pi / (2 * (L : ℝ) - 1), ?_, ?_, ?_, ?_⟩
      · simp [phis_equiang, nphi_equiang, p2phi_equiang, hs, h1, h2, h3]
      · simp [nphi_equiang, hs, h1, h2, h3]
      · simp [hs, h3]
      · intro p; push_cast; ring
    · have h1 : ¬ sGL = sMWSS := by decide
      refine ⟨2 * L - 1, fun p => 2 * (p : ℝ) * Real.pi / (2 * (L : ℝ) - 1), ?_, ?_, ?_, ?_⟩
      · simp [phis_equiang, nphi_equiang, p2phi_equiang, hs]
      · simp [nphi_equiang, hs]
      · simp [hs, h1]
      · intro p; push_cast; ring
  obtain ⟨n, φ, h1, h2, h3, h4⟩ := key
  have hn : 0 < n := by rw [h3]; split_ifs <;> omega
  have hn' : (0 : ℝ) < n := by exact_mod_cast hn
  refine ⟨n, φ, h1, h2, h3, h4, ?_, ?_⟩
  · intro p hp0 hp1
    have hp0' : (0 : ℝ) ≤ p := by exact_mod_cast hp0
    have hp1' : (p : ℝ) < n := by exact_mod_cast hp1
    rw [h4]
    exact ⟨by positivity, by rw [div_lt_iff₀ hn']; nlinarith⟩
  · intro p q h
    have h' : (p : ℝ) < q := by exact_mod_cast h
    rw [h4, h4]
    apply div_lt_div_of_pos_right _ hn'; nlinarith

/-- Shapes agree with the sample counts: signal shape, Fourier-mode shape, and the Wigner shapes
(for lower-case names; see C37 for other letter cases). -/
theorem C05_shapes (L N : ℤ) (s : PyStr) (nside : Option ℤ)
    (hs : lower s = sMW ∨ lower s = sMWSS ∨ lower s = sDH ∨ lower s = sGL) :
    ∃ nt np, ntheta (some L) s nside = .ok nt ∧ nphi_equiang L s = .ok np ∧
      f_shape (some L) s nside = .ok [nt, np] ∧
      ftm_shape L s nside = .ok (nt, np) ∧
      fnab_shape L N s nside = .ok (2 * N - 1, nt, np) ∧
      (lower s = s → so3_f_shape L N s nside = .ok [2 * N - 1, nt, np]) := by
  have a1 : ¬ sMW = sHP := by decide
  have a2 : ¬ sMWSS = sHP := by decide
  have a3 : ¬ sDH = sHP := by decide
  have a4 : ¬ sGL = sHP := by decide
  have b1 : ¬ sMWSS = sMW := by decide
  have b2 : ¬ sMWSS = sGL := by decide
  have b3 : ¬ sDH = sMW := by decide
  have b4 : ¬ sDH = sGL := by decide
  have b5 : ¬ sDH = sMWSS := by decide
  have b6 : ¬ sMW = sMWSS := by decide
  have b7 : ¬ sGL = sMWSS := by decide
  have b8 : ¬ sGL = sMW := by decide
  rcases hs with hs | hs | hs | hs
  · refine ⟨L, 2 * L - 1, ?_, ?_, ?_, ?_, ?_, ?_⟩
    on_goal 6 => intro h; rw [hs] at h; subst h
    all_goals simp [ntheta, nphi_equiang, f_shape, ftm_shape, fnab_shape, so3_f_shape, nbeta,
      nalpha, ngamma, hs, *]
    all_goals rfl
  · refine ⟨L + 1, 2 * L, ?_, ?_, ?_, ?_, ?_, ?_⟩
    on_goal 6 => intro h; rw [hs] at h; subst h
    all_goals simp [ntheta, nphi_equiang, f_shape, ftm_shape, fnab_shape, so3_f_shape, nbeta,
      nalpha, ngamma, hs, *]
    all_goals rfl
  · refine ⟨2 * L, 2 * L - 1, ?_, ?_, ?_, ?_, ?_, ?_⟩
    on_goal 6 => intro h; rw [hs] at h; subst h
    all_goals simp [ntheta, nphi_equiang, f_shape, ftm_shape, fnab_shape, so3_f_shape, nbeta,
      nalpha, ngamma, hs, *]
    all_goals rfl
  · refine ⟨L, 2 * L - 1, ?_, ?_, ?_, ?_, ?_, ?_⟩
    on_goal 6 => intro h; rw [hs] at h; subst h
    all_goals simp [ntheta, nphi_equiang, f_shape, ftm_shape, fnab_shape, so3_f_shape, nbeta,
      nalpha, ngamma, hs, *]
    all_goals rfl

/-- HEALPix shapes: `4 nside - 1` rings, `2L` Fourier modes, `12 nside²` pixels. -/
theorem C05_shapes_healpix (L N nside : ℤ) (s : PyStr) (hs : lower s = sHP) :
    ntheta (some L) s (some nside) = .ok (4 * nside - 1) ∧
    f_shape (some L) s (some nside) = .ok [12 * nside ^ 2] ∧
    ftm_shape L s (some nside) = .ok (4 * nside - 1, 2 * L) ∧
    fnab_shape L N s (some nside) = .ok (2 * N - 1, 4 * nside - 1, 2 * L) ∧
    (so3_f_shape L N s (some nside) = .ok [2 * N - 1, 12 * nside ^ 2]) := by
  have h : ¬ (s = sMW ∨ s = sMWSS ∨ s = sDH ∨ s = sGL) := by
    rintro (rfl | rfl | rfl | rfl) <;> exact absurd hs (by decide)
  refine ⟨?_, ?_, ?_, ?_, ?_⟩
  · simp [ntheta, hs]
  · simp [f_shape, hs]
  · simp [ftm_shape, ntheta, hs]
  · simp [fnab_shape, ntheta, ngamma, hs]
  · simp [so3_f_shape, ngamma, hs, if_neg h]

/-- Unsupported names, a missing band-limit, a missing `nside` and equiangular requests for
HEALPix are all rejected. -/
theorem C05_reject (L : ℤ) (s : PyStr) (nside : Option ℤ) (t p : ℤ) :
    ((lower s ≠ sMW ∧ lower s ≠ sMWSS ∧ lower s ≠ sDH ∧ lower s ≠ sGL ∧ lower s ≠ sHP) →
      ntheta (some L) s nside = .error .valueError ∧
      nphi_equiang L s = .error .valueError ∧
      ftm_shape L s nside = .error .valueError ∧
      f_shape (some L) s nside = .error .valueError ∧
      t2theta t (some L) s nside = .error .valueError ∧
      p2phi_equiang L p s = .error .valueError ∧
      ntheta_extension L s = .error .valueError) ∧
    (lower s ≠ sHP → ntheta none s nside = .error .valueError ∧
      f_shape none s nside = .error .valueError ∧
      t2theta t none s nside = .error .valueError) ∧
    (lower s = sHP → ntheta (some L) s none = .error .valueError ∧
      f_shape (some L) s none = .error .valueError ∧
      t2theta t (some L) s none = .error .valueError ∧
      nphi_equiang L s = .error .valueError ∧
      p2phi_equiang L p s = .error .valueError) := by
  refine ⟨?_, ?_, ?_⟩
  · rintro ⟨h1, h2, h3, h4, h5⟩
    have e : ntheta (some L) s none = .error .valueError := by simp [ntheta, h1, h2, h3, h4, h5]
    refine ⟨?_, ?_, ?_, ?_, ?_, ?_, ?_⟩ <;>
    simp [ntheta, nphi_equiang, ftm_shape, f_shape, t2theta, p2phi_equiang, ntheta_extension,
      h1, h2, h3, h4, h5]
    rfl
  · intro h
    refine ⟨?_, ?_, ?_⟩ <;> simp [ntheta, f_shape, t2theta, h]
  · intro h
    have a : ¬ sHP = sMW := by decide
    have b : ¬ sHP = sMWSS := by decide
    have c : ¬ sHP = sDH := by decide
    have d : ¬ sHP = sGL := by decide
    refine ⟨?_, ?_, ?_, ?_, ?_⟩ <;>
      simp [ntheta, f_shape, t2theta, nphi_equiang, p2phi_equiang, h, a, b, c, d]

/-- Witness: mixed-case names satisfy the hypotheses. -/
example : (1 : ℤ) ≤ 5 ∧ lower ['M', 'w', 'S', 'S'] = sMWSS ∧ lower ['D', 'H'] = sDH ∧
    lower ['x'] ≠ sMW := by decide

end S2fft
