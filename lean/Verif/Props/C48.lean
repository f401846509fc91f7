import Verif.Lemmas.GridDouble
import Verif.Model.RisboDouble

/-! # C48: the sampling grids as stored in double precision -/

namespace S2fft
open Spec

/-- The stored colatitudes of the MW, MWSS and DH grids: as many as there are rings, each within two
units in the last place of the exact one, in strictly increasing order. -/
theorem C48_colatitudes (F : DoubleLib) (lg nodes : ℤ → ℤ → ℝ) (σ : Scheme)
    (hσ : σ = .mw ∨ σ = .mwss ∨ σ = .dh) (s : PyStr) (hs : lower s = σ.name) (L n : ℤ)
    (nside : Option ℤ) (hL : 1 ≤ L) (hL1 : L ≤ 2 ^ 40) :
    ∃ T, thetasF F lg (some L) s nside = .ok (σ.rings L n, T) ∧
      (∀ t, 0 ≤ t → t < σ.rings L n →
        |T t - σ.theta nodes L n t| ≤ σ.theta nodes L n t / 2 ^ 51) ∧
      (∀ t u, 0 ≤ t → t < u → u < σ.rings L n → T t < T u) := by
  obtain ⟨T, hT, hTt⟩ := thetasF_eq F lg hσ hs (n0 := n) (nside := nside) hL hL1
  obtain ⟨d1, d2⟩ := thDen_bounds hσ hL hL1
  have near : ∀ t, 0 ≤ t → t < σ.rings L n →
      |T t - thNum t σ * Real.pi / thDen L σ| ≤ thNum t σ * Real.pi / thDen L σ / 2 ^ 51 := by
    intro t h0 h1
    obtain ⟨a1, a2, -, a4, -⟩ := thNum_bounds hσ hL1 h0 h1
    rw [hTt t h0 a4]
    exact ratioF_rel F a1 (by omega) d1 (by omega)
  refine ⟨T, hT, fun t h0 h1 => ?_, fun t u h0 htu h1 => ?_⟩
  · rw [theta_ratio nodes hσ]; exact near t h0 h1
  · obtain ⟨a1, -, -, -, -⟩ := thNum_bounds hσ hL1 h0 (lt_trans htu h1)
    obtain ⟨-, b2, -, -, -⟩ := thNum_bounds hσ hL1 (by omega) h1
    have h2 : (thNum t σ : ℝ) + 1 ≤ thNum u σ := by exact_mod_cast thNum_lt σ htu
    have h3 : (thNum u σ : ℝ) ≤ 2 ^ 43 := by exact_mod_cast b2
    have h4 : (0 : ℝ) ≤ thNum t σ := by exact_mod_cast a1
    have h5 : (0 : ℝ) < thDen L σ := by exact_mod_cast (by omega : 0 < thDen L σ)
    have n1 := near t h0 (lt_trans htu h1)
    have n2 := near u (by omega) h1
    rw [mul_div_assoc] at n1 n2
    exact rel_lt (c := Real.pi / thDen L σ) (div_pos Real.pi_pos h5) h4 (by linarith)
      (by norm_num at h3 ⊢; linarith) n1 n2

/-- The stored colatitudes of the HEALPix rings: within `nside / 2⁴⁷` of the exact ones, in strictly
increasing order. -/
theorem C48_colatitudes_healpix (F : DoubleLib) (lg nodes : ℤ → ℤ → ℝ) (s : PyStr)
    (hs : lower s = Scheme.healpix.name) (L : Option ℤ) (M nside : ℤ) (hn : 1 ≤ nside)
    (hn1 : nside ≤ 2 ^ 18) :
    ∃ T, thetasF F lg L s (some nside) = .ok (Scheme.healpix.rings M nside, T) ∧
      (∀ t, 0 ≤ t → t < Scheme.healpix.rings M nside →
        |T t - Scheme.healpix.theta nodes M nside t| ≤ nside / 2 ^ 47) ∧
      (∀ t u, 0 ≤ t → t < u → u < Scheme.healpix.rings M nside → T t < T u) := by
  rw [name_hp] at hs
  refine ⟨fun t => t2theta_healpixF F t nside, ?_, fun t h0 h1 => ?_, fun t u h0 htu h1 => ?_⟩
  · unfold thetasF ntheta t2thetaF
    simp [hs, show ¬ sHP = sGL by decide, Scheme.rings]
    rfl
  · exact ringThetaF_near F hn hn1 h0 h1
  · exact ringThetaF_lt F hn hn1 h0 htu h1

/-- The stored azimuths of the equiangular grids. -/
theorem C48_azimuths (F : DoubleLib) (σ : Scheme) (hσ : σ ≠ .healpix) (s : PyStr)
    (hs : lower s = σ.name) (L n t : ℤ) (hL : 1 ≤ L) (hL1 : L ≤ 2 ^ 40) :
    ∃ P, phis_equiangF F L s = .ok (σ.ringLen L n t, P) ∧
      (∀ p, 0 ≤ p → p < σ.ringLen L n t →
        |P p - σ.phi L n t p| ≤ σ.phi L n t p / 2 ^ 51 ∧ P p < 2 * Real.pi) ∧
      (∀ p q, 0 ≤ p → p < q → q < σ.ringLen L n t → P p < P q) := by
  have hlen : 1 ≤ σ.ringLen L n t ∧ σ.ringLen L n t ≤ 2 ^ 42 := by
    cases σ <;> simp only [Scheme.ringLen] <;> first | omega | exact absurd rfl hσ
  have hnphi : nphi_equiang L s = .ok (σ.ringLen L n t) := by
    unfold nphi_equiang
    cases σ
    · rw [name_mw] at hs; simp [hs, Scheme.ringLen]
    · rw [name_mwss] at hs
      simp [hs, Scheme.ringLen, show ¬ sMWSS = sMW by decide, show ¬ sMWSS = sGL by decide,
        show ¬ sMWSS = sDH by decide]
    · rw [name_dh] at hs
      simp [hs, Scheme.ringLen, show ¬ sDH = sMW by decide, show ¬ sDH = sGL by decide,
        show ¬ sDH = sMWSS by decide]
    · rw [name_gl] at hs
      simp [hs, Scheme.ringLen, show ¬ sGL = sMW by decide, show ¬ sGL = sDH by decide,
        show ¬ sGL = sMWSS by decide]
    · exact absurd rfl hσ
  have hval : ∀ p, 0 ≤ p → p < σ.ringLen L n t → p2phi_equiangF F L p s
      = .ok (F.fl (F.fl ((2 * p : ℤ) * F.fl Real.pi) / σ.ringLen L n t)) := by
    intro p h0 h1
    have hf := F.nearest
    have a1 := fl_int hf (k := 2 * p) (by rw [abs_of_nonneg (by omega)]; omega)
    have a2 := fl_int hf (k := 2 * L - 1) (by rw [abs_of_nonneg (by omega)]; omega)
    have a3 := fl_int hf (k := 2 * L) (by rw [abs_of_nonneg (by omega)]; omega)
    unfold p2phi_equiangF
    simp only
    rw [a1, a2, a3]
    cases σ
    · rw [name_mw] at hs; rw [if_pos (Or.inl hs)]; rfl
    · rw [name_mwss] at hs; rw [if_neg (by rw [hs]; decide), if_pos hs]; rfl
    · rw [name_dh] at hs
      rw [if_neg (by rw [hs]; decide), if_neg (by rw [hs]; decide), if_pos hs]; rfl
    · rw [name_gl] at hs; rw [if_pos (Or.inr hs)]; rfl
    · exact absurd rfl hσ
  have hphi : ∀ p, σ.phi L n t p = (2 * p : ℤ) * Real.pi / σ.ringLen L n t := by
    intro p
    unfold Scheme.phi
    have : σ.shift n t = 0 := by cases σ <;> first | rfl | exact absurd rfl hσ
    rw [this]; push_cast; ring
  have hl0 : (1 : ℝ) ≤ σ.ringLen L n t := by exact_mod_cast hlen.1
  have hl1 : (σ.ringLen L n t : ℝ) ≤ 2 ^ 42 := by exact_mod_cast hlen.2
  have near : ∀ p, 0 ≤ p → p < σ.ringLen L n t →
      |F.fl (F.fl ((2 * p : ℤ) * F.fl Real.pi) / σ.ringLen L n t) - σ.phi L n t p|
        ≤ σ.phi L n t p / 2 ^ 51 := by
    intro p h0 h1
    rw [hphi]
    exact ratioF_rel F (by omega) (by omega) hlen.1 (by omega)
  refine ⟨fun p => match p2phi_equiangF F L p s with
      | .ok φ => φ
      | .error _ => 0, ?_, fun p h0 h1 => ?_, fun p q h0 hpq h1 => ?_⟩
  · unfold phis_equiangF
    rw [hnphi]
    rfl
  · simp only [hval p h0 h1]
    have hn := near p h0 h1
    refine ⟨hn, ?_⟩
    have hpi := Real.pi_pos
    have h2 := (abs_le.1 hn).2
    have h1' : (p : ℝ) + 1 ≤ σ.ringLen L n t := by exact_mod_cast h1
    -- a gap of one sample is left
    have h3 : σ.phi L n t p ≤ 2 * Real.pi - 2 * Real.pi / 2 ^ 42 := by
      rw [hphi]
      push_cast
      have h4 : 2 * (p : ℝ) * Real.pi / σ.ringLen L n t
          ≤ 2 * Real.pi - 2 * Real.pi / σ.ringLen L n t := by
        rw [div_le_iff₀ (by linarith), sub_mul, div_mul_cancel₀ _ (by linarith)]
        nlinarith
      have h5 : 2 * Real.pi / 2 ^ 42 ≤ 2 * Real.pi / σ.ringLen L n t := by gcongr
      linarith
    generalize σ.phi L n t p = x at h2 h3
    generalize F.fl (F.fl ((2 * p : ℤ) * F.fl Real.pi) / σ.ringLen L n t) = y at h2 ⊢
    norm_num at h2 h3
    linarith
  · simp only [hval p h0 (by omega), hval q (by omega) h1]
    have n1 := near p h0 (by omega)
    have n2 := near q (by omega) h1
    have h2 : ((2 * p : ℤ) : ℝ) + 1 ≤ (2 * q : ℤ) := by
      have : 2 * p + 1 ≤ 2 * q := by omega
      exact_mod_cast this
    have h3 : ((2 * q : ℤ) : ℝ) ≤ 2 ^ 43 := by
      have : 2 * q ≤ 2 ^ 43 := by omega
      exact_mod_cast this
    have h4 : (0 : ℝ) ≤ (2 * p : ℤ) := by exact_mod_cast (by omega : 0 ≤ 2 * p)
    rw [hphi, mul_div_assoc] at n1 n2
    exact rel_lt (c := Real.pi / σ.ringLen L n t) (div_pos Real.pi_pos (by linarith)) h4
      (by linarith) (by norm_num at h3 ⊢; linarith) n1 n2

/-- The stored azimuths of the pixels of a HEALPix ring. -/
theorem C48_azimuths_healpix (F : DoubleLib) (L nside t : ℤ) (hn : 1 ≤ nside) (hn1 : nside ≤ 2 ^ 40)
    (h0 : 0 ≤ t) (h1 : t < Scheme.healpix.rings L nside) :
    ∃ P, phis_ringF F t nside = .ok (Scheme.healpix.ringLen L nside t, P) ∧
      (∀ p, 0 ≤ p → p < Scheme.healpix.ringLen L nside t →
        |P p - Scheme.healpix.phi L nside t p| ≤ Scheme.healpix.phi L nside t p / 2 ^ 51 ∧
        P p < 2 * Real.pi) ∧
      (∀ p q, 0 ≤ p → p < q → q < Scheme.healpix.ringLen L nside t → P p < P q) := by
  simp only [Scheme.rings] at h1
  have hlen : 1 ≤ ringSize nside t ∧ ringSize nside t ≤ 2 ^ 42 := by unfold ringSize; omega
  have hl0 : (1 : ℝ) ≤ ringSize nside t := by exact_mod_cast hlen.1
  have hl1 : (ringSize nside t : ℝ) ≤ 2 ^ 42 := by exact_mod_cast hlen.2
  have hsh : 0 ≤ Scheme.healpix.shift nside t ∧ Scheme.healpix.shift nside t ≤ 1 / 2 := by
    simp only [Scheme.shift]; split_ifs <;> norm_num
  have hpi := Real.pi_pos
  have hphi : ∀ p : ℤ, Scheme.healpix.phi L nside t p
      = (2 * (p + Scheme.healpix.shift nside t)) * (Real.pi / ringSize nside t) := by
    intro p; simp only [Scheme.phi, Scheme.ringLen]; ring
  refine ⟨fun p => p2phi_ringF F t p nside, ?_, fun p hp0 hp1 => ?_, fun p q hp0 hpq hp1 => ?_⟩
  · unfold phis_ringF nphi_ring
    simp only [Scheme.ringLen]
    rcases lt_or_ge t (nside - 1) with a | a
    · rw [if_pos ⟨h0, a⟩, ringSize_north (by omega) h0]; rfl
    · rcases lt_or_ge (3 * nside - 1) t with b | b
      · rw [if_neg (by omega), if_neg (by omega), if_pos (by omega),
          ringSize_south (by omega) (by omega), show 4 * nside - t - 1 = 4 * nside - 1 - t by ring]; rfl
      · rw [if_neg (by omega), if_pos (by omega), ringSize_mid (by omega) (by omega)]; rfl
  · have hn := p2phi_ringF_rel F L hn hn1 h0 h1 hp0 hp1
    refine ⟨hn, ?_⟩
    have h2 := (abs_le.1 hn).2
    have h1' : (p : ℝ) + 1 ≤ ringSize nside t := by exact_mod_cast hp1
    have h3 : Scheme.healpix.phi L nside t p ≤ 2 * Real.pi - Real.pi / 2 ^ 42 := by
      have h4 : Scheme.healpix.phi L nside t p ≤ 2 * Real.pi - Real.pi / ringSize nside t := by
        rw [hphi, ← mul_div_assoc, div_le_iff₀ (by linarith), sub_mul,
          div_mul_cancel₀ _ (by linarith)]
        nlinarith [hsh.2]
      have h5 : Real.pi / 2 ^ 42 ≤ Real.pi / ringSize nside t := by gcongr
      linarith
    generalize Scheme.healpix.phi L nside t p = x at h2 h3
    norm_num at h2 h3
    linarith
  · have n1 := p2phi_ringF_rel F L hn hn1 h0 h1 hp0 (lt_trans hpq hp1)
    have n2 := p2phi_ringF_rel F L hn hn1 h0 h1 (by omega) hp1
    rw [hphi] at n1 n2
    have h2 : (p : ℝ) + 1 ≤ q := by exact_mod_cast hpq
    have h3 : (q : ℝ) + 1 ≤ ringSize nside t := by exact_mod_cast hp1
    have h4 : (0 : ℝ) ≤ p := by exact_mod_cast hp0
    exact rel_lt (div_pos hpi (by linarith)) (by linarith [hsh.1]) (by linarith)
      (by norm_num at hl1 ⊢; linarith [hsh.2]) n1 n2

/-- Every stored colatitude is in the range `[0, np.pi]`, except perhaps the last one of MW and
MWSS. -/
theorem C48_range_partial (F : DoubleLib) (lg : ℤ → ℤ → ℝ) (σ : Scheme)
    (hσ : σ = .mw ∨ σ = .mwss ∨ σ = .dh) (s : PyStr) (hs : lower s = σ.name) (L n : ℤ)
    (nside : Option ℤ) (hL : 1 ≤ L) (hL1 : L ≤ 2 ^ 40) :
    ∃ T, thetasF F lg (some L) s nside = .ok (σ.rings L n, T) ∧
      (∀ t, 0 ≤ t → t < σ.rings L n → 0 ≤ T t) ∧
      (∀ t, 0 ≤ t → t < σ.rings L n → (σ = .dh ∨ t < σ.rings L n - 1) → T t < F.fl Real.pi) := by
  obtain ⟨T, hT, hTt⟩ := thetasF_eq F lg hσ hs (n0 := n) (nside := nside) hL hL1
  obtain ⟨d1, d2⟩ := thDen_bounds hσ hL hL1
  have hd : (1 : ℝ) ≤ thDen L σ := by exact_mod_cast d1
  have hd' : (thDen L σ : ℝ) ≤ 2 ^ 42 := by exact_mod_cast d2
  have hP := flPi_pos F
  refine ⟨T, hT, fun t h0 h1 => ?_, fun t h0 h1 hlast => ?_⟩
  · obtain ⟨a1, a2, -, a4, -⟩ := thNum_bounds hσ hL1 h0 h1
    have ha : (0 : ℝ) ≤ thNum t σ := by exact_mod_cast a1
    rw [hTt t h0 a4]
    exact fl_nonneg F.nearest (div_nonneg (fl_nonneg F.nearest (by positivity)) (by linarith))
  · obtain ⟨a1, a2, -, a4, a5⟩ := thNum_bounds hσ hL1 h0 h1
    rw [hTt t h0 a4]
    have h2 := (abs_le.1 (ratioF_rel F a1 (by omega) d1 (by omega))).2
    have hpi := Real.pi_pos
    have hpi4 := Real.pi_le_four
    have h3 : (thNum t σ : ℝ) + 1 ≤ thDen L σ := by exact_mod_cast a5 hlast
    have h4 : thNum t σ * Real.pi / thDen L σ ≤ Real.pi - Real.pi / 2 ^ 42 := by
      have h5 : Real.pi / 2 ^ 42 ≤ Real.pi / thDen L σ := by gcongr
      have h6 : thNum t σ * Real.pi / thDen L σ ≤ Real.pi - Real.pi / thDen L σ := by
        rw [div_le_iff₀ (by linarith), sub_mul, div_mul_cancel₀ _ (by linarith)]
        nlinarith
      linarith
    have h7 := fl_near F.nearest (x := Real.pi) (B := Real.pi) (by rw [abs_of_pos hpi])
      (by linarith [Real.two_le_pi, show (1 : ℝ) / 2 ^ 200 ≤ 2 by norm_num])
    have h8 := (abs_le.1 h7).1
    generalize thNum t σ * Real.pi / thDen L σ = x at h2 h4
    norm_num at h2 h4 h8
    linarith

/-- The last stored colatitude need not be in the range: on the MW grid for `L = 24` and on the MWSS
grid for `L = 47` it is larger than `np.pi`, for every rounding rule, so that the plane of Wigner
functions at that ring is refused with an assertion error. -/
theorem C48_beyond_pi (F : DoubleLib) (lg : ℤ → ℤ → ℝ) :
    (∃ T, thetasF F lg (some 24) sMW none = .ok (24, T) ∧ F.fl Real.pi < T 23 ∧
      ∀ dl el, risboFullF F 47 47 dl (T 23) 24 el = .error .assertionError) ∧
    (∃ T, thetasF F lg (some 47) sMWSS none = .ok (48, T) ∧ F.fl Real.pi < T 47 ∧
      ∀ dl el, risboFullF F 93 93 dl (T 47) 47 el = .error .assertionError) := by
  have hf := F.nearest
  have hpi := flPi_eq F
  have refuse : ∀ rows dl b L el, F.fl Real.pi < b →
      risboFullF F rows rows dl b L el = .error .assertionError := by
    intro rows dl b L el hb
    have h : risboArgChecksF F rows rows b L el = .error .assertionError := by
      unfold risboArgChecksF
      split_ifs with h1 h2 h3
      · exact absurd h3.2 (not_le.2 hb)
      all_goals rfl
    unfold risboFullF
    rw [h]
    rfl
  have v1 : F.fl (F.fl ((47 : ℤ) * F.fl Real.pi) / (47 : ℤ)) = 7074237752028441 / 2 ^ 51 := by
    have e1 : F.fl ((47 : ℤ) * F.fl Real.pi) = 5195143349145886 / 2 ^ 45 := by
      rw [hpi, fl_eq_of_close hf (j := 5195143349145886) (k := -45) (by norm_num) (by norm_num)
        (by norm_num) (by rw [abs_lt]; constructor <;> norm_num)]
      norm_num
    rw [e1, fl_eq_of_close hf (j := 7074237752028441) (k := -51) (by norm_num) (by norm_num)
      (by norm_num) (by rw [abs_lt]; constructor <;> norm_num)]
    norm_num
  have v2 : F.fl (F.fl ((94 : ℤ) * F.fl Real.pi) / (94 : ℤ)) = 7074237752028441 / 2 ^ 51 := by
    have e1 : F.fl ((94 : ℤ) * F.fl Real.pi) = 5195143349145886 / 2 ^ 44 := by
      rw [hpi, fl_eq_of_close hf (j := 5195143349145886) (k := -44) (by norm_num) (by norm_num)
        (by norm_num) (by rw [abs_lt]; constructor <;> norm_num)]
      norm_num
    rw [e1, fl_eq_of_close hf (j := 7074237752028441) (k := -51) (by norm_num) (by norm_num)
      (by norm_num) (by rw [abs_lt]; constructor <;> norm_num)]
    norm_num
  constructor
  · obtain ⟨T, hT, hTt⟩ := thetasF_eq F lg (σ := .mw) (Or.inl rfl) (s := sMW) (by decide) (L := 24)
      (n0 := 0) (nside := none) (by norm_num) (by norm_num)
    have h := hTt 23 (by norm_num) (by norm_num)
    simp only [thNum, thDen] at h
    norm_num only at h
    norm_num only at v1
    have hb : F.fl Real.pi < T 23 := by rw [h, v1, hpi]; norm_num
    exact ⟨T, hT, hb, fun dl el => refuse _ _ _ _ _ hb⟩
  · obtain ⟨T, hT, hTt⟩ := thetasF_eq F lg (σ := .mwss) (Or.inr (Or.inl rfl)) (s := sMWSS) (by decide)
      (L := 47) (n0 := 0) (nside := none) (by norm_num) (by norm_num)
    have h := hTt 47 (by norm_num) (by norm_num)
    simp only [thNum, thDen] at h
    norm_num only at h
    norm_num only at v2
    have hb : F.fl Real.pi < T 47 := by rw [h, v2, hpi]; norm_num
    exact ⟨T, hT, hb, fun dl el => refuse _ _ _ _ _ hb⟩

/-- The tests for the poles in the Turok recursions (turok.py 142-148, 258-267; turok_jax.py 45-53)
recognise the stored colatitude of a ring exactly when the ring is a pole, for band-limits up to
`2¹⁴`. -/
theorem C48_poles (F : DoubleLib) (lg nodes : ℤ → ℤ → ℝ) (σ : Scheme)
    (hσ : σ = .mw ∨ σ = .mwss ∨ σ = .dh) (s : PyStr) (hs : lower s = σ.name) (L n : ℤ)
    (nside : Option ℤ) (hL : 1 ≤ L) (hL1 : L ≤ 2 ^ 14) :
    ∃ T, thetasF F lg (some L) s nside = .ok (σ.rings L n, T) ∧
      ∀ t, 0 ≤ t → t < σ.rings L n →
        (iscloseF F (T t) 0 1e-8 ↔ σ.theta nodes L n t = 0) ∧
        (iscloseF F (T t) (F.fl Real.pi) 1e-8 ↔ σ.theta nodes L n t = Real.pi) ∧
        (|T t| < F.fl 1e-10 ↔ σ.theta nodes L n t = 0) ∧
        (|F.fl (T t - F.fl Real.pi)| < F.fl 1e-10 ↔ σ.theta nodes L n t = Real.pi) := by
  have hf := F.nearest
  obtain ⟨T, hT, hnear, -⟩ :=
    C48_colatitudes F lg nodes σ hσ s hs L n nside hL (by omega)
  refine ⟨T, hT, fun t h0 h1 => ?_⟩
  have hN := hnear t h0 h1
  obtain ⟨d1, d2⟩ := thDen_bounds hσ hL (by omega)
  have d3 : thDen L σ ≤ 2 ^ 16 := by rcases hσ with rfl | rfl | rfl <;> simp only [thDen] <;> omega
  obtain ⟨a1, -, a3, -, -⟩ := thNum_bounds hσ (by omega) h0 h1
  have hd : (1 : ℝ) ≤ thDen L σ := by exact_mod_cast d1
  have hd' : (thDen L σ : ℝ) ≤ 2 ^ 16 := by exact_mod_cast d3
  have hpi1 := Real.pi_gt_d2
  have hpi2 := Real.pi_lt_d2
  have hstep : Real.pi / 2 ^ 16 ≤ Real.pi / thDen L σ := by gcongr
  -- the exact colatitude is a pole or far from it
  have hth := theta_ratio nodes hσ L n t
  have alt0 : σ.theta nodes L n t = 0 ∨ Real.pi / 2 ^ 16 ≤ σ.theta nodes L n t := by
    rw [hth]
    rcases (by omega : thNum t σ = 0 ∨ 1 ≤ thNum t σ) with h | h
    · left; rw [h]; simp
    · right
      have h' : (1 : ℝ) ≤ thNum t σ := by exact_mod_cast h
      refine le_trans hstep ?_
      gcongr
      nlinarith
  have alt1 : σ.theta nodes L n t = Real.pi ∨ σ.theta nodes L n t ≤ Real.pi - Real.pi / 2 ^ 16 := by
    rw [hth]
    rcases (by omega : thNum t σ = thDen L σ ∨ thNum t σ + 1 ≤ thDen L σ) with h | h
    · left; rw [h]; field_simp
    · right
      have h' : (thNum t σ : ℝ) + 1 ≤ thDen L σ := by exact_mod_cast h
      have : thNum t σ * Real.pi / thDen L σ ≤ Real.pi - Real.pi / thDen L σ := by
        rw [div_le_iff₀ (by linarith), sub_mul, div_mul_cancel₀ _ (by linarith)]
        nlinarith
      linarith
  have hle : 0 ≤ σ.theta nodes L n t ∧ σ.theta nodes L n t ≤ Real.pi := by
    constructor
    · rcases alt0 with h | h
      · rw [h]
      · exact le_trans (by positivity) h
    · rcases alt1 with h | h
      · rw [h]
      · linarith [show 0 ≤ Real.pi / 2 ^ 16 by positivity]
  unfold iscloseF
  rw [sub_zero]
  generalize σ.theta nodes L n t = θ at *
  generalize T t = x at *
  have hP := fl_near hf (x := Real.pi) (B := 4) (by rw [abs_of_pos Real.pi_pos]; exact Real.pi_le_four)
  have hP1 := flPi_pos F
  generalize F.fl Real.pi = P at *
  obtain ⟨p1, p2⟩ := abs_le.1 hP
  obtain ⟨x1, x2⟩ := abs_le.1 hN
  have xb : |x| ≤ 4 := by rw [abs_le]; norm_num at x1 x2; constructor <;> linarith
  have t1 := abs_le.1 (fl_near hf (x := 1e-8) (B := 1) (by norm_num [abs_of_pos]))
  have t2 := abs_le.1 (fl_near hf (x := 1e-5) (B := 1) (by norm_num [abs_of_pos]))
  have t3 := abs_le.1 (fl_near hf (x := 1e-10) (B := 1) (by norm_num [abs_of_pos]))
  generalize F.fl 1e-8 = A at *
  generalize F.fl 1e-5 = R at *
  generalize F.fl 1e-10 = S at *
  norm_num at t1 t2 t3 p1 p2 x1 x2 alt0 alt1
  -- the tolerances
  have tol0 : 1e-9 ≤ F.fl (A + F.fl (R * |(0 : ℝ)|)) ∧ F.fl (A + F.fl (R * |(0 : ℝ)|)) ≤ 2e-8 := by
    rw [abs_zero, mul_zero, fl_zero hf, add_zero]
    have := abs_le.1 (fl_near hf (x := A) (B := 1) (by rw [abs_le]; constructor <;> linarith))
    norm_num at this ⊢
    constructor <;> linarith
  have tolP : 1e-9 ≤ F.fl (A + F.fl (R * |P|)) ∧ F.fl (A + F.fl (R * |P|)) ≤ 33e-6 := by
    rw [abs_of_pos hP1]
    have hRP : 3e-5 ≤ R * P ∧ R * P ≤ 32e-6 := by constructor <;> norm_num <;> nlinarith
    have q1 := abs_le.1 (fl_near hf (x := R * P) (B := 1) (by
      norm_num at hRP; rw [abs_le]; constructor <;> linarith))
    generalize F.fl (R * P) = Q at *
    norm_num at q1 hRP
    have q2 := abs_le.1 (fl_near hf (x := A + Q) (B := 1) (by
      rw [abs_le]; constructor <;> linarith))
    norm_num at q2 ⊢
    constructor <;> linarith
  have hx0 : θ = 0 → x = 0 := by
    intro h; rw [h] at x1 x2; linarith
  have hfx := abs_le.1 (fl_near hf (x := x) (B := 4) xb)
  have hxP : |x - P| ≤ 8 := by
    obtain ⟨b1, b2⟩ := abs_le.1 xb
    rw [abs_le]; constructor <;> linarith
  have hfP := abs_le.1 (fl_near hf (x := x - P) (B := 8) hxP)
  generalize F.fl (A + F.fl (R * |(0 : ℝ)|)) = U at *
  generalize F.fl (A + F.fl (R * |P|)) = V at *
  norm_num at hfx hfP tol0 tolP
  refine ⟨⟨fun h => ?_, fun h => ?_⟩, ⟨fun h => ?_, fun h => ?_⟩, ⟨fun h => ?_, fun h => ?_⟩,
    ⟨fun h => ?_, fun h => ?_⟩⟩
  · rcases alt0 with h' | h'
    · exact h'
    · exfalso
      have := (abs_le.1 h).2
      linarith
  · rw [hx0 h, fl_zero hf, abs_zero]; linarith
  · rcases alt1 with h' | h'
    · exact h'
    · exfalso
      have := (abs_le.1 h).1
      linarith
  · rw [h] at x1 x2
    rw [abs_le]
    constructor <;> linarith
  · rcases alt0 with h' | h'
    · exact h'
    · exfalso
      have := (abs_lt.1 h).2
      linarith
  · rw [hx0 h, abs_zero]; linarith
  · rcases alt1 with h' | h'
    · exact h'
    · exfalso
      have := (abs_lt.1 h).1
      linarith
  · rw [h] at x1 x2
    rw [abs_lt]
    constructor <;> linarith

/-- The bound on the band-limit matters: on the DH grid for `L = 2¹⁵` the last ring, `π / 2¹⁷` away from
the pole, is mistaken for the pole by the NumPy recursion. -/
theorem C48_poles_limit (F : DoubleLib) (lg nodes : ℤ → ℤ → ℝ) :
    ∃ T, thetasF F lg (some (2 ^ 15)) sDH none = .ok (2 ^ 16, T) ∧
      iscloseF F (T (2 ^ 16 - 1)) (F.fl Real.pi) 1e-8 ∧
      Scheme.dh.theta nodes (2 ^ 15) 0 (2 ^ 16 - 1) < Real.pi := by
  have hf := F.nearest
  obtain ⟨T, hT, hnear, -⟩ := C48_colatitudes F lg nodes .dh (Or.inr (Or.inr rfl)) sDH (by decide)
    (2 ^ 15) 0 none (by norm_num) (by norm_num)
  have hN := hnear (2 ^ 16 - 1) (by norm_num) (by norm_num [Scheme.rings])
  have hpi1 := Real.pi_gt_d2
  have hpi2 := Real.pi_lt_d2
  have hth : Scheme.dh.theta nodes (2 ^ 15) 0 (2 ^ 16 - 1) = Real.pi - Real.pi / 2 ^ 17 := by
    simp only [Scheme.theta]; push_cast; ring
  rw [hth] at hN ⊢
  refine ⟨T, by simpa [Scheme.rings] using hT, ?_, by linarith [show 0 < Real.pi / 2 ^ 17 by positivity]⟩
  unfold iscloseF
  generalize T (2 ^ 16 - 1) = x at *
  have hP := fl_near hf (x := Real.pi) (B := 4) (by rw [abs_of_pos Real.pi_pos]; exact Real.pi_le_four)
  have hP1 := flPi_pos F
  generalize F.fl Real.pi = P at *
  obtain ⟨p1, p2⟩ := abs_le.1 hP
  obtain ⟨x1, x2⟩ := abs_le.1 hN
  have t1 := abs_le.1 (fl_near hf (x := 1e-8) (B := 1) (by norm_num [abs_of_pos]))
  have t2 := abs_le.1 (fl_near hf (x := 1e-5) (B := 1) (by norm_num [abs_of_pos]))
  generalize F.fl 1e-8 = A at *
  generalize F.fl 1e-5 = R at *
  norm_num at t1 t2 p1 p2 x1 x2
  have tolP : 3e-5 ≤ F.fl (A + F.fl (R * |P|)) := by
    rw [abs_of_pos hP1]
    have hRP : 31e-6 ≤ R * P ∧ R * P ≤ 32e-6 := by constructor <;> norm_num <;> nlinarith
    have q1 := abs_le.1 (fl_near hf (x := R * P) (B := 1) (by
      norm_num at hRP; rw [abs_le]; constructor <;> linarith))
    generalize F.fl (R * P) = Q at *
    norm_num at q1 hRP
    have q2 := abs_le.1 (fl_near hf (x := A + Q) (B := 1) (by
      rw [abs_le]; constructor <;> linarith))
    norm_num at q2 ⊢
    linarith
  generalize F.fl (A + F.fl (R * |P|)) = V at *
  have hfP := abs_le.1 (fl_near hf (x := x - P) (B := 8) (by rw [abs_le]; constructor <;> linarith))
  norm_num at hfP tolP
  rw [abs_le]
  constructor <;> linarith

/-- The hypotheses are met: the MWSS grid with 64 bands, written in capitals; its fourth ring is at
`3 π / 64`, stored to within `2⁻⁵¹`. -/
example (F : DoubleLib) (lg : ℤ → ℤ → ℝ) : ∃ T, thetasF F lg (some 64) ['M', 'W', 'S', 'S'] none
    = .ok (65, T) ∧ |T 3 - 3 * Real.pi / 64| ≤ 1 / 2 ^ 51 ∧ T 3 < T 64 := by
  obtain ⟨T, h1, h2, h3⟩ := C48_colatitudes F lg lg .mwss (Or.inr (Or.inl rfl)) ['M', 'W', 'S', 'S']
    (by decide) 64 0 none (by norm_num) (by norm_num)
  refine ⟨T, h1, le_trans (h2 3 (by norm_num) (by norm_num [Scheme.rings])) ?_,
    h3 3 64 (by norm_num) (by norm_num) (by norm_num [Scheme.rings])⟩
  simp only [Scheme.theta]
  have := Real.pi_le_four
  norm_num
  linarith

/-- The HEALPix grid with `nside = 4`. -/
example (F : DoubleLib) (lg : ℤ → ℤ → ℝ) : ∃ T, thetasF F lg none sHP (some 4) = .ok (15, T) ∧
    |T 7 - Real.pi / 2| ≤ 4 / 2 ^ 47 := by
  obtain ⟨T, h1, h2, -⟩ := C48_colatitudes_healpix F lg lg sHP (by decide) none 0 4 (by norm_num)
    (by norm_num)
  refine ⟨T, h1, ?_⟩
  have := h2 7 (by norm_num) (by norm_num [Scheme.rings])
  simp only [Scheme.theta, Scheme.healpixZ] at this
  norm_num at this ⊢
  exact this

end S2fft
