import Verif.Lemmas.Double
import Verif.Lemmas.HealpixPixels

/-! # C45: integers computed through floats are exact in double precision -/

namespace S2fft
open Spec

/-- `ind2elm` in double precision inverts `elm2ind` for all degrees below `2²⁶`, whatever the rule for
ties. (Degrees below `2²⁶` have `2⁵²` coefficients.) -/
theorem C45_index (F : DoubleLib) (el m : ℤ) (h : |m| ≤ el) (hel : el < 2 ^ 26) :
    ind2elmF F (elm2ind el m) = ((el : ℝ), (m : ℝ)) := by
  obtain ⟨h1, h2⟩ := abs_le.1 h
  rw [ind2elmF_eq F (k := el) (by omega) (by omega) (by unfold elm2ind; nlinarith)
    (by unfold elm2ind; nlinarith)]
  congr 2
  unfold elm2ind
  ring

/-- For larger degrees the conversion of the index to a float loses digits: the last index of degree
`2²⁸ - 1` is assigned the degree `2²⁸`. -/
theorem C45_index_limit (F : DoubleLib) :
    (ind2elmF F (elm2ind (2 ^ 28 - 1) (2 ^ 28 - 1))).1 = 2 ^ 28 := by
  have hf := F.nearest
  have e0 : elm2ind (2 ^ 28 - 1) (2 ^ 28 - 1) = 2 ^ 56 - 1 := by unfold elm2ind; norm_num
  -- near `2 ^ 56` doubles are multiples of eight
  have e1 : F.fl ((2 ^ 56 - 1 : ℤ) : ℝ) = 2 ^ 56 := by
    have hd : IsDouble (2 ^ 56 : ℝ) := ⟨2 ^ 52, 4, by norm_num, by norm_num, by norm_num⟩
    have h := (hf ((2 ^ 56 - 1 : ℤ) : ℝ)).2 _ hd
    obtain ⟨m, e, hm, -, he⟩ := (hf ((2 ^ 56 - 1 : ℤ) : ℝ)).1
    have e2 : |((2 ^ 56 - 1 : ℤ) : ℝ) - 2 ^ 56| = 1 := by push_cast; norm_num
    rw [e2] at h
    obtain ⟨h1, h2⟩ := abs_le.1 h
    rw [he] at h1 h2 ⊢
    push_cast at h1 h2
    have hm' : |(m : ℝ)| ≤ 2 ^ 53 := by exact_mod_cast hm
    have he3 : 3 ≤ e := by
      by_contra hc
      have h3 : (2 : ℝ) ^ e ≤ (2 : ℝ) ^ (2 : ℤ) := zpow_le_zpow_right₀ (by norm_num) (by omega)
      have h4 : (m : ℝ) * (2 : ℝ) ^ e ≤ 2 ^ 53 * 4 := by
        have h5 : (0 : ℝ) < (2 : ℝ) ^ e := by positivity
        have h6 : (m : ℝ) ≤ 2 ^ 53 := le_trans (le_abs_self _) hm'
        have h7 : (2 : ℝ) ^ (2 : ℤ) = 4 := by norm_num
        rw [h7] at h3
        nlinarith
      norm_num at *
      linarith
    obtain ⟨j, rfl⟩ : ∃ j : ℕ, e = 3 + j := ⟨(e - 3).toNat, by omega⟩
    have hz : (m : ℝ) * (2 : ℝ) ^ (3 + (j : ℤ)) = ((m * 2 ^ j * 8 : ℤ) : ℝ) := by
      push_cast
      rw [zpow_add₀ (by norm_num), zpow_natCast]
      norm_num
      ring
    rw [hz] at h1 h2 ⊢
    have h3 : m * 2 ^ j * 8 ≤ 2 ^ 56 := by
      have : ((m * 2 ^ j * 8 : ℤ) : ℝ) ≤ 2 ^ 56 := by linarith
      exact_mod_cast this
    have h4 : 2 ^ 56 - 2 ≤ m * 2 ^ j * 8 := by
      have : (2 : ℝ) ^ 56 - 2 ≤ ((m * 2 ^ j * 8 : ℤ) : ℝ) := by linarith
      exact_mod_cast this
    have h5 : m * 2 ^ j * 8 = 2 ^ 56 := by omega
    rw [h5]; norm_num
  have e3 : Real.sqrt (2 ^ 56) = ((2 ^ 28 : ℤ) : ℝ) := by
    rw [show (2 : ℝ) ^ 56 = (2 ^ 28) ^ 2 by norm_num, Real.sqrt_sq (by positivity)]; norm_num
  unfold ind2elmF
  simp only
  rw [e0, e1, e3, fl_int hf (by norm_num), Int.floor_intCast]
  norm_num

/-- The lookup in double precision of the centre of pixel `p` of ring `t`, as stored in double
precision, is the number of pixels in earlier rings plus `p`, for every resolution up to `2¹⁸`. -/
theorem C45_pixel_centres (F : DoubleLib) (nside t p : ℤ) (hn : 1 ≤ nside) (hn1 : nside ≤ 2 ^ 18)
    (ht0 : 0 ≤ t) (ht1 : t < 4 * nside - 1) (hp0 : 0 ≤ p) (hp1 : p < ringSize nside t) :
    hp_ang2pixF F nside (t2theta_healpixF F t nside) (p2phi_ringF F t p nside)
      = ringStart nside t + p := by
  have hf := F.nearest
  have hn0 : (0 : ℝ) < nside := by exact_mod_cast (by omega : 0 < nside)
  have hn2 : (nside : ℝ) ≤ 2 ^ 18 := by exact_mod_cast hn1
  have hz := ringZF_near F hn hn1 ht0 ht1
  have h23 := fl_near hf (le_refl |(2 / 3 : ℝ)|) (by norm_num [abs_of_pos])
  rw [abs_of_pos (by norm_num : (0 : ℝ) < 2 / 3)] at h23
  obtain ⟨c1, c2⟩ := abs_le.1 h23
  unfold hp_ang2pixF
  generalize F.cos (t2theta_healpixF F t nside) = z at hz
  have hzz : |(|z|) - (|ringZ nside t|)| ≤ 1 / 2 ^ 48 := le_trans (abs_abs_sub_abs_le _ _) hz
  obtain ⟨z1, z2⟩ := abs_le.1 hz
  obtain ⟨y1, y2⟩ := abs_le.1 hzz
  have hgap : 1 / 2 ^ 20 ≤ 1 / (3 * (nside : ℝ)) := by
    rw [div_le_div_iff₀ (by positivity) (by positivity)]; norm_num at *; linarith
  -- northern cap
  have north : t + 1 ≤ nside → ¬ |z| < F.fl (2 / 3) →
      hp_zphi2pixF F nside z (p2phi_ringF F t p nside) = ringStart nside t + p := by
    intro h hb
    obtain ⟨a, b⟩ := abs_ringZ_north ht0 h
    have hp1' := hp1
    rw [ringSize_north (by omega) ht0] at hp1'
    have hzpos : ¬ z ≤ 0 := by
      have hb := polar_bound (n := nside) (i := t + 1) (by omega) h
      rw [← abs_of_pos b, a] at z1
      push Not
      norm_num at *
      linarith
    rw [polarF_lookup F hn1 (i := t + 1) (by omega) h hp0 hp1' (by rw [← a]; exact hzz)
      (polarQuarterF F hn1 (by omega) h (Or.inl rfl) hp0 hp1') hb, if_neg hzpos,
      ringStart_north' ht0 h]
  have south : 3 * nside ≤ t + 1 → ¬ |z| < F.fl (2 / 3) →
      hp_zphi2pixF F nside z (p2phi_ringF F t p nside) = ringStart nside t + p := by
    intro h hb
    obtain ⟨a, b⟩ := abs_ringZ_south hn ht1 h
    have hp1' := hp1
    rw [ringSize_south (by omega) (by omega)] at hp1'
    have hzneg : z ≤ 0 := by
      have hb := polar_bound (n := nside) (i := 4 * nside - 1 - t) (by omega) (by omega)
      have b' := abs_of_neg b
      rw [a] at b'
      norm_num at *
      linarith
    rw [polarF_lookup F hn1 (i := 4 * nside - 1 - t) (by omega) (by omega) hp0 hp1'
      (by rw [← a]; exact hzz)
      (polarQuarterF F hn1 (by omega) (by omega) (Or.inr rfl) hp0 hp1') hb, if_pos hzneg,
      ringStart_south' hn ht1 h]
  have mid : nside ≤ t + 1 → t + 1 ≤ 3 * nside → |z| < F.fl (2 / 3) →
      hp_zphi2pixF F nside z (p2phi_ringF F t p nside) = ringStart nside t + p := by
    intro h h' hb
    have hp1' := hp1
    rw [ringSize_mid (by omega) (by omega)] at hp1'
    rw [ringZ_mid h h'] at hz
    rw [equatorialF_lookup F hn hn1 (i := t + 1) h h' hp0 hp1' (by push_cast; exact hz)
      (midQuarterF F hn hn1 h h' hp0 hp1') hb, ringStart_mid' hn h h']
  -- a ring strictly inside a cap is above the threshold
  have cap : ∀ i : ℤ, 1 ≤ i → i < nside → |ringZ nside t| = 1 - (i : ℝ) ^ 2 / (3 * (nside : ℝ) ^ 2) →
      ¬ |z| < F.fl (2 / 3) := by
    intro i hi hin e
    have hi' : (1 : ℝ) ≤ i := by exact_mod_cast hi
    have hin' : (i : ℝ) + 1 ≤ nside := by exact_mod_cast hin
    have hq : (i : ℝ) ^ 2 / (3 * (nside : ℝ) ^ 2) ≤ 1 / 3 - 1 / (3 * nside) := by
      have e2 : 1 / 3 - 1 / (3 * (nside : ℝ)) = (nside ^ 2 - nside) / (3 * (nside : ℝ) ^ 2) := by
        field_simp
      rw [e2]
      gcongr
      nlinarith
    rw [e] at y1
    push Not
    norm_num at *
    linarith
  rcases lt_trichotomy (t + 1) nside with h | h | h
  · exact north h.le (cap (t + 1) (by omega) h (abs_ringZ_north ht0 h.le).1)
  · by_cases hb : |z| < F.fl (2 / 3)
    · exact mid (by omega) (by omega) hb
    · exact north (by omega) hb
  · rcases lt_trichotomy (t + 1) (3 * nside) with h' | h' | h'
    · refine mid h.le h'.le ?_
      have hb : |ringZ nside t| ≤ 2 / 3 - 2 * (1 / (3 * (nside : ℝ))) := by
        rw [ringZ_mid h.le h'.le]
        have t1 : (nside : ℝ) + 1 ≤ t + 1 := by exact_mod_cast h
        have t2 : (t : ℝ) + 1 + 1 ≤ 3 * nside := by exact_mod_cast h'
        have e1 : 2 * ((t : ℝ) + 1) / (3 * nside) = 2 / 3 * ((t + 1) / nside) := by field_simp
        have e2 : 1 / (3 * (nside : ℝ)) = 1 / 3 * (1 / nside) := by field_simp
        have d1 : 1 + 1 / (nside : ℝ) ≤ (t + 1) / nside := by
          rw [← sub_nonneg, show ((t : ℝ) + 1) / nside - (1 + 1 / nside) = (t - nside) / nside by
            field_simp; ring]
          exact div_nonneg (by linarith) hn0.le
        have d2 : ((t : ℝ) + 1) / nside ≤ 3 - 1 / nside := by
          rw [← sub_nonneg, show 3 - 1 / (nside : ℝ) - (t + 1) / nside
            = (3 * nside - 1 - (t + 1)) / nside by field_simp]
          exact div_nonneg (by linarith) hn0.le
        rw [e1, e2, abs_le]
        constructor <;> linarith
      norm_num at *
      linarith
    · by_cases hb : |z| < F.fl (2 / 3)
      · exact mid (by omega) (by omega) hb
      · exact south (by omega) hb
    · exact south h'.le (cap (4 * nside - 1 - t) (by omega) (by omega)
        (abs_ringZ_south hn ht1 h'.le).1)

/-- The length of lists in healpy's order, computed by a division of floats, is right for band-limits
below `2²⁶`. -/
theorem C45_healpy_length (F : DoubleLib) (L : ℤ) (hL0 : 0 ≤ L) (hL : L < 2 ^ 26) :
    hpCountF F L = L * (L + 1) / 2 := by
  obtain ⟨k, hk⟩ : ∃ k, L * (L + 1) = 2 * k := by
    obtain ⟨k, hk⟩ := Int.even_mul_succ_self L
    exact ⟨k, by rw [hk]; ring⟩
  have hk0 : 0 ≤ k := by nlinarith
  have hk1 : k ≤ 2 ^ 53 := by nlinarith
  unfold hpCountF
  rw [hk, show ((2 * k : ℤ) : ℝ) / 2 = (k : ℝ) by push_cast; ring,
    fl_int F.nearest (by rw [abs_of_nonneg hk0]; exact hk1), Int.mul_ediv_cancel_left _ (by norm_num)]
  exact pyInt_eq hk0 le_rfl (by linarith)

/-- `int(a / b)` is the quotient without remainder for all `a` below `2⁵³`: this is how rings and
degrees are divided among devices and Gauss-Legendre nodes counted. -/
theorem C45_division (F : DoubleLib) (a b : ℤ) (ha0 : 0 ≤ a) (ha : a < 2 ^ 53) (hb : 0 < b) :
    intDivF F a b = a / b := by
  have hf := F.nearest
  have hb' : (0 : ℝ) < b := by exact_mod_cast hb
  have ha0' : (0 : ℝ) ≤ a := by exact_mod_cast ha0
  have ha' : (a : ℝ) < 2 ^ 53 := by exact_mod_cast ha
  have hq0 : 0 ≤ a / b := Int.ediv_nonneg ha0 hb.le
  have hq1 : a / b ≤ a := Int.ediv_le_self b ha0
  have hdiv : (a : ℝ) = b * ((a / b : ℤ) : ℝ) + ((a % b : ℤ) : ℝ) := by
    exact_mod_cast (Int.mul_ediv_add_emod a b).symm
  have hr0 : (0 : ℝ) ≤ ((a % b : ℤ) : ℝ) := by exact_mod_cast Int.emod_nonneg a (by omega)
  have hr1 : ((a % b : ℤ) : ℝ) + 1 ≤ b := by exact_mod_cast Int.emod_lt_of_pos a hb
  obtain ⟨q, hq⟩ : ∃ q, q = a / b := ⟨_, rfl⟩
  rw [← hq] at hdiv hq0 hq1 ⊢
  have hx1 : (q : ℝ) ≤ a / b := by rw [le_div_iff₀ hb']; linarith
  have hx2 : (a : ℝ) / b + 1 / b ≤ q + 1 := by
    rw [← add_div, div_le_iff₀ hb']; linarith
  have hab : (0 : ℝ) ≤ a / b := by positivity
  unfold intDivF
  refine pyInt_eq hq0 ?_ ?_
  · by_contra hc
    push Not at hc
    have h := (hf ((a : ℝ) / b)).2 q (isDouble_int (by rw [abs_of_nonneg hq0]; omega))
    rw [abs_of_nonneg (by linarith), abs_of_nonneg (by linarith)] at h
    linarith
  · rcases le_total ((a : ℝ) / b) (1 / 2) with hs | hs
    · have hnear := fl_near hf (x := (a : ℝ) / b) (B := 1 / 2) (by rw [abs_of_nonneg hab]; exact hs)
      have h1 := le_trans (le_abs_self _) hnear
      have hq0' : (0 : ℝ) ≤ q := by exact_mod_cast hq0
      norm_num at h1
      linarith
    have hnear := fl_near hf (x := (a : ℝ) / b) (le_of_eq (abs_of_nonneg hab))
    have h1 := le_trans (le_abs_self _) hnear
    have h2 : (a : ℝ) / b / 2 ^ 53 < 1 / b := by
      rw [div_div, div_lt_div_iff₀ (by positivity) hb']
      nlinarith
    linarith

/-- Witness: a floating point library as assumed exists, and the hypotheses are met. -/
example : ∃ _F : DoubleLib, |(-3 : ℤ)| ≤ 5 ∧ (5 : ℤ) < 2 ^ 26 ∧ (1024 : ℤ) ≤ 2 ^ 18 ∧
    (17 : ℤ) < ringSize 1024 5 ∧ (0 : ℤ) < 3 :=
  ⟨exactLib, by decide, by decide, by decide, by decide, by decide⟩

end S2fft
