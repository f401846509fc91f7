import Verif.Model.ResamplingJaxDouble
import Verif.Lemmas.PrecomputeJaxDouble
import Verif.Lemmas.ResamplingDouble4

/-! # Resampling and its weights in JAX, in double precision -/

namespace S2fft
open Spec

/-- The error of rounding any number. -/
theorem fl_any {fl : ℝ → ℝ} (hf : RoundsToNearest fl) (x : ℝ) :
    |fl x - x| ≤ |x| / 2 ^ 53 + 1 / 2 ^ 1074 := by
  have hp : (0 : ℝ) ≤ 1 / 2 ^ 1074 := by positivity
  by_cases h0 : x = 0
  · subst h0
    rw [fl_zero hf, sub_zero, abs_zero, zero_div, zero_add]
    exact hp
  rw [abs_sub_comm]
  refine le_trans ((hf x).2 _ (roundSig_double x)) (le_trans (roundSig_near x) ?_)
  unfold sigExp
  rcases le_total (Int.log 2 |x| - 52) (-1074) with h | h
  · rw [max_eq_right h, show (2 : ℝ) ^ (-1074 : ℤ) = 1 / 2 ^ 1074 by
      rw [zpow_neg, one_div]; norm_cast]
    have : 0 ≤ |x| / 2 ^ 53 := by positivity
    generalize (1 / 2 ^ 1074 : ℝ) = τ at *
    linarith
  · rw [max_eq_left h]
    have h1 := (log_bounds h0).1
    rw [zpow_split] at h1
    generalize (1 / 2 ^ 1074 : ℝ) = τ at *
    generalize (2 : ℝ) ^ (Int.log 2 |x| - 52) = q at *
    norm_num at h1 ⊢
    linarith

/-- A division by a constant, however it is compiled. -/
theorem quot_near (F : XlaLib) (at_ : List ℤ) {n : ℝ} (hn1 : 1 ≤ n) (hn2 : n ≤ 2 ^ 28) (x : ℝ) :
    |F.quot at_ x n - x / n| ≤ |x| / n * (3 / 2 ^ 53) + 1 / 2 ^ 1074 := by
  have hf := F.nearest
  have hn0 : 0 < n := by linarith
  obtain ⟨d, hd, ed⟩ := flInv_near hf hn1 hn2
  have hp : (0 : ℝ) ≤ 1 / 2 ^ 1074 := by positivity
  have hxn : |x / n| = |x| / n := by rw [abs_div, abs_of_pos hn0]
  have hx0 : 0 ≤ |x| / n := by positivity
  rcases F.quot_is at_ x n with e | e
  · rw [e]
    refine (fl_any hf _).trans ?_
    rw [hxn]
    generalize (1 / 2 ^ 1074 : ℝ) = τ at *
    norm_num
    linarith
  · rw [e, ed, show x * (1 / n * (1 + d)) = x / n * (1 + d) by ring]
    have h1 := fl_any hf (x / n * (1 + d))
    have h2 : |x / n * (1 + d) - x / n| ≤ |x| / n * (1 / 2 ^ 53) := by
      rw [show x / n * (1 + d) - x / n = x / n * d by ring, abs_mul, hxn]
      gcongr
    have h3 : |x / n * (1 + d)| ≤ |x| / n * 2 := by
      rw [abs_mul, hxn]
      have := abs_add_le 1 d
      norm_num at this hd
      gcongr
      linarith
    have h4 := abs_sub_le (F.fl (x / n * (1 + d))) (x / n * (1 + d)) (x / n)
    have h5 : |x / n * (1 + d)| / 2 ^ 53 ≤ |x| / n * 2 / 2 ^ 53 := by gcongr
    generalize (1 / 2 ^ 1074 : ℝ) = τ at *
    generalize |x| / n = y at *
    have e1 : y * (3 / 2 ^ 53) = y * 2 / 2 ^ 53 + y * (1 / 2 ^ 53) := by ring
    linarith

/-- The division after the conjugation. -/
theorem cquotJ_near (F : XlaLib) (at_ : List ℤ) {n : ℤ} (hn : 1 ≤ n) (h28 : n ≤ 2 ^ 28) :
    ScaleNear n (fun z => cquotJ F at_ z n) := by
  intro y' y
  have hn1 : (1 : ℝ) ≤ n := by exact_mod_cast hn
  have hn2 : (n : ℝ) ≤ 2 ^ 28 := by exact_mod_cast h28
  have hn0 : (0 : ℝ) < n := by linarith
  have h1 := quot_near F (0 :: at_) hn1 hn2 y'.re
  have h2 := quot_near F (1 :: at_) hn1 hn2 y'.im
  have h3 : ‖cquotJ F at_ y' n - y' / n‖ ≤ ‖y'‖ / n * (6 / 2 ^ 53) + 1 / 2 ^ 1073 := by
    refine (Complex.norm_le_abs_re_add_abs_im _).trans ?_
    have er : (y' / (n : ℂ)).re = y'.re / n := Complex.div_intCast_re y' n
    have ei : (y' / (n : ℂ)).im = y'.im / n := Complex.div_intCast_im y' n
    rw [Complex.sub_re, Complex.sub_im, er, ei]
    refine (add_le_add h1 h2).trans ?_
    have a1 : |y'.re| / n ≤ ‖y'‖ / n := div_le_div_of_nonneg_right (Complex.abs_re_le_norm _) hn0.le
    have a2 : |y'.im| / n ≤ ‖y'‖ / n := div_le_div_of_nonneg_right (Complex.abs_im_le_norm _) hn0.le
    have e1 : (1 / 2 ^ 1073 : ℝ) = 2 * (1 / 2 ^ 1074) := by
      rw [pow_succ (2 : ℝ) 1073]; field_simp
    rw [e1]
    generalize (1 / 2 ^ 1074 : ℝ) = τ at *
    norm_num
    linarith
  have h4 : ‖y' / (n : ℂ) - y / n‖ = 1 / n * ‖y' - y‖ := by
    rw [← sub_div, norm_div, Complex.norm_intCast, abs_of_pos hn0]
    ring
  have h5 := norm_sub_le_norm_sub_add_norm_sub (cquotJ F at_ y' n) (y' / n) (y / n)
  have h6 := norm_le_norm_add_norm_sub' y' y
  have h7 : ‖y'‖ / n ≤ 1 / n * ‖y‖ + 1 / n * ‖y' - y‖ := by
    rw [← mul_add, div_eq_mul_one_div, mul_comm]
    gcongr
  have h8 : (1 / 2 ^ 1073 : ℝ) ≤ 1 / 2 ^ 1000 :=
    one_div_le_one_div_of_le (by positivity) (pow_le_pow_right₀ (by norm_num) (by norm_num))
  have q1 : 0 ≤ 1 / (n : ℝ) * ‖y‖ := by positivity
  have q2 : 0 ≤ 1 / (n : ℝ) * ‖y' - y‖ := by positivity
  show ‖cquotJ F at_ y' n - y / n‖ ≤ _
  rw [show 1 / (n : ℝ) * (1 + 1 / 2 ^ 48) * ‖y' - y‖ = 1 / n * ‖y' - y‖ + 1 / 2 ^ 48 * (1 / n * ‖y' - y‖)
    by ring, show 1 / (n : ℝ) * (1 / 2 ^ 48) * ‖y‖ = 1 / 2 ^ 48 * (1 / n * ‖y‖) by ring]
  generalize (1 / 2 ^ 1073 : ℝ) = τ at *
  generalize (1 / 2 ^ 1000 : ℝ) = τ' at *
  generalize 1 / (n : ℝ) * ‖y‖ = a at *
  generalize 1 / (n : ℝ) * ‖y' - y‖ = b at *
  generalize ‖y'‖ / n = c at *
  norm_num at h3 ⊢
  linarith

/-- The phases of the shift of the grid. -/
theorem mwssPhaseJ_near (F : XlaLib) (fold : Bool) {L m : ℤ} (hL : 1 ≤ L) (hL1 : L ≤ 2 ^ 26) (hm : |m| < L) :
    ‖mwssPhaseJ F fold L m - cis (-((m : ℝ) * Real.pi / (2 * L - 1)))‖ ≤ 6 / 2 ^ 50 := by
  have hf := F.nearest
  have hL' : (1 : ℝ) ≤ L := by exact_mod_cast hL
  have hL2 : (L : ℝ) ≤ 2 ^ 26 := by exact_mod_cast hL1
  have hm1 : 2 * |(m : ℝ)| ≤ 2 * L - 1 := by
    rw [← Int.cast_abs]
    exact_mod_cast (by omega : 2 * |m| ≤ 2 * L - 1)
  have hpi := Real.pi_le_four
  have hpi0 := Real.pi_pos
  unfold mwssPhaseJ
  push_cast
  obtain ⟨R, hR⟩ : ∃ R : ℝ, R = 2 * L - 1 := ⟨_, rfl⟩
  rw [← hR] at hm1 ⊢
  have hR1 : 1 ≤ R := by linarith
  have hR2 : R ≤ 2 ^ 28 := by norm_num at hL2 ⊢; linarith
  have hR0 : 0 < R := by linarith
  have h0 := fl_near hf (x := Real.pi) (B := 4) (by rw [abs_of_pos hpi0]; exact hpi)
  have hA : |(-(m : ℝ)) * Real.pi| ≤ 2 * R := by
    rw [abs_mul, abs_neg, abs_of_pos hpi0]
    nlinarith [abs_nonneg (m : ℝ)]
  refine phase_near F.toDoubleLib ?_
  split_ifs
  · obtain ⟨d, hd, ed⟩ := flInv_near hf hR1 hR2
    have hp5 : |F.fl Real.pi| ≤ 5 := by
      have := abs_sub_abs_le_abs_sub (F.fl Real.pi) Real.pi
      rw [abs_of_pos hpi0] at this
      norm_num at h0
      linarith
    have h1 : |F.fl Real.pi * F.fl (1 / R) - Real.pi / R| ≤ 9 / 2 ^ 53 / R := by
      rw [ed, show F.fl Real.pi * (1 / R * (1 + d)) - Real.pi / R
        = ((F.fl Real.pi - Real.pi) + F.fl Real.pi * d) / R by ring, abs_div, abs_of_pos hR0]
      refine div_le_div_of_nonneg_right ?_ hR0.le
      refine (abs_add_le _ _).trans ?_
      rw [abs_mul]
      calc |F.fl Real.pi - Real.pi| + |F.fl Real.pi| * |d| ≤ 4 / 2 ^ 53 + 5 * (1 / 2 ^ 53) := by gcongr
        _ = 9 / 2 ^ 53 := by norm_num
    have h2 := fl_step hf h1 (B := 5 / R) (by
      rw [abs_div, abs_of_pos hpi0, abs_of_pos hR0, ← add_div]
      exact div_le_div_of_nonneg_right (by norm_num; linarith) hR0.le) (by
      rw [div_le_div_iff₀ (by positivity) hR0]; norm_num at hR2 ⊢; linarith)
    generalize F.fl (F.fl Real.pi * F.fl (1 / R)) = q at h2 ⊢
    have h3 : |-(m : ℝ) * q - -((m : ℝ) * Real.pi / R)| ≤ 7 / 2 ^ 53 := by
      rw [show -(m : ℝ) * q - -((m : ℝ) * Real.pi / R) = -(m : ℝ) * (q - Real.pi / R) by ring, abs_mul,
        abs_neg]
      calc |(m : ℝ)| * |q - Real.pi / R| ≤ R / 2 * (9 / 2 ^ 53 / R + 5 / R / 2 ^ 53) := by
            gcongr; linarith
        _ = 7 / 2 ^ 53 := by field_simp; norm_num
    have hA2 : |-((m : ℝ) * Real.pi / R)| ≤ 2 := by
      rw [show -((m : ℝ) * Real.pi / R) = -(m : ℝ) * Real.pi / R by ring, abs_div, abs_of_pos hR0,
        div_le_iff₀ hR0]
      exact hA
    refine (fl_step hf h3 (B := 3) ?_).trans (by norm_num)
    generalize |-((m : ℝ) * Real.pi / R)| = z at *
    norm_num; linarith
  · have h1 : |-(m : ℝ) * F.fl Real.pi - -(m : ℝ) * Real.pi| ≤ 2 * R / 2 ^ 53 := by
      rw [← mul_sub, abs_mul, abs_neg]
      calc |(m : ℝ)| * |F.fl Real.pi - Real.pi| ≤ (R / 2) * (4 / 2 ^ 53) := by
            gcongr; linarith
        _ = 2 * R / 2 ^ 53 := by ring
    have h2 := fl_step hf h1 (B := 3 * R) (by norm_num; norm_num at hA; linarith)
      (by norm_num; linarith)
    generalize F.fl (-(m : ℝ) * F.fl Real.pi) = p at h2 ⊢
    rw [show -((m : ℝ) * Real.pi / R) = -(m : ℝ) * Real.pi / R by ring]
    generalize -(m : ℝ) * Real.pi = A at hA h2 ⊢
    have h3 := quot_near F [m, 83] hR1 hR2 p
    have h4 : |p / R - A / R| ≤ 5 / 2 ^ 53 := by
      rw [← sub_div, abs_div, abs_of_pos hR0, div_le_iff₀ hR0]
      refine h2.trans (le_of_eq (by ring))
    have h5 : |p| / R ≤ 3 := by
      rw [div_le_iff₀ hR0]
      have := abs_sub_abs_le_abs_sub p A
      norm_num at h2
      linarith
    have h6 : |p| / R * (3 / 2 ^ 53) ≤ 3 * (3 / 2 ^ 53) := by gcongr
    have h7 : (1 / 2 ^ 1074 : ℝ) ≤ 1 / 2 ^ 53 :=
      one_div_le_one_div_of_le (by positivity) (pow_le_pow_right₀ (by norm_num) (by norm_num))
    have h8 := abs_sub_le (F.quot [m, 83] p R) (p / R) (A / R)
    generalize (1 / 2 ^ 1074 : ℝ) = τ at *
    norm_num at h4 h6 h7 ⊢
    linarith

/-- The resampling of the forward transforms. -/
noncomputable def resJ (F : XlaLib) (fold : Bool) (σ : Scheme) (L : ℤ) (f : ℤ → ℤ → ℂ) (spin : ℤ) :
    ℤ → ℤ → ℂ :=
  match σ with
  | .mw => upsampleJ F L (mwToMwssJ F fold L f spin) spin
  | .mwss => upsampleJ F L f spin
  | _ => f

theorem resJ_near (F : XlaLib) (fold : Bool) {σ : Scheme} (hσ : σ.Resampled) {L : ℤ} (hL : 1 ≤ L)
    (hL1 : L ≤ 2 ^ 26) : ResampleNear σ L (resJ F fold σ L) := by
  have h := resG_near (jaxFft F.toFftLib) hσ hL hL1
    (S := fun t p z => cquotJ F [t, p, 219] z (2 * L - 1))
    (fun t p => cquotJ_near F [t, p, 219] (by omega) (by omega)) (ph := mwssPhaseJ F fold L)
    (fun m hm => mwssPhaseJ_near F fold hL hL1 hm)
  rcases hσ with rfl | rfl <;> exact h

/-! ## Quadrature weights -/

theorem mwssWrJ_near (F : XlaLib) {N : ℤ} (hN : 2 ≤ N) (hN1 : N ≤ 2 ^ 27) {t : ℤ} (t0 : 0 ≤ t)
    (t1 : t < 2 * N) : |mwssWrJ F N t - mwss_wr N t| ≤ 12 / 2 ^ 50 ∧
      |mwssFftJ F N t * F.fl (1 / ((2 * N : ℤ) : ℝ)) - mwss_wr N t| ≤ 11 / 2 ^ 50 := by
  have hf := F.nearest
  obtain ⟨h4, h6⟩ := mwssFft_near F.toFftLib hN hN1 t0 t1
  have hn1 : (1 : ℝ) ≤ ((2 * N : ℤ) : ℝ) := by exact_mod_cast (by omega : 1 ≤ 2 * N)
  have hn2 : ((2 * N : ℤ) : ℝ) ≤ 2 ^ 28 := by exact_mod_cast (by omega : 2 * N ≤ 2 ^ 28)
  have ey : (F.fft (2 * N) (ifftshift (2 * N) (forRange (-(N - 1) + 1) (N + 1)
      (fun i w => set1 w (i + N - 1) (mwWeightsF F.toDoubleLib (i - 1))) 0)) t).re = mwssFftJ F N t := rfl
  rw [ey] at h4
  unfold mwssWrJ
  generalize mwssFftJ F N t = y at *
  generalize ((2 * N : ℤ) : ℝ) = n at *
  generalize mwss_wr N t = z at *
  have hn0 : 0 < n := by linarith
  have hy : |y| / n ≤ 3 := by
    have a1 := abs_sub_abs_le_abs_sub (y / n) z
    rw [abs_div, abs_of_pos hn0] at a1
    norm_num at h4
    linarith
  obtain ⟨d, hd, ed⟩ := flInv_near hf hn1 hn2
  constructor
  · have h3 := quot_near F [t, 278] hn1 hn2 y
    have h8 := abs_sub_le (F.quot [t, 278] y n) (y / n) z
    have h7 : (1 / 2 ^ 1074 : ℝ) ≤ 1 / 2 ^ 54 :=
      one_div_le_one_div_of_le (by positivity) (pow_le_pow_right₀ (by norm_num) (by norm_num))
    have h5 : |y| / n * (3 / 2 ^ 53) ≤ 3 * (3 / 2 ^ 53) := by gcongr
    generalize (1 / 2 ^ 1074 : ℝ) = τ at *
    norm_num at h4 h5 h7 ⊢
    linarith
  · rw [ed, show y * (1 / n * (1 + d)) - z = (y / n - z) + y / n * d by ring]
    refine (abs_add_le _ _).trans ?_
    rw [abs_mul, abs_div, abs_of_pos hn0]
    calc |y / n - z| + |y| / n * |d| ≤ 10 / 2 ^ 50 + 3 * (1 / 2 ^ 53) := by gcongr
      _ ≤ 11 / 2 ^ 50 := by norm_num

theorem quadWeightsMwssThetaJ_near (F : XlaLib) (fuse : ℤ → Bool) {N : ℤ} (hN : 2 ≤ N) (hN1 : N ≤ 2 ^ 27)
    {t : ℤ} (t0 : 0 ≤ t) (t1 : t ≤ N) :
    |quadWeightsMwssThetaJ F fuse N t - quad_weights_mwss_theta_only N 0 t| ≤ 28 / 2 ^ 50 ∧
      |quad_weights_mwss_theta_only N 0 t| ≤ 4 := by
  have hf := F.nearest
  have hN' : (2 : ℝ) ≤ N := by exact_mod_cast hN
  have hb : ∀ t, 0 ≤ t → t < 2 * N → |mwss_wr N t| ≤ 2 := fun t h0 h1 =>
    (mwssFft_near F.toFftLib hN hN1 h0 h1).2
  unfold quadWeightsMwssThetaJ quad_weights_mwss_theta_only
  split_ifs with h h'
  · rw [zpow_zero, one_mul]
    have h1 := (mwssWrJ_near F hN hN1 (t := t) t0 (by omega)).1
    have h2 := (mwssWrJ_near F hN hN1 (t := 2 * N - 1 - (t - 1)) (by omega) (by omega)).2
    have b1 := hb t t0 (by omega)
    have b2 := hb (2 * N - 1 - (t - 1)) (by omega) (by omega)
    have b3 := (abs_add_le (mwss_wr N t) (mwss_wr N (2 * N - 1 - (t - 1)))).trans (add_le_add b1 b2)
    refine ⟨?_, b3.trans (by norm_num)⟩
    dsimp only
    generalize mwssWrJ F N t = x' at *
    generalize mwss_wr N t = x at *
    generalize mwss_wr N (2 * N - 1 - (t - 1)) = z at *
    generalize mwssFftJ F N (2 * N - 1 - (t - 1)) = y at *
    generalize F.fl (1 / ((2 * N : ℤ) : ℝ)) = q at *
    have h3 := fl_step hf h2 (B := 3) (by norm_num; linarith)
    have add : ∀ {u : ℝ}, |u - z| ≤ 12 / 2 ^ 50 → |F.fl (x' + u) - (x + z)| ≤ 28 / 2 ^ 50 := fun {u} hu => by
      have h4 : |x' + u - (x + z)| ≤ 24 / 2 ^ 50 := by
        rw [show x' + u - (x + z) = (x' - x) + (u - z) by ring]
        exact (abs_add_le _ _).trans ((add_le_add h1 hu).trans (le_of_eq (by norm_num)))
      refine (fl_step hf h4 (B := 5) (by norm_num; linarith)).trans (by norm_num)
    rcases F.mulAdd_is [t, 280] x' y q with e | e
    · rw [e]; exact add (h3.trans (by norm_num))
    · rw [e]; exact add (h2.trans (by norm_num))
  · rw [zpow_zero, one_mul]
    have h1 := (mwssWrJ_near F hN hN1 (t := t) t0 (by omega)).1
    have h2 := (mwssWrJ_near F hN hN1 (t := 2 * N - 1 - (t - 1)) (by omega) (by omega)).1
    have b1 := hb t t0 (by omega)
    have b2 := hb (2 * N - 1 - (t - 1)) (by omega) (by omega)
    have b3 := (abs_add_le (mwss_wr N t) (mwss_wr N (2 * N - 1 - (t - 1)))).trans (add_le_add b1 b2)
    refine ⟨?_, b3.trans (by norm_num)⟩
    dsimp only
    generalize mwssWrJ F N t = x' at *
    generalize mwss_wr N t = x at *
    generalize mwss_wr N (2 * N - 1 - (t - 1)) = z at *
    generalize mwssWrJ F N (2 * N - 1 - (t - 1)) = u at *
    have h4 : |x' + u - (x + z)| ≤ 24 / 2 ^ 50 := by
      rw [show x' + u - (x + z) = (x' - x) + (u - z) by ring]
      exact (abs_add_le _ _).trans ((add_le_add h1 h2).trans (le_of_eq (by norm_num)))
    exact (fl_step hf h4 (B := 5) (by norm_num; linarith)).trans (by norm_num)
  · exact ⟨(mwssWrJ_near F hN hN1 t0 (by omega)).1.trans (by norm_num),
      (hb t t0 (by omega)).trans (by norm_num)⟩

/-- The weights used by the transforms. -/
theorem quadWeightsTransformJ_near (F : XlaLib) (fuse : ℤ → Bool) (fold : Bool) {σ : Scheme}
    (hσ : σ.Resampled) {L : ℤ} (hL : 1 ≤ L) (hL1 : L ≤ 2 ^ 26) :
    WeightNear σ L (quadWeightsTransformJ F fuse fold L) := by
  intro G n t t0 t1
  have hL' : (1 : ℝ) ≤ L := by exact_mod_cast hL
  have hL2 : (L : ℝ) ≤ 2 ^ 26 := by exact_mod_cast hL1
  obtain ⟨h1, b1⟩ := quadWeightsMwssThetaJ_near F fuse (N := 2 * L) (by omega) (by omega) t0 (by omega)
  have e : innerWeight G σ L n t
      = quad_weights_mwss_theta_only (2 * L) 0 t * 2 * Real.pi / (2 * (L : ℝ)) := by
    rcases hσ with rfl | rfl <;> rfl
  rw [e]
  unfold quadWeightsTransformJ
  push_cast
  have h := scaleJ_near F fold [t, 40] (n := 2 * L) (by linarith) (by norm_num at hL2 ⊢; linarith)
    (by norm_num) (by norm_num) h1 b1
  refine h.trans ?_
  rw [show (7 * 28 + 30) / 2 ^ 50 / (2 * (L : ℝ)) = 113 / 2 ^ 50 / L by ring]
  exact div_le_div_of_nonneg_right (by norm_num) (by linarith)

end S2fft
