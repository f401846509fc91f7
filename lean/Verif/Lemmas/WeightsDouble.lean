import Verif.Lemmas.ResamplingDouble2
import Verif.Lemmas.QuadratureSize
/-! # The weights of the MWSS rule in double precision -/
namespace S2fft
open Spec

theorem mwWeightsF_near (F : DoubleLib) {m : ℤ} (hm : |m| ≤ 2 ^ 28) :
    ‖mwWeightsF F m - mw_weights m‖ ≤ ‖mw_weights m‖ * (2 / 2 ^ 53) := by
  have hpi := Real.pi_pos
  have hpi3 := Real.pi_gt_three
  have h0 := fl_near F.nearest (x := Real.pi) (B := 4) (by rw [abs_of_pos hpi]; exact Real.pi_le_four)
  unfold mwWeightsF mw_weights
  split_ifs with h1 h2 h3
  · have e : (⟨0, F.fl Real.pi / 2⟩ : ℂ) - Complex.I * Real.pi / 2
        = Complex.I * (((F.fl Real.pi - Real.pi) / 2 : ℝ) : ℂ) := by
      apply Complex.ext <;> (simp; try ring)
    have e2 : Complex.I * (Real.pi : ℂ) / 2 = Complex.I * ((Real.pi / 2 : ℝ) : ℂ) := by push_cast; ring
    rw [e, e2, norm_mul, norm_mul, Complex.norm_I, Complex.norm_real, Complex.norm_real, Real.norm_eq_abs,
      Real.norm_eq_abs, one_mul, one_mul, abs_div, abs_of_pos (by positivity : 0 < Real.pi / 2)]
    norm_num at h0 ⊢
    linarith
  · have e : (⟨0, -(F.fl Real.pi / 2)⟩ : ℂ) - -Complex.I * Real.pi / 2
        = Complex.I * (((-(F.fl Real.pi - Real.pi)) / 2 : ℝ) : ℂ) := by
      apply Complex.ext <;> (simp; try ring)
    have e2 : -Complex.I * (Real.pi : ℂ) / 2 = -Complex.I * ((Real.pi / 2 : ℝ) : ℂ) := by push_cast; ring
    rw [e, e2, norm_mul, norm_mul, norm_neg, Complex.norm_I, Complex.norm_real, Complex.norm_real,
      Real.norm_eq_abs, Real.norm_eq_abs, one_mul, one_mul, abs_div, abs_neg,
      abs_of_pos (by positivity : 0 < Real.pi / 2)]
    norm_num at h0 ⊢
    linarith
  · have e2 : (2 : ℂ) / (1 - (m : ℂ) ^ 2) = ((2 / ((1 - m ^ 2 : ℤ) : ℝ) : ℝ) : ℂ) := by push_cast; ring
    have hb : |((1 - m ^ 2 : ℤ) : ℝ)| ≤ 2 ^ 57 := by
      rw [← Int.cast_abs]
      have : |1 - m ^ 2| ≤ 2 ^ 57 := by
        rw [abs_le] at hm ⊢
        constructor <;> nlinarith
      exact_mod_cast this
    have hne : ((1 - m ^ 2 : ℤ) : ℝ) ≠ 0 := by
      have : (1 - m ^ 2 : ℤ) ≠ 0 := by
        intro h
        have : (m - 1) * (m + 1) = 0 := by ring_nf; linarith
        rcases mul_eq_zero.1 this with h | h <;> omega
      exact_mod_cast this
    obtain ⟨δ, hδ, hx⟩ := fl_rel F.nearest (2 / ((1 - m ^ 2 : ℤ) : ℝ)) (Or.inr (by
      rw [abs_div, abs_of_pos (by norm_num : (0 : ℝ) < 2), div_le_div_iff₀ (by positivity)
        (abs_pos.2 hne)]
      norm_num at hb ⊢
      linarith))
    rw [e2, hx, ← Complex.ofReal_sub, Complex.norm_real, Complex.norm_real, Real.norm_eq_abs,
      Real.norm_eq_abs]
    generalize 2 / ((1 - m ^ 2 : ℤ) : ℝ) = x
    rw [show x * (1 + δ) - x = x * δ by ring, abs_mul]
    refine mul_le_mul_of_nonneg_left (hδ.trans ?_) (abs_nonneg _)
    norm_num
  · simp

/-- The array of the weights. -/
theorem mwssF_w_array (F : FftLib) (L : ℤ) (j : ℤ) (h0 : 0 ≤ j) (h1 : j < 2 * L) :
    forRange (-(L - 1) + 1) (L + 1) (fun i w => set1 w (i + L - 1) (mwWeightsF F.toDoubleLib (i - 1)))
      (0 : ℤ → ℂ) j = if j = 0 then 0 else mwWeightsF F.toDoubleLib (j - L) := by
  split_ifs with h
  · subst h
    refine (forRange_frame _ _ _ _ (fun g : ℤ → ℂ => g 0) ?_).trans rfl
    intro i s h2 h3; exact set1_ne _ _ (by omega)
  · refine forRange_write _ _ _ _ (fun g : ℤ → ℂ => g j) (j - L + 1) _ (by omega) (by omega) ?_ ?_
    · intro s; simp [set1]; intro h; omega
    · intro i s _ _ h; exact set1_ne _ _ (by omega)

theorem sum_ifftshift {n : ℤ} (hn : 0 < n) (a : ℤ → ℝ) :
    ∑ j ∈ Finset.Ico 0 n, ifftshift n a j = ∑ j ∈ Finset.Ico 0 n, a j :=
  sum_Ico_emod hn (n / 2) a

/-- The transform of the weights. -/
theorem mwssFft_near (F : FftLib) {N : ℤ} (hN : 2 ≤ N) (hN1 : N ≤ 2 ^ 27) {t : ℤ} (t0 : 0 ≤ t)
    (t1 : t < 2 * N) : |(F.fft (2 * N) (ifftshift (2 * N) (forRange (-(N - 1) + 1) (N + 1)
      (fun i w => set1 w (i + N - 1) (mwWeightsF F.toDoubleLib (i - 1))) 0)) t).re / ((2 * N : ℤ) : ℝ)
      - mwss_wr N t| ≤ 10 / 2 ^ 50 ∧ |mwss_wr N t| ≤ 2 := by
  have hN' : (2 : ℝ) ≤ N := by exact_mod_cast hN
  have hpi := Real.pi_le_four
  set w' : ℤ → ℂ := forRange (-(N - 1) + 1) (N + 1)
    (fun i w => set1 w (i + N - 1) (mwWeightsF F.toDoubleLib (i - 1))) 0 with hw'
  obtain ⟨w, hw⟩ : ∃ w : ℤ → ℂ, w = forRange (-(N - 1) + 1) (N + 1)
    (fun i w => set1 w (i + N - 1) (mw_weights (i - 1))) 0 := ⟨_, rfl⟩
  have hE : mwss_wr N t = (fft (2 * N) (ifftshift (2 * N) w) t).re / (2 * (N : ℝ)) := by rw [hw]; rfl
  have hsum : ∑ j ∈ Finset.Ico 0 (2 * N), ‖w j‖ ≤ 8 := by
    have h1 : ∑ j ∈ Finset.Ico 0 (2 * N), ‖w j‖ = ∑ k ∈ Finset.Ioo (-N) N, ‖mw_weights k‖ := by
      rw [sum_Ico_bot (by omega), hw, mwss_w_array N 0 (by omega) (by omega), if_pos rfl, norm_zero,
        zero_add, show Finset.Ioo (-N) N = Finset.Ico ((0 + 1) + (-N)) (2 * N + (-N)) by
          ext x; simp only [Finset.mem_Ioo, Finset.mem_Ico]; omega, sum_Ico_shift]
      refine Finset.sum_congr rfl fun j hj => ?_
      rw [Finset.mem_Ico] at hj
      rw [mwss_w_array N j (by omega) (by omega), if_neg (by omega), sub_eq_add_neg]
    rw [h1]
    linarith [mw_weights_sum N]
  have hd : ∀ j, 0 ≤ j → j < 2 * N → ‖w' j - w j‖ ≤ ‖w j‖ * (2 / 2 ^ 53) := fun j j0 j1 => by
    rw [hw', hw, mwssF_w_array F N j j0 j1, mwss_w_array N j j0 j1]
    split_ifs
    · simp
    · exact mwWeightsF_near _ (abs_le.2 ⟨by omega, by omega⟩)
  have hdsum : ∑ j ∈ Finset.Ico 0 (2 * N), ‖w' j - w j‖ ≤ 8 * (2 / 2 ^ 53) := by
    refine (Finset.sum_le_sum fun j hj => ?_).trans (le_of_eq_of_le (Finset.sum_mul _ _ _).symm
      (mul_le_mul_of_nonneg_right hsum (by positivity)))
    rw [Finset.mem_Ico] at hj
    exact hd j hj.1 hj.2
  have hsum' : ∑ j ∈ Finset.Ico 0 (2 * N), ‖w' j‖ ≤ 9 := by
    have : ∑ j ∈ Finset.Ico 0 (2 * N), ‖w' j‖ ≤ ∑ j ∈ Finset.Ico 0 (2 * N), (‖w' j - w j‖ + ‖w j‖) := by
      refine Finset.sum_le_sum fun j _ => ?_
      have := norm_add_le (w' j - w j) (w j)
      rwa [sub_add_cancel] at this
    rw [Finset.sum_add_distrib] at this
    norm_num at hdsum
    linarith
  have h1 := F.fft_near (2 * N) (ifftshift (2 * N) w') t t0 t1
  have e1 : ∑ j ∈ Finset.Ico 0 (2 * N), ‖ifftshift (2 * N) w' j‖ = ∑ j ∈ Finset.Ico 0 (2 * N), ‖w' j‖ :=
    sum_ifftshift (by omega) (fun j => ‖w' j‖)
  rw [e1] at h1
  have h2 : ‖fft (2 * N) (ifftshift (2 * N) w') t - fft (2 * N) (ifftshift (2 * N) w) t‖
      ≤ 8 * (2 / 2 ^ 53) := by
    refine le_trans ?_ hdsum
    rw [← sum_ifftshift (by omega) (fun j => ‖w' j - w j‖)]
    unfold fft
    rw [← Finset.sum_sub_distrib]
    refine (norm_sum_le _ _).trans (Finset.sum_le_sum fun j _ => ?_)
    rw [← sub_mul, norm_mul, norm_cis, mul_one]
    rfl
  set y' := F.fft (2 * N) (ifftshift (2 * N) w') t
  set y := fft (2 * N) (ifftshift (2 * N) w) t
  have h3 : |y'.re - y.re| ≤ 20 * N / 2 ^ 50 := by
    rw [← Complex.sub_re]
    refine (Complex.abs_re_le_norm _).trans ((norm_sub_le_norm_sub_add_norm_sub _ _ _).trans
      ((add_le_add h1 h2).trans ?_))
    push_cast
    have a1 : 2 * (N : ℝ) / 2 ^ 50 * ∑ j ∈ Finset.Ico 0 (2 * N), ‖w' j‖ ≤ 2 * N / 2 ^ 50 * 9 := by
      gcongr
    have a2 : 2 * (N : ℝ) / 2 ^ 1000 ≤ 2 * N / 2 ^ 60 :=
      div_le_div_of_nonneg_left (by positivity) (by positivity)
        (pow_le_pow_right₀ (by norm_num) (by norm_num))
    refine (add_le_add (add_le_add a1 a2) le_rfl).trans ?_
    norm_num
    linarith
  have h4 : |y'.re / ((2 * N : ℤ) : ℝ) - y.re / (2 * (N : ℝ))| ≤ 10 / 2 ^ 50 := by
    push_cast
    rw [← sub_div, abs_div, abs_of_pos (by positivity : 0 < 2 * (N : ℝ)), div_le_iff₀ (by positivity)]
    refine h3.trans (le_of_eq (by ring))
  have h5 := abs_mwss_wr_le (L := N) (by omega) t
  rw [hE] at h5 ⊢
  have h6 : |y.re / (2 * (N : ℝ))| ≤ 2 := by
    refine h5.trans ?_
    rw [div_le_iff₀ (by positivity)]
    linarith
  exact ⟨h4, h6⟩

theorem mwssWrF_near (F : FftLib) {N : ℤ} (hN : 2 ≤ N) (hN1 : N ≤ 2 ^ 27) {t : ℤ} (t0 : 0 ≤ t)
    (t1 : t < 2 * N) : |mwssWrF F N t - mwss_wr N t| ≤ 12 / 2 ^ 50 := by
  obtain ⟨h4, h6⟩ := mwssFft_near F hN hN1 t0 t1
  have h7 := fl_step F.nearest h4 (B := 3) (by norm_num; linarith)
  unfold mwssWrF
  refine h7.trans ?_
  norm_num

theorem quadWeightsMwssThetaF_near (F : FftLib) {N : ℤ} (hN : 2 ≤ N) (hN1 : N ≤ 2 ^ 27) {t : ℤ}
    (t0 : 0 ≤ t) (t1 : t ≤ N) :
    |quadWeightsMwssThetaF F N t - quad_weights_mwss_theta_only N 0 t| ≤ 26 / 2 ^ 50 ∧
      |quad_weights_mwss_theta_only N 0 t| ≤ 8 / N := by
  have hN' : (2 : ℝ) ≤ N := by exact_mod_cast hN
  have hpi := Real.pi_le_four
  have hb : ∀ t, |mwss_wr N t| ≤ 4 / N := fun t => by
    refine (abs_mwss_wr_le (by omega) t).trans ?_
    rw [div_le_div_iff₀ (by positivity) (by positivity)]
    nlinarith
  have hb2 : (4 : ℝ) / N ≤ 2 := by rw [div_le_iff₀ (by positivity)]; linarith
  have e8 : (8 : ℝ) / N = 4 / N + 4 / N := by ring
  unfold quadWeightsMwssThetaF quad_weights_mwss_theta_only
  split_ifs with h
  · rw [zpow_zero, one_mul]
    have h1 := mwssWrF_near F hN hN1 (t := t) t0 (by omega)
    have h2 := mwssWrF_near F hN hN1 (t := 2 * N - 1 - (t - 1)) (by omega) (by omega)
    have b1 := hb t
    have b2 := hb (2 * N - 1 - (t - 1))
    generalize mwssWrF F N t = x' at *
    generalize mwssWrF F N (2 * N - 1 - (t - 1)) = z' at *
    generalize mwss_wr N t = x at *
    generalize mwss_wr N (2 * N - 1 - (t - 1)) = z at *
    have hs := (abs_add_le x z).trans (add_le_add b1 b2)
    refine ⟨?_, hs.trans e8.ge⟩
    have h3 : |x' + z' - (x + z)| ≤ 24 / 2 ^ 50 := by
      rw [show x' + z' - (x + z) = (x' - x) + (z' - z) by ring]
      refine (abs_add_le _ _).trans ((add_le_add h1 h2).trans (le_of_eq (by norm_num)))
    have h4 := fl_step F.nearest h3 (B := 5) (by norm_num; linarith)
    norm_num at h4 ⊢
    linarith
  · refine ⟨(mwssWrF_near F hN hN1 t0 (by omega)).trans (by norm_num), (hb t).trans ?_⟩
    rw [e8]
    have : (0 : ℝ) ≤ 4 / N := by positivity
    linarith

/-- Weights that are as accurate as they should be. -/
def WeightNear (σ : Scheme) (L : ℤ) (w' : ℤ → ℝ) : Prop :=
  ∀ (G : GlTables) (n : ℤ) {t : ℤ}, 0 ≤ t → t < 2 * L + 1 →
    |w' t - innerWeight G σ L n t| ≤ 1 / 2 ^ 43 / L

/-- The weights used by the transforms. -/
theorem quadWeightsTransformF_near (F : FftLib) {σ : Scheme} (hσ : σ.Resampled) {L : ℤ}
    (hL : 1 ≤ L) (hL1 : L ≤ 2 ^ 26) : WeightNear σ L (quadWeightsTransformF F L) := by
  intro G n t t0 t1
  have hL' : (1 : ℝ) ≤ L := by exact_mod_cast hL
  have hL2 : (L : ℝ) ≤ 2 ^ 26 := by exact_mod_cast hL1
  have hpi := Real.pi_le_four
  have hpi0 := Real.pi_pos
  obtain ⟨h1, b1⟩ := quadWeightsMwssThetaF_near F (N := 2 * L) (by omega) (by omega) t0 (by omega)
  have e : innerWeight G σ L n t
      = quad_weights_mwss_theta_only (2 * L) 0 t * 2 * Real.pi / (2 * (L : ℝ)) := by
    rcases hσ with rfl | rfl <;> rfl
  rw [e]
  unfold quadWeightsTransformF
  generalize quadWeightsMwssThetaF F (2 * L) t = q' at *
  generalize quad_weights_mwss_theta_only (2 * L) 0 t = q at *
  have b1' : |q| ≤ 4 := b1.trans (by
    push_cast
    rw [div_le_iff₀ (by positivity)]; linarith)
  have h2 : |q' * 2 - q * 2| ≤ 52 / 2 ^ 50 := by
    rw [← sub_mul, abs_mul, abs_of_pos (by norm_num : (0 : ℝ) < 2)]
    refine (mul_le_mul_of_nonneg_right h1 (by norm_num)).trans (le_of_eq (by norm_num))
  have b2 : |q * 2| ≤ 8 := by
    rw [abs_mul, abs_of_pos (by norm_num : (0 : ℝ) < 2)]; linarith
  have h3 := fl_step F.nearest h2 (B := 9) (by norm_num; norm_num at b2; linarith)
  generalize F.fl (q' * 2) = x1 at *
  have hx : |x1 - q * 2| ≤ 54 / 2 ^ 50 := h3.trans (by norm_num)
  have hp := fl_near F.nearest (x := Real.pi) (B := 4) (by rw [abs_of_pos hpi0]; exact hpi)
  have hp4 := flPi_le_four F.toDoubleLib
  have hp1 := (flPi_bounds F.toDoubleLib).1
  generalize F.fl Real.pi = p at *
  have h4 : |x1 * p - q * 2 * Real.pi| ≤ 220 / 2 ^ 50 := by
    rw [show x1 * p - q * 2 * Real.pi = (x1 - q * 2) * p + q * 2 * (p - Real.pi) by ring]
    refine (abs_add_le _ _).trans ?_
    rw [abs_mul, abs_mul (q * 2), abs_of_pos (by linarith : 0 < p)]
    calc |x1 - q * 2| * p + |q * 2| * |p - Real.pi| ≤ 54 / 2 ^ 50 * 4 + 8 * (4 / 2 ^ 53) := by gcongr
      _ ≤ 220 / 2 ^ 50 := by norm_num
  have b4 : |q * 2 * Real.pi| ≤ 32 := by
    rw [abs_mul, abs_of_pos hpi0]
    calc |q * 2| * Real.pi ≤ 8 * 4 := by gcongr
      _ = 32 := by norm_num
  have h5 := fl_step F.nearest h4 (B := 33) (by norm_num; norm_num at b4; linarith)
  generalize F.fl (x1 * p) = x2 at *
  generalize q * 2 * Real.pi = y at *
  have hx2 : |x2 - y| ≤ 225 / 2 ^ 50 := h5.trans (by norm_num)
  have h6 : |x2 / ((2 * L : ℤ) : ℝ) - y / (2 * (L : ℝ))| ≤ 113 / 2 ^ 50 / L := by
    push_cast
    rw [← sub_div, abs_div, abs_of_pos (by positivity : 0 < 2 * (L : ℝ)), div_le_iff₀ (by positivity)]
    refine hx2.trans ?_
    rw [show 113 / 2 ^ 50 / (L : ℝ) * (2 * L) = 226 / 2 ^ 50 by field_simp; norm_num]
    norm_num
  have b6 : |y / (2 * (L : ℝ))| ≤ 16 / L := by
    rw [abs_div, abs_of_pos (by positivity : 0 < 2 * (L : ℝ)), div_le_div_iff₀ (by positivity)
      (by positivity)]
    nlinarith
  have h7 := fl_step F.nearest h6 (B := 17 / L) (by
    have : (113 / 2 ^ 50 : ℝ) / L ≤ 1 / L := div_le_div_of_nonneg_right (by norm_num) (by linarith)
    have : (17 : ℝ) / L = 16 / L + 1 / L := by ring
    linarith) (by
    rw [div_le_div_iff₀ (by positivity) (by positivity)]
    norm_num at hL2 ⊢; linarith)
  refine h7.trans ?_
  rw [show 113 / 2 ^ 50 / (L : ℝ) + 17 / L / 2 ^ 53 = (113 / 2 ^ 50 + 17 / 2 ^ 53) / L by ring]
  exact div_le_div_of_nonneg_right (by norm_num) (by linarith)

end S2fft
