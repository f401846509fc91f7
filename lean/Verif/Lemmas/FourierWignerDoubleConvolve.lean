import Verif.Lemmas.FourierWignerDoubleForward

/-! # The convolution of the forward Fourier-Wigner transform in double precision -/

namespace S2fft
open Spec

theorem fwShiftF_near (F : XlaLib) (method : PyStr) {L m : ℤ} (hL : 1 ≤ L) (hL1 : L ≤ 2 ^ 26)
    (hm : |m| < L) :
    ‖fwShiftF F method L m - cis (-((m : ℝ) * Real.pi / (2 * L - 1)))‖ ≤ 6 / 2 ^ 50 := by
  have h0 := mwssPhaseF_near F.toFftLib hL hL1 hm
  unfold fwShiftF
  split_ifs with hn
  · exact h0
  · simp only
    rcases F.quot_is [m] (F.fl (-(m : ℝ) * F.fl Real.pi)) ((2 * L - 1 : ℤ) : ℝ) with e | e
    · rw [e]
      have hL' : (1 : ℝ) ≤ L := by exact_mod_cast hL
      have hL2 : (L : ℝ) ≤ 2 ^ 26 := by exact_mod_cast hL1
      have hm1 : 2 * |(m : ℝ)| ≤ 2 * L - 1 := by
        rw [← Int.cast_abs]
        exact_mod_cast (by omega : 2 * |m| ≤ 2 * L - 1)
      have hpi := Real.pi_le_four
      have hpi0 := Real.pi_pos
      push_cast
      obtain ⟨R, hR⟩ : ∃ R : ℝ, R = 2 * L - 1 := ⟨_, rfl⟩
      rw [← hR] at hm1 ⊢
      have hR1 : 1 ≤ R := by linarith
      have h0 := fl_near F.nearest (x := Real.pi) (B := 4) (by rw [abs_of_pos hpi0]; exact hpi)
      have hA : |(-(m : ℝ)) * Real.pi| ≤ 2 * R := by
        rw [abs_mul, abs_neg, abs_of_pos hpi0]
        nlinarith [abs_nonneg (m : ℝ)]
      have h1 : |-(m : ℝ) * F.fl Real.pi - -(m : ℝ) * Real.pi| ≤ 2 * R / 2 ^ 53 := by
        rw [← mul_sub, abs_mul, abs_neg]
        calc |(m : ℝ)| * |F.fl Real.pi - Real.pi| ≤ (R / 2) * (4 / 2 ^ 53) := by
              gcongr; linarith
          _ = 2 * R / 2 ^ 53 := by ring
      have h2 := fl_step F.nearest h1 (B := 3 * R) (by norm_num; norm_num at hA; linarith)
        (by norm_num; linarith)
      generalize F.fl (-(m : ℝ) * F.fl Real.pi) = p at h2 ⊢
      generalize hA' : -(m : ℝ) * Real.pi = A at hA h2
      have h4 : |p / R - A / R| ≤ 12 / 2 ^ 53 := by
        rw [← sub_div, abs_div, abs_of_pos (by linarith : 0 < R), div_le_iff₀ (by linarith)]
        norm_num at h2 ⊢
        linarith
      have hA2 : |A / R| ≤ 2 := by
        rw [abs_div, abs_of_pos (by linarith : 0 < R), div_le_iff₀ (by linarith)]
        exact hA
      have h5 := fl_step F.nearest h4 (B := 3) (by norm_num; linarith)
      rw [show -((m : ℝ) * Real.pi / R) = A / R by rw [← hA']; ring]
      generalize F.fl (p / R) = x at h5 ⊢
      generalize A / R = y at h5 ⊢
      have hc := le_trans (Real.abs_cos_sub_cos_le x y) h5
      have hs := le_trans (Real.abs_sin_sub_sin_le x y) h5
      have hc' := (abs_sub_le (F.cos x) (Real.cos x) (Real.cos y)).trans (add_le_add (F.cos_near x) hc)
      have hs' := (abs_sub_le (F.sin x) (Real.sin x) (Real.sin y)).trans (add_le_add (F.sin_near x) hs)
      refine le_trans (Complex.norm_le_abs_re_add_abs_im _) ?_
      rw [Complex.sub_re, Complex.sub_im, cis_re, cis_im]
      norm_num at hc' hs' ⊢
      linarith
    · rw [e]; exact h0

/-! ## The weights -/

theorem fw_weight_array {L : ℤ} (w : ℤ → ℂ) {j : ℤ} (j0 : 0 ≤ j) (j1 : j < 4 * L - 3) :
    forRange (-2 * (L - 1)) (2 * (L - 1) + 1)
      (fun mm (x : ℤ → ℂ) => set1 x (mm + 2 * (L - 1)) (w (-mm))) 0 j = w (-(j - 2 * (L - 1))) := by
  refine forRange_write (-2 * (L - 1)) (2 * (L - 1) + 1)
    (fun mm (x : ℤ → ℂ) => set1 x (mm + 2 * (L - 1)) (w (-mm))) 0
    (fun x => x j) (j - 2 * (L - 1)) _ (by omega) (by omega) (fun x => ?_) (fun i x _ _ hne => ?_)
  · unfold set1; rw [if_pos (by ring)]
  · unfold set1; rw [if_neg (by omega)]

theorem fw_weight_sum (L : ℤ) :
    ∑ j ∈ Finset.Ico 0 (4 * L - 3), ‖mw_weights (-(j - 2 * (L - 1)))‖ ≤ 8 := by
  have e : ∑ j ∈ Finset.Ico 0 (4 * L - 3), ‖mw_weights (-(j - 2 * (L - 1)))‖
      = ∑ k ∈ Finset.Ioo (-(2 * L - 1)) (2 * L - 1), ‖mw_weights k‖ := by
    rw [← sum_Ioo_neg, show Finset.Ioo (-(2 * L - 1)) (2 * L - 1)
        = Finset.Ico (0 + -(2 * (L - 1))) (4 * L - 3 + -(2 * (L - 1))) by
      ext x; simp only [Finset.mem_Ioo, Finset.mem_Ico]; omega, sum_Ico_shift]
    exact Finset.sum_congr rfl fun j _ => by rw [sub_eq_add_neg j]
  rw [e]
  linarith [mw_weights_sum (2 * L - 1), Real.pi_le_four]

theorem norm_ifft_fwd_le (n : ℤ) (x : ℤ → ℂ) (p : ℤ) :
    ‖ifft_fwd n x p‖ ≤ ∑ k ∈ Finset.Ico 0 n, ‖x k‖ := by
  unfold ifft_fwd
  refine (norm_sum_le _ _).trans (Finset.sum_le_sum fun k _ => ?_)
  rw [norm_mul, norm_cis, mul_one]

theorem norm_fwQuads_le {L : ℤ} (hL : 1 ≤ L) (p : ℤ) : ‖fwQuads L p‖ ≤ 8 := by
  unfold fwQuads
  refine (norm_ifft_fwd_le _ _ p).trans ?_
  have e := sum_ifftshift (n := 4 * L - 3) (by omega) (fun j => ‖forRange (-2 * (L - 1)) (2 * (L - 1) + 1)
      (fun mm (x : ℤ → ℂ) => set1 x (mm + 2 * (L - 1)) (mw_weights (-mm))) 0 j‖)
  refine le_trans (le_of_eq e) (le_trans (le_of_eq ?_) (fw_weight_sum L))
  refine Finset.sum_congr rfl fun j hj => ?_
  rw [Finset.mem_Ico] at hj
  rw [fw_weight_array mw_weights hj.1 hj.2]

theorem fwQuadsF_near (F : FftLib) {L : ℤ} (hL : 1 ≤ L) (hL1 : L ≤ 2 ^ 26) {p : ℤ} (p0 : 0 ≤ p)
    (p1 : p < 4 * L - 3) : ‖fwQuadsF F L p - fwQuads L p‖ ≤ 64 * L / 2 ^ 50 := by
  have hL' : (1 : ℝ) ≤ L := by exact_mod_cast hL
  have hn : 0 < 4 * L - 3 := by omega
  unfold fwQuadsF fwQuads
  obtain ⟨w', hw'⟩ : ∃ w' : ℤ → ℂ, w' = forRange (-2 * (L - 1)) (2 * (L - 1) + 1)
      (fun mm (x : ℤ → ℂ) => set1 x (mm + 2 * (L - 1)) (mwWeightsF F.toDoubleLib (-mm))) 0 := ⟨_, rfl⟩
  obtain ⟨w, hw⟩ : ∃ w : ℤ → ℂ, w = forRange (-2 * (L - 1)) (2 * (L - 1) + 1)
      (fun mm (x : ℤ → ℂ) => set1 x (mm + 2 * (L - 1)) (mw_weights (-mm))) 0 := ⟨_, rfl⟩
  rw [← hw', ← hw]
  have v' : ∀ j, 0 ≤ j → j < 4 * L - 3 → w' j = mwWeightsF F.toDoubleLib (-(j - 2 * (L - 1))) :=
    fun j j0 j1 => by rw [hw']; exact fw_weight_array (mwWeightsF F.toDoubleLib) j0 j1
  have v : ∀ j, 0 ≤ j → j < 4 * L - 3 → w j = mw_weights (-(j - 2 * (L - 1))) :=
    fun j j0 j1 => by rw [hw]; exact fw_weight_array mw_weights j0 j1
  have hsum : ∑ j ∈ Finset.Ico 0 (4 * L - 3), ‖w j‖ ≤ 8 := by
    refine le_trans (le_of_eq (Finset.sum_congr rfl fun j hj => ?_)) (fw_weight_sum L)
    rw [Finset.mem_Ico] at hj
    rw [v j hj.1 hj.2]
  have hdsum : ∑ j ∈ Finset.Ico 0 (4 * L - 3), ‖w' j - w j‖ ≤ 8 * (2 / 2 ^ 53) := by
    refine (Finset.sum_le_sum fun j hj => ?_).trans (le_of_eq_of_le (Finset.sum_mul _ _ _).symm
      (mul_le_mul_of_nonneg_right hsum (by positivity)))
    rw [Finset.mem_Ico] at hj
    rw [v j hj.1 hj.2, v' j hj.1 hj.2]
    exact mwWeightsF_near _ (abs_le.2 ⟨by omega, by omega⟩)
  have hsum' : ∑ j ∈ Finset.Ico 0 (4 * L - 3), ‖w' j‖ ≤ 9 := by
    have : ∑ j ∈ Finset.Ico 0 (4 * L - 3), ‖w' j‖
        ≤ ∑ j ∈ Finset.Ico 0 (4 * L - 3), (‖w' j - w j‖ + ‖w j‖) := by
      refine Finset.sum_le_sum fun j _ => ?_
      have := norm_add_le (w' j - w j) (w j)
      rwa [sub_add_cancel] at this
    rw [Finset.sum_add_distrib] at this
    norm_num at hdsum
    linarith
  have h1 := F.ifft_near (4 * L - 3) (ifftshift (4 * L - 3) w') p p0 p1
  have e1 : ∑ j ∈ Finset.Ico 0 (4 * L - 3), ‖ifftshift (4 * L - 3) w' j‖
      = ∑ j ∈ Finset.Ico 0 (4 * L - 3), ‖w' j‖ := sum_ifftshift hn (fun j => ‖w' j‖)
  rw [e1] at h1
  have h2 : ‖ifft_fwd (4 * L - 3) (ifftshift (4 * L - 3) w') p
      - ifft_fwd (4 * L - 3) (ifftshift (4 * L - 3) w) p‖ ≤ 8 * (2 / 2 ^ 53) := by
    refine le_trans ?_ hdsum
    rw [← sum_ifftshift hn (fun j => ‖w' j - w j‖)]
    unfold ifft_fwd
    rw [← Finset.sum_sub_distrib]
    refine (norm_sum_le _ _).trans (Finset.sum_le_sum fun j _ => ?_)
    rw [← sub_mul, norm_mul, norm_cis, mul_one]
    rfl
  refine (norm_sub_le_norm_sub_add_norm_sub _ _ _).trans ((add_le_add h1 h2).trans ?_)
  have a0 : ((4 * L - 3 : ℤ) : ℝ) ≤ 4 * L := by push_cast; linarith
  have a00 : (0 : ℝ) ≤ ((4 * L - 3 : ℤ) : ℝ) := by exact_mod_cast hn.le
  have a1 : ((4 * L - 3 : ℤ) : ℝ) / 2 ^ 50 * ∑ j ∈ Finset.Ico 0 (4 * L - 3), ‖w' j‖ ≤ 4 * L / 2 ^ 50 * 9 := by
    gcongr
  have a2 : ((4 * L - 3 : ℤ) : ℝ) / 2 ^ 1000 ≤ 4 * L / 2 ^ 60 :=
    (div_le_div_of_nonneg_right a0 (by positivity)).trans (div_le_div_of_nonneg_left (by positivity)
      (by positivity) (pow_le_pow_right₀ (by norm_num) (by norm_num)))
  refine (add_le_add (add_le_add a1 a2) le_rfl).trans ?_
  norm_num
  linarith

/-! ## The convolution -/

theorem rr_le_const {n : ℤ} (hn : 0 ≤ n) {a : ℤ → ℝ} {A : ℝ} (hA : 0 ≤ A)
    (h : ∀ j, 0 ≤ j → j < n → |a j| ≤ A) : rr n a ≤ √n * A := by
  rw [← rr_const hn hA]
  exact rr_le_rr h

theorem le_rr {n : ℤ} (a : ℤ → ℝ) {j : ℤ} (j0 : 0 ≤ j) (j1 : j < n) : |a j| ≤ rr n a := by
  unfold rr
  refine Real.le_sqrt_of_sq_le ?_
  rw [sq_abs]
  exact Finset.single_le_sum (f := fun j => a j ^ 2) (fun _ _ => sq_nonneg _) (Finset.mem_Ico.2 ⟨j0, j1⟩)

theorem ftErr_four {L : ℤ} (hL : 1 ≤ L) :
    (L : ℝ) / 2 ^ 50 ≤ ftErr (4 * L - 3) ∧ ftErr (4 * L - 3) ≤ L * √L / 2 ^ 44 / 8 := by
  have hL' : (1 : ℝ) ≤ L := by exact_mod_cast hL
  have h1 := sqrt_ge_one (n := 4 * L - 3) (by omega)
  have h2 : (L : ℝ) ≤ ((4 * L - 3 : ℤ) : ℝ) := by exact_mod_cast (by omega : L ≤ 4 * L - 3)
  have h3 : ((4 * L - 3 : ℤ) : ℝ) ≤ 4 * L := by exact_mod_cast (by omega : 4 * L - 3 ≤ 4 * L)
  have h4 : √((4 * L - 3 : ℤ) : ℝ) ≤ 2 * √L := by
    refine (Real.sqrt_le_sqrt h3).trans (le_of_eq ?_)
    rw [Real.sqrt_mul (by norm_num), show (4 : ℝ) = 2 ^ 2 by norm_num, Real.sqrt_sq (by norm_num)]
  unfold ftErr
  constructor
  · refine div_le_div_of_nonneg_right ?_ (by norm_num)
    calc (L : ℝ) = L * 1 := (mul_one _).symm
      _ ≤ _ := mul_le_mul h2 h1 zero_le_one (by linarith)
  · calc ((4 * L - 3 : ℤ) : ℝ) * √((4 * L - 3 : ℤ) : ℝ) / 2 ^ 50 ≤ 4 * L * (2 * √L) / 2 ^ 50 := by gcongr
      _ = L * √L / 2 ^ 44 / 8 := by ring

theorem fwConvolveF_near (F : XlaLib) (method : PyStr) {L off : ℤ} (hL : 1 ≤ L) (hL1 : L ≤ 2 ^ 26)
    (ho : off = 0 ∨ off = 1) (hoL : off = 1 → 2 ≤ L) {mw : Bool} (hmw : mw = true → off = 0)
    {v v' q : ℤ → ℂ} {A δ : ℝ} (hA : ∀ t, 0 ≤ t → t < 2 * L - 1 + off → ‖v t‖ ≤ A)
    (hv : ∀ t, 0 ≤ t → t < 2 * L - 1 + off → ‖v' t - v t‖ ≤ δ)
    (hq : ∀ p, 0 ≤ p → p < 4 * L - 3 → ‖q p - fwQuads L p‖ ≤ 64 * L / 2 ^ 50) {a : ℤ} (a0 : 0 ≤ a)
    (a1 : a < 2 * L - 1) :
    ‖fwConvolve v (fwQuads L) L (2 * L - 1 + off) (L - 1 - off) mw a‖ ≤ 8 * A ∧
    ‖fwConvolveF F method v' q L (2 * L - 1 + off) (L - 1 - off) mw a
      - fwConvolve v (fwQuads L) L (2 * L - 1 + off) (L - 1 - off) mw a‖
      ≤ 12 * δ + 50 * (L * √L / 2 ^ 44) * (A + tn) := by
  have hL' : (1 : ℝ) ≤ L := by exact_mod_cast hL
  have hL2 : (L : ℝ) ≤ 2 ^ 26 := by exact_mod_cast hL1
  have hn : 0 < 2 * L - 1 + off := by omega
  have hn' : 0 < 4 * L - 3 := by omega
  have hA0 : 0 ≤ A := (norm_nonneg _).trans (hA 0 le_rfl hn)
  have hδ0 : 0 ≤ δ := (norm_nonneg _).trans (hv 0 le_rfl hn)
  unfold fwConvolve fwConvolveF
  set S : ℤ → ℂ := fftshift (2 * L - 1 + off) (fft_fwd (2 * L - 1 + off) v) with hS
  set S' : ℤ → ℂ := fftshift (2 * L - 1 + off) (fftFwdF F.toFftLib (2 * L - 1 + off) v') with hS'
  obtain ⟨x, hx⟩ : ∃ x : ℤ → ℂ, x = (if mw = true then
      fun b => S b * cis (-(((-L + 1 + b : ℤ) : ℝ) * Real.pi / (2 * (L : ℝ) - 1))) else S) := ⟨_, rfl⟩
  obtain ⟨x', hx'⟩ : ∃ x' : ℤ → ℂ, x' = (if mw = true then
      fun b => F.mul (S' b) (fwShiftF F method L (-L + 1 + b)) else S') := ⟨_, rfl⟩
  rw [← hx, ← hx']
  have hxx : ∀ b, 0 ≤ b → b < 2 * L - 1 + off → ‖x b‖ = ‖S b‖ ∧
      ‖x' b - x b‖ ≤ ‖S' b - S b‖ + 8 / 2 ^ 50 * ‖S' b‖ + 1 / 2 ^ 1000 := by
    intro b b0 b1
    cases mw with
    | false =>
      rw [hx, hx', if_neg Bool.false_ne_true, if_neg Bool.false_ne_true]
      have : 0 ≤ 8 / 2 ^ 50 * ‖S' b‖ + 1 / 2 ^ 1000 := by positivity
      exact ⟨rfl, by linarith⟩
    | true =>
      have h0 := hmw rfl
      rw [hx, hx', if_pos rfl, if_pos rfl]
      have hp := fwShiftF_near F method hL hL1 (m := -L + 1 + b) (by rw [abs_lt]; omega)
      have hm := F.mul_near (S' b) (fwShiftF F method L (-L + 1 + b))
      generalize fwShiftF F method L (-L + 1 + b) = φ' at *
      have hφ := norm_cis (-(((-L + 1 + b : ℤ) : ℝ) * Real.pi / (2 * (L : ℝ) - 1)))
      generalize cis (-(((-L + 1 + b : ℤ) : ℝ) * Real.pi / (2 * (L : ℝ) - 1))) = φ at *
      refine ⟨by rw [norm_mul, hφ, mul_one], ?_⟩
      have hφ' : ‖φ'‖ ≤ 2 := by
        have := norm_le_norm_add_norm_sub' φ' φ
        norm_num at hp
        linarith
      have e : F.mul (S' b) φ' - S b * φ = (F.mul (S' b) φ' - S' b * φ') + (S' b * (φ' - φ) + (S' b - S b) * φ) := by
        ring
      rw [e]
      refine (norm_add_le _ _).trans ((add_le_add hm (norm_add_le _ _)).trans ?_)
      rw [norm_mul, norm_mul, hφ, mul_one]
      have k1 : ‖S' b‖ * ‖φ'‖ / 2 ^ 50 ≤ ‖S' b‖ * 2 / 2 ^ 50 := by gcongr
      have k2 : ‖S' b‖ * ‖φ' - φ‖ ≤ ‖S' b‖ * (6 / 2 ^ 50) := by gcongr
      have k3 : 8 / 2 ^ 50 * ‖S' b‖ = ‖S' b‖ * 2 / 2 ^ 50 + ‖S' b‖ * (6 / 2 ^ 50) := by ring
      linarith
  obtain ⟨z, hz⟩ : ∃ z : ℤ → ℂ, z = fun b => if L - 1 - off ≤ b ∧ b < L - 1 - off + (2 * L - 1 + off)
    then x (b - (L - 1 - off)) else 0 := ⟨_, rfl⟩
  obtain ⟨z', hz'⟩ : ∃ z' : ℤ → ℂ, z' = fun b => if L - 1 - off ≤ b ∧ b < L - 1 - off + (2 * L - 1 + off)
    then x' (b - (L - 1 - off)) else 0 := ⟨_, rfl⟩
  rw [← hz, ← hz']
  obtain ⟨i1, i2⟩ := interpF_step F.toFftLib (n := 2 * L - 1 + off) (n' := 4 * L - 3) (s := L - 1 - off)
    hn (by omega) (by omega) (by omega) v v' z z' (ν := 8 / 2 ^ 50) (by positivity) (by norm_num)
    (fun j j0 j1 => by
      rw [hz, hz']
      beta_reduce
      rw [if_pos ⟨j0, by omega⟩, if_pos ⟨j0, by omega⟩]
      exact hxx _ (by omega) (by omega))
    (fun j hj _ _ => by
      rw [hz, hz']
      beta_reduce
      rw [if_neg (by omega), if_neg (by omega)]
      exact ⟨rfl, rfl⟩)
  obtain ⟨Y, hY⟩ : ∃ Y, Y = ifft_fwd (4 * L - 3) (ifftshift (4 * L - 3) z) := ⟨_, rfl⟩
  obtain ⟨Y', hY'⟩ : ∃ Y', Y' = F.ifft (4 * L - 3) (ifftshift (4 * L - 3) z') := ⟨_, rfl⟩
  rw [← hY, ← hY']
  rw [← hY] at i1 i2
  rw [← hY'] at i2
  have hU1 := ftErr_four hL
  have hU2 := ftErr_small hn' (by omega)
  have hU3 := ftErr_ge hn'
  have htn := tn_pos
  have hsn := sqrt_ge_one hn
  have hsn' := sqrt_ge_one hn'
  have r1 := rr_le_const hn.le (a := fun j => ‖v j‖) hA0 (fun j j0 j1 => by rw [abs_norm]; exact hA j j0 j1)
  have r2 := rr_le_const hn.le (a := fun j => ‖v' j - v j‖) hδ0
    (fun j j0 j1 => by rw [abs_norm]; exact hv j j0 j1)
  have hfs := fftFwdF_step F.toFftLib hn' (by omega) (fun b => Y b * fwQuads L b) (fun b => F.mul (Y' b) (q b))
  have j0 : 0 ≤ (L - 1 + a - (4 * L - 3) / 2) % (4 * L - 3) := Int.emod_nonneg _ (by omega)
  have j1 : (L - 1 + a - (4 * L - 3) / 2) % (4 * L - 3) < 4 * L - 3 := Int.emod_lt_of_pos _ hn'
  have g1 := le_rr (fun k => ‖fft_fwd (4 * L - 3) (fun b => Y b * fwQuads L b) k‖) j0 j1
  have g2 := le_rr (fun k => ‖fftFwdF F.toFftLib (4 * L - 3) (fun b => F.mul (Y' b) (q b)) k
    - fft_fwd (4 * L - 3) (fun b => Y b * fwQuads L b) k‖) j0 j1
  rw [abs_norm] at g1 g2
  have hfe : rr (4 * L - 3) (fun k => ‖fft_fwd (4 * L - 3) (fun b => Y b * fwQuads L b) k‖)
      = 1 / √((4 * L - 3 : ℤ) : ℝ) * rr (4 * L - 3) (fun b => ‖Y b * fwQuads L b‖) := by
    rw [rr_energy, rr_energy, energy_fft_fwd hn', Real.sqrt_div (energy_nonneg _ _)]; ring
  have p1 : rr (4 * L - 3) (fun b => ‖Y b * fwQuads L b‖) ≤ 8 * rr (4 * L - 3) (fun b => ‖Y b‖) := by
    rw [← rr_mul _ (by norm_num)]
    refine rr_le_rr fun j _ _ => ?_
    rw [abs_norm, norm_mul, mul_comm]
    exact mul_le_mul_of_nonneg_right (norm_fwQuads_le hL j) (norm_nonneg _)
  set U := ftErr (4 * L - 3) with hU
  have hU0 : 0 ≤ U := le_trans (by positivity) hU3
  have p2 : rr (4 * L - 3) (fun b => ‖F.mul (Y' b) (q b) - Y b * fwQuads L b‖)
      ≤ 10 * rr (4 * L - 3) (fun b => ‖Y' b - Y b‖) + 73 * U * rr (4 * L - 3) (fun b => ‖Y b‖)
        + √((4 * L - 3 : ℤ) : ℝ) * (1 / 2 ^ 1000) := by
    refine rr_bound hn'.le (by norm_num) (by positivity) (by positivity) fun j j0 j1 => ?_
    rw [abs_norm]
    have hm := F.mul_near (Y' j) (q j)
    have hqj := hq j j0 j1
    have hqn := norm_fwQuads_le hL j
    have hκ : 64 * (L : ℝ) / 2 ^ 50 ≤ 64 * U := by
      have := hU1.1
      have e : 64 * (L : ℝ) / 2 ^ 50 = 64 * (L / 2 ^ 50) := by ring
      linarith
    have hq9 : ‖q j‖ ≤ 9 := by
      have := norm_le_norm_add_norm_sub' (q j) (fwQuads L j)
      have : 64 * (L : ℝ) / 2 ^ 50 ≤ 1 := by
        rw [div_le_one (by norm_num)]; norm_num at hL2 ⊢; linarith
      linarith
    have e : F.mul (Y' j) (q j) - Y j * fwQuads L j = (F.mul (Y' j) (q j) - Y' j * q j)
      + ((Y' j - Y j) * q j + Y j * (q j - fwQuads L j)) := by ring
    rw [e]
    refine (norm_add_le _ _).trans ((add_le_add hm (norm_add_le _ _)).trans ?_)
    rw [norm_mul, norm_mul]
    have k1 : ‖Y' j‖ * ‖q j‖ / 2 ^ 50 ≤ (‖Y j‖ + ‖Y' j - Y j‖) * 9 / 2 ^ 50 := by
      have := norm_le_norm_add_norm_sub' (Y' j) (Y j)
      gcongr
    have k2 : ‖Y' j - Y j‖ * ‖q j‖ ≤ ‖Y' j - Y j‖ * 9 := by gcongr
    have k3 : ‖Y j‖ * ‖q j - fwQuads L j‖ ≤ ‖Y j‖ * (64 * U) :=
      mul_le_mul_of_nonneg_left (hqj.trans hκ) (norm_nonneg _)
    have k4 : ‖Y j‖ * (1 / 2 ^ 50) ≤ ‖Y j‖ * U := by gcongr
    have k5 : (‖Y j‖ + ‖Y' j - Y j‖) * 9 / 2 ^ 50 = 9 * (‖Y j‖ * (1 / 2 ^ 50)) + 9 / 2 ^ 50 * ‖Y' j - Y j‖ := by
      ring
    have k6 : 9 / 2 ^ 50 * ‖Y' j - Y j‖ ≤ 1 * ‖Y' j - Y j‖ :=
      mul_le_mul_of_nonneg_right (by norm_num) (norm_nonneg _)
    rw [k5] at k1
    linarith
  -- numbers only
  change ‖fft_fwd (4 * L - 3) (fun b => Y b * fwQuads L b) ((L - 1 + a - (4 * L - 3) / 2) % (4 * L - 3))‖ ≤ _ ∧
    ‖fftFwdF F.toFftLib (4 * L - 3) (fun b => F.mul (Y' b) (q b))
      ((L - 1 + a - (4 * L - 3) / 2) % (4 * L - 3)) - fft_fwd (4 * L - 3) (fun b => Y b * fwQuads L b)
      ((L - 1 + a - (4 * L - 3) / 2) % (4 * L - 3))‖ ≤ _
  rw [hfe] at g1
  have g2' := g2.trans hfs
  have t1 := tiny_tn
  generalize rr (4 * L - 3) (fun b => ‖Y b * fwQuads L b‖) = G at *
  generalize rr (4 * L - 3) (fun b => ‖F.mul (Y' b) (q b) - Y b * fwQuads L b‖) = dG at *
  generalize rr (4 * L - 3) (fun b => ‖Y b‖) = y at *
  generalize rr (4 * L - 3) (fun b => ‖Y' b - Y b‖) = dY at *
  generalize rr (2 * L - 1 + off) (fun j => ‖v j‖) = ra at *
  generalize rr (2 * L - 1 + off) (fun j => ‖v' j - v j‖) = rd at *
  generalize √((2 * L - 1 + off : ℤ) : ℝ) = s at *
  generalize √((4 * L - 3 : ℤ) : ℝ) = s' at *
  have hs0 : 0 < s := by linarith
  have hs0' : 0 < s' := by linarith
  obtain ⟨X, hX⟩ : ∃ X, X = A + δ + tn := ⟨_, rfl⟩
  have q1 : y ≤ s' * A := by
    rw [i1]
    calc s' / s * ra ≤ s' / s * (s * A) := by gcongr
      _ = s' * A := by field_simp
  have q2 : dY ≤ s' * (δ + 25 * (U * X)) := by
    refine i2.trans ?_
    have w1 : ra + rd + tn ≤ s * X := by
      have : 1 * tn ≤ s * tn := by gcongr
      rw [hX, mul_add, mul_add]
      linarith
    have w2 : 9 * U + 2 * (8 / 2 ^ 50) ≤ 25 * U := by
      have : 2 * (8 / 2 ^ 50 : ℝ) = 16 * (1 / 2 ^ 50) := by norm_num
      linarith
    have w3 : 0 ≤ s * X := by rw [hX]; positivity
    calc s' / s * (rd + (9 * U + 2 * (8 / 2 ^ 50)) * (ra + rd + tn))
        ≤ s' / s * (s * δ + 25 * U * (s * X)) := by
          refine mul_le_mul_of_nonneg_left (add_le_add r2 ?_) (by positivity)
          exact (mul_le_mul_of_nonneg_left w1 (by positivity)).trans (mul_le_mul_of_nonneg_right w2 w3)
      _ = s' * (δ + 25 * (U * X)) := by field_simp
  have hX0 : 0 ≤ X := by rw [hX]; positivity
  have hUX : 0 ≤ U * X := mul_nonneg hU0 hX0
  have hUA : U * A ≤ U * X := mul_le_mul_of_nonneg_left (by linarith) hU0
  have hUt : (1 : ℝ) / 2 ^ 1000 ≤ U * X := by
    rw [t1]
    calc tn / 2 ^ 100 = 1 / 2 ^ 100 * tn := by ring
      _ ≤ U * X := mul_le_mul (le_trans (one_div_le_one_div_of_le (by norm_num) (by norm_num)) hU3)
        (by linarith) htn.le hU0
  have q3 : dG ≤ s' * (10 * δ + 324 * (U * X)) := by
    have w1 : 73 * U * y ≤ 73 * U * (s' * A) := by gcongr
    have w2 : s' * (1 / 2 ^ 1000) ≤ s' * (U * X) := by gcongr
    have w3 : 73 * U * (s' * A) = s' * (73 * (U * A)) := by ring
    have w4 : s' * (U * A) ≤ s' * (U * X) := by gcongr
    have w5 : s' * (10 * δ + 324 * (U * X)) = 10 * (s' * (δ + 25 * (U * X))) + 73 * (s' * (U * X))
      + s' * (U * X) := by ring
    have w6 : s' * (73 * (U * A)) = 73 * (s' * (U * A)) := by ring
    rw [w5]
    linarith
  have q4 : G ≤ s' * (8 * A) := by
    have : s' * (8 * A) = 8 * (s' * A) := by ring
    linarith
  constructor
  · refine g1.trans ?_
    calc 1 / s' * G ≤ 1 / s' * (s' * (8 * A)) := by gcongr
      _ = 8 * A := by field_simp
  · refine g2'.trans ?_
    have w1 : tn ≤ s' * tn := le_mul_of_one_le_left htn.le hsn'
    have w2 : dG + 6 * U * (G + dG + tn)
        ≤ s' * (10 * δ + 324 * (U * X) + 6 * U * (8 * A + (10 * δ + 324 * (U * X)) + tn)) := by
      have : 6 * U * (G + dG + tn)
          ≤ 6 * U * (s' * (8 * A) + s' * (10 * δ + 324 * (U * X)) + s' * tn) := by
        gcongr
      refine (add_le_add q3 this).trans (le_of_eq ?_)
      ring
    have w3 : 1 / s' * (dG + 6 * U * (G + dG + tn))
        ≤ 10 * δ + 324 * (U * X) + 6 * U * (8 * A + (10 * δ + 324 * (U * X)) + tn) := by
      rw [div_mul_eq_mul_div, one_mul, div_le_iff₀ hs0', mul_comm _ s']
      exact w2
    refine w3.trans ?_
    have w4 : 8 * A + (10 * δ + 324 * (U * X)) + tn ≤ 12 * X := by
      have : U * X ≤ 1 / 2 ^ 8 * X := mul_le_mul_of_nonneg_right hU2 hX0
      rw [hX] at this ⊢
      norm_num at this ⊢
      linarith
    have w5 : 6 * U * (8 * A + (10 * δ + 324 * (U * X)) + tn) ≤ 6 * U * (12 * X) := by gcongr
    have w6 : 6 * U * (12 * X) = 72 * (U * X) := by ring
    have w7 : U * X = U * (A + tn) + U * δ := by rw [hX]; ring
    have w8 : U * δ ≤ 1 / 2 ^ 8 * δ := mul_le_mul_of_nonneg_right hU2 hδ0
    have w9 : U * (A + tn) ≤ L * √L / 2 ^ 44 / 8 * (A + tn) :=
      mul_le_mul_of_nonneg_right hU1.2 (by linarith)
    have w10 : 50 * ((L : ℝ) * √L / 2 ^ 44) * (A + tn) = 400 * (L * √L / 2 ^ 44 / 8 * (A + tn)) := by ring
    rw [w10]
    have w11 : 0 ≤ U * (A + tn) := mul_nonneg hU0 (by linarith)
    norm_num at w8
    linarith

end S2fft
