import Verif.Lemmas.PrecomputeDouble
import Verif.Spec.CoeffSize

/-! # Accuracy of the precomputed inverse transform in double precision -/

namespace S2fft
open Spec

theorem norm_neg_one_zpow (k : ℤ) : ‖(-1 : ℂ) ^ k‖ = 1 := by
  rw [norm_zpow, norm_neg, norm_one, one_zpow]

theorem elfactor_nonneg (el : ℤ) : 0 ≤ elfactor el := Real.sqrt_nonneg _

/-- The sizes of the coefficients of one order. -/
noncomputable def orderSize (flm : ℤ → ℤ → ℂ) (L m : ℤ) : ℝ :=
  ∑ l ∈ Finset.Ico 0 L, elfactor l * ‖flm l (m + L - 1)‖

theorem orderSize_nonneg (flm : ℤ → ℤ → ℂ) (L m : ℤ) : 0 ≤ orderSize flm L m :=
  Finset.sum_nonneg fun l _ => mul_nonneg (elfactor_nonneg l) (norm_nonneg _)

theorem gAt_le (flm : ℤ → ℤ → ℂ) (L spin : ℤ) (α : ℝ) (m : ℤ) :
    ‖gAt flm L spin 0 α m‖ ≤ orderSize flm L m := by
  rw [gAt_zero]
  refine le_trans (norm_sum_le _ _) (Finset.sum_le_sum fun l _ => ?_)
  rw [norm_mul, norm_mul, norm_mul, norm_neg_one_zpow, one_mul, Complex.norm_real, Complex.norm_real,
    Real.norm_eq_abs, Real.norm_eq_abs, abs_of_nonneg (elfactor_nonneg l)]
  refine mul_le_mul_of_nonneg_right ?_ (norm_nonneg _)
  have := mul_le_mul_of_nonneg_left (wignerd_abs_le_one l m (-spin) α) (elfactor_nonneg l)
  linarith

/-- The Fourier coefficients of a ring. -/
theorem ftmF_near (F : FftLib) {L spin nt : ℤ} {s : PyStr} {reality : Bool} {θ : ℤ → ℝ} {ε : ℝ}
    {K : ℤ → ℤ → ℤ → ℝ} (hL : 1 ≤ L) (hK : KernelNearF K L spin nt reality θ ε) (hε : ε ≤ 1)
    (flm : ℤ → ℤ → ℂ) {t m : ℤ} (t0 : 0 ≤ t) (t1 : t < nt) (hm : |m| < L)
    (hr : reality = true → 0 ≤ m) :
    ‖precomputeFtmF F flm K L s reality spin t (m + L - 1 + mOffset s) - gAt flm L spin 0 (θ t) m‖
      ≤ (ε + 2 * L / 2 ^ 50) * orderSize flm L m + L / 2 ^ 1000 := by
  have hL' : (1 : ℝ) ≤ L := by exact_mod_cast hL
  have hm' := abs_lt.1 hm
  unfold precomputeFtmF
  simp only
  rw [if_pos (by unfold mStart; split_ifs with h <;> [have := hr h; skip] <;> omega),
    show m + L - 1 + mOffset s - (mStart L reality + mOffset s) = m + L - 1 - mStart L reality by ring,
    show mStart L reality + (m + L - 1 - mStart L reality) = m + L - 1 by ring, gAt_zero]
  have e1 : ∑ el ∈ Finset.Ico 0 L, (-1 : ℂ) ^ spin * elfactor el * wignerd el m (-spin) (θ t)
      * flm el (m + L - 1)
      = (∑ el ∈ Finset.Ico 0 L, ((elfactor el * wignerd el m (-spin) (θ t) : ℝ) : ℂ)
          * flm el (m + L - 1)) * (-1) ^ spin := by
    rw [Finset.sum_mul]
    refine Finset.sum_congr rfl fun l _ => ?_
    push_cast; ring
  rw [e1, ← sub_mul, norm_mul, norm_neg_one_zpow, mul_one]
  have h1 := F.dot_near L (fun l => (K t l (m + L - 1 - mStart L reality) : ℂ))
    (fun l => flm l (m + L - 1)) (by omega)
  have hk : ∀ l ∈ Finset.Ico 0 L, |K t l (m + L - 1 - mStart L reality)
      - elfactor l * wignerd l m (-spin) (θ t)| ≤ elfactor l * ε := by
    intro l hl
    rw [Finset.mem_Ico] at hl
    exact hK t l m t0 t1 hl.1 hl.2 hm
  have h2 : ∑ l ∈ Finset.Ico 0 L, ‖(K t l (m + L - 1 - mStart L reality) : ℂ)‖ * ‖flm l (m + L - 1)‖
      ≤ 2 * orderSize flm L m := by
    unfold orderSize
    rw [Finset.mul_sum]
    refine Finset.sum_le_sum fun l hl => ?_
    rw [← mul_assoc]
    refine mul_le_mul_of_nonneg_right ?_ (norm_nonneg _)
    rw [Complex.norm_real, Real.norm_eq_abs]
    have a1 := hk l hl
    have a2 := mul_le_mul_of_nonneg_left (wignerd_abs_le_one l m (-spin) (θ t)) (elfactor_nonneg l)
    have a3 := mul_le_mul_of_nonneg_left hε (elfactor_nonneg l)
    have a4 := abs_sub_abs_le_abs_sub (K t l (m + L - 1 - mStart L reality))
      (elfactor l * wignerd l m (-spin) (θ t))
    rw [abs_mul, abs_of_nonneg (elfactor_nonneg l)] at a4
    linarith
  have h3 : ‖∑ l ∈ Finset.Ico 0 L, (K t l (m + L - 1 - mStart L reality) : ℂ) * flm l (m + L - 1)
      - ∑ el ∈ Finset.Ico 0 L, ((elfactor el * wignerd el m (-spin) (θ t) : ℝ) : ℂ)
          * flm el (m + L - 1)‖ ≤ ε * orderSize flm L m := by
    rw [← Finset.sum_sub_distrib]
    refine le_trans (norm_sum_le _ _) ?_
    unfold orderSize
    rw [Finset.mul_sum]
    refine Finset.sum_le_sum fun l hl => ?_
    rw [← sub_mul, ← Complex.ofReal_sub, norm_mul, Complex.norm_real, Real.norm_eq_abs, ← mul_assoc]
    refine mul_le_mul_of_nonneg_right ?_ (norm_nonneg _)
    rw [mul_comm ε]
    exact hk l hl
  have h4 := norm_sub_le_norm_sub_add_norm_sub
    (F.dot L (fun l => (K t l (m + L - 1 - mStart L reality) : ℂ)) (fun l => flm l (m + L - 1)))
    (∑ l ∈ Finset.Ico 0 L, (K t l (m + L - 1 - mStart L reality) : ℂ) * flm l (m + L - 1))
    (∑ el ∈ Finset.Ico 0 L, ((elfactor el * wignerd el m (-spin) (θ t) : ℝ) : ℂ)
          * flm el (m + L - 1))
  have h5 : (L : ℝ) / 2 ^ 50 * (∑ l ∈ Finset.Ico 0 L,
      ‖(K t l (m + L - 1 - mStart L reality) : ℂ)‖ * ‖flm l (m + L - 1)‖)
      ≤ L / 2 ^ 50 * (2 * orderSize flm L m) := by gcongr
  have e2 : (ε + 2 * L / 2 ^ 50) * orderSize flm L m
      = ε * orderSize flm L m + L / 2 ^ 50 * (2 * orderSize flm L m) := by ring
  rw [e2]
  linarith

/-- Underflow in sums of sums. -/
theorem tiny_bound {L x : ℝ} (hL : 1 ≤ L) (hL1 : L ≤ 2 ^ 26) (hx : x ≤ 16 * L * L) :
    x / 2 ^ 1000 ≤ 1 / 2 ^ 900 := by
  have h1 : x ≤ 2 ^ 60 := by
    refine le_trans hx ?_
    have : 16 * L * L ≤ 16 * 2 ^ 26 * 2 ^ 26 := by gcongr
    refine le_trans this (by norm_num)
  rw [div_le_div_iff₀ (by positivity) (by positivity), one_mul]
  calc x * 2 ^ 900 ≤ 2 ^ 60 * 2 ^ 900 := by gcongr
    _ = 2 ^ 960 := by rw [← pow_add]
    _ ≤ 2 ^ 1000 := by gcongr <;> norm_num

/-! ## The Fourier transform of a ring -/

theorem ifft_fwd_synth {σ : Scheme} (hh : σ ≠ .healpix) {L n : ℤ} (hv : σ.Valid L n) {D : ℤ → ℂ}
    (hD0 : σ.off = 1 → D 0 = 0) {t p : ℤ} (hp : σ.Has L n t p) :
    ifft_fwd (2 * L - 1 + σ.off) (ifftshift (2 * L - 1 + σ.off) D) p
      = synth L false (fun m => D (m + L - 1 + σ.off)) (σ.phi L n t p) := by
  have hpos : ∀ t p, σ.pos n t p = (t, p) := by
    intro t p; revert hh; cases σ <;> simp [Scheme.pos]
  obtain ⟨f, e, h⟩ := inverseFftM_values (lower_name σ) (mOffset_name σ) (method := mNumpy) (by decide)
    hv (fun h => absurd h hh) false (fun _ => D) (fun _ m => D (m + L - 1 + σ.off))
    (by simp) (fun _ h _ _ => hD0 h) (fun t m _ _ _ _ _ => by
      rw [phi_equi hh]; simp [gEff, cis_zero])
  unfold inverseFftM at e
  rw [if_neg (by rw [lower_hp_iff (lower_name σ)]; exact hh), if_neg (by simp)] at e
  have := h t p hp
  rw [hpos] at this
  rw [← this]
  injection e with e
  rw [← e]

theorem sum_row {σ : Scheme} {L : ℤ} (hL : 1 ≤ L) (D : ℤ → ℂ) (hD0 : σ.off = 1 → D 0 = 0) :
    ∑ k ∈ Finset.Ico 0 (2 * L - 1 + σ.off), ‖D k‖
      = ∑ m ∈ Finset.Ioo (-L) L, ‖D (m + L - 1 + σ.off)‖ := by
  rw [sum_Ioo_eq_Ico]
  rcases off_cases σ with h | h
  · rw [h, add_zero]
    refine Finset.sum_congr rfl fun j _ => ?_
    rw [show j - (L - 1) + L - 1 + 0 = j by ring]
  · rw [sum_Ico_bot (by omega), hD0 h, norm_zero, zero_add, h, show (0 : ℤ) + 1 = 0 + 1 by ring,
      sum_Ico_shift]
    refine Finset.sum_congr rfl fun j _ => ?_
    rw [show j - (L - 1) + L - 1 + 1 = j + 1 by ring]

theorem synth_complex_sub (L : ℤ) (g g' : ℤ → ℂ) (φ : ℝ) :
    ‖synth L false g φ - synth L false g' φ‖ ≤ ∑ m ∈ Finset.Ioo (-L) L, ‖g m - g' m‖ := by
  unfold synth
  rw [if_neg (by simp), if_neg (by simp), ← Finset.sum_sub_distrib]
  refine le_trans (norm_sum_le _ _) (Finset.sum_le_sum fun m _ => ?_)
  rw [← sub_mul, norm_mul, norm_cis, mul_one]

/-- A ring of a complex signal. -/
theorem ifftF_ring (F : FftLib) {σ : Scheme} (hh : σ ≠ .healpix) {L n : ℤ} (hv : σ.Valid L n)
    (hL1 : L ≤ 2 ^ 26) {D g : ℤ → ℂ} {S : ℤ → ℝ} {η : ℝ} (hη : η ≤ 1 / 4) (hS : ∀ m, 0 ≤ S m)
    (hD0 : σ.off = 1 → D 0 = 0)
    (hD : ∀ m, |m| < L → ‖D (m + L - 1 + σ.off) - g m‖ ≤ η * S m + L / 2 ^ 1000)
    (hg : ∀ m, ‖g m‖ ≤ S m) {t p : ℤ} (hp : σ.Has L n t p) :
    ‖F.ifft (2 * L - 1 + σ.off) (ifftshift (2 * L - 1 + σ.off) D) p
        - synth L false g (σ.phi L n t p)‖
      ≤ (η + 4 * L / 2 ^ 50) * ∑ m ∈ Finset.Ioo (-L) L, S m + 1 / 2 ^ 900 := by
  have hL := hv.1
  have hL' : (1 : ℝ) ≤ L := by exact_mod_cast hL
  have hL2 : (L : ℝ) ≤ 2 ^ 26 := by exact_mod_cast hL1
  have hoff := off_cases σ
  have hp' := hp.2.2
  rw [ringLen_equi hh] at hp'
  have hn0 : (0 : ℤ) < 2 * L - 1 + σ.off := by omega
  have hn : ((2 * L - 1 + σ.off : ℤ) : ℝ) ≤ 2 * L := by
    exact_mod_cast (by omega : 2 * L - 1 + σ.off ≤ 2 * L)
  have hn' : (0 : ℝ) ≤ ((2 * L - 1 + σ.off : ℤ) : ℝ) := by exact_mod_cast hn0.le
  have h1 := F.ifft_near (2 * L - 1 + σ.off) (ifftshift (2 * L - 1 + σ.off) D) p hp'.1 hp'.2
  rw [ifft_fwd_synth hh hv hD0 hp] at h1
  have h2 := synth_complex_sub L (fun m => D (m + L - 1 + σ.off)) g (σ.phi L n t p)
  have e1 : ∑ k ∈ Finset.Ico 0 (2 * L - 1 + σ.off), ‖ifftshift (2 * L - 1 + σ.off) D k‖
      = ∑ m ∈ Finset.Ioo (-L) L, ‖D (m + L - 1 + σ.off)‖ := by
    rw [← sum_row hL D hD0]
    exact sum_Ico_emod hn0 _ (fun k => ‖D k‖)
  rw [e1] at h1
  have hcard : ((Finset.Ioo (-L) L).card : ℝ) ≤ 2 * L := by
    rw [Int.card_Ioo]
    have : ((L - -L - 1).toNat : ℤ) ≤ 2 * L := by omega
    exact_mod_cast this
  have h3 : ∑ m ∈ Finset.Ioo (-L) L, ‖D (m + L - 1 + σ.off) - g m‖
      ≤ η * ∑ m ∈ Finset.Ioo (-L) L, S m + 2 * L * (L / 2 ^ 1000) := by
    refine le_trans (Finset.sum_le_sum fun m hm => hD m (by
      rw [Finset.mem_Ioo] at hm; rw [abs_lt]; exact hm)) ?_
    rw [Finset.sum_add_distrib, ← Finset.mul_sum, Finset.sum_const, nsmul_eq_mul]
    gcongr
  have h4 : ∑ m ∈ Finset.Ioo (-L) L, ‖D (m + L - 1 + σ.off)‖
      ≤ ∑ m ∈ Finset.Ioo (-L) L, S m
        + ∑ m ∈ Finset.Ioo (-L) L, ‖D (m + L - 1 + σ.off) - g m‖ := by
    rw [← Finset.sum_add_distrib]
    refine Finset.sum_le_sum fun m _ => ?_
    have := norm_le_norm_add_norm_sub' (D (m + L - 1 + σ.off)) (g m)
    linarith [hg m]
  have hSS : 0 ≤ ∑ m ∈ Finset.Ioo (-L) L, S m := Finset.sum_nonneg fun m _ => hS m
  have h5 := norm_sub_le_norm_sub_add_norm_sub
    (F.ifft (2 * L - 1 + σ.off) (ifftshift (2 * L - 1 + σ.off) D) p)
    (synth L false (fun m => D (m + L - 1 + σ.off)) (σ.phi L n t p)) (synth L false g (σ.phi L n t p))
  have htiny := tiny_bound hL' hL2 (x := 4 * L * L + 2 * L) (by nlinarith)
  have h0 : 0 ≤ ∑ m ∈ Finset.Ioo (-L) L, ‖D (m + L - 1 + σ.off)‖ :=
    Finset.sum_nonneg fun m _ => norm_nonneg _
  have eT : (4 * L * L + 2 * L : ℝ) / 2 ^ 1000 = 2 * (2 * L * (L / 2 ^ 1000)) + 2 * L / 2 ^ 1000 := by ring
  have hT0 : 0 ≤ 2 * (L : ℝ) * (L / 2 ^ 1000) := by positivity
  have eN : ((2 * L - 1 + σ.off : ℤ) : ℝ) / 2 ^ 1000 ≤ 2 * L / 2 ^ 1000 := by gcongr
  rw [eT] at htiny
  have h6 : ((2 * L - 1 + σ.off : ℤ) : ℝ) / 2 ^ 50 * ∑ m ∈ Finset.Ioo (-L) L, ‖D (m + L - 1 + σ.off)‖
      ≤ 2 * L / 2 ^ 50 * ∑ m ∈ Finset.Ioo (-L) L, ‖D (m + L - 1 + σ.off)‖ := by gcongr
  generalize ((2 * L - 1 + σ.off : ℤ) : ℝ) / 2 ^ 1000 = N1 at *
  generalize ((2 * L - 1 + σ.off : ℤ) : ℝ) / 2 ^ 50 * _ = N2 at *
  generalize 2 * (L : ℝ) * (L / 2 ^ 1000) = T at *
  generalize 2 * (L : ℝ) / 2 ^ 1000 = T2 at *
  generalize ∑ m ∈ Finset.Ioo (-L) L, ‖D (m + L - 1 + σ.off)‖ = SD at *
  generalize ∑ m ∈ Finset.Ioo (-L) L, ‖D (m + L - 1 + σ.off) - g m‖ = Se at *
  generalize ∑ m ∈ Finset.Ioo (-L) L, S m = SS at *
  have h7 : 2 * (L : ℝ) / 2 ^ 50 * SD ≤ 2 * L / 2 ^ 50 * (2 * SS + T) := by
    refine mul_le_mul_of_nonneg_left ?_ (by positivity)
    nlinarith
  have h8 : 2 * (L : ℝ) / 2 ^ 50 * T ≤ 1 * T := by
    refine mul_le_mul_of_nonneg_right ?_ hT0
    rw [div_le_one (by norm_num)]
    norm_num at hL2 ⊢
    linarith
  have e3 : 2 * (L : ℝ) / 2 ^ 50 * (2 * SS + T) = 4 * L / 2 ^ 50 * SS + 2 * L / 2 ^ 50 * T := by ring
  rw [add_mul]
  linarith

/-- A ring of a real signal. -/
theorem irfftF_ring (F : FftLib) {σ : Scheme} (hh : σ ≠ .healpix) {L n : ℤ} (hv : σ.Valid L n)
    (hL1 : L ≤ 2 ^ 26) {D g : ℤ → ℂ} {S : ℤ → ℝ} {η : ℝ} (hη : η ≤ 1 / 4) (hS : ∀ m, 0 ≤ S m)
    (hD : ∀ m, 0 ≤ m → m < L → ‖D m - g m‖ ≤ η * S m + L / 2 ^ 1000)
    (hg : ∀ m, ‖g m‖ ≤ S m) (hg0 : (g 0).im = 0) {t p : ℤ} (hp : σ.Has L n t p) :
    ‖(F.irfft L D (2 * L - 1 + σ.off) p : ℂ) - synth L true g (σ.phi L n t p)‖
      ≤ (η + 8 * L / 2 ^ 50) * (S 0 + ∑ m ∈ Finset.Ico 1 L, (S m + S m)) + 1 / 2 ^ 900 := by
  have hL := hv.1
  have hL' : (1 : ℝ) ≤ L := by exact_mod_cast hL
  have hL2 : (L : ℝ) ≤ 2 ^ 26 := by exact_mod_cast hL1
  have hoff := off_cases σ
  have hp' := hp.2.2
  rw [ringLen_equi hh] at hp'
  have hn0 : (0 : ℤ) < 2 * L - 1 + σ.off := by omega
  have hn : ((2 * L - 1 + σ.off : ℤ) : ℝ) ≤ 2 * L := by
    exact_mod_cast (by omega : 2 * L - 1 + σ.off ≤ 2 * L)
  have hn' : (0 : ℝ) ≤ ((2 * L - 1 + σ.off : ℤ) : ℝ) := by exact_mod_cast hn0.le
  have h1 := F.irfft_near L D (2 * L - 1 + σ.off) p (by omega) hp'.1 hp'.2
  rw [irfft_fwd_short hL (by omega) (by omega)] at h1
  have hsyn : synth L true g (σ.phi L n t p) = (((g 0).re
      + ∑ k ∈ Finset.Ico 1 L, 2 * (g k * cis (2 * Real.pi * k * p / (2 * L - 1 + σ.off : ℤ))).re : ℝ) : ℂ) := by
    unfold synth
    rw [if_pos rfl, Complex.ofReal_add, Complex.ofReal_sum, ofReal_re_of_im hg0]
    congr 1
    refine Finset.sum_congr rfl fun m _ => ?_
    rw [two_re, phi_equi hh, ringLen_equi hh]
    have : ((m : ℤ) : ℝ) * (2 * Real.pi * p / ((2 * L - 1 + σ.off : ℤ) : ℝ))
        = 2 * Real.pi * m * p / ((2 * L - 1 + σ.off : ℤ) : ℝ) := by ring
    rw [this]
  rw [hsyn, ← Complex.ofReal_sub, Complex.norm_real, Real.norm_eq_abs]
  have hre : ∀ k, 0 ≤ k → k < L → ∀ x : ℝ, |(D k * cis x).re - (g k * cis x).re| ≤ ‖D k - g k‖ := by
    intro k _ _ x
    rw [← Complex.sub_re, ← sub_mul]
    refine le_trans (Complex.abs_re_le_norm _) ?_
    rw [norm_mul, norm_cis, mul_one]
  have h2 : |((D 0).re + ∑ k ∈ Finset.Ico 1 L, 2 * (D k * cis (2 * Real.pi * k * p / (2 * L - 1 + σ.off : ℤ))).re)
      - ((g 0).re + ∑ k ∈ Finset.Ico 1 L, 2 * (g k * cis (2 * Real.pi * k * p / (2 * L - 1 + σ.off : ℤ))).re)|
      ≤ ‖D 0 - g 0‖ + ∑ k ∈ Finset.Ico 1 L, (‖D k - g k‖ + ‖D k - g k‖) := by
    rw [add_sub_add_comm, ← Finset.sum_sub_distrib]
    refine le_trans (abs_add_le _ _) (add_le_add ?_ ?_)
    · rw [← Complex.sub_re]; exact Complex.abs_re_le_norm _
    · refine le_trans (Finset.abs_sum_le_sum_abs _ _) (Finset.sum_le_sum fun k hk => ?_)
      rw [Finset.mem_Ico] at hk
      rw [← mul_sub, abs_mul, abs_two]
      have := hre k (by omega) hk.2 (2 * Real.pi * k * p / (2 * L - 1 + σ.off : ℤ))
      linarith
  have hcard : ((Finset.Ico 1 L).card : ℝ) ≤ L - 1 := by
    rw [Int.card_Ico]
    have : ((L - 1).toNat : ℤ) ≤ L - 1 := by omega
    exact_mod_cast this
  have h3 : ‖D 0 - g 0‖ + ∑ k ∈ Finset.Ico 1 L, (‖D k - g k‖ + ‖D k - g k‖)
      ≤ η * (S 0 + ∑ m ∈ Finset.Ico 1 L, (S m + S m)) + 2 * L * (L / 2 ^ 1000) := by
    have a0 := hD 0 le_rfl (by omega)
    have a1 : ∑ k ∈ Finset.Ico 1 L, (‖D k - g k‖ + ‖D k - g k‖)
        ≤ η * ∑ k ∈ Finset.Ico 1 L, (S k + S k)
          + (Finset.Ico 1 L).card * (2 * ((L : ℝ) / 2 ^ 1000)) := by
      rw [Finset.mul_sum, ← nsmul_eq_mul, ← Finset.sum_const, ← Finset.sum_add_distrib]
      refine Finset.sum_le_sum fun k hk => ?_
      rw [Finset.mem_Ico] at hk
      have := hD k (by omega) hk.2
      linarith
    have a2 : ((Finset.Ico 1 L).card : ℝ) * (2 * ((L : ℝ) / 2 ^ 1000)) ≤ (L - 1) * (2 * (L / 2 ^ 1000)) := by
      gcongr
    have a3 : 0 ≤ (L : ℝ) / 2 ^ 1000 := by positivity
    have e1 : ((L : ℝ) - 1) * (2 * (L / 2 ^ 1000)) = 2 * L * (L / 2 ^ 1000) - 2 * (L / 2 ^ 1000) := by ring
    rw [e1] at a2
    rw [mul_add]
    linarith
  have h4 : ∑ k ∈ Finset.Ico 0 L, 2 * ‖D k‖ ≤ 2 * ((S 0 + ∑ m ∈ Finset.Ico 1 L, (S m + S m))
      + (‖D 0 - g 0‖ + ∑ k ∈ Finset.Ico 1 L, (‖D k - g k‖ + ‖D k - g k‖))) := by
    rw [← Finset.mul_sum, sum_Ico_bot (by omega), zero_add, add_add_add_comm, ← Finset.sum_add_distrib]
    refine mul_le_mul_of_nonneg_left (add_le_add ?_ (Finset.sum_le_sum fun k _ => ?_)) (by norm_num)
    · have := norm_le_norm_add_norm_sub' (D 0) (g 0)
      linarith [hg 0]
    · have := norm_le_norm_add_norm_sub' (D k) (g k)
      linarith [hg k, hS k, norm_nonneg (D k - g k)]
  have hSS : 0 ≤ S 0 + ∑ m ∈ Finset.Ico 1 L, (S m + S m) :=
    add_nonneg (hS 0) (Finset.sum_nonneg fun m _ => add_nonneg (hS m) (hS m))
  have htiny := tiny_bound hL' hL2 (x := 4 * L * L + 2 * L) (by nlinarith)
  have h0 : 0 ≤ ∑ k ∈ Finset.Ico 0 L, 2 * ‖D k‖ :=
    Finset.sum_nonneg fun m _ => mul_nonneg (by norm_num) (norm_nonneg _)
  have eT : (4 * L * L + 2 * L : ℝ) / 2 ^ 1000 = 2 * (2 * L * (L / 2 ^ 1000)) + 2 * L / 2 ^ 1000 := by ring
  have hT0 : 0 ≤ 2 * (L : ℝ) * (L / 2 ^ 1000) := by positivity
  have eN : ((2 * L - 1 + σ.off : ℤ) : ℝ) / 2 ^ 1000 ≤ 2 * L / 2 ^ 1000 := by gcongr
  rw [eT] at htiny
  have h6 : ((2 * L - 1 + σ.off : ℤ) : ℝ) / 2 ^ 50 * ∑ k ∈ Finset.Ico 0 L, 2 * ‖D k‖
      ≤ 2 * L / 2 ^ 50 * ∑ k ∈ Finset.Ico 0 L, 2 * ‖D k‖ := by gcongr
  have h5 := abs_sub_le (F.irfft L D (2 * L - 1 + σ.off) p)
    ((D 0).re + ∑ k ∈ Finset.Ico 1 L, 2 * (D k * cis (2 * Real.pi * k * p / (2 * L - 1 + σ.off : ℤ))).re)
    ((g 0).re + ∑ k ∈ Finset.Ico 1 L, 2 * (g k * cis (2 * Real.pi * k * p / (2 * L - 1 + σ.off : ℤ))).re)
  refine le_trans h5 ?_
  refine le_trans (add_le_add h1 h2) ?_
  generalize ((2 * L - 1 + σ.off : ℤ) : ℝ) / 2 ^ 1000 = N1 at *
  generalize ((2 * L - 1 + σ.off : ℤ) : ℝ) / 2 ^ 50 * _ = N2 at *
  generalize 2 * (L : ℝ) * (L / 2 ^ 1000) = T at *
  generalize 2 * (L : ℝ) / 2 ^ 1000 = T2 at *
  generalize ∑ k ∈ Finset.Ico 0 L, 2 * ‖D k‖ = SD at *
  generalize ‖D 0 - g 0‖ + ∑ k ∈ Finset.Ico 1 L, (‖D k - g k‖ + ‖D k - g k‖) = Se at *
  generalize S 0 + ∑ m ∈ Finset.Ico 1 L, (S m + S m) = SS at *
  have h7 : 2 * (L : ℝ) / 2 ^ 50 * SD ≤ 2 * L / 2 ^ 50 * (4 * SS + 2 * T) := by
    refine mul_le_mul_of_nonneg_left ?_ (by positivity)
    nlinarith
  have h8 : 4 * (L : ℝ) / 2 ^ 50 * T ≤ 1 * T := by
    refine mul_le_mul_of_nonneg_right ?_ hT0
    rw [div_le_one (by norm_num)]
    norm_num at hL2 ⊢
    linarith
  have e3 : 2 * (L : ℝ) / 2 ^ 50 * (4 * SS + 2 * T) = 8 * L / 2 ^ 50 * SS + 4 * L / 2 ^ 50 * T := by ring
  rw [add_mul]
  linarith

theorem coeffSize_complex (flm : ℤ → ℤ → ℂ) (L : ℤ) :
    ∑ m ∈ Finset.Ioo (-L) L, orderSize flm L m = coeffSize L (effCoeffs flm L false) := by
  unfold orderSize coeffSize effCoeffs
  rw [Finset.sum_comm]
  rfl

theorem coeffSize_real {L : ℤ} (hL : 1 ≤ L) (flm : ℤ → ℤ → ℂ) :
    orderSize flm L 0 + ∑ m ∈ Finset.Ico 1 L, (orderSize flm L m + orderSize flm L m)
      = coeffSize L (effCoeffs flm L true) := by
  unfold coeffSize effCoeffs
  rw [Finset.sum_comm, sum_Ioo_split hL, if_pos rfl]
  refine congrArg₂ (· + ·) ?_ (Finset.sum_congr rfl fun m hm => ?_)
  · unfold orderSize realCoeffs
    refine Finset.sum_congr rfl fun l _ => ?_
    rw [if_neg (by omega)]; rfl
  · rw [Finset.mem_Ico] at hm
    unfold orderSize realCoeffs
    refine congrArg₂ (· + ·) ?_ ?_
    · refine Finset.sum_congr rfl fun l _ => ?_
      rw [if_neg (by omega)]; rfl
    · refine Finset.sum_congr rfl fun l _ => ?_
      rw [if_pos (by omega), norm_mul, norm_neg_one_zpow, one_mul, RCLike.norm_conj, neg_neg]
      rfl

/-- The inverse transform, for a kernel of the exact values up to `ε`. -/
theorem precomputeInverseF_near (F : FftLib) {σ : Scheme} (hh : σ ≠ .healpix) {L spin : ℤ}
    (hv : σ.Valid L 0) (hL1 : L ≤ 2 ^ 26) (flm : ℤ → ℤ → ℂ) {reality : Bool}
    (hr : reality = true → spin = 0)
    (hre : reality = true → ∀ el, 0 ≤ el → el < L → (flm el (L - 1)).im = 0)
    {θ : ℤ → ℝ} {ε : ℝ} {K : ℤ → ℤ → ℤ → ℝ}
    (hK : KernelNearF K L spin (σ.rings L 0) reality θ ε) (hε : ε ≤ 1 / 5) :
    ∃ out, precomputeInverseF F (.d2 L (2 * L - 1) flm) (.d3 (σ.rings L 0) L (mDim L reality) K) L
        σ.name reality spin = .ok out ∧ out.shape = σ.shape L 0 ∧
      (reality = true → ∀ t p, (out.get2 t p).im = 0) ∧
      ∀ t p, σ.Has L 0 t p → ‖out.get2 t p
        - harmonicSum 0 L spin (effCoeffs flm L reality) (θ t) (σ.phi L 0 t p)‖
        ≤ (ε + L / 2 ^ 46) * coeffSize L (effCoeffs flm L reality) + 1 / 2 ^ 900 := by
  have hL := hv.1
  have hL' : (1 : ℝ) ≤ L := by exact_mod_cast hL
  have hL2 : (L : ℝ) ≤ 2 ^ 26 := by exact_mod_cast hL1
  have hη : ε + 2 * L / 2 ^ 50 ≤ 1 / 4 := by
    have : 2 * (L : ℝ) / 2 ^ 50 ≤ 1 / 20 := by
      rw [div_le_div_iff₀ (by norm_num) (by norm_num)]
      norm_num at hL2 ⊢
      linarith
    linarith
  have hshape : ftm_shape L σ.name none = .ok (σ.rings L 0, 2 * L - 1 + σ.off) :=
    ftm_shape_valid (lower_name σ) (nside := none) hv
  have hsh : σ.shape L 0 = [σ.rings L 0, 2 * L - 1 + σ.off] := by
    revert hh; cases σ <;> simp [Scheme.shape, Scheme.rings, Scheme.off, Scheme.ringLen]
  have ho := mOffset_name σ
  have hdim : 2 * L - 1 + σ.off - (mStart L reality + σ.off) = mDim L reality := by
    unfold mStart mDim; split_ifs <;> ring
  have hS0 : 0 ≤ coeffSize L (effCoeffs flm L reality) := by
    unfold coeffSize
    exact Finset.sum_nonneg fun l _ => Finset.sum_nonneg fun m _ =>
      mul_nonneg (Real.sqrt_nonneg _) (norm_nonneg _)
  cases reality with
  | false =>
    refine ⟨.d2 (σ.rings L 0) (2 * L - 1 + σ.off) (fun t => F.ifft (2 * L - 1 + σ.off)
      (ifftshift (2 * L - 1 + σ.off) (precomputeFtmF F flm K L σ.name false spin t))), ?_,
      by rw [hsh]; rfl, by simp, fun t p hp => ?_⟩
    · unfold precomputeInverseF
      rw [hshape]
      simp only [bind, Except.bind, pure, Except.pure, ho, hdim]
      rw [if_neg (by simp), if_neg (by simp [Nd.shape]), if_neg (by simp), if_neg (by simp)]
      rfl
    · have h := ifftF_ring F hh hv hL1 (η := ε + 2 * L / 2 ^ 50) (S := orderSize flm L)
        (g := gAt flm L spin 0 (θ t)) (D := precomputeFtmF F flm K L σ.name false spin t) hη
        (orderSize_nonneg flm L) (fun h => by
          unfold precomputeFtmF mStart
          simp only
          rw [ho, h, if_neg (by simp), zero_mul])
        (fun m hm => by
          have := ftmF_near F (s := σ.name) hL hK (by linarith) flm hp.1 hp.2.1 hm (by simp)
          rwa [ho] at this)
        (gAt_le flm L spin (θ t)) hp
      rw [synth_gAt_harmonic flm false le_rfl hL hr, coeffSize_complex] at h
      refine le_trans h (add_le_add (mul_le_mul_of_nonneg_right ?_ hS0) le_rfl)
      rw [add_assoc]
      refine add_le_add le_rfl ?_
      norm_num
      linarith
  | true =>
    refine ⟨.d2 (σ.rings L 0) (2 * L - 1 + σ.off) (fun t p => (F.irfft L
      (fun k => precomputeFtmF F flm K L σ.name true spin t (L - 1 + σ.off + k))
      (2 * L - 1 + σ.off) p : ℂ)), ?_, by rw [hsh]; rfl, fun _ t p => Complex.ofReal_im _,
      fun t p hp => ?_⟩
    · unfold precomputeInverseF
      rw [hshape]
      simp only [bind, Except.bind, pure, Except.pure, ho, hdim]
      rw [if_neg (by simp), if_neg (by simp [Nd.shape]), if_neg (by simp), if_pos trivial,
        nphi_equi (lower_name σ) hh]
      rfl
    · have hsp := hr rfl
      have h := irfftF_ring F hh hv hL1 (η := ε + 2 * L / 2 ^ 50) (S := orderSize flm L)
        (g := gAt flm L spin 0 (θ t))
        (D := fun k => precomputeFtmF F flm K L σ.name true spin t (L - 1 + σ.off + k)) hη
        (orderSize_nonneg flm L)
        (fun m h0 h1 => by
          have := ftmF_near F (s := σ.name) hL hK (by linarith) flm hp.1 hp.2.1
            (by rw [abs_of_nonneg h0]; exact h1) (fun _ => h0)
          rwa [ho, show m + L - 1 + σ.off = L - 1 + σ.off + m by ring] at this)
        (gAt_le flm L spin (θ t)) (by rw [hsp]; exact gAt_im (hre rfl) _) hp
      rw [synth_gAt_harmonic flm true le_rfl hL hr, coeffSize_real hL] at h
      refine le_trans h (add_le_add (mul_le_mul_of_nonneg_right ?_ hS0) le_rfl)
      rw [add_assoc]
      refine add_le_add le_rfl ?_
      norm_num
      linarith

end S2fft
