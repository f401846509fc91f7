import Verif.Lemmas.PrecomputeWignerDouble
import Verif.Lemmas.PrecomputeDoubleInverse
import Verif.Spec.So3CoeffSize
import Verif.Props.C28

/-! # Accuracy of the precomputed inverse Wigner transform in double precision -/

namespace S2fft
open Spec

/-- A ring of a complex signal, for any approximation `X` of the inverse FFT. -/
theorem ifftF_ringCore {σ : Scheme} (hh : σ ≠ .healpix) {L n : ℤ} (hv : σ.Valid L n)
    (hL1 : L ≤ 2 ^ 26) {D g : ℤ → ℂ} {S : ℤ → ℝ} {η u : ℝ} (hu : 0 ≤ u) (hη : η ≤ 1 / 4) (hS : ∀ m, 0 ≤ S m)
    (hD0 : σ.off = 1 → D 0 = 0)
    (hD : ∀ m, |m| < L → ‖D (m + L - 1 + σ.off) - g m‖ ≤ η * S m + u)
    (hg : ∀ m, ‖g m‖ ≤ S m) {t p : ℤ} (hp : σ.Has L n t p) {X : ℂ} {N1 : ℝ}
    (h1 : ‖X - ifft_fwd (2 * L - 1 + σ.off) (ifftshift (2 * L - 1 + σ.off) D) p‖
      ≤ ((2 * L - 1 + σ.off : ℤ) : ℝ) / 2 ^ 50
        * (∑ k ∈ Finset.Ico 0 (2 * L - 1 + σ.off), ‖ifftshift (2 * L - 1 + σ.off) D k‖) + N1) :
    ‖X - synth L false g (σ.phi L n t p)‖
      ≤ (η + 4 * L / 2 ^ 50) * ∑ m ∈ Finset.Ioo (-L) L, S m + (4 * L * u + N1) := by
  have hL := hv.1
  have hL' : (1 : ℝ) ≤ L := by exact_mod_cast hL
  have hL2 : (L : ℝ) ≤ 2 ^ 26 := by exact_mod_cast hL1
  have hoff := off_cases σ
  have hp' := hp.2.2
  rw [ringLen_equi hh] at hp'
  have hn0 : (0 : ℤ) < 2 * L - 1 + σ.off := by omega
  have hn : ((2 * L - 1 + σ.off : ℤ) : ℝ) ≤ 2 * L := by
    exact_mod_cast (by omega : 2 * L - 1 + σ.off ≤ 2 * L)
  have hn' : (0 : ℝ) ≤ ((2 * L - 1 + σ.off : ℤ) : ℝ) := by exact_mod_cast hn0.le
  rw [ifft_fwd_synth hh hv hD0 hp] at h1
  have h2 := synth_complex_sub L (fun m => D (m + L - 1 + σ.off)) g (σ.phi L n t p)
  have e1 : ∑ k ∈ Finset.Ico 0 (2 * L - 1 + σ.off), ‖ifftshift (2 * L - 1 + σ.off) D k‖
      = ∑ m ∈ Finset.Ioo (-L) L, ‖D (m + L - 1 + σ.off)‖ := by
    rw [← sum_row hL D hD0]
    exact sum_Ico_emod hn0 _ (fun k => ‖D k‖)
  rw [e1] at h1
  have hcard : ((Finset.Ioo (-L) L).card : ℝ) ≤ 2 * L := by
    rw [Int.card_Ioo]
    have : ((L - -L - 1).toNat : ℤ) ≤ 2 * L := by omega
    exact_mod_cast this
  have h3 : ∑ m ∈ Finset.Ioo (-L) L, ‖D (m + L - 1 + σ.off) - g m‖
      ≤ η * ∑ m ∈ Finset.Ioo (-L) L, S m + 2 * L * u := by
    refine le_trans (Finset.sum_le_sum fun m hm => hD m (by
      rw [Finset.mem_Ioo] at hm; rw [abs_lt]; exact hm)) ?_
    rw [Finset.sum_add_distrib, ← Finset.mul_sum, Finset.sum_const, nsmul_eq_mul]
    gcongr
  have h4 : ∑ m ∈ Finset.Ioo (-L) L, ‖D (m + L - 1 + σ.off)‖
      ≤ ∑ m ∈ Finset.Ioo (-L) L, S m
        + ∑ m ∈ Finset.Ioo (-L) L, ‖D (m + L - 1 + σ.off) - g m‖ := by
    rw [← Finset.sum_add_distrib]
    refine Finset.sum_le_sum fun m _ => ?_
    have := norm_le_norm_add_norm_sub' (D (m + L - 1 + σ.off)) (g m)
    linarith [hg m]
  have hSS : 0 ≤ ∑ m ∈ Finset.Ioo (-L) L, S m := Finset.sum_nonneg fun m _ => hS m
  have h5 := norm_sub_le_norm_sub_add_norm_sub
    X
    (synth L false (fun m => D (m + L - 1 + σ.off)) (σ.phi L n t p)) (synth L false g (σ.phi L n t p))
  have h0 : 0 ≤ ∑ m ∈ Finset.Ioo (-L) L, ‖D (m + L - 1 + σ.off)‖ :=
    Finset.sum_nonneg fun m _ => norm_nonneg _
  have eT : 4 * (L : ℝ) * u = 2 * (2 * L * u) := by ring
  have hT0 : 0 ≤ 2 * (L : ℝ) * u := by positivity
  rw [eT]
  have h6 : ((2 * L - 1 + σ.off : ℤ) : ℝ) / 2 ^ 50 * ∑ m ∈ Finset.Ioo (-L) L, ‖D (m + L - 1 + σ.off)‖
      ≤ 2 * L / 2 ^ 50 * ∑ m ∈ Finset.Ioo (-L) L, ‖D (m + L - 1 + σ.off)‖ := by gcongr
  generalize ((2 * L - 1 + σ.off : ℤ) : ℝ) / 2 ^ 50 * _ = N2 at *
  generalize 2 * (L : ℝ) * u = T at *
  generalize ∑ m ∈ Finset.Ioo (-L) L, ‖D (m + L - 1 + σ.off)‖ = SD at *
  generalize ∑ m ∈ Finset.Ioo (-L) L, ‖D (m + L - 1 + σ.off) - g m‖ = Se at *
  generalize ∑ m ∈ Finset.Ioo (-L) L, S m = SS at *
  have h7 : 2 * (L : ℝ) / 2 ^ 50 * SD ≤ 2 * L / 2 ^ 50 * (2 * SS + T) := by
    refine mul_le_mul_of_nonneg_left ?_ (by positivity)
    nlinarith
  have h8 : 2 * (L : ℝ) / 2 ^ 50 * T ≤ 1 * T := by
    refine mul_le_mul_of_nonneg_right ?_ hT0
    rw [div_le_one (by norm_num)]
    norm_num at hL2 ⊢
    linarith
  have e3 : 2 * (L : ℝ) / 2 ^ 50 * (2 * SS + T) = 4 * L / 2 ^ 50 * SS + 2 * L / 2 ^ 50 * T := by ring
  rw [add_mul]
  linarith

/-- A ring of a complex signal. With an even number of samples, the first coefficient need only be
small. -/
theorem ifftF_ringU (F : FftLib) {σ : Scheme} (hh : σ ≠ .healpix) {L n : ℤ} (hv : σ.Valid L n)
    (hL1 : L ≤ 2 ^ 26) {D g : ℤ → ℂ} {S : ℤ → ℝ} {η u : ℝ} (hu : 0 ≤ u) (hη : η ≤ 1 / 4) (hS : ∀ m, 0 ≤ S m)
    (hD0 : σ.off = 1 → ‖D 0‖ ≤ u)
    (hD : ∀ m, |m| < L → ‖D (m + L - 1 + σ.off) - g m‖ ≤ η * S m + u)
    (hg : ∀ m, ‖g m‖ ≤ S m) {t p : ℤ} (hp : σ.Has L n t p) :
    ‖F.ifft (2 * L - 1 + σ.off) (ifftshift (2 * L - 1 + σ.off) D) p
        - synth L false g (σ.phi L n t p)‖
      ≤ (η + 4 * L / 2 ^ 50) * ∑ m ∈ Finset.Ioo (-L) L, S m + (6 * L * u + 2 * L / 2 ^ 1000) := by
  have hL := hv.1
  have hL' : (1 : ℝ) ≤ L := by exact_mod_cast hL
  have hL2 : (L : ℝ) ≤ 2 ^ 26 := by exact_mod_cast hL1
  have hoff := off_cases σ
  have hp' := hp.2.2
  rw [ringLen_equi hh] at hp'
  have hn0 : (0 : ℤ) < 2 * L - 1 + σ.off := by omega
  have hn : ((2 * L - 1 + σ.off : ℤ) : ℝ) ≤ 2 * L := by
    exact_mod_cast (by omega : 2 * L - 1 + σ.off ≤ 2 * L)
  have hn' : (0 : ℝ) ≤ ((2 * L - 1 + σ.off : ℤ) : ℝ) := by exact_mod_cast hn0.le
  obtain ⟨D', hD'⟩ : ∃ D' : ℤ → ℂ, D' = fun k => if σ.off = 1 ∧ k = 0 then 0 else D k := ⟨_, rfl⟩
  have d0 : ∀ k, ‖D k - D' k‖ ≤ if k = 0 then u else 0 := fun k => by
    rw [hD']
    dsimp only
    by_cases h : k = 0
    · subst h
      rw [if_pos rfl]
      by_cases h' : σ.off = 1
      · rw [if_pos ⟨h', rfl⟩, sub_zero]; exact hD0 h'
      · rw [if_neg (fun q => h' q.1), sub_self, norm_zero]; exact hu
    · rw [if_neg (fun q => h q.2), if_neg h, sub_self, norm_zero]
  have d1 : ∑ k ∈ Finset.Ico 0 (2 * L - 1 + σ.off),
      ‖ifftshift (2 * L - 1 + σ.off) D k - ifftshift (2 * L - 1 + σ.off) D' k‖ ≤ u := by
    have e : ∑ k ∈ Finset.Ico 0 (2 * L - 1 + σ.off),
        ‖ifftshift (2 * L - 1 + σ.off) D k - ifftshift (2 * L - 1 + σ.off) D' k‖
        = ∑ k ∈ Finset.Ico 0 (2 * L - 1 + σ.off), ‖D k - D' k‖ :=
      sum_Ico_emod hn0 _ (fun k => ‖D k - D' k‖)
    rw [e]
    refine (Finset.sum_le_sum fun k _ => d0 k).trans ?_
    rw [Finset.sum_ite_eq' (Finset.Ico 0 (2 * L - 1 + σ.off)) 0 (fun _ => u)]
    split
    · exact le_rfl
    · exact hu
  have h1 := F.ifft_near (2 * L - 1 + σ.off) (ifftshift (2 * L - 1 + σ.off) D) p hp'.1 hp'.2
  have h2 : ‖ifft_fwd (2 * L - 1 + σ.off) (ifftshift (2 * L - 1 + σ.off) D) p
      - ifft_fwd (2 * L - 1 + σ.off) (ifftshift (2 * L - 1 + σ.off) D') p‖ ≤ u := by
    refine le_trans ?_ d1
    unfold ifft_fwd
    rw [← Finset.sum_sub_distrib]
    refine (norm_sum_le _ _).trans (Finset.sum_le_sum fun k _ => ?_)
    rw [← sub_mul, norm_mul, norm_cis, mul_one]
  have h3 : ∑ k ∈ Finset.Ico 0 (2 * L - 1 + σ.off), ‖ifftshift (2 * L - 1 + σ.off) D k‖
      ≤ (∑ k ∈ Finset.Ico 0 (2 * L - 1 + σ.off), ‖ifftshift (2 * L - 1 + σ.off) D' k‖) + u := by
    refine le_trans ?_ (add_le_add le_rfl d1)
    rw [← Finset.sum_add_distrib]
    refine Finset.sum_le_sum fun k _ => ?_
    exact norm_le_norm_add_norm_sub' _ _
  have h4 : ((2 * L - 1 + σ.off : ℤ) : ℝ) / 2 ^ 50 ≤ 1 := by
    rw [div_le_one (by norm_num)]
    refine hn.trans ?_
    norm_num at hL2 ⊢
    linarith
  have h5 := mul_le_mul_of_nonneg_left h3 (a := ((2 * L - 1 + σ.off : ℤ) : ℝ) / 2 ^ 50) (by positivity)
  have h6 := mul_le_mul_of_nonneg_right h4 hu
  have h7 := norm_sub_le_norm_sub_add_norm_sub
    (F.ifft (2 * L - 1 + σ.off) (ifftshift (2 * L - 1 + σ.off) D) p)
    (ifft_fwd (2 * L - 1 + σ.off) (ifftshift (2 * L - 1 + σ.off) D) p)
    (ifft_fwd (2 * L - 1 + σ.off) (ifftshift (2 * L - 1 + σ.off) D') p)
  have eN : ((2 * L - 1 + σ.off : ℤ) : ℝ) / 2 ^ 1000 ≤ 2 * L / 2 ^ 1000 := by gcongr
  have h8 := ifftF_ringCore hh hv hL1 (D := D') (g := g) (S := S) hu hη hS
    (fun h => by rw [hD']; exact if_pos ⟨h, rfl⟩)
    (fun m hm => by
      have hm' := abs_lt.1 hm
      rw [hD']
      dsimp only
      rw [if_neg (by omega)]
      exact hD m hm) hg hp
    (X := F.ifft (2 * L - 1 + σ.off) (ifftshift (2 * L - 1 + σ.off) D) p)
    (N1 := 2 * L / 2 ^ 1000 + 2 * u) (by rw [mul_add] at h5; linarith)
  refine h8.trans (add_le_add le_rfl ?_)
  have : 1 * u ≤ L * u := by gcongr
  linarith

/-- A ring of a real signal. -/
theorem irfftF_ringU (F : FftLib) {σ : Scheme} (hh : σ ≠ .healpix) {L n : ℤ} (hv : σ.Valid L n)
    (hL1 : L ≤ 2 ^ 26) {D g : ℤ → ℂ} {S : ℤ → ℝ} {η u : ℝ} (hu : 0 ≤ u) (hη : η ≤ 1 / 4) (hS : ∀ m, 0 ≤ S m)
    (hD : ∀ m, 0 ≤ m → m < L → ‖D m - g m‖ ≤ η * S m + u)
    (hg : ∀ m, ‖g m‖ ≤ S m) (hg0 : (g 0).im = 0) {t p : ℤ} (hp : σ.Has L n t p) :
    ‖(F.irfft L D (2 * L - 1 + σ.off) p : ℂ) - synth L true g (σ.phi L n t p)‖
      ≤ (η + 8 * L / 2 ^ 50) * (S 0 + ∑ m ∈ Finset.Ico 1 L, (S m + S m)) + (4 * L * u + 2 * L / 2 ^ 1000) := by
  have hL := hv.1
  have hL' : (1 : ℝ) ≤ L := by exact_mod_cast hL
  have hL2 : (L : ℝ) ≤ 2 ^ 26 := by exact_mod_cast hL1
  have hoff := off_cases σ
  have hp' := hp.2.2
  rw [ringLen_equi hh] at hp'
  have hn0 : (0 : ℤ) < 2 * L - 1 + σ.off := by omega
  have hn : ((2 * L - 1 + σ.off : ℤ) : ℝ) ≤ 2 * L := by
    exact_mod_cast (by omega : 2 * L - 1 + σ.off ≤ 2 * L)
  have hn' : (0 : ℝ) ≤ ((2 * L - 1 + σ.off : ℤ) : ℝ) := by exact_mod_cast hn0.le
  have h1 := F.irfft_near L D (2 * L - 1 + σ.off) p (by omega) hp'.1 hp'.2
  rw [irfft_fwd_short hL (by omega) (by omega)] at h1
  have hsyn : synth L true g (σ.phi L n t p) = (((g 0).re
      + ∑ k ∈ Finset.Ico 1 L, 2 * (g k * cis (2 * Real.pi * k * p / (2 * L - 1 + σ.off : ℤ))).re : ℝ) : ℂ) := by
    unfold synth
    rw [if_pos rfl, Complex.ofReal_add, Complex.ofReal_sum, ofReal_re_of_im hg0]
    congr 1
    refine Finset.sum_congr rfl fun m _ => ?_
    rw [two_re, phi_equi hh, ringLen_equi hh]
    have : ((m : ℤ) : ℝ) * (2 * Real.pi * p / ((2 * L - 1 + σ.off : ℤ) : ℝ))
        = 2 * Real.pi * m * p / ((2 * L - 1 + σ.off : ℤ) : ℝ) := by ring
    rw [this]
  rw [hsyn, ← Complex.ofReal_sub, Complex.norm_real, Real.norm_eq_abs]
  have hre : ∀ k, 0 ≤ k → k < L → ∀ x : ℝ, |(D k * cis x).re - (g k * cis x).re| ≤ ‖D k - g k‖ := by
    intro k _ _ x
    rw [← Complex.sub_re, ← sub_mul]
    refine le_trans (Complex.abs_re_le_norm _) ?_
    rw [norm_mul, norm_cis, mul_one]
  have h2 : |((D 0).re + ∑ k ∈ Finset.Ico 1 L, 2 * (D k * cis (2 * Real.pi * k * p / (2 * L - 1 + σ.off : ℤ))).re)
      - ((g 0).re + ∑ k ∈ Finset.Ico 1 L, 2 * (g k * cis (2 * Real.pi * k * p / (2 * L - 1 + σ.off : ℤ))).re)|
      ≤ ‖D 0 - g 0‖ + ∑ k ∈ Finset.Ico 1 L, (‖D k - g k‖ + ‖D k - g k‖) := by
    rw [add_sub_add_comm, ← Finset.sum_sub_distrib]
    refine le_trans (abs_add_le _ _) (add_le_add ?_ ?_)
    · rw [← Complex.sub_re]; exact Complex.abs_re_le_norm _
    · refine le_trans (Finset.abs_sum_le_sum_abs _ _) (Finset.sum_le_sum fun k hk => ?_)
      rw [Finset.mem_Ico] at hk
      rw [← mul_sub, abs_mul, abs_two]
      have := hre k (by omega) hk.2 (2 * Real.pi * k * p / (2 * L - 1 + σ.off : ℤ))
      linarith
  have hcard : ((Finset.Ico 1 L).card : ℝ) ≤ L - 1 := by
    rw [Int.card_Ico]
    have : ((L - 1).toNat : ℤ) ≤ L - 1 := by omega
    exact_mod_cast this
  have h3 : ‖D 0 - g 0‖ + ∑ k ∈ Finset.Ico 1 L, (‖D k - g k‖ + ‖D k - g k‖)
      ≤ η * (S 0 + ∑ m ∈ Finset.Ico 1 L, (S m + S m)) + 2 * L * u := by
    have a0 := hD 0 le_rfl (by omega)
    have a1 : ∑ k ∈ Finset.Ico 1 L, (‖D k - g k‖ + ‖D k - g k‖)
        ≤ η * ∑ k ∈ Finset.Ico 1 L, (S k + S k)
          + (Finset.Ico 1 L).card * (2 * u) := by
      rw [Finset.mul_sum, ← nsmul_eq_mul, ← Finset.sum_const, ← Finset.sum_add_distrib]
      refine Finset.sum_le_sum fun k hk => ?_
      rw [Finset.mem_Ico] at hk
      have := hD k (by omega) hk.2
      linarith
    have a2 : ((Finset.Ico 1 L).card : ℝ) * (2 * u) ≤ (L - 1) * (2 * u) := by
      gcongr
    have a3 : 0 ≤ u := hu
    have e1 : ((L : ℝ) - 1) * (2 * u) = 2 * L * u - 2 * u := by ring
    rw [e1] at a2
    rw [mul_add]
    linarith
  have h4 : ∑ k ∈ Finset.Ico 0 L, 2 * ‖D k‖ ≤ 2 * ((S 0 + ∑ m ∈ Finset.Ico 1 L, (S m + S m))
      + (‖D 0 - g 0‖ + ∑ k ∈ Finset.Ico 1 L, (‖D k - g k‖ + ‖D k - g k‖))) := by
    rw [← Finset.mul_sum, sum_Ico_bot (by omega), zero_add, add_add_add_comm, ← Finset.sum_add_distrib]
    refine mul_le_mul_of_nonneg_left (add_le_add ?_ (Finset.sum_le_sum fun k _ => ?_)) (by norm_num)
    · have := norm_le_norm_add_norm_sub' (D 0) (g 0)
      linarith [hg 0]
    · have := norm_le_norm_add_norm_sub' (D k) (g k)
      linarith [hg k, hS k, norm_nonneg (D k - g k)]
  have hSS : 0 ≤ S 0 + ∑ m ∈ Finset.Ico 1 L, (S m + S m) :=
    add_nonneg (hS 0) (Finset.sum_nonneg fun m _ => add_nonneg (hS m) (hS m))
  have h0 : 0 ≤ ∑ k ∈ Finset.Ico 0 L, 2 * ‖D k‖ :=
    Finset.sum_nonneg fun m _ => mul_nonneg (by norm_num) (norm_nonneg _)
  have eT : 4 * (L : ℝ) * u = 2 * (2 * L * u) := by ring
  have hT0 : 0 ≤ 2 * (L : ℝ) * u := by positivity
  have eN : ((2 * L - 1 + σ.off : ℤ) : ℝ) / 2 ^ 1000 ≤ 2 * L / 2 ^ 1000 := by gcongr
  rw [eT]
  have h6 : ((2 * L - 1 + σ.off : ℤ) : ℝ) / 2 ^ 50 * ∑ k ∈ Finset.Ico 0 L, 2 * ‖D k‖
      ≤ 2 * L / 2 ^ 50 * ∑ k ∈ Finset.Ico 0 L, 2 * ‖D k‖ := by gcongr
  have h5 := abs_sub_le (F.irfft L D (2 * L - 1 + σ.off) p)
    ((D 0).re + ∑ k ∈ Finset.Ico 1 L, 2 * (D k * cis (2 * Real.pi * k * p / (2 * L - 1 + σ.off : ℤ))).re)
    ((g 0).re + ∑ k ∈ Finset.Ico 1 L, 2 * (g k * cis (2 * Real.pi * k * p / (2 * L - 1 + σ.off : ℤ))).re)
  refine le_trans h5 ?_
  refine le_trans (add_le_add h1 h2) ?_
  generalize ((2 * L - 1 + σ.off : ℤ) : ℝ) / 2 ^ 1000 = N1 at *
  generalize ((2 * L - 1 + σ.off : ℤ) : ℝ) / 2 ^ 50 * _ = N2 at *
  generalize 2 * (L : ℝ) * u = T at *
  generalize 2 * (L : ℝ) / 2 ^ 1000 = T2 at *
  generalize ∑ k ∈ Finset.Ico 0 L, 2 * ‖D k‖ = SD at *
  generalize ‖D 0 - g 0‖ + ∑ k ∈ Finset.Ico 1 L, (‖D k - g k‖ + ‖D k - g k‖) = Se at *
  generalize S 0 + ∑ m ∈ Finset.Ico 1 L, (S m + S m) = SS at *
  have h7 : 2 * (L : ℝ) / 2 ^ 50 * SD ≤ 2 * L / 2 ^ 50 * (4 * SS + 2 * T) := by
    refine mul_le_mul_of_nonneg_left ?_ (by positivity)
    nlinarith
  have h8 : 4 * (L : ℝ) / 2 ^ 50 * T ≤ 1 * T := by
    refine mul_le_mul_of_nonneg_right ?_ hT0
    rw [div_le_one (by norm_num)]
    norm_num at hL2 ⊢
    linarith
  have e3 : 2 * (L : ℝ) / 2 ^ 50 * (4 * SS + 2 * T) = 8 * L / 2 ^ 50 * SS + 4 * L / 2 ^ 50 * T := by ring
  rw [add_mul]
  linarith

/-! ## The Fourier coefficients -/

/-- A kernel of the inverse transform near the exact one. -/
def WKNear (K : ℤ → ℤ → ℤ → ℤ → ℂ) (L n0 nd nt : ℤ) (θ : ℤ → ℝ) (ε : ℝ) : Prop :=
  ∀ k t el m, 0 ≤ k → k < nd → 0 ≤ t → t < nt → 0 ≤ el → el < L → |m| < L →
    ‖K k t el (m + L - 1) - ((degreeWeight el * wignerd el m (n0 + k) (θ t) : ℝ) : ℂ)‖
      ≤ degreeWeight el * ε

theorem degreeWeight_nonneg {el : ℤ} (h : 0 ≤ el) : 0 ≤ degreeWeight el := by
  linarith [degreeWeight_ge h]

/-- The sizes of the coefficients of one order and direction. -/
noncomputable def planeSize (c : ℤ → ℤ → ℤ → ℂ) (L n m : ℤ) : ℝ :=
  ∑ l ∈ Finset.Ico 0 L, degreeWeight l * ‖c n l m‖

theorem planeSize_nonneg (c : ℤ → ℤ → ℤ → ℂ) (L n m : ℤ) : 0 ≤ planeSize c L n m :=
  Finset.sum_nonneg fun _ hl => mul_nonneg (degreeWeight_nonneg (Finset.mem_Ico.1 hl).1) (norm_nonneg _)

theorem wigRing_eq (L : ℤ) (c : ℤ → ℤ → ℤ → ℂ) (n : ℤ) (β : ℝ) (m : ℤ) :
    wigRing L c n β m = ∑ l ∈ Finset.Ico 0 L, ((degreeWeight l * wignerd l m n β : ℝ) : ℂ) * c n l m := by
  unfold wigRing degreeWeight
  refine Finset.sum_congr rfl fun _ _ => ?_
  push_cast; ring

theorem wigRing_le (L : ℤ) (c : ℤ → ℤ → ℤ → ℂ) (n : ℤ) (β : ℝ) (m : ℤ) :
    ‖wigRing L c n β m‖ ≤ planeSize c L n m := by
  rw [wigRing_eq]
  refine (norm_sum_le _ _).trans (Finset.sum_le_sum fun l hl => ?_)
  have h0 := degreeWeight_nonneg (Finset.mem_Ico.1 hl).1
  rw [norm_mul, Complex.norm_real, Real.norm_eq_abs, abs_mul, abs_of_nonneg h0]
  refine mul_le_mul_of_nonneg_right ?_ (norm_nonneg _)
  exact mul_le_of_le_one_right h0 (wignerd_abs_le_one l m n β)

/-- The kernel of the inverse transform. -/
theorem wignerKernelF_inverse (F : FftLib) (lg nodes : ℤ → ℤ → ℝ) (logL : ℝ) (w : ℤ → ℝ) {σ : Scheme}
    (hσ : σ = .mw ∨ σ = .mwss ∨ σ = .dh) {L N : ℤ} {E : ℝ} (hL : 1 ≤ L) (hL1 : L ≤ 2 ^ 26)
    (h1 : 1 ≤ N) (hN : N ≤ L) (hE : Covers L E) (hE0 : 1 / 2 ^ 44 ≤ E) (hE1 : E ≤ 1 / 16)
    (reality : Bool) {mode : PyStr} (hm : ModeOk σ L mode) :
    ∃ K, wignerKernelF F lg logL w L N reality σ.name false mode
        = .ok ⟨nDim N reality, σ.rings L 0, L, 2 * L - 1, K⟩ ∧
      WKNear K L (nFirst N reality) (nDim N reality) (σ.rings L 0) (σ.theta nodes L 0) (6 * E) := by
  obtain ⟨dl, e, h⟩ := wignerKernelF_near F lg nodes logL w hσ hL hL1 h1 hN hE reality false hm
  refine ⟨_, e, fun k t el m k0 k1 t0 t1 e0 e1 hm => ?_⟩
  have h2 := h k t el m k0 k1 t0 t1 e0 e1 hm
  rw [if_neg (by simp), ← Complex.ofReal_sub, Complex.norm_real, Real.norm_eq_abs]
  refine (degreeF_entry F.toDoubleLib e0 (by omega) h2 (wignerd_abs_le_one _ _ _ _)
    (by linarith)).trans ?_
  refine mul_le_mul_of_nonneg_left ?_ (degreeWeight_nonneg e0)
  have : (4 / 2 ^ 50 : ℝ) ≤ 1 / 2 ^ 44 := by norm_num
  linarith

theorem fnabF_near (F : FftLib) {L N nt off : ℤ} {reality : Bool} {θ : ℤ → ℝ} {ε : ℝ}
    {K : ℤ → ℤ → ℤ → ℤ → ℂ} (hL : 1 ≤ L) (_hoff : 0 ≤ off)
    (hK : WKNear K L (nFirst N reality) (nDim N reality) nt θ ε) (hε : ε ≤ 1)
    (flmn : ℤ → ℤ → ℤ → ℂ) {n t m : ℤ} (n0 : nFirst N reality ≤ n) (n1 : n < N) (t0 : 0 ≤ t)
    (t1 : t < nt) (hm : |m| < L) :
    ‖wignerFnabF F flmn K L N off reality (N - 1 + n) t (m + L - 1 + off)
        - wigRing L (fun n l m => flmn (N - 1 + n) l (m + L - 1)) n (θ t) m‖
      ≤ (ε + 2 * L / 2 ^ 50) * planeSize (fun n l m => flmn (N - 1 + n) l (m + L - 1)) L n m
        + L / 2 ^ 1000 := by
  have hL' : (1 : ℝ) ≤ L := by exact_mod_cast hL
  have hm' := abs_lt.1 hm
  have hns := nStart_eq N reality
  unfold wignerFnabF
  rw [if_pos (by omega), show N - 1 + n - nStart N reality = n - nFirst N reality by omega,
    show m + L - 1 + off - off = m + L - 1 by ring, wigRing_eq]
  have h1 := F.dot_near L (fun l => K (n - nFirst N reality) t l (m + L - 1))
    (fun l => flmn (N - 1 + n) l (m + L - 1)) (by omega)
  have hk : ∀ l ∈ Finset.Ico 0 L, ‖K (n - nFirst N reality) t l (m + L - 1)
      - ((degreeWeight l * wignerd l m n (θ t) : ℝ) : ℂ)‖ ≤ degreeWeight l * ε := by
    intro l hl
    rw [Finset.mem_Ico] at hl
    have := hK (n - nFirst N reality) t l m (by omega) (by rw [nDim_eq]; omega) t0 t1 hl.1 hl.2 hm
    rwa [show nFirst N reality + (n - nFirst N reality) = n by ring] at this
  have hg : ∀ l ∈ Finset.Ico 0 L, 0 ≤ degreeWeight l := fun l hl =>
    degreeWeight_nonneg (Finset.mem_Ico.1 hl).1
  have h2 : ∑ l ∈ Finset.Ico 0 L, ‖K (n - nFirst N reality) t l (m + L - 1)‖
      * ‖flmn (N - 1 + n) l (m + L - 1)‖
      ≤ 2 * planeSize (fun n l m => flmn (N - 1 + n) l (m + L - 1)) L n m := by
    unfold planeSize
    rw [Finset.mul_sum]
    refine Finset.sum_le_sum fun l hl => ?_
    rw [← mul_assoc]
    refine mul_le_mul_of_nonneg_right ?_ (norm_nonneg _)
    have a1 := hk l hl
    have a2 := mul_le_mul_of_nonneg_left (wignerd_abs_le_one l m n (θ t)) (hg l hl)
    have a3 := mul_le_mul_of_nonneg_left hε (hg l hl)
    have a4 := norm_sub_norm_le (K (n - nFirst N reality) t l (m + L - 1))
      ((degreeWeight l * wignerd l m n (θ t) : ℝ) : ℂ)
    rw [Complex.norm_real, Real.norm_eq_abs, abs_mul, abs_of_nonneg (hg l hl)] at a4
    linarith
  have h3 : ‖∑ l ∈ Finset.Ico 0 L, K (n - nFirst N reality) t l (m + L - 1)
        * flmn (N - 1 + n) l (m + L - 1)
      - ∑ l ∈ Finset.Ico 0 L, ((degreeWeight l * wignerd l m n (θ t) : ℝ) : ℂ)
          * flmn (N - 1 + n) l (m + L - 1)‖
      ≤ ε * planeSize (fun n l m => flmn (N - 1 + n) l (m + L - 1)) L n m := by
    rw [← Finset.sum_sub_distrib]
    refine le_trans (norm_sum_le _ _) ?_
    unfold planeSize
    rw [Finset.mul_sum]
    refine Finset.sum_le_sum fun l hl => ?_
    rw [← sub_mul, norm_mul, ← mul_assoc]
    refine mul_le_mul_of_nonneg_right ?_ (norm_nonneg _)
    rw [mul_comm ε]
    exact hk l hl
  have h4 := norm_sub_le_norm_sub_add_norm_sub
    (F.dot L (fun l => K (n - nFirst N reality) t l (m + L - 1)) (fun l => flmn (N - 1 + n) l (m + L - 1)))
    (∑ l ∈ Finset.Ico 0 L, K (n - nFirst N reality) t l (m + L - 1) * flmn (N - 1 + n) l (m + L - 1))
    (∑ l ∈ Finset.Ico 0 L, ((degreeWeight l * wignerd l m n (θ t) : ℝ) : ℂ)
          * flmn (N - 1 + n) l (m + L - 1))
  have h5 : (L : ℝ) / 2 ^ 50 * (∑ l ∈ Finset.Ico 0 L,
      ‖K (n - nFirst N reality) t l (m + L - 1)‖ * ‖flmn (N - 1 + n) l (m + L - 1)‖)
      ≤ L / 2 ^ 50 * (2 * planeSize (fun n l m => flmn (N - 1 + n) l (m + L - 1)) L n m) := by gcongr
  rw [add_mul, show 2 * (L : ℝ) / 2 ^ 50 * planeSize (fun n l m => flmn (N - 1 + n) l (m + L - 1)) L n m
    = L / 2 ^ 50 * (2 * planeSize (fun n l m => flmn (N - 1 + n) l (m + L - 1)) L n m) by ring]
  linarith

/-! ## The transforms over the angles -/

theorem gl_gamma {N g : ℤ} (hN : 1 ≤ N) (g0 : 0 ≤ g) (g1 : g < 2 * N - 1) :
    Scheme.gl.Valid N 0 ∧ Scheme.gl.Has N 0 0 g ∧ Scheme.gl.phi N 0 0 g = gammaAt N g := by
  refine ⟨⟨hN, by rintro ⟨⟩⟩, ⟨le_rfl, by simp [Scheme.rings]; omega, g0, by
    simpa [Scheme.ringLen] using g1⟩, ?_⟩
  rw [phi_equi (by rintro ⟨⟩), ringLen_equi (by rintro ⟨⟩)]
  unfold gammaAt
  simp only [Scheme.off]
  push_cast
  ring

theorem shiftIfft2F_eq (F : FftLib) (n0 n1 : ℤ) (a : ℤ → ℤ → ℂ) (g p : ℤ) :
    shiftIfft2F F n0 n1 a g p = F.ifft n1 (ifftshift n1 (fun j => F.ifft n0
      (ifftshift n0 (fun k => a k j)) g)) p := rfl

theorem norm_synth_le (L : ℤ) (g : ℤ → ℂ) (φ : ℝ) :
    ‖synth L false g φ‖ ≤ ∑ m ∈ Finset.Ioo (-L) L, ‖g m‖ := by
  unfold synth
  rw [if_neg (by simp)]
  refine (norm_sum_le _ _).trans (Finset.sum_le_sum fun m _ => ?_)
  rw [norm_mul, norm_cis, mul_one]

/-- Underflow in three sums. -/
theorem tiny_cube {L x : ℝ} (hL : 1 ≤ L) (hL1 : L ≤ 2 ^ 26) (hx : x ≤ 64 * L ^ 3) :
    x / 2 ^ 1000 ≤ 1 / 2 ^ 900 := by
  have h1 : x ≤ 2 ^ 90 := by
    refine le_trans hx ?_
    have : 64 * L ^ 3 ≤ 64 * (2 ^ 26) ^ 3 := by gcongr
    refine le_trans this (by norm_num)
  rw [div_le_div_iff₀ (by positivity) (by positivity), one_mul]
  calc x * 2 ^ 900 ≤ 2 ^ 90 * 2 ^ 900 := by gcongr
    _ = 2 ^ 990 := by rw [← pow_add]
    _ ≤ 2 ^ 1000 := by gcongr <;> norm_num

/-- The inverse transform, for a kernel of the exact values up to `ε`. -/
theorem precomputeWignerInverseF_near (F : FftLib) {σ : Scheme} (hh : σ ≠ .healpix) {L N : ℤ}
    (hv : σ.Valid L 0) (hL1 : L ≤ 2 ^ 26) (h1 : 1 ≤ N) (hN : N ≤ L) (flmn : ℤ → ℤ → ℤ → ℂ)
    {reality : Bool} (hre : RealPlane flmn L N reality) {θ : ℤ → ℝ} {ε : ℝ}
    {K : ℤ → ℤ → ℤ → ℤ → ℂ}
    (hK : WKNear K L (nFirst N reality) (nDim N reality) (σ.rings L 0) θ ε)
    (hε : ε ≤ 1 / 5) :
    ∃ out, precomputeWignerInverseF F (.d3 (2 * N - 1) L (2 * L - 1) flmn)
        ⟨nDim N reality, σ.rings L 0, L, 2 * L - 1, K⟩ L N σ.name reality = .ok out ∧
      out.shape = (2 * N - 1) :: σ.shape L 0 ∧
      (reality = true → ∀ g t p, (out.get3 g t p).im = 0) ∧
      ∀ g t p, 0 ≤ g → g < 2 * N - 1 → σ.Has L 0 t p → ‖out.get3 g t p
        - wignerSum 0 L N (wignerCoeffs flmn L N reality) (σ.phi L 0 t p) (θ t) (gammaAt N g)‖
        ≤ (ε + L / 2 ^ 46) * so3CoeffSize L N reality flmn + 1 / 2 ^ 900 := by
  have hL := hv.1
  have hL' : (1 : ℝ) ≤ L := by exact_mod_cast hL
  have hL2 : (L : ℝ) ≤ 2 ^ 26 := by exact_mod_cast hL1
  have hN' : (1 : ℝ) ≤ N := by exact_mod_cast h1
  have hNL : (N : ℝ) ≤ L := by exact_mod_cast hN
  have hb := nFirst_bounds h1 reality
  have hns := nStart_eq N reality
  have hdim : nDim N reality = 2 * N - 1 - nStart N reality := by rw [nDim_eq]; omega
  have hoff : 0 ≤ σ.off := by cases σ <;> decide
  have hsh := fnab_shape_scheme (nside := none) hv N
  have hshape : σ.shape L 0 = [σ.rings L 0, 2 * L - 1 + σ.off] := by
    revert hh; cases σ <;> simp [Scheme.shape, Scheme.rings, Scheme.off, Scheme.ringLen]
  have hη : ∀ x : ℝ, x ≤ 8 → ε + x * L / 2 ^ 50 ≤ 1 / 4 := fun x hx => by
    have : x * (L : ℝ) / 2 ^ 50 ≤ 1 / 20 := by
      rw [div_le_div_iff₀ (by norm_num) (by norm_num)]
      have : x * (L : ℝ) ≤ 8 * L := by gcongr
      norm_num at hL2 ⊢
      linarith
    linarith
  obtain ⟨c, hc⟩ : ∃ c : ℤ → ℤ → ℤ → ℂ, c = fun n l m => flmn (N - 1 + n) l (m + L - 1) := ⟨_, rfl⟩
  have hnear : ∀ n t m, nFirst N reality ≤ n → n < N → 0 ≤ t → t < σ.rings L 0 → |m| < L → _ :=
    fun n t m a b t0 t1 hm =>
    fnabF_near F (off := σ.off) hL hoff hK (by linarith) flmn (n := n) (t := t) (m := m) a b t0 t1 hm
  rw [← hc] at hnear
  have hS0 : 0 ≤ so3CoeffSize L N reality flmn :=
    Finset.sum_nonneg fun n _ => Finset.sum_nonneg fun l hl => Finset.sum_nonneg fun m _ =>
      mul_nonneg (degreeWeight_nonneg (Finset.mem_Ico.1 hl).1) (norm_nonneg _)
  have hfin : ∀ {x T : ℝ}, x ≤ 16 → T ≤ 64 * (L : ℝ) ^ 3 → (ε + x * L / 2 ^ 50)
      * so3CoeffSize L N reality flmn + T / 2 ^ 1000
      ≤ (ε + L / 2 ^ 46) * so3CoeffSize L N reality flmn + 1 / 2 ^ 900 := fun {x T} hx hT => by
    refine add_le_add (mul_le_mul_of_nonneg_right (add_le_add le_rfl ?_) hS0) (tiny_cube hL' hL2 hT)
    rw [div_le_div_iff₀ (by norm_num) (by norm_num)]
    have : x * (L : ℝ) ≤ 16 * L := by gcongr
    norm_num
    linarith
  refine ⟨.d3 (2 * N - 1) (σ.rings L 0) (2 * L - 1 + σ.off) (fun g t p =>
      if reality then
        (F.irfft (2 * N - 1 - nStart N reality) (fun k => F.ifft (2 * L - 1 + σ.off)
          (ifftshift (2 * L - 1 + σ.off) (wignerFnabF F flmn K L N σ.off reality
            (nStart N reality + k) t)) p) (2 * N - 1) g : ℂ)
      else shiftIfft2F F (2 * N - 1) (2 * L - 1 + σ.off)
        (fun n => wignerFnabF F flmn K L N σ.off reality n t) g p), ?_, by rw [hshape]; rfl, ?_, ?_⟩
  · unfold precomputeWignerInverseF
    rw [hsh]
    simp only [bind, Except.bind, mOffset_name, Option.getD_none]
    rw [if_neg (by
      rw [hdim, show 2 * L - 1 + σ.off - σ.off = 2 * L - 1 by ring]
      simp [Nd.shape]), if_neg (by rw [inHealpix_iff]; exact hh)]
    rfl
  · rintro rfl g t p
    simp [Nd.get3]
  · intro g t p g0 g1 hp
    obtain ⟨gv, gh, gp⟩ := gl_gamma h1 g0 g1
    have e0 : Scheme.gl.off = 0 := rfl
    simp only [Nd.get3]
    cases reality with
    | false =>
      rw [if_neg (by simp), shiftIfft2F_eq]
      rw [nFirst_false] at hnear hb
      have inner : ∀ m, |m| < L → _ := fun m hm => ifftF_ringU F (σ := .gl) (L := N) (n := 0)
        (by rintro ⟨⟩) gv (by omega) (u := L / 2 ^ 1000) (by positivity) (hη 2 (by norm_num))
        (D := fun k => wignerFnabF F flmn K L N σ.off false k t (m + L - 1 + σ.off))
        (g := fun n => wigRing L c n (θ t) m) (S := fun n => planeSize c L n m)
        (fun n => planeSize_nonneg c L n m) (by rw [e0]; intro h; omega)
        (fun n hn => by
          have hn' := abs_lt.1 hn
          rw [e0, show n + N - 1 + 0 = N - 1 + n by ring]
          exact hnear n t m (by omega) hn'.2 hp.1 hp.2.1 hm)
        (fun n => wigRing_le L c n (θ t) m) gh
      rw [e0, add_zero, gp] at inner
      have hc4 : ε + 2 * L / 2 ^ 50 + 4 * N / 2 ^ 50 ≤ ε + 6 * L / 2 ^ 50 := by
        norm_num; linarith
      have hSm : ∀ m, 0 ≤ ∑ n ∈ Finset.Ioo (-N) N, planeSize c L n m := fun m =>
        Finset.sum_nonneg fun n _ => planeSize_nonneg c L n m
      have outer := ifftF_ringU F hh hv hL1 (u := 6 * N * (L / 2 ^ 1000) + 2 * N / 2 ^ 1000)
        (by positivity) (hη 6 (by norm_num))
        (D := fun j => F.ifft (2 * N - 1) (ifftshift (2 * N - 1)
          (fun k => wignerFnabF F flmn K L N σ.off false k t j)) g)
        (g := fun m => synth N false (fun n => wigRing L c n (θ t) m) (gammaAt N g))
        (S := fun m => ∑ n ∈ Finset.Ioo (-N) N, planeSize c L n m) hSm
        (fun h => by
          have hz := F.ifft_near (2 * N - 1) (ifftshift (2 * N - 1)
            (fun k => wignerFnabF F flmn K L N σ.off false k t 0)) g g0 g1
          have e : (fun k => wignerFnabF F flmn K L N σ.off false k t 0) = fun _ => 0 := by
            funext k
            unfold wignerFnabF
            rw [if_neg (by omega)]
          rw [e] at hz ⊢
          have e2 : ifftshift (2 * N - 1) (fun _ => (0 : ℂ)) = fun _ => 0 := rfl
          rw [e2] at hz ⊢
          unfold ifft_fwd at hz
          simp only [zero_mul, Finset.sum_const_zero, sub_zero, norm_zero, mul_zero, zero_add] at hz
          refine hz.trans ?_
          push_cast
          have : 0 ≤ 6 * (N : ℝ) * (L / 2 ^ 1000) := by positivity
          have : (2 * (N : ℝ) - 1) / 2 ^ 1000 ≤ 2 * N / 2 ^ 1000 := by gcongr; linarith
          linarith)
        (fun m hm => (inner m hm).trans
          (add_le_add (mul_le_mul_of_nonneg_right hc4 (hSm m)) le_rfl))
        (fun m => (norm_synth_le _ _ _).trans (Finset.sum_le_sum fun n _ => wigRing_le L c n (θ t) m)) hp
      have e1 : synth L false (fun m => synth N false (fun n => wigRing L c n (θ t) m) (gammaAt N g))
          (σ.phi L 0 t p) = wignerSum 0 L N (wignerCoeffs flmn L N false) (σ.phi L 0 t p) (θ t)
            (gammaAt N g) := by
        rw [wignerSum_planes]
        simp only [wigPlane_ring]
        unfold wignerCoeffs
        rw [if_neg (by simp), ← hc]
        unfold synth
        simp only [Bool.false_eq_true, if_false, Finset.sum_mul]
        rw [Finset.sum_comm]
        refine Finset.sum_congr rfl fun n _ => Finset.sum_congr rfl fun m _ => by ring
      have e2 : ∑ m ∈ Finset.Ioo (-L) L, ∑ n ∈ Finset.Ioo (-N) N, planeSize c L n m
          = so3CoeffSize L N false flmn := by
        unfold so3CoeffSize planeSize
        rw [Finset.sum_comm, hc]
        refine Finset.sum_congr rfl fun n _ => ?_
        rw [Finset.sum_comm]
        rfl
      rw [e1, e2] at outer
      refine outer.trans (le_trans (le_of_eq ?_) (hfin (x := 10) (T := 36 * L * N * L + 12 * L * N + 2 * L)
        (by norm_num) ?_))
      · ring
      · have a1 : (L : ℝ) * N * L ≤ L ^ 3 := by
          calc (L : ℝ) * N * L ≤ L * L * L := by gcongr
            _ = L ^ 3 := by ring
        have a2 : (L : ℝ) * N ≤ L ^ 3 := by
          calc (L : ℝ) * N ≤ L * L * 1 := by rw [mul_one]; gcongr
            _ ≤ L * L * L := by gcongr
            _ = L ^ 3 := by ring
        have a3 : (L : ℝ) ≤ L ^ 3 := by
          calc (L : ℝ) = L * 1 * 1 := by ring
            _ ≤ L * L * L := by gcongr
            _ = L ^ 3 := by ring
        linarith
    | true =>
      rw [if_pos rfl]
      rw [nFirst_true] at hnear hb
      have ens : nStart N true = N - 1 := by unfold nStart; simp
      rw [ens, show 2 * N - 1 - (N - 1) = N by ring]
      have inner : ∀ k, 0 ≤ k → k < N → _ := fun k k0 k1 => ifftF_ringU F hh hv hL1
        (u := L / 2 ^ 1000) (by positivity) (hη 2 (by norm_num))
        (D := wignerFnabF F flmn K L N σ.off true (N - 1 + k) t)
        (g := fun m => wigRing L c k (θ t) m) (S := fun m => planeSize c L k m)
        (fun m => planeSize_nonneg c L k m) (fun h => by
          unfold wignerFnabF
          rw [if_neg (by omega), norm_zero]
          positivity)
        (fun m hm => hnear k t m k0 k1 hp.1 hp.2.1 hm)
        (fun m => wigRing_le L c k (θ t) m) hp
      have hSn : ∀ n, 0 ≤ ∑ m ∈ Finset.Ioo (-L) L, planeSize c L n m := fun n =>
        Finset.sum_nonneg fun m _ => planeSize_nonneg c L n m
      have hpl : ∀ n, 0 ≤ n → n < N → synth L false (fun m => wigRing L c n (θ t) m) (σ.phi L 0 t p)
          = wigPlane 0 L (wignerCoeffs flmn L N true) n (θ t) (σ.phi L 0 t p) := fun n n0 n1 => by
        rw [← wigPlane_coeffs hre (fun _ => n0), wigPlane_ring, ← hc]
      have hreal := wignerCoeffs_real hre.origin
      have outer := irfftF_ringU F (σ := .gl) (L := N) (n := 0) (by rintro ⟨⟩) gv (by omega)
        (u := 6 * L * (L / 2 ^ 1000) + 2 * L / 2 ^ 1000) (by positivity) (hη 6 (by norm_num))
        (D := fun k => F.ifft (2 * L - 1 + σ.off) (ifftshift (2 * L - 1 + σ.off)
          (wignerFnabF F flmn K L N σ.off true (N - 1 + k) t)) p)
        (g := fun n => synth L false (fun m => wigRing L c n (θ t) m) (σ.phi L 0 t p))
        (S := fun n => ∑ m ∈ Finset.Ioo (-L) L, planeSize c L n m) hSn
        (fun k k0 k1 => (inner k k0 k1).trans (le_of_eq (by ring)))
        (fun n => (norm_synth_le _ _ _).trans (Finset.sum_le_sum fun m _ => wigRing_le L c n (θ t) m))
        (by
          beta_reduce
          rw [hpl 0 le_rfl (by omega), ← Complex.conj_eq_iff_im]
          have := wigPlane_conj hreal 0 (θ t) (σ.phi L 0 t p)
          rw [neg_zero] at this
          exact this.symm) gh
      rw [e0, add_zero, gp] at outer
      have e1 : synth N true (fun n => synth L false (fun m => wigRing L c n (θ t) m) (σ.phi L 0 t p))
          (gammaAt N g) = wignerSum 0 L N (wignerCoeffs flmn L N true) (σ.phi L 0 t p) (θ t)
            (gammaAt N g) := by
        rw [wignerSum_planes, sum_Ioo_split h1]
        have syn : ∀ (G : ℤ → ℂ) (φ : ℝ), synth N true G φ = G 0 + ∑ m ∈ Finset.Ico 1 N,
            (G m * cis (m * φ) + (starRingEnd ℂ) (G m * cis (m * φ))) := fun G φ => by
          unfold synth; rw [if_pos rfl]
        rw [syn]
        beta_reduce
        rw [hpl 0 le_rfl (by omega)]
        congr 1
        · simp
        · refine Finset.sum_congr rfl fun n hn => ?_
          rw [Finset.mem_Ico] at hn
          rw [hpl n (by omega) hn.2, wigPlane_conj hreal, map_mul, conj_cis]
          push_cast
          rw [neg_mul]
      have e2 : ∑ m ∈ Finset.Ioo (-L) L, planeSize c L 0 m + ∑ n ∈ Finset.Ico 1 N,
          (∑ m ∈ Finset.Ioo (-L) L, planeSize c L n m + ∑ m ∈ Finset.Ioo (-L) L, planeSize c L n m)
          = so3CoeffSize L N true flmn := by
        have e3 : ∀ n, ∑ l ∈ Finset.Ico 0 L, ∑ m ∈ Finset.Ioo (-L) L, (2 * (l : ℝ) + 1) / (8 * Real.pi ^ 2)
            * ‖flmn (N - 1 + n) l (m + L - 1)‖ = ∑ m ∈ Finset.Ioo (-L) L, planeSize c L n m := fun n => by
          unfold planeSize
          rw [Finset.sum_comm, hc]
          rfl
        unfold so3CoeffSize
        simp only [if_true, e3]
        rw [sum_Ioo_split h1]
        simp only [abs_zero, abs_neg]
        congr 1
        refine Finset.sum_congr rfl fun n hn => ?_
        rw [Finset.mem_Ico] at hn
        rw [abs_of_nonneg (by omega)]
      rw [e1, e2] at outer
      refine outer.trans (le_trans (add_le_add (mul_le_mul_of_nonneg_right (c := ε + 14 * L / 2 ^ 50) ?_
        hS0) (le_of_eq ?_)) (hfin (x := 14) (T := 24 * N * L * L + 8 * N * L + 2 * N) (by norm_num) ?_))
      · norm_num; linarith
      · ring
      · have a1 : (N : ℝ) * L * L ≤ L ^ 3 := by
          calc (N : ℝ) * L * L ≤ L * L * L := by gcongr
            _ = L ^ 3 := by ring
        have a2 : (N : ℝ) * L ≤ L ^ 3 := by
          calc (N : ℝ) * L ≤ L * L * 1 := by rw [mul_one]; gcongr
            _ ≤ L * L * L := by gcongr
            _ = L ^ 3 := by ring
        have a3 : (N : ℝ) ≤ L ^ 3 := by
          calc (N : ℝ) ≤ L * 1 * 1 := by linarith
            _ ≤ L * L * L := by gcongr
            _ = L ^ 3 := by ring
        linarith

end S2fft
