import Verif.Props.C49Resampled
import Verif.Lemmas.PrecomputeWignerDoubleForward
import Verif.Lemmas.LinearComb
import Verif.Lemmas.PrecomputeWignerForward

/-! # The forward Wigner transform with precomputed kernels in double precision, for any kernel near the
exact one -/

namespace S2fft
open Spec

/-- The step over `γ` in double precision costs little. -/
theorem gammaStep_small {L N : ℤ} (h1 : 1 ≤ N) (hN : N ≤ L) (hL1 : L ≤ 2 ^ 26) :
    0 ≤ (2 * (N : ℝ) - 1) / 2 ^ 50 ∧ (2 * (N : ℝ) - 1) / 2 ^ 50 ≤ L * √L / 2 ^ 44 / 32 ∧
      1 / 2 ^ 41 ≤ 2 * Real.pi / (2 * (N : ℝ) - 1) := by
  have h1' : (1 : ℝ) ≤ N := by exact_mod_cast h1
  have hN' : (N : ℝ) ≤ L := by exact_mod_cast hN
  have hL2 : (L : ℝ) ≤ 2 ^ 26 := by exact_mod_cast hL1
  have hpi := Real.pi_gt_three
  obtain ⟨s1, s2, s3⟩ := sizeE (h1.trans hN) hL1
  refine ⟨div_nonneg (by linarith) (by norm_num), ?_, ?_⟩
  · have : (2 * (N : ℝ) - 1) / 2 ^ 50 ≤ L / 2 ^ 44 / 32 := by
      rw [div_div, div_le_div_iff₀ (by norm_num) (by norm_num)]
      norm_num
      linarith
    exact this.trans (div_le_div_of_nonneg_right s3 (by norm_num))
  · rw [div_le_div_iff₀ (by norm_num) (by linarith)]
    norm_num at hL2 ⊢
    linarith

/-- The forward transform from the Driscoll–Healy grid with planes and weights near the exact ones. -/
theorem precomputeWignerForwardF_dh (F : FftLib) (nodes : ℤ → ℤ → ℝ) {L N : ℤ} (hL1 : L ≤ 2 ^ 26)
    (h1 : 1 ≤ N) (hN : N ≤ L) (reality : Bool) {dl : ℤ → ℤ → ℤ → ℤ → ℝ} {w' : ℤ → ℝ}
    (hd : WDlNear dl L (nFirst N reality) (nDim N reality) (2 * L) (Scheme.dh.theta nodes L 0)
      (5 * (L * √L / 2 ^ 44)) L)
    (hw : ∀ t, 0 ≤ t → t < 2 * L →
      |w' t - quad_weights_dh L t| ≤ 192 * √(L : ℝ) / 2 ^ 50 / (2 * L - 1))
    (c : ℤ → ℤ → ℤ → ℂ) (f : Nd ℂ) (M η : ℝ) (hsh : f.shape = (2 * N - 1) :: Scheme.dh.shape L 0)
    (hM : ∀ g t p, 0 ≤ g → g < 2 * N - 1 → Scheme.dh.Has L 0 t p → ‖f.get3 g t p‖ ≤ M)
    (hf : ∀ g t p, 0 ≤ g → g < 2 * N - 1 → Scheme.dh.Has L 0 t p → ‖f.get3 g t p
      - wignerSum 0 L N c (Scheme.dh.phi L 0 t p) (Scheme.dh.theta nodes L 0 t) (gammaAt N g)‖ ≤ η)
    (hre : reality = true → RealWigner c 0 L) :
    ∃ out, precomputeWignerForwardF F f ⟨nDim N reality, 2 * L, L, 2 * L - 1, fun k t el j =>
        ((F.fl (F.fl (dl k t el j * w' t) * gammaWeightF F.toDoubleLib N) : ℝ) : ℂ)⟩ L N sDH reality
        = .ok (.d3 (2 * N - 1) L (2 * L - 1) out) ∧
      ∀ n el m, |n| < N → 0 ≤ el → el < L → |m| < L →
        ‖out (N - 1 + n) el (m + L - 1) - (if |n| ≤ el ∧ |m| ≤ el then c n el m else 0)‖
          ≤ 8 * Real.pi ^ 2 * (M * (L * √L / 2 ^ 40) + η) + 1 / 2 ^ 800 := by
  have hL : 1 ≤ L := h1.trans hN
  have hL' : (1 : ℝ) ≤ L := by exact_mod_cast hL
  have h1' : (1 : ℝ) ≤ N := by exact_mod_cast h1
  obtain ⟨s1, s2, s3⟩ := sizeE hL hL1
  obtain ⟨u0, u1, hq⟩ := gammaStep_small h1 hN hL1
  have hs1 : 1 ≤ √(L : ℝ) := by rw [Real.le_sqrt' (by norm_num)]; linarith
  have hn : (0 : ℝ) < 2 * L - 1 := by linarith
  have hL2 : (L : ℝ) ≤ 2 ^ 26 := by exact_mod_cast hL1
  have hE0 : 1 / 2 ^ 44 ≤ (L : ℝ) * √L / 2 ^ 44 :=
    le_trans (div_le_div_of_nonneg_right hL' (by norm_num)) s3
  have htn := tn_pos
  have hh0 : Scheme.dh.Has L 0 0 0 :=
    ⟨le_rfl, by simp [Scheme.rings]; omega, le_rfl, by simp [Scheme.ringLen]; omega⟩
  have hM0 : 0 ≤ M := le_trans (norm_nonneg _) (hM 0 0 0 le_rfl (by omega) hh0)
  obtain ⟨a, rfl⟩ := Nd.eq_d3 (by omega) hsh
  have hδ : (1 : ℝ) / 2 ^ 150 ≤ 192 * √(L : ℝ) / 2 ^ 50 / (2 * L - 1) := by
    rw [div_div, div_le_div_iff₀ (by norm_num) (by positivity)]
    norm_num at hL2 ⊢
    nlinarith
  have hR := ringRule_dh nodes hL
  refine ⟨wignerFlmnF F (fun k t j => precomputeFftF F (wignerFbanF F a (2 * N - 1) reality k) sDH
      (2 * L - 1) false t j) (fun k t el j => ((F.fl (F.fl (dl k t el j * w' t)
      * gammaWeightF F.toDoubleLib N) : ℝ) : ℂ)) L N (2 * L) reality, ?_, fun n el m hn e0 e1 hm => ?_⟩
  · unfold precomputeWignerForwardF wignerResampleF
    simp only [Scheme.rings]
    rw [if_neg (by decide), if_neg (by decide), if_neg (by decide)]
    simp only [bind, Except.bind]
    rw [if_neg (show ¬inHealpix sDH by decide), if_neg]
    · rfl
    · rw [fbanPlanes_eq h1]
      simp [mOffset, Scheme.ringLen, show sDH ≠ sMWSS by decide, show sDH ≠ sHP by decide]
  · have key := wignerFlmnF_full F (nt := 2 * L) (c := c) (reality := reality) hre (A := fun k t j =>
        precomputeFftF F (wignerFbanF F a (2 * N - 1) reality k) sDH (2 * L - 1) false t j)
      (K := fun k t el j => ((F.fl (F.fl (dl k t el j * w' t)
      * gammaWeightF F.toDoubleLib N) : ℝ) : ℂ)) (fun n el m n0 n1 e0 e1 m0 m1 => by
        have hp := fun t p (h : Scheme.dh.Has L 0 t p) => fbanF_near F h1 (a := a) (c := c) (L := L)
          (i := t) (j := p) (θ := Scheme.dh.theta nodes L 0 t) (φ := Scheme.dh.phi L 0 t p) hre
          (fun g g0 g1 => hM g t p g0 g1 h) (fun g g0 g1 => hf g t p g0 g1 h) n0 n1
        have hk : n - nFirst N reality < nDim N reality := by rw [nDim_eq]; omega
        refine planeCoeff_rule F hL hL1 h1 hR (c := c) (n := n)
          (f := wignerFbanF F a (2 * N - 1) reality (n - nFirst N reality))
          (η := η + ((2 * N - 1) / 2 ^ 50 * M + 1 / 2 ^ 1000))
          (M := M + ((2 * N - 1) / 2 ^ 50 * M + 1 / 2 ^ 1000) + 1 / 2 ^ 900)
          (ε := 6 * (L * √L / 2 ^ 44)) (δ := 192 * √(L : ℝ) / 2 ^ 50 / (2 * L - 1))
          (Δ := 6 * (L * √L / 2 ^ 44))
          (le_add_of_nonneg_left (by positivity)) (fun t p h => (hp t p h).1)
          (fun t p h => (hp t p h).2.trans (mul_le_mul_of_nonneg_left
            (le_add_of_nonneg_right (by positivity)) (by linarith)))
          (le_trans (one_div_le_one_div_of_le (by positivity)
            (pow_le_pow_right₀ (by norm_num) (by norm_num))) hδ)
          ?_ (fun t t0 t1 => ?_) e0 e1 m0 m1
        · have e1 : (2 * (L : ℝ) - 1) * ((Scheme.dh.rings L 0 : ℤ) * (192 * √(L : ℝ) / 2 ^ 50 / (2 * L - 1)))
              = 6 * (L * √L / 2 ^ 44) := by
            simp only [Scheme.rings]
            push_cast
            field_simp
            norm_num
          exact e1.le
        · have hx := hd (n - nFirst N reality) t el m (by omega) hk t0 t1 e0 e1 (abs_lt.2 ⟨m0, m1⟩)
          rw [show nFirst N reality + (n - nFirst N reality) = n by ring] at hx
          exact gammaF_entry F.nearest hx (wignerd_abs_le_one _ _ _ _) hE0 (by linarith) hq
            (gammaWeightF_near F.toDoubleLib h1 (by omega))
            (abs_of_nonneg (hR.nonneg t t0 t1)).le (hw t t0 t1) hδ) hn e0 e1 hm
    refine key.trans ?_
    have hpi := Real.pi_gt_three
    have hpi4 := Real.pi_le_four
    rw [show (L : ℝ) * √L / 2 ^ 40 = 16 * (L * √L / 2 ^ 44) by ring,
      show (L : ℝ) / 2 ^ 45 = 1 / 2 * (L / 2 ^ 44) by ring]
    have htin : 2048 * (1 / 2 ^ 900 : ℝ) ≤ 1 / 2 ^ 800 := by
      have t1 : (1 / 2 ^ 900 : ℝ) ≤ 1 / 2 ^ 811 :=
        one_div_le_one_div_of_le (by positivity) (pow_le_pow_right₀ (by norm_num) (by norm_num))
      have t3 : 2048 * (1 / 2 ^ 811 : ℝ) = 1 / 2 ^ 800 := by
        rw [pow_add 2 800 11]; field_simp; norm_num
      linarith
    have ht : (1 / 2 ^ 1000 : ℝ) ≤ 1 / 2 ^ 900 :=
      one_div_le_one_div_of_le (by positivity) (pow_le_pow_right₀ (by norm_num) (by norm_num))
    have ht0 : (0 : ℝ) ≤ 1 / 2 ^ 1000 := by positivity
    have hT0 : (0 : ℝ) ≤ 1 / 2 ^ 900 := by positivity
    refine le_trans ?_ (add_le_add le_rfl htin)
    generalize (1 / 2 ^ 1000 : ℝ) = ζ at *
    generalize (1 / 2 ^ 900 : ℝ) = τ at *
    have hy0 : 0 ≤ (L : ℝ) / 2 ^ 44 := by positivity
    generalize (L : ℝ) / 2 ^ 44 = y at *
    generalize (L : ℝ) * √L / 2 ^ 44 = E at *
    generalize (2 * (N : ℝ) - 1) / 2 ^ 50 = u at *
    have a1 : 2 * Real.pi * (4 * Real.pi * (6 * E + 1 / 2 * y) + 3 * (6 * E)) ≤ 8 * Real.pi ^ 2 * (8 * E) := by
      have b1 : Real.pi * y ≤ Real.pi * E := mul_le_mul_of_nonneg_left s3 (by linarith)
      have b2 : 3 * E ≤ Real.pi * E := mul_le_mul_of_nonneg_right hpi.le s1
      have b3 : 4 * Real.pi * (6 * E + 1 / 2 * y) + 3 * (6 * E) ≤ Real.pi * (32 * E) := by linarith
      have := mul_le_mul_of_nonneg_left b3 (by linarith : 0 ≤ 2 * Real.pi)
      refine this.trans (le_of_eq (by ring))
    have a2 : M + (u * M + ζ) + τ ≤ 33 / 32 * M + 2 * τ := by
      have : u * M ≤ 1 / 32 * M := mul_le_mul_of_nonneg_right (by linarith) hM0
      linarith
    have a3 : 2 * Real.pi * (M + (u * M + ζ) + τ) * (4 * Real.pi * (6 * E + 1 / 2 * y) + 3 * (6 * E))
        ≤ (33 / 32 * M + 2 * τ) * (8 * Real.pi ^ 2 * (8 * E)) := by
      rw [show 2 * Real.pi * (M + (u * M + ζ) + τ) * (4 * Real.pi * (6 * E + 1 / 2 * y) + 3 * (6 * E))
        = (M + (u * M + ζ) + τ) * (2 * Real.pi * (4 * Real.pi * (6 * E + 1 / 2 * y) + 3 * (6 * E))) by ring]
      refine mul_le_mul a2 a1 ?_ (by positivity)
      refine mul_nonneg (by linarith) (add_nonneg (mul_nonneg (by linarith) ?_) (by linarith))
      linarith
    have a4 : u * M ≤ E / 32 * M := mul_le_mul_of_nonneg_right u1 hM0
    have a5 : τ * E ≤ τ * (1 / 32) := mul_le_mul_of_nonneg_left s2 hT0
    have hp2 : Real.pi ^ 2 ≤ 16 := by nlinarith
    have a6 : (33 / 32 * M + 2 * τ) * (8 * E) + (η + (u * M + ζ)) ≤ M * (16 * E) + η + 2 * τ := by
      have : 0 ≤ M * E := mul_nonneg hM0 s1
      linarith
    have a7 := mul_le_mul_of_nonneg_left a6 (by positivity : 0 ≤ 8 * Real.pi ^ 2)
    have a8 : 8 * Real.pi ^ 2 * (2 * τ) ≤ 256 * τ := by
      have := mul_le_mul_of_nonneg_right hp2 hT0
      linarith
    linarith

end S2fft
