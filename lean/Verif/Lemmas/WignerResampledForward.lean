import Verif.Lemmas.PrecomputeWignerDoubleDh
import Verif.Lemmas.PrecomputeWignerDoubleInverse
import Verif.Spec.So3CoeffSize
import Verif.Props.C28

/-! # The forward Wigner transform from the grids that are resampled first -/

namespace S2fft
open Spec

/-- The forward transform with any accurate resampling and weights. -/
theorem wignerForwardF_resampled (F : FftLib) (nodes : ℤ → ℤ → ℝ) {σ : Scheme} (hσ : σ = .mw ∨ σ = .mwss)
    {L N : ℤ} (hL1 : L ≤ 2 ^ 26) (h1 : 1 ≤ N) (hN : N ≤ L) {reality : Bool}
    {R : (ℤ → ℤ → ℂ) → ℤ → ℤ → ℤ → ℂ} (hR : ResampleNear σ L R) {w' : ℤ → ℝ} (hw' : WeightNear σ L w')
    {dl : ℤ → ℤ → ℤ → ℤ → ℝ} (hd : WDlNear dl L (nFirst N reality) (nDim N reality)
      (2 * L + 1) (innerTheta nodes σ L 0) (5 * (L * √L / 2 ^ 44)) L)
    {c : ℤ → ℤ → ℤ → ℂ} {a : ℤ → ℤ → ℤ → ℂ} {M η : ℝ}
    (hM : ∀ g t p, 0 ≤ g → g < 2 * N - 1 → σ.Has L 0 t p → ‖a g t p‖ ≤ M)
    (hf : ∀ g t p, 0 ≤ g → g < 2 * N - 1 → σ.Has L 0 t p → ‖a g t p
      - wignerSum 0 L N c (σ.phi L 0 t p) (σ.theta nodes L 0 t) (gammaAt N g)‖ ≤ η)
    (hre : reality = true → RealWigner c 0 L) {n el m : ℤ} (hn : |n| < N) (e0 : 0 ≤ el) (e1 : el < L)
    (hm : |m| < L) :
    ‖wignerFlmnF F (fun k t j => precomputeFftF F (R (wignerFbanF F a (2 * N - 1) reality k)
        (-(nFirst N reality + k))) sMWSS (2 * L) false t j)
        (fun k t el j => ((F.fl (F.fl (dl k t el j * w' t) * gammaWeightF F.toDoubleLib N) : ℝ) : ℂ))
        L N (2 * L + 1) reality (N - 1 + n) el (m + L - 1)
        - (if |n| ≤ el ∧ |m| ≤ el then c n el m else 0)‖
      ≤ 8 * Real.pi ^ 2 * (M * (L * √L / 2 ^ 35) + 68 * η) + 1 / 2 ^ 800 := by
  have hL : 1 ≤ L := h1.trans hN
  have hL' : (1 : ℝ) ≤ L := by exact_mod_cast hL
  have h1' : (1 : ℝ) ≤ N := by exact_mod_cast h1
  have hσ' : σ.Resampled := hσ
  obtain ⟨s1, s2, s3⟩ := sizeE hL hL1
  obtain ⟨u0, u1, hq⟩ := gammaStep_small h1 hN hL1
  have hL2 : (L : ℝ) ≤ 2 ^ 26 := by exact_mod_cast hL1
  have hE0 : 1 / 2 ^ 44 ≤ (L : ℝ) * √L / 2 ^ 44 :=
    le_trans (div_le_div_of_nonneg_right hL' (by norm_num)) s3
  have htn := tn_pos
  have hh0 : σ.Has L 0 0 0 := by
    rcases hσ with rfl | rfl <;>
      exact ⟨le_rfl, by simp [Scheme.rings]; omega, le_rfl, by simp [Scheme.ringLen]; omega⟩
  have hM0 : 0 ≤ M := le_trans (norm_nonneg _) (hM 0 0 0 le_rfl (by omega) hh0)
  have hη : 0 ≤ η := le_trans (norm_nonneg _) (hf 0 0 0 le_rfl (by omega) hh0)
  obtain ⟨G, rfl⟩ : ∃ G : GlTables, G.nodes = nodes := ⟨⟨nodes, fun _ _ => 0⟩, rfl⟩
  have hwt : ∀ t, |innerWeight G σ L 0 t| ≤ 12 / (L : ℝ) ^ 2 := fun t => by
    refine (innerWeight_resampled hσ' hL 0 t).trans ?_
    rw [div_le_div_iff₀ (by positivity) (by positivity)]
    have h1 := Real.pi_lt_d2
    have h2 := Real.pi_pos
    have h3 : Real.pi * (Real.pi + 4) ≤ 24 := by norm_num at h1; nlinarith
    nlinarith [sq_nonneg (L : ℝ)]
  have hδ : (1 : ℝ) / 2 ^ 150 ≤ 1 / 2 ^ 43 / L := by
    rw [div_div, div_le_div_iff₀ (by positivity) (by positivity)]
    norm_num at hL2 ⊢; linarith
  have key := wignerFlmnF_full F (nt := 2 * L + 1) (c := c) (reality := reality) hre (A := fun k t j =>
      precomputeFftF F (R (wignerFbanF F a (2 * N - 1) reality k) (-(nFirst N reality + k)))
        sMWSS (2 * L) false t j)
    (K := fun k t el j => ((F.fl (F.fl (dl k t el j * w' t)
    * gammaWeightF F.toDoubleLib N) : ℝ) : ℂ)) (fun n el m n0 n1 e0 e1 m0 m1 => by
      have hp := fun t p (h : σ.Has L 0 t p) => fbanF_near F h1 (a := a) (c := c) (L := L)
        (i := t) (j := p) (θ := σ.theta G.nodes L 0 t) (φ := σ.phi L 0 t p) hre
        (fun g g0 g1 => hM g t p g0 g1 h) (fun g g0 g1 => hf g t p g0 g1 h) n0 n1
      have hk : n - nFirst N reality < nDim N reality := by rw [nDim_eq]; omega
      rw [show nFirst N reality + (n - nFirst N reality) = n by ring]
      refine planeCoeff_resampled F G hσ' hL hL1 hR h1 (c := c) (n := n)
        (f := wignerFbanF F a (2 * N - 1) reality (n - nFirst N reality))
        (η := η + ((2 * N - 1) / 2 ^ 50 * M + 1 / 2 ^ 1000))
        (M := M + η + 2 * ((2 * N - 1) / 2 ^ 50 * M + 1 / 2 ^ 1000))
        (by positivity) (by positivity) (fun t p h => (hp t p h).1)
        (fun t p h => ?_) (fun t t0 t1 => ?_) e0 e1 m0 m1
      · refine (norm_le_norm_add_norm_sub _ _).trans ((add_le_add (hp t p h).2 (hp t p h).1).trans
          (le_of_eq ?_))
        ring
      · have hx := hd (n - nFirst N reality) t el m (by omega) hk t0 t1 e0 e1 (abs_lt.2 ⟨m0, m1⟩)
        rw [show nFirst N reality + (n - nFirst N reality) = n by ring] at hx
        exact (gammaF_entry F.nearest hx (wignerd_abs_le_one _ _ _ _) hE0 (by linarith) hq
          (gammaWeightF_near F.toDoubleLib h1 (by omega)) (hwt t)
          (hw' G 0 t0 t1) hδ).1) hn e0 e1 hm
  refine key.trans ?_
  have hpi := Real.pi_gt_d2
  have hpi4 := Real.pi_le_four
  rw [show (L : ℝ) * √L / 2 ^ 35 = 512 * (L * √L / 2 ^ 44) by ring]
  have hL3 : 3 * (L : ℝ) / 2 ^ 1000 ≤ 1 / 2 ^ 900 := by
    rw [show (3 * (L : ℝ) / 2 ^ 1000) = 3 * L * (1 / 2 ^ 1000) by ring, tiny_tn,
      show (1 / 2 ^ 900 : ℝ) = tn from rfl]
    have : 3 * (L : ℝ) * (tn / 2 ^ 100) = 3 * L / 2 ^ 100 * tn := by ring
    rw [this]
    refine mul_le_of_le_one_left htn.le ?_
    rw [div_le_one (by norm_num)]
    norm_num at hL2 ⊢; linarith
  have htin : 16384 * (1 / 2 ^ 900 : ℝ) ≤ 1 / 2 ^ 800 := by
    have t1 : (1 / 2 ^ 900 : ℝ) ≤ 1 / 2 ^ 814 :=
      one_div_le_one_div_of_le (by positivity) (pow_le_pow_right₀ (by norm_num) (by norm_num))
    have t3 : 16384 * (1 / 2 ^ 814 : ℝ) = 1 / 2 ^ 800 := by
      rw [pow_add 2 800 14]; field_simp; norm_num
    linarith
  have ht : (1 / 2 ^ 1000 : ℝ) ≤ 1 / 2 ^ 900 :=
    one_div_le_one_div_of_le (by positivity) (pow_le_pow_right₀ (by norm_num) (by norm_num))
  have ht0 : (0 : ℝ) ≤ 1 / 2 ^ 1000 := by positivity
  refine le_trans (add_le_add le_rfl hL3) (le_trans ?_ (add_le_add le_rfl htin))
  rw [show (1 / 2 ^ 900 : ℝ) = tn from rfl] at *
  generalize (1 / 2 ^ 1000 : ℝ) = ζ at *
  generalize tn = τ at *
  generalize (L : ℝ) * √L / 2 ^ 44 = E at *
  generalize (2 * (N : ℝ) - 1) / 2 ^ 50 = u at *
  have hME : 0 ≤ M * E := mul_nonneg hM0 s1
  have a1 : u * M ≤ E / 32 * M := mul_le_mul_of_nonneg_right u1 hM0
  have a2 : u * M ≤ 1 / 1024 * M := mul_le_mul_of_nonneg_right (by linarith) hM0
  have a3 : M + η + 2 * (u * M + ζ) + τ ≤ 513 / 512 * M + η + 3 * τ := by linarith
  have a4 := mul_le_mul_of_nonneg_left a3 (by linarith : 0 ≤ 5700 * E)
  have a5 : E * η ≤ 1 / 32 * η := mul_le_mul_of_nonneg_right s2 hη
  have a6 : E * τ ≤ 1 / 32 * τ := mul_le_mul_of_nonneg_right s2 htn.le
  have a7 : 5700 * E * (M + η + 2 * (u * M + ζ) + τ) + 661 * (η + (u * M + ζ))
      ≤ 5735 * (M * E) + 840 * η + 1200 * τ := by linarith
  have a8 := mul_le_mul_of_nonneg_left a7 (by linarith : 0 ≤ 2 * Real.pi)
  have a9 : 2 * Real.pi * (5735 * (M * E) + 840 * η)
      ≤ 8 * Real.pi ^ 2 * (M * (512 * E) + 68 * η) := by
    have b1 : 5735 * (M * E) + 840 * η ≤ 4 * Real.pi * (M * (512 * E) + 68 * η) := by
      have c1 := mul_le_mul_of_nonneg_right hpi.le hME
      have c2 := mul_le_mul_of_nonneg_right hpi.le hη
      norm_num at c1 c2
      linarith
    have := mul_le_mul_of_nonneg_left b1 (by linarith : 0 ≤ 2 * Real.pi)
    refine this.trans (le_of_eq (by ring))
  have a10 : 2 * Real.pi * (1200 * τ) ≤ 9600 * τ := by
    have := mul_le_mul_of_nonneg_right hpi4 htn.le
    linarith
  linarith

/-- A signal is bounded by the size of its coefficients. -/
theorem wignerSum_le {L N : ℤ} {reality : Bool} {flmn : ℤ → ℤ → ℤ → ℂ} (hre : RealPlane flmn L N reality)
    (α β γ : ℝ) : ‖wignerSum 0 L N (wignerCoeffs flmn L N reality) α β γ‖ ≤ so3CoeffSize L N reality flmn := by
  unfold wignerSum so3CoeffSize
  refine (norm_sum_le _ _).trans (Finset.sum_le_sum fun n _ => ?_)
  refine (norm_sum_le _ _).trans (Finset.sum_le_sum fun l hl => ?_)
  obtain ⟨l0, l1⟩ := Finset.mem_Ico.1 hl
  have hw := degreeWeight_nonneg l0
  unfold degreeWeight at hw
  have hsub : Finset.Ico (-l) (l + 1) ⊆ Finset.Ioo (-L) L := fun m h => by
    rw [Finset.mem_Ico] at h
    rw [Finset.mem_Ioo]
    omega
  have term : ∀ m, ‖(2 * (l : ℂ) + 1) / (8 * (Real.pi : ℂ) ^ 2) * wignerCoeffs flmn L N reality n l m
      * (starRingEnd ℂ) (wignerD l m n α β γ)‖
      ≤ (2 * (l : ℝ) + 1) / (8 * Real.pi ^ 2) * ‖wignerCoeffs flmn L N reality n l m‖ := fun m => by
    have e1 : (2 * (l : ℂ) + 1) / (8 * (Real.pi : ℂ) ^ 2)
        = (((2 * (l : ℝ) + 1) / (8 * Real.pi ^ 2) : ℝ) : ℂ) := by push_cast; ring
    rw [e1, norm_mul, norm_mul, Complex.norm_real, Real.norm_eq_abs, abs_of_nonneg hw, RCLike.norm_conj]
    refine mul_le_of_le_one_right (mul_nonneg hw (norm_nonneg _)) ?_
    unfold wignerD
    rw [norm_mul, norm_mul, norm_cis, norm_cis, one_mul, mul_one, Complex.norm_real]
    exact wignerd_abs_le_one _ _ _ _
  refine (norm_sum_le _ _).trans ((Finset.sum_le_sum fun m _ => term m).trans ?_)
  rw [← Finset.mul_sum, ← Finset.mul_sum]
  refine mul_le_mul_of_nonneg_left ?_ hw
  cases reality with
  | false =>
    refine Finset.sum_le_sum_of_subset_of_nonneg hsub fun _ _ _ => norm_nonneg _
  | true =>
    rw [if_pos rfl]
    have hc : ∀ m, ‖wignerCoeffs flmn L N true n l m‖ = if n < 0 ∨ n = 0 ∧ m < 0 then
        ‖flmn (N - 1 + -n) l (-m + L - 1)‖ else ‖flmn (N - 1 + n) l (m + L - 1)‖ := fun m => by
      unfold wignerCoeffs realWignerCoeffs
      rw [if_pos rfl]
      split_ifs
      · rw [norm_mul, norm_neg_one_zpow, one_mul, RCLike.norm_conj]
      · rfl
    rcases lt_trichotomy n 0 with hn | hn | hn
    · rw [abs_of_neg hn, ← sum_Ioo_neg]
      refine (Finset.sum_le_sum fun m _ => le_of_eq ?_).trans
        (Finset.sum_le_sum_of_subset_of_nonneg hsub fun _ _ _ => norm_nonneg _)
      rw [hc, if_pos (Or.inl hn)]
    · subst hn
      rw [abs_zero]
      refine (Finset.sum_le_sum fun m hm => le_of_eq ?_).trans
        (Finset.sum_le_sum_of_subset_of_nonneg hsub fun _ _ _ => norm_nonneg _)
      rw [Finset.mem_Ico] at hm
      rw [hc, neg_zero, add_zero]
      split_ifs
      · rw [hre rfl l m l0 l1 (abs_le.2 ⟨hm.1, by omega⟩), norm_mul, norm_neg_one_zpow, one_mul,
          RCLike.norm_conj]
      · rfl
    · rw [abs_of_pos hn]
      refine (Finset.sum_le_sum fun m _ => le_of_eq ?_).trans
        (Finset.sum_le_sum_of_subset_of_nonneg hsub fun _ _ _ => norm_nonneg _)
      rw [hc, if_neg (by omega)]

theorem so3CoeffSize_nonneg (L N : ℤ) (reality : Bool) (flmn : ℤ → ℤ → ℤ → ℂ) :
    0 ≤ so3CoeffSize L N reality flmn :=
  Finset.sum_nonneg fun _ _ => Finset.sum_nonneg fun _ hl => Finset.sum_nonneg fun _ _ =>
    mul_nonneg (degreeWeight_nonneg (Finset.mem_Ico.1 hl).1) (norm_nonneg _)

/-- What the round trip loses. -/
theorem wignerRoundTrip_resampled {L : ℤ} {S : ℝ} (hL : 1 ≤ L) (hL1 : L ≤ 2 ^ 26) (hS0 : 0 ≤ S) :
    8 * Real.pi ^ 2 * ((S + (L * √L / 2 ^ 41 * S + 1 / 2 ^ 900)) * (L * √L / 2 ^ 35)
        + 68 * (L * √L / 2 ^ 41 * S + 1 / 2 ^ 900)) + 1 / 2 ^ 800
      ≤ 8 * Real.pi ^ 2 * (S * (L * √L / 2 ^ 33)) + 1 / 2 ^ 700 := by
  obtain ⟨s1, s2, s3⟩ := sizeE hL hL1
  have hp2 : 8 * Real.pi ^ 2 ≤ 128 := by nlinarith [Real.pi_le_four, Real.pi_pos]
  rw [show (L : ℝ) * √L / 2 ^ 41 = 8 * (L * √L / 2 ^ 44) by ring,
    show (L : ℝ) * √L / 2 ^ 35 = 512 * (L * √L / 2 ^ 44) by ring,
    show (L : ℝ) * √L / 2 ^ 33 = 2048 * (L * √L / 2 ^ 44) by ring]
  have htin : 128 * 84 * (1 / 2 ^ 900 : ℝ) + 1 / 2 ^ 800 ≤ 1 / 2 ^ 700 := by
    have t1 : (1 / 2 ^ 900 : ℝ) ≤ 1 / 2 ^ 714 :=
      one_div_le_one_div_of_le (by positivity) (pow_le_pow_right₀ (by norm_num) (by norm_num))
    have t2 : (1 / 2 ^ 800 : ℝ) ≤ 1 / 2 ^ 714 :=
      one_div_le_one_div_of_le (by positivity) (pow_le_pow_right₀ (by norm_num) (by norm_num))
    have t3 : 16384 * (1 / 2 ^ 714 : ℝ) = 1 / 2 ^ 700 := by
      rw [pow_add 2 700 14]; field_simp; norm_num
    have t4 : (0 : ℝ) ≤ 1 / 2 ^ 714 := by positivity
    linarith
  have ht : (0 : ℝ) ≤ 1 / 2 ^ 900 := by positivity
  generalize (1 / 2 ^ 900 : ℝ) = τ at *
  generalize (L : ℝ) * √L / 2 ^ 44 = E at *
  have hSE : 0 ≤ S * E := mul_nonneg hS0 s1
  have hSEE : S * E * E ≤ S * E * (1 / 32) := mul_le_mul_of_nonneg_left s2 hSE
  have h1 : (S + (8 * E * S + τ)) * (512 * E) + 68 * (8 * E * S + τ) ≤ S * (2048 * E) + 84 * τ := by
    have ht2 : τ * (512 * E) ≤ τ * 16 := mul_le_mul_of_nonneg_left (by linarith) ht
    have e : (S + (8 * E * S + τ)) * (512 * E) + 68 * (8 * E * S + τ)
      = 1056 * (S * E) + 4096 * (S * E * E) + τ * (512 * E) + 68 * τ := by ring
    rw [e, show S * (2048 * E) = 2048 * (S * E) by ring]
    linarith
  have h2 := mul_le_mul_of_nonneg_left h1 (by positivity : 0 ≤ 8 * Real.pi ^ 2)
  have h3 := mul_le_mul_of_nonneg_right hp2 ht
  linarith

end S2fft
