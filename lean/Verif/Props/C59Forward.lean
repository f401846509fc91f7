import Verif.Props.C59
import Verif.Props.C49Resampled
import Verif.Lemmas.WignerResampledForward

/-! # C59: the forward Wigner transforms with precomputed kernels -/

namespace S2fft
open Spec

/-- The forward transform from the Driscoll–Healy grid, of samples that are those of an expansion up to
`η` and at most `M` in size: every coefficient is that of the expansion up to
`8π² (M L^(3/2) / 2⁴⁰ + η)`; `8π²` is the volume of the rotation group. -/
theorem C59_forward_dh (F : FftLib) (lg nodes : ℤ → ℤ → ℝ) (logL : ℝ) (L N : ℤ) (hL1 : L ≤ 2 ^ 26)
    (h1 : 1 ≤ N) (hN : N ≤ L) (reality : Bool) (mode : PyStr) (hm : ModeOk .dh L mode)
    (c : ℤ → ℤ → ℤ → ℂ) (f : Nd ℂ) (M η : ℝ) (hsh : f.shape = (2 * N - 1) :: Scheme.dh.shape L 0)
    (hM : ∀ g t p, 0 ≤ g → g < 2 * N - 1 → Scheme.dh.Has L 0 t p → ‖f.get3 g t p‖ ≤ M)
    (hf : ∀ g t p, 0 ≤ g → g < 2 * N - 1 → Scheme.dh.Has L 0 t p → ‖f.get3 g t p
      - wignerSum 0 L N c (Scheme.dh.phi L 0 t p) (Scheme.dh.theta nodes L 0 t) (gammaAt N g)‖ ≤ η)
    (hre : reality = true → RealWigner c 0 L) :
    ∃ T K out, thetasF F.toDoubleLib lg (some L) sDH none = .ok (2 * L, T) ∧
      wignerKernelF F lg logL (quadWeightsDhF F.toDoubleLib L T) L N reality sDH true mode = .ok K ∧
      precomputeWignerForwardF F f K L N sDH reality = .ok (.d3 (2 * N - 1) L (2 * L - 1) out) ∧
      ∀ n el m, |n| < N → 0 ≤ el → el < L → |m| < L →
        ‖out (N - 1 + n) el (m + L - 1) - (if |n| ≤ el ∧ |m| ≤ el then c n el m else 0)‖
          ≤ 8 * Real.pi ^ 2 * (M * (L * √L / 2 ^ 40) + η) + 1 / 2 ^ 800 := by
  have hL : 1 ≤ L := h1.trans hN
  obtain ⟨T, eT, hT, -⟩ := C48_colatitudes F.toDoubleLib lg nodes .dh (by simp) sDH rfl L 0 none hL
    (by omega)
  obtain ⟨dl, e, hd⟩ := wignerKernelF_near F lg nodes logL (quadWeightsDhF F.toDoubleLib L T) (σ := .dh)
    (by simp) hL hL1 h1 hN (covers_sqrt hL hL1) reality true hm
  rw [show kRings .dh L 0 true = 2 * L from rfl] at e hd
  simp only [if_true] at e
  obtain ⟨out, eo, ho⟩ := precomputeWignerForwardF_dh F nodes hL1 h1 hN reality hd (fun t t0 t1 =>
    quadWeightsDhF_near F.toDoubleLib hL hL1 t0 t1 (by simpa [Scheme.theta] using hT t t0 t1))
    c f M η hsh hM hf hre
  exact ⟨T, _, out, eT, e, eo, ho⟩

/-- The forward transform from the grids of McEwen–Wiaux, which are resampled first. There must be more
than one direction: the code drops the axis of a single one. -/
theorem C59_forward_mw (F : FftLib) (lg nodes : ℤ → ℤ → ℝ) (logL : ℝ) (σ : Scheme)
    (hσ : σ = .mw ∨ σ = .mwss) (L N : ℤ) (hL1 : L ≤ 2 ^ 26) (h2 : 2 ≤ N) (hN : N ≤ L) (reality : Bool)
    (mode : PyStr) (hm : ModeOk σ L mode) (c : ℤ → ℤ → ℤ → ℂ) (f : Nd ℂ) (M η : ℝ)
    (hsh : f.shape = (2 * N - 1) :: σ.shape L 0)
    (hM : ∀ g t p, 0 ≤ g → g < 2 * N - 1 → σ.Has L 0 t p → ‖f.get3 g t p‖ ≤ M)
    (hf : ∀ g t p, 0 ≤ g → g < 2 * N - 1 → σ.Has L 0 t p → ‖f.get3 g t p
      - wignerSum 0 L N c (σ.phi L 0 t p) (σ.theta nodes L 0 t) (gammaAt N g)‖ ≤ η)
    (hre : reality = true → RealWigner c 0 L) :
    ∃ K out, wignerKernelF F lg logL (quadWeightsTransformF F L) L N reality σ.name true mode = .ok K ∧
      precomputeWignerForwardF F f K L N σ.name reality = .ok (.d3 (2 * N - 1) L (2 * L - 1) out) ∧
      ∀ n el m, |n| < N → 0 ≤ el → el < L → |m| < L →
        ‖out (N - 1 + n) el (m + L - 1) - (if |n| ≤ el ∧ |m| ≤ el then c n el m else 0)‖
          ≤ 8 * Real.pi ^ 2 * (M * (L * √L / 2 ^ 35) + 68 * η) + 1 / 2 ^ 800 := by
  have h1 : 1 ≤ N := by omega
  have hL : 1 ≤ L := h1.trans hN
  have hR : σ.Resampled := hσ
  obtain ⟨a, rfl⟩ : ∃ a, f = .d3 (2 * N - 1) (σ.rings L 0) (σ.ringLen L 0 0) a := by
    rcases hσ with rfl | rfl <;> exact Nd.eq_d3 (by omega) hsh
  obtain ⟨dl, e, hd⟩ := wignerKernelF_near F lg nodes logL (quadWeightsTransformF F L) (σ := σ)
    (by tauto) hL hL1 h1 hN (covers_sqrt hL hL1) reality true hm
  have ekr : kRings σ L 0 true = 2 * L + 1 := by
    unfold kRings innerRings; rw [if_pos rfl, if_pos hR]
  have ekt : kTheta nodes σ L 0 true = innerTheta nodes σ L 0 := by unfold kTheta; rw [if_pos rfl]
  rw [ekr] at e hd
  rw [ekt] at hd
  simp only [if_true] at e
  refine ⟨_, wignerFlmnF F (fun k t j => precomputeFftF F (resF F σ L (wignerFbanF F a (2 * N - 1) reality k)
      (-(nFirst N reality + k))) sMWSS (2 * L) false t j)
      (fun k t el j => ((F.fl (F.fl (dl k t el j * quadWeightsTransformF F L t)
      * gammaWeightF F.toDoubleLib N) : ℝ) : ℂ)) L N (2 * L + 1) reality, e, ?_, fun n el m hn e0 e1 hm => ?_⟩
  · have hB : fbanPlanes (2 * N - 1) reality ≠ 1 := by
      rw [fbanPlanes_eq h1]
      cases reality <;> simp [nDim] <;> omega
    have hrs : wignerResampleF F (fbanPlanes (2 * N - 1) reality) (σ.rings L 0) (σ.ringLen L 0 0)
        (wignerFbanF F a (2 * N - 1) reality) L (fun k => -(nFirst N reality + k)) σ.name
        = .ok (2 * L + 1, 2 * L, fun k => resF F σ L (wignerFbanF F a (2 * N - 1) reality k)
          (-(nFirst N reality + k)), sMWSS) := by
      unfold wignerResampleF
      rcases hσ with rfl | rfl
      · rw [if_pos (by decide), if_neg hB]; rfl
      · rw [if_neg (by decide), if_pos (by decide), if_neg hB]; rfl
    unfold precomputeWignerForwardF
    simp only
    rw [if_neg (by rw [lower_name]; rcases hσ with rfl | rfl <;> decide), hrs]
    simp only [bind, Except.bind]
    rw [if_neg (show ¬inHealpix sMWSS by decide), if_neg]
    · rfl
    · rw [fbanPlanes_eq h1]
      simp [mOffset]
  · exact wignerForwardF_resampled F nodes hσ hL1 h1 hN (resF_near F hR hL hL1)
      (quadWeightsTransformF_near F hR hL hL1) hd hM hf hre hn e0 e1 hm

/-! ## The round trips -/

/-- The round trip on the Driscoll–Healy grid: each coefficient comes back up to `8π² L^(3/2) / 2³⁹` times
the size of the coefficients. -/
theorem C59_round_trip_dh (F : FftLib) (lg : ℤ → ℤ → ℝ) (logL : ℝ) (w : ℤ → ℝ) (L N : ℤ)
    (hL1 : L ≤ 2 ^ 26) (h1 : 1 ≤ N) (hN : N ≤ L) (reality : Bool) (mode : PyStr) (hm : ModeOk .dh L mode)
    (flmn : ℤ → ℤ → ℤ → ℂ) (hre : RealPlane flmn L N reality) :
    ∃ T Ki Kf f out, thetasF F.toDoubleLib lg (some L) sDH none = .ok (2 * L, T) ∧
      wignerKernelF F lg logL w L N reality sDH false mode = .ok Ki ∧
      wignerKernelF F lg logL (quadWeightsDhF F.toDoubleLib L T) L N reality sDH true mode = .ok Kf ∧
      precomputeWignerInverseF F (.d3 (2 * N - 1) L (2 * L - 1) flmn) Ki L N sDH reality = .ok f ∧
      precomputeWignerForwardF F f Kf L N sDH reality = .ok (.d3 (2 * N - 1) L (2 * L - 1) out) ∧
      ∀ n el m, |n| < N → 0 ≤ el → el < L → |m| < L → ‖out (N - 1 + n) el (m + L - 1)
          - (if |n| ≤ el ∧ |m| ≤ el then wignerCoeffs flmn L N reality n el m else 0)‖
        ≤ 8 * Real.pi ^ 2 * (so3CoeffSize L N reality flmn * (L * √L / 2 ^ 39)) + 1 / 2 ^ 700 := by
  obtain ⟨s1, s2, s3⟩ := sizeE (h1.trans hN) hL1
  obtain ⟨Ki, f, e1, e2, e3, -, hf⟩ := C59_inverse F lg (fun _ _ => 0) logL w .dh (by simp) L N hL1 h1 hN
    reality mode hm flmn hre
  have hM : ∀ g t p, 0 ≤ g → g < 2 * N - 1 → Scheme.dh.Has L 0 t p → ‖f.get3 g t p‖
      ≤ so3CoeffSize L N reality flmn + (L * √L / 2 ^ 41 * so3CoeffSize L N reality flmn
        + 1 / 2 ^ 900) := fun g t p g0 g1 hp => by
    have h1 := hf g t p g0 g1 hp
    have h2 := norm_le_norm_add_norm_sub' (f.get3 g t p) (wignerSum 0 L N (wignerCoeffs flmn L N reality)
      (Scheme.dh.phi L 0 t p) (Scheme.dh.theta (fun _ _ => 0) L 0 t) (gammaAt N g))
    have h3 := wignerSum_le hre (Scheme.dh.phi L 0 t p) (Scheme.dh.theta (fun _ _ => 0) L 0 t) (gammaAt N g)
    linarith
  obtain ⟨T, Kf, out, e5, e6, e7, ho⟩ := C59_forward_dh F lg (fun _ _ => 0) logL L N hL1 h1 hN reality mode hm
    (wignerCoeffs flmn L N reality) f _ _ e3 hM hf
    (fun h => by subst h; exact wignerCoeffs_real hre.origin)
  refine ⟨T, Ki, Kf, f, out, e5, e1, e6, e2, e7, fun n el m hn e0 e1 hm =>
    le_trans (ho n el m hn e0 e1 hm) ?_⟩
  have hS0 := so3CoeffSize_nonneg L N reality flmn
  have hp2 : 8 * Real.pi ^ 2 ≤ 128 := by nlinarith [Real.pi_le_four, Real.pi_pos]
  rw [show (L : ℝ) * √L / 2 ^ 41 = 8 * (L * √L / 2 ^ 44) by ring,
    show (L : ℝ) * √L / 2 ^ 40 = 16 * (L * √L / 2 ^ 44) by ring,
    show (L : ℝ) * √L / 2 ^ 39 = 32 * (L * √L / 2 ^ 44) by ring]
  have htin : 256 * (1 / 2 ^ 900 : ℝ) + 1 / 2 ^ 800 ≤ 1 / 2 ^ 700 := by
    have t1 : (1 / 2 ^ 900 : ℝ) ≤ 1 / 2 ^ 710 :=
      one_div_le_one_div_of_le (by positivity) (pow_le_pow_right₀ (by norm_num) (by norm_num))
    have t2 : (1 / 2 ^ 800 : ℝ) ≤ 1 / 2 ^ 710 :=
      one_div_le_one_div_of_le (by positivity) (pow_le_pow_right₀ (by norm_num) (by norm_num))
    have t3 : 1024 * (1 / 2 ^ 710 : ℝ) = 1 / 2 ^ 700 := by
      rw [pow_add 2 700 10]; field_simp; norm_num
    have t4 : (0 : ℝ) ≤ 1 / 2 ^ 710 := by positivity
    linarith
  have ht : (0 : ℝ) ≤ 1 / 2 ^ 900 := by positivity
  generalize (1 / 2 ^ 900 : ℝ) = τ at *
  generalize (L : ℝ) * √L / 2 ^ 44 = E at *
  generalize so3CoeffSize L N reality flmn = S at *
  have hSE : 0 ≤ S * E := mul_nonneg hS0 s1
  have hSEE : S * E * E ≤ S * E * (1 / 32) := mul_le_mul_of_nonneg_left s2 hSE
  have h1 : (S + (8 * E * S + τ)) * (16 * E) + (8 * E * S + τ) ≤ S * (32 * E) + 2 * τ := by
    have ht2 : τ * (16 * E) ≤ τ * 1 := mul_le_mul_of_nonneg_left (by linarith) ht
    have e : (S + (8 * E * S + τ)) * (16 * E) + (8 * E * S + τ)
      = 24 * (S * E) + 128 * (S * E * E) + τ * (16 * E) + τ := by ring
    rw [e, show S * (32 * E) = 32 * (S * E) by ring]
    linarith
  have h2 := mul_le_mul_of_nonneg_left h1 (by positivity : 0 ≤ 8 * Real.pi ^ 2)
  have h3 := mul_le_mul_of_nonneg_right hp2 ht
  linarith

/-- The round trip on the grids of McEwen–Wiaux: each coefficient comes back up to `8π² L^(3/2) / 2³³`
times the size of the coefficients. -/
theorem C59_round_trip_mw (F : FftLib) (lg : ℤ → ℤ → ℝ) (logL : ℝ) (w : ℤ → ℝ) (σ : Scheme)
    (hσ : σ = .mw ∨ σ = .mwss) (L N : ℤ) (hL1 : L ≤ 2 ^ 26) (hN2 : 2 ≤ N) (hN : N ≤ L) (reality : Bool)
    (mode : PyStr) (hm : ModeOk σ L mode) (flmn : ℤ → ℤ → ℤ → ℂ) (hre : RealPlane flmn L N reality) :
    ∃ Ki Kf f out, wignerKernelF F lg logL w L N reality σ.name false mode = .ok Ki ∧
      wignerKernelF F lg logL (quadWeightsTransformF F L) L N reality σ.name true mode = .ok Kf ∧
      precomputeWignerInverseF F (.d3 (2 * N - 1) L (2 * L - 1) flmn) Ki L N σ.name reality = .ok f ∧
      precomputeWignerForwardF F f Kf L N σ.name reality = .ok (.d3 (2 * N - 1) L (2 * L - 1) out) ∧
      ∀ n el m, |n| < N → 0 ≤ el → el < L → |m| < L → ‖out (N - 1 + n) el (m + L - 1)
          - (if |n| ≤ el ∧ |m| ≤ el then wignerCoeffs flmn L N reality n el m else 0)‖
        ≤ 8 * Real.pi ^ 2 * (so3CoeffSize L N reality flmn * (L * √L / 2 ^ 33)) + 1 / 2 ^ 700 := by
  have h1 : 1 ≤ N := by omega
  obtain ⟨s1, s2, s3⟩ := sizeE (h1.trans hN) hL1
  obtain ⟨Ki, f, e1, e2, e3, -, hf⟩ := C59_inverse F lg (fun _ _ => 0) logL w σ (by tauto) L N hL1 h1 hN
    reality mode hm flmn hre
  have hM : ∀ g t p, 0 ≤ g → g < 2 * N - 1 → σ.Has L 0 t p → ‖f.get3 g t p‖
      ≤ so3CoeffSize L N reality flmn + (L * √L / 2 ^ 41 * so3CoeffSize L N reality flmn
        + 1 / 2 ^ 900) := fun g t p g0 g1 hp => by
    have h1 := hf g t p g0 g1 hp
    have h2 := norm_le_norm_add_norm_sub' (f.get3 g t p) (wignerSum 0 L N (wignerCoeffs flmn L N reality)
      (σ.phi L 0 t p) (σ.theta (fun _ _ => 0) L 0 t) (gammaAt N g))
    have h3 := wignerSum_le hre (σ.phi L 0 t p) (σ.theta (fun _ _ => 0) L 0 t) (gammaAt N g)
    linarith
  obtain ⟨Kf, out, e6, e7, ho⟩ := C59_forward_mw F lg (fun _ _ => 0) logL σ hσ L N hL1 hN2 hN reality mode hm
    (wignerCoeffs flmn L N reality) f _ _ e3 hM hf
    (fun h => by subst h; exact wignerCoeffs_real hre.origin)
  refine ⟨Ki, Kf, f, out, e1, e6, e2, e7, fun n el m hn e0 e1 hm =>
    le_trans (ho n el m hn e0 e1 hm) ?_⟩
  exact wignerRoundTrip_resampled (h1.trans hN) hL1 (so3CoeffSize_nonneg L N reality flmn)

/-- A signal on the rotation group with 64 degrees and three directions on each side. -/
example := C59_round_trip_mw exactFftLib (fun _ _ => 0) 4 (fun _ => 0) .mw (by simp) 64 4 (by norm_num)
  (by norm_num) (by norm_num) false mdAuto ⟨by simp, fun h => absurd h (by decide), fun _ h => by simp at h⟩
  (fun n l m => n + l + m * Complex.I) (by simp [RealPlane])

/-- A real signal, whose plane `n = 0` is that of a real signal on the sphere. -/
example := C59_round_trip_dh exactFftLib (fun _ _ => 0) 4 (fun _ => 0) 64 4 (by norm_num)
  (by norm_num) (by norm_num) true mdDirect ⟨by simp, fun h => absurd h (by decide), fun h => absurd h (by decide)⟩
  (fun n l m => if n = 3 then (if m = 63 then l else 0) else n + l + m * Complex.I)
  (fun _ el m h0 h1 hm => by
    have e : ∀ k : ℤ, k + 64 - 1 = 63 ↔ k = 0 := fun k => by omega
    by_cases hm0 : m = 0
    · subst hm0; simp
    · simp [e, hm0])

end S2fft
