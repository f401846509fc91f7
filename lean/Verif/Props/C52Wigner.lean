import Verif.Props.C52
import Verif.Lemmas.TurnWigner

/-!
# C52: the Wigner transforms commute with turns in the first and last angle

The forward transforms multiply the coefficients of order `m` and direction `n` of any samples by
`exp(-i (m α + n γ))` when the samples are turned by `α` in the first and by `γ` in the last angle.
-/

namespace S2fft
open Spec

/-- `np.roll(f, (j, k), axis=(0, 2))` is a turn by `k` samples in the first and by `j` samples in the
last angle. -/
theorem C52_roll_so3 (σ : Scheme) (hσ : σ ≠ .healpix) (L N : ℤ) (hL : 1 ≤ L) (hN : 1 ≤ N) (j k : ℤ)
    (f : ℤ → ℤ → ℤ → ℂ) :
    TurnedSo3 σ L N 0 (2 * Real.pi * k / σ.ringLen L 0 0) (2 * Real.pi * j / (2 * N - 1)) f
      (fun g t p => f ((g - j) % (2 * N - 1)) t ((p - k) % σ.ringLen L 0 0)) := by
  intro g t p g0 g1 ht
  have hp : ∀ t p, σ.pos 0 t p = (t, p) := by
    intro t p; cases σ <;> first | rfl | exact absurd rfl hσ
  have hn : (2 * (N : ℝ) - 1) ≠ 0 := by
    have : (1 : ℝ) ≤ N := by exact_mod_cast hN
    linarith
  have hg : ((g + j) % (2 * N - 1) - j) % (2 * N - 1) = g := by
    rw [Int.emod_sub_emod, add_sub_cancel_right, Int.emod_eq_of_lt g0 g1]
  obtain ⟨p', h1, h2, h3⟩ := C52_roll σ hσ L hL k (f g) t p ht
  refine ⟨(g + j) % (2 * N - 1), p', Int.emod_nonneg _ (by omega), Int.emod_lt_of_pos _ (by omega), h1,
    h2, ⟨-((g + j) / (2 * N - 1)), ?_⟩, ?_⟩
  · have := Int.emod_add_mul_ediv (g + j) (2 * N - 1)
    have : (((g + j) % (2 * N - 1) : ℤ) : ℝ)
        = g + j - (2 * N - 1) * (((g + j) / (2 * N - 1) : ℤ) : ℝ) := by
      have : (((g + j) % (2 * N - 1) + (2 * N - 1) * ((g + j) / (2 * N - 1)) : ℤ) : ℝ)
          = ((g + j : ℤ) : ℝ) := by rw [this]
      push_cast at this ⊢
      linarith
    unfold gammaAt
    rw [this]
    push_cast
    field_simp
    ring
  · beta_reduce
    rw [hg]
    exact h3

section
variable (B : Backends) (G : Machine) (T : GlTables) (σ : Scheme) (L N lo : ℤ) (nside : Option ℤ)
  (α γ : ℝ)

/-! ## The base transforms -/

theorem C52_wigner_base_forward (hv : σ.Valid L (nside.getD 0)) (hN : 1 ≤ N)
    (hhp : σ = .healpix → 2 * nside.getD 0 ≤ L) (h0 : 0 ≤ lo) (h1 : lo < L)
    (f f' : Nd ℂ) (hf : f.shape = (2 * N - 1) :: σ.shape L (nside.getD 0))
    (hf' : f'.shape = (2 * N - 1) :: σ.shape L (nside.getD 0))
    (ht : TurnedSo3 σ L N (nside.getD 0) α γ f.get3 f'.get3) (reality : Bool)
    (hre : reality = true → RealSo3Input T.nodes σ L N (nside.getD 0) f.get3) :
    ∃ g g', wignerBaseForward T f L N lo σ.name reality nside = .ok (.d3 (2 * N - 1) L (2 * L - 1) g) ∧
      wignerBaseForward T f' L N lo σ.name reality nside = .ok (.d3 (2 * N - 1) L (2 * L - 1) g') ∧
      ∀ n el m, |n| < N → 0 ≤ el → el < L → -L < m → m < L → g' (N - 1 + n) el (m + L - 1)
        = turnWigner L N α γ g (N - 1 + n) el (m + L - 1) := by
  obtain ⟨g, e, hg⟩ := wignerBaseForward_values σ L N lo nside T hv hN hhp h0 h1 f hf
    reality (by rintro rfl; exact realSo3_rings σ L N nside hv.1 hN (hre rfl))
  obtain ⟨g', e', hg'⟩ := wignerBaseForward_values σ L N lo nside T hv hN hhp h0 h1 f' hf' reality
    (by rintro rfl; exact realSo3_rings σ L N nside hv.1 hN (realSo3_turned hv hN ht (hre rfl)))
  refine ⟨g, g', e, e', fun n el m hn a0 b0 m0 m1 => ?_⟩
  rw [hg' n el m hn a0 b0 m0 m1, turnWigner_cis, hg n el m hn a0 b0 m0 m1,
    wigFwdVal_turned T hv hN ht reality _ n el m0 m1]
  ring

theorem C52_wigner_base_inverse (hv : σ.Valid L (nside.getD 0)) (hN : 1 ≤ N)
    (hhp : σ = .healpix → 2 * nside.getD 0 ≤ L) (h0 : 0 ≤ lo) (h1 : lo < L)
    (ht : TurnsGrid σ L (nside.getD 0) α) (htg : TurnsGamma N γ)
    (flmn : ℤ → ℤ → ℤ → ℂ) (reality : Bool)
    (hre : RealOrigin flmn L N reality lo) (hex : GridExact T.nodes σ L (nside.getD 0)) :
    ∃ f f', wignerBaseInverse T (.d3 (2 * N - 1) L (2 * L - 1) flmn) L N lo σ.name reality nside
        = .ok f ∧
      wignerBaseInverse T (.d3 (2 * N - 1) L (2 * L - 1) (turnWigner L N α γ flmn)) L N lo σ.name
        reality nside = .ok f' ∧ TurnedSo3 σ L N (nside.getD 0) α γ f.get3 f'.get3 := by
  obtain ⟨f, e, -, hf⟩ := C26_inverse T σ L N lo nside hv hN hhp h0 h1 flmn reality hre hex
  obtain ⟨f', e', -, hf'⟩ := C26_inverse T σ L N lo nside hv hN hhp h0 h1 (turnWigner L N α γ flmn)
    reality (realOrigin_turn α γ hre) hex
  refine ⟨f, f', e, e', fun g t p g0 g1 hp => ?_⟩
  obtain ⟨p', hp', ha⟩ := ht t p hp
  obtain ⟨g', g0', g1', hb⟩ := htg g g0 g1
  refine ⟨g', p', g0', g1', hp', ha, hb, ?_⟩
  rw [hf g t p g0 g1 hp, hf' g' t p' g0' g1' hp']
  exact wignerSum_turn lo L N α γ _ ha hb (wignerCoeffs_turn flmn L N reality α γ)

/-! ## The on-the-fly transforms -/

theorem C52_wigner_otf_forward (hv : σ.Valid L (nside.getD 0))
    (hN : 1 ≤ N) (hNL : N ≤ L) (hN8 : N < 8)
    (method : PyStr) (hmt : method ∈ [mNumpy, mJax, mTorch])
    (hhp : σ = .healpix → 2 * nside.getD 0 ≤ L ∧ (method ≠ mNumpy → 2 ≤ nside.getD 0))
    (hlo : LowerOk method L lo)
    (f f' : Nd ℂ) (hf : f.shape = (2 * N - 1) :: σ.shape L (nside.getD 0))
    (hf' : f'.shape = (2 * N - 1) :: σ.shape L (nside.getD 0))
    (ht : TurnedSo3 σ L N (nside.getD 0) α γ f.get3 f'.get3) (reality : Bool)
    (hre : reality = true → RealSo3Input G.nodes σ L N (nside.getD 0) f.get3)
    (p : WigPrecomps) (hp : WigPrecompsArg G L N σ.name nside true reality method p)
    (hr : ∀ n, |n| < N → OtfRegular G σ L (nside.getD 0) n true) (k : ℤ) :
    ∃ g g', wignerForward B G f L N nside σ.name method reality p lo k
        = .ok (.d3 (2 * N - 1) L (2 * L - 1) g) ∧
      wignerForward B G f' L N nside σ.name method reality p lo k
        = .ok (.d3 (2 * N - 1) L (2 * L - 1) g') ∧
      ∀ n el m, |n| < N → 0 ≤ el → el < L → -L < m → m < L → g' (N - 1 + n) el (m + L - 1)
        = turnWigner L N α γ g (N - 1 + n) el (m + L - 1) := by
  obtain ⟨g, e, hg⟩ := wignerForward_values B G σ L N lo nside hv hN hNL hN8 method hmt
    hhp hlo f hf reality (by rintro rfl; exact realSo3_rings σ L N nside hv.1 hN (hre rfl)) p hp hr k
  obtain ⟨g', e', hg'⟩ := wignerForward_values B G σ L N lo nside hv hN hNL hN8 method hmt
    hhp hlo f' hf' reality (by
      rintro rfl; exact realSo3_rings σ L N nside hv.1 hN (realSo3_turned hv hN ht (hre rfl))) p hp hr k
  refine ⟨g, g', e, e', fun n el m hn a0 b0 m0 m1 => ?_⟩
  rw [hg' n el m hn a0 b0 m0 m1, turnWigner_cis, hg n el m hn a0 b0 m0 m1,
    wigFwdVal_turned G.toGlTables hv hN ht reality _ n el m0 m1]
  ring

theorem C52_wigner_otf_inverse (hv : σ.Valid L (nside.getD 0))
    (hhp : σ = .healpix → 2 * nside.getD 0 ≤ L) (hN : 1 ≤ N) (hNL : N ≤ L) (hN8 : N < 8)
    (method : PyStr) (hmt : method ∈ [mNumpy, mJax, mTorch]) (hlo : LowerOk method L lo)
    (ht : TurnsGrid σ L (nside.getD 0) α) (htg : TurnsGamma N γ)
    (flmn : ℤ → ℤ → ℤ → ℂ)
    (hf : ∀ n el k, -N < n → n < N → lo ≤ el → el < |n| → 0 ≤ k →
      k < 2 * L - 1 → flmn (N - 1 + n) el k = 0)
    (reality : Bool) (hre : RealOrigin flmn L N reality lo)
    (hpl : method ≠ mNumpy → reality = true →
      RealHarmonics (fun el m => flmn (N - 1) el (m + L - 1)) lo L)
    (p : WigPrecomps) (hp : WigPrecompsArg G L N σ.name nside false reality method p)
    (hr : ∀ n, |n| < N → OtfRegular G σ L (nside.getD 0) n false) (k : ℤ) :
    ∃ f f', wignerInverse B G (.d3 (2 * N - 1) L (2 * L - 1) flmn) L N nside σ.name method reality p
        lo k = .ok f ∧
      wignerInverse B G (.d3 (2 * N - 1) L (2 * L - 1) (turnWigner L N α γ flmn)) L N nside σ.name
        method reality p lo k = .ok f' ∧
      TurnedSo3 σ L N (nside.getD 0) α γ f.get3 f'.get3 := by
  obtain ⟨f, e, -, hg⟩ := C38_expansion_partial B G σ L N lo nside hv hhp hN hNL hN8 method hmt hlo
    flmn hf reality hre hpl p hp hr k
  obtain ⟨f', e', -, hg'⟩ := C38_expansion_partial B G σ L N lo nside hv hhp hN hNL hN8 method hmt hlo
    (turnWigner L N α γ flmn) (fun n el k h1 h2 h3 h4 h5 h6 => by
      unfold turnWigner; rw [hf n el k h1 h2 h3 h4 h5 h6, mul_zero]) reality (realOrigin_turn α γ hre)
    (fun h1 h2 => realHarmonics_turn α γ (hpl h1 h2)) p hp hr k
  refine ⟨f, f', e, e', fun g t q g0 g1 hq => ?_⟩
  obtain ⟨q', hq', ha⟩ := ht t q hq
  obtain ⟨g', g0', g1', hb⟩ := htg g g0 g1
  refine ⟨g', q', g0', g1', hq', ha, hb, ?_⟩
  rw [hg g t q g0 g1 hq, hg' g' t q' g0' g1' hq']
  exact wignerSum_turn lo L N α γ _ ha hb (wignerCoeffs_turn flmn L N reality α γ)

/-! ## The transforms with precomputed kernels -/

theorem C52_precompute_wigner_forward (hv : σ.Valid L (nside.getD 0)) (h1 : 1 ≤ N) (hN : N ≤ L)
    (hσ : σ.Resampled → 2 ≤ N)
    (κ mode : PyStr) (hm : ModeOk σ L mode) (method : PyStr) (hmt : method ∈ [mNumpy, mJax, mTorch])
    (hhp : σ = .healpix → 2 * nside.getD 0 ≤ L ∧ (method ≠ mNumpy → 2 ≤ nside.getD 0))
    (f f' : Nd ℂ) (hf : f.shape = (2 * N - 1) :: σ.shape L (nside.getD 0))
    (hf' : f'.shape = (2 * N - 1) :: σ.shape L (nside.getD 0))
    (ht : TurnedSo3 σ L N (nside.getD 0) α γ f.get3 f'.get3)
    (reality : Bool) (kernel : Option Nd4)
    (hk : WignerKernelArg T L N reality σ.name nside true method κ mode kernel) :
    ∃ g g', precomputeWignerForwardTop T f L N kernel σ.name reality method nside
        = .ok (.d3 (2 * N - 1) L (2 * L - 1) g) ∧
      precomputeWignerForwardTop T f' L N kernel σ.name reality method nside
        = .ok (.d3 (2 * N - 1) L (2 * L - 1) g') ∧
      ∀ n el m, |n| < N → 0 ≤ el → el < L → -L < m → m < L → g' (N - 1 + n) el (m + L - 1)
        = turnWigner L N α γ g (N - 1 + n) el (m + L - 1) := by
  obtain ⟨K, eK, hK⟩ := getWignerKernel_ok T hv h1 hN reality true hm hk
  have top : ∀ f, precomputeWignerForwardTop T f L N kernel σ.name reality method nside
      = precomputeWignerForward f ⟨nDim N reality, innerRings σ L (nside.getD 0), L, 2 * L - 1, K⟩
        L N σ.name reality nside method := by
    intro f
    unfold precomputeWignerForwardTop
    rw [if_neg (by rw [not_not]; exact hmt), eK]
    rfl
  obtain ⟨g, e, hg⟩ := precomputeWignerForward_values hmt hv h1 hσ hhp f hf reality hK
  obtain ⟨g', e', hg'⟩ := precomputeWignerForward_values hmt hv h1 hσ hhp f' hf' reality hK
  refine ⟨g, g', (top f).trans e, (top f').trans e', fun n el m hn a0 b0 m0 m1 => ?_⟩
  obtain ⟨n0, n1⟩ := abs_lt.1 hn
  rw [hg' n el m n0 n1 a0 b0 m0 m1, turnWigner_cis, hg n el m n0 n1 a0 b0 m0 m1]
  exact wigCoef_turned T hv h1 ht reality n el m0 m1

theorem C52_precompute_wigner_inverse (hv : σ.Valid L (nside.getD 0)) (h1 : 1 ≤ N) (hN : N ≤ L)
    (hhp : σ = .healpix → 2 * nside.getD 0 ≤ L) (κ mode : PyStr) (hm : ModeOk σ L mode)
    (method : PyStr) (hmt : method ∈ [mNumpy, mJax, mTorch])
    (ht : TurnsGrid σ L (nside.getD 0) α) (htg : TurnsGamma N γ) (flmn : ℤ → ℤ → ℤ → ℂ)
    (reality : Bool) (hre : RealPlane flmn L N reality) (kernel : Option Nd4)
    (hk : WignerKernelArg T L N reality σ.name nside false method κ mode kernel) :
    ∃ f f', precomputeWignerInverseTop T (.d3 (2 * N - 1) L (2 * L - 1) flmn) L N kernel σ.name
        reality method nside = .ok f ∧
      precomputeWignerInverseTop T (.d3 (2 * N - 1) L (2 * L - 1) (turnWigner L N α γ flmn)) L N kernel
        σ.name reality method nside = .ok f' ∧ TurnedSo3 σ L N (nside.getD 0) α γ f.get3 f'.get3 := by
  obtain ⟨f, e, -, hf⟩ := C28_expansion_partial T σ L N nside hv h1 hN hhp κ mode hm method hmt flmn
    reality hre kernel hk
  obtain ⟨f', e', -, hf'⟩ := C28_expansion_partial T σ L N nside hv h1 hN hhp κ mode hm method hmt
    (turnWigner L N α γ flmn) reality (realPlane_turn α γ hre) kernel hk
  refine ⟨f, f', e, e', fun g t p g0 g1 hp => ?_⟩
  obtain ⟨p', hp', ha⟩ := ht t p hp
  obtain ⟨g', g0', g1', hb⟩ := htg g g0 g1
  refine ⟨g', p', g0', g1', hp', ha, hb, ?_⟩
  rw [hf g t p hp, hf' g' t p' hp']
  exact wignerSum_turn 0 L N α γ _ ha hb (wignerCoeffs_turn flmn L N reality α γ)

end

/-! ## The Fourier-Wigner transforms -/

section
variable (σ : Scheme) (hσ : σ = .mw ∨ σ = .mwss) (s : PyStr) (hs : lower s = σ.name) (L N : ℤ)
  (h1 : 1 ≤ N) (hN : N ≤ L) (method : PyStr) (α γ : ℝ) (reality : Bool)
  (precomps : Option FwTables) (hP : FwPrecomps L precomps)
include hσ hs h1 hN hP

theorem C52_fourier_wigner_forward (hL : σ = .mwss → 2 ≤ L) (f f' : Nd ℂ)
    (hf : f.shape = (2 * N - 1) :: σ.shape L 0) (hf' : f'.shape = (2 * N - 1) :: σ.shape L 0)
    (ht : TurnedSo3 σ L N 0 α γ f.get3 f'.get3) :
    ∃ g g', fourierWignerForward method f L N precomps reality s
        = .ok (.d3 (2 * N - 1) L (2 * L - 1) g) ∧
      fourierWignerForward method f' L N precomps reality s
        = .ok (.d3 (2 * N - 1) L (2 * L - 1) g') ∧
      ∀ n el m, |n| < N → 0 ≤ el → el < L → -L < m → m < L → g' (N - 1 + n) el (m + L - 1)
        = turnWigner L N α γ g (N - 1 + n) el (m + L - 1) := by
  have hv : σ.Valid L 0 := ⟨by omega, by rintro rfl; rcases hσ with h | h <;> cases h⟩
  obtain ⟨g, e, hg⟩ := fwForward_values σ hσ s hs h1 hN hL method f hf reality hP
  obtain ⟨g', e', hg'⟩ := fwForward_values σ hσ s hs h1 hN hL method f' hf' reality hP
  refine ⟨g, g', e, e', fun n el m hn a0 b0 m0 m1 => ?_⟩
  rw [hg' n el m hn a0 b0 m0 m1, turnWigner_cis, hg n el m hn a0 b0 m0 m1,
    fwCoeff_turned hσ hs hv h1 ht]
  ring

theorem C52_fourier_wigner_inverse (ht : TurnsGrid σ L 0 α) (htg : TurnsGamma N γ)
    (flmn : ℤ → ℤ → ℤ → ℂ) (hre : RealPlane flmn L N reality) :
    ∃ f f', fourierWignerInverse method (.d3 (2 * N - 1) L (2 * L - 1) flmn) L N precomps reality s
        = .ok f ∧
      fourierWignerInverse method (.d3 (2 * N - 1) L (2 * L - 1) (turnWigner L N α γ flmn)) L N precomps
        reality s = .ok f' ∧ TurnedSo3 σ L N 0 α γ f.get3 f'.get3 := by
  have hh : σ ≠ .healpix := by rcases hσ with rfl | rfl <;> decide
  obtain ⟨f, e, -, hf⟩ := C29_expansion_partial (fun _ _ => 0) σ hσ s hs L N h1 hN method flmn reality
    hre precomps hP
  obtain ⟨f', e', -, hf'⟩ := C29_expansion_partial (fun _ _ => 0) σ hσ s hs L N h1 hN method
    (turnWigner L N α γ flmn) reality (realPlane_turn α γ hre) precomps hP
  refine ⟨f, f', e, e', fun g t p g0 g1 hp => ?_⟩
  obtain ⟨p', hp', ha⟩ := ht t p hp
  obtain ⟨g', g0', g1', hb⟩ := htg g g0 g1
  refine ⟨g', p', g0', g1', hp', ha, hb, ?_⟩
  rw [equi_pos hh, equi_pos hh, hf g t p, hf' g' t p']
  exact wignerSum_turn 0 L N α γ _ ha hb (wignerCoeffs_turn flmn L N reality α γ)

end

/-! ## Rotation -/

/-- `rotate_flms` by `(α, 0, 0)` returns the coefficients of the turned signal, so that synthesis on a
grid which `α` takes to itself returns the turned samples. -/
theorem C52_rotate (flm : ℤ → ℤ → ℂ) (L : ℤ) (α : ℝ) (l m : ℤ) (h0 : 0 ≤ l) (h1 : l < L)
    (hm : |m| ≤ l) :
    rotateFlms flm L (α, 0, 0) none l (m + L - 1) = turnCoeffs L α flm l (m + L - 1) := by
  rw [rotateFlms_none _ _ _ _ _ _ _ h0 h1, turnCoeffs_cis]
  unfold rotCoef
  have hm' := abs_le.1 hm
  rw [Finset.sum_eq_single m]
  · rw [wignerd_at_zero, if_pos ⟨hm, rfl⟩]
    simp
  · intro n _ hn
    rw [wignerd_at_zero, if_neg (fun h => hn h.2.symm)]
    simp
  · intro h
    exact absurd (Finset.mem_Ico.2 ⟨by omega, by omega⟩) h

/-- The conditions are met: random samples on an MWSS grid, turned by three columns and two planes. -/
example (x : ℤ → ℤ → ℤ → ℂ) :
    ∃ g g', fourierWignerForward mNumpy (.d3 5 7 12 x) 6 3 none false sMWSS = .ok (.d3 5 6 11 g) ∧
      fourierWignerForward mNumpy (.d3 5 7 12 fun g t p => x ((g - 2) % 5) t ((p - 3) % 12)) 6 3 none
        false sMWSS = .ok (.d3 5 6 11 g') ∧
      ∀ n el m, |n| < 3 → 0 ≤ el → el < 6 → -6 < m → m < 6 → g' (3 - 1 + n) el (m + 6 - 1)
        = turnWigner 6 3 (2 * Real.pi * 3 / 12) (2 * Real.pi * 2 / 5) g (3 - 1 + n) el (m + 6 - 1) := by
  have := C52_fourier_wigner_forward .mwss (Or.inr rfl) sMWSS (lower_name .mwss) 6 3 (by norm_num)
    (by norm_num) mNumpy (2 * Real.pi * 3 / 12) (2 * Real.pi * 2 / 5) false none (Or.inl rfl)
    (fun _ => by norm_num) (.d3 5 7 12 x)
    (.d3 5 7 12 fun g t p => x ((g - 2) % 5) t ((p - 3) % 12)) rfl rfl ?_
  · exact this
  · have := C52_roll_so3 .mwss (by decide) 6 3 (by norm_num) (by norm_num) 2 3 x
    norm_num [Scheme.ringLen] at this ⊢
    exact this

end S2fft
