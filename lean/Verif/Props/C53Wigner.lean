import Verif.Props.C53
import Verif.Props.C28
import Verif.Lemmas.AdjointWigner

/-!
# C53 on the rotation group

The same for the Wigner transforms, with the weights `quad_weights` in the polar angle and
`2π / (2N-1)` in the third angle, and coefficients counted with `(2l+1) / (8π²)`, the reciprocal square
norm of the functions `D`.
-/

namespace S2fft
open Spec

/-- The coefficients the forward transforms return, without the reality flag. -/
theorem wigFwdVal_plain (T : GlTables) {σ : Scheme} (hR : ¬ σ.Resampled) {L N lo : ℤ}
    {nside : Option ℤ} (hN : 1 ≤ N) {f : Nd ℂ}
    (hf : f.shape = (2 * N - 1) :: σ.shape L (nside.getD 0)) (θ : ℤ → ℝ) {n l : ℤ}
    (hl : max lo |n| ≤ l) (m : ℤ) :
    mirrored false (wigFwdVal σ L N lo nside T f false θ) n l m
      = (-1) ^ n * fAt (ringSum σ L (nside.getD 0) (gammaPlane f.get3 N n)) (-n)
          (σ.rings L (nside.getD 0)) θ (innerWeight T σ L (nside.getD 0)) l m := by
  unfold mirrored wigFwdVal wigRings
  rw [if_neg (by simp), if_neg (by omega), plain_inner hR, plain_signal hR, plain_rings hR,
    planeOf_get2 f hN hf]
  have : wignerBaseFban f.get3 N false (n - wigStart N false) = gammaPlane f.get3 N n := by
    funext i j
    exact wignerBaseFban_plane hN f.get3 n i j
  rw [this]

section
variable (B : Backends) (G : Machine) (T : GlTables) (σ : Scheme)
  (hσ : σ = .dh ∨ σ = .gl ∨ σ = .healpix) (L N lo : ℤ) (nside : Option ℤ)
include hσ

/-! ## The base transforms -/

theorem C53_wigner_base_adjoint (hv : σ.Valid L (nside.getD 0)) (hN : 1 ≤ N)
    (hhp : σ = .healpix → 2 * nside.getD 0 ≤ L) (h0 : 0 ≤ lo) (h1 : lo < L)
    (hex : GridExact T.nodes σ L (nside.getD 0)) (flmn : ℤ → ℤ → ℤ → ℂ) (reality : Bool)
    (hre : RealOrigin flmn L N reality lo)
    (f : Nd ℂ) (hf : f.shape = (2 * N - 1) :: σ.shape L (nside.getD 0)) :
    ∃ F g w, wignerBaseInverse T (.d3 (2 * N - 1) L (2 * L - 1) flmn) L N lo σ.name reality nside
        = .ok F ∧
      wignerBaseForward T f L N lo σ.name false nside = .ok (.d3 (2 * N - 1) L (2 * L - 1) g) ∧
      quad_weights T.weights (some L) σ.name 0 nside = .ok (σ.rings L (nside.getD 0), w) ∧
      wignerInner lo L N (fun n l m => g (N - 1 + n) l (m + L - 1)) (wignerCoeffs flmn L N reality)
        = so3Inner σ L N (nside.getD 0) w f.get3 F.get3 := by
  have hR := plain_scheme σ hσ
  obtain ⟨F, e, -, hF⟩ := C26_inverse T σ L N lo nside hv hN hhp h0 h1 flmn reality hre hex
  obtain ⟨g, e', hg⟩ := wignerBaseForward_values σ L N lo nside T hv hN hhp h0 h1 f hf false
    (by rintro ⟨⟩)
  refine ⟨F, g, _, e, e', quad_weights_plain T hR 0 hv, ?_⟩
  refine adjoint_wigner h0 (θ := fun t => σ.theta T.nodes L (nside.getD 0) t) hF
    fun n l m hn hl l1 hm => ?_
  obtain ⟨m0, m1⟩ := abs_le.1 hm
  have l0 : 0 ≤ l := by omega
  rw [hg n l m hn l0 l1 (by omega) (by omega), wigFwdVal_plain T hR hN hf _ hl]
  congr 2
  unfold fAt
  refine Finset.sum_congr rfl fun t ht => ?_
  rw [Finset.mem_Ico] at ht
  rw [plain_theta hR]
  beta_reduce
  rw [snapAngle_eq _ (hex t ht.1 ht.2)]

/-- Energy on the rotation group. -/
theorem C53_wigner_base_energy (hv : σ.Valid L (nside.getD 0)) (hS : SamplingTheorem T σ L)
    (hN : 1 ≤ N) (h0 : 0 ≤ lo) (h1 : lo < L)
    (hex : GridExact T.nodes σ L (nside.getD 0)) (flmn : ℤ → ℤ → ℤ → ℂ) (reality : Bool)
    (hre : RealOrigin flmn L N reality lo) :
    ∃ F w, wignerBaseInverse T (.d3 (2 * N - 1) L (2 * L - 1) flmn) L N lo σ.name reality nside
        = .ok F ∧
      quad_weights T.weights (some L) σ.name 0 nside = .ok (σ.rings L (nside.getD 0), w) ∧
      so3Energy σ L N (nside.getD 0) w F.get3
        = wignerEnergy lo L N (wignerCoeffs flmn L N reality) := by
  have hR := plain_scheme σ hσ
  obtain ⟨F, e, -, hF⟩ := C26_inverse T σ L N lo nside hv hN (fun h => absurd h hS.1) h0 h1 flmn
    reality hre hex
  refine ⟨F, _, e, quad_weights_plain T hR 0 hv, ?_⟩
  have := parseval_wigner T hR hv.1 hN h0 hS hF hF
  rw [so3Inner_self, wignerInner_self] at this
  exact_mod_cast this

/-! ## The on-the-fly transforms -/

theorem C53_wigner_otf_adjoint (hv : σ.Valid L (nside.getD 0)) (hN : 1 ≤ N) (hNL : N ≤ L)
    (hN8 : N < 8) (μ ν : PyStr) (hμ : μ ∈ [mNumpy, mJax, mTorch]) (hν : ν ∈ [mNumpy, mJax, mTorch])
    (hhp : σ = .healpix → 2 * nside.getD 0 ≤ L ∧ (ν ≠ mNumpy → 2 ≤ nside.getD 0))
    (hlo : LowerOk μ L lo) (hlo' : LowerOk ν L lo) (flmn : ℤ → ℤ → ℤ → ℂ)
    (hfl : ∀ n el k, -N < n → n < N → lo ≤ el → el < |n| → 0 ≤ k →
      k < 2 * L - 1 → flmn (N - 1 + n) el k = 0)
    (reality : Bool) (hre : RealOrigin flmn L N reality lo)
    (hpl : μ ≠ mNumpy → reality = true →
      RealHarmonics (fun el m => flmn (N - 1) el (m + L - 1)) lo L)
    (f : Nd ℂ) (hf : f.shape = (2 * N - 1) :: σ.shape L (nside.getD 0))
    (p p' : WigPrecomps) (hp : WigPrecompsArg G L N σ.name nside false reality μ p)
    (hp' : WigPrecompsArg G L N σ.name nside true false ν p')
    (hr : ∀ n, |n| < N → OtfRegular G σ L (nside.getD 0) n false)
    (hr' : ∀ n, |n| < N → OtfRegular G σ L (nside.getD 0) n true) (k : ℤ) :
    ∃ F g w, wignerInverse B G (.d3 (2 * N - 1) L (2 * L - 1) flmn) L N nside σ.name μ reality p lo k
        = .ok F ∧
      wignerForward B G f L N nside σ.name ν false p' lo k
        = .ok (.d3 (2 * N - 1) L (2 * L - 1) g) ∧
      quad_weights G.weights (some L) σ.name 0 nside = .ok (σ.rings L (nside.getD 0), w) ∧
      wignerInner lo L N (fun n l m => g (N - 1 + n) l (m + L - 1)) (wignerCoeffs flmn L N reality)
        = so3Inner σ L N (nside.getD 0) w f.get3 F.get3 := by
  have hR := plain_scheme σ hσ
  have h0 := hlo.1
  obtain ⟨F, e, -, hF⟩ := C38_expansion_partial B G σ L N lo nside hv (fun h => (hhp h).1) hN hNL hN8
    μ hμ hlo flmn hfl reality hre hpl p hp hr k
  obtain ⟨g, e', hg⟩ := wignerForward_values B G σ L N lo nside hv hN hNL hN8 ν hν hhp hlo' f hf false
    (by rintro ⟨⟩) p' hp' hr' k
  refine ⟨F, g, _, e, e', quad_weights_plain G.toGlTables hR 0 hv, ?_⟩
  refine adjoint_wigner h0 (θ := fun t => G.rnd (σ.theta G.nodes L (nside.getD 0) t)) hF
    fun n l m hn hl l1 hm => ?_
  obtain ⟨m0, m1⟩ := abs_le.1 hm
  have l0 : 0 ≤ l := by omega
  have hθ : G.inner σ L (nside.getD 0) = fun t => G.rnd (σ.theta G.nodes L (nside.getD 0) t) := by
    funext t
    unfold Machine.inner
    rw [plain_theta hR]
  rw [hg n l m hn l0 l1 (by omega) (by omega), wigFwdVal_plain G.toGlTables hR hN hf _ hl, hθ]

theorem C53_wigner_otf_energy (hv : σ.Valid L (nside.getD 0))
    (hS : SamplingTheorem G.toGlTables σ L) (hN : 1 ≤ N) (hNL : N ≤ L) (hN8 : N < 8)
    (method : PyStr) (hmt : method ∈ [mNumpy, mJax, mTorch]) (hlo : LowerOk method L lo)
    (flmn : ℤ → ℤ → ℤ → ℂ)
    (hf : ∀ n el k, -N < n → n < N → lo ≤ el → el < |n| → 0 ≤ k →
      k < 2 * L - 1 → flmn (N - 1 + n) el k = 0)
    (reality : Bool) (hre : RealOrigin flmn L N reality lo)
    (hpl : method ≠ mNumpy → reality = true →
      RealHarmonics (fun el m => flmn (N - 1) el (m + L - 1)) lo L)
    (p : WigPrecomps) (hp : WigPrecompsArg G L N σ.name nside false reality method p)
    (hr : ∀ n, |n| < N → OtfRegular G σ L (nside.getD 0) n false)
    (hst : ExactStored G σ L nside false) (k : ℤ) :
    ∃ F w, wignerInverse B G (.d3 (2 * N - 1) L (2 * L - 1) flmn) L N nside σ.name method reality p
        lo k = .ok F ∧
      quad_weights G.weights (some L) σ.name 0 nside = .ok (σ.rings L (nside.getD 0), w) ∧
      so3Energy σ L N (nside.getD 0) w F.get3
        = wignerEnergy lo L N (wignerCoeffs flmn L N reality) := by
  have hR := plain_scheme σ hσ
  obtain ⟨F, e, -, hF⟩ := C38_expansion_partial B G σ L N lo nside hv (fun h => absurd h hS.1) hN hNL
    hN8 method hmt hlo flmn hf reality hre hpl p hp hr k
  refine ⟨F, _, e, quad_weights_plain G.toGlTables hR 0 hv, ?_⟩
  have hF' : ∀ g t p, 0 ≤ g → g < 2 * N - 1 → σ.Has L (nside.getD 0) t p →
      F.get3 g (σ.pos (nside.getD 0) t p).1 (σ.pos (nside.getD 0) t p).2
        = wignerSum lo L N (wignerCoeffs flmn L N reality) (σ.phi L (nside.getD 0) t p)
            (σ.theta G.nodes L (nside.getD 0) t) (gammaAt N g) := by
    intro g t p g0 g1 h
    rw [hF g t p g0 g1 h, show G.rnd (σ.theta G.nodes L (nside.getD 0) t)
      = σ.theta G.nodes L (nside.getD 0) t from hst t h.1 h.2.1]
  have := parseval_wigner G.toGlTables hR hv.1 hN hlo.1 hS hF' hF'
  rw [so3Inner_self, wignerInner_self] at this
  exact_mod_cast this

/-! ## The transforms with precomputed kernels -/

theorem C53_precompute_wigner_adjoint (hv : σ.Valid L (nside.getD 0)) (h1 : 1 ≤ N) (hN : N ≤ L)
    (κ κ' mode mode' : PyStr) (hm : ModeOk σ L mode) (hm' : ModeOk σ L mode') (μ ν : PyStr)
    (hμ : μ ∈ [mNumpy, mJax, mTorch]) (hν : ν ∈ [mNumpy, mJax, mTorch])
    (hhp : σ = .healpix → 2 * nside.getD 0 ≤ L ∧ (ν ≠ mNumpy → 2 ≤ nside.getD 0))
    (flmn : ℤ → ℤ → ℤ → ℂ) (reality : Bool) (hre : RealPlane flmn L N reality)
    (f : Nd ℂ) (hf : f.shape = (2 * N - 1) :: σ.shape L (nside.getD 0)) (k k' : Option Nd4)
    (hk : WignerKernelArg T L N reality σ.name nside false μ κ mode k)
    (hk' : WignerKernelArg T L N false σ.name nside true ν κ' mode' k') :
    ∃ F g w, precomputeWignerInverseTop T (.d3 (2 * N - 1) L (2 * L - 1) flmn) L N k σ.name
        reality μ nside = .ok F ∧
      precomputeWignerForwardTop T f L N k' σ.name false ν nside
        = .ok (.d3 (2 * N - 1) L (2 * L - 1) g) ∧
      quad_weights T.weights (some L) σ.name 0 nside = .ok (σ.rings L (nside.getD 0), w) ∧
      wignerInner 0 L N (fun n l m => g (N - 1 + n) l (m + L - 1)) (wignerCoeffs flmn L N reality)
        = so3Inner σ L N (nside.getD 0) w f.get3 F.get3 := by
  have hR := plain_scheme σ hσ
  obtain ⟨F, e, -, hF⟩ := C28_expansion_partial T σ L N nside hv h1 hN (fun h => (hhp h).1) κ mode hm
    μ hμ flmn reality hre k hk
  obtain ⟨K, eK, hK⟩ := getWignerKernel_ok T hv h1 hN false true hm' hk'
  have top : precomputeWignerForwardTop T f L N k' σ.name false ν nside
      = precomputeWignerForward f ⟨nDim N false, innerRings σ L (nside.getD 0), L, 2 * L - 1, K⟩
        L N σ.name false nside ν := by
    unfold precomputeWignerForwardTop
    rw [if_neg (by rw [not_not]; exact hν), eK]
    rfl
  obtain ⟨g, e', hg⟩ := precomputeWignerForward_values hν hv h1 (fun h => absurd h hR) hhp f hf false hK
  refine ⟨F, g, _, e, top.trans e', quad_weights_plain T hR 0 hv, ?_⟩
  refine adjoint_wigner le_rfl (θ := fun t => σ.theta T.nodes L (nside.getD 0) t)
    (fun k t p _ _ h => hF k t p h) fun n l m hn hl l1 hm => ?_
  obtain ⟨m0, m1⟩ := abs_le.1 hm
  obtain ⟨n0, n1⟩ := abs_lt.1 hn
  have l0 : 0 ≤ l := by omega
  rw [hg n l m n0 n1 l0 l1 (by omega) (by omega)]
  unfold wigFull wigCoef fAt
  rw [if_neg (by simp), plain_inner hR, plain_signal hR, plain_rings hR, plain_theta hR,
    Finset.mul_sum, Finset.sum_mul]
  refine Finset.sum_congr rfl fun t _ => ?_
  have hE : ((elfactor l : ℝ) : ℂ) * (√(4 * Real.pi / (2 * (l : ℝ) + 1)) : ℝ) = 1 := by
    rw [← Complex.ofReal_mul, elfactor_mul l0, Complex.ofReal_one]
  have hsg : (-1 : ℂ) ^ n * (-1) ^ (-n) = 1 := by
    rw [← zpow_add₀ (by norm_num), add_neg_cancel, zpow_zero]
  have hpl : ringSum σ L (nside.getD 0) (gammaPlane f.get3 N n) t m
      = 2 * Real.pi / (2 * (N : ℂ) - 1) * ringSum σ L (nside.getD 0) (fbanAt f.get3 N false n) t m := by
    unfold ringSum
    rw [Finset.mul_sum]
    refine Finset.sum_congr rfl fun p _ => ?_
    rw [← wignerBaseFban_plane h1]
    unfold wignerBaseFban fbanAt wignerFban ngamma
    rw [show nFirst N false = wigStart N false by unfold nFirst nStart wigStart; simp; try ring]
    simp only [Bool.false_eq_true, if_false]
    ring
  rw [hpl, neg_neg]
  have hEs : ((elfactor l : ℝ) : ℂ) * (√(4 * Real.pi / (2 * (l : ℝ) + 1)) : ℝ)
      * ((-1 : ℂ) ^ n * (-1) ^ (-n)) = 1 := by rw [hE, hsg, one_mul]
  linear_combination (-(wignerd l m n (σ.theta T.nodes L (nside.getD 0) t) : ℂ)
    * (innerWeight T σ L (nside.getD 0) t * (2 * Real.pi / (2 * (N : ℂ) - 1)))
    * ringSum σ L (nside.getD 0) (fbanAt f.get3 N false n) t m)
    * hEs

theorem C53_precompute_wigner_energy (hv : σ.Valid L (nside.getD 0)) (hS : SamplingTheorem T σ L)
    (h1 : 1 ≤ N) (hN : N ≤ L) (κ mode : PyStr) (hm : ModeOk σ L mode)
    (method : PyStr) (hmt : method ∈ [mNumpy, mJax, mTorch]) (flmn : ℤ → ℤ → ℤ → ℂ)
    (reality : Bool) (hre : RealPlane flmn L N reality) (kernel : Option Nd4)
    (hk : WignerKernelArg T L N reality σ.name nside false method κ mode kernel) :
    ∃ F w, precomputeWignerInverseTop T (.d3 (2 * N - 1) L (2 * L - 1) flmn) L N kernel σ.name
        reality method nside = .ok F ∧
      quad_weights T.weights (some L) σ.name 0 nside = .ok (σ.rings L (nside.getD 0), w) ∧
      so3Energy σ L N (nside.getD 0) w F.get3
        = wignerEnergy 0 L N (wignerCoeffs flmn L N reality) := by
  have hR := plain_scheme σ hσ
  obtain ⟨F, e, -, hF⟩ := C28_expansion_partial T σ L N nside hv h1 hN (fun h => absurd h hS.1) κ mode
    hm method hmt flmn reality hre kernel hk
  refine ⟨F, _, e, quad_weights_plain T hR 0 hv, ?_⟩
  have := parseval_wigner T hR hv.1 h1 le_rfl hS (fun g t p _ _ h => hF g t p h)
    (fun g t p _ _ h => hF g t p h)
  rw [so3Inner_self, wignerInner_self] at this
  exact_mod_cast this

end

/-- The conditions are met: coefficients and samples on a DH grid with five directions. -/
example (T : GlTables) (flmn x : ℤ → ℤ → ℤ → ℂ) :
    ∃ F g w, wignerBaseInverse T (.d3 5 6 11 flmn) 6 3 1 sDH false none = .ok F ∧
      wignerBaseForward T (.d3 5 12 11 x) 6 3 1 sDH false none = .ok (.d3 5 6 11 g) ∧
      quad_weights T.weights (some 6) sDH 0 none = .ok (12, w) ∧
      wignerInner 1 6 3 (fun n l m => g (3 - 1 + n) l (m + 6 - 1)) (wignerCoeffs flmn 6 3 false)
        = so3Inner .dh 6 3 0 w x F.get3 :=
  C53_wigner_base_adjoint T .dh (Or.inl rfl) 6 3 1 none ⟨by norm_num, by rintro ⟨⟩⟩ (by norm_num)
    (by rintro ⟨⟩) (by norm_num) (by norm_num)
    (C24_grids T.nodes .dh 6 0 (Or.inr (Or.inr rfl)) (by norm_num) (by norm_num)).1 flmn false
    (by rintro ⟨⟩) (.d3 5 12 11 x) rfl

end S2fft
