import Verif.Props.C38

/-! # C21: the reality flag is only an optimisation, for the on-the-fly, precompute and Wigner
transforms -/

namespace S2fft
open Spec

theorem coeffs_realSymm {flm : ℤ → ℤ → ℂ} {L lo : ℤ} (hc : RealSymm flm L) (h0 : 0 ≤ lo) (θ φ : ℝ) :
    harmonicSum lo L 0 (coeffs flm L 0 true) θ φ = harmonicSum lo L 0 (coeffs flm L 0 false) θ φ := by
  unfold harmonicSum
  refine Finset.sum_congr rfl fun l hl => Finset.sum_congr rfl fun m hm => ?_
  rw [Finset.mem_Ico] at hl hm
  congr 1
  unfold coeffs
  simp only [and_true, if_true, Bool.false_eq_true, false_and, if_false]
  unfold realCoeffs
  split_ifs with hneg
  · have := hc l (-m) (by omega) hl.2 (by rw [abs_neg, abs_le]; omega)
    rw [neg_neg] at this
    rw [this, zpow_neg, ← inv_zpow, inv_neg, inv_one]
  · rfl

theorem realSymm_zero {flm : ℤ → ℤ → ℂ} {L lo : ℤ} (hc : RealSymm flm L) (h0 : 0 ≤ lo) (r : Bool) :
    RealOrderZero flm L 0 r lo := by
  intro _ _ el a b
  have := hc el 0 (by omega) b (by simp; omega)
  simp only [neg_zero, zero_add, zpow_zero, one_mul] at this
  exact Complex.conj_eq_iff_im.1 this.symm

section Otf
variable (B : Backends) (G : Machine) (σ : Scheme) (L lo : ℤ) (nside : Option ℤ)

/-- On-the-fly `inverse`: for the coefficients of a real signal the flag does not change the
result. -/
theorem C21_otf_inverse (hv : σ.Valid L (nside.getD 0))
    (hhp : σ = .healpix → 2 * nside.getD 0 ≤ L) (method : PyStr)
    (hmt : method ∈ [mNumpy, mJax, mTorch]) (hlo : LowerOk method L lo) (flm : ℤ → ℤ → ℂ)
    (hc : RealSymm flm L) (p q : Option PmPre) (hp : PrecompsArg G L 0 σ.name nside false p)
    (hq : PrecompsArg G L 0 σ.name nside false q)
    (hr : OtfRegular G σ L (nside.getD 0) 0 false) (k : ℤ) :
    ∃ a b, sphericalInverse B G (.d2 L (2 * L - 1) flm) L 0 nside σ.name method true p lo k = .ok a ∧
      sphericalInverse B G (.d2 L (2 * L - 1) flm) L 0 nside σ.name method false q lo k = .ok b ∧
      a.shape = σ.shape L (nside.getD 0) ∧ SameSignal σ L (nside.getD 0) a b := by
  have hf : ∀ el k, lo ≤ el → el < |(0 : ℤ)| → 0 ≤ k → k < 2 * L - 1 → flm el k = 0 := by
    intro el k a b
    have := hlo.1
    rw [abs_zero] at b
    omega
  have hL := hv.1
  obtain ⟨a, ea, sa, ha⟩ := C39_expansion_partial B G σ L 0 lo nside hv hhp method hmt
    (by rw [abs_zero]; omega) (by norm_num) hlo flm hf true (fun _ => rfl)
    (realSymm_zero hc hlo.1 true) p hp hr k
  obtain ⟨b, eb, sb, hb⟩ := C39_expansion_partial B G σ L 0 lo nside hv hhp method hmt
    (by rw [abs_zero]; omega) (by norm_num) hlo flm hf false (fun _ => rfl)
    (realSymm_zero hc hlo.1 false) q hq hr k
  refine ⟨a, b, ea, eb, sa, sa.trans sb.symm, fun t s h => ?_⟩
  rw [ha t s h, hb t s h, coeffs_realSymm hc hlo.1]

/-- On-the-fly `forward`: for a real signal the flag does not change the result. -/
theorem C21_otf_forward (hv : σ.Valid L (nside.getD 0)) (method : PyStr)
    (hmt : method ∈ [mNumpy, mJax, mTorch])
    (hhp : σ = .healpix → 2 * nside.getD 0 ≤ L ∧ (method ≠ mNumpy → 2 ≤ nside.getD 0))
    (hlo : LowerOk method L lo) (f : Nd ℂ) (hf : f.shape = σ.shape L (nside.getD 0))
    (hre : RealInput G.nodes σ L (nside.getD 0) f.get2)
    (p q : Option PmPre) (hp : PrecompsArg G L 0 σ.name nside true p)
    (hq : PrecompsArg G L 0 σ.name nside true q)
    (hr : OtfRegular G σ L (nside.getD 0) 0 true) (iter : Option ℤ)
    (hit : iter = none ∨ iter = some 0) (k : ℤ) :
    ∃ a b, sphericalForward B G f L 0 nside σ.name method true p lo iter k
        = .ok (.d2 L (2 * L - 1) a) ∧
      sphericalForward B G f L 0 nside σ.name method false q lo iter k
        = .ok (.d2 L (2 * L - 1) b) ∧
      ∀ el j, 0 ≤ el → el < L → 0 ≤ j → j < 2 * L - 1 → a el j = b el j := by
  have hre' := realInput_rings hv.1 hre
  have hL := hv.1
  obtain ⟨a, ea, ha⟩ := sphericalForward_values B G σ L 0 lo nside hv method hmt hhp
    (by rw [abs_zero]; omega) (by norm_num) hlo f hf true (fun _ => hre') p hp hr iter hit k
  obtain ⟨b, eb, hb⟩ := sphericalForward_values B G σ L 0 lo nside hv method hmt hhp
    (by rw [abs_zero]; omega) (by norm_num) hlo f hf false (fun h => nomatch h) q hq hr iter hit k
  refine ⟨a, b, ea, eb, fun el j c d e g => ?_⟩
  have h2 := ha el (j - L + 1) c d (by omega) (by omega)
  have h3 := hb el (j - L + 1) c d (by omega) (by omega)
  rw [show j - L + 1 + L - 1 = j by ring] at h2 h3
  rw [h2, h3, symm_realRings hre', symm_realRings hre']

end Otf

/-- The precompute transforms ignore the flag for a non-zero spin, on every input whatever. -/
theorem C21_precompute_spin (G : GlTables) (x : Nd ℂ) (L spin : ℤ) (kernel : Option (Nd ℂ))
    (s method : PyStr) (nside : Option ℤ) (iter : ℤ) (hs : spin ≠ 0) :
    precomputeInverseTop G x L spin kernel s true method nside
      = precomputeInverseTop G x L spin kernel s false method nside ∧
    precomputeForwardTop G x L spin kernel s true method nside iter
      = precomputeForwardTop G x L spin kernel s false method nside iter := by
  unfold precomputeInverseTop precomputeForwardTop
  simp [hs]

/-- Precompute `inverse`, with a kernel made for each value of the flag or with none. -/
theorem C21_precompute_inverse (G : GlTables) (σ : Scheme) (L : ℤ) (nside : Option ℤ)
    (hv : σ.Valid L (nside.getD 0)) (hhp : σ = .healpix → 2 * nside.getD 0 ≤ L)
    (κ recursion κ' recursion' : PyStr) (hrec : RecursionOk L 0 recursion)
    (hex : KernelExact G.nodes σ L (nside.getD 0) 0 false κ recursion)
    (hrec' : RecursionOk L 0 recursion')
    (hex' : KernelExact G.nodes σ L (nside.getD 0) 0 false κ' recursion')
    (method : PyStr) (hmt : method ∈ [mNumpy, mJax, mTorch]) (flm : ℤ → ℤ → ℂ) (hc : RealSymm flm L)
    (K K' : Option (Nd ℂ)) (hk : KernelArg G L 0 true σ.name nside false method κ recursion K)
    (hk' : KernelArg G L 0 false σ.name nside false method κ' recursion' K') :
    ∃ a b, precomputeInverseTop G (.d2 L (2 * L - 1) flm) L 0 K σ.name true method nside = .ok a ∧
      precomputeInverseTop G (.d2 L (2 * L - 1) flm) L 0 K' σ.name false method nside = .ok b ∧
      a.shape = σ.shape L (nside.getD 0) ∧ SameSignal σ L (nside.getD 0) a b := by
  obtain ⟨a, ea, sa, ha⟩ := C27_expansion G σ L 0 nside hv hhp κ recursion hrec hex method hmt flm true
    (realSymm_zero hc le_rfl true) K hk
  obtain ⟨b, eb, sb, hb⟩ := C27_expansion G σ L 0 nside hv hhp κ' recursion' hrec' hex' method hmt flm
    false (realSymm_zero hc le_rfl false) K' hk'
  refine ⟨a, b, ea, eb, sa, sa.trans sb.symm, fun t p h => ?_⟩
  rw [ha t p h, hb t p h, coeffs_realSymm hc le_rfl]

/-- Precompute `forward`, with a kernel made for each value of the flag or with none. -/
theorem C21_precompute_forward (G : GlTables) (σ : Scheme) (L : ℤ) (nside : Option ℤ)
    (hv : σ.Valid L (nside.getD 0)) (method : PyStr) (hmt : method ∈ [mNumpy, mJax, mTorch])
    (hhp : σ = .healpix → 2 * nside.getD 0 ≤ L ∧ (method ≠ mNumpy → 2 ≤ nside.getD 0))
    (κ recursion κ' recursion' : PyStr) (hrec : RecursionOk L 0 recursion)
    (hex : KernelExact G.nodes σ L (nside.getD 0) 0 true κ recursion)
    (hrec' : RecursionOk L 0 recursion')
    (hex' : KernelExact G.nodes σ L (nside.getD 0) 0 true κ' recursion')
    (f : Nd ℂ) (hf : f.shape = σ.shape L (nside.getD 0))
    (hre : RealInput G.nodes σ L (nside.getD 0) f.get2)
    (K K' : Option (Nd ℂ)) (hk : KernelArg G L 0 true σ.name nside true method κ recursion K)
    (hk' : KernelArg G L 0 false σ.name nside true method κ' recursion' K') :
    ∃ a b, precomputeForwardTop G f L 0 K σ.name true method nside 0 = .ok (.d2 L (2 * L - 1) a) ∧
      precomputeForwardTop G f L 0 K' σ.name false method nside 0 = .ok (.d2 L (2 * L - 1) b) ∧
      ∀ el j, 0 ≤ el → el < L → 0 ≤ j → j < 2 * L - 1 → a el j = b el j := by
  have hre' := realInput_rings hv.1 hre
  obtain ⟨Ka, e1, h1⟩ := getKernel_ok G hv true true hrec hex hk
  obtain ⟨Kb, e2, h2⟩ := getKernel_ok G hv false true hrec' hex' hk'
  obtain ⟨a, ea, ha⟩ := precomputeForwardTop_values hmt G hv hhp f hf true (fun _ _ => hre) h1 e1
  obtain ⟨b, eb, hb⟩ := precomputeForwardTop_values hmt G hv hhp f hf false (fun h => nomatch h) h2 e2
  refine ⟨a, b, ea, eb, fun el j c d e g => ?_⟩
  have h2 := ha el (j - L + 1) c d (by omega) (by omega)
  have h3 := hb el (j - L + 1) c d (by omega) (by omega)
  rw [show j - L + 1 + L - 1 = j by ring] at h2 h3
  rw [h2, h3, symm_realRings hre', symm_realRings hre']

/-! ## Wigner transforms -/

/-- The symmetry of the coefficients of a real signal on the rotation group. -/
def WigRealSymm (flmn : ℤ → ℤ → ℤ → ℂ) (L N lo : ℤ) : Prop :=
  ∀ n el m, |n| < N → lo ≤ el → el < L → |m| ≤ el →
    flmn (N - 1 - n) el (-m + L - 1)
      = (-1) ^ (m + n) * (starRingEnd ℂ) (flmn (N - 1 + n) el (m + L - 1))

theorem wigRealSymm_origin {flmn : ℤ → ℤ → ℤ → ℂ} {L N lo : ℤ} (hN : 1 ≤ N) (h0 : 0 ≤ lo)
    (h : WigRealSymm flmn L N lo) (r : Bool) : RealOrigin flmn L N r lo := by
  intro _ el a b
  have := h 0 el 0 (by rw [abs_zero]; omega) a b (by rw [abs_zero]; omega)
  simp only [neg_zero, zero_add, zpow_zero, one_mul, add_zero, sub_zero] at this
  exact Complex.conj_eq_iff_im.1 this.symm

theorem wignerSum_realSymm {flmn : ℤ → ℤ → ℤ → ℂ} {L N lo : ℤ} (h : WigRealSymm flmn L N lo)
    (α β γ : ℝ) :
    wignerSum lo L N (wignerCoeffs flmn L N true) α β γ
      = wignerSum lo L N (wignerCoeffs flmn L N false) α β γ := by
  unfold wignerSum
  refine Finset.sum_congr rfl fun n hn => Finset.sum_congr rfl fun l hl =>
    Finset.sum_congr rfl fun m hm => ?_
  rw [Finset.mem_Ico] at hl hm
  rw [Finset.mem_Ioo] at hn
  congr 2
  unfold wignerCoeffs
  rw [if_pos rfl, if_neg Bool.false_ne_true]
  unfold realWignerCoeffs
  split_ifs with hneg
  · have := h (-n) l (-m) (by rw [abs_neg, abs_lt]; omega) hl.1 hl.2
      (by rw [abs_neg, abs_le]; omega)
    rw [neg_neg, sub_neg_eq_add, show -m + -n = -(m + n) by ring, neg_one_zpow_neg] at this
    rw [this]
  · rfl

/-- Base `inverse`: for the coefficients of a real signal the flag does not change the result. -/
theorem C21_wigner_inverse (G : GlTables) (σ : Scheme) (L N lo : ℤ) (nside : Option ℤ)
    (hv : σ.Valid L (nside.getD 0)) (hN : 1 ≤ N) (hhp : σ = .healpix → 2 * nside.getD 0 ≤ L)
    (h0 : 0 ≤ lo) (h1 : lo < L) (flmn : ℤ → ℤ → ℤ → ℂ) (hc : WigRealSymm flmn L N lo)
    (hex : GridExact G.nodes σ L (nside.getD 0)) :
    ∃ a b, wignerBaseInverse G (.d3 (2 * N - 1) L (2 * L - 1) flmn) L N lo σ.name true nside = .ok a ∧
      wignerBaseInverse G (.d3 (2 * N - 1) L (2 * L - 1) flmn) L N lo σ.name false nside = .ok b ∧
      a.shape = b.shape ∧ ∀ g t p, 0 ≤ g → g < 2 * N - 1 → σ.Has L (nside.getD 0) t p →
        a.get3 g (σ.pos (nside.getD 0) t p).1 (σ.pos (nside.getD 0) t p).2
          = b.get3 g (σ.pos (nside.getD 0) t p).1 (σ.pos (nside.getD 0) t p).2 := by
  obtain ⟨a, ea, sa, ha⟩ := C26_inverse G σ L N lo nside hv hN hhp h0 h1 flmn true
    (wigRealSymm_origin hN h0 hc true) hex
  obtain ⟨b, eb, sb, hb⟩ := C26_inverse G σ L N lo nside hv hN hhp h0 h1 flmn false
    (wigRealSymm_origin hN h0 hc false) hex
  refine ⟨a, b, ea, eb, sa.trans sb.symm, fun g t p g0 g1 h => ?_⟩
  rw [ha g t p g0 g1 h, hb g t p g0 g1 h, wignerSum_realSymm hc]

/-- Base `forward`: for a real band-limited signal the flag does not change the result. -/
theorem C21_wigner_forward (G : GlTables) (σ : Scheme) (L N lo : ℤ) (nside : Option ℤ)
    (hv : σ.Valid L (nside.getD 0)) (hN : 1 ≤ N) (hσ : SamplingTheorem G σ L)
    (hex : InnerExact G.nodes σ L (nside.getD 0)) (h0 : 0 ≤ lo) (h1 : lo < L)
    (c : ℤ → ℤ → ℤ → ℂ) (hc : RealWigner c 0 L) (f : Nd ℂ)
    (hf : f.shape = (2 * N - 1) :: σ.shape L (nside.getD 0))
    (hs : So3SamplesOf G.nodes σ L N (nside.getD 0) f.get3 (wignerSum 0 L N c)) :
    ∃ a b, wignerBaseForward G f L N lo σ.name true nside = .ok (.d3 (2 * N - 1) L (2 * L - 1) a) ∧
      wignerBaseForward G f L N lo σ.name false nside = .ok (.d3 (2 * N - 1) L (2 * L - 1) b) ∧
      ∀ n el m, |n| < N → 0 ≤ el → el < L → -L < m → m < L →
        a (N - 1 + n) el (m + L - 1) = b (N - 1 + n) el (m + L - 1) := by
  obtain ⟨a, ea, ha⟩ := C26_forward G σ L N lo 0 nside hv hN hσ hex le_rfl h1 h0 c f hf hs true
    (fun _ => hc)
  obtain ⟨b, eb, hb⟩ := C26_forward G σ L N lo 0 nside hv hN hσ hex le_rfl h1 h0 c f hf hs false
    (fun _ => hc)
  exact ⟨a, b, ea, eb, fun n el m x y z u v => by rw [ha n el m x y z u v, hb n el m x y z u v]⟩

section OtfWig
variable (B : Backends) (G : Machine) (σ : Scheme) (L N lo : ℤ) (nside : Option ℤ)

/-- On-the-fly `inverse`, the same. -/
theorem C21_otf_wigner_inverse (hv : σ.Valid L (nside.getD 0))
    (hhp : σ = .healpix → 2 * nside.getD 0 ≤ L) (hN : 1 ≤ N) (hNL : N ≤ L) (hN8 : N < 8)
    (method : PyStr) (hmt : method ∈ [mNumpy, mJax, mTorch]) (hlo : LowerOk method L lo)
    (flmn : ℤ → ℤ → ℤ → ℂ)
    (hf : ∀ n el k, -N < n → n < N → lo ≤ el → el < |n| → 0 ≤ k →
      k < 2 * L - 1 → flmn (N - 1 + n) el k = 0)
    (hc : WigRealSymm flmn L N lo)
    (p q : WigPrecomps) (hp : WigPrecompsArg G L N σ.name nside false true method p)
    (hq : WigPrecompsArg G L N σ.name nside false false method q)
    (hr : ∀ n, |n| < N → OtfRegular G σ L (nside.getD 0) n false) (k : ℤ) :
    ∃ a b, wignerInverse B G (.d3 (2 * N - 1) L (2 * L - 1) flmn) L N nside σ.name method true p lo k
        = .ok a ∧
      wignerInverse B G (.d3 (2 * N - 1) L (2 * L - 1) flmn) L N nside σ.name method false q lo k
        = .ok b ∧
      a.shape = b.shape ∧ ∀ g t p, 0 ≤ g → g < 2 * N - 1 → σ.Has L (nside.getD 0) t p →
        a.get3 g (σ.pos (nside.getD 0) t p).1 (σ.pos (nside.getD 0) t p).2
          = b.get3 g (σ.pos (nside.getD 0) t p).1 (σ.pos (nside.getD 0) t p).2 := by
  obtain ⟨a, ea, sa, ha⟩ := C38_expansion_partial B G σ L N lo nside hv hhp hN hNL hN8 method hmt hlo
    flmn hf true (wigRealSymm_origin hN hlo.1 hc true) (by
      intro _ _ el m x y z
      have := hc 0 el m (by rw [abs_zero]; omega) x y z
      simpa using this) p hp hr k
  obtain ⟨b, eb, sb, hb⟩ := C38_expansion_partial B G σ L N lo nside hv hhp hN hNL hN8 method hmt hlo
    flmn hf false (wigRealSymm_origin hN hlo.1 hc false) (fun _ h => nomatch h) q hq hr k
  refine ⟨a, b, ea, eb, sa.trans sb.symm, fun g t p g0 g1 h => ?_⟩
  rw [ha g t p g0 g1 h, hb g t p g0 g1 h, wignerSum_realSymm hc]

/-- On-the-fly `forward`, the same. -/
theorem C21_otf_wigner_forward (hv : σ.Valid L (nside.getD 0)) (hσ : SamplingTheorem G.toGlTables σ L)
    (hN : 1 ≤ N) (hNL : N ≤ L) (hN8 : N < 8) (method : PyStr) (hmt : method ∈ [mNumpy, mJax, mTorch])
    (hlo : LowerOk method L lo) (c : ℤ → ℤ → ℤ → ℂ) (hc : RealWigner c 0 L) (f : Nd ℂ)
    (hf : f.shape = (2 * N - 1) :: σ.shape L (nside.getD 0))
    (hs : So3SamplesOf G.nodes σ L N (nside.getD 0) f.get3 (wignerSum 0 L N c))
    (p q : WigPrecomps) (hp : WigPrecompsArg G L N σ.name nside true true method p)
    (hq : WigPrecompsArg G L N σ.name nside true false method q)
    (hr : ∀ n, |n| < N → OtfRegular G σ L (nside.getD 0) n true)
    (hst : ExactStored G σ L nside true) (k : ℤ) :
    ∃ a b, wignerForward B G f L N nside σ.name method true p lo k
        = .ok (.d3 (2 * N - 1) L (2 * L - 1) a) ∧
      wignerForward B G f L N nside σ.name method false q lo k
        = .ok (.d3 (2 * N - 1) L (2 * L - 1) b) ∧
      ∀ n el m, |n| < N → 0 ≤ el → el < L → -L < m → m < L →
        a (N - 1 + n) el (m + L - 1) = b (N - 1 + n) el (m + L - 1) := by
  obtain ⟨a, ea, ha⟩ := C38_analysis_partial B G σ L N lo nside hv hσ hN hNL hN8 method hmt hlo c f hf
    hs true (fun _ => hc) p hp hr hst k
  obtain ⟨b, eb, hb⟩ := C38_analysis_partial B G σ L N lo nside hv hσ hN hNL hN8 method hmt hlo c f hf
    hs false (fun _ => hc) q hq hr hst k
  exact ⟨a, b, ea, eb, fun n el m x y z u v => by rw [ha n el m x y z u v, hb n el m x y z u v]⟩

end OtfWig

/-- Wigner coefficients of a real signal, not all zero. -/
example : WigRealSymm (fun n el j => if el = 1 ∧ n = 0 ∧ j = 1 then -Complex.I else
    if el = 1 ∧ n = 2 ∧ j = 1 then -Complex.I else 0) 2 2 0 := by
  intro n el m hn h0 h1 hm
  rw [abs_lt] at hn
  rw [abs_le] at hm
  have h2 : n = -1 ∨ n = 0 ∨ n = 1 := by omega
  have h3 : el = 0 ∨ el = 1 := by omega
  have h4 : m = -1 ∨ m = 0 ∨ m = 1 := by omega
  rcases h2 with rfl | rfl | rfl <;> rcases h3 with rfl | rfl <;> rcases h4 with rfl | rfl | rfl <;>
    norm_num

end S2fft
