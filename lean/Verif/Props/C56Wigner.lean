import Verif.Props.C56
import Verif.Props.C53Wigner
import Verif.Props.C55Wigner

/-!
# C56 on the rotation group

The same for the Wigner transforms: with the weights `quad_weights` in the polar angle and
`2π / (2N-1)` in the third angle, the coefficients of the forward transform give the closest signal of
band-limits `L` and `N`, and inverse after forward is a projection.
-/

namespace S2fft
open Spec

theorem wignerCoeffs_false (flmn : ℤ → ℤ → ℤ → ℂ) (L N : ℤ) :
    wignerCoeffs flmn L N false = fun n l m => flmn (N - 1 + n) l (m + L - 1) := by
  unfold wignerCoeffs; rw [if_neg (by simp)]

theorem ok_d3_inj {r c d : ℤ} {a b : ℤ → ℤ → ℤ → ℂ} {x : Except PyErr (Nd ℂ)}
    (h : x = .ok (.d3 r c d a)) (h' : x = .ok (.d3 r c d b)) : a = b := by
  rw [h] at h'
  injection h' with h'
  injection h'

theorem ok_weights_inj {n : ℤ} {a b : ℤ → ℝ} {x : Except PyErr (ℤ × (ℤ → ℝ))}
    (h : x = .ok (n, a)) (h' : x = .ok (n, b)) : a = b := by
  rw [h] at h'
  injection h' with h'
  injection h'

/-! ## The base transforms -/

section
variable (T : GlTables) (σ : Scheme) (hσ : σ = .dh ∨ σ = .gl) (L N lo : ℤ) (nside : Option ℤ)

include hσ in
theorem C56_wigner_base_best_fit (hv : σ.Valid L (nside.getD 0)) (hS : SamplingTheorem T σ L)
    (hN : 1 ≤ N) (h0 : 0 ≤ lo) (h1 : lo < L) (hex : GridExact T.nodes σ L (nside.getD 0))
    (f : Nd ℂ) (hf : f.shape = (2 * N - 1) :: σ.shape L (nside.getD 0)) :
    ∃ g F w, wignerBaseForward T f L N lo σ.name false nside = .ok (.d3 (2 * N - 1) L (2 * L - 1) g) ∧
      wignerBaseInverse T (.d3 (2 * N - 1) L (2 * L - 1) g) L N lo σ.name false nside = .ok F ∧
      quad_weights T.weights (some L) σ.name 0 nside = .ok (σ.rings L (nside.getD 0), w) ∧
      CapturesSo3 σ L N (nside.getD 0) w lo f.get3 F.get3 (fun n l m => g (N - 1 + n) l (m + L - 1)) ∧
      ∀ (flmn : ℤ → ℤ → ℤ → ℂ) (reality : Bool), RealOrigin flmn L N reality lo →
        ∃ H, wignerBaseInverse T (.d3 (2 * N - 1) L (2 * L - 1) flmn) L N lo σ.name reality nside
            = .ok H ∧
          CloserSo3 σ L N (nside.getD 0) w lo f.get3 F.get3 H.get3
            (fun n l m => g (N - 1 + n) l (m + L - 1)) (wignerCoeffs flmn L N reality) := by
  have hσ' : σ = .dh ∨ σ = .gl ∨ σ = .healpix := by tauto
  have hhp : σ = .healpix → 2 * nside.getD 0 ≤ L := fun h => absurd h hS.1
  have hq := quad_weights_plain T (plain_scheme σ hσ') 0 hv
  obtain ⟨g, eg, -⟩ := plainFwd_base T σ L N lo nside hσ' hv hN hhp h0 h1 f hf
  have key : ∀ (flmn : ℤ → ℤ → ℤ → ℂ) (reality : Bool), RealOrigin flmn L N reality lo →
      ∃ H, wignerBaseInverse T (.d3 (2 * N - 1) L (2 * L - 1) flmn) L N lo σ.name reality nside
          = .ok H ∧
        wignerInner lo L N (fun n l m => g (N - 1 + n) l (m + L - 1)) (wignerCoeffs flmn L N reality)
          = so3Inner σ L N (nside.getD 0) (innerWeight T σ L (nside.getD 0)) f.get3 H.get3 ∧
        so3Energy σ L N (nside.getD 0) (innerWeight T σ L (nside.getD 0)) H.get3
          = wignerEnergy lo L N (wignerCoeffs flmn L N reality) := by
    intro flmn reality hre
    obtain ⟨H, g', w, e, e', hw, hA⟩ := C53_wigner_base_adjoint T σ hσ' L N lo nside hv hN hhp h0 h1 hex
      flmn reality hre f hf
    obtain ⟨H', w', e2, hw', hE⟩ := C53_wigner_base_energy T σ hσ' L N lo nside hv hS hN h0 h1 hex flmn
      reality hre
    obtain rfl := ok_d3_inj eg e'
    obtain rfl : H = H' := by have := e.symm.trans e2; injection this
    obtain rfl := ok_weights_inj hq hw
    obtain rfl := ok_weights_inj hq hw'
    exact ⟨H, e, hA, hE⟩
  obtain ⟨F, eF, hA, hE⟩ := key g false (by rintro ⟨⟩)
  rw [wignerCoeffs_false] at hA hE
  refine ⟨g, F, _, eg, eF, hq, captures_wigner hN (innerWeight_pos T hσ hv.1 hS) hA hE,
    fun flmn reality hre => ?_⟩
  obtain ⟨H, eH, hA', hE'⟩ := key flmn reality hre
  exact ⟨H, eH, closer_wigner h0 hA' hA hE' hE⟩

end

/-- Coefficients as the forward transforms return them: zero where no function `D` exists. -/
theorem wigFwdVal_outside (T : GlTables) (σ : Scheme) (L N lo : ℤ) (nside : Option ℤ) (f : Nd ℂ)
    (θ : ℤ → ℝ) {n l m : ℤ} (h : ¬ (max |n| lo ≤ l ∧ |m| ≤ l)) :
    mirrored false (wigFwdVal σ L N lo nside T f false θ) n l m = 0 := by
  by_cases hl : l < max |n| lo
  · exact mirrored_low σ L N lo nside hl
  · unfold mirrored wigFwdVal
    rw [if_neg (by simp), if_neg hl,
      fAt_outside (Or.inl (not_le.1 fun h' => h ⟨not_lt.1 hl, h'⟩)), mul_zero]

theorem C56_wigner_base_projection (T : GlTables) (σ : Scheme) (L N lo : ℤ) (nside : Option ℤ)
    (hv : σ.Valid L (nside.getD 0)) (hN : 1 ≤ N) (hS : SamplingTheorem T σ L)
    (hex : GridExact T.nodes σ L (nside.getD 0)) (hex' : InnerExact T.nodes σ L (nside.getD 0))
    (h0 : 0 ≤ lo) (h1 : lo < L) (f : Nd ℂ) (hf : f.shape = (2 * N - 1) :: σ.shape L (nside.getD 0)) :
    ∃ g F g', wignerBaseForward T f L N lo σ.name false nside
        = .ok (.d3 (2 * N - 1) L (2 * L - 1) g) ∧
      wignerBaseInverse T (.d3 (2 * N - 1) L (2 * L - 1) g) L N lo σ.name false nside = .ok F ∧
      wignerBaseForward T F L N lo σ.name false nside = .ok (.d3 (2 * N - 1) L (2 * L - 1) g') ∧
      ∀ n el m, |n| < N → 0 ≤ el → el < L → -L < m → m < L →
        g' (N - 1 + n) el (m + L - 1) = g (N - 1 + n) el (m + L - 1) := by
  obtain ⟨g, e, hg⟩ := wignerBaseForward_values σ L N lo nside T hv hN (fun h => absurd h hS.1) h0 h1 f
    hf false (by rintro ⟨⟩)
  obtain ⟨F, g', e1, e2, h⟩ := C26_round_trip T σ L N lo nside hv hN hS hex hex' h0 h1 g false
    (by rintro ⟨⟩)
  refine ⟨g, F, g', e, e1, e2, fun n el m hn l0 l1 m0 m1 => ?_⟩
  rw [h n el m hn l0 l1 m0 m1, wignerCoeffs_false]
  split_ifs with hc
  · rfl
  · rw [hg n el m hn l0 l1 m0 m1, wigFwdVal_outside _ _ _ _ _ _ _ _ hc, zero_mul]

/-! ## The on-the-fly transforms -/

section
variable (B : Backends) (G : Machine) (σ : Scheme) (hσ : σ = .dh ∨ σ = .gl) (L N lo : ℤ)
  (nside : Option ℤ)

include hσ in
theorem C56_wigner_otf_best_fit (hv : σ.Valid L (nside.getD 0))
    (hS : SamplingTheorem G.toGlTables σ L) (hN : 1 ≤ N) (hNL : N ≤ L) (hN8 : N < 8) (μ ν : PyStr)
    (hμ : μ ∈ [mNumpy, mJax, mTorch]) (hν : ν ∈ [mNumpy, mJax, mTorch])
    (hlo : LowerOk μ L lo) (hlo' : LowerOk ν L lo)
    (f : Nd ℂ) (hf : f.shape = (2 * N - 1) :: σ.shape L (nside.getD 0))
    (p p' : WigPrecomps) (hp : WigPrecompsArg G L N σ.name nside false false μ p)
    (hp' : WigPrecompsArg G L N σ.name nside true false ν p')
    (hr : ∀ n, |n| < N → OtfRegular G σ L (nside.getD 0) n false)
    (hr' : ∀ n, |n| < N → OtfRegular G σ L (nside.getD 0) n true)
    (hst : ExactStored G σ L nside false) (k : ℤ) :
    ∃ g F w, wignerForward B G f L N nside σ.name ν false p' lo k
        = .ok (.d3 (2 * N - 1) L (2 * L - 1) g) ∧
      wignerInverse B G (.d3 (2 * N - 1) L (2 * L - 1) g) L N nside σ.name μ false p lo k = .ok F ∧
      quad_weights G.weights (some L) σ.name 0 nside = .ok (σ.rings L (nside.getD 0), w) ∧
      CapturesSo3 σ L N (nside.getD 0) w lo f.get3 F.get3 (fun n l m => g (N - 1 + n) l (m + L - 1)) ∧
      ∀ (flmn : ℤ → ℤ → ℤ → ℂ) (reality : Bool) (ξ : PyStr) (p'' : WigPrecomps),
        (∀ n el k, -N < n → n < N → lo ≤ el → el < |n| → 0 ≤ k →
          k < 2 * L - 1 → flmn (N - 1 + n) el k = 0) →
        RealOrigin flmn L N reality lo → (ξ ≠ mNumpy → reality = true →
          RealHarmonics (fun el m => flmn (N - 1) el (m + L - 1)) lo L) →
        ξ ∈ [mNumpy, mJax, mTorch] → LowerOk ξ L lo →
        WigPrecompsArg G L N σ.name nside false reality ξ p'' →
        ∃ H, wignerInverse B G (.d3 (2 * N - 1) L (2 * L - 1) flmn) L N nside σ.name ξ reality p'' lo k
            = .ok H ∧
          CloserSo3 σ L N (nside.getD 0) w lo f.get3 F.get3 H.get3
            (fun n l m => g (N - 1 + n) l (m + L - 1)) (wignerCoeffs flmn L N reality) := by
  have hσ' : σ = .dh ∨ σ = .gl ∨ σ = .healpix := by tauto
  have hhp : σ = .healpix → 2 * nside.getD 0 ≤ L ∧ (ν ≠ mNumpy → 2 ≤ nside.getD 0) :=
    fun h => absurd h hS.1
  have h0 : 0 ≤ lo := hlo'.1
  have hq := quad_weights_plain G.toGlTables (plain_scheme σ hσ') 0 hv
  obtain ⟨g, eg, hg⟩ := plainFwd_otf B G σ L N lo nside hσ' hv hN hNL hN8 ν hν hhp hlo' f hf p' hp' hr' k
  have key : ∀ (flmn : ℤ → ℤ → ℤ → ℂ) (reality : Bool) (ξ : PyStr) (p'' : WigPrecomps),
      (∀ n el k, -N < n → n < N → lo ≤ el → el < |n| → 0 ≤ k →
        k < 2 * L - 1 → flmn (N - 1 + n) el k = 0) →
      RealOrigin flmn L N reality lo → (ξ ≠ mNumpy → reality = true →
        RealHarmonics (fun el m => flmn (N - 1) el (m + L - 1)) lo L) →
      ξ ∈ [mNumpy, mJax, mTorch] → LowerOk ξ L lo →
      WigPrecompsArg G L N σ.name nside false reality ξ p'' →
      ∃ H, wignerInverse B G (.d3 (2 * N - 1) L (2 * L - 1) flmn) L N nside σ.name ξ reality p'' lo k
          = .ok H ∧
        wignerInner lo L N (fun n l m => g (N - 1 + n) l (m + L - 1)) (wignerCoeffs flmn L N reality)
          = so3Inner σ L N (nside.getD 0) (innerWeight G.toGlTables σ L (nside.getD 0)) f.get3 H.get3 ∧
        so3Energy σ L N (nside.getD 0) (innerWeight G.toGlTables σ L (nside.getD 0)) H.get3
          = wignerEnergy lo L N (wignerCoeffs flmn L N reality) := by
    intro flmn reality ξ p'' hfl hre hpl hξ hlo'' hp''
    obtain ⟨H, g', w, e, e', hw, hA⟩ := C53_wigner_otf_adjoint B G σ hσ' L N lo nside hv hN hNL hN8 ξ ν
      hξ hν hhp hlo'' hlo' flmn hfl reality hre hpl f hf p'' p' hp'' hp' hr hr' k
    obtain ⟨H', w', e2, hw', hE⟩ := C53_wigner_otf_energy B G σ hσ' L N lo nside hv hS hN hNL hN8 ξ hξ
      hlo'' flmn hfl reality hre hpl p'' hp'' hr hst k
    obtain rfl := ok_d3_inj eg e'
    obtain rfl : H = H' := by have := e.symm.trans e2; injection this
    obtain rfl := ok_weights_inj hq hw
    obtain rfl := ok_weights_inj hq hw'
    exact ⟨H, e, hA, hE⟩
  obtain ⟨F, eF, hA, hE⟩ := key g false μ p (fun n l j n0 n1 l0 h j0 j1 => by
      have := hg n l (j - L + 1) (abs_lt.2 ⟨n0, n1⟩) (by omega) (by
        have := abs_lt.2 ⟨n0, n1⟩; omega) (by omega) (by omega)
      rw [if_pos (lt_max_of_lt_left h), show j - L + 1 + L - 1 = j by ring] at this
      exact this) (by rintro ⟨⟩) (by rintro _ ⟨⟩) hμ hlo hp
  rw [wignerCoeffs_false] at hA hE
  refine ⟨g, F, _, eg, eF, hq, captures_wigner hN (innerWeight_pos G.toGlTables hσ hv.1 hS) hA hE,
    fun flmn reality ξ p'' hfl hre hpl hξ hlo'' hp'' => ?_⟩
  obtain ⟨H, eH, hA', hE'⟩ := key flmn reality ξ p'' hfl hre hpl hξ hlo'' hp''
  exact ⟨H, eH, closer_wigner h0 hA' hA hE' hE⟩

end

theorem C56_wigner_otf_projection (B : Backends) (G : Machine) (σ : Scheme) (L N : ℤ)
    (nside : Option ℤ) (hv : σ.Valid L (nside.getD 0)) (hS : SamplingTheorem G.toGlTables σ L)
    (hN : 1 ≤ N) (hNL : N ≤ L) (hN8 : N < 8) (μ ν : PyStr)
    (hμ : μ ∈ [mNumpy, mJax, mTorch]) (hν : ν ∈ [mNumpy, mJax, mTorch])
    (hlo : LowerOk μ L 0) (hlo' : LowerOk ν L 0)
    (f : Nd ℂ) (hf : f.shape = (2 * N - 1) :: σ.shape L (nside.getD 0))
    (p p' : WigPrecomps) (hp : WigPrecompsArg G L N σ.name nside false false μ p)
    (hp' : WigPrecompsArg G L N σ.name nside true false ν p')
    (hr : ∀ n, |n| < N → OtfRegular G σ L (nside.getD 0) n false)
    (hr' : ∀ n, |n| < N → OtfRegular G σ L (nside.getD 0) n true)
    (hst : ExactStored G σ L nside false) (hst' : ExactStored G σ L nside true) (k : ℤ) :
    ∃ g F g', wignerForward B G f L N nside σ.name ν false p' 0 k
        = .ok (.d3 (2 * N - 1) L (2 * L - 1) g) ∧
      wignerInverse B G (.d3 (2 * N - 1) L (2 * L - 1) g) L N nside σ.name μ false p 0 k = .ok F ∧
      wignerForward B G F L N nside σ.name ν false p' 0 k = .ok (.d3 (2 * N - 1) L (2 * L - 1) g') ∧
      ∀ n el m, |n| < N → 0 ≤ el → el < L → -L < m → m < L →
        g' (N - 1 + n) el (m + L - 1) = g (N - 1 + n) el (m + L - 1) := by
  obtain ⟨g, e, hg⟩ := wignerForward_values B G σ L N 0 nside hv hN hNL hN8 ν hν (fun h => absurd h hS.1)
    hlo' f hf false (by rintro ⟨⟩) p' hp' hr' k
  obtain ⟨F, g', e1, e2, h⟩ := C38_round_trip_partial B G σ L N 0 nside hv hS hN hNL hN8 μ ν hμ hν hlo
    hlo' g (fun n l j n0 n1 l0 h j0 j1 => by
      have hn := abs_lt.2 ⟨n0, n1⟩
      have := hg n l (j - L + 1) hn (by omega) (by omega) (by omega) (by omega)
      rw [wigFwdVal_outside _ _ _ _ _ _ _ _ (fun h' => by omega), zero_mul,
        show j - L + 1 + L - 1 = j by ring] at this
      exact this) false (by rintro ⟨⟩) (by rintro _ ⟨⟩) p p' hp hp' hr hr' hst hst' k
  refine ⟨g, F, g', e, e1, e2, fun n el m hn l0 l1 m0 m1 => ?_⟩
  rw [h n el m hn l0 l1 m0 m1, wignerCoeffs_false]
  split_ifs with hc
  · rfl
  · rw [hg n el m hn l0 l1 m0 m1, wigFwdVal_outside _ _ _ _ _ _ _ _ hc, zero_mul]

/-! ## The transforms with precomputed kernels -/

section
variable (T : GlTables) (σ : Scheme) (hσ : σ = .dh ∨ σ = .gl) (L N : ℤ) (nside : Option ℤ)

include hσ in
theorem C56_precompute_wigner_best_fit (hv : σ.Valid L (nside.getD 0)) (hS : SamplingTheorem T σ L)
    (h1 : 1 ≤ N) (hN : N ≤ L) (κ κ' mode mode' : PyStr) (hm : ModeOk σ L mode) (hm' : ModeOk σ L mode')
    (μ ν : PyStr) (hμ : μ ∈ [mNumpy, mJax, mTorch]) (hν : ν ∈ [mNumpy, mJax, mTorch])
    (f : Nd ℂ) (hf : f.shape = (2 * N - 1) :: σ.shape L (nside.getD 0)) (k k' : Option Nd4)
    (hk : WignerKernelArg T L N false σ.name nside false μ κ mode k)
    (hk' : WignerKernelArg T L N false σ.name nside true ν κ' mode' k') :
    ∃ g F w, precomputeWignerForwardTop T f L N k' σ.name false ν nside
        = .ok (.d3 (2 * N - 1) L (2 * L - 1) g) ∧
      precomputeWignerInverseTop T (.d3 (2 * N - 1) L (2 * L - 1) g) L N k σ.name false μ nside
        = .ok F ∧
      quad_weights T.weights (some L) σ.name 0 nside = .ok (σ.rings L (nside.getD 0), w) ∧
      CapturesSo3 σ L N (nside.getD 0) w 0 f.get3 F.get3 (fun n l m => g (N - 1 + n) l (m + L - 1)) ∧
      ∀ (flmn : ℤ → ℤ → ℤ → ℂ) (reality : Bool) (ξ : PyStr) (k'' : Option Nd4),
        RealPlane flmn L N reality → ξ ∈ [mNumpy, mJax, mTorch] →
        WignerKernelArg T L N reality σ.name nside false ξ κ mode k'' →
        ∃ H, precomputeWignerInverseTop T (.d3 (2 * N - 1) L (2 * L - 1) flmn) L N k'' σ.name
            reality ξ nside = .ok H ∧
          CloserSo3 σ L N (nside.getD 0) w 0 f.get3 F.get3 H.get3
            (fun n l m => g (N - 1 + n) l (m + L - 1)) (wignerCoeffs flmn L N reality) := by
  have hσ' : σ = .dh ∨ σ = .gl ∨ σ = .healpix := by tauto
  have hhp : σ = .healpix → 2 * nside.getD 0 ≤ L ∧ (ν ≠ mNumpy → 2 ≤ nside.getD 0) :=
    fun h => absurd h hS.1
  have hq := quad_weights_plain T (plain_scheme σ hσ') 0 hv
  obtain ⟨g, eg, -⟩ := plainFwd_precompute T σ L N nside hσ' hv h1 hN κ' mode' hm' ν hν hhp f hf k' hk'
  have key : ∀ (flmn : ℤ → ℤ → ℤ → ℂ) (reality : Bool) (ξ : PyStr) (k'' : Option Nd4),
      RealPlane flmn L N reality → ξ ∈ [mNumpy, mJax, mTorch] →
      WignerKernelArg T L N reality σ.name nside false ξ κ mode k'' →
      ∃ H, precomputeWignerInverseTop T (.d3 (2 * N - 1) L (2 * L - 1) flmn) L N k'' σ.name
          reality ξ nside = .ok H ∧
        wignerInner 0 L N (fun n l m => g (N - 1 + n) l (m + L - 1)) (wignerCoeffs flmn L N reality)
          = so3Inner σ L N (nside.getD 0) (innerWeight T σ L (nside.getD 0)) f.get3 H.get3 ∧
        so3Energy σ L N (nside.getD 0) (innerWeight T σ L (nside.getD 0)) H.get3
          = wignerEnergy 0 L N (wignerCoeffs flmn L N reality) := by
    intro flmn reality ξ k'' hre hξ hk''
    obtain ⟨H, g', w, e, e', hw, hA⟩ := C53_precompute_wigner_adjoint T σ hσ' L N nside hv h1 hN κ κ' mode
      mode' hm hm' ξ ν hξ hν hhp flmn reality hre f hf k'' k' hk'' hk'
    obtain ⟨H', w', e2, hw', hE⟩ := C53_precompute_wigner_energy T σ hσ' L N nside hv hS h1 hN κ mode hm ξ
      hξ flmn reality hre k'' hk''
    obtain rfl := ok_d3_inj eg e'
    obtain rfl : H = H' := by have := e.symm.trans e2; injection this
    obtain rfl := ok_weights_inj hq hw
    obtain rfl := ok_weights_inj hq hw'
    exact ⟨H, e, hA, hE⟩
  obtain ⟨F, eF, hA, hE⟩ := key g false μ k (by rintro ⟨⟩) hμ hk
  rw [wignerCoeffs_false] at hA hE
  refine ⟨g, F, _, eg, eF, hq, captures_wigner h1 (innerWeight_pos T hσ hv.1 hS) hA hE,
    fun flmn reality ξ k'' hre hξ hk'' => ?_⟩
  obtain ⟨H, eH, hA', hE'⟩ := key flmn reality ξ k'' hre hξ hk''
  exact ⟨H, eH, closer_wigner le_rfl hA' hA hE' hE⟩

end

theorem C56_precompute_wigner_projection (T : GlTables) (σ : Scheme) (L N : ℤ) (nside : Option ℤ)
    (hv : σ.Valid L (nside.getD 0)) (h1 : 1 ≤ N) (hN : N ≤ L) (hR : σ.Resampled → 2 ≤ N)
    (hS : SamplingTheorem T σ L) (hex : InnerExact T.nodes σ L (nside.getD 0))
    (κ κ' mode mode' : PyStr) (hm : ModeOk σ L mode) (hm' : ModeOk σ L mode')
    (μ ν : PyStr) (hμ : μ ∈ [mNumpy, mJax, mTorch]) (hν : ν ∈ [mNumpy, mJax, mTorch])
    (f : Nd ℂ) (hf : f.shape = (2 * N - 1) :: σ.shape L (nside.getD 0)) (k k' : Option Nd4)
    (hk : WignerKernelArg T L N false σ.name nside false μ κ mode k)
    (hk' : WignerKernelArg T L N false σ.name nside true ν κ' mode' k') :
    ∃ g F g', precomputeWignerForwardTop T f L N k' σ.name false ν nside
        = .ok (.d3 (2 * N - 1) L (2 * L - 1) g) ∧
      precomputeWignerInverseTop T (.d3 (2 * N - 1) L (2 * L - 1) g) L N k σ.name false μ nside
        = .ok F ∧
      precomputeWignerForwardTop T F L N k' σ.name false ν nside
        = .ok (.d3 (2 * N - 1) L (2 * L - 1) g') ∧
      ∀ n el m, |n| < N → 0 ≤ el → el < L → -L < m → m < L →
        g' (N - 1 + n) el (m + L - 1) = g (N - 1 + n) el (m + L - 1) := by
  obtain ⟨K, eK, hK⟩ := getWignerKernel_ok T hv h1 hN false true hm' hk'
  have top : precomputeWignerForwardTop T f L N k' σ.name false ν nside
      = precomputeWignerForward f ⟨nDim N false, innerRings σ L (nside.getD 0), L, 2 * L - 1, K⟩
        L N σ.name false nside ν := by
    unfold precomputeWignerForwardTop
    rw [if_neg (by rw [not_not]; exact hν), eK]
    rfl
  obtain ⟨g, e, hg⟩ := precomputeWignerForward_values hν hv h1 hR (fun h => absurd h hS.1) f hf false hK
  obtain ⟨F, g', e1, e2, h⟩ := C28_round_trip_partial T σ L N nside hv h1 hN hR hS hex κ κ' mode mode' hm
    hm' μ ν hμ hν g false (by rintro ⟨⟩) k k' hk hk'
  refine ⟨g, F, g', top.trans e, e1, e2, fun n el m hn l0 l1 m0 m1 => ?_⟩
  rw [h n el m hn l0 l1 m0 m1, wignerCoeffs_false]
  split_ifs with hc
  · rfl
  · obtain ⟨n0, n1⟩ := abs_lt.1 hn
    rw [hg n el m n0 n1 l0 l1 m0 m1]
    unfold wigFull
    rw [if_neg (by simp), wigCoef_outside]
    rcases not_and_or.1 hc with hl | hl
    · exact Or.inr (not_le.1 hl)
    · exact Or.inl (not_le.1 hl)

/-- The conditions are met: any samples on a DH grid with five directions. -/
example (T : GlTables) (x : ℤ → ℤ → ℤ → ℂ) :
    ∃ g F w, wignerBaseForward T (.d3 5 12 11 x) 6 3 1 sDH false none = .ok (.d3 5 6 11 g) ∧
      wignerBaseInverse T (.d3 5 6 11 g) 6 3 1 sDH false none = .ok F ∧
      quad_weights T.weights (some 6) sDH 0 none = .ok (12, w) ∧
      CapturesSo3 .dh 6 3 0 w 1 x F.get3 (fun n l m => g (3 - 1 + n) l (m + 6 - 1)) ∧
      ∀ (flmn : ℤ → ℤ → ℤ → ℂ) (reality : Bool), RealOrigin flmn 6 3 reality 1 →
        ∃ H, wignerBaseInverse T (.d3 5 6 11 flmn) 6 3 1 sDH reality none = .ok H ∧
          CloserSo3 .dh 6 3 0 w 1 x F.get3 H.get3
            (fun n l m => g (3 - 1 + n) l (m + 6 - 1)) (wignerCoeffs flmn 6 3 reality) :=
  C56_wigner_base_best_fit T .dh (Or.inl rfl) 6 3 1 none ⟨by norm_num, by rintro ⟨⟩⟩
    ⟨by rintro ⟨⟩, by rintro ⟨⟩⟩ (by norm_num) (by norm_num) (by norm_num)
    (C24_grids T.nodes .dh 6 0 (Or.inr (Or.inr rfl)) (by norm_num) (by norm_num)).1 (.d3 5 12 11 x) rfl

end S2fft
