import Verif.Lemmas.LinearWigner
import Verif.Lemmas.LinearRefine

/-!
# C51: the precomputed Wigner, Fourier-Wigner, rotation and refined transforms are linear
-/

namespace S2fft
open Spec

/-! ## The precomputed-kernel Wigner transforms -/

section
variable (G : GlTables) (σ : Scheme) (L N : ℤ) (nside : Option ℤ) (a b : ℂ)

theorem C51_precompute_wigner_forward (hv : σ.Valid L (nside.getD 0)) (h1 : 1 ≤ N) (hN : N ≤ L)
    (hσ : σ.Resampled → 2 ≤ N)
    (κ mode : PyStr) (hm : ModeOk σ L mode) (method : PyStr) (hmt : method ∈ [mNumpy, mJax, mTorch])
    (hhp : σ = .healpix → 2 * nside.getD 0 ≤ L ∧ (method ≠ mNumpy → 2 ≤ nside.getD 0))
    (f f' : Nd ℂ) (hf : f.shape = (2 * N - 1) :: σ.shape L (nside.getD 0))
    (hf' : f'.shape = (2 * N - 1) :: σ.shape L (nside.getD 0))
    (reality : Bool) (hab : reality = true → a.im = 0 ∧ b.im = 0) (kernel : Option Nd4)
    (hk : WignerKernelArg G L N reality σ.name nside true method κ mode kernel) :
    ∃ g g' h, precomputeWignerForwardTop G f L N kernel σ.name reality method nside
        = .ok (.d3 (2 * N - 1) L (2 * L - 1) g) ∧
      precomputeWignerForwardTop G f' L N kernel σ.name reality method nside
        = .ok (.d3 (2 * N - 1) L (2 * L - 1) g') ∧
      precomputeWignerForwardTop G (comb a b f f') L N kernel σ.name reality method nside
        = .ok (.d3 (2 * N - 1) L (2 * L - 1) h) ∧
      ∀ n el m, |n| < N → 0 ≤ el → el < L → -L < m → m < L → h (N - 1 + n) el (m + L - 1)
        = a * g (N - 1 + n) el (m + L - 1) + b * g' (N - 1 + n) el (m + L - 1) := by
  obtain ⟨K, eK, hK⟩ := getWignerKernel_ok G hv h1 hN reality true hm hk
  have e4 := comb_get3 hv a b h1 hf hf'
  have top : ∀ f, precomputeWignerForwardTop G f L N kernel σ.name reality method nside
      = precomputeWignerForward f ⟨nDim N reality, innerRings σ L (nside.getD 0), L, 2 * L - 1, K⟩
        L N σ.name reality nside method := by
    intro f
    unfold precomputeWignerForwardTop
    rw [if_neg (by rw [not_not]; exact hmt), eK]
    rfl
  obtain ⟨g, e, hg⟩ := precomputeWignerForward_values hmt hv h1 hσ hhp f hf reality hK
  obtain ⟨g', e', hg'⟩ := precomputeWignerForward_values hmt hv h1 hσ hhp f' hf' reality hK
  obtain ⟨h, e'', hh⟩ := precomputeWignerForward_values hmt hv h1 hσ hhp (comb a b f f')
    ((comb_shape _ _ _ _).trans hf) reality hK
  refine ⟨g, g', h, (top f).trans e, (top f').trans e', (top _).trans e'',
    fun n el m hn a0 b0 m0 m1 => ?_⟩
  obtain ⟨n0, n1⟩ := abs_lt.1 hn
  rw [hg n el m n0 n1 a0 b0 m0 m1, hg' n el m n0 n1 a0 b0 m0 m1, hh n el m n0 n1 a0 b0 m0 m1, e4,
    wigCoef_lin a b hab]

theorem C51_precompute_wigner_inverse (hv : σ.Valid L (nside.getD 0)) (h1 : 1 ≤ N) (hN : N ≤ L)
    (hhp : σ = .healpix → 2 * nside.getD 0 ≤ L) (κ mode : PyStr) (hm : ModeOk σ L mode)
    (method : PyStr) (hmt : method ∈ [mNumpy, mJax, mTorch]) (flmn flmn' : ℤ → ℤ → ℤ → ℂ)
    (reality : Bool) (hab : reality = true → a.im = 0 ∧ b.im = 0)
    (hre : RealPlane flmn L N reality) (hre' : RealPlane flmn' L N reality) (kernel : Option Nd4)
    (hk : WignerKernelArg G L N reality σ.name nside false method κ mode kernel) :
    ∃ f f' h, precomputeWignerInverseTop G (.d3 (2 * N - 1) L (2 * L - 1) flmn) L N kernel σ.name
        reality method nside = .ok f ∧
      precomputeWignerInverseTop G (.d3 (2 * N - 1) L (2 * L - 1) flmn') L N kernel σ.name
        reality method nside = .ok f' ∧
      precomputeWignerInverseTop G (comb a b (.d3 (2 * N - 1) L (2 * L - 1) flmn)
        (.d3 (2 * N - 1) L (2 * L - 1) flmn')) L N kernel σ.name reality method nside = .ok h ∧
      ∀ g t p, σ.Has L (nside.getD 0) t p →
        h.get3 g (σ.pos (nside.getD 0) t p).1 (σ.pos (nside.getD 0) t p).2
          = a * f.get3 g (σ.pos (nside.getD 0) t p).1 (σ.pos (nside.getD 0) t p).2
            + b * f'.get3 g (σ.pos (nside.getD 0) t p).1 (σ.pos (nside.getD 0) t p).2 := by
  obtain ⟨f, e, -, hf⟩ := C28_expansion_partial G σ L N nside hv h1 hN hhp κ mode hm method hmt flmn
    reality hre kernel hk
  obtain ⟨f', e', -, hf'⟩ := C28_expansion_partial G σ L N nside hv h1 hN hhp κ mode hm method hmt
    flmn' reality hre' kernel hk
  obtain ⟨h, e'', -, hh⟩ := C28_expansion_partial G σ L N nside hv h1 hN hhp κ mode hm method hmt
    (fun n l k => a * flmn n l k + b * flmn' n l k) reality (realPlane_lin a b hab hre hre') kernel hk
  refine ⟨f, f', h, e, e', e'', fun g t p ht => ?_⟩
  rw [hf g t p ht, hf' g t p ht, hh g t p ht, wignerCoeffs_lin a b hab, wignerSum_lin]

end

/-! ## The Fourier-Wigner transforms -/

section
variable (σ : Scheme) (hσ : σ = .mw ∨ σ = .mwss) (s : PyStr) (hs : lower s = σ.name) (L N : ℤ)
  (h1 : 1 ≤ N) (hN : N ≤ L) (method : PyStr) (a b : ℂ) (reality : Bool)
  (hab : reality = true → a.im = 0 ∧ b.im = 0) (precomps : Option FwTables) (hP : FwPrecomps L precomps)
include hσ hs h1 hN hab hP

theorem C51_fourier_wigner_forward (hL : σ = .mwss → 2 ≤ L) (f f' : Nd ℂ)
    (hf : f.shape = (2 * N - 1) :: σ.shape L 0) (hf' : f'.shape = (2 * N - 1) :: σ.shape L 0) :
    ∃ g g' h, fourierWignerForward method f L N precomps reality s
        = .ok (.d3 (2 * N - 1) L (2 * L - 1) g) ∧
      fourierWignerForward method f' L N precomps reality s
        = .ok (.d3 (2 * N - 1) L (2 * L - 1) g') ∧
      fourierWignerForward method (comb a b f f') L N precomps reality s
        = .ok (.d3 (2 * N - 1) L (2 * L - 1) h) ∧
      ∀ n el m, |n| < N → 0 ≤ el → el < L → -L < m → m < L → h (N - 1 + n) el (m + L - 1)
        = a * g (N - 1 + n) el (m + L - 1) + b * g' (N - 1 + n) el (m + L - 1) := by
  have hv : σ.Valid L 0 := ⟨by omega, by rintro rfl; rcases hσ with h | h <;> cases h⟩
  have e4 := comb_get3 hv a b h1 hf hf'
  obtain ⟨g, e, hg⟩ := fwForward_values σ hσ s hs h1 hN hL method f hf reality hP
  obtain ⟨g', e', hg'⟩ := fwForward_values σ hσ s hs h1 hN hL method f' hf' reality hP
  obtain ⟨h, e'', hh⟩ := fwForward_values σ hσ s hs h1 hN hL method (comb a b f f')
    ((comb_shape _ _ _ _).trans hf) reality hP
  refine ⟨g, g', h, e, e', e'', fun n el m hn a0 b0 m0 m1 => ?_⟩
  rw [hg n el m hn a0 b0 m0 m1, hg' n el m hn a0 b0 m0 m1, hh n el m hn a0 b0 m0 m1, e4,
    mirrored_lin a b hab (fun n l m => fwCoeff_lin a b
      (fun k i j => fwConvolved_lin a b hab f.get3 f'.get3 L N precomps s k i j) L N reality n l m)]
  ring

theorem C51_fourier_wigner_inverse (flmn flmn' : ℤ → ℤ → ℤ → ℂ) (hre : RealPlane flmn L N reality)
    (hre' : RealPlane flmn' L N reality) :
    ∃ f f' h, fourierWignerInverse method (.d3 (2 * N - 1) L (2 * L - 1) flmn) L N precomps reality s
        = .ok f ∧
      fourierWignerInverse method (.d3 (2 * N - 1) L (2 * L - 1) flmn') L N precomps reality s
        = .ok f' ∧
      fourierWignerInverse method (comb a b (.d3 (2 * N - 1) L (2 * L - 1) flmn)
        (.d3 (2 * N - 1) L (2 * L - 1) flmn')) L N precomps reality s = .ok h ∧
      ∀ g t p, h.get3 g t p = a * f.get3 g t p + b * f'.get3 g t p := by
  obtain ⟨f, e, -, hf⟩ := C29_expansion_partial (fun _ _ => 0) σ hσ s hs L N h1 hN method flmn reality
    hre precomps hP
  obtain ⟨f', e', -, hf'⟩ := C29_expansion_partial (fun _ _ => 0) σ hσ s hs L N h1 hN method flmn'
    reality hre' precomps hP
  obtain ⟨h, e'', -, hh⟩ := C29_expansion_partial (fun _ _ => 0) σ hσ s hs L N h1 hN method
    (fun n l k => a * flmn n l k + b * flmn' n l k) reality (realPlane_lin a b hab hre hre') precomps hP
  refine ⟨f, f', h, e, e', e'', fun g t p => ?_⟩
  rw [hf, hf', hh, wignerCoeffs_lin a b hab, wignerSum_lin]

end

/-! ## Rotation -/

/-- With or without the planes `generate_rotate_dls` makes. -/
theorem C51_rotate (flm flm' : ℤ → ℤ → ℂ) (a b : ℂ) (L : ℤ) (α β γ : ℝ)
    (dls : Option (ℤ → ℤ → ℤ → ℝ)) (hd : dls = none ∨ dls = some (generateRotateDls L β))
    (l m : ℤ) (h0 : 0 ≤ l) (h1 : l < L) :
    rotateFlms (fun l k => a * flm l k + b * flm' l k) L (α, β, γ) dls l (m + L - 1)
      = a * rotateFlms flm L (α, β, γ) dls l (m + L - 1)
        + b * rotateFlms flm' L (α, β, γ) dls l (m + L - 1) := by
  have key : ∀ flm, rotateFlms flm L (α, β, γ) dls l (m + L - 1)
      = rotCoef α β γ (fun l n => flm l (n + L - 1)) l m := by
    intro flm
    rcases hd with rfl | rfl
    · exact rotateFlms_none _ _ _ _ _ _ _ h0 h1
    · exact (C30_precomputed _ _ _ _ _ _ _ h0 h1).trans (rotateFlms_none _ _ _ _ _ _ _ h0 h1)
  rw [key, key, key, rotCoef_lin]

/-! ## Iterative refinement -/

/-- Analysis of HEALPix maps with any number of refinement iterations. -/
theorem C51_refined (G : GlTables) (L ns spin lo : ℤ) (hL : 1 ≤ L) (hn : 1 ≤ ns) (hhp : 2 * ns ≤ L)
    (h0 : 0 ≤ lo) (h1 : lo < L) (a b : ℂ) (reality : Bool)
    (hab : reality = true → spin = 0 → a.im = 0 ∧ b.im = 0) (x y : ℤ → ℂ)
    (hx : reality = true → spin = 0 → ∀ i, 0 ≤ i → i < 12 * ns ^ 2 → (x i).im = 0)
    (hy : reality = true → spin = 0 → ∀ i, 0 ≤ i → i < 12 * ns ^ 2 → (y i).im = 0) (iter : ℤ) :
    ∃ u v w, baseForward G (.d1 (12 * ns ^ 2) x) L spin sHP (some ns) reality lo iter
        = .ok (.d2 L (2 * L - 1) u) ∧
      baseForward G (.d1 (12 * ns ^ 2) y) L spin sHP (some ns) reality lo iter
        = .ok (.d2 L (2 * L - 1) v) ∧
      baseForward G (.d1 (12 * ns ^ 2) fun i => a * x i + b * y i) L spin sHP (some ns) reality lo iter
        = .ok (.d2 L (2 * L - 1) w) ∧
      ∀ el m, 0 ≤ el → el < L → -L < m → m < L →
        w el (m + L - 1) = a * u el (m + L - 1) + b * v el (m + L - 1) := by
  obtain ⟨_, _, _, e, e', e'', u, v, w, rfl, rfl, rfl, _, _, _, h⟩ :=
    hpRefined_lin G hL hn hhp h0 h1 hab hx hy iter
  exact ⟨u, v, w, e, e', e'', h⟩

/-- The conditions are met with the reality flag, three iterations and arbitrary real pixels. -/
example (G : GlTables) (x y : ℤ → ℝ) :
    ∃ u v w, baseForward G (.d1 (12 * 2 ^ 2) fun i => x i) 6 0 sHP (some 2) true 0 3
        = .ok (.d2 6 11 u) ∧
      baseForward G (.d1 (12 * 2 ^ 2) fun i => y i) 6 0 sHP (some 2) true 0 3 = .ok (.d2 6 11 v) ∧
      baseForward G (.d1 (12 * 2 ^ 2) fun i => 2 * x i + (-3) * y i) 6 0 sHP (some 2) true 0 3
        = .ok (.d2 6 11 w) ∧
      ∀ el m, 0 ≤ el → el < 6 → -6 < m → m < 6 →
        w el (m + 6 - 1) = 2 * u el (m + 6 - 1) + (-3) * v el (m + 6 - 1) :=
  C51_refined G 6 2 0 0 (by norm_num) (by norm_num) (by norm_num) le_rfl (by norm_num) 2 (-3) true
    (fun _ _ => by simp) (fun i => x i) (fun i => y i) (fun _ _ _ _ _ => Complex.ofReal_im _)
    (fun _ _ _ _ _ => Complex.ofReal_im _) 3

end S2fft
