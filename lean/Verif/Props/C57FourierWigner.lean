import Verif.Lemmas.LinearWigner
import Verif.Lemmas.ResizeWigner
import Verif.Props.C56Wigner

/-!
# C56, C57: the Fourier-Wigner transforms

The Fourier-Wigner transforms are projections onto the signals of their band limits, and convert
between grids and band limits like the others.
-/

namespace S2fft
open Spec

section
variable (σ σ' : Scheme) (hσ : σ = .mw ∨ σ = .mwss) (s s' : PyStr) (hs : lower s = σ.name)
  (L L' N N' : ℤ) (h1 : 1 ≤ N) (hN : N ≤ L) (hL : σ = .mwss → 2 ≤ L)

include hσ hs h1 hN hL

/-- Analysing any samples, synthesizing and analysing again returns the same coefficients. -/
theorem C56_fourier_wigner_projection (hs' : lower s' = σ.name) (μ ν : PyStr) (f : Nd ℂ)
    (hf : f.shape = (2 * N - 1) :: σ.shape L 0) (P P' : Option FwTables) (hP : FwPrecomps L P)
    (hP' : FwPrecomps L P') :
    ∃ g F g', fourierWignerForward ν f L N P' false s = .ok (.d3 (2 * N - 1) L (2 * L - 1) g) ∧
      fourierWignerInverse μ (.d3 (2 * N - 1) L (2 * L - 1) g) L N P false s' = .ok F ∧
      fourierWignerForward ν F L N P' false s = .ok (.d3 (2 * N - 1) L (2 * L - 1) g') ∧
      ∀ n el m, |n| < N → 0 ≤ el → el < L → -L < m → m < L →
        g' (N - 1 + n) el (m + L - 1) = g (N - 1 + n) el (m + L - 1) := by
  obtain ⟨g, e, hg⟩ := fwForward_values σ hσ s hs h1 hN hL ν f hf false hP'
  obtain ⟨F, g', e1, e2, h⟩ := C29_round_trip_partial σ hσ s' s hs' hs L N h1 hN hL μ ν g false
    (by rintro ⟨⟩) P P' hP hP'
  refine ⟨g, F, g', e, e1, e2, fun n el m hn l0 l1 m0 m1 => ?_⟩
  rw [h n el m hn l0 l1 m0 m1, wignerCoeffs_false]
  split_ifs with hc
  · rfl
  · rw [hg n el m hn l0 l1 m0 m1]
    unfold mirrored
    rw [if_neg (by simp)]
    unfold fwCoeff
    rw [Finset.sum_eq_zero fun i _ => ?_]
    · simp
    · rcases not_and_or.1 hc with hc | hc
      · rw [wignerd_outside el i n _ (Or.inr (by omega))]; simp
      · rw [wignerd_outside el i m _ (Or.inr (by omega))]; simp

/-- Conversion with the Fourier-Wigner transforms. -/
theorem C57_fourier_wigner_convert (nodes : ℤ → ℤ → ℝ) (hσ' : σ' = .mw ∨ σ' = .mwss)
    (hs' : lower s' = σ'.name) (h1' : 1 ≤ N') (hN' : N' ≤ L') (μ ν : PyStr) (c : ℤ → ℤ → ℤ → ℂ)
    (f : Nd ℂ) (hf : f.shape = (2 * N - 1) :: σ.shape L 0)
    (hsam : So3SamplesOf nodes σ L N 0 f.get3 (wignerSum 0 L N c)) (reality : Bool)
    (hre : reality = true → RealWigner c 0 L) (P P' : Option FwTables) (hP : FwPrecomps L P)
    (hP' : FwPrecomps L' P') :
    ∃ g f', fourierWignerForward μ f L N P reality s = .ok (.d3 (2 * N - 1) L (2 * L - 1) g) ∧
      fourierWignerInverse ν (.d3 (2 * N' - 1) L' (2 * L' - 1) (resized3 L L' N N' g)) L' N' P' reality
        s' = .ok f' ∧ f'.shape = (2 * N' - 1) :: σ'.shape L' 0 ∧
      So3SamplesOf nodes σ' L' N' 0 f'.get3 (wignerSum 0 (min L L') (min N N') c) := by
  have hh' : σ' ≠ .healpix := by rcases hσ' with rfl | rfl <;> decide
  obtain ⟨g, e, hg⟩ := C29_analysis_partial nodes σ hσ s hs L N h1 hN hL μ c f hf hsam reality hre P hP
  obtain ⟨f', e', hsh', h'⟩ := C29_expansion_partial nodes σ' hσ' s' hs' L' N' h1' hN' ν
    (resized3 L L' N N' g) reality (resized3_plane hg hre) P' hP'
  refine ⟨g, f', e, e', hsh', fun k t p a b ht => ?_⟩
  rw [equi_pos hh', h' k t p, resized3_coeffs hg hre]

end

/-- A signal of band limits `L`, `N` sampled for larger ones. -/
theorem C57_fourier_wigner_finer (σ : Scheme) (hσ : σ = .mw ∨ σ = .mwss) (s : PyStr)
    (hs : lower s = σ.name) (L L' N N' : ℤ) (hLL : L ≤ L') (hNN : N ≤ N') (h1 : 1 ≤ N') (hN : N' ≤ L')
    (hL : σ = .mwss → 2 ≤ L') (nodes : ℤ → ℤ → ℝ) (μ : PyStr) (c : ℤ → ℤ → ℤ → ℂ) (f : Nd ℂ)
    (hf : f.shape = (2 * N' - 1) :: σ.shape L' 0)
    (hsam : So3SamplesOf nodes σ L' N' 0 f.get3 (wignerSum 0 L N c)) (reality : Bool)
    (hre : reality = true → RealWigner c 0 L) (P : Option FwTables) (hP : FwPrecomps L' P) :
    ∃ g, fourierWignerForward μ f L' N' P reality s = .ok (.d3 (2 * N' - 1) L' (2 * L' - 1) g) ∧
      ∀ n el m, |n| < N' → 0 ≤ el → el < L' → -L' < m → m < L' →
        g (N' - 1 + n) el (m + L' - 1)
          = if |n| ≤ el ∧ |m| ≤ el ∧ |n| < N ∧ el < L then c n el m else 0 := by
  obtain ⟨g, e, hg⟩ := C29_analysis_partial nodes σ hσ s hs L' N' h1 hN hL μ
    (fun n l m => if |n| < N ∧ l < L then c n l m else 0) f hf
    (fun k t p a b ht => by rw [hsam k t p a b ht, wignerSum_extend hLL hNN]) reality
    (fun a => realWigner_extend (hre a)) P hP
  refine ⟨g, e, fun n el m hn a b m0 m1 => ?_⟩
  rw [hg n el m hn a b m0 m1]
  by_cases h1 : |n| ≤ el <;> by_cases h2 : |m| ≤ el <;> by_cases h3 : |n| < N ∧ el < L <;>
    simp [h1, h2, h3]

/-- The same with precomputed kernels. -/
theorem C57_wigner_precompute_finer (G : GlTables) (σ : Scheme) (L L' N N' : ℤ) (nside : Option ℤ)
    (hLL : L ≤ L') (hNN : N ≤ N') (hv : σ.Valid L' (nside.getD 0)) (hN : 1 ≤ N') (hNL : N' ≤ L')
    (hR : σ.Resampled → 2 ≤ N') (hσ : SamplingTheorem G σ L')
    (hex : InnerExact G.nodes σ L' (nside.getD 0)) (κ mode : PyStr) (hm : ModeOk σ L' mode) (μ : PyStr)
    (hμ : μ ∈ [mNumpy, mJax, mTorch]) (c : ℤ → ℤ → ℤ → ℂ) (f : Nd ℂ)
    (hf : f.shape = (2 * N' - 1) :: σ.shape L' (nside.getD 0))
    (hs : So3SamplesOf G.nodes σ L' N' (nside.getD 0) f.get3 (wignerSum 0 L N c))
    (reality : Bool) (hre : reality = true → RealWigner c 0 L) (k : Option Nd4)
    (hk : WignerKernelArg G L' N' reality σ.name nside true μ κ mode k) :
    ∃ g, precomputeWignerForwardTop G f L' N' k σ.name reality μ nside
        = .ok (.d3 (2 * N' - 1) L' (2 * L' - 1) g) ∧
      ∀ n el m, |n| < N' → 0 ≤ el → el < L' → -L' < m → m < L' →
        g (N' - 1 + n) el (m + L' - 1)
          = if |n| ≤ el ∧ |m| ≤ el ∧ |n| < N ∧ el < L then c n el m else 0 := by
  obtain ⟨g, e, hg⟩ := C28_analysis_partial G σ L' N' nside hv hN hNL hR hσ hex κ mode hm μ hμ
    (fun n l m => if |n| < N ∧ l < L then c n l m else 0) f hf
    (fun k t p a b ht => by rw [hs k t p a b ht, wignerSum_extend hLL hNN]) reality
    (fun a => realWigner_extend (hre a)) k hk
  refine ⟨g, e, fun n el m hn a b m0 m1 => ?_⟩
  rw [hg n el m hn a b m0 m1]
  by_cases h1 : |n| ≤ el <;> by_cases h2 : |m| ≤ el <;> by_cases h3 : |n| < N ∧ el < L <;>
    simp [h1, h2, h3]

/-- From the MWSS grid with `L = 4`, `N = 2` to the MW grid with `L' = 8`, `N' = 3`. -/
example (nodes : ℤ → ℤ → ℝ) (c : ℤ → ℤ → ℤ → ℂ) : ∃ f : Nd ℂ, f.shape = [3, 5, 8] ∧ ∃ g f',
    fourierWignerForward mNumpy f 4 2 none false "MWSS".toList = .ok (.d3 3 4 7 g) ∧
      fourierWignerInverse mJax (.d3 5 8 15 (resized3 4 8 2 3 g)) 8 3 none false sMW = .ok f' ∧
      f'.shape = [5, 8, 15] ∧ So3SamplesOf nodes .mw 8 3 0 f'.get3 (wignerSum 0 4 2 c) := by
  refine ⟨.d3 3 5 8 fun g t p => wignerSum 0 4 2 c (Scheme.mwss.phi 4 0 t p)
    (Scheme.mwss.theta nodes 4 0 t) (gammaAt 2 g), rfl, ?_⟩
  exact C57_fourier_wigner_convert .mwss .mw (Or.inr rfl) _ _ rfl 4 8 2 3 (by norm_num) (by norm_num)
    (fun _ => by norm_num) nodes (Or.inl rfl) rfl (by norm_num) (by norm_num) mNumpy mJax c _ rfl
    (fun g t p _ _ _ => rfl) false (by rintro ⟨⟩) none none (Or.inl rfl) (Or.inl rfl)

end S2fft
