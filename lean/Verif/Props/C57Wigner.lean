import Verif.Lemmas.ResizeWigner
import Verif.Props.C38

/-!
# C57: changing grid, band limit and number of directions on the rotation group
-/

namespace S2fft
open Spec

section
variable (G : GlTables) (σ σ' : Scheme) (L L' N N' : ℤ) (nside nside' : Option ℤ)

/-- The base Wigner transforms, HEALPix among the targets. -/
theorem C57_wigner_convert (hv : σ.Valid L (nside.getD 0)) (hN : 1 ≤ N) (hσ : SamplingTheorem G σ L)
    (hex : InnerExact G.nodes σ L (nside.getD 0))
    (hv' : σ'.Valid L' (nside'.getD 0)) (hN' : 1 ≤ N') (hhp : σ' = .healpix → 2 * nside'.getD 0 ≤ L')
    (hex' : GridExact G.nodes σ' L' (nside'.getD 0)) (c : ℤ → ℤ → ℤ → ℂ) (f : Nd ℂ)
    (hf : f.shape = (2 * N - 1) :: σ.shape L (nside.getD 0))
    (hs : So3SamplesOf G.nodes σ L N (nside.getD 0) f.get3 (wignerSum 0 L N c))
    (reality : Bool) (hre : reality = true → RealWigner c 0 L) :
    ∃ g f', wignerBaseForward G f L N 0 σ.name reality nside
        = .ok (.d3 (2 * N - 1) L (2 * L - 1) g) ∧
      wignerBaseInverse G (.d3 (2 * N' - 1) L' (2 * L' - 1) (resized3 L L' N N' g)) L' N' 0 σ'.name
        reality nside' = .ok f' ∧ f'.shape = (2 * N' - 1) :: σ'.shape L' (nside'.getD 0) ∧
      So3SamplesOf G.nodes σ' L' N' (nside'.getD 0) f'.get3
        (wignerSum 0 (min L L') (min N N') c) := by
  have hL := hv.1
  have hL' := hv'.1
  obtain ⟨g, e, hg⟩ := C26_forward G σ L N 0 0 nside hv hN hσ hex le_rfl (by omega) le_rfl c f hf hs
    reality hre
  have ha : Analysed3 L N c g := fun n el m hn a b m0 m1 => by
    rw [hg n el m hn a b m0 m1, max_eq_left (abs_nonneg n)]
  obtain ⟨f', e', hs', h'⟩ := C26_inverse G σ' L' N' 0 nside' hv' hN' hhp le_rfl (by omega)
    (resized3 L L' N N' g) reality (resized3_plane ha hre).origin hex'
  refine ⟨g, f', e, e', hs', fun k t p a b ht => ?_⟩
  rw [h' k t p a b ht, resized3_coeffs ha hre]

/-- A signal of band limits `L`, `N` sampled for larger ones. -/
theorem C57_wigner_finer (hLL : L ≤ L') (hNN : N ≤ N') (hv : σ.Valid L' (nside.getD 0)) (hN : 1 ≤ N')
    (hσ : SamplingTheorem G σ L') (hex : InnerExact G.nodes σ L' (nside.getD 0))
    (c : ℤ → ℤ → ℤ → ℂ) (f : Nd ℂ) (hf : f.shape = (2 * N' - 1) :: σ.shape L' (nside.getD 0))
    (hs : So3SamplesOf G.nodes σ L' N' (nside.getD 0) f.get3 (wignerSum 0 L N c))
    (reality : Bool) (hre : reality = true → RealWigner c 0 L) :
    ∃ g, wignerBaseForward G f L' N' 0 σ.name reality nside
        = .ok (.d3 (2 * N' - 1) L' (2 * L' - 1) g) ∧
      ∀ n el m, |n| < N' → 0 ≤ el → el < L' → -L' < m → m < L' →
        g (N' - 1 + n) el (m + L' - 1)
          = if |n| ≤ el ∧ |m| ≤ el ∧ |n| < N ∧ el < L then c n el m else 0 := by
  obtain ⟨g, e, hg⟩ := C26_forward G σ L' N' 0 0 nside hv hN hσ hex le_rfl (by have := hv.1; omega)
    le_rfl (fun n l m => if |n| < N ∧ l < L then c n l m else 0) f hf
    (fun k t p a b ht => by rw [hs k t p a b ht, wignerSum_extend hLL hNN]) reality
    (fun a => realWigner_extend (hre a))
  refine ⟨g, e, fun n el m hn a b m0 m1 => ?_⟩
  rw [hg n el m hn a b m0 m1, max_eq_left (abs_nonneg n)]
  by_cases h1 : |n| ≤ el <;> by_cases h2 : |m| ≤ el <;> by_cases h3 : |n| < N ∧ el < L <;>
    simp [h1, h2, h3]

/-- The Wigner transforms with precomputed kernels. -/
theorem C57_wigner_precompute_convert (hv : σ.Valid L (nside.getD 0)) (hN : 1 ≤ N) (hNL : N ≤ L)
    (hR : σ.Resampled → 2 ≤ N) (hσ : SamplingTheorem G σ L)
    (hex : InnerExact G.nodes σ L (nside.getD 0))
    (hv' : σ'.Valid L' (nside'.getD 0)) (hN' : 1 ≤ N') (hNL' : N' ≤ L')
    (hhp : σ' = .healpix → 2 * nside'.getD 0 ≤ L')
    (κ κ' mode mode' : PyStr) (hm : ModeOk σ L mode) (hm' : ModeOk σ' L' mode')
    (μ ν : PyStr) (hμ : μ ∈ [mNumpy, mJax, mTorch]) (hν : ν ∈ [mNumpy, mJax, mTorch])
    (c : ℤ → ℤ → ℤ → ℂ) (f : Nd ℂ)
    (hf : f.shape = (2 * N - 1) :: σ.shape L (nside.getD 0))
    (hs : So3SamplesOf G.nodes σ L N (nside.getD 0) f.get3 (wignerSum 0 L N c))
    (reality : Bool) (hre : reality = true → RealWigner c 0 L) (k k' : Option Nd4)
    (hk : WignerKernelArg G L N reality σ.name nside true μ κ mode k)
    (hk' : WignerKernelArg G L' N' reality σ'.name nside' false ν κ' mode' k') :
    ∃ g f', precomputeWignerForwardTop G f L N k σ.name reality μ nside
        = .ok (.d3 (2 * N - 1) L (2 * L - 1) g) ∧
      precomputeWignerInverseTop G (.d3 (2 * N' - 1) L' (2 * L' - 1) (resized3 L L' N N' g)) L' N' k'
        σ'.name reality ν nside' = .ok f' ∧ f'.shape = (2 * N' - 1) :: σ'.shape L' (nside'.getD 0) ∧
      So3SamplesOf G.nodes σ' L' N' (nside'.getD 0) f'.get3
        (wignerSum 0 (min L L') (min N N') c) := by
  obtain ⟨g, e, hg⟩ := C28_analysis_partial G σ L N nside hv hN hNL hR hσ hex κ mode hm μ hμ c f hf hs
    reality hre k hk
  obtain ⟨f', e', hs', h'⟩ := C28_expansion_partial G σ' L' N' nside' hv' hN' hNL' hhp κ' mode' hm' ν hν
    (resized3 L L' N N' g) reality (resized3_plane hg hre) k' hk'
  refine ⟨g, f', e, e', hs', fun k t p a b ht => ?_⟩
  rw [h' k t p ht, resized3_coeffs hg hre]

end

section
variable (B : Backends) (G : Machine) (σ σ' : Scheme) (L L' N N' : ℤ) (nside nside' : Option ℤ)

/-- The on-the-fly Wigner transforms. -/
theorem C57_wigner_otf_convert (hv : σ.Valid L (nside.getD 0)) (hN : 1 ≤ N) (hNL : N ≤ L) (hN8 : N < 8)
    (hσ : SamplingTheorem G.toGlTables σ L)
    (hv' : σ'.Valid L' (nside'.getD 0)) (hN' : 1 ≤ N') (hNL' : N' ≤ L') (hN8' : N' < 8)
    (hhp : σ' = .healpix → 2 * nside'.getD 0 ≤ L')
    (μ ν : PyStr) (hμ : μ ∈ [mNumpy, mJax, mTorch]) (hν : ν ∈ [mNumpy, mJax, mTorch])
    (hlo : LowerOk μ L 0) (hlo' : LowerOk ν L' 0) (c : ℤ → ℤ → ℤ → ℂ) (f : Nd ℂ)
    (hf : f.shape = (2 * N - 1) :: σ.shape L (nside.getD 0))
    (hs : So3SamplesOf G.nodes σ L N (nside.getD 0) f.get3 (wignerSum 0 L N c))
    (reality : Bool) (hre : reality = true → RealWigner c 0 L) (p p' : WigPrecomps)
    (hp : WigPrecompsArg G L N σ.name nside true reality μ p)
    (hp' : WigPrecompsArg G L' N' σ'.name nside' false reality ν p')
    (hr : ∀ n, |n| < N → OtfRegular G σ L (nside.getD 0) n true) (hst : ExactStored G σ L nside true)
    (hr' : ∀ n, |n| < N' → OtfRegular G σ' L' (nside'.getD 0) n false)
    (hst' : ExactStored G σ' L' nside' false) (k : ℤ) :
    ∃ g f', wignerForward B G f L N nside σ.name μ reality p 0 k
        = .ok (.d3 (2 * N - 1) L (2 * L - 1) g) ∧
      wignerInverse B G (.d3 (2 * N' - 1) L' (2 * L' - 1) (resized3 L L' N N' g)) L' N' nside' σ'.name ν
        reality p' 0 k = .ok f' ∧ f'.shape = (2 * N' - 1) :: σ'.shape L' (nside'.getD 0) ∧
      So3SamplesOf G.nodes σ' L' N' (nside'.getD 0) f'.get3
        (wignerSum 0 (min L L') (min N N') c) := by
  obtain ⟨g, e, hg⟩ := C38_analysis_partial B G σ L N 0 nside hv hσ hN hNL hN8 μ hμ hlo c f hf hs
    reality hre p hp hr hst k
  have ha : Analysed3 L N c g := fun n el m hn a b m0 m1 => by
    rw [hg n el m hn a b m0 m1, max_eq_left (abs_nonneg n)]
  have hpl := resized3_plane (L' := L') (N' := N') ha hre
  obtain ⟨f', e', hs', h'⟩ := C38_expansion_partial B G σ' L' N' 0 nside' hv' hhp hN' hNL' hN8' ν hν hlo'
    (resized3 L L' N N' g) (resized3_low ha) reality hpl.origin
    (fun _ hr el m a b hm => hpl hr el m a b hm) p' hp' hr' k
  refine ⟨g, f', e, e', hs', fun i t q a b ht => ?_⟩
  rw [h' i t q a b ht, show G.rnd (σ'.theta G.nodes L' (nside'.getD 0) t)
    = σ'.theta G.nodes L' (nside'.getD 0) t from hst' t ht.1 ht.2.1, resized3_coeffs ha hre]

/-- A signal of band limits `L`, `N` sampled for larger ones. -/
theorem C57_wigner_otf_finer (hLL : L ≤ L') (hNN : N ≤ N') (hv : σ.Valid L' (nside.getD 0))
    (hN : 1 ≤ N') (hNL : N' ≤ L') (hN8 : N' < 8) (hσ : SamplingTheorem G.toGlTables σ L')
    (μ : PyStr) (hμ : μ ∈ [mNumpy, mJax, mTorch]) (hlo : LowerOk μ L' 0) (c : ℤ → ℤ → ℤ → ℂ) (f : Nd ℂ)
    (hf : f.shape = (2 * N' - 1) :: σ.shape L' (nside.getD 0))
    (hs : So3SamplesOf G.nodes σ L' N' (nside.getD 0) f.get3 (wignerSum 0 L N c))
    (reality : Bool) (hre : reality = true → RealWigner c 0 L) (p : WigPrecomps)
    (hp : WigPrecompsArg G L' N' σ.name nside true reality μ p)
    (hr : ∀ n, |n| < N' → OtfRegular G σ L' (nside.getD 0) n true) (hst : ExactStored G σ L' nside true)
    (k : ℤ) :
    ∃ g, wignerForward B G f L' N' nside σ.name μ reality p 0 k
        = .ok (.d3 (2 * N' - 1) L' (2 * L' - 1) g) ∧
      ∀ n el m, |n| < N' → 0 ≤ el → el < L' → -L' < m → m < L' →
        g (N' - 1 + n) el (m + L' - 1)
          = if |n| ≤ el ∧ |m| ≤ el ∧ |n| < N ∧ el < L then c n el m else 0 := by
  obtain ⟨g, e, hg⟩ := C38_analysis_partial B G σ L' N' 0 nside hv hσ hN hNL hN8 μ hμ hlo
    (fun n l m => if |n| < N ∧ l < L then c n l m else 0) f hf
    (fun k t p a b ht => by rw [hs k t p a b ht, wignerSum_extend hLL hNN]) reality
    (fun a => realWigner_extend (hre a)) p hp hr hst k
  refine ⟨g, e, fun n el m hn a b m0 m1 => ?_⟩
  rw [hg n el m hn a b m0 m1, max_eq_left (abs_nonneg n)]
  by_cases h1 : |n| ≤ el <;> by_cases h2 : |m| ≤ el <;> by_cases h3 : |n| < N ∧ el < L <;>
    simp [h1, h2, h3]

end

/-- From the MW grid with `L = 4`, `N = 2` to the HEALPix grid with `nside = 4`, `L' = 8`, `N' = 3`. -/
example (G : GlTables) (c : ℤ → ℤ → ℤ → ℂ) : ∃ f : Nd ℂ, f.shape = [3, 4, 7] ∧ ∃ g f',
    wignerBaseForward G f 4 2 0 sMW false none = .ok (.d3 3 4 7 g) ∧
      wignerBaseInverse G (.d3 5 8 15 (resized3 4 8 2 3 g)) 8 3 0 sHP false (some 4) = .ok f' ∧
      f'.shape = [5, 192] ∧ So3SamplesOf G.nodes .healpix 8 3 4 f'.get3 (wignerSum 0 4 2 c) := by
  refine ⟨.d3 3 4 7 fun g t p => wignerSum 0 4 2 c (Scheme.mw.phi 4 0 t p)
    (Scheme.mw.theta G.nodes 4 0 t) (gammaAt 2 g), rfl, ?_⟩
  have hv : Scheme.healpix.Valid 8 4 := ⟨by norm_num, fun _ => by norm_num⟩
  exact C57_wigner_convert G .mw .healpix 4 8 2 3 none (some 4) ⟨by norm_num, by rintro ⟨⟩⟩
    (by norm_num) ⟨by rintro ⟨⟩, by rintro ⟨⟩⟩
    (C24_grids G.nodes .mw 4 0 (Or.inl rfl) (by norm_num) (by norm_num)).2 hv (by norm_num)
    (fun _ => by norm_num)
    (C18_grids G.nodes .healpix 8 4 hv (fun h => nomatch h) (by norm_num) (by norm_num))
    c _ rfl (fun g t p _ _ _ => rfl) false (fun h => nomatch h)

end S2fft
