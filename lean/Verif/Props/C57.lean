import Verif.Lemmas.Resize
import Verif.Props.C39

/-!
# C57: changing grid and band limit

Analysis on one grid, coefficients copied into an array for another band limit, and synthesis on
another grid give the samples of the same signal there (with the degrees both band limits have). And a
signal sampled more finely than it need be is analysed into the same coefficients and zeros.
-/

namespace S2fft
open Spec

/-! ## The base transforms -/

section
variable (G : GlTables) (σ σ' : Scheme) (L L' spin : ℤ) (nside nside' : Option ℤ)

/-- From one grid to another, HEALPix among the targets. -/
theorem C57_base_convert (hv : σ.Valid L (nside.getD 0)) (hσ : SamplingTheorem G σ L)
    (hex : InnerExact G.nodes σ L (nside.getD 0))
    (hv' : σ'.Valid L' (nside'.getD 0)) (hex' : GridExact G.nodes σ' L' (nside'.getD 0))
    (μ ν : PyStr) (hμ : μ ∈ [bDirect, bSov, bSovFft, bVec]) (hν : ν ∈ [bDirect, bSov, bSovFft, bVec])
    (hhp : ν = bSovFft ∨ ν = bVec → σ' = .healpix → 2 * nside'.getD 0 ≤ L')
    (c : ℤ → ℤ → ℂ) (f : Nd ℂ) (hf : f.shape = σ.shape L (nside.getD 0))
    (hs : SamplesOf G.nodes σ L (nside.getD 0) f.get2 (harmonicSum 0 L spin c))
    (reality : Bool) (hre : reality = true → spin = 0 → RealHarmonics c 0 L) :
    ∃ g f', baseForwardWith G f L spin σ.name μ nside reality 0 = .ok (.d2 L (2 * L - 1) g) ∧
      baseInverseWith G (.d2 L' (2 * L' - 1) (resized L L' g)) L' spin σ'.name ν nside' reality 0
        = .ok f' ∧ f'.shape = σ'.shape L' (nside'.getD 0) ∧
      SamplesOf G.nodes σ' L' (nside'.getD 0) f'.get2 (harmonicSum 0 (min L L') spin c) := by
  have hL := hv.1
  have hL' := hv'.1
  obtain ⟨g, e, hg⟩ := C24_forward G σ L spin 0 0 nside hv hσ hex le_rfl (by omega) le_rfl μ hμ c f hf
    hs reality hre
  have ha : Analysed L spin c g := fun el m a b m0 m1 => by
    rw [hg el m a b m0 m1, max_eq_left (abs_nonneg spin)]
  obtain ⟨f', e', hs', h'⟩ := C18_inverse_close G σ' L' spin 0 nside' ν hν hv' hhp le_rfl (by omega)
    (resized L L' g) reality (fun _ => resized_order_zero hL ha hre)
  refine ⟨g, f', e, e', hs', fun t p ht => ?_⟩
  obtain ⟨θ', -, h2, h3⟩ := h' t p ht
  rw [h3, h2 (hex' t ht.1 ht.2.1), resized_coeffs ha hre]

/-- A signal of band limit `L` sampled for a larger one. -/
theorem C57_base_finer (hLL : L ≤ L') (hv : σ.Valid L' (nside.getD 0)) (hσ : SamplingTheorem G σ L')
    (hex : InnerExact G.nodes σ L' (nside.getD 0))
    (μ : PyStr) (hμ : μ ∈ [bDirect, bSov, bSovFft, bVec])
    (c : ℤ → ℤ → ℂ) (f : Nd ℂ) (hf : f.shape = σ.shape L' (nside.getD 0))
    (hs : SamplesOf G.nodes σ L' (nside.getD 0) f.get2 (harmonicSum 0 L spin c))
    (reality : Bool) (hre : reality = true → spin = 0 → RealHarmonics c 0 L) :
    ∃ g, baseForwardWith G f L' spin σ.name μ nside reality 0 = .ok (.d2 L' (2 * L' - 1) g) ∧
      ∀ el m, 0 ≤ el → el < L' → -L' < m → m < L' →
        g el (m + L' - 1) = if |spin| ≤ el ∧ |m| ≤ el ∧ el < L then c el m else 0 := by
  obtain ⟨g, e, hg⟩ := C24_forward G σ L' spin 0 0 nside hv hσ hex le_rfl (by have := hv.1; omega) le_rfl
    μ hμ (fun l m => if l < L then c l m else 0) f hf
    (fun t p ht => by rw [hs t p ht, harmonicSum_extend hLL]) reality
    (fun a b => realHarmonics_extend (hre a b))
  refine ⟨g, e, fun el m a b m0 m1 => ?_⟩
  rw [hg el m a b m0 m1, max_eq_left (abs_nonneg spin)]
  by_cases h1 : |spin| ≤ el <;> by_cases h2 : |m| ≤ el <;> by_cases h3 : el < L <;> simp [h1, h2, h3]

/-! ## The precomputed transforms -/

/-- From one grid to another with precomputed kernels. -/
theorem C57_precompute_convert (hv : σ.Valid L (nside.getD 0)) (hσ : SamplingTheorem G σ L)
    (κ ρ : PyStr) (hρ : RecursionOk L spin ρ)
    (hex : KernelExact G.nodes σ L (nside.getD 0) spin true κ ρ)
    (hv' : σ'.Valid L' (nside'.getD 0)) (hhp : σ' = .healpix → 2 * nside'.getD 0 ≤ L')
    (κ' ρ' : PyStr) (hρ' : RecursionOk L' spin ρ')
    (hex' : KernelExact G.nodes σ' L' (nside'.getD 0) spin false κ' ρ')
    (μ ν : PyStr) (hμ : μ ∈ [mNumpy, mJax, mTorch]) (hν : ν ∈ [mNumpy, mJax, mTorch])
    (c : ℤ → ℤ → ℂ) (f : Nd ℂ) (hf : f.shape = σ.shape L (nside.getD 0))
    (hs : SamplesOf G.nodes σ L (nside.getD 0) f.get2 (harmonicSum 0 L spin c))
    (reality : Bool) (hre : reality = true → spin = 0 → RealHarmonics c 0 L)
    (k k' : Option (Nd ℂ)) (hk : KernelArg G L spin reality σ.name nside true μ κ ρ k)
    (hk' : KernelArg G L' spin reality σ'.name nside' false ν κ' ρ' k') :
    ∃ g f', precomputeForwardTop G f L spin k σ.name reality μ nside 0 = .ok (.d2 L (2 * L - 1) g) ∧
      precomputeInverseTop G (.d2 L' (2 * L' - 1) (resized L L' g)) L' spin k' σ'.name reality ν nside'
        = .ok f' ∧ f'.shape = σ'.shape L' (nside'.getD 0) ∧
      SamplesOf G.nodes σ' L' (nside'.getD 0) f'.get2 (harmonicSum 0 (min L L') spin c) := by
  have hL := hv.1
  obtain ⟨g, e, hg⟩ := C27_analysis G σ L spin nside hv hσ κ ρ hρ hex μ hμ c f hf hs reality hre k hk
  obtain ⟨f', e', hs', h'⟩ := C27_expansion G σ' L' spin nside' hv' hhp κ' ρ' hρ' hex' ν hν
    (resized L L' g) reality (resized_order_zero hL hg hre) k' hk'
  refine ⟨g, f', e, e', hs', fun t p ht => ?_⟩
  rw [h' t p ht, resized_coeffs hg hre]

/-- A signal of band limit `L` sampled for a larger one. -/
theorem C57_precompute_finer (hLL : L ≤ L') (hv : σ.Valid L' (nside.getD 0))
    (hσ : SamplingTheorem G σ L') (κ ρ : PyStr) (hρ : RecursionOk L' spin ρ)
    (hex : KernelExact G.nodes σ L' (nside.getD 0) spin true κ ρ)
    (μ : PyStr) (hμ : μ ∈ [mNumpy, mJax, mTorch])
    (c : ℤ → ℤ → ℂ) (f : Nd ℂ) (hf : f.shape = σ.shape L' (nside.getD 0))
    (hs : SamplesOf G.nodes σ L' (nside.getD 0) f.get2 (harmonicSum 0 L spin c))
    (reality : Bool) (hre : reality = true → spin = 0 → RealHarmonics c 0 L)
    (k : Option (Nd ℂ)) (hk : KernelArg G L' spin reality σ.name nside true μ κ ρ k) :
    ∃ g, precomputeForwardTop G f L' spin k σ.name reality μ nside 0 = .ok (.d2 L' (2 * L' - 1) g) ∧
      ∀ el m, 0 ≤ el → el < L' → -L' < m → m < L' →
        g el (m + L' - 1) = if |spin| ≤ el ∧ |m| ≤ el ∧ el < L then c el m else 0 := by
  obtain ⟨g, e, hg⟩ := C27_analysis G σ L' spin nside hv hσ κ ρ hρ hex μ hμ
    (fun l m => if l < L then c l m else 0) f hf
    (fun t p ht => by rw [hs t p ht, harmonicSum_extend hLL]) reality
    (fun a b => realHarmonics_extend (hre a b)) k hk
  refine ⟨g, e, fun el m a b m0 m1 => ?_⟩
  rw [hg el m a b m0 m1]
  by_cases h1 : |spin| ≤ el <;> by_cases h2 : |m| ≤ el <;> by_cases h3 : el < L <;> simp [h1, h2, h3]

end

/-! ## The on-the-fly transforms -/

section
variable (B : Backends) (G : Machine) (σ σ' : Scheme) (L L' spin : ℤ) (nside nside' : Option ℤ)

/-- From one grid to another on the fly: `inverse` never meets coefficients of degrees below the spin,
which it would not ignore (C39), because `forward` returns none. -/
theorem C57_otf_convert (hv : σ.Valid L (nside.getD 0)) (hσ : SamplingTheorem G.toGlTables σ L)
    (μ ν : PyStr) (hμ : μ ∈ [mNumpy, mJax, mTorch]) (hν : ν ∈ [mNumpy, mJax, mTorch])
    (hsp : |spin| < L) (hsp' : |spin| < L') (h8 : spin < 8) (hlo : LowerOk μ L 0)
    (hlo' : LowerOk ν L' 0)
    (hv' : σ'.Valid L' (nside'.getD 0)) (hhp : σ' = .healpix → 2 * nside'.getD 0 ≤ L')
    (c : ℤ → ℤ → ℂ) (f : Nd ℂ) (hf : f.shape = σ.shape L (nside.getD 0))
    (hs : SamplesOf G.nodes σ L (nside.getD 0) f.get2 (harmonicSum 0 L spin c))
    (reality : Bool) (hrs : reality = true → spin = 0) (hre : reality = true → RealHarmonics c 0 L)
    (p p' : Option PmPre) (hP : PrecompsArg G L spin σ.name nside true p)
    (hP' : PrecompsArg G L' spin σ'.name nside' false p')
    (hr : OtfRegular G σ L (nside.getD 0) spin true) (hst : ExactStored G σ L nside true)
    (hr' : OtfRegular G σ' L' (nside'.getD 0) spin false) (hst' : ExactStored G σ' L' nside' false)
    (iter : Option ℤ) (hit : iter = none ∨ iter = some 0) (k : ℤ) :
    ∃ g f', sphericalForward B G f L spin nside σ.name μ reality p 0 iter k
        = .ok (.d2 L (2 * L - 1) g) ∧
      sphericalInverse B G (.d2 L' (2 * L' - 1) (resized L L' g)) L' spin nside' σ'.name ν reality p' 0 k
        = .ok f' ∧ f'.shape = σ'.shape L' (nside'.getD 0) ∧
      SamplesOf G.nodes σ' L' (nside'.getD 0) f'.get2 (harmonicSum 0 (min L L') spin c) := by
  have hL := hv.1
  obtain ⟨g, e, hg⟩ := C39_analysis_partial B G σ L spin 0 nside hv hσ μ hμ hsp h8 hlo c f hf hs reality
    hrs hre p hP hr hst iter hit k
  have ha : Analysed L spin c g := fun el m a b m0 m1 => by
    rw [hg el m a b m0 m1, max_eq_left (abs_nonneg spin)]
  obtain ⟨f', e', hs', h'⟩ := C39_expansion_partial B G σ' L' spin 0 nside' hv' hhp ν hν hsp' h8 hlo'
    (resized L L' g) (resized_low ha) reality hrs
    (resized_order_zero hL ha (fun a _ => hre a)) p' hP' hr' k
  refine ⟨g, f', e, e', hs', fun t q ht => ?_⟩
  rw [h' t q ht, show G.rnd (σ'.theta G.nodes L' (nside'.getD 0) t)
    = σ'.theta G.nodes L' (nside'.getD 0) t from hst' t ht.1 ht.2.1,
    resized_coeffs ha (fun a _ => hre a)]

/-- A signal of band limit `L` sampled for a larger one. -/
theorem C57_otf_finer (hLL : L ≤ L') (hv : σ.Valid L' (nside.getD 0))
    (hσ : SamplingTheorem G.toGlTables σ L') (μ : PyStr) (hμ : μ ∈ [mNumpy, mJax, mTorch])
    (hsp : |spin| < L') (h8 : spin < 8) (hlo : LowerOk μ L' 0)
    (c : ℤ → ℤ → ℂ) (f : Nd ℂ) (hf : f.shape = σ.shape L' (nside.getD 0))
    (hs : SamplesOf G.nodes σ L' (nside.getD 0) f.get2 (harmonicSum 0 L spin c))
    (reality : Bool) (hrs : reality = true → spin = 0) (hre : reality = true → RealHarmonics c 0 L)
    (p : Option PmPre) (hP : PrecompsArg G L' spin σ.name nside true p)
    (hr : OtfRegular G σ L' (nside.getD 0) spin true) (hst : ExactStored G σ L' nside true)
    (iter : Option ℤ) (hit : iter = none ∨ iter = some 0) (k : ℤ) :
    ∃ g, sphericalForward B G f L' spin nside σ.name μ reality p 0 iter k
        = .ok (.d2 L' (2 * L' - 1) g) ∧
      ∀ el m, 0 ≤ el → el < L' → -L' < m → m < L' →
        g el (m + L' - 1) = if |spin| ≤ el ∧ |m| ≤ el ∧ el < L then c el m else 0 := by
  obtain ⟨g, e, hg⟩ := C39_analysis_partial B G σ L' spin 0 nside hv hσ μ hμ hsp h8 hlo
    (fun l m => if l < L then c l m else 0) f hf
    (fun t p ht => by rw [hs t p ht, harmonicSum_extend hLL]) reality hrs
    (fun a => realHarmonics_extend (hre a)) p hP hr hst iter hit k
  refine ⟨g, e, fun el m a b m0 m1 => ?_⟩
  rw [hg el m a b m0 m1, max_eq_left (abs_nonneg spin)]
  by_cases h1 : |spin| ≤ el <;> by_cases h2 : |m| ≤ el <;> by_cases h3 : el < L <;> simp [h1, h2, h3]

end

/-- From the MW grid for `L = 4` to the HEALPix grid with `nside = 4` and `L' = 8`, spin 2. -/
example (G : GlTables) (c : ℤ → ℤ → ℂ) : ∃ f : Nd ℂ, f.shape = [4, 7] ∧ ∃ g f',
    baseForwardWith G f 4 2 sMW bVec none false 0 = .ok (.d2 4 7 g) ∧
      baseInverseWith G (.d2 8 15 (resized 4 8 g)) 8 2 sHP bVec (some 4) false 0 = .ok f' ∧
      f'.shape = [192] ∧ SamplesOf G.nodes .healpix 8 4 f'.get2 (harmonicSum 0 4 2 c) := by
  refine ⟨.d2 4 7 fun t p => harmonicSum 0 4 2 c (Scheme.mw.theta G.nodes 4 0 t) (Scheme.mw.phi 4 0 t p),
    rfl, ?_⟩
  have hv : Scheme.healpix.Valid 8 4 := ⟨by norm_num, fun _ => by norm_num⟩
  exact C57_base_convert G .mw .healpix 4 8 2 none (some 4) ⟨by norm_num, by rintro ⟨⟩⟩
    ⟨by rintro ⟨⟩, by rintro ⟨⟩⟩
    (C24_grids G.nodes .mw 4 0 (Or.inl rfl) (by norm_num) (by norm_num)).2 hv
    (C18_grids G.nodes .healpix 8 4 hv (fun h => nomatch h) (by norm_num) (by norm_num))
    bVec bVec (by simp) (by simp) (fun _ _ => by norm_num) c _ rfl (fun t p _ => rfl) false
    (fun h => nomatch h)

end S2fft
