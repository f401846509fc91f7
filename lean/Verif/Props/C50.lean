import Verif.Lemmas.StableWigner
import Verif.Props.C27

/-!
# C50: analysis and synthesis are stable, uniformly in the band-limit

Samples that differ by at most `η` give coefficients that differ by at most `80 π √((2l+1)/4π) η` (on
the sphere) and `160 π² η` (on SO(3)): the constants do not depend on the band-limit, the spin or the
number of directions. Coefficients that differ give samples that differ by at most the size of the
difference.
-/

namespace S2fft
open Spec

/-! ## The base transforms -/

section
variable (G : GlTables) (σ : Scheme) (L spin lo : ℤ) (nside : Option ℤ)

/-- Two arrays of samples, on every grid with a sampling theorem, rings in the pole windows included. -/
theorem C50_base_forward (hv : σ.Valid L (nside.getD 0)) (hσ : SamplingTheorem G σ L)
    (method : PyStr) (hmt : method ∈ [bDirect, bSov, bSovFft, bVec]) (h0 : 0 ≤ lo) (h1 : lo < L)
    (f f' : Nd ℂ) (hf : f.shape = σ.shape L (nside.getD 0)) (hf' : f'.shape = σ.shape L (nside.getD 0))
    (η : ℝ) (h : ∀ t p, σ.Has L (nside.getD 0) t p → ‖f.get2 t p - f'.get2 t p‖ ≤ η) (reality : Bool)
    (hre : reality = true → spin = 0 → RealInput G.nodes σ L (nside.getD 0) f.get2)
    (hre' : reality = true → spin = 0 → RealInput G.nodes σ L (nside.getD 0) f'.get2) :
    ∃ g g', baseForwardWith G f L spin σ.name method nside reality lo = .ok (.d2 L (2 * L - 1) g) ∧
      baseForwardWith G f' L spin σ.name method nside reality lo = .ok (.d2 L (2 * L - 1) g') ∧
      ∀ el m, 0 ≤ el → el < L → -L < m → m < L → ‖g el (m + L - 1) - g' el (m + L - 1)‖
        ≤ 80 * Real.pi * √((2 * (el : ℝ) + 1) / (4 * Real.pi)) * η := by
  have hη : 0 ≤ η := (norm_nonneg _).trans (h 0 0 (has_zero hv hσ))
  obtain ⟨g, e, hg, hz⟩ := baseForwardWith_values G (lower_name σ) (method := method) hmt
    (fun _ h => absurd h hσ.1) (spin := spin) hv (fun _ h => absurd h hσ.1) f hf reality h0 h1
    (by rintro _ a rfl; exact realInput_rings hv.1 (hre a rfl))
  obtain ⟨g', e', hg', hz'⟩ := baseForwardWith_values G (lower_name σ) (method := method) hmt
    (fun _ h => absurd h hσ.1) (spin := spin) hv (fun _ h => absurd h hσ.1) f' hf' reality h0 h1
    (by rintro _ a rfl; exact realInput_rings hv.1 (hre' a rfl))
  refine ⟨g, g', e, e', fun el m a b m0 m1 => ?_⟩
  by_cases hel : el < elStart lo spin
  · rw [hz el _ hel, hz' el _ hel, sub_zero, norm_zero]
    positivity
  · rw [hg el m (not_lt.1 hel) b m0 m1, hg' el m (not_lt.1 hel) b m0 m1, ← fAt_snap, ← fAt_snap]
    exact symm_fAt_stable hv hσ spin h _ _ el m

/-- Noisy samples of an expansion. Away from the pole windows of the recursion `ε` may be zero. -/
theorem C50_base_analysis (hv : σ.Valid L (nside.getD 0)) (hσ : SamplingTheorem G σ L)
    (method : PyStr) (hmt : method ∈ [bDirect, bSov, bSovFft, bVec]) (h0 : 0 ≤ lo) (h1 : lo < L)
    (c : ℤ → ℤ → ℂ) (f : Nd ℂ) (hf : f.shape = σ.shape L (nside.getD 0)) (η M ε : ℝ) (hε : 0 ≤ ε)
    (hwin : InnerExact G.nodes σ L (nside.getD 0) ∨ 3.2e-5 ≤ ε)
    (hM : ∀ t p, σ.Has L (nside.getD 0) t p → ‖f.get2 t p‖ ≤ M)
    (hs : ∀ t p, σ.Has L (nside.getD 0) t p → ‖f.get2 t p - harmonicSum 0 L spin c
      (σ.theta G.nodes L (nside.getD 0) t) (σ.phi L (nside.getD 0) t p)‖ ≤ η)
    (reality : Bool) (hre : reality = true → spin = 0 →
      RealHarmonics c 0 L ∧ RealInput G.nodes σ L (nside.getD 0) f.get2) :
    ∃ g, baseForwardWith G f L spin σ.name method nside reality lo = .ok (.d2 L (2 * L - 1) g) ∧
      ∀ el m, 0 ≤ el → el < L → -L < m → m < L →
        ‖g el (m + L - 1) - (if max |spin| lo ≤ el ∧ |m| ≤ el then c el m else 0)‖
          ≤ 80 * Real.pi * √((2 * (el : ℝ) + 1) / (4 * Real.pi)) * (η + (el + 1) * ε * M) := by
  have hη : 0 ≤ η := (norm_nonneg _).trans (hs 0 0 (has_zero hv hσ))
  have hM0 : 0 ≤ M := (norm_nonneg _).trans (hM 0 0 (has_zero hv hσ))
  obtain ⟨g, e, hg, hz⟩ := baseForwardWith_values G (lower_name σ) (method := method) hmt
    (fun _ h => absurd h hσ.1) (spin := spin) hv (fun _ h => absurd h hσ.1) f hf reality h0 h1
    (by rintro _ a rfl; exact realInput_rings hv.1 (hre a rfl).2)
  refine ⟨g, e, fun el m a b m0 m1 => ?_⟩
  have hel0 : (0 : ℝ) ≤ el := by exact_mod_cast a
  have hes : elStart lo spin = max |spin| lo := by unfold elStart; rw [max_comm]
  by_cases hel : el < elStart lo spin
  · rw [hz el _ hel, if_neg (by rintro ⟨h, -⟩; omega), sub_zero, norm_zero]
    positivity
  · rw [hg el m (not_lt.1 hel) b m0 m1, ← fAt_snap]
    have hα : ∀ t, 0 ≤ t → t < innerRings σ L (nside.getD 0) →
        |snapAngle (innerTheta G.nodes σ L (nside.getD 0) t)
          - innerTheta G.nodes σ L (nside.getD 0) t| ≤ ε := by
      intro t t0 t1
      rcases hwin with hw | hw
      · rw [snapAngle_eq _ (hw t t0 t1), sub_self, abs_zero]; exact hε
      · exact (snapAngle_close _).trans hw
    have := analysis_near hv hσ hα hM hs (reality := effReality reality spin)
      (fun h => (hre (effReality_true h) (effReality_spin h)).1) a b m0 m1
    have h2 : max |spin| lo ≤ el := by omega
    have h3 : |spin| ≤ el := le_trans (le_max_left _ _) h2
    simp only [h2, h3, true_and] at this ⊢
    exact this

/-- Two arrays of coefficients: on every grid, HEALPix included. -/
theorem C50_base_inverse (hv : σ.Valid L (nside.getD 0))
    (method : PyStr) (hmt : method ∈ [bDirect, bSov, bSovFft, bVec])
    (hhp : method = bSovFft ∨ method = bVec → σ = .healpix → 2 * nside.getD 0 ≤ L)
    (h0 : 0 ≤ lo) (h1 : lo < L) (flm flm' : ℤ → ℤ → ℂ) (reality : Bool)
    (hre : method = bSovFft ∨ method = bVec → RealOrderZero flm L spin reality lo)
    (hre' : method = bSovFft ∨ method = bVec → RealOrderZero flm' L spin reality lo) :
    ∃ f f', baseInverseWith G (.d2 L (2 * L - 1) flm) L spin σ.name method nside reality lo = .ok f ∧
      baseInverseWith G (.d2 L (2 * L - 1) flm') L spin σ.name method nside reality lo = .ok f' ∧
      f.shape = σ.shape L (nside.getD 0) ∧ f'.shape = σ.shape L (nside.getD 0) ∧
      ∀ t p, σ.Has L (nside.getD 0) t p →
        ‖f.get2 (σ.pos (nside.getD 0) t p).1 (σ.pos (nside.getD 0) t p).2
          - f'.get2 (σ.pos (nside.getD 0) t p).1 (σ.pos (nside.getD 0) t p).2‖
          ≤ coeffSize L (fun l m => coeffs flm L spin reality l m - coeffs flm' L spin reality l m) := by
  have key : ∀ flm, (method = bSovFft ∨ method = bVec → RealOrderZero flm L spin reality lo) →
      ∃ f, baseInverseWith G (.d2 L (2 * L - 1) flm) L spin σ.name method nside reality lo = .ok f ∧
        f.shape = σ.shape L (nside.getD 0) ∧ ∀ t p, σ.Has L (nside.getD 0) t p →
        f.get2 (σ.pos (nside.getD 0) t p).1 (σ.pos (nside.getD 0) t p).2
          = harmonicSum lo L spin (coeffs flm L spin reality)
              (snapAngle (σ.theta G.nodes L (nside.getD 0) t)) (σ.phi L (nside.getD 0) t p) := by
    intro flm hre
    obtain ⟨out, e, hs, hf⟩ := baseInverseWith_values G (lower_name σ) (method := method)
      hmt (fun _ => mOffset_name σ) (spin := spin) hv hhp flm reality h0 h1 hre
    refine ⟨out, e, hs, fun t p h => ?_⟩
    rw [hf t p h, synth_gVal_harmonic flm _ h0 hv.1 (by
      split_ifs with h
      · intro h'; cases h'
      · intro h'; by_contra hne; exact h ⟨h', hne⟩)]
    congr 1
    unfold coeffs
    by_cases a : reality = true <;> by_cases b : spin = 0 <;> simp [a, b]
  obtain ⟨f, e, hs, hf⟩ := key flm hre
  obtain ⟨f', e', hs', hf'⟩ := key flm' hre'
  refine ⟨f, f', e, e', hs, hs', fun t p ht => ?_⟩
  rw [hf t p ht, hf' t p ht, ← harmonicSum_sub]
  exact harmonicSum_lower_le h0 _ _ _ _ _

end

/-! ## The transforms with precomputed kernels -/

theorem C50_precompute_forward (G : GlTables) (σ : Scheme) (L spin : ℤ) (nside : Option ℤ)
    (hv : σ.Valid L (nside.getD 0)) (hσ : SamplingTheorem G σ L)
    (κ recursion : PyStr) (hrec : RecursionOk L spin recursion)
    (hex : KernelExact G.nodes σ L (nside.getD 0) spin true κ recursion)
    (method : PyStr) (hmt : method ∈ [mNumpy, mJax, mTorch])
    (f f' : Nd ℂ) (hf : f.shape = σ.shape L (nside.getD 0)) (hf' : f'.shape = σ.shape L (nside.getD 0))
    (η : ℝ) (h : ∀ t p, σ.Has L (nside.getD 0) t p → ‖f.get2 t p - f'.get2 t p‖ ≤ η) (reality : Bool)
    (hre : reality = true → spin = 0 → RealInput G.nodes σ L (nside.getD 0) f.get2)
    (hre' : reality = true → spin = 0 → RealInput G.nodes σ L (nside.getD 0) f'.get2)
    (kernel : Option (Nd ℂ))
    (hk : KernelArg G L spin reality σ.name nside true method κ recursion kernel) :
    ∃ g g', precomputeForwardTop G f L spin kernel σ.name reality method nside 0
        = .ok (.d2 L (2 * L - 1) g) ∧
      precomputeForwardTop G f' L spin kernel σ.name reality method nside 0
        = .ok (.d2 L (2 * L - 1) g') ∧
      ∀ el m, 0 ≤ el → el < L → -L < m → m < L → ‖g el (m + L - 1) - g' el (m + L - 1)‖
        ≤ 80 * Real.pi * √((2 * (el : ℝ) + 1) / (4 * Real.pi)) * η := by
  obtain ⟨K, e, hK⟩ := getKernel_ok G hv reality true hrec hex hk
  obtain ⟨g, e1, hg⟩ := precomputeForwardTop_values hmt G hv (fun h => absurd h hσ.1) f hf reality
    hre hK e
  obtain ⟨g', e2, hg'⟩ := precomputeForwardTop_values hmt G hv (fun h => absurd h hσ.1) f' hf' reality
    hre' hK e
  refine ⟨g, g', e1, e2, fun el m a b m0 m1 => ?_⟩
  rw [hg el m a b m0 m1, hg' el m a b m0 m1]
  exact symm_fAt_stable hv hσ spin h _ _ el m

theorem C50_precompute_inverse (G : GlTables) (σ : Scheme) (L spin : ℤ) (nside : Option ℤ)
    (hv : σ.Valid L (nside.getD 0)) (hhp : σ = .healpix → 2 * nside.getD 0 ≤ L)
    (κ recursion : PyStr) (hrec : RecursionOk L spin recursion)
    (hex : KernelExact G.nodes σ L (nside.getD 0) spin false κ recursion)
    (method : PyStr) (hmt : method ∈ [mNumpy, mJax, mTorch]) (flm flm' : ℤ → ℤ → ℂ) (reality : Bool)
    (hre : RealOrderZero flm L spin reality 0) (hre' : RealOrderZero flm' L spin reality 0)
    (kernel : Option (Nd ℂ))
    (hk : KernelArg G L spin reality σ.name nside false method κ recursion kernel) :
    ∃ f f', precomputeInverseTop G (.d2 L (2 * L - 1) flm) L spin kernel σ.name reality method nside
        = .ok f ∧
      precomputeInverseTop G (.d2 L (2 * L - 1) flm') L spin kernel σ.name reality method nside
        = .ok f' ∧
      ∀ t p, σ.Has L (nside.getD 0) t p →
        ‖f.get2 (σ.pos (nside.getD 0) t p).1 (σ.pos (nside.getD 0) t p).2
          - f'.get2 (σ.pos (nside.getD 0) t p).1 (σ.pos (nside.getD 0) t p).2‖
          ≤ coeffSize L (fun l m => coeffs flm L spin reality l m - coeffs flm' L spin reality l m) := by
  obtain ⟨f, e, -, h⟩ := C27_expansion G σ L spin nside hv hhp κ recursion hrec hex method hmt flm
    reality hre kernel hk
  obtain ⟨f', e', -, h'⟩ := C27_expansion G σ L spin nside hv hhp κ recursion hrec hex method hmt flm'
    reality hre' kernel hk
  refine ⟨f, f', e, e', fun t p ht => ?_⟩
  rw [h t p ht, h' t p ht, ← harmonicSum_sub]
  exact harmonicSum_lower_le le_rfl _ _ _ _ _

/-! ## The on-the-fly transforms -/

section
variable (B : Backends) (G : Machine) (σ : Scheme) (L : ℤ) (lo : ℤ) (nside : Option ℤ)

theorem C50_otf_forward (spin : ℤ) (hv : σ.Valid L (nside.getD 0))
    (hσ : SamplingTheorem G.toGlTables σ L) (method : PyStr) (hmt : method ∈ [mNumpy, mJax, mTorch])
    (hsp : |spin| < L) (h8 : spin < 8) (hlo : LowerOk method L lo)
    (f f' : Nd ℂ) (hf : f.shape = σ.shape L (nside.getD 0)) (hf' : f'.shape = σ.shape L (nside.getD 0))
    (η : ℝ) (h : ∀ t p, σ.Has L (nside.getD 0) t p → ‖f.get2 t p - f'.get2 t p‖ ≤ η)
    (reality : Bool) (hrs : reality = true → spin = 0)
    (hre : reality = true → RealInput G.nodes σ L (nside.getD 0) f.get2)
    (hre' : reality = true → RealInput G.nodes σ L (nside.getD 0) f'.get2)
    (precomps : Option PmPre) (hP : PrecompsArg G L spin σ.name nside true precomps)
    (hr : OtfRegular G σ L (nside.getD 0) spin true)
    (iter : Option ℤ) (hit : iter = none ∨ iter = some 0) (k : ℤ) :
    ∃ g g', sphericalForward B G f L spin nside σ.name method reality precomps lo iter k
        = .ok (.d2 L (2 * L - 1) g) ∧
      sphericalForward B G f' L spin nside σ.name method reality precomps lo iter k
        = .ok (.d2 L (2 * L - 1) g') ∧
      ∀ el m, 0 ≤ el → el < L → -L < m → m < L → ‖g el (m + L - 1) - g' el (m + L - 1)‖
        ≤ 80 * Real.pi * √((2 * (el : ℝ) + 1) / (4 * Real.pi)) * η := by
  have hη : 0 ≤ η := (norm_nonneg _).trans (h 0 0 (has_zero hv hσ))
  obtain ⟨g, e, hg⟩ := sphericalForward_values B G σ L spin lo nside hv method hmt
    (fun h => absurd h hσ.1) hsp h8 hlo f hf reality (by
      intro h
      have := hrs h; subst this
      exact realInput_rings hv.1 (hre h)) precomps hP hr iter hit k
  obtain ⟨g', e', hg'⟩ := sphericalForward_values B G σ L spin lo nside hv method hmt
    (fun h => absurd h hσ.1) hsp h8 hlo f' hf' reality (by
      intro h
      have := hrs h; subst this
      exact realInput_rings hv.1 (hre' h)) precomps hP hr iter hit k
  refine ⟨g, g', e, e', fun el m a b m0 m1 => ?_⟩
  rw [hg el m a b m0 m1, hg' el m a b m0 m1]
  split_ifs
  · rw [sub_zero, norm_zero]; positivity
  · exact symm_fAt_stable hv hσ spin h _ _ el m

theorem C50_otf_inverse (spin : ℤ) (hv : σ.Valid L (nside.getD 0))
    (hhp : σ = .healpix → 2 * nside.getD 0 ≤ L) (method : PyStr)
    (hmt : method ∈ [mNumpy, mJax, mTorch]) (hsp : |spin| < L) (h8 : spin < 8)
    (hlo : LowerOk method L lo) (flm flm' : ℤ → ℤ → ℂ)
    (hf : ∀ el k, lo ≤ el → el < |spin| → 0 ≤ k → k < 2 * L - 1 → flm el k = 0)
    (hf' : ∀ el k, lo ≤ el → el < |spin| → 0 ≤ k → k < 2 * L - 1 → flm' el k = 0) (reality : Bool)
    (hrs : reality = true → spin = 0) (hre : RealOrderZero flm L spin reality lo)
    (hre' : RealOrderZero flm' L spin reality lo)
    (precomps : Option PmPre) (hP : PrecompsArg G L spin σ.name nside false precomps)
    (hr : OtfRegular G σ L (nside.getD 0) spin false) (k : ℤ) :
    ∃ f f', sphericalInverse B G (.d2 L (2 * L - 1) flm) L spin nside σ.name method reality precomps
        lo k = .ok f ∧
      sphericalInverse B G (.d2 L (2 * L - 1) flm') L spin nside σ.name method reality precomps
        lo k = .ok f' ∧
      ∀ t p, σ.Has L (nside.getD 0) t p →
        ‖f.get2 (σ.pos (nside.getD 0) t p).1 (σ.pos (nside.getD 0) t p).2
          - f'.get2 (σ.pos (nside.getD 0) t p).1 (σ.pos (nside.getD 0) t p).2‖
          ≤ coeffSize L (fun l m => coeffs flm L spin reality l m - coeffs flm' L spin reality l m) := by
  obtain ⟨f, e, -, h⟩ := C39_expansion_partial B G σ L spin lo nside hv hhp method hmt hsp h8 hlo
    flm hf reality hrs hre precomps hP hr k
  obtain ⟨f', e', -, h'⟩ := C39_expansion_partial B G σ L spin lo nside hv hhp method hmt hsp h8 hlo
    flm' hf' reality hrs hre' precomps hP hr k
  refine ⟨f, f', e, e', fun t p ht => ?_⟩
  rw [h t p ht, h' t p ht, ← harmonicSum_sub]
  exact harmonicSum_lower_le hlo.1 _ _ _ _ _

/-! ## The Wigner transforms -/

theorem C50_wigner_base_forward (N : ℤ) (T : GlTables) (hv : σ.Valid L (nside.getD 0)) (hN : 1 ≤ N)
    (hσ : SamplingTheorem T σ L) (h0 : 0 ≤ lo) (h1 : lo < L)
    (f f' : Nd ℂ) (hf : f.shape = (2 * N - 1) :: σ.shape L (nside.getD 0))
    (hf' : f'.shape = (2 * N - 1) :: σ.shape L (nside.getD 0)) (η : ℝ)
    (h : ∀ g t p, 0 ≤ g → g < 2 * N - 1 → σ.Has L (nside.getD 0) t p →
      ‖f.get3 g t p - f'.get3 g t p‖ ≤ η) (reality : Bool)
    (hre : reality = true → RealSo3Input T.nodes σ L N (nside.getD 0) f.get3)
    (hre' : reality = true → RealSo3Input T.nodes σ L N (nside.getD 0) f'.get3) :
    ∃ g g', wignerBaseForward T f L N lo σ.name reality nside = .ok (.d3 (2 * N - 1) L (2 * L - 1) g) ∧
      wignerBaseForward T f' L N lo σ.name reality nside = .ok (.d3 (2 * N - 1) L (2 * L - 1) g') ∧
      ∀ n el m, |n| < N → 0 ≤ el → el < L → -L < m → m < L →
        ‖g (N - 1 + n) el (m + L - 1) - g' (N - 1 + n) el (m + L - 1)‖ ≤ 160 * Real.pi ^ 2 * η := by
  obtain ⟨g, e, hg⟩ := wignerBaseForward_values σ L N lo nside T hv hN (fun h => absurd h hσ.1) h0 h1 f hf
    reality (by rintro rfl; exact realSo3_rings σ L N nside hv.1 hN (hre rfl))
  obtain ⟨g', e', hg'⟩ := wignerBaseForward_values σ L N lo nside T hv hN (fun h => absurd h hσ.1) h0 h1
    f' hf' reality (by rintro rfl; exact realSo3_rings σ L N nside hv.1 hN (hre' rfl))
  refine ⟨g, g', e, e', fun n el m hn a b m0 m1 => ?_⟩
  rw [hg n el m hn a b m0 m1, hg' n el m hn a b m0 m1]
  exact wigForward_stable T σ L N lo nside hv hN hσ h _ reality a

theorem C50_wigner_base_inverse (N : ℤ) (T : GlTables) (hv : σ.Valid L (nside.getD 0)) (hN : 1 ≤ N)
    (hhp : σ = .healpix → 2 * nside.getD 0 ≤ L) (h0 : 0 ≤ lo) (h1 : lo < L)
    (flmn flmn' : ℤ → ℤ → ℤ → ℂ) (reality : Bool) (hre : RealOrigin flmn L N reality lo)
    (hre' : RealOrigin flmn' L N reality lo) (hex : GridExact T.nodes σ L (nside.getD 0)) :
    ∃ f f', wignerBaseInverse T (.d3 (2 * N - 1) L (2 * L - 1) flmn) L N lo σ.name reality nside
        = .ok f ∧
      wignerBaseInverse T (.d3 (2 * N - 1) L (2 * L - 1) flmn') L N lo σ.name reality nside
        = .ok f' ∧
      ∀ g t p, 0 ≤ g → g < 2 * N - 1 → σ.Has L (nside.getD 0) t p →
        ‖f.get3 g (σ.pos (nside.getD 0) t p).1 (σ.pos (nside.getD 0) t p).2
          - f'.get3 g (σ.pos (nside.getD 0) t p).1 (σ.pos (nside.getD 0) t p).2‖
          ≤ so3Size L N (fun n l m => wignerCoeffs flmn L N reality n l m
              - wignerCoeffs flmn' L N reality n l m) := by
  obtain ⟨f, e, -, h⟩ := C26_inverse T σ L N lo nside hv hN hhp h0 h1 flmn reality hre hex
  obtain ⟨f', e', -, h'⟩ := C26_inverse T σ L N lo nside hv hN hhp h0 h1 flmn' reality hre' hex
  refine ⟨f, f', e, e', fun g t p g0 g1 ht => ?_⟩
  rw [h g t p g0 g1 ht, h' g t p g0 g1 ht, ← wignerSum_sub]
  exact norm_wignerSum_le h0 _ _ _ _ _ _

theorem C50_wigner_otf_forward (N : ℤ) (hv : σ.Valid L (nside.getD 0))
    (hσ : SamplingTheorem G.toGlTables σ L) (hN : 1 ≤ N) (hNL : N ≤ L) (hN8 : N < 8)
    (method : PyStr) (hmt : method ∈ [mNumpy, mJax, mTorch]) (hlo : LowerOk method L lo)
    (f f' : Nd ℂ) (hf : f.shape = (2 * N - 1) :: σ.shape L (nside.getD 0))
    (hf' : f'.shape = (2 * N - 1) :: σ.shape L (nside.getD 0)) (η : ℝ)
    (h : ∀ g t p, 0 ≤ g → g < 2 * N - 1 → σ.Has L (nside.getD 0) t p →
      ‖f.get3 g t p - f'.get3 g t p‖ ≤ η) (reality : Bool)
    (hre : reality = true → RealSo3Input G.nodes σ L N (nside.getD 0) f.get3)
    (hre' : reality = true → RealSo3Input G.nodes σ L N (nside.getD 0) f'.get3)
    (p : WigPrecomps) (hp : WigPrecompsArg G L N σ.name nside true reality method p)
    (hr : ∀ n, |n| < N → OtfRegular G σ L (nside.getD 0) n true) (k : ℤ) :
    ∃ g g', wignerForward B G f L N nside σ.name method reality p lo k
        = .ok (.d3 (2 * N - 1) L (2 * L - 1) g) ∧
      wignerForward B G f' L N nside σ.name method reality p lo k
        = .ok (.d3 (2 * N - 1) L (2 * L - 1) g') ∧
      ∀ n el m, |n| < N → 0 ≤ el → el < L → -L < m → m < L →
        ‖g (N - 1 + n) el (m + L - 1) - g' (N - 1 + n) el (m + L - 1)‖ ≤ 160 * Real.pi ^ 2 * η := by
  obtain ⟨g, e, hg⟩ := wignerForward_values B G σ L N lo nside hv hN hNL hN8 method hmt
    (fun h => absurd h hσ.1) hlo f hf reality
    (by rintro rfl; exact realSo3_rings σ L N nside hv.1 hN (hre rfl)) p hp hr k
  obtain ⟨g', e', hg'⟩ := wignerForward_values B G σ L N lo nside hv hN hNL hN8 method hmt
    (fun h => absurd h hσ.1) hlo f' hf' reality
    (by rintro rfl; exact realSo3_rings σ L N nside hv.1 hN (hre' rfl)) p hp hr k
  refine ⟨g, g', e, e', fun n el m hn a b m0 m1 => ?_⟩
  rw [hg n el m hn a b m0 m1, hg' n el m hn a b m0 m1]
  exact wigForward_stable G.toGlTables σ L N lo nside hv hN hσ h _ reality a

theorem C50_wigner_otf_inverse (N : ℤ) (hv : σ.Valid L (nside.getD 0))
    (hhp : σ = .healpix → 2 * nside.getD 0 ≤ L) (hN : 1 ≤ N) (hNL : N ≤ L) (hN8 : N < 8)
    (method : PyStr) (hmt : method ∈ [mNumpy, mJax, mTorch]) (hlo : LowerOk method L lo)
    (flmn flmn' : ℤ → ℤ → ℤ → ℂ)
    (hf : ∀ n el k, -N < n → n < N → lo ≤ el → el < |n| → 0 ≤ k →
      k < 2 * L - 1 → flmn (N - 1 + n) el k = 0)
    (hf' : ∀ n el k, -N < n → n < N → lo ≤ el → el < |n| → 0 ≤ k →
      k < 2 * L - 1 → flmn' (N - 1 + n) el k = 0)
    (reality : Bool) (hre : RealOrigin flmn L N reality lo) (hre' : RealOrigin flmn' L N reality lo)
    (hpl : method ≠ mNumpy → reality = true →
      RealHarmonics (fun el m => flmn (N - 1) el (m + L - 1)) lo L)
    (hpl' : method ≠ mNumpy → reality = true →
      RealHarmonics (fun el m => flmn' (N - 1) el (m + L - 1)) lo L)
    (p : WigPrecomps) (hp : WigPrecompsArg G L N σ.name nside false reality method p)
    (hr : ∀ n, |n| < N → OtfRegular G σ L (nside.getD 0) n false) (k : ℤ) :
    ∃ f f', wignerInverse B G (.d3 (2 * N - 1) L (2 * L - 1) flmn) L N nside σ.name method reality p
        lo k = .ok f ∧
      wignerInverse B G (.d3 (2 * N - 1) L (2 * L - 1) flmn') L N nside σ.name method reality p
        lo k = .ok f' ∧
      ∀ g t p, 0 ≤ g → g < 2 * N - 1 → σ.Has L (nside.getD 0) t p →
        ‖f.get3 g (σ.pos (nside.getD 0) t p).1 (σ.pos (nside.getD 0) t p).2
          - f'.get3 g (σ.pos (nside.getD 0) t p).1 (σ.pos (nside.getD 0) t p).2‖
          ≤ so3Size L N (fun n l m => wignerCoeffs flmn L N reality n l m
              - wignerCoeffs flmn' L N reality n l m) := by
  obtain ⟨f, e, -, h⟩ := C38_expansion_partial B G σ L N lo nside hv hhp hN hNL hN8 method hmt hlo
    flmn hf reality hre hpl p hp hr k
  obtain ⟨f', e', -, h'⟩ := C38_expansion_partial B G σ L N lo nside hv hhp hN hNL hN8 method hmt hlo
    flmn' hf' reality hre' hpl' p hp hr k
  refine ⟨f, f', e, e', fun g t p g0 g1 ht => ?_⟩
  rw [h g t p g0 g1 ht, h' g t p g0 g1 ht, ← wignerSum_sub]
  exact norm_wignerSum_le hlo.1 _ _ _ _ _ _

end

/-- The conditions are met by two different arrays of samples: MW with `L = 64`, the second differing
from the first in one sample. -/
example (G : GlTables) : Scheme.mw.Valid 64 0 ∧ SamplingTheorem G .mw 64 ∧
    ∀ t p : ℤ, Scheme.mw.Has 64 0 t p →
      ‖(Nd.d2 64 127 (fun _ _ => (1 : ℂ))).get2 t p
        - (Nd.d2 64 127 (fun i j => if i = 3 ∧ j = 5 then (1 : ℂ) + 1 / 8 else 1)).get2 t p‖
        ≤ 1 / 8 := by
  refine ⟨⟨by norm_num, fun h => nomatch h⟩, ⟨by simp, by simp⟩, fun t p _ => ?_⟩
  simp only [Nd.get2]
  split_ifs <;> norm_num

end S2fft
