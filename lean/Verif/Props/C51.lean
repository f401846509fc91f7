import Verif.Lemmas.LinearComb

/-!
# C51: the transforms are linear

The transform of `a x + b y` is `a` times the transform of `x` plus `b` times that of `y`, for complex
scalars, or real ones when the reality flag is in force. For the forward transforms the samples are
arbitrary: they need not come from a band-limited signal.
-/

namespace S2fft
open Spec

/-! ## The base transforms -/

section
variable (G : GlTables) (σ : Scheme) (L spin lo : ℤ) (nside : Option ℤ) (a b : ℂ)

theorem C51_base_forward (hv : σ.Valid L (nside.getD 0))
    (method : PyStr) (hmt : method ∈ [bDirect, bSov, bSovFft, bVec])
    (hhp : method = bSovFft ∨ method = bVec → σ = .healpix → 2 * nside.getD 0 ≤ L)
    (h0 : 0 ≤ lo) (h1 : lo < L)
    (f f' : Nd ℂ) (hf : f.shape = σ.shape L (nside.getD 0)) (hf' : f'.shape = σ.shape L (nside.getD 0))
    (reality : Bool) (hab : reality = true → spin = 0 → a.im = 0 ∧ b.im = 0)
    (hre : reality = true → spin = 0 → RealInput G.nodes σ L (nside.getD 0) f.get2)
    (hre' : reality = true → spin = 0 → RealInput G.nodes σ L (nside.getD 0) f'.get2) :
    ∃ g g' h, baseForwardWith G f L spin σ.name method nside reality lo = .ok (.d2 L (2 * L - 1) g) ∧
      baseForwardWith G f' L spin σ.name method nside reality lo = .ok (.d2 L (2 * L - 1) g') ∧
      baseForwardWith G (comb a b f f') L spin σ.name method nside reality lo
        = .ok (.d2 L (2 * L - 1) h) ∧
      ∀ el m, 0 ≤ el → el < L → -L < m → m < L →
        h el (m + L - 1) = a * g el (m + L - 1) + b * g' el (m + L - 1) := by
  have e2 := comb_get2 hv a b hf hf'
  obtain ⟨g, e, hg, hz⟩ := baseForwardWith_values G (lower_name σ) (method := method) hmt
    (fun _ h => by rw [h]; rfl) (spin := spin) hv hhp f hf reality h0 h1
    (by rintro _ a rfl; exact realInput_rings hv.1 (hre a rfl))
  obtain ⟨g', e', hg', hz'⟩ := baseForwardWith_values G (lower_name σ) (method := method) hmt
    (fun _ h => by rw [h]; rfl) (spin := spin) hv hhp f' hf' reality h0 h1
    (by rintro _ a rfl; exact realInput_rings hv.1 (hre' a rfl))
  obtain ⟨h, e'', hh, hz''⟩ := baseForwardWith_values G (lower_name σ) (method := method) hmt
    (fun _ h => by rw [h]; rfl) (spin := spin) hv hhp (comb a b f f') ((comb_shape _ _ _ _).trans hf)
    reality h0 h1
    (by
      rintro _ hr rfl
      rw [e2]
      exact realRings_lin a b (hab hr rfl) (realInput_rings hv.1 (hre hr rfl))
        (realInput_rings hv.1 (hre' hr rfl)))
  refine ⟨g, g', h, e, e', e'', fun el m _ b1 m0 m1 => ?_⟩
  by_cases hel : el < elStart lo spin
  · rw [hz el _ hel, hz' el _ hel, hz'' el _ hel]
    ring
  · rw [hg el m (not_lt.1 hel) b1 m0 m1, hg' el m (not_lt.1 hel) b1 m0 m1,
      hh el m (not_lt.1 hel) b1 m0 m1, e2, ← fAt_snap, ← fAt_snap, ← fAt_snap]
    exact forward_lin a b (fun h => hab (effReality_true h) (effReality_spin h)) σ L _ spin _ _ _ _ _ _ _

theorem C51_base_inverse (hv : σ.Valid L (nside.getD 0))
    (method : PyStr) (hmt : method ∈ [bDirect, bSov, bSovFft, bVec])
    (hhp : method = bSovFft ∨ method = bVec → σ = .healpix → 2 * nside.getD 0 ≤ L)
    (h0 : 0 ≤ lo) (h1 : lo < L) (flm flm' : ℤ → ℤ → ℂ) (reality : Bool)
    (hab : reality = true → spin = 0 → a.im = 0 ∧ b.im = 0)
    (hre : method = bSovFft ∨ method = bVec → RealOrderZero flm L spin reality lo)
    (hre' : method = bSovFft ∨ method = bVec → RealOrderZero flm' L spin reality lo) :
    ∃ f f' h, baseInverseWith G (.d2 L (2 * L - 1) flm) L spin σ.name method nside reality lo = .ok f ∧
      baseInverseWith G (.d2 L (2 * L - 1) flm') L spin σ.name method nside reality lo = .ok f' ∧
      baseInverseWith G (comb a b (.d2 L (2 * L - 1) flm) (.d2 L (2 * L - 1) flm')) L spin σ.name
        method nside reality lo = .ok h ∧ h.shape = σ.shape L (nside.getD 0) ∧
      ∀ t p, σ.Has L (nside.getD 0) t p →
        h.get2 (σ.pos (nside.getD 0) t p).1 (σ.pos (nside.getD 0) t p).2
          = a * f.get2 (σ.pos (nside.getD 0) t p).1 (σ.pos (nside.getD 0) t p).2
            + b * f'.get2 (σ.pos (nside.getD 0) t p).1 (σ.pos (nside.getD 0) t p).2 := by
  obtain ⟨f, e, -, hf⟩ := baseInverse_snapped G σ L spin lo nside hv method hmt hhp h0 h1 flm reality hre
  obtain ⟨f', e', -, hf'⟩ := baseInverse_snapped G σ L spin lo nside hv method hmt hhp h0 h1 flm' reality
    hre'
  obtain ⟨h, e'', hs, hh⟩ := baseInverse_snapped G σ L spin lo nside hv method hmt hhp h0 h1
    (fun l k => a * flm l k + b * flm' l k) reality
    (fun hm => realOrderZero_lin a b hab (hre hm) (hre' hm))
  refine ⟨f, f', h, e, e', e'', hs, fun t p ht => ?_⟩
  rw [hf t p ht, hf' t p ht, hh t p ht, coeffs_lin a b hab, harmonicSum_lin]

end

/-! ## The transforms with precomputed kernels -/

theorem C51_precompute_forward (G : GlTables) (σ : Scheme) (L spin : ℤ) (nside : Option ℤ)
    (hv : σ.Valid L (nside.getD 0))
    (κ recursion : PyStr) (hrec : RecursionOk L spin recursion)
    (hex : KernelExact G.nodes σ L (nside.getD 0) spin true κ recursion)
    (method : PyStr) (hmt : method ∈ [mNumpy, mJax, mTorch])
    (hhp : σ = .healpix → 2 * nside.getD 0 ≤ L ∧ (method ≠ mNumpy → 2 ≤ nside.getD 0)) (a b : ℂ)
    (f f' : Nd ℂ) (hf : f.shape = σ.shape L (nside.getD 0)) (hf' : f'.shape = σ.shape L (nside.getD 0))
    (reality : Bool) (hab : reality = true → spin = 0 → a.im = 0 ∧ b.im = 0)
    (hre : reality = true → spin = 0 → RealInput G.nodes σ L (nside.getD 0) f.get2)
    (hre' : reality = true → spin = 0 → RealInput G.nodes σ L (nside.getD 0) f'.get2)
    (kernel : Option (Nd ℂ))
    (hk : KernelArg G L spin reality σ.name nside true method κ recursion kernel) :
    ∃ g g' h, precomputeForwardTop G f L spin kernel σ.name reality method nside 0
        = .ok (.d2 L (2 * L - 1) g) ∧
      precomputeForwardTop G f' L spin kernel σ.name reality method nside 0
        = .ok (.d2 L (2 * L - 1) g') ∧
      precomputeForwardTop G (comb a b f f') L spin kernel σ.name reality method nside 0
        = .ok (.d2 L (2 * L - 1) h) ∧
      ∀ el m, 0 ≤ el → el < L → -L < m → m < L →
        h el (m + L - 1) = a * g el (m + L - 1) + b * g' el (m + L - 1) := by
  have e4 := comb_get2 hv a b hf hf'
  obtain ⟨K, e, hK⟩ := getKernel_ok G hv reality true hrec hex hk
  obtain ⟨g, e1, hg⟩ := precomputeForwardTop_values hmt G hv hhp f hf reality hre hK e
  obtain ⟨g', e2, hg'⟩ := precomputeForwardTop_values hmt G hv hhp f' hf' reality hre' hK e
  obtain ⟨h, e3, hh⟩ := precomputeForwardTop_values hmt G hv hhp (comb a b f f')
    ((comb_shape _ _ _ _).trans hf) reality
    (fun h1 h2 => by rw [e4]; exact realInput_lin a b (hab h1 h2) (hre h1 h2) (hre' h1 h2)) hK e
  refine ⟨g, g', h, e1, e2, e3, fun el m a0 b0 m0 m1 => ?_⟩
  rw [hg el m a0 b0 m0 m1, hg' el m a0 b0 m0 m1, hh el m a0 b0 m0 m1, e4]
  exact forward_lin a b (fun h => hab (effReality_true h) (effReality_spin h)) σ L _ spin _ _ _ _ _ _ _

theorem C51_precompute_inverse (G : GlTables) (σ : Scheme) (L spin : ℤ) (nside : Option ℤ)
    (hv : σ.Valid L (nside.getD 0)) (hhp : σ = .healpix → 2 * nside.getD 0 ≤ L)
    (κ recursion : PyStr) (hrec : RecursionOk L spin recursion)
    (hex : KernelExact G.nodes σ L (nside.getD 0) spin false κ recursion)
    (method : PyStr) (hmt : method ∈ [mNumpy, mJax, mTorch]) (a b : ℂ) (flm flm' : ℤ → ℤ → ℂ)
    (reality : Bool) (hab : reality = true → spin = 0 → a.im = 0 ∧ b.im = 0)
    (hre : RealOrderZero flm L spin reality 0) (hre' : RealOrderZero flm' L spin reality 0)
    (kernel : Option (Nd ℂ))
    (hk : KernelArg G L spin reality σ.name nside false method κ recursion kernel) :
    ∃ f f' h, precomputeInverseTop G (.d2 L (2 * L - 1) flm) L spin kernel σ.name reality method nside
        = .ok f ∧
      precomputeInverseTop G (.d2 L (2 * L - 1) flm') L spin kernel σ.name reality method nside
        = .ok f' ∧
      precomputeInverseTop G (comb a b (.d2 L (2 * L - 1) flm) (.d2 L (2 * L - 1) flm')) L spin kernel
        σ.name reality method nside = .ok h ∧ h.shape = σ.shape L (nside.getD 0) ∧
      ∀ t p, σ.Has L (nside.getD 0) t p →
        h.get2 (σ.pos (nside.getD 0) t p).1 (σ.pos (nside.getD 0) t p).2
          = a * f.get2 (σ.pos (nside.getD 0) t p).1 (σ.pos (nside.getD 0) t p).2
            + b * f'.get2 (σ.pos (nside.getD 0) t p).1 (σ.pos (nside.getD 0) t p).2 := by
  obtain ⟨f, e, -, hf⟩ := C27_expansion G σ L spin nside hv hhp κ recursion hrec hex method hmt flm
    reality hre kernel hk
  obtain ⟨f', e', -, hf'⟩ := C27_expansion G σ L spin nside hv hhp κ recursion hrec hex method hmt flm'
    reality hre' kernel hk
  obtain ⟨h, e'', hs, hh⟩ := C27_expansion G σ L spin nside hv hhp κ recursion hrec hex method hmt
    (fun l k => a * flm l k + b * flm' l k) reality (realOrderZero_lin a b hab hre hre') kernel hk
  refine ⟨f, f', h, e, e', e'', hs, fun t p ht => ?_⟩
  rw [hf t p ht, hf' t p ht, hh t p ht, coeffs_lin a b hab, harmonicSum_lin]

/-! ## The on-the-fly transforms -/

section
variable (B : Backends) (G : Machine) (σ : Scheme) (L : ℤ) (lo : ℤ) (nside : Option ℤ) (a b : ℂ)

theorem C51_otf_forward (spin : ℤ) (hv : σ.Valid L (nside.getD 0))
    (method : PyStr) (hmt : method ∈ [mNumpy, mJax, mTorch])
    (hhp : σ = .healpix → 2 * nside.getD 0 ≤ L ∧ (method ≠ mNumpy → 2 ≤ nside.getD 0))
    (hsp : |spin| < L) (h8 : spin < 8) (hlo : LowerOk method L lo)
    (f f' : Nd ℂ) (hf : f.shape = σ.shape L (nside.getD 0)) (hf' : f'.shape = σ.shape L (nside.getD 0))
    (reality : Bool) (hrs : reality = true → spin = 0)
    (hab : reality = true → a.im = 0 ∧ b.im = 0)
    (hre : reality = true → RealInput G.nodes σ L (nside.getD 0) f.get2)
    (hre' : reality = true → RealInput G.nodes σ L (nside.getD 0) f'.get2)
    (precomps : Option PmPre) (hP : PrecompsArg G L spin σ.name nside true precomps)
    (hr : OtfRegular G σ L (nside.getD 0) spin true)
    (iter : Option ℤ) (hit : iter = none ∨ iter = some 0) (k : ℤ) :
    ∃ g g' h, sphericalForward B G f L spin nside σ.name method reality precomps lo iter k
        = .ok (.d2 L (2 * L - 1) g) ∧
      sphericalForward B G f' L spin nside σ.name method reality precomps lo iter k
        = .ok (.d2 L (2 * L - 1) g') ∧
      sphericalForward B G (comb a b f f') L spin nside σ.name method reality precomps lo iter k
        = .ok (.d2 L (2 * L - 1) h) ∧
      ∀ el m, 0 ≤ el → el < L → -L < m → m < L →
        h el (m + L - 1) = a * g el (m + L - 1) + b * g' el (m + L - 1) := by
  have e4 := comb_get2 hv a b hf hf'
  have hR : ∀ {f : Nd ℂ}, (reality = true → RealInput G.nodes σ L (nside.getD 0) f.get2) →
      reality = true → RealRings σ.inner L (nside.getD 0) (innerRings σ L (nside.getD 0))
        (innerSignal σ L spin f.get2) := by
    intro f hf h
    have := hrs h; subst this
    exact realInput_rings hv.1 (hf h)
  obtain ⟨g, e, hg⟩ := sphericalForward_values B G σ L spin lo nside hv method hmt
    hhp hsp h8 hlo f hf reality (hR hre) precomps hP hr iter hit k
  obtain ⟨g', e', hg'⟩ := sphericalForward_values B G σ L spin lo nside hv method hmt
    hhp hsp h8 hlo f' hf' reality (hR hre') precomps hP hr iter hit k
  obtain ⟨h, e'', hh⟩ := sphericalForward_values B G σ L spin lo nside hv method hmt
    hhp hsp h8 hlo (comb a b f f') ((comb_shape _ _ _ _).trans hf) reality
    (fun h => by rw [e4]; exact realRings_lin a b (hab h) (hR hre h) (hR hre' h))
    precomps hP hr iter hit k
  refine ⟨g, g', h, e, e', e'', fun el m a0 b0 m0 m1 => ?_⟩
  rw [hg el m a0 b0 m0 m1, hg' el m a0 b0 m0 m1, hh el m a0 b0 m0 m1, e4]
  split_ifs
  · ring
  · exact forward_lin a b hab σ L _ spin _ _ _ _ _ _ _

theorem C51_otf_inverse (spin : ℤ) (hv : σ.Valid L (nside.getD 0))
    (hhp : σ = .healpix → 2 * nside.getD 0 ≤ L) (method : PyStr)
    (hmt : method ∈ [mNumpy, mJax, mTorch]) (hsp : |spin| < L) (h8 : spin < 8)
    (hlo : LowerOk method L lo) (flm flm' : ℤ → ℤ → ℂ)
    (hf : ∀ el k, lo ≤ el → el < |spin| → 0 ≤ k → k < 2 * L - 1 → flm el k = 0)
    (hf' : ∀ el k, lo ≤ el → el < |spin| → 0 ≤ k → k < 2 * L - 1 → flm' el k = 0) (reality : Bool)
    (hrs : reality = true → spin = 0) (hab : reality = true → a.im = 0 ∧ b.im = 0)
    (hre : RealOrderZero flm L spin reality lo) (hre' : RealOrderZero flm' L spin reality lo)
    (precomps : Option PmPre) (hP : PrecompsArg G L spin σ.name nside false precomps)
    (hr : OtfRegular G σ L (nside.getD 0) spin false) (k : ℤ) :
    ∃ f f' h, sphericalInverse B G (.d2 L (2 * L - 1) flm) L spin nside σ.name method reality precomps
        lo k = .ok f ∧
      sphericalInverse B G (.d2 L (2 * L - 1) flm') L spin nside σ.name method reality precomps
        lo k = .ok f' ∧
      sphericalInverse B G (comb a b (.d2 L (2 * L - 1) flm) (.d2 L (2 * L - 1) flm')) L spin nside
        σ.name method reality precomps lo k = .ok h ∧ h.shape = σ.shape L (nside.getD 0) ∧
      ∀ t p, σ.Has L (nside.getD 0) t p →
        h.get2 (σ.pos (nside.getD 0) t p).1 (σ.pos (nside.getD 0) t p).2
          = a * f.get2 (σ.pos (nside.getD 0) t p).1 (σ.pos (nside.getD 0) t p).2
            + b * f'.get2 (σ.pos (nside.getD 0) t p).1 (σ.pos (nside.getD 0) t p).2 := by
  obtain ⟨f, e, -, hg⟩ := C39_expansion_partial B G σ L spin lo nside hv hhp method hmt hsp h8 hlo
    flm hf reality hrs hre precomps hP hr k
  obtain ⟨f', e', -, hg'⟩ := C39_expansion_partial B G σ L spin lo nside hv hhp method hmt hsp h8 hlo
    flm' hf' reality hrs hre' precomps hP hr k
  obtain ⟨h, e'', hs, hh⟩ := C39_expansion_partial B G σ L spin lo nside hv hhp method hmt hsp h8 hlo
    (fun l k => a * flm l k + b * flm' l k)
    (fun el k h1 h2 h3 h4 => by rw [hf el k h1 h2 h3 h4, hf' el k h1 h2 h3 h4]; ring) reality hrs
    (realOrderZero_lin a b (fun h _ => hab h) hre hre') precomps hP hr k
  refine ⟨f, f', h, e, e', e'', hs, fun t p ht => ?_⟩
  rw [hg t p ht, hg' t p ht, hh t p ht, coeffs_lin a b (fun h _ => hab h), harmonicSum_lin]

/-! ## The Wigner transforms -/

theorem C51_wigner_base_forward (N : ℤ) (T : GlTables) (hv : σ.Valid L (nside.getD 0)) (hN : 1 ≤ N)
    (hhp : σ = .healpix → 2 * nside.getD 0 ≤ L) (h0 : 0 ≤ lo) (h1 : lo < L)
    (f f' : Nd ℂ) (hf : f.shape = (2 * N - 1) :: σ.shape L (nside.getD 0))
    (hf' : f'.shape = (2 * N - 1) :: σ.shape L (nside.getD 0)) (reality : Bool)
    (hab : reality = true → a.im = 0 ∧ b.im = 0)
    (hre : reality = true → RealSo3Input T.nodes σ L N (nside.getD 0) f.get3)
    (hre' : reality = true → RealSo3Input T.nodes σ L N (nside.getD 0) f'.get3) :
    ∃ g g' h, wignerBaseForward T f L N lo σ.name reality nside = .ok (.d3 (2 * N - 1) L (2 * L - 1) g) ∧
      wignerBaseForward T f' L N lo σ.name reality nside = .ok (.d3 (2 * N - 1) L (2 * L - 1) g') ∧
      wignerBaseForward T (comb a b f f') L N lo σ.name reality nside
        = .ok (.d3 (2 * N - 1) L (2 * L - 1) h) ∧
      ∀ n el m, |n| < N → 0 ≤ el → el < L → -L < m → m < L → h (N - 1 + n) el (m + L - 1)
        = a * g (N - 1 + n) el (m + L - 1) + b * g' (N - 1 + n) el (m + L - 1) := by
  have e4 := comb_get3 hv a b hN hf hf'
  have hR := fun hr => realSo3_rings σ L N nside hv.1 hN (hre hr)
  have hR' := fun hr => realSo3_rings σ L N nside hv.1 hN (hre' hr)
  obtain ⟨g, e, hg⟩ := wignerBaseForward_values σ L N lo nside T hv hN hhp h0 h1 f hf
    reality (by rintro rfl; exact hR rfl)
  obtain ⟨g', e', hg'⟩ := wignerBaseForward_values σ L N lo nside T hv hN hhp h0 h1
    f' hf' reality (by rintro rfl; exact hR' rfl)
  obtain ⟨h, e'', hh⟩ := wignerBaseForward_values σ L N lo nside T hv hN hhp h0 h1
    (comb a b f f') ((comb_shape _ _ _ _).trans hf) reality
    (by rintro rfl; exact wigRings_real_lin a b (hab rfl) e4 (hR rfl) (hR' rfl))
  refine ⟨g, g', h, e, e', e'', fun n el m hn a0 b0 m0 m1 => ?_⟩
  rw [hg n el m hn a0 b0 m0 m1, hg' n el m hn a0 b0 m0 m1, hh n el m hn a0 b0 m0 m1,
    wigForward_lin a b hab σ L N lo nside T e4]
  ring

theorem C51_wigner_base_inverse (N : ℤ) (T : GlTables) (hv : σ.Valid L (nside.getD 0)) (hN : 1 ≤ N)
    (hhp : σ = .healpix → 2 * nside.getD 0 ≤ L) (h0 : 0 ≤ lo) (h1 : lo < L)
    (flmn flmn' : ℤ → ℤ → ℤ → ℂ) (reality : Bool) (hab : reality = true → a.im = 0 ∧ b.im = 0)
    (hre : RealOrigin flmn L N reality lo)
    (hre' : RealOrigin flmn' L N reality lo) (hex : GridExact T.nodes σ L (nside.getD 0)) :
    ∃ f f' h, wignerBaseInverse T (.d3 (2 * N - 1) L (2 * L - 1) flmn) L N lo σ.name reality nside
        = .ok f ∧
      wignerBaseInverse T (.d3 (2 * N - 1) L (2 * L - 1) flmn') L N lo σ.name reality nside
        = .ok f' ∧
      wignerBaseInverse T (comb a b (.d3 (2 * N - 1) L (2 * L - 1) flmn)
        (.d3 (2 * N - 1) L (2 * L - 1) flmn')) L N lo σ.name reality nside = .ok h ∧
      ∀ g t p, 0 ≤ g → g < 2 * N - 1 → σ.Has L (nside.getD 0) t p →
        h.get3 g (σ.pos (nside.getD 0) t p).1 (σ.pos (nside.getD 0) t p).2
          = a * f.get3 g (σ.pos (nside.getD 0) t p).1 (σ.pos (nside.getD 0) t p).2
            + b * f'.get3 g (σ.pos (nside.getD 0) t p).1 (σ.pos (nside.getD 0) t p).2 := by
  obtain ⟨f, e, -, hf⟩ := C26_inverse T σ L N lo nside hv hN hhp h0 h1 flmn reality hre hex
  obtain ⟨f', e', -, hf'⟩ := C26_inverse T σ L N lo nside hv hN hhp h0 h1 flmn' reality hre' hex
  obtain ⟨h, e'', -, hh⟩ := C26_inverse T σ L N lo nside hv hN hhp h0 h1
    (fun n l k => a * flmn n l k + b * flmn' n l k) reality (realOrigin_lin a b hab hre hre') hex
  refine ⟨f, f', h, e, e', e'', fun g t p g0 g1 ht => ?_⟩
  rw [hf g t p g0 g1 ht, hf' g t p g0 g1 ht, hh g t p g0 g1 ht, wignerCoeffs_lin a b hab, wignerSum_lin]

theorem C51_wigner_otf_forward (N : ℤ) (hv : σ.Valid L (nside.getD 0))
    (hN : 1 ≤ N) (hNL : N ≤ L) (hN8 : N < 8)
    (method : PyStr) (hmt : method ∈ [mNumpy, mJax, mTorch])
    (hhp : σ = .healpix → 2 * nside.getD 0 ≤ L ∧ (method ≠ mNumpy → 2 ≤ nside.getD 0))
    (hlo : LowerOk method L lo)
    (f f' : Nd ℂ) (hf : f.shape = (2 * N - 1) :: σ.shape L (nside.getD 0))
    (hf' : f'.shape = (2 * N - 1) :: σ.shape L (nside.getD 0)) (reality : Bool)
    (hab : reality = true → a.im = 0 ∧ b.im = 0)
    (hre : reality = true → RealSo3Input G.nodes σ L N (nside.getD 0) f.get3)
    (hre' : reality = true → RealSo3Input G.nodes σ L N (nside.getD 0) f'.get3)
    (p : WigPrecomps) (hp : WigPrecompsArg G L N σ.name nside true reality method p)
    (hr : ∀ n, |n| < N → OtfRegular G σ L (nside.getD 0) n true) (k : ℤ) :
    ∃ g g' h, wignerForward B G f L N nside σ.name method reality p lo k
        = .ok (.d3 (2 * N - 1) L (2 * L - 1) g) ∧
      wignerForward B G f' L N nside σ.name method reality p lo k
        = .ok (.d3 (2 * N - 1) L (2 * L - 1) g') ∧
      wignerForward B G (comb a b f f') L N nside σ.name method reality p lo k
        = .ok (.d3 (2 * N - 1) L (2 * L - 1) h) ∧
      ∀ n el m, |n| < N → 0 ≤ el → el < L → -L < m → m < L → h (N - 1 + n) el (m + L - 1)
        = a * g (N - 1 + n) el (m + L - 1) + b * g' (N - 1 + n) el (m + L - 1) := by
  have e4 := comb_get3 hv a b hN hf hf'
  have hR := fun hr => realSo3_rings σ L N nside hv.1 hN (hre hr)
  have hR' := fun hr => realSo3_rings σ L N nside hv.1 hN (hre' hr)
  obtain ⟨g, e, hg⟩ := wignerForward_values B G σ L N lo nside hv hN hNL hN8 method hmt
    hhp hlo f hf reality (by rintro rfl; exact hR rfl) p hp hr k
  obtain ⟨g', e', hg'⟩ := wignerForward_values B G σ L N lo nside hv hN hNL hN8 method hmt
    hhp hlo f' hf' reality (by rintro rfl; exact hR' rfl) p hp hr k
  obtain ⟨h, e'', hh⟩ := wignerForward_values B G σ L N lo nside hv hN hNL hN8 method hmt
    hhp hlo (comb a b f f') ((comb_shape _ _ _ _).trans hf) reality
    (by rintro rfl; exact wigRings_real_lin a b (hab rfl) e4 (hR rfl) (hR' rfl)) p hp hr k
  refine ⟨g, g', h, e, e', e'', fun n el m hn a0 b0 m0 m1 => ?_⟩
  rw [hg n el m hn a0 b0 m0 m1, hg' n el m hn a0 b0 m0 m1, hh n el m hn a0 b0 m0 m1,
    wigForward_lin a b hab σ L N lo nside G.toGlTables e4]
  ring

theorem C51_wigner_otf_inverse (N : ℤ) (hv : σ.Valid L (nside.getD 0))
    (hhp : σ = .healpix → 2 * nside.getD 0 ≤ L) (hN : 1 ≤ N) (hNL : N ≤ L) (hN8 : N < 8)
    (method : PyStr) (hmt : method ∈ [mNumpy, mJax, mTorch]) (hlo : LowerOk method L lo)
    (flmn flmn' : ℤ → ℤ → ℤ → ℂ)
    (hf : ∀ n el k, -N < n → n < N → lo ≤ el → el < |n| → 0 ≤ k →
      k < 2 * L - 1 → flmn (N - 1 + n) el k = 0)
    (hf' : ∀ n el k, -N < n → n < N → lo ≤ el → el < |n| → 0 ≤ k →
      k < 2 * L - 1 → flmn' (N - 1 + n) el k = 0)
    (reality : Bool) (hab : reality = true → a.im = 0 ∧ b.im = 0)
    (hre : RealOrigin flmn L N reality lo) (hre' : RealOrigin flmn' L N reality lo)
    (hpl : method ≠ mNumpy → reality = true →
      RealHarmonics (fun el m => flmn (N - 1) el (m + L - 1)) lo L)
    (hpl' : method ≠ mNumpy → reality = true →
      RealHarmonics (fun el m => flmn' (N - 1) el (m + L - 1)) lo L)
    (p : WigPrecomps) (hp : WigPrecompsArg G L N σ.name nside false reality method p)
    (hr : ∀ n, |n| < N → OtfRegular G σ L (nside.getD 0) n false) (k : ℤ) :
    ∃ f f' h, wignerInverse B G (.d3 (2 * N - 1) L (2 * L - 1) flmn) L N nside σ.name method reality p
        lo k = .ok f ∧
      wignerInverse B G (.d3 (2 * N - 1) L (2 * L - 1) flmn') L N nside σ.name method reality p
        lo k = .ok f' ∧
      wignerInverse B G (comb a b (.d3 (2 * N - 1) L (2 * L - 1) flmn)
        (.d3 (2 * N - 1) L (2 * L - 1) flmn')) L N nside σ.name method reality p lo k = .ok h ∧
      ∀ g t p, 0 ≤ g → g < 2 * N - 1 → σ.Has L (nside.getD 0) t p →
        h.get3 g (σ.pos (nside.getD 0) t p).1 (σ.pos (nside.getD 0) t p).2
          = a * f.get3 g (σ.pos (nside.getD 0) t p).1 (σ.pos (nside.getD 0) t p).2
            + b * f'.get3 g (σ.pos (nside.getD 0) t p).1 (σ.pos (nside.getD 0) t p).2 := by
  obtain ⟨f, e, -, hg⟩ := C38_expansion_partial B G σ L N lo nside hv hhp hN hNL hN8 method hmt hlo
    flmn hf reality hre hpl p hp hr k
  obtain ⟨f', e', -, hg'⟩ := C38_expansion_partial B G σ L N lo nside hv hhp hN hNL hN8 method hmt hlo
    flmn' hf' reality hre' hpl' p hp hr k
  obtain ⟨h, e'', -, hh⟩ := C38_expansion_partial B G σ L N lo nside hv hhp hN hNL hN8 method hmt hlo
    (fun n l k => a * flmn n l k + b * flmn' n l k)
    (fun n el k h1 h2 h3 h4 h5 h6 => by
      rw [hf n el k h1 h2 h3 h4 h5 h6, hf' n el k h1 h2 h3 h4 h5 h6]; ring)
    reality (realOrigin_lin a b hab hre hre')
    (fun h1 h2 => realHarmonics_lin a b (hab h2) (hpl h1 h2) (hpl' h1 h2)) p hp hr k
  refine ⟨f, f', h, e, e', e'', fun g t p g0 g1 ht => ?_⟩
  rw [hg g t p g0 g1 ht, hg' g t p g0 g1 ht, hh g t p g0 g1 ht, wignerCoeffs_lin a b hab, wignerSum_lin]

end

/-- The conditions are met by samples of no band-limited signal: one pixel set, on HEALPix. -/
example (G : GlTables) (a b : ℂ) :
    ∃ g g' h, baseForwardWith G (.d1 48 fun i => if i = 7 then 1 else 0) 5 2 sHP bVec (some 2) true 0
        = .ok (.d2 5 9 g) ∧
      baseForwardWith G (.d1 48 fun i => i) 5 2 sHP bVec (some 2) true 0 = .ok (.d2 5 9 g') ∧
      baseForwardWith G (.d1 48 fun i => a * (if i = 7 then 1 else 0) + b * i) 5 2 sHP bVec (some 2)
        true 0 = .ok (.d2 5 9 h) ∧
      ∀ el m, 0 ≤ el → el < 5 → -5 < m → m < 5 → h el (m + 5 - 1) = a * g el (m + 5 - 1) + b * g' el (m + 5 - 1) :=
  C51_base_forward G .healpix 5 2 0 (some 2) a b ⟨by norm_num, fun _ => by norm_num⟩ bVec (by simp)
    (fun _ _ => by norm_num) (by norm_num) (by norm_num) (.d1 48 fun i => if i = 7 then 1 else 0)
    (.d1 48 fun i => i) rfl rfl true (fun _ h => by norm_num at h) (fun _ h => by norm_num at h)
    (fun _ h => by norm_num at h)

end S2fft
