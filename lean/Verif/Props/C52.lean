import Verif.Lemmas.Turn

/-!
# C52: the transforms commute with turns about the polar axis

Turning a sampled signal by an angle `α` that takes samples to samples multiplies its coefficients of
order `m` by `exp(-i m α)`. For the forward transforms the samples are arbitrary: they need not come
from a band-limited signal.
-/

namespace S2fft
open Spec

/-! ## Which turns -/

/-- `np.roll(f, k, axis=1)` is a turn by `k` samples. -/
theorem C52_roll (σ : Scheme) (hσ : σ ≠ .healpix) (L : ℤ) (hL : 1 ≤ L) (k : ℤ) (f : ℤ → ℤ → ℂ) :
    Turned σ L 0 (2 * Real.pi * k / σ.ringLen L 0 0) f
      (fun t p => f t ((p - k) % σ.ringLen L 0 0)) := by
  have hl : ∀ t, σ.ringLen L 0 t = σ.ringLen L 0 0 := by
    intro t; cases σ <;> first | rfl | exact absurd rfl hσ
  have hp : ∀ t p, σ.pos 0 t p = (t, p) := by
    intro t p; cases σ <;> first | rfl | exact absurd rfl hσ
  refine turned_of_rolls ⟨hL, fun h => absurd h hσ⟩ (fun _ => k) (fun t _ _ => ?_) (fun t p _ => ?_)
  · exact ⟨0, by rw [hl t]; simp⟩
  · rw [hp, hp, hl t]

/-- On HEALPix the quarter turns, each ring rotated by a quarter of its pixels. -/
theorem C52_quarter (L ns : ℤ) (hL : 1 ≤ L) (hn : 1 ≤ ns) (k : ℤ) (x y : ℤ → ℂ)
    (h : ∀ t p, 0 ≤ t → t < 4 * ns - 1 → 0 ≤ p → p < ringSize ns t →
      y (ringStart ns t + p) = x (ringStart ns t + (p - k * (ringSize ns t / 4)) % ringSize ns t)) :
    Turned .healpix L ns (k * (Real.pi / 2)) (fun _ i => x i) (fun _ i => y i) := by
  refine turned_of_rolls ⟨hL, fun _ => hn⟩ (fun t => k * (ringSize ns t / 4)) (fun t t0 t1 => ?_)
    (fun t p ht => h t p ht.1 ht.2.1 ht.2.2.1 ht.2.2.2)
  have hpos : 0 < ringSize ns t := ringLen_pos (σ := .healpix) (L := L) ⟨hL, fun _ => hn⟩ t0 t1
  have h4 : ringSize ns t = 4 * (ringSize ns t / 4) := by
    have : 4 ∣ ringSize ns t := by
      unfold ringSize
      exact Dvd.intro _ rfl
    omega
  have h4' : ((ringSize ns t : ℤ) : ℝ) = 4 * ((ringSize ns t / 4 : ℤ) : ℝ) := by
    conv_lhs => rw [h4]
    push_cast
    ring
  have hz : ((ringSize ns t / 4 : ℤ) : ℝ) ≠ 0 := by
    exact_mod_cast (by omega : ringSize ns t / 4 ≠ 0)
  refine ⟨0, ?_⟩
  simp only [Scheme.ringLen]
  rw [h4']
  push_cast
  field_simp
  ring

/-- So the grids with equal rings are taken to themselves by whole numbers of samples, -/
theorem C52_turns (σ : Scheme) (hσ : σ ≠ .healpix) (L : ℤ) (hL : 1 ≤ L) (k : ℤ) :
    TurnsGrid σ L 0 (2 * Real.pi * k / σ.ringLen L 0 0) := fun t p ht => by
  obtain ⟨p', a, b, _⟩ := C52_roll σ hσ L hL k (fun _ _ => 0) t p ht
  exact ⟨p', a, b⟩

/-- and the HEALPix grid by quarter turns. -/
theorem C52_turns_healpix (L ns : ℤ) (hL : 1 ≤ L) (hn : 1 ≤ ns) (k : ℤ) :
    TurnsGrid .healpix L ns (k * (Real.pi / 2)) := fun t p ht => by
  obtain ⟨p', a, b, _⟩ := C52_quarter L ns hL hn k (fun _ => 0) (fun _ => 0) (fun _ _ _ _ _ _ => rfl) t p ht
  exact ⟨p', a, b⟩

/-! ## The base transforms -/

section
variable (G : GlTables) (σ : Scheme) (L spin lo : ℤ) (nside : Option ℤ) (α : ℝ)

theorem C52_base_forward (hv : σ.Valid L (nside.getD 0))
    (method : PyStr) (hmt : method ∈ [bDirect, bSov, bSovFft, bVec])
    (hhp : method = bSovFft ∨ method = bVec → σ = .healpix → 2 * nside.getD 0 ≤ L)
    (h0 : 0 ≤ lo) (h1 : lo < L)
    (f f' : Nd ℂ) (hf : f.shape = σ.shape L (nside.getD 0)) (hf' : f'.shape = σ.shape L (nside.getD 0))
    (ht : Turned σ L (nside.getD 0) α f.get2 f'.get2) (reality : Bool)
    (hre : reality = true → spin = 0 → RealInput G.nodes σ L (nside.getD 0) f.get2) :
    ∃ g g', baseForwardWith G f L spin σ.name method nside reality lo = .ok (.d2 L (2 * L - 1) g) ∧
      baseForwardWith G f' L spin σ.name method nside reality lo = .ok (.d2 L (2 * L - 1) g') ∧
      ∀ el m, 0 ≤ el → el < L → -L < m → m < L →
        g' el (m + L - 1) = turnCoeffs L α g el (m + L - 1) := by
  obtain ⟨g, e, hg, hz⟩ := baseForwardWith_values G (lower_name σ) (method := method) hmt
    (fun _ h => by rw [h]; rfl) (spin := spin) hv hhp f hf reality h0 h1
    (by rintro _ a rfl; exact realInput_rings hv.1 (hre a rfl))
  obtain ⟨g', e', hg', hz'⟩ := baseForwardWith_values G (lower_name σ) (method := method) hmt
    (fun _ h => by rw [h]; rfl) (spin := spin) hv hhp f' hf' reality h0 h1
    (by rintro _ a rfl; exact realInput_rings hv.1 (realInput_turned hv ht (hre a rfl)))
  refine ⟨g, g', e, e', fun el m _ b1 m0 m1 => ?_⟩
  rw [turnCoeffs_cis]
  by_cases hel : el < elStart lo spin
  · rw [hz el _ hel, hz' el _ hel, mul_zero]
  · rw [hg el m (not_lt.1 hel) b1 m0 m1, hg' el m (not_lt.1 hel) b1 m0 m1, ← fAt_snap, ← fAt_snap]
    exact forward_turned hv ht _ _ _ _ _ m0 m1

theorem C52_base_inverse (hv : σ.Valid L (nside.getD 0))
    (method : PyStr) (hmt : method ∈ [bDirect, bSov, bSovFft, bVec])
    (hhp : method = bSovFft ∨ method = bVec → σ = .healpix → 2 * nside.getD 0 ≤ L)
    (h0 : 0 ≤ lo) (h1 : lo < L) (ht : TurnsGrid σ L (nside.getD 0) α) (flm : ℤ → ℤ → ℂ) (reality : Bool)
    (hre : method = bSovFft ∨ method = bVec → RealOrderZero flm L spin reality lo) :
    ∃ f f', baseInverseWith G (.d2 L (2 * L - 1) flm) L spin σ.name method nside reality lo = .ok f ∧
      baseInverseWith G (.d2 L (2 * L - 1) (turnCoeffs L α flm)) L spin σ.name method nside reality lo
        = .ok f' ∧ Turned σ L (nside.getD 0) α f.get2 f'.get2 := by
  obtain ⟨f, e, -, hf⟩ := baseInverse_snapped G σ L spin lo nside hv method hmt hhp h0 h1 flm reality hre
  obtain ⟨f', e', -, hf'⟩ := baseInverse_snapped G σ L spin lo nside hv method hmt hhp h0 h1
    (turnCoeffs L α flm) reality (fun hm => realOrderZero_turn α (hre hm))
  refine ⟨f, f', e, e', fun t p hp => ?_⟩
  obtain ⟨p', hp', ha⟩ := ht t p hp
  refine ⟨p', hp', ha, ?_⟩
  rw [hf t p hp, hf' t p' hp']
  exact harmonicSum_turn lo L spin _ α ha (coeffs_turn flm L spin reality α)

end

/-! ## The transforms with precomputed kernels -/

section
variable (G : GlTables) (σ : Scheme) (L spin : ℤ) (nside : Option ℤ) (α : ℝ)

theorem C52_precompute_forward (hv : σ.Valid L (nside.getD 0))
    (κ recursion : PyStr) (hrec : RecursionOk L spin recursion)
    (hex : KernelExact G.nodes σ L (nside.getD 0) spin true κ recursion)
    (method : PyStr) (hmt : method ∈ [mNumpy, mJax, mTorch])
    (hhp : σ = .healpix → 2 * nside.getD 0 ≤ L ∧ (method ≠ mNumpy → 2 ≤ nside.getD 0))
    (f f' : Nd ℂ) (hf : f.shape = σ.shape L (nside.getD 0)) (hf' : f'.shape = σ.shape L (nside.getD 0))
    (ht : Turned σ L (nside.getD 0) α f.get2 f'.get2) (reality : Bool)
    (hre : reality = true → spin = 0 → RealInput G.nodes σ L (nside.getD 0) f.get2)
    (kernel : Option (Nd ℂ))
    (hk : KernelArg G L spin reality σ.name nside true method κ recursion kernel) :
    ∃ g g', precomputeForwardTop G f L spin kernel σ.name reality method nside 0
        = .ok (.d2 L (2 * L - 1) g) ∧
      precomputeForwardTop G f' L spin kernel σ.name reality method nside 0
        = .ok (.d2 L (2 * L - 1) g') ∧
      ∀ el m, 0 ≤ el → el < L → -L < m → m < L →
        g' el (m + L - 1) = turnCoeffs L α g el (m + L - 1) := by
  obtain ⟨K, e, hK⟩ := getKernel_ok G hv reality true hrec hex hk
  obtain ⟨g, e1, hg⟩ := precomputeForwardTop_values hmt G hv hhp f hf reality hre hK e
  obtain ⟨g', e2, hg'⟩ := precomputeForwardTop_values hmt G hv hhp f' hf' reality
    (fun h1 h2 => realInput_turned hv ht (hre h1 h2)) hK e
  refine ⟨g, g', e1, e2, fun el m a0 b0 m0 m1 => ?_⟩
  rw [hg' el m a0 b0 m0 m1, turnCoeffs_cis, hg el m a0 b0 m0 m1]
  exact forward_turned hv ht _ _ _ _ _ m0 m1

theorem C52_precompute_inverse (hv : σ.Valid L (nside.getD 0))
    (hhp : σ = .healpix → 2 * nside.getD 0 ≤ L)
    (κ recursion : PyStr) (hrec : RecursionOk L spin recursion)
    (hex : KernelExact G.nodes σ L (nside.getD 0) spin false κ recursion)
    (method : PyStr) (hmt : method ∈ [mNumpy, mJax, mTorch])
    (ht : TurnsGrid σ L (nside.getD 0) α) (flm : ℤ → ℤ → ℂ)
    (reality : Bool) (hre : RealOrderZero flm L spin reality 0) (kernel : Option (Nd ℂ))
    (hk : KernelArg G L spin reality σ.name nside false method κ recursion kernel) :
    ∃ f f', precomputeInverseTop G (.d2 L (2 * L - 1) flm) L spin kernel σ.name reality method nside
        = .ok f ∧
      precomputeInverseTop G (.d2 L (2 * L - 1) (turnCoeffs L α flm)) L spin kernel σ.name reality
        method nside = .ok f' ∧ Turned σ L (nside.getD 0) α f.get2 f'.get2 := by
  obtain ⟨f, e, -, hf⟩ := C27_expansion G σ L spin nside hv hhp κ recursion hrec hex method hmt flm
    reality hre kernel hk
  obtain ⟨f', e', -, hf'⟩ := C27_expansion G σ L spin nside hv hhp κ recursion hrec hex method hmt
    (turnCoeffs L α flm) reality (realOrderZero_turn α hre) kernel hk
  refine ⟨f, f', e, e', fun t p hp => ?_⟩
  obtain ⟨p', hp', ha⟩ := ht t p hp
  refine ⟨p', hp', ha, ?_⟩
  rw [hf t p hp, hf' t p' hp']
  exact harmonicSum_turn 0 L spin _ α ha (coeffs_turn flm L spin reality α)

end

/-! ## The on-the-fly transforms -/

section
variable (B : Backends) (G : Machine) (σ : Scheme) (L spin lo : ℤ) (nside : Option ℤ) (α : ℝ)

theorem C52_otf_forward (hv : σ.Valid L (nside.getD 0))
    (method : PyStr) (hmt : method ∈ [mNumpy, mJax, mTorch])
    (hhp : σ = .healpix → 2 * nside.getD 0 ≤ L ∧ (method ≠ mNumpy → 2 ≤ nside.getD 0))
    (hsp : |spin| < L) (h8 : spin < 8) (hlo : LowerOk method L lo)
    (f f' : Nd ℂ) (hf : f.shape = σ.shape L (nside.getD 0)) (hf' : f'.shape = σ.shape L (nside.getD 0))
    (ht : Turned σ L (nside.getD 0) α f.get2 f'.get2)
    (reality : Bool) (hrs : reality = true → spin = 0)
    (hre : reality = true → RealInput G.nodes σ L (nside.getD 0) f.get2)
    (precomps : Option PmPre) (hP : PrecompsArg G L spin σ.name nside true precomps)
    (hr : OtfRegular G σ L (nside.getD 0) spin true)
    (iter : Option ℤ) (hit : iter = none ∨ iter = some 0) (k : ℤ) :
    ∃ g g', sphericalForward B G f L spin nside σ.name method reality precomps lo iter k
        = .ok (.d2 L (2 * L - 1) g) ∧
      sphericalForward B G f' L spin nside σ.name method reality precomps lo iter k
        = .ok (.d2 L (2 * L - 1) g') ∧
      ∀ el m, 0 ≤ el → el < L → -L < m → m < L →
        g' el (m + L - 1) = turnCoeffs L α g el (m + L - 1) := by
  have hR : ∀ {f : Nd ℂ}, (reality = true → RealInput G.nodes σ L (nside.getD 0) f.get2) →
      reality = true → RealRings σ.inner L (nside.getD 0) (innerRings σ L (nside.getD 0))
        (innerSignal σ L spin f.get2) := by
    intro f hf h
    have := hrs h; subst this
    exact realInput_rings hv.1 (hf h)
  obtain ⟨g, e, hg⟩ := sphericalForward_values B G σ L spin lo nside hv method hmt
    hhp hsp h8 hlo f hf reality (hR hre) precomps hP hr iter hit k
  obtain ⟨g', e', hg'⟩ := sphericalForward_values B G σ L spin lo nside hv method hmt
    hhp hsp h8 hlo f' hf' reality (hR fun h => realInput_turned hv ht (hre h)) precomps hP hr iter hit k
  refine ⟨g, g', e, e', fun el m a0 b0 m0 m1 => ?_⟩
  rw [hg' el m a0 b0 m0 m1, turnCoeffs_cis, hg el m a0 b0 m0 m1]
  split_ifs
  · ring
  · exact forward_turned hv ht _ _ _ _ _ m0 m1

theorem C52_otf_inverse (hv : σ.Valid L (nside.getD 0))
    (hhp : σ = .healpix → 2 * nside.getD 0 ≤ L) (method : PyStr)
    (hmt : method ∈ [mNumpy, mJax, mTorch]) (hsp : |spin| < L) (h8 : spin < 8)
    (hlo : LowerOk method L lo) (ht : TurnsGrid σ L (nside.getD 0) α) (flm : ℤ → ℤ → ℂ)
    (hf : ∀ el k, lo ≤ el → el < |spin| → 0 ≤ k → k < 2 * L - 1 → flm el k = 0) (reality : Bool)
    (hrs : reality = true → spin = 0) (hre : RealOrderZero flm L spin reality lo)
    (precomps : Option PmPre) (hP : PrecompsArg G L spin σ.name nside false precomps)
    (hr : OtfRegular G σ L (nside.getD 0) spin false) (k : ℤ) :
    ∃ f f', sphericalInverse B G (.d2 L (2 * L - 1) flm) L spin nside σ.name method reality precomps
        lo k = .ok f ∧
      sphericalInverse B G (.d2 L (2 * L - 1) (turnCoeffs L α flm)) L spin nside σ.name method reality
        precomps lo k = .ok f' ∧ Turned σ L (nside.getD 0) α f.get2 f'.get2 := by
  obtain ⟨f, e, -, hg⟩ := C39_expansion_partial B G σ L spin lo nside hv hhp method hmt hsp h8 hlo
    flm hf reality hrs hre precomps hP hr k
  obtain ⟨f', e', -, hg'⟩ := C39_expansion_partial B G σ L spin lo nside hv hhp method hmt hsp h8 hlo
    (turnCoeffs L α flm) (fun el k h1 h2 h3 h4 => by
      unfold turnCoeffs; rw [hf el k h1 h2 h3 h4, mul_zero]) reality hrs
    (realOrderZero_turn α hre) precomps hP hr k
  refine ⟨f, f', e, e', fun t p hp => ?_⟩
  obtain ⟨p', hp', ha⟩ := ht t p hp
  refine ⟨p', hp', ha, ?_⟩
  rw [hg t p hp, hg' t p' hp']
  exact harmonicSum_turn lo L spin _ α ha (coeffs_turn flm L spin reality α)

end

/-- The conditions are met by any samples, here of spin 2 on an MW grid, turned by four columns. -/
example (G : GlTables) (x : ℤ → ℤ → ℂ) :
    ∃ g g', baseForwardWith G (.d2 5 9 x) 5 2 sMW bVec none false 0 = .ok (.d2 5 9 g) ∧
      baseForwardWith G (.d2 5 9 fun t p => x t ((p - 4) % 9)) 5 2 sMW bVec none false 0
        = .ok (.d2 5 9 g') ∧
      ∀ el m, 0 ≤ el → el < 5 → -5 < m → m < 5 →
        g' el (m + 5 - 1) = turnCoeffs 5 (2 * Real.pi * (4 : ℤ) / (9 : ℤ)) g el (m + 5 - 1) :=
  C52_base_forward G .mw 5 2 0 none _ ⟨by norm_num, by rintro ⟨⟩⟩ bVec (by simp) (by rintro _ ⟨⟩)
    (by norm_num) (by norm_num) (.d2 5 9 x) (.d2 5 9 fun t p => x t ((p - 4) % 9)) rfl rfl
    (C52_roll .mw (by decide) 5 (by norm_num) 4 x) false (by rintro ⟨⟩)

end S2fft
