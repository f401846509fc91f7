import Verif.Lemmas.Mirror
import Verif.Props.C53

/-!
# C55: complex conjugates and mirror images

The conjugate of a signal of spin `s`, and its mirror image in the equatorial plane, have spin `-s`.
Transforming them with spin `-s` gives the coefficients `(-1)^(s+m) conj(c_{l,-m})` and
`(-1)^(l+m) c_{lm}`. Forward, the samples are arbitrary on `dh`, `gl` and `healpix` (on `mw` and `mwss`
the forward transforms of samples of no band-limited signal do not have these symmetries).
-/

namespace S2fft
open Spec

/-! ## Mirror images -/

/-- The sample points of every grid but `mw` are mapped to each other. -/
theorem C55_mirror_points (nodes : ℤ → ℤ → ℝ) (σ : Scheme) (L ns : ℤ) (hv : σ.Valid L ns)
    (hg : MirrorGrid nodes σ L) (t p : ℤ) (h : σ.Has L ns t p) :
    σ.Has L ns (σ.rings L ns - 1 - t) p ∧
    σ.theta nodes L ns (σ.rings L ns - 1 - t) = Real.pi - σ.theta nodes L ns t ∧
    σ.phi L ns (σ.rings L ns - 1 - t) p = σ.phi L ns t p :=
  ⟨mirror_has h, mirror_theta hv hg h.1 h.2.1, mirror_phi⟩

/-- Gauss-Legendre nodes and weights are symmetric. -/
theorem C55_gl (G : GlTables) (L : ℤ) (hL : 1 ≤ L) (h : GlExact G.nodes G.weights L) :
    MirrorGrid G.nodes .gl L ∧ ∀ t, 0 ≤ t → t < L → G.weights L (L - 1 - t) = G.weights L t :=
  ⟨⟨by decide, fun _ t t0 t1 => (glExact_mirror hL h t t0 t1).1⟩,
    fun t t0 t1 => (glExact_mirror hL h t t0 t1).2⟩

/-- `np.flip(f, axis=0)` is the mirror image. -/
theorem C55_flip (σ : Scheme) (hσ : σ ≠ .healpix) (L : ℤ) (f : ℤ → ℤ → ℂ) :
    Mirrored σ L 0 f (fun t p => f (σ.rings L 0 - 1 - t) p) := by
  have hp : ∀ t p, σ.pos 0 t p = (t, p) := by
    intro t p; cases σ <;> first | rfl | exact absurd rfl hσ
  intro t p _
  rw [hp, hp]
  simp only
  congr 1
  ring

/-! ## Coefficients -/

theorem coeffs_conj (flm : ℤ → ℤ → ℂ) (L s l m : ℤ) :
    coeffs (conjCoeffs L s flm) L (-s) false l m
      = (-1) ^ (s + m) * (starRingEnd ℂ) (coeffs flm L s false l (-m)) := by
  unfold coeffs conjCoeffs
  simp only [Bool.false_eq_true, false_and, if_false]
  rw [show m + L - 1 - L + 1 = m by ring, show 2 * L - 2 - (m + L - 1) = -m + L - 1 by ring]

theorem coeffs_mirror (flm : ℤ → ℤ → ℂ) (L s : ℤ) (reality : Bool) (l m : ℤ) :
    coeffs (mirrorCoeffs L flm) L (-s) reality l m = (-1) ^ (l + m) * coeffs flm L s reality l m := by
  have key : ∀ m, mirrorCoeffs L flm l (m + L - 1) = (-1) ^ (l + m) * flm l (m + L - 1) := by
    intro m
    unfold mirrorCoeffs
    rw [show m + L - 1 - L + 1 = m by ring]
  unfold coeffs
  by_cases h : reality = true ∧ s = 0
  · rw [if_pos h, if_pos ⟨h.1, by rw [h.2, neg_zero]⟩]
    unfold realCoeffs
    split_ifs
    · beta_reduce
      rw [key, map_mul, map_zpow₀, map_neg, map_one]
      have : ((-1 : ℂ)) ^ (l + -m) = (-1) ^ (l + m) := by
        rw [zpow_add₀ (by norm_num), zpow_add₀ (by norm_num), negOne_zpow_neg]
      rw [this]
      ring
    · exact key m
  · rw [if_neg h, if_neg (fun h' => h ⟨h'.1, neg_eq_zero.1 h'.2⟩)]
    exact key m

theorem realOrderZero_mirror {flm : ℤ → ℤ → ℂ} {L s lo : ℤ} {reality : Bool}
    (h : RealOrderZero flm L s reality lo) : RealOrderZero (mirrorCoeffs L flm) L (-s) reality lo := by
  intro h1 h2 el a b
  have := h h1 (neg_eq_zero.1 h2) el a b
  unfold mirrorCoeffs
  rcases Int.even_or_odd (el + (L - 1 - L + 1)) with e | e
  · rw [e.neg_one_zpow, one_mul, this]
  · rw [e.neg_one_zpow, neg_one_mul, Complex.neg_im, this, neg_zero]

/-! ## The base transforms -/

section
variable (G : GlTables) (σ : Scheme) (L spin lo : ℤ) (nside : Option ℤ)

/-- Synthesis of the conjugate. -/
theorem C55_base_inverse_conj (hv : σ.Valid L (nside.getD 0)) (μ ν : PyStr)
    (hμ : μ ∈ [bDirect, bSov, bSovFft, bVec]) (hν : ν ∈ [bDirect, bSov, bSovFft, bVec])
    (hhp : σ = .healpix → 2 * nside.getD 0 ≤ L)
    (h0 : 0 ≤ lo) (h1 : lo < L) (flm : ℤ → ℤ → ℂ) :
    ∃ f f', baseInverseWith G (.d2 L (2 * L - 1) flm) L spin σ.name μ nside false lo = .ok f ∧
      baseInverseWith G (.d2 L (2 * L - 1) (conjCoeffs L spin flm)) L (-spin) σ.name ν nside false lo
        = .ok f' ∧ Conjugates σ L (nside.getD 0) f.get2 f'.get2 := by
  obtain ⟨f, e, -, hf⟩ := baseInverse_snapped G σ L spin lo nside hv μ hμ (fun _ => hhp) h0 h1 flm
    false (fun _ => by rintro ⟨⟩)
  obtain ⟨f', e', -, hf'⟩ := baseInverse_snapped G σ L (-spin) lo nside hv ν hν (fun _ => hhp) h0 h1
    (conjCoeffs L spin flm) false (fun _ => by rintro ⟨⟩)
  refine ⟨f, f', e, e', fun t p h => ?_⟩
  rw [hf t p h, hf' t p h]
  exact harmonicSum_conj lo L spin _ _ fun l m _ _ _ => coeffs_conj flm L spin l m

/-- Synthesis of the mirror image. -/
theorem C55_base_inverse_mirror (hv : σ.Valid L (nside.getD 0)) (hg : MirrorGrid G.nodes σ L)
    (hex : GridExact G.nodes σ L (nside.getD 0)) (μ ν : PyStr)
    (hμ : μ ∈ [bDirect, bSov, bSovFft, bVec]) (hν : ν ∈ [bDirect, bSov, bSovFft, bVec])
    (hhp : σ = .healpix → 2 * nside.getD 0 ≤ L)
    (h0 : 0 ≤ lo) (h1 : lo < L) (flm : ℤ → ℤ → ℂ) (reality : Bool)
    (hre : RealOrderZero flm L spin reality lo) :
    ∃ f f', baseInverseWith G (.d2 L (2 * L - 1) flm) L spin σ.name μ nside reality lo = .ok f ∧
      baseInverseWith G (.d2 L (2 * L - 1) (mirrorCoeffs L flm)) L (-spin) σ.name ν nside reality lo
        = .ok f' ∧ Mirrored σ L (nside.getD 0) f.get2 f'.get2 := by
  obtain ⟨f, e, -, hf⟩ := baseInverse_snapped G σ L spin lo nside hv μ hμ (fun _ => hhp) h0 h1 flm
    reality (fun _ => hre)
  obtain ⟨f', e', -, hf'⟩ := baseInverse_snapped G σ L (-spin) lo nside hv ν hν (fun _ => hhp) h0 h1
    (mirrorCoeffs L flm) reality (fun _ => realOrderZero_mirror hre)
  refine ⟨f, f', e, e', fun t p h => ?_⟩
  have h' := mirror_has h
  rw [hf t p h, hf' _ p h', snapAngle_eq _ (hex t h.1 h.2.1), snapAngle_eq _ (hex _ h'.1 h'.2.1),
    mirror_theta hv hg h.1 h.2.1, mirror_phi]
  exact harmonicSum_mirror lo L spin _ _ fun l m _ _ _ => coeffs_mirror flm L spin reality l m

/-- Analysis of the conjugate of any samples. -/
theorem C55_base_forward_conj (hσ : σ = .dh ∨ σ = .gl ∨ σ = .healpix) (hv : σ.Valid L (nside.getD 0))
    (μ ν : PyStr) (hμ : μ ∈ [bDirect, bSov, bSovFft, bVec]) (hν : ν ∈ [bDirect, bSov, bSovFft, bVec])
    (hhp : σ = .healpix → 2 * nside.getD 0 ≤ L) (h0 : 0 ≤ lo) (h1 : lo < L)
    (f f' : Nd ℂ) (hf : f.shape = σ.shape L (nside.getD 0)) (hf' : f'.shape = σ.shape L (nside.getD 0))
    (hc : Conjugates σ L (nside.getD 0) f.get2 f'.get2) (reality reality' : Bool)
    (hre : reality = true ∨ reality' = true → spin = 0 → RealInput G.nodes σ L (nside.getD 0) f.get2) :
    ∃ g g', baseForwardWith G f L spin σ.name μ nside reality lo = .ok (.d2 L (2 * L - 1) g) ∧
      baseForwardWith G f' L (-spin) σ.name ν nside reality' lo = .ok (.d2 L (2 * L - 1) g') ∧
      ∀ el m, 0 ≤ el → el < L → -L < m → m < L →
        g' el (m + L - 1) = conjCoeffs L spin g el (m + L - 1) := by
  have hR := plain_scheme σ hσ
  have hr1 : effReality reality spin = true → RealRings σ.inner L (nside.getD 0)
      (innerRings σ L (nside.getD 0)) (innerSignal σ L spin f.get2) := by
    intro h
    have h2 := effReality_spin h
    subst h2
    exact realInput_rings hv.1 (hre (Or.inl (effReality_true h)) rfl)
  have hr2 : effReality reality' (-spin) = true → RealRings σ.inner L (nside.getD 0)
      (innerRings σ L (nside.getD 0)) (innerSignal σ L (-spin) f'.get2) := by
    intro h
    have h2 := neg_eq_zero.1 (effReality_spin h)
    rw [h2, neg_zero]
    exact realInput_rings hv.1 (realInput_conj hR hc (hre (Or.inr (effReality_true h)) h2))
  obtain ⟨g, e, hg, hz⟩ := baseForwardWith_values G (lower_name σ) (method := μ) hμ
    (fun _ h => by rw [h]; rfl) (spin := spin) hv (fun _ => hhp) f hf reality h0 h1
    (by rintro _ a rfl; exact realInput_rings hv.1 (hre (Or.inl a) rfl))
  obtain ⟨g', e', hg', hz'⟩ := baseForwardWith_values G (lower_name σ) (method := ν) hν
    (fun _ h => by rw [h]; rfl) (spin := -spin) hv (fun _ => hhp) f' hf' reality' h0 h1
    (by
      intro _ a b
      rw [b]
      exact realInput_rings hv.1 (realInput_conj hR hc (hre (Or.inr a) (neg_eq_zero.1 b))))
  refine ⟨g, g', e, e', fun el m _ b1 m0 m1 => ?_⟩
  unfold conjCoeffs
  rw [show m + L - 1 - L + 1 = m by ring, show 2 * L - 2 - (m + L - 1) = -m + L - 1 by ring]
  have es : elStart lo (-spin) = elStart lo spin := by unfold elStart; rw [abs_neg]
  by_cases hel : el < elStart lo spin
  · rw [hz el _ hel, hz' el _ (by rw [es]; exact hel), map_zero, mul_zero]
  · rw [hg el (-m) (not_lt.1 hel) b1 (by omega) (by omega),
      hg' el m (by rw [es]; exact not_lt.1 hel) b1 m0 m1, ← fAt_snap, ← fAt_snap,
      symm_plain hR effReality_spin hr1, symm_plain hR effReality_spin hr2]
    exact fAt_conj hc el m

/-- Analysis of the mirror image of any samples. -/
theorem C55_base_forward_mirror (hσ : σ = .dh ∨ σ = .gl ∨ σ = .healpix)
    (hv : σ.Valid L (nside.getD 0)) (hm : MirrorGrid G.nodes σ L)
    (hw : σ = .gl → ∀ t, 0 ≤ t → t < L → G.weights L (L - 1 - t) = G.weights L t)
    (hex : GridExact G.nodes σ L (nside.getD 0)) (μ ν : PyStr)
    (hμ : μ ∈ [bDirect, bSov, bSovFft, bVec]) (hν : ν ∈ [bDirect, bSov, bSovFft, bVec])
    (hhp : σ = .healpix → 2 * nside.getD 0 ≤ L) (h0 : 0 ≤ lo) (h1 : lo < L)
    (f f' : Nd ℂ) (hf : f.shape = σ.shape L (nside.getD 0)) (hf' : f'.shape = σ.shape L (nside.getD 0))
    (hc : Mirrored σ L (nside.getD 0) f.get2 f'.get2) (reality reality' : Bool)
    (hre : reality = true ∨ reality' = true → spin = 0 → RealInput G.nodes σ L (nside.getD 0) f.get2) :
    ∃ g g', baseForwardWith G f L spin σ.name μ nside reality lo = .ok (.d2 L (2 * L - 1) g) ∧
      baseForwardWith G f' L (-spin) σ.name ν nside reality' lo = .ok (.d2 L (2 * L - 1) g') ∧
      ∀ el m, 0 ≤ el → el < L → -L < m → m < L →
        g' el (m + L - 1) = mirrorCoeffs L g el (m + L - 1) := by
  have hR := plain_scheme σ hσ
  have hr1 : effReality reality spin = true → RealRings σ.inner L (nside.getD 0)
      (innerRings σ L (nside.getD 0)) (innerSignal σ L spin f.get2) := by
    intro h
    have h2 := effReality_spin h
    subst h2
    exact realInput_rings hv.1 (hre (Or.inl (effReality_true h)) rfl)
  have hr2 : effReality reality' (-spin) = true → RealRings σ.inner L (nside.getD 0)
      (innerRings σ L (nside.getD 0)) (innerSignal σ L (-spin) f'.get2) := by
    intro h
    have h2 := neg_eq_zero.1 (effReality_spin h)
    rw [h2, neg_zero]
    exact realInput_rings hv.1 (realInput_mirror hR hc (hre (Or.inr (effReality_true h)) h2))
  obtain ⟨g, e, hg, hz⟩ := baseForwardWith_values G (lower_name σ) (method := μ) hμ
    (fun _ h => by rw [h]; rfl) (spin := spin) hv (fun _ => hhp) f hf reality h0 h1
    (by rintro _ a rfl; exact realInput_rings hv.1 (hre (Or.inl a) rfl))
  obtain ⟨g', e', hg', hz'⟩ := baseForwardWith_values G (lower_name σ) (method := ν) hν
    (fun _ h => by rw [h]; rfl) (spin := -spin) hv (fun _ => hhp) f' hf' reality' h0 h1
    (by
      intro _ a b
      rw [b]
      exact realInput_rings hv.1 (realInput_mirror hR hc (hre (Or.inr a) (neg_eq_zero.1 b))))
  refine ⟨g, g', e, e', fun el m _ b1 m0 m1 => ?_⟩
  unfold mirrorCoeffs
  rw [show m + L - 1 - L + 1 = m by ring]
  have es : elStart lo (-spin) = elStart lo spin := by unfold elStart; rw [abs_neg]
  have hθ : ∀ t, 0 ≤ t → t < σ.rings L (nside.getD 0) →
      snapAngle (σ.theta G.nodes L (nside.getD 0) (σ.rings L (nside.getD 0) - 1 - t))
        = Real.pi - snapAngle (σ.theta G.nodes L (nside.getD 0) t) := by
    intro t t0 t1
    rw [snapAngle_eq _ (hex _ (by omega) (by omega)), snapAngle_eq _ (hex t t0 t1),
      mirror_theta hv hm t0 t1]
  by_cases hel : el < elStart lo spin
  · rw [hz el _ hel, hz' el _ (by rw [es]; exact hel), mul_zero]
  · rw [hg el m (not_lt.1 hel) b1 m0 m1,
      hg' el m (by rw [es]; exact not_lt.1 hel) b1 m0 m1, ← fAt_snap, ← fAt_snap,
      symm_plain hR effReality_spin hr1, symm_plain hR effReality_spin hr2, plain_theta hR]
    exact fAt_mirror hc hθ (fun t t0 t1 => mirror_weight hv.1 hR hw t0 t1) el m

end

/-! ## The transforms with precomputed kernels -/

section
variable (G : GlTables) (σ : Scheme) (L spin : ℤ) (nside : Option ℤ)

theorem C55_precompute_inverse_conj (hv : σ.Valid L (nside.getD 0))
    (hhp : σ = .healpix → 2 * nside.getD 0 ≤ L) (κ κ' ρ ρ' : PyStr) (hρ : RecursionOk L spin ρ)
    (hρ' : RecursionOk L (-spin) ρ')
    (hex : KernelExact G.nodes σ L (nside.getD 0) spin false κ ρ)
    (hex' : KernelExact G.nodes σ L (nside.getD 0) (-spin) false κ' ρ')
    (μ ν : PyStr) (hμ : μ ∈ [mNumpy, mJax, mTorch]) (hν : ν ∈ [mNumpy, mJax, mTorch])
    (flm : ℤ → ℤ → ℂ) (k k' : Option (Nd ℂ))
    (hk : KernelArg G L spin false σ.name nside false μ κ ρ k)
    (hk' : KernelArg G L (-spin) false σ.name nside false ν κ' ρ' k') :
    ∃ f f', precomputeInverseTop G (.d2 L (2 * L - 1) flm) L spin k σ.name false μ nside = .ok f ∧
      precomputeInverseTop G (.d2 L (2 * L - 1) (conjCoeffs L spin flm)) L (-spin) k' σ.name false ν
        nside = .ok f' ∧ Conjugates σ L (nside.getD 0) f.get2 f'.get2 := by
  obtain ⟨f, e, -, hf⟩ := C27_expansion G σ L spin nside hv hhp κ ρ hρ hex μ hμ flm false
    (by rintro ⟨⟩) k hk
  obtain ⟨f', e', -, hf'⟩ := C27_expansion G σ L (-spin) nside hv hhp κ' ρ' hρ' hex' ν hν
    (conjCoeffs L spin flm) false (by rintro ⟨⟩) k' hk'
  refine ⟨f, f', e, e', fun t p h => ?_⟩
  rw [hf t p h, hf' t p h]
  exact harmonicSum_conj 0 L spin _ _ fun l m _ _ _ => coeffs_conj flm L spin l m

theorem C55_precompute_inverse_mirror (hv : σ.Valid L (nside.getD 0)) (hg : MirrorGrid G.nodes σ L)
    (hhp : σ = .healpix → 2 * nside.getD 0 ≤ L) (κ κ' ρ ρ' : PyStr) (hρ : RecursionOk L spin ρ)
    (hρ' : RecursionOk L (-spin) ρ')
    (hex : KernelExact G.nodes σ L (nside.getD 0) spin false κ ρ)
    (hex' : KernelExact G.nodes σ L (nside.getD 0) (-spin) false κ' ρ')
    (μ ν : PyStr) (hμ : μ ∈ [mNumpy, mJax, mTorch]) (hν : ν ∈ [mNumpy, mJax, mTorch])
    (flm : ℤ → ℤ → ℂ) (reality : Bool) (hre : RealOrderZero flm L spin reality 0)
    (k k' : Option (Nd ℂ)) (hk : KernelArg G L spin reality σ.name nside false μ κ ρ k)
    (hk' : KernelArg G L (-spin) reality σ.name nside false ν κ' ρ' k') :
    ∃ f f', precomputeInverseTop G (.d2 L (2 * L - 1) flm) L spin k σ.name reality μ nside = .ok f ∧
      precomputeInverseTop G (.d2 L (2 * L - 1) (mirrorCoeffs L flm)) L (-spin) k' σ.name reality ν
        nside = .ok f' ∧ Mirrored σ L (nside.getD 0) f.get2 f'.get2 := by
  obtain ⟨f, e, -, hf⟩ := C27_expansion G σ L spin nside hv hhp κ ρ hρ hex μ hμ flm reality hre k hk
  obtain ⟨f', e', -, hf'⟩ := C27_expansion G σ L (-spin) nside hv hhp κ' ρ' hρ' hex' ν hν
    (mirrorCoeffs L flm) reality (realOrderZero_mirror hre) k' hk'
  refine ⟨f, f', e, e', fun t p h => ?_⟩
  rw [hf t p h, hf' _ p (mirror_has h), mirror_theta hv hg h.1 h.2.1, mirror_phi]
  exact harmonicSum_mirror 0 L spin _ _ fun l m _ _ _ => coeffs_mirror flm L spin reality l m

theorem C55_precompute_forward_conj (hσ : σ = .dh ∨ σ = .gl ∨ σ = .healpix)
    (hv : σ.Valid L (nside.getD 0)) (κ κ' ρ ρ' : PyStr) (hρ : RecursionOk L spin ρ)
    (hρ' : RecursionOk L (-spin) ρ')
    (hex : KernelExact G.nodes σ L (nside.getD 0) spin true κ ρ)
    (hex' : KernelExact G.nodes σ L (nside.getD 0) (-spin) true κ' ρ')
    (μ ν : PyStr) (hμ : μ ∈ [mNumpy, mJax, mTorch]) (hν : ν ∈ [mNumpy, mJax, mTorch])
    (hhp : σ = .healpix → 2 * nside.getD 0 ≤ L ∧ (μ ≠ mNumpy ∨ ν ≠ mNumpy → 2 ≤ nside.getD 0))
    (f f' : Nd ℂ) (hf : f.shape = σ.shape L (nside.getD 0)) (hf' : f'.shape = σ.shape L (nside.getD 0))
    (hc : Conjugates σ L (nside.getD 0) f.get2 f'.get2) (reality reality' : Bool)
    (hre : reality = true ∨ reality' = true → spin = 0 → RealInput G.nodes σ L (nside.getD 0) f.get2)
    (k k' : Option (Nd ℂ)) (hk : KernelArg G L spin reality σ.name nside true μ κ ρ k)
    (hk' : KernelArg G L (-spin) reality' σ.name nside true ν κ' ρ' k') :
    ∃ g g', precomputeForwardTop G f L spin k σ.name reality μ nside 0 = .ok (.d2 L (2 * L - 1) g) ∧
      precomputeForwardTop G f' L (-spin) k' σ.name reality' ν nside 0 = .ok (.d2 L (2 * L - 1) g') ∧
      ∀ el m, 0 ≤ el → el < L → -L < m → m < L →
        g' el (m + L - 1) = conjCoeffs L spin g el (m + L - 1) := by
  have hR := plain_scheme σ hσ
  have hre1 : reality = true → spin = 0 → RealInput G.nodes σ L (nside.getD 0) f.get2 :=
    fun a b => hre (Or.inl a) b
  have hre2 : reality' = true → -spin = 0 → RealInput G.nodes σ L (nside.getD 0) f'.get2 :=
    fun a b => realInput_conj hR hc (hre (Or.inr a) (neg_eq_zero.1 b))
  have hr1 : effReality reality spin = true → RealRings σ.inner L (nside.getD 0)
      (innerRings σ L (nside.getD 0)) (innerSignal σ L spin f.get2) := by
    intro h
    have h2 := effReality_spin h
    have := hre1 (effReality_true h) h2
    subst h2
    exact realInput_rings hv.1 this
  have hr2 : effReality reality' (-spin) = true → RealRings σ.inner L (nside.getD 0)
      (innerRings σ L (nside.getD 0)) (innerSignal σ L (-spin) f'.get2) := by
    intro h
    have h2 := effReality_spin h
    have := hre2 (effReality_true h) h2
    rw [h2]
    exact realInput_rings hv.1 this
  obtain ⟨K, ek, hK⟩ := getKernel_ok G hv reality true hρ hex hk
  obtain ⟨K', ek', hK'⟩ := getKernel_ok G hv reality' true hρ' hex' hk'
  obtain ⟨g, e, hg⟩ := precomputeForwardTop_values hμ G hv
    (fun h => ⟨(hhp h).1, fun h' => (hhp h).2 (Or.inl h')⟩) f hf reality hre1 hK ek
  obtain ⟨g', e', hg'⟩ := precomputeForwardTop_values hν G hv
    (fun h => ⟨(hhp h).1, fun h' => (hhp h).2 (Or.inr h')⟩) f' hf' reality' hre2 hK' ek'
  refine ⟨g, g', e, e', fun el m a0 b0 m0 m1 => ?_⟩
  unfold conjCoeffs
  rw [show m + L - 1 - L + 1 = m by ring, show 2 * L - 2 - (m + L - 1) = -m + L - 1 by ring,
    hg el (-m) a0 b0 (by omega) (by omega), hg' el m a0 b0 m0 m1]
  exact (symm_plain hR effReality_spin hr2 _ _).trans ((fAt_conj hc el m).trans (by
    rw [← symm_plain hR effReality_spin hr1]))

theorem C55_precompute_forward_mirror (hσ : σ = .dh ∨ σ = .gl ∨ σ = .healpix)
    (hv : σ.Valid L (nside.getD 0)) (hm : MirrorGrid G.nodes σ L)
    (hw : σ = .gl → ∀ t, 0 ≤ t → t < L → G.weights L (L - 1 - t) = G.weights L t)
    (κ κ' ρ ρ' : PyStr) (hρ : RecursionOk L spin ρ)
    (hρ' : RecursionOk L (-spin) ρ')
    (hex : KernelExact G.nodes σ L (nside.getD 0) spin true κ ρ)
    (hex' : KernelExact G.nodes σ L (nside.getD 0) (-spin) true κ' ρ')
    (μ ν : PyStr) (hμ : μ ∈ [mNumpy, mJax, mTorch]) (hν : ν ∈ [mNumpy, mJax, mTorch])
    (hhp : σ = .healpix → 2 * nside.getD 0 ≤ L ∧ (μ ≠ mNumpy ∨ ν ≠ mNumpy → 2 ≤ nside.getD 0))
    (f f' : Nd ℂ) (hf : f.shape = σ.shape L (nside.getD 0)) (hf' : f'.shape = σ.shape L (nside.getD 0))
    (hc : Mirrored σ L (nside.getD 0) f.get2 f'.get2) (reality reality' : Bool)
    (hre : reality = true ∨ reality' = true → spin = 0 → RealInput G.nodes σ L (nside.getD 0) f.get2)
    (k k' : Option (Nd ℂ)) (hk : KernelArg G L spin reality σ.name nside true μ κ ρ k)
    (hk' : KernelArg G L (-spin) reality' σ.name nside true ν κ' ρ' k') :
    ∃ g g', precomputeForwardTop G f L spin k σ.name reality μ nside 0 = .ok (.d2 L (2 * L - 1) g) ∧
      precomputeForwardTop G f' L (-spin) k' σ.name reality' ν nside 0 = .ok (.d2 L (2 * L - 1) g') ∧
      ∀ el m, 0 ≤ el → el < L → -L < m → m < L →
        g' el (m + L - 1) = mirrorCoeffs L g el (m + L - 1) := by
  have hR := plain_scheme σ hσ
  have hre1 : reality = true → spin = 0 → RealInput G.nodes σ L (nside.getD 0) f.get2 :=
    fun a b => hre (Or.inl a) b
  have hre2 : reality' = true → -spin = 0 → RealInput G.nodes σ L (nside.getD 0) f'.get2 :=
    fun a b => realInput_mirror hR hc (hre (Or.inr a) (neg_eq_zero.1 b))
  have hr1 : effReality reality spin = true → RealRings σ.inner L (nside.getD 0)
      (innerRings σ L (nside.getD 0)) (innerSignal σ L spin f.get2) := by
    intro h
    have h2 := effReality_spin h
    have := hre1 (effReality_true h) h2
    subst h2
    exact realInput_rings hv.1 this
  have hr2 : effReality reality' (-spin) = true → RealRings σ.inner L (nside.getD 0)
      (innerRings σ L (nside.getD 0)) (innerSignal σ L (-spin) f'.get2) := by
    intro h
    have h2 := effReality_spin h
    have := hre2 (effReality_true h) h2
    rw [h2]
    exact realInput_rings hv.1 this
  have hθ : kTheta G.nodes σ L (nside.getD 0) true = fun t => σ.theta G.nodes L (nside.getD 0) t :=
    plain_theta hR _ _ _
  obtain ⟨K, ek, hK⟩ := getKernel_ok G hv reality true hρ hex hk
  obtain ⟨K', ek', hK'⟩ := getKernel_ok G hv reality' true hρ' hex' hk'
  obtain ⟨g, e, hg⟩ := precomputeForwardTop_values hμ G hv
    (fun h => ⟨(hhp h).1, fun h' => (hhp h).2 (Or.inl h')⟩) f hf reality hre1 hK ek
  obtain ⟨g', e', hg'⟩ := precomputeForwardTop_values hν G hv
    (fun h => ⟨(hhp h).1, fun h' => (hhp h).2 (Or.inr h')⟩) f' hf' reality' hre2 hK' ek'
  refine ⟨g, g', e, e', fun el m a0 b0 m0 m1 => ?_⟩
  unfold mirrorCoeffs
  rw [show m + L - 1 - L + 1 = m by ring, hg el m a0 b0 m0 m1, hg' el m a0 b0 m0 m1, hθ]
  exact (symm_plain hR effReality_spin hr2 _ _).trans ((fAt_mirror hc
    (fun t t0 t1 => mirror_theta hv hm t0 t1) (fun t t0 t1 => mirror_weight hv.1 hR hw t0 t1)
    el m).trans (by rw [← symm_plain hR effReality_spin hr1]; rfl))

end

/-! ## The transforms that compute their kernels as they go -/

section
variable (B : Backends) (G : Machine) (σ : Scheme) (L spin lo : ℤ) (nside : Option ℤ)

theorem C55_otf_inverse_conj (hv : σ.Valid L (nside.getD 0))
    (hhp : σ = .healpix → 2 * nside.getD 0 ≤ L) (μ ν : PyStr)
    (hμ : μ ∈ [mNumpy, mJax, mTorch]) (hν : ν ∈ [mNumpy, mJax, mTorch])
    (hsp : |spin| < L) (h8 : |spin| < 8)
    (hlo : LowerOk μ L lo) (hlo' : LowerOk ν L lo) (flm : ℤ → ℤ → ℂ)
    (hf : ∀ el k, lo ≤ el → el < |spin| → 0 ≤ k → k < 2 * L - 1 → flm el k = 0)
    (p p' : Option PmPre) (hP : PrecompsArg G L spin σ.name nside false p)
    (hP' : PrecompsArg G L (-spin) σ.name nside false p')
    (hr : OtfRegular G σ L (nside.getD 0) spin false)
    (hr' : OtfRegular G σ L (nside.getD 0) (-spin) false) (k : ℤ) :
    ∃ f f', sphericalInverse B G (.d2 L (2 * L - 1) flm) L spin nside σ.name μ false p lo k = .ok f ∧
      sphericalInverse B G (.d2 L (2 * L - 1) (conjCoeffs L spin flm)) L (-spin) nside σ.name ν false p'
        lo k = .ok f' ∧ Conjugates σ L (nside.getD 0) f.get2 f'.get2 := by
  obtain ⟨a1, a2⟩ := abs_lt.1 h8
  obtain ⟨f, e, -, hg⟩ := C39_expansion_partial B G σ L spin lo nside hv hhp μ hμ hsp a2 hlo
    flm hf false (by rintro ⟨⟩) (by rintro ⟨⟩) p hP hr k
  obtain ⟨f', e', -, hg'⟩ := C39_expansion_partial B G σ L (-spin) lo nside hv hhp ν hν
    (by rw [abs_neg]; exact hsp) (by omega) hlo' (conjCoeffs L spin flm) (fun el k h1 h2 h3 h4 => by
      rw [abs_neg] at h2
      unfold conjCoeffs
      rw [hf el _ h1 h2 (by omega) (by omega), map_zero, mul_zero]) false (by rintro ⟨⟩)
    (by rintro ⟨⟩) p' hP' hr' k
  refine ⟨f, f', e, e', fun t p h => ?_⟩
  rw [hg t p h, hg' t p h]
  exact harmonicSum_conj lo L spin _ _ fun l m _ _ _ => coeffs_conj flm L spin l m

theorem C55_otf_inverse_mirror (hv : σ.Valid L (nside.getD 0)) (hm : MirrorGrid G.nodes σ L)
    (hst : ExactStored G σ L nside false)
    (hhp : σ = .healpix → 2 * nside.getD 0 ≤ L) (μ ν : PyStr)
    (hμ : μ ∈ [mNumpy, mJax, mTorch]) (hν : ν ∈ [mNumpy, mJax, mTorch])
    (hsp : |spin| < L) (h8 : |spin| < 8)
    (hlo : LowerOk μ L lo) (hlo' : LowerOk ν L lo) (flm : ℤ → ℤ → ℂ)
    (hf : ∀ el k, lo ≤ el → el < |spin| → 0 ≤ k → k < 2 * L - 1 → flm el k = 0) (reality : Bool)
    (hrs : reality = true → spin = 0) (hre : RealOrderZero flm L spin reality lo)
    (p p' : Option PmPre) (hP : PrecompsArg G L spin σ.name nside false p)
    (hP' : PrecompsArg G L (-spin) σ.name nside false p')
    (hr : OtfRegular G σ L (nside.getD 0) spin false)
    (hr' : OtfRegular G σ L (nside.getD 0) (-spin) false) (k : ℤ) :
    ∃ f f', sphericalInverse B G (.d2 L (2 * L - 1) flm) L spin nside σ.name μ reality p lo k
        = .ok f ∧
      sphericalInverse B G (.d2 L (2 * L - 1) (mirrorCoeffs L flm)) L (-spin) nside σ.name ν reality p'
        lo k = .ok f' ∧ Mirrored σ L (nside.getD 0) f.get2 f'.get2 := by
  obtain ⟨a1, a2⟩ := abs_lt.1 h8
  have hst' : ∀ t, 0 ≤ t → t < σ.rings L (nside.getD 0) →
      G.rnd (σ.theta G.nodes L (nside.getD 0) t) = σ.theta G.nodes L (nside.getD 0) t := hst
  obtain ⟨f, e, -, hg⟩ := C39_expansion_partial B G σ L spin lo nside hv hhp μ hμ hsp a2 hlo
    flm hf reality hrs hre p hP hr k
  obtain ⟨f', e', -, hg'⟩ := C39_expansion_partial B G σ L (-spin) lo nside hv hhp ν hν
    (by rw [abs_neg]; exact hsp) (by omega) hlo' (mirrorCoeffs L flm) (fun el k h1 h2 h3 h4 => by
      rw [abs_neg] at h2
      unfold mirrorCoeffs
      rw [hf el _ h1 h2 h3 h4, mul_zero]) reality (fun h => by rw [hrs h, neg_zero])
    (realOrderZero_mirror hre) p' hP' hr' k
  refine ⟨f, f', e, e', fun t p h => ?_⟩
  have h' := mirror_has h
  rw [hg t p h, hg' _ p h', hst' t h.1 h.2.1, hst' _ h'.1 h'.2.1, mirror_theta hv hm h.1 h.2.1,
    mirror_phi]
  exact harmonicSum_mirror lo L spin _ _ fun l m _ _ _ => coeffs_mirror flm L spin reality l m

theorem C55_otf_forward_conj (hσ : σ = .dh ∨ σ = .gl ∨ σ = .healpix)
    (hv : σ.Valid L (nside.getD 0)) (μ ν : PyStr)
    (hμ : μ ∈ [mNumpy, mJax, mTorch]) (hν : ν ∈ [mNumpy, mJax, mTorch])
    (hhp : σ = .healpix → 2 * nside.getD 0 ≤ L ∧ (μ ≠ mNumpy ∨ ν ≠ mNumpy → 2 ≤ nside.getD 0))
    (hsp : |spin| < L) (h8 : |spin| < 8) (hlo : LowerOk μ L lo) (hlo' : LowerOk ν L lo)
    (f f' : Nd ℂ) (hf : f.shape = σ.shape L (nside.getD 0)) (hf' : f'.shape = σ.shape L (nside.getD 0))
    (hc : Conjugates σ L (nside.getD 0) f.get2 f'.get2) (reality reality' : Bool)
    (hrs : reality = true ∨ reality' = true → spin = 0)
    (hre : reality = true ∨ reality' = true → RealInput G.nodes σ L (nside.getD 0) f.get2)
    (p p' : Option PmPre) (hP : PrecompsArg G L spin σ.name nside true p)
    (hP' : PrecompsArg G L (-spin) σ.name nside true p')
    (hr : OtfRegular G σ L (nside.getD 0) spin true)
    (hr' : OtfRegular G σ L (nside.getD 0) (-spin) true)
    (iter : Option ℤ) (hit : iter = none ∨ iter = some 0) (k : ℤ) :
    ∃ g g', sphericalForward B G f L spin nside σ.name μ reality p lo iter k
        = .ok (.d2 L (2 * L - 1) g) ∧
      sphericalForward B G f' L (-spin) nside σ.name ν reality' p' lo iter k
        = .ok (.d2 L (2 * L - 1) g') ∧
      ∀ el m, 0 ≤ el → el < L → -L < m → m < L →
        g' el (m + L - 1) = conjCoeffs L spin g el (m + L - 1) := by
  obtain ⟨a1, a2⟩ := abs_lt.1 h8
  have hR := plain_scheme σ hσ
  have hr1 : reality = true → RealRings σ.inner L (nside.getD 0)
      (innerRings σ L (nside.getD 0)) (innerSignal σ L spin f.get2) := by
    intro h
    have := hrs (Or.inl h); subst this
    exact realInput_rings hv.1 (hre (Or.inl h))
  have hr2 : reality' = true → RealRings σ.inner L (nside.getD 0)
      (innerRings σ L (nside.getD 0)) (innerSignal σ L (-spin) f'.get2) := by
    intro h
    rw [hrs (Or.inr h), neg_zero]
    exact realInput_rings hv.1 (realInput_conj hR hc (hre (Or.inr h)))
  obtain ⟨g, e, hg⟩ := sphericalForward_values B G σ L spin lo nside hv μ hμ
    (fun h => ⟨(hhp h).1, fun h' => (hhp h).2 (Or.inl h')⟩) hsp a2 hlo f hf reality hr1 p hP hr iter
    hit k
  obtain ⟨g', e', hg'⟩ := sphericalForward_values B G σ L (-spin) lo nside hv ν hν
    (fun h => ⟨(hhp h).1, fun h' => (hhp h).2 (Or.inr h')⟩) (by rw [abs_neg]; exact hsp) (by omega)
    hlo' f' hf' reality' hr2 p' hP' hr' iter hit k
  refine ⟨g, g', e, e', fun el m a0 b0 m0 m1 => ?_⟩
  unfold conjCoeffs
  rw [show m + L - 1 - L + 1 = m by ring, show 2 * L - 2 - (m + L - 1) = -m + L - 1 by ring,
    hg el (-m) a0 b0 (by omega) (by omega), hg' el m a0 b0 m0 m1, abs_neg]
  by_cases h : el < max |spin| lo
  · rw [if_pos h, if_pos h, map_zero, mul_zero]
  · rw [if_neg h, if_neg h, symm_plain hR (fun h => hrs (Or.inl h)) hr1,
      symm_plain hR (fun h => neg_eq_zero.2 (hrs (Or.inr h))) hr2]
    exact fAt_conj hc el m

theorem C55_otf_forward_mirror (hσ : σ = .dh ∨ σ = .gl ∨ σ = .healpix)
    (hv : σ.Valid L (nside.getD 0)) (hm : MirrorGrid G.nodes σ L)
    (hw : σ = .gl → ∀ t, 0 ≤ t → t < L → G.weights L (L - 1 - t) = G.weights L t)
    (hst : ExactStored G σ L nside true) (μ ν : PyStr)
    (hμ : μ ∈ [mNumpy, mJax, mTorch]) (hν : ν ∈ [mNumpy, mJax, mTorch])
    (hhp : σ = .healpix → 2 * nside.getD 0 ≤ L ∧ (μ ≠ mNumpy ∨ ν ≠ mNumpy → 2 ≤ nside.getD 0))
    (hsp : |spin| < L) (h8 : |spin| < 8) (hlo : LowerOk μ L lo) (hlo' : LowerOk ν L lo)
    (f f' : Nd ℂ) (hf : f.shape = σ.shape L (nside.getD 0)) (hf' : f'.shape = σ.shape L (nside.getD 0))
    (hc : Mirrored σ L (nside.getD 0) f.get2 f'.get2) (reality reality' : Bool)
    (hrs : reality = true ∨ reality' = true → spin = 0)
    (hre : reality = true ∨ reality' = true → RealInput G.nodes σ L (nside.getD 0) f.get2)
    (p p' : Option PmPre) (hP : PrecompsArg G L spin σ.name nside true p)
    (hP' : PrecompsArg G L (-spin) σ.name nside true p')
    (hr : OtfRegular G σ L (nside.getD 0) spin true)
    (hr' : OtfRegular G σ L (nside.getD 0) (-spin) true)
    (iter : Option ℤ) (hit : iter = none ∨ iter = some 0) (k : ℤ) :
    ∃ g g', sphericalForward B G f L spin nside σ.name μ reality p lo iter k
        = .ok (.d2 L (2 * L - 1) g) ∧
      sphericalForward B G f' L (-spin) nside σ.name ν reality' p' lo iter k
        = .ok (.d2 L (2 * L - 1) g') ∧
      ∀ el m, 0 ≤ el → el < L → -L < m → m < L →
        g' el (m + L - 1) = mirrorCoeffs L g el (m + L - 1) := by
  obtain ⟨a1, a2⟩ := abs_lt.1 h8
  have hR := plain_scheme σ hσ
  have hr1 : reality = true → RealRings σ.inner L (nside.getD 0)
      (innerRings σ L (nside.getD 0)) (innerSignal σ L spin f.get2) := by
    intro h
    have := hrs (Or.inl h); subst this
    exact realInput_rings hv.1 (hre (Or.inl h))
  have hr2 : reality' = true → RealRings σ.inner L (nside.getD 0)
      (innerRings σ L (nside.getD 0)) (innerSignal σ L (-spin) f'.get2) := by
    intro h
    rw [hrs (Or.inr h), neg_zero]
    exact realInput_rings hv.1 (realInput_mirror hR hc (hre (Or.inr h)))
  obtain ⟨g, e, hg⟩ := sphericalForward_values B G σ L spin lo nside hv μ hμ
    (fun h => ⟨(hhp h).1, fun h' => (hhp h).2 (Or.inl h')⟩) hsp a2 hlo f hf reality hr1 p hP hr iter
    hit k
  obtain ⟨g', e', hg'⟩ := sphericalForward_values B G σ L (-spin) lo nside hv ν hν
    (fun h => ⟨(hhp h).1, fun h' => (hhp h).2 (Or.inr h')⟩) (by rw [abs_neg]; exact hsp) (by omega)
    hlo' f' hf' reality' hr2 p' hP' hr' iter hit k
  refine ⟨g, g', e, e', fun el m a0 b0 m0 m1 => ?_⟩
  have hθ : ∀ t, 0 ≤ t → t < σ.rings L (nside.getD 0) →
      G.inner σ L (nside.getD 0) t = σ.theta G.nodes L (nside.getD 0) t := by
    intro t t0 t1
    have hk : kTheta G.nodes σ L (nside.getD 0) true = fun t => σ.theta G.nodes L (nside.getD 0) t :=
      plain_theta hR _ _ _
    have := hst t t0 (lt_of_lt_of_eq t1 (plain_rings hR _ _).symm)
    rw [hk] at this
    unfold Machine.inner
    rw [plain_theta hR]
    exact this
  unfold mirrorCoeffs
  rw [show m + L - 1 - L + 1 = m by ring, hg el m a0 b0 m0 m1, hg' el m a0 b0 m0 m1, abs_neg]
  by_cases h : el < max |spin| lo
  · rw [if_pos h, if_pos h, mul_zero]
  · rw [if_neg h, if_neg h, symm_plain hR (fun h => hrs (Or.inl h)) hr1,
      symm_plain hR (fun h => neg_eq_zero.2 (hrs (Or.inr h))) hr2]
    refine fAt_mirror hc (fun t t0 t1 => ?_) (fun t t0 t1 => mirror_weight hv.1 hR hw t0 t1) el m
    rw [hθ t t0 t1, hθ _ (by omega) (by omega), mirror_theta hv hm t0 t1]

end

/-- The conditions are met by any samples, here of spin 2 on a DH grid. -/
example (G : GlTables) (x : ℤ → ℤ → ℂ) :
    ∃ g g', baseForwardWith G (.d2 10 9 x) 5 2 sDH bVec none false 0 = .ok (.d2 5 9 g) ∧
      baseForwardWith G (.d2 10 9 fun t p => (starRingEnd ℂ) (x t p)) 5 (-2) sDH bSov none false 0
        = .ok (.d2 5 9 g') ∧
      ∀ el m, 0 ≤ el → el < 5 → -5 < m → m < 5 →
        g' el (m + 5 - 1) = conjCoeffs 5 2 g el (m + 5 - 1) :=
  C55_base_forward_conj G .dh 5 2 0 none (Or.inl rfl) ⟨by norm_num, by rintro ⟨⟩⟩ bVec bSov (by simp)
    (by simp) (by rintro ⟨⟩) (by norm_num) (by norm_num) (.d2 10 9 x)
    (.d2 10 9 fun t p => (starRingEnd ℂ) (x t p)) rfl rfl (fun _ _ _ => rfl) false false (by simp)

end S2fft
