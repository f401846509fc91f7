import Verif.Lemmas.Adjoint
import Verif.Props.C39
import Verif.Props.C27
import Verif.Props.C24

/-!
# C53: analysis is the adjoint of synthesis, and energy is conserved

On the grids whose samples are used as they are (`dh`, `gl`, `healpix`; `mw` and `mwss` signals are
resampled first) the forward transform of *any* samples is the adjoint of the inverse transform under
the weights `quad_weights` returns: `⟨forward f, c⟩ = ⟨f, inverse c⟩_w`. On `dh` and `gl` the inverse
transform moreover preserves inner products: the weighted energy of the samples is the energy of the
coefficients.
-/

namespace S2fft
open Spec

/-! ## The base transforms -/

section
variable (G : GlTables) (σ : Scheme) (hσ : σ = .dh ∨ σ = .gl ∨ σ = .healpix) (L spin lo : ℤ)
  (nside : Option ℤ)

include hσ in
theorem plain_scheme : ¬ σ.Resampled := by
  rintro (rfl | rfl) <;> rcases hσ with h | h | h <;> cases h

include hσ in
/-- The forward transform is the adjoint of the inverse transform; methods and `reality` flags of the
two may differ. -/
theorem C53_base_adjoint (hv : σ.Valid L (nside.getD 0)) (μ ν : PyStr)
    (hμ : μ ∈ [bDirect, bSov, bSovFft, bVec]) (hν : ν ∈ [bDirect, bSov, bSovFft, bVec])
    (hhp : σ = .healpix → 2 * nside.getD 0 ≤ L) (h0 : 0 ≤ lo) (h1 : lo < L)
    (flm : ℤ → ℤ → ℂ) (reality reality' : Bool) (hre : RealOrderZero flm L spin reality lo)
    (f : Nd ℂ) (hf : f.shape = σ.shape L (nside.getD 0))
    (hre' : reality' = true → spin = 0 → RealInput G.nodes σ L (nside.getD 0) f.get2) :
    ∃ F g w, baseInverseWith G (.d2 L (2 * L - 1) flm) L spin σ.name μ nside reality lo = .ok F ∧
      baseForwardWith G f L spin σ.name ν nside reality' lo = .ok (.d2 L (2 * L - 1) g) ∧
      quad_weights G.weights (some L) σ.name spin nside = .ok (σ.rings L (nside.getD 0), w) ∧
      coeffInner lo L (fun l m => g l (m + L - 1)) (coeffs flm L spin reality)
        = sampleInner σ L (nside.getD 0) w f.get2 F.get2 := by
  have hR := plain_scheme σ hσ
  obtain ⟨F, e, -, hF⟩ := baseInverse_snapped G σ L spin lo nside hv μ hμ (fun _ => hhp) h0 h1 flm
    reality (fun _ => hre)
  obtain ⟨g, e', hg, hz⟩ := baseForwardWith_values G (lower_name σ) (method := ν) hν
    (fun _ h => by rw [h]; rfl) (spin := spin) hv (fun _ => hhp) f hf reality' h0 h1
    (by rintro _ a rfl; exact realInput_rings hv.1 (hre' a rfl))
  refine ⟨F, g, _, e, e', quad_weights_plain G hR spin hv, ?_⟩
  refine adjoint_plain G hR (r := effReality reality' spin) h0 hF effReality_spin ?_ ?_ ?_
  · intro h
    have := effReality_spin h
    subst this
    exact realInput_rings hv.1 (hre' (effReality_true h) rfl)
  · intro l m a b c d
    rw [hg l m (by unfold elStart; omega) b (by omega) (by omega), ← fAt_snap, plain_theta hR]
  · intro l m a b _ c d
    exact hz l _ (by unfold elStart; omega)

include hσ in
/-- Inner products of synthesized signals are those of the coefficients. -/
theorem C53_base_products (hv : σ.Valid L (nside.getD 0)) (hS : SamplingTheorem G σ L)
    (hex : GridExact G.nodes σ L (nside.getD 0)) (μ ν : PyStr)
    (hμ : μ ∈ [bDirect, bSov, bSovFft, bVec]) (hν : ν ∈ [bDirect, bSov, bSovFft, bVec])
    (h0 : 0 ≤ lo) (h1 : lo < L) (a b : ℤ → ℤ → ℂ) (reality reality' : Bool)
    (ha : RealOrderZero a L spin reality lo) (hb : RealOrderZero b L spin reality' lo) :
    ∃ A B w, baseInverseWith G (.d2 L (2 * L - 1) a) L spin σ.name μ nside reality lo = .ok A ∧
      baseInverseWith G (.d2 L (2 * L - 1) b) L spin σ.name ν nside reality' lo = .ok B ∧
      quad_weights G.weights (some L) σ.name spin nside = .ok (σ.rings L (nside.getD 0), w) ∧
      sampleInner σ L (nside.getD 0) w A.get2 B.get2
        = coeffInner (max lo |spin|) L (coeffs a L spin reality) (coeffs b L spin reality') := by
  have hR := plain_scheme σ hσ
  obtain ⟨A, e, -, hA⟩ := baseInverse_snapped G σ L spin lo nside hv μ hμ
    (fun _ h => absurd h hS.1) h0 h1 a reality (fun _ => ha)
  obtain ⟨B, e', -, hB⟩ := baseInverse_snapped G σ L spin lo nside hv ν hν
    (fun _ h => absurd h hS.1) h0 h1 b reality' (fun _ => hb)
  refine ⟨A, B, _, e, e', quad_weights_plain G hR spin hv,
    parseval_plain G hR hv.1 h0 hS (fun t p h => ?_) (fun t p h => ?_)⟩
  · rw [hA t p h, snapAngle_eq _ (hex t h.1 h.2.1)]
  · rw [hB t p h, snapAngle_eq _ (hex t h.1 h.2.1)]

include hσ in
/-- Energy: `∑ w |inverse flm|² = ∑ |flm|²`, over the degrees synthesized. -/
theorem C53_base_energy (hv : σ.Valid L (nside.getD 0)) (hS : SamplingTheorem G σ L)
    (hex : GridExact G.nodes σ L (nside.getD 0)) (μ : PyStr)
    (hμ : μ ∈ [bDirect, bSov, bSovFft, bVec]) (h0 : 0 ≤ lo) (h1 : lo < L) (flm : ℤ → ℤ → ℂ)
    (reality : Bool) (hre : RealOrderZero flm L spin reality lo) :
    ∃ F w, baseInverseWith G (.d2 L (2 * L - 1) flm) L spin σ.name μ nside reality lo = .ok F ∧
      quad_weights G.weights (some L) σ.name spin nside = .ok (σ.rings L (nside.getD 0), w) ∧
      sampleEnergy σ L (nside.getD 0) w F.get2
        = coeffEnergy (max lo |spin|) L (coeffs flm L spin reality) := by
  obtain ⟨A, B, w, e, e', hw, h⟩ := C53_base_products G σ hσ L spin lo nside hv hS hex μ μ hμ hμ h0 h1
    flm flm reality reality hre hre
  obtain rfl : A = B := by
    have := e.symm.trans e'
    injection this
  refine ⟨A, w, e, hw, ?_⟩
  rw [sampleInner_self, coeffInner_self] at h
  exact_mod_cast h

end

/-- With the Gauss–Legendre weights the code computes (a Newton iteration stopped at `3e-14`) the
energy is conserved up to a relative error of `3e-14 (L + 1/2)²`. -/
theorem C53_gl_energy (G : GlTables) (L spin lo : ℤ) (nside : Option ℤ) (hL : 1 ≤ L)
    (hL2 : L ≤ 20000) (hG : GlCode G.nodes G.weights L) (μ : PyStr)
    (hμ : μ ∈ [bDirect, bSov, bSovFft, bVec]) (h0 : 0 ≤ lo) (h1 : lo < L) (flm : ℤ → ℤ → ℂ)
    (reality : Bool) (hre : RealOrderZero flm L spin reality lo) :
    ∃ F w, baseInverseWith G (.d2 L (2 * L - 1) flm) L spin sGL μ nside reality lo = .ok F ∧
      quad_weights G.weights (some L) sGL spin nside = .ok (L, w) ∧
      |sampleEnergy .gl L (nside.getD 0) w F.get2
          - coeffEnergy (max lo |spin|) L (coeffs flm L spin reality)|
        ≤ 3e-14 * ((L : ℝ) + 1 / 2) ^ 2 * coeffEnergy (max lo |spin|) L (coeffs flm L spin reality) := by
  have hv : Scheme.gl.Valid L (nside.getD 0) := ⟨hL, fun h => nomatch h⟩
  have hex := C18_gl_grid G.nodes L (nside.getD 0) hL hL2 hG.mono hG.root
  have hR : ¬ Scheme.gl.Resampled := by decide
  obtain ⟨F, e, -, hF⟩ := baseInverse_snapped G .gl L spin lo nside hv μ hμ
    (fun _ h => nomatch h) h0 h1 flm reality (fun _ => hre)
  have hs : ∀ t p, Scheme.gl.Has L (nside.getD 0) t p →
      F.get2 (Scheme.gl.pos (nside.getD 0) t p).1 (Scheme.gl.pos (nside.getD 0) t p).2
        = harmonicSum lo L spin (coeffs flm L spin reality)
          (Scheme.gl.theta G.nodes L (nside.getD 0) t) (Scheme.gl.phi L (nside.getD 0) t p) := by
    intro t p h
    rw [hF t p h, snapAngle_eq _ (hex t h.1 h.2.1)]
  have key : sampleEnergy .gl L (nside.getD 0) (glWeights G.nodes L) F.get2
      = coeffEnergy (max lo |spin|) L (coeffs flm L spin reality) := by
    have := parseval_plain ⟨G.nodes, glWeights G.nodes⟩ hR hL h0
      (show SamplingTheorem _ .gl L from ⟨fun h => (nomatch h), fun _ => hG.exact⟩) hs hs
    rw [sampleInner_self, coeffInner_self] at this
    exact_mod_cast this
  refine ⟨F, _, e, quad_weights_plain G hR spin hv, ?_⟩
  rw [← key]
  unfold sampleEnergy
  rw [← Finset.sum_sub_distrib, Finset.mul_sum]
  refine (Finset.abs_sum_le_sum_abs _ _).trans (Finset.sum_le_sum fun t ht => ?_)
  rw [Finset.mem_Ico] at ht
  rw [← Finset.sum_sub_distrib, Finset.mul_sum]
  refine (Finset.abs_sum_le_sum_abs _ _).trans (Finset.sum_le_sum fun p _ => ?_)
  obtain ⟨_, hc⟩ := hG.close hL t ht.1 ht.2
  rw [← sub_mul, abs_mul, abs_of_nonneg (sq_nonneg ‖_‖), ← mul_assoc]
  exact mul_le_mul_of_nonneg_right hc (sq_nonneg _)

/-! ## The transforms with precomputed kernels -/

section
variable (G : GlTables) (σ : Scheme) (hσ : σ = .dh ∨ σ = .gl ∨ σ = .healpix) (L spin : ℤ)
  (nside : Option ℤ)

include hσ in
theorem C53_precompute_adjoint (hv : σ.Valid L (nside.getD 0))
    (κ κ' ρ ρ' : PyStr) (hρ : RecursionOk L spin ρ) (hρ' : RecursionOk L spin ρ')
    (hex : KernelExact G.nodes σ L (nside.getD 0) spin false κ ρ)
    (hex' : KernelExact G.nodes σ L (nside.getD 0) spin true κ' ρ')
    (μ ν : PyStr) (hμ : μ ∈ [mNumpy, mJax, mTorch]) (hν : ν ∈ [mNumpy, mJax, mTorch])
    (hhp : σ = .healpix → 2 * nside.getD 0 ≤ L ∧ (ν ≠ mNumpy → 2 ≤ nside.getD 0))
    (flm : ℤ → ℤ → ℂ) (reality reality' : Bool) (hre : RealOrderZero flm L spin reality 0)
    (f : Nd ℂ) (hf : f.shape = σ.shape L (nside.getD 0))
    (hre' : reality' = true → spin = 0 → RealInput G.nodes σ L (nside.getD 0) f.get2)
    (k k' : Option (Nd ℂ))
    (hk : KernelArg G L spin reality σ.name nside false μ κ ρ k)
    (hk' : KernelArg G L spin reality' σ.name nside true ν κ' ρ' k') :
    ∃ F g w, precomputeInverseTop G (.d2 L (2 * L - 1) flm) L spin k σ.name reality μ nside = .ok F ∧
      precomputeForwardTop G f L spin k' σ.name reality' ν nside 0 = .ok (.d2 L (2 * L - 1) g) ∧
      quad_weights G.weights (some L) σ.name spin nside = .ok (σ.rings L (nside.getD 0), w) ∧
      coeffInner 0 L (fun l m => g l (m + L - 1)) (coeffs flm L spin reality)
        = sampleInner σ L (nside.getD 0) w f.get2 F.get2 := by
  have hR := plain_scheme σ hσ
  obtain ⟨F, e, -, hF⟩ := C27_expansion G σ L spin nside hv (fun h => (hhp h).1) κ ρ hρ hex μ hμ
    flm reality hre k hk
  obtain ⟨K, ek, hK⟩ := getKernel_ok G hv reality' true hρ' hex' hk'
  obtain ⟨g, e', hg⟩ := precomputeForwardTop_values hν G hv hhp f hf reality' hre' hK ek
  refine ⟨F, g, _, e, e', quad_weights_plain G hR spin hv, ?_⟩
  have hθ : kTheta G.nodes σ L (nside.getD 0) true = fun t => σ.theta G.nodes L (nside.getD 0) t :=
    plain_theta hR _ _ _
  have hrr : effReality reality' spin = true → RealRings σ.inner L (nside.getD 0)
      (innerRings σ L (nside.getD 0)) (innerSignal σ L spin f.get2) := by
    intro h
    have := effReality_spin h
    subst this
    exact realInput_rings hv.1 (hre' (effReality_true h) rfl)
  refine adjoint_plain G hR (r := effReality reality' spin)
    (θ := fun t => σ.theta G.nodes L (nside.getD 0) t) le_rfl hF effReality_spin hrr ?_ ?_
  · intro l m a b c d
    rw [hg l m (by omega) b (by omega) (by omega), hθ]
    rfl
  · intro l m a b b' c d
    rw [hg l m a b' (by omega) (by omega)]
    have hs : l < |spin| := by omega
    exact symm_zero (fAt_outside (Or.inr (by omega))) (fAt_outside (Or.inr (by omega)))

include hσ in
theorem C53_precompute_energy (hv : σ.Valid L (nside.getD 0)) (hS : SamplingTheorem G σ L)
    (κ recursion : PyStr) (hrec : RecursionOk L spin recursion)
    (hex : KernelExact G.nodes σ L (nside.getD 0) spin false κ recursion)
    (method : PyStr) (hmt : method ∈ [mNumpy, mJax, mTorch]) (flm : ℤ → ℤ → ℂ) (reality : Bool)
    (hre : RealOrderZero flm L spin reality 0) (kernel : Option (Nd ℂ))
    (hk : KernelArg G L spin reality σ.name nside false method κ recursion kernel) :
    ∃ F w, precomputeInverseTop G (.d2 L (2 * L - 1) flm) L spin kernel σ.name reality method nside
        = .ok F ∧
      quad_weights G.weights (some L) σ.name spin nside = .ok (σ.rings L (nside.getD 0), w) ∧
      sampleEnergy σ L (nside.getD 0) w F.get2
        = coeffEnergy |spin| L (coeffs flm L spin reality) := by
  have hR := plain_scheme σ hσ
  obtain ⟨F, e, -, hF⟩ := C27_expansion G σ L spin nside hv (fun h => absurd h hS.1) κ recursion hrec
    hex method hmt flm reality hre kernel hk
  refine ⟨F, _, e, quad_weights_plain G hR spin hv, ?_⟩
  have := parseval_plain G hR hv.1 le_rfl hS hF hF
  rw [sampleInner_self, coeffInner_self, max_eq_right (abs_nonneg spin)] at this
  exact_mod_cast this

end

/-! ## The on-the-fly transforms -/

section
variable (B : Backends) (G : Machine) (σ : Scheme) (hσ : σ = .dh ∨ σ = .gl ∨ σ = .healpix)
  (L spin lo : ℤ) (nside : Option ℤ)

include hσ in
/-- Both transforms use the same stored angles, so they are adjoint whatever these are. -/
theorem C53_otf_adjoint (hv : σ.Valid L (nside.getD 0)) (μ ν : PyStr)
    (hμ : μ ∈ [mNumpy, mJax, mTorch]) (hν : ν ∈ [mNumpy, mJax, mTorch])
    (hhp : σ = .healpix → 2 * nside.getD 0 ≤ L ∧ (ν ≠ mNumpy → 2 ≤ nside.getD 0))
    (hsp : |spin| < L) (h8 : spin < 8) (hlo : LowerOk μ L lo) (hlo' : LowerOk ν L lo)
    (flm : ℤ → ℤ → ℂ) (hflm : ∀ el k, lo ≤ el → el < |spin| → 0 ≤ k → k < 2 * L - 1 → flm el k = 0)
    (reality reality' : Bool) (hrs : reality = true → spin = 0) (hrs' : reality' = true → spin = 0)
    (hre : RealOrderZero flm L spin reality lo)
    (f : Nd ℂ) (hf : f.shape = σ.shape L (nside.getD 0))
    (hre' : reality' = true → RealInput G.nodes σ L (nside.getD 0) f.get2)
    (p p' : Option PmPre) (hP : PrecompsArg G L spin σ.name nside false p)
    (hP' : PrecompsArg G L spin σ.name nside true p')
    (hr : OtfRegular G σ L (nside.getD 0) spin false)
    (hr' : OtfRegular G σ L (nside.getD 0) spin true)
    (iter : Option ℤ) (hit : iter = none ∨ iter = some 0) (k : ℤ) :
    ∃ F g w, sphericalInverse B G (.d2 L (2 * L - 1) flm) L spin nside σ.name μ reality p lo k
        = .ok F ∧
      sphericalForward B G f L spin nside σ.name ν reality' p' lo iter k
        = .ok (.d2 L (2 * L - 1) g) ∧
      quad_weights G.weights (some L) σ.name spin nside = .ok (σ.rings L (nside.getD 0), w) ∧
      coeffInner lo L (fun l m => g l (m + L - 1)) (coeffs flm L spin reality)
        = sampleInner σ L (nside.getD 0) w f.get2 F.get2 := by
  have hR := plain_scheme σ hσ
  have h0 : 0 ≤ lo := hlo'.1
  have hrr : reality' = true → RealRings σ.inner L (nside.getD 0)
      (innerRings σ L (nside.getD 0)) (innerSignal σ L spin f.get2) := by
    intro h
    have := hrs' h
    subst this
    exact realInput_rings hv.1 (hre' h)
  obtain ⟨F, e, -, hF⟩ := C39_expansion_partial B G σ L spin lo nside hv (fun h => (hhp h).1) μ hμ hsp
    h8 hlo flm hflm reality hrs hre p hP hr k
  obtain ⟨g, e', hg⟩ := sphericalForward_values B G σ L spin lo nside hv ν hν
    hhp hsp h8 hlo' f hf reality' hrr p' hP' hr' iter hit k
  refine ⟨F, g, _, e, e', quad_weights_plain G.toGlTables hR spin hv, ?_⟩
  refine adjoint_plain G.toGlTables hR (r := reality') h0
    (θ := fun t => G.rnd (σ.theta G.nodes L (nside.getD 0) t)) hF hrs' hrr ?_ ?_
  · intro l m a b c d
    rw [hg l m (by omega) b (by omega) (by omega), if_neg (by omega)]
    have : G.inner σ L (nside.getD 0) = fun t => G.rnd (σ.theta G.nodes L (nside.getD 0) t) := by
      funext t
      unfold Machine.inner
      rw [plain_theta hR]
    rw [this]
  · intro l m a b b' c d
    rw [hg l m a b' (by omega) (by omega), if_pos b]

include hσ in
theorem C53_otf_energy (hv : σ.Valid L (nside.getD 0)) (hS : SamplingTheorem G.toGlTables σ L)
    (method : PyStr) (hmt : method ∈ [mNumpy, mJax, mTorch]) (hsp : |spin| < L) (h8 : spin < 8)
    (hlo : LowerOk method L lo) (flm : ℤ → ℤ → ℂ)
    (hf : ∀ el k, lo ≤ el → el < |spin| → 0 ≤ k → k < 2 * L - 1 → flm el k = 0) (reality : Bool)
    (hrs : reality = true → spin = 0) (hre : RealOrderZero flm L spin reality lo)
    (precomps : Option PmPre) (hP : PrecompsArg G L spin σ.name nside false precomps)
    (hr : OtfRegular G σ L (nside.getD 0) spin false) (hst : ExactStored G σ L nside false) (k : ℤ) :
    ∃ F w, sphericalInverse B G (.d2 L (2 * L - 1) flm) L spin nside σ.name method reality precomps
        lo k = .ok F ∧
      quad_weights G.weights (some L) σ.name spin nside = .ok (σ.rings L (nside.getD 0), w) ∧
      sampleEnergy σ L (nside.getD 0) w F.get2
        = coeffEnergy (max lo |spin|) L (coeffs flm L spin reality) := by
  have hR := plain_scheme σ hσ
  have h0 : 0 ≤ lo := hlo.1
  obtain ⟨F, e, -, hF⟩ := C39_expansion_partial B G σ L spin lo nside hv (fun h => absurd h hS.1)
    method hmt hsp h8 hlo flm hf reality hrs hre precomps hP hr k
  refine ⟨F, _, e, quad_weights_plain G.toGlTables hR spin hv, ?_⟩
  have hF' : ∀ t p, σ.Has L (nside.getD 0) t p →
      F.get2 (σ.pos (nside.getD 0) t p).1 (σ.pos (nside.getD 0) t p).2
        = harmonicSum lo L spin (coeffs flm L spin reality)
          (σ.theta G.nodes L (nside.getD 0) t) (σ.phi L (nside.getD 0) t p) := by
    intro t p h
    rw [hF t p h, show G.rnd (σ.theta G.nodes L (nside.getD 0) t)
      = σ.theta G.nodes L (nside.getD 0) t from hst t h.1 h.2.1]
  have := parseval_plain G.toGlTables hR hv.1 h0 hS hF' hF'
  rw [sampleInner_self, coeffInner_self] at this
  exact_mod_cast this

end

/-- The conditions are met: spin 2 coefficients on a DH grid, and any samples. -/
example (G : GlTables) (flm x : ℤ → ℤ → ℂ) :
    ∃ F g w, baseInverseWith G (.d2 6 11 flm) 6 2 sDH bSov none false 1 = .ok F ∧
      baseForwardWith G (.d2 12 11 x) 6 2 sDH bVec none false 1 = .ok (.d2 6 11 g) ∧
      quad_weights G.weights (some 6) sDH 2 none = .ok (12, w) ∧
      coeffInner 1 6 (fun l m => g l (m + 6 - 1)) (coeffs flm 6 2 false)
        = sampleInner .dh 6 0 w x F.get2 :=
  C53_base_adjoint G .dh (Or.inl rfl) 6 2 1 none ⟨by norm_num, by rintro ⟨⟩⟩ bSov bVec (by simp)
    (by simp) (by rintro ⟨⟩) (by norm_num) (by norm_num) flm false false (by rintro ⟨⟩)
    (.d2 12 11 x) rfl (by rintro ⟨⟩)

end S2fft
