import Verif.Props.C53
import Verif.Props.C25
import Verif.Lemmas.LeastSquares

/-!
# C56: the forward transform is the best weighted fit, and inverse after forward is a projection

Data sampled on an equiangular or Gauss–Legendre grid need not be band-limited. Among all signals the
inverse transform can synthesize, the one from the coefficients of the forward transform is the closest
to the data, in the sum of squares with the weights `quad_weights` returns; no other coefficients do as
well. The coefficients never have more energy than the data. Transforming the synthesized signal again
returns the same coefficients, on every grid with a sampling theorem.
-/

namespace S2fft
open Spec

theorem coeffs_false (flm : ℤ → ℤ → ℂ) (L spin : ℤ) :
    coeffs flm L spin false = fun l m => flm l (m + L - 1) := by
  unfold coeffs; rw [if_neg (by simp)]

theorem ok_d2_inj {r c : ℤ} {a b : ℤ → ℤ → ℂ} {x : Except PyErr (Nd ℂ)}
    (h : x = .ok (.d2 r c a)) (h' : x = .ok (.d2 r c b)) : a = b := by
  rw [h] at h'
  injection h' with h'
  injection h'

/-! ## The base transforms -/

section
variable (G : GlTables) (σ : Scheme) (hσ : σ = .dh ∨ σ = .gl) (L spin lo : ℤ) (nside : Option ℤ)

include hσ in
theorem C56_base_best_fit (hv : σ.Valid L (nside.getD 0)) (hS : SamplingTheorem G σ L)
    (hex : GridExact G.nodes σ L (nside.getD 0)) (μ ν : PyStr)
    (hμ : μ ∈ [bDirect, bSov, bSovFft, bVec]) (hν : ν ∈ [bDirect, bSov, bSovFft, bVec])
    (h0 : 0 ≤ lo) (h1 : lo < L) (f : Nd ℂ) (hf : f.shape = σ.shape L (nside.getD 0)) (reality : Bool)
    (hre : reality = true → spin = 0 → RealInput G.nodes σ L (nside.getD 0) f.get2) :
    ∃ g F w, baseForwardWith G f L spin σ.name ν nside reality lo = .ok (.d2 L (2 * L - 1) g) ∧
      baseInverseWith G (.d2 L (2 * L - 1) g) L spin σ.name μ nside false lo = .ok F ∧
      quad_weights G.weights (some L) σ.name spin nside = .ok (σ.rings L (nside.getD 0), w) ∧
      Captures σ L (nside.getD 0) w (max lo |spin|) f.get2 F.get2 (fun l m => g l (m + L - 1)) ∧
      ∀ (flm : ℤ → ℤ → ℂ) (reality' : Bool) (ξ : PyStr), ξ ∈ [bDirect, bSov, bSovFft, bVec] →
        RealOrderZero flm L spin reality' lo →
        ∃ H, baseInverseWith G (.d2 L (2 * L - 1) flm) L spin σ.name ξ nside reality' lo = .ok H ∧
          Closer σ L (nside.getD 0) w (max lo |spin|) f.get2 F.get2 H.get2
            (fun l m => g l (m + L - 1)) (coeffs flm L spin reality') := by
  have hσ' : σ = .dh ∨ σ = .gl ∨ σ = .healpix := by tauto
  have hhp : σ = .healpix → 2 * nside.getD 0 ≤ L := fun h => absurd h hS.1
  have hq := quad_weights_plain G (plain_scheme σ hσ') spin hv
  obtain ⟨-, g, -, -, eg, -, -⟩ := C53_base_adjoint G σ hσ' L spin lo nside hv μ ν hμ hν hhp h0 h1
    (fun _ _ => 0) false reality (by rintro ⟨⟩) f hf hre
  have hz : ∀ l m, lo ≤ l → l < |spin| → l < L → |m| ≤ l → g l (m + L - 1) = 0 := fun l m _ h _ _ =>
    C25_base_forward G f _ L spin lo σ.name ν nside reality eg l (m + L - 1) (lt_max_of_lt_left h)
  have key : ∀ (flm : ℤ → ℤ → ℂ) (reality' : Bool) (ξ : PyStr), ξ ∈ [bDirect, bSov, bSovFft, bVec] →
      RealOrderZero flm L spin reality' lo →
      ∃ H, baseInverseWith G (.d2 L (2 * L - 1) flm) L spin σ.name ξ nside reality' lo = .ok H ∧
        coeffInner (max lo |spin|) L (fun l m => g l (m + L - 1)) (coeffs flm L spin reality')
          = sampleInner σ L (nside.getD 0) (innerWeight G σ L (nside.getD 0)) f.get2 H.get2 ∧
        sampleEnergy σ L (nside.getD 0) (innerWeight G σ L (nside.getD 0)) H.get2
          = coeffEnergy (max lo |spin|) L (coeffs flm L spin reality') := by
    intro flm reality' ξ hξ hr
    obtain ⟨H, g', w, e, e', hw, hA⟩ := C53_base_adjoint G σ hσ' L spin lo nside hv ξ ν hξ hν hhp h0 h1
      flm reality' reality hr f hf hre
    obtain ⟨H', w', e2, hw', hE⟩ := C53_base_energy G σ hσ' L spin lo nside hv hS hex ξ hξ h0 h1 flm
      reality' hr
    obtain rfl := ok_d2_inj eg e'
    obtain rfl : H = H' := by have := e.symm.trans e2; injection this
    have ew : w = innerWeight G σ L (nside.getD 0) := by
      have := hw.symm.trans hq; injection this with this; injection this
    have ew' : w' = innerWeight G σ L (nside.getD 0) := by
      have := hw'.symm.trans hq; injection this with this; injection this
    subst ew ew'
    exact ⟨H, e, by rw [← hA, ← coeffInner_low hz], hE⟩
  obtain ⟨F, eF, hA, hE⟩ := key g false μ hμ (by rintro ⟨⟩)
  rw [coeffs_false] at hA hE
  refine ⟨g, F, _, eg, eF, hq,
    captures_of (innerWeight_pos G hσ hv.1 hS) hA hE, fun flm reality' ξ hξ hr => ?_⟩
  obtain ⟨H, eH, hA', hE'⟩ := key flm reality' ξ hξ hr
  exact ⟨H, eH, closer_of hA' hA hE' hE⟩

end

/-- Forward after inverse after forward is forward: the synthesized signal has the same coefficients as
the data, whatever these are. -/
theorem C56_base_projection (G : GlTables) (σ : Scheme) (L spin lo : ℤ) (nside : Option ℤ)
    (hv : σ.Valid L (nside.getD 0)) (hS : SamplingTheorem G σ L)
    (hex : GridExact G.nodes σ L (nside.getD 0)) (hex' : InnerExact G.nodes σ L (nside.getD 0))
    (μ ν : PyStr) (hμ : μ ∈ [bDirect, bSov, bSovFft, bVec]) (hν : ν ∈ [bDirect, bSov, bSovFft, bVec])
    (h0 : 0 ≤ lo) (h1 : lo < L) (f : Nd ℂ) (hf : f.shape = σ.shape L (nside.getD 0)) :
    ∃ g F g', baseForwardWith G f L spin σ.name ν nside false lo = .ok (.d2 L (2 * L - 1) g) ∧
      baseInverseWith G (.d2 L (2 * L - 1) g) L spin σ.name μ nside false lo = .ok F ∧
      baseForwardWith G F L spin σ.name ν nside false lo = .ok (.d2 L (2 * L - 1) g') ∧
      ∀ el m, 0 ≤ el → el < L → -L < m → m < L → g' el (m + L - 1) = g el (m + L - 1) := by
  obtain ⟨g, e, hg, hz⟩ := baseForwardWith_values G (lower_name σ) (method := ν) hν
    (fun _ h => by rw [h]; rfl) (spin := spin) hv (fun _ h => absurd h hS.1) f hf false h0 h1
    (by rintro _ ⟨⟩)
  obtain ⟨F, g', e1, e2, h⟩ := C24_round_trip G σ L spin lo nside hv hS hex hex' h0 h1 μ ν hμ hν g false
    (by rintro ⟨⟩)
  refine ⟨g, F, g', e, e1, e2, fun el m l0 l1 m0 m1 => ?_⟩
  rw [h el m l0 l1 m0 m1, coeffs_false]
  split_ifs with hc
  · rfl
  · by_cases hl : el < elStart lo spin
    · rw [hz _ _ hl]
    · have hm : el < |m| := by unfold elStart at hl; push Not at hl hc; exact hc (by omega)
      rw [hg el m (by omega) l1 m0 m1, ← fAt_snap]
      exact (symm_zero (fAt_outside (Or.inl hm)) (fAt_outside (Or.inl (by rwa [abs_neg])))).symm

/-! ## The transforms with precomputed kernels -/

section
variable (G : GlTables) (σ : Scheme) (hσ : σ = .dh ∨ σ = .gl) (L spin : ℤ) (nside : Option ℤ)

include hσ in
theorem C56_precompute_best_fit (hv : σ.Valid L (nside.getD 0)) (hS : SamplingTheorem G σ L)
    (κ κ' ρ ρ' : PyStr) (hρ : RecursionOk L spin ρ) (hρ' : RecursionOk L spin ρ')
    (hex : KernelExact G.nodes σ L (nside.getD 0) spin false κ ρ)
    (hex' : KernelExact G.nodes σ L (nside.getD 0) spin true κ' ρ')
    (μ ν : PyStr) (hμ : μ ∈ [mNumpy, mJax, mTorch]) (hν : ν ∈ [mNumpy, mJax, mTorch])
    (f : Nd ℂ) (hf : f.shape = σ.shape L (nside.getD 0)) (reality : Bool)
    (hre : reality = true → spin = 0 → RealInput G.nodes σ L (nside.getD 0) f.get2)
    (k k' : Option (Nd ℂ))
    (hk : KernelArg G L spin false σ.name nside false μ κ ρ k)
    (hk' : KernelArg G L spin reality σ.name nside true ν κ' ρ' k') :
    ∃ g F w, precomputeForwardTop G f L spin k' σ.name reality ν nside 0
        = .ok (.d2 L (2 * L - 1) g) ∧
      precomputeInverseTop G (.d2 L (2 * L - 1) g) L spin k σ.name false μ nside = .ok F ∧
      quad_weights G.weights (some L) σ.name spin nside = .ok (σ.rings L (nside.getD 0), w) ∧
      Captures σ L (nside.getD 0) w |spin| f.get2 F.get2 (fun l m => g l (m + L - 1)) ∧
      ∀ (flm : ℤ → ℤ → ℂ) (reality' : Bool) (ξ : PyStr) (k'' : Option (Nd ℂ)),
        ξ ∈ [mNumpy, mJax, mTorch] → RealOrderZero flm L spin reality' 0 →
        KernelArg G L spin reality' σ.name nside false ξ κ ρ k'' →
        ∃ H, precomputeInverseTop G (.d2 L (2 * L - 1) flm) L spin k'' σ.name reality' ξ nside = .ok H ∧
          Closer σ L (nside.getD 0) w |spin| f.get2 F.get2 H.get2
            (fun l m => g l (m + L - 1)) (coeffs flm L spin reality') := by
  have hσ' : σ = .dh ∨ σ = .gl ∨ σ = .healpix := by tauto
  have hhp : σ = .healpix → 2 * nside.getD 0 ≤ L ∧ (ν ≠ mNumpy → 2 ≤ nside.getD 0) :=
    fun h => absurd h hS.1
  have hq := quad_weights_plain G (plain_scheme σ hσ') spin hv
  have hm : max 0 |spin| = |spin| := max_eq_right (abs_nonneg spin)
  obtain ⟨K, ek, hK⟩ := getKernel_ok G hv reality true hρ' hex' hk'
  obtain ⟨g, eg, hg⟩ := precomputeForwardTop_values hν G hv hhp f hf reality hre hK ek
  have hz : ∀ l m, 0 ≤ l → l < |spin| → l < L → |m| ≤ l → g l (m + L - 1) = 0 := fun l m l0 h l1 hm => by
    rw [abs_le] at hm
    rw [hg l m l0 l1 (by omega) (by omega)]
    exact symm_zero (fAt_outside (Or.inr h)) (fAt_outside (Or.inr h))
  have key : ∀ (flm : ℤ → ℤ → ℂ) (reality' : Bool) (ξ : PyStr) (k'' : Option (Nd ℂ)),
      ξ ∈ [mNumpy, mJax, mTorch] → RealOrderZero flm L spin reality' 0 →
      KernelArg G L spin reality' σ.name nside false ξ κ ρ k'' →
      ∃ H, precomputeInverseTop G (.d2 L (2 * L - 1) flm) L spin k'' σ.name reality' ξ nside = .ok H ∧
        coeffInner |spin| L (fun l m => g l (m + L - 1)) (coeffs flm L spin reality')
          = sampleInner σ L (nside.getD 0) (innerWeight G σ L (nside.getD 0)) f.get2 H.get2 ∧
        sampleEnergy σ L (nside.getD 0) (innerWeight G σ L (nside.getD 0)) H.get2
          = coeffEnergy |spin| L (coeffs flm L spin reality') := by
    intro flm reality' ξ k'' hξ hr hk''
    obtain ⟨H, g', w, e, e', hw, hA⟩ := C53_precompute_adjoint G σ hσ' L spin nside hv κ κ' ρ ρ' hρ hρ'
      hex hex' ξ ν hξ hν hhp flm reality' reality hr f hf hre k'' k' hk'' hk'
    obtain ⟨H', w', e2, hw', hE⟩ := C53_precompute_energy G σ hσ' L spin nside hv hS κ ρ hρ hex ξ hξ flm
      reality' hr k'' hk''
    obtain rfl := ok_d2_inj eg e'
    obtain rfl : H = H' := by have := e.symm.trans e2; injection this
    have ew : w = innerWeight G σ L (nside.getD 0) := by
      have := hw.symm.trans hq; injection this with this; injection this
    have ew' : w' = innerWeight G σ L (nside.getD 0) := by
      have := hw'.symm.trans hq; injection this with this; injection this
    subst ew ew'
    exact ⟨H, e, by rw [← hA, coeffInner_low hz, hm], hE⟩
  obtain ⟨F, eF, hA, hE⟩ := key g false μ k hμ (by rintro ⟨⟩) hk
  rw [coeffs_false] at hA hE
  refine ⟨g, F, _, eg, eF, hq,
    captures_of (innerWeight_pos G hσ hv.1 hS) hA hE, fun flm reality' ξ k'' hξ hr hk'' => ?_⟩
  obtain ⟨H, eH, hA', hE'⟩ := key flm reality' ξ k'' hξ hr hk''
  exact ⟨H, eH, closer_of hA' hA hE' hE⟩

end

theorem C56_precompute_projection (G : GlTables) (σ : Scheme) (L spin : ℤ) (nside : Option ℤ)
    (hv : σ.Valid L (nside.getD 0)) (hS : SamplingTheorem G σ L)
    (κ κ' ρ ρ' : PyStr) (hρ : RecursionOk L spin ρ) (hρ' : RecursionOk L spin ρ')
    (hex : KernelExact G.nodes σ L (nside.getD 0) spin false κ ρ)
    (hex' : KernelExact G.nodes σ L (nside.getD 0) spin true κ' ρ')
    (μ ν : PyStr) (hμ : μ ∈ [mNumpy, mJax, mTorch]) (hν : ν ∈ [mNumpy, mJax, mTorch])
    (f : Nd ℂ) (hf : f.shape = σ.shape L (nside.getD 0)) (k k' : Option (Nd ℂ))
    (hk : KernelArg G L spin false σ.name nside false μ κ ρ k)
    (hk' : KernelArg G L spin false σ.name nside true ν κ' ρ' k') :
    ∃ g F g', precomputeForwardTop G f L spin k' σ.name false ν nside 0
        = .ok (.d2 L (2 * L - 1) g) ∧
      precomputeInverseTop G (.d2 L (2 * L - 1) g) L spin k σ.name false μ nside = .ok F ∧
      precomputeForwardTop G F L spin k' σ.name false ν nside 0 = .ok (.d2 L (2 * L - 1) g') ∧
      ∀ el m, 0 ≤ el → el < L → -L < m → m < L → g' el (m + L - 1) = g el (m + L - 1) := by
  obtain ⟨K, ek, hK⟩ := getKernel_ok G hv false true hρ' hex' hk'
  obtain ⟨g, e, hg⟩ := precomputeForwardTop_values hν G hv (fun h => absurd h hS.1) f hf false
    (by rintro ⟨⟩) hK ek
  obtain ⟨F, g', e1, e2, h⟩ := C27_round_trip G σ L spin nside hv hS κ κ' ρ ρ' hρ hρ' hex hex' μ ν hμ hν
    g false (by rintro ⟨⟩) k k' hk hk'
  refine ⟨g, F, g', e, e1, e2, fun el m l0 l1 m0 m1 => ?_⟩
  rw [h el m l0 l1 m0 m1, coeffs_false]
  split_ifs with hc
  · rfl
  · rw [hg el m l0 l1 m0 m1]
    rcases not_and_or.1 hc with hl | hl
    · exact (symm_zero (fAt_outside (Or.inr (not_le.1 hl))) (fAt_outside (Or.inr (not_le.1 hl)))).symm
    · exact (symm_zero (fAt_outside (Or.inl (not_le.1 hl)))
        (fAt_outside (Or.inl (by rw [abs_neg]; exact not_le.1 hl)))).symm

/-! ## The on-the-fly transforms -/

section
variable (B : Backends) (G : Machine) (σ : Scheme) (hσ : σ = .dh ∨ σ = .gl) (L spin lo : ℤ)
  (nside : Option ℤ)

include hσ in
theorem C56_otf_best_fit (hv : σ.Valid L (nside.getD 0)) (hS : SamplingTheorem G.toGlTables σ L)
    (μ ν : PyStr) (hμ : μ ∈ [mNumpy, mJax, mTorch]) (hν : ν ∈ [mNumpy, mJax, mTorch])
    (hsp : |spin| < L) (h8 : spin < 8) (hlo : LowerOk μ L lo) (hlo' : LowerOk ν L lo)
    (f : Nd ℂ) (hf : f.shape = σ.shape L (nside.getD 0)) (reality : Bool)
    (hrs : reality = true → spin = 0)
    (hre : reality = true → RealInput G.nodes σ L (nside.getD 0) f.get2)
    (p p' : Option PmPre) (hP : PrecompsArg G L spin σ.name nside false p)
    (hP' : PrecompsArg G L spin σ.name nside true p')
    (hr : OtfRegular G σ L (nside.getD 0) spin false)
    (hr' : OtfRegular G σ L (nside.getD 0) spin true) (hst : ExactStored G σ L nside false)
    (iter : Option ℤ) (hit : iter = none ∨ iter = some 0) (k : ℤ) :
    ∃ g F w, sphericalForward B G f L spin nside σ.name ν reality p' lo iter k
        = .ok (.d2 L (2 * L - 1) g) ∧
      sphericalInverse B G (.d2 L (2 * L - 1) g) L spin nside σ.name μ false p lo k = .ok F ∧
      quad_weights G.weights (some L) σ.name spin nside = .ok (σ.rings L (nside.getD 0), w) ∧
      Captures σ L (nside.getD 0) w (max lo |spin|) f.get2 F.get2 (fun l m => g l (m + L - 1)) ∧
      ∀ (flm : ℤ → ℤ → ℂ) (reality' : Bool) (ξ : PyStr) (p'' : Option PmPre),
        (∀ el k, lo ≤ el → el < |spin| → 0 ≤ k → k < 2 * L - 1 → flm el k = 0) →
        (reality' = true → spin = 0) → RealOrderZero flm L spin reality' lo →
        ξ ∈ [mNumpy, mJax, mTorch] → LowerOk ξ L lo → PrecompsArg G L spin σ.name nside false p'' →
        ∃ H, sphericalInverse B G (.d2 L (2 * L - 1) flm) L spin nside σ.name ξ reality' p'' lo k
            = .ok H ∧
          Closer σ L (nside.getD 0) w (max lo |spin|) f.get2 F.get2 H.get2
            (fun l m => g l (m + L - 1)) (coeffs flm L spin reality') := by
  have hσ' : σ = .dh ∨ σ = .gl ∨ σ = .healpix := by tauto
  have hhp : σ = .healpix → 2 * nside.getD 0 ≤ L ∧ (ν ≠ mNumpy → 2 ≤ nside.getD 0) :=
    fun h => absurd h hS.1
  have h0 : 0 ≤ lo := hlo'.1
  have hq := quad_weights_plain G.toGlTables (plain_scheme σ hσ') spin hv
  obtain ⟨g, eg, hg⟩ := sphericalForward_values B G σ L spin lo nside hv ν hν hhp hsp h8 hlo' f hf
    reality (by
      intro h
      have := hrs h
      subst this
      exact realInput_rings hv.1 (hre h)) p' hP' hr' iter hit k
  have hz : ∀ l j, lo ≤ l → l < |spin| → 0 ≤ j → j < 2 * L - 1 → g l j = 0 := fun l j l0 h j0 j1 => by
    have := hg l (j - L + 1) (by omega) (by omega) (by omega) (by omega)
    rw [if_pos (by omega), show j - L + 1 + L - 1 = j by ring] at this
    exact this
  have key : ∀ (flm : ℤ → ℤ → ℂ) (reality' : Bool) (ξ : PyStr) (p'' : Option PmPre),
      (∀ el k, lo ≤ el → el < |spin| → 0 ≤ k → k < 2 * L - 1 → flm el k = 0) →
      (reality' = true → spin = 0) → RealOrderZero flm L spin reality' lo →
      ξ ∈ [mNumpy, mJax, mTorch] → LowerOk ξ L lo → PrecompsArg G L spin σ.name nside false p'' →
      ∃ H, sphericalInverse B G (.d2 L (2 * L - 1) flm) L spin nside σ.name ξ reality' p'' lo k
          = .ok H ∧
        coeffInner (max lo |spin|) L (fun l m => g l (m + L - 1)) (coeffs flm L spin reality')
          = sampleInner σ L (nside.getD 0) (innerWeight G.toGlTables σ L (nside.getD 0)) f.get2 H.get2 ∧
        sampleEnergy σ L (nside.getD 0) (innerWeight G.toGlTables σ L (nside.getD 0)) H.get2
          = coeffEnergy (max lo |spin|) L (coeffs flm L spin reality') := by
    intro flm reality' ξ p'' hfl hrs' hr0 hξ hlo'' hP''
    obtain ⟨H, g', w, e, e', hw, hA⟩ := C53_otf_adjoint B G σ hσ' L spin lo nside hv ξ ν hξ hν hhp hsp h8
      hlo'' hlo' flm hfl reality' reality hrs' hrs hr0 f hf hre p'' p' hP'' hP' hr hr' iter hit k
    obtain ⟨H', w', e2, hw', hE⟩ := C53_otf_energy B G σ hσ' L spin lo nside hv hS ξ hξ hsp h8 hlo'' flm
      hfl reality' hrs' hr0 p'' hP'' hr hst k
    obtain rfl := ok_d2_inj eg e'
    obtain rfl : H = H' := by have := e.symm.trans e2; injection this
    have ew : w = innerWeight G.toGlTables σ L (nside.getD 0) := by
      have := hw.symm.trans hq; injection this with this; injection this
    have ew' : w' = innerWeight G.toGlTables σ L (nside.getD 0) := by
      have := hw'.symm.trans hq; injection this with this; injection this
    subst ew ew'
    refine ⟨H, e, ?_, hE⟩
    rw [← hA, ← coeffInner_low fun l m l0 h l1 hm => ?_]
    rw [abs_le] at hm
    exact hz l (m + L - 1) l0 h (by omega) (by omega)
  obtain ⟨F, eF, hA, hE⟩ := key g false μ p hz (by rintro ⟨⟩) (by rintro ⟨⟩) hμ hlo hP
  rw [coeffs_false] at hA hE
  refine ⟨g, F, _, eg, eF, hq, captures_of (innerWeight_pos G.toGlTables hσ hv.1 hS) hA hE,
    fun flm reality' ξ p'' hfl hrs' hr0 hξ hlo'' hP'' => ?_⟩
  obtain ⟨H, eH, hA', hE'⟩ := key flm reality' ξ p'' hfl hrs' hr0 hξ hlo'' hP''
  exact ⟨H, eH, closer_of hA' hA hE' hE⟩

end

theorem C56_otf_projection (B : Backends) (G : Machine) (σ : Scheme) (L spin : ℤ) (nside : Option ℤ)
    (hv : σ.Valid L (nside.getD 0)) (hS : SamplingTheorem G.toGlTables σ L)
    (μ ν : PyStr) (hμ : μ ∈ [mNumpy, mJax, mTorch]) (hν : ν ∈ [mNumpy, mJax, mTorch])
    (hsp : |spin| < L) (h8 : spin < 8) (hlo : LowerOk μ L 0) (hlo' : LowerOk ν L 0)
    (f : Nd ℂ) (hf : f.shape = σ.shape L (nside.getD 0))
    (p p' : Option PmPre) (hP : PrecompsArg G L spin σ.name nside false p)
    (hP' : PrecompsArg G L spin σ.name nside true p')
    (hr : OtfRegular G σ L (nside.getD 0) spin false)
    (hr' : OtfRegular G σ L (nside.getD 0) spin true)
    (hst : ExactStored G σ L nside false) (hst' : ExactStored G σ L nside true)
    (iter : Option ℤ) (hit : iter = none ∨ iter = some 0) (k : ℤ) :
    ∃ g F g', sphericalForward B G f L spin nside σ.name ν false p' 0 iter k
        = .ok (.d2 L (2 * L - 1) g) ∧
      sphericalInverse B G (.d2 L (2 * L - 1) g) L spin nside σ.name μ false p 0 k = .ok F ∧
      sphericalForward B G F L spin nside σ.name ν false p' 0 iter k = .ok (.d2 L (2 * L - 1) g') ∧
      ∀ el m, 0 ≤ el → el < L → -L < m → m < L → g' el (m + L - 1) = g el (m + L - 1) := by
  obtain ⟨g, e, hg⟩ := sphericalForward_values B G σ L spin 0 nside hv ν hν (fun h => absurd h hS.1)
    hsp h8 hlo' f hf false (by rintro ⟨⟩) p' hP' hr' iter hit k
  obtain ⟨F, g', e1, e2, h⟩ := C39_round_trip_partial B G σ L spin 0 nside hv hS μ ν hμ hν hsp h8 hlo hlo'
    g (fun l j l0 h j0 j1 => by
      have := hg l (j - L + 1) (by omega) (by omega) (by omega) (by omega)
      rw [if_pos (by omega), show j - L + 1 + L - 1 = j by ring] at this
      exact this) false (by rintro ⟨⟩) (by rintro ⟨⟩) p p' hP hP' hr hr' hst hst' iter hit k
  refine ⟨g, F, g', e, e1, e2, fun el m l0 l1 m0 m1 => ?_⟩
  rw [h el m l0 l1 m0 m1, coeffs_false]
  split_ifs with hc
  · rfl
  · rw [hg el m l0 l1 m0 m1]
    split_ifs with hl
    · rfl
    · have hm : el < |m| := by push Not at hl hc; exact hc hl
      exact (symm_zero (fAt_outside (Or.inl hm)) (fAt_outside (Or.inl (by rwa [abs_neg])))).symm

/-- The conditions are met: any samples on a DH grid, and any coefficients. -/
example (G : GlTables) (x : ℤ → ℤ → ℂ) :
    ∃ g F w, baseForwardWith G (.d2 12 11 x) 6 2 sDH bVec none false 1 = .ok (.d2 6 11 g) ∧
      baseInverseWith G (.d2 6 11 g) 6 2 sDH bSov none false 1 = .ok F ∧
      quad_weights G.weights (some 6) sDH 2 none = .ok (12, w) ∧
      Captures .dh 6 0 w 2 x F.get2 (fun l m => g l (m + 6 - 1)) ∧
      ∀ (flm : ℤ → ℤ → ℂ) (reality' : Bool) (ξ : PyStr), ξ ∈ [bDirect, bSov, bSovFft, bVec] →
        RealOrderZero flm 6 2 reality' 1 →
        ∃ H, baseInverseWith G (.d2 6 11 flm) 6 2 sDH ξ none reality' 1 = .ok H ∧
          Closer .dh 6 0 w 2 x F.get2 H.get2 (fun l m => g l (m + 6 - 1)) (coeffs flm 6 2 reality') :=
  C56_base_best_fit G .dh (Or.inl rfl) 6 2 1 none ⟨by norm_num, by rintro ⟨⟩⟩
    ⟨by rintro ⟨⟩, by rintro ⟨⟩⟩
    (C24_grids G.nodes .dh 6 0 (Or.inr (Or.inr rfl)) (by norm_num) (by norm_num)).1 bSov bVec (by simp)
    (by simp) (by norm_num) (by norm_num) (.d2 12 11 x) rfl false (by rintro ⟨⟩)

/-- And any samples on a McEwen–Wiaux grid for the projection. -/
example (G : GlTables) (x : ℤ → ℤ → ℂ) :
    ∃ g F g', baseForwardWith G (.d2 6 11 x) 6 2 sMW bVec none false 1 = .ok (.d2 6 11 g) ∧
      baseInverseWith G (.d2 6 11 g) 6 2 sMW bSov none false 1 = .ok F ∧
      baseForwardWith G F 6 2 sMW bVec none false 1 = .ok (.d2 6 11 g') ∧
      ∀ el m, 0 ≤ el → el < 6 → -6 < m → m < 6 → g' el (m + 6 - 1) = g el (m + 6 - 1) :=
  C56_base_projection G .mw 6 2 1 none ⟨by norm_num, by rintro ⟨⟩⟩ ⟨by rintro ⟨⟩, by rintro ⟨⟩⟩
    (C24_grids G.nodes .mw 6 0 (Or.inl rfl) (by norm_num) (by norm_num)).1
    (C24_grids G.nodes .mw 6 0 (Or.inl rfl) (by norm_num) (by norm_num)).2 bSov bVec (by simp)
    (by simp) (by norm_num) (by norm_num) (.d2 6 11 x) rfl

end S2fft
