import Verif.Lemmas.PrecomputeJax
import Verif.Props.C24
import Verif.Lemmas.PmRegular

/-! # C27: the precomputed-kernel transforms agree with the base transforms -/

namespace S2fft
open Spec

/-- Two signals of the scheme have the same shape and the same value at every sample. -/
def SameSignal (σ : Scheme) (L nside : ℤ) (f g : Nd ℂ) : Prop :=
  f.shape = g.shape ∧ ∀ t p, σ.Has L nside t p →
    f.get2 (σ.pos nside t p).1 (σ.pos nside t p).2 = g.get2 (σ.pos nside t p).1 (σ.pos nside t p).2

/-- A recursion that the constructors accept for the spin: "price-mcewen" is for `|spin| ≤ 6`, and
the Risbo recursion (chosen by "auto" for larger spins) needs `|spin| < L`. -/
def RecursionOk (L spin : ℤ) (recursion : PyStr) : Prop :=
  recursion ∈ [rAuto, rPm, rRisbo] ∧ (recursion = rPm → |spin| ≤ 6) ∧
    (Risbo spin recursion → |spin| < L)

theorem precomputeInverseTop_values {σ : Scheme} {method : PyStr}
    (hmt : method ∈ [mNumpy, mJax, mTorch]) (G : GlTables)
    {L spin : ℤ} {nside : Option ℤ} (hv : σ.Valid L (nside.getD 0))
    (hhp : σ = .healpix → 2 * nside.getD 0 ≤ L) (flm : ℤ → ℤ → ℂ) (reality : Bool)
    (hre : RealOrderZero flm L spin reality 0) {α : ℤ → ℝ} {K : ℤ → ℤ → ℤ → ℂ}
    (hK : KernelIs K σ L (nside.getD 0) spin (σ.rings L (nside.getD 0)) (effReality reality spin)
      false α (fun _ => 1)) {kernel : Option (Nd ℂ)}
    (hk : getKernel G kernel L spin (effReality reality spin) σ.name nside false method
      = .ok (.d3 (σ.rings L (nside.getD 0)) L (mDim L (effReality reality spin)) K)) :
    ∃ out, precomputeInverseTop G (.d2 L (2 * L - 1) flm) L spin kernel σ.name reality method nside
        = .ok out ∧
      out.shape = σ.shape L (nside.getD 0) ∧
      ∀ t p, σ.Has L (nside.getD 0) t p →
        out.get2 (σ.pos (nside.getD 0) t p).1 (σ.pos (nside.getD 0) t p).2
          = synth L (effReality reality spin) (gAt flm L spin 0 (α t))
              (σ.phi L (nside.getD 0) t p) := by
  obtain ⟨out, e, h1, h2⟩ := precomputeInverse_values (lower_name σ) (mOffset_name σ) hmt hv hhp flm
    (effReality reality spin) effReality_spin
    (fun h => hre (effReality_true h) (effReality_spin h)) hK
  refine ⟨out, ?_, h1, h2⟩
  unfold precomputeInverseTop
  rw [if_neg (by rw [not_not]; exact hmt)]
  show (getKernel G kernel L spin (effReality reality spin) σ.name nside false method >>= _) = _
  rw [hk]
  exact e

theorem precomputeForwardTop_values {σ : Scheme} {method : PyStr}
    (hmt : method ∈ [mNumpy, mJax, mTorch]) (G : GlTables)
    {L spin : ℤ} {nside : Option ℤ} (hv : σ.Valid L (nside.getD 0))
    (hhp : σ = .healpix → 2 * nside.getD 0 ≤ L ∧ (method ≠ mNumpy → 2 ≤ nside.getD 0))
    (f : Nd ℂ) (hf : f.shape = σ.shape L (nside.getD 0)) (reality : Bool)
    (hre : reality = true → spin = 0 → RealInput G.nodes σ L (nside.getD 0) f.get2)
    {α w : ℤ → ℝ} {K : ℤ → ℤ → ℤ → ℂ}
    (hK : KernelIs K σ.inner L (nside.getD 0) spin (innerRings σ L (nside.getD 0))
      (effReality reality spin) true α w) {kernel : Option (Nd ℂ)}
    (hk : getKernel G kernel L spin (effReality reality spin) σ.name nside true method
      = .ok (.d3 (innerRings σ L (nside.getD 0)) L (mDim L (effReality reality spin)) K)) :
    ∃ flm, precomputeForwardTop G f L spin kernel σ.name reality method nside 0
        = .ok (.d2 L (2 * L - 1) flm) ∧
      ∀ el m, 0 ≤ el → el < L → -L < m → m < L → flm el (m + L - 1)
        = symm (effReality reality spin) (fAt (ringSum σ.inner L (nside.getD 0)
            (innerSignal σ L spin f.get2)) spin (innerRings σ L (nside.getD 0)) α w el) m := by
  have hsh : σ = .healpix → σ.name = sHP := by rintro rfl; rfl
  obtain ⟨flm, e, h1⟩ := precomputeForward_values (lower_name σ) hsh hmt hv hhp f hf
    (effReality reality spin) effReality_spin
    (fun h => by
      have hs := effReality_spin h
      subst hs
      exact realInput_rings hv.1 (hre (effReality_true h) rfl)) hK
  refine ⟨flm, ?_, h1⟩
  unfold precomputeForwardTop
  rw [if_neg (by rw [not_not]; exact hmt)]
  show (getKernel G kernel L spin (effReality reality spin) σ.name nside true method >>= _) = _
  rw [hk]
  simp only [bind, Except.bind, if_true]
  exact e

theorem effReality_idem (reality : Bool) (spin : ℤ) :
    effReality (effReality reality spin) spin = effReality reality spin := by
  unfold effReality; split_ifs <;> simp_all

/-- `inverse` with a kernel built by `spin_spherical_kernel` returns what the base `inverse` does,
at every sample, with each recursion and each transform method. No condition on the angles with the
recursion of Price and McEwen; with that of Risbo, grids without rings in the pole windows (C13,
`C18_grids`). -/
theorem C27_inverse (G : GlTables) (σ : Scheme) (L spin : ℤ) (nside : Option ℤ)
    (hv : σ.Valid L (nside.getD 0)) (hhp : σ = .healpix → 2 * nside.getD 0 ≤ L)
    (recursion : PyStr) (hrec : RecursionOk L spin recursion)
    (hex : Risbo spin recursion → GridExact G.nodes σ L (nside.getD 0))
    (method : PyStr) (hmt : method ∈ [mNumpy, mJax, mTorch]) (flm : ℤ → ℤ → ℂ) (reality : Bool)
    (hre : RealOrderZero flm L spin reality 0) :
    ∃ K out ref, spinSphericalKernel G L spin reality σ.name nside false recursion = .ok K ∧
      precomputeInverseTop G (.d2 L (2 * L - 1) flm) L spin (some K) σ.name reality method nside
        = .ok out ∧
      baseInverse G (.d2 L (2 * L - 1) flm) L spin σ.name nside reality 0 = .ok ref ∧
      SameSignal σ L (nside.getD 0) out ref := by
  obtain ⟨hr1, hr2, hr3⟩ := hrec
  obtain ⟨K, eK, hK⟩ := spinSphericalKernel_ok G (lower_name σ) hv reality false hr1 hr2 hr3
  obtain ⟨out, e, hs, h⟩ := precomputeInverseTop_values hmt G hv hhp flm reality hre hK
    (kernel := some _) rfl
  obtain ⟨ref, e', hs', h'⟩ := baseInverseWith_values G (lower_name σ) (method := bVec)
    (by simp [baseMethods]) (fun _ => mOffset_name σ) (spin := spin) hv (fun _ => hhp) flm reality
    le_rfl (by have := hv.1; omega) (fun _ => hre)
  refine ⟨_, out, ref, eK, e, e', hs.trans hs'.symm, fun t p ht => ?_⟩
  rw [h t p ht, h' t p ht, ← gAt_snap]
  have : kAngle G.nodes σ L (nside.getD 0) spin false recursion t
      = snapAngle (σ.theta G.nodes L (nside.getD 0) t) := by
    unfold kAngle
    split_ifs with hR
    · exact (snapAngle_eq _ (hex hR t ht.1 ht.2.1)).symm
    · rfl
  rw [this]; rfl

/-- `forward` with a kernel built by `spin_spherical_kernel` returns what the base `forward` does. -/
theorem C27_forward (G : GlTables) (σ : Scheme) (L spin : ℤ) (nside : Option ℤ)
    (hv : σ.Valid L (nside.getD 0))
    (recursion : PyStr) (hrec : RecursionOk L spin recursion)
    (hex : Risbo spin recursion → InnerExact G.nodes σ L (nside.getD 0))
    (method : PyStr) (hmt : method ∈ [mNumpy, mJax, mTorch])
    (hhp : σ = .healpix → 2 * nside.getD 0 ≤ L ∧ (method ≠ mNumpy → 2 ≤ nside.getD 0))
    (f : Nd ℂ) (hf : f.shape = σ.shape L (nside.getD 0)) (reality : Bool)
    (hre : reality = true → spin = 0 → RealInput G.nodes σ L (nside.getD 0) f.get2) :
    ∃ K flm ref, spinSphericalKernel G L spin reality σ.name nside true recursion = .ok K ∧
      precomputeForwardTop G f L spin (some K) σ.name reality method nside 0
        = .ok (.d2 L (2 * L - 1) flm) ∧
      baseForward G f L spin σ.name nside reality 0 0 = .ok (.d2 L (2 * L - 1) ref) ∧
      ∀ el j, 0 ≤ el → el < L → 0 ≤ j → j < 2 * L - 1 → flm el j = ref el j := by
  obtain ⟨hr1, hr2, hr3⟩ := hrec
  obtain ⟨K, eK, hK⟩ := spinSphericalKernel_ok G (lower_name σ) hv reality true hr1 hr2 hr3
  obtain ⟨flm, e, h⟩ := precomputeForwardTop_values hmt G hv hhp f hf reality hre hK
    (kernel := some _) rfl
  have hsh : σ = .healpix → σ.name = sHP := by rintro rfl; rfl
  obtain ⟨ref, e', h', h0⟩ := baseForwardWith_values G (lower_name σ) (method := bVec)
    (by simp [baseMethods]) (fun _ => hsh) (spin := spin) hv (fun _ h => (hhp h).1) f hf reality
    le_rfl (by have := hv.1; omega) (by
      rintro _ a rfl; exact realInput_rings hv.1 (hre a rfl))
  refine ⟨_, flm, ref, eK, e, ?_, fun el j a b c d => ?_⟩
  · unfold baseForward
    rw [if_pos rfl]; exact e'
  have hj := h el (j - L + 1) a b (by omega) (by omega)
  rw [show j - L + 1 + L - 1 = j by ring] at hj
  rw [hj]
  have hang : fAt (ringSum σ.inner L (nside.getD 0) (innerSignal σ L spin f.get2)) spin
      (innerRings σ L (nside.getD 0)) (kAngle G.nodes σ L (nside.getD 0) spin true recursion)
      (kWeight G σ L (nside.getD 0) true)
      = fVal (ringSum σ.inner L (nside.getD 0) (innerSignal σ L spin f.get2)) spin
        (innerRings σ L (nside.getD 0)) (innerTheta G.nodes σ L (nside.getD 0))
        (innerWeight G σ L (nside.getD 0)) := by
    rw [← fAt_snap]
    refine fAt_congr (fun t t0 t1 => ?_)
    unfold kAngle
    split_ifs with hR
    · exact (snapAngle_eq _ (hex hR t t0 t1)).symm
    · rfl
  by_cases hel : el < elStart 0 spin
  · rw [h0 el j hel]
    unfold elStart at hel
    have hz : ∀ m, fAt (ringSum σ.inner L (nside.getD 0) (innerSignal σ L spin f.get2)) spin
      (innerRings σ L (nside.getD 0)) (kAngle G.nodes σ L (nside.getD 0) spin true recursion)
      (kWeight G σ L (nside.getD 0) true) el m = 0 := fun m =>
      fAt_outside (Or.inr (by omega))
    unfold symm
    split_ifs <;> rw [hz] <;> simp
  · have hj' := h' el (j - L + 1) (by omega) b (by omega) (by omega)
    rw [show j - L + 1 + L - 1 = j by ring] at hj'
    rw [hj', hang]

/-! ## Kernels of either constructor -/

/-- The kernels whose `d`-functions are those of the sample angles: all those made with the
recursion of Risbo; with the other recursion, for NumPy grids without rings in the pole windows, and
for JAX grids on which the recursion does not divide by zero. -/
def KernelExact (nodes : ℤ → ℤ → ℝ) (σ : Scheme) (L nside spin : ℤ) (forward : Bool)
    (κ recursion : PyStr) : Prop :=
  ¬ Risbo spin recursion → if κ = mNumpy then
      ∀ t, 0 ≤ t → t < kRings σ L nside forward → ExactAngle (kTheta nodes σ L nside forward t)
    else KernelRegular nodes σ L nside spin forward

theorem KernelIs.congr {K : ℤ → ℤ → ℤ → ℂ} {σ : Scheme} {L nside spin nt : ℤ}
    {reality forward : Bool} {α β w : ℤ → ℝ} (h : KernelIs K σ L nside spin nt reality forward α w)
    (e : ∀ t, 0 ≤ t → t < nt → α t = β t) : KernelIs K σ L nside spin nt reality forward β w := by
  intro t el m t0 t1 a b c d hm
  rw [h t el m t0 t1 a b c d hm, e t t0 t1]

theorem kernelFunction_ok (G : GlTables) {σ : Scheme} {L spin : ℤ} {nside : Option ℤ}
    (hv : σ.Valid L (nside.getD 0)) (reality forward : Bool) {κ recursion : PyStr}
    (hrec : RecursionOk L spin recursion)
    (hex : KernelExact G.nodes σ L (nside.getD 0) spin forward κ recursion) :
    ∃ K, kernelFunction κ G L spin reality σ.name nside forward recursion
        = .ok (.d3 (kRings σ L (nside.getD 0) forward) L (mDim L (effReality reality spin)) K) ∧
      KernelIs K (kScheme σ forward) L (nside.getD 0) spin (kRings σ L (nside.getD 0) forward)
        (effReality reality spin) forward (kTheta G.nodes σ L (nside.getD 0) forward)
        (kWeight G σ L (nside.getD 0) forward) := by
  obtain ⟨hr1, hr2, hr3⟩ := hrec
  unfold kernelFunction
  unfold KernelExact at hex
  by_cases hκ : κ = mNumpy
  · rw [if_pos hκ]
    obtain ⟨K, e, hK⟩ := spinSphericalKernel_ok G (lower_name σ) hv reality forward hr1 hr2 hr3
    refine ⟨K, e, hK.congr (fun t t0 t1 => ?_)⟩
    unfold kAngle
    split_ifs with h
    · rfl
    · have := hex h
      rw [if_pos hκ] at this
      exact snapAngle_eq _ (this t t0 t1)
  · rw [if_neg hκ]
    refine spinSphericalKernelJax_ok G (lower_name σ) hv reality forward hr1 hr2 hr3 (fun h => ?_)
    have := hex h
    rwa [if_neg hκ] at this

/-- The kernel argument: one made beforehand by either constructor, or none. -/
def KernelArg (G : GlTables) (L spin : ℤ) (reality : Bool) (s : PyStr) (nside : Option ℤ)
    (forward : Bool) (method κ recursion : PyStr) (kernel : Option (Nd ℂ)) : Prop :=
  (∃ K, kernelFunction κ G L spin reality s nside forward recursion = .ok K ∧ kernel = some K) ∨
    (κ = method ∧ recursion = rAuto ∧ kernel = none)

theorem getKernel_ok (G : GlTables) {σ : Scheme} {L spin : ℤ} {nside : Option ℤ}
    (hv : σ.Valid L (nside.getD 0)) (reality forward : Bool) {method κ recursion : PyStr}
    (hrec : RecursionOk L spin recursion)
    (hex : KernelExact G.nodes σ L (nside.getD 0) spin forward κ recursion) {kernel : Option (Nd ℂ)}
    (hk : KernelArg G L spin reality σ.name nside forward method κ recursion kernel) :
    ∃ K, getKernel G kernel L spin (effReality reality spin) σ.name nside forward method
        = .ok (.d3 (kRings σ L (nside.getD 0) forward) L (mDim L (effReality reality spin)) K) ∧
      KernelIs K (kScheme σ forward) L (nside.getD 0) spin (kRings σ L (nside.getD 0) forward)
        (effReality reality spin) forward (kTheta G.nodes σ L (nside.getD 0) forward)
        (kWeight G σ L (nside.getD 0) forward) := by
  rcases hk with ⟨K, e, rfl⟩ | ⟨rfl, rfl, rfl⟩
  · obtain ⟨K', e', hK'⟩ := kernelFunction_ok G hv reality forward hrec hex
    rw [e] at e'
    injection e' with e'
    subst e'
    exact ⟨K', rfl, hK'⟩
  · obtain ⟨K', e', hK'⟩ := kernelFunction_ok G hv (effReality reality spin) forward hrec hex
    rw [effReality_idem] at e' hK'
    exact ⟨K', e', hK'⟩

/-- Synthesis: with such a kernel, or with the one `inverse` makes itself, `inverse` returns the
harmonic expansion at every sample. -/
theorem C27_expansion (G : GlTables) (σ : Scheme) (L spin : ℤ) (nside : Option ℤ)
    (hv : σ.Valid L (nside.getD 0)) (hhp : σ = .healpix → 2 * nside.getD 0 ≤ L)
    (κ recursion : PyStr) (hrec : RecursionOk L spin recursion)
    (hex : KernelExact G.nodes σ L (nside.getD 0) spin false κ recursion)
    (method : PyStr) (hmt : method ∈ [mNumpy, mJax, mTorch]) (flm : ℤ → ℤ → ℂ) (reality : Bool)
    (hre : RealOrderZero flm L spin reality 0) (kernel : Option (Nd ℂ))
    (hk : KernelArg G L spin reality σ.name nside false method κ recursion kernel) :
    ∃ out, precomputeInverseTop G (.d2 L (2 * L - 1) flm) L spin kernel σ.name reality method nside
        = .ok out ∧
      out.shape = σ.shape L (nside.getD 0) ∧
      ∀ t p, σ.Has L (nside.getD 0) t p →
        out.get2 (σ.pos (nside.getD 0) t p).1 (σ.pos (nside.getD 0) t p).2
          = harmonicSum 0 L spin (coeffs flm L spin reality)
              (σ.theta G.nodes L (nside.getD 0) t) (σ.phi L (nside.getD 0) t p) := by
  obtain ⟨K, e, hK⟩ := getKernel_ok G hv reality false hrec hex hk
  obtain ⟨out, e', hs, h⟩ := precomputeInverseTop_values hmt G hv hhp flm reality hre hK e
  refine ⟨out, e', hs, fun t p ht => ?_⟩
  rw [h t p ht, synth_gAt_harmonic flm _ le_rfl hv.1 effReality_spin]
  congr 1
  unfold coeffs effReality
  by_cases a : reality = true <;> by_cases b : spin = 0 <;> simp [a, b]

/-- Analysis: on the schemes with a sampling theorem `forward`, applied to the samples of an
expansion, returns its coefficients. -/
theorem C27_analysis (G : GlTables) (σ : Scheme) (L spin : ℤ) (nside : Option ℤ)
    (hv : σ.Valid L (nside.getD 0)) (hσ : SamplingTheorem G σ L)
    (κ recursion : PyStr) (hrec : RecursionOk L spin recursion)
    (hex : KernelExact G.nodes σ L (nside.getD 0) spin true κ recursion)
    (method : PyStr) (hmt : method ∈ [mNumpy, mJax, mTorch])
    (c : ℤ → ℤ → ℂ) (f : Nd ℂ) (hf : f.shape = σ.shape L (nside.getD 0))
    (hs : SamplesOf G.nodes σ L (nside.getD 0) f.get2 (harmonicSum 0 L spin c))
    (reality : Bool) (hre : reality = true → spin = 0 → RealHarmonics c 0 L)
    (kernel : Option (Nd ℂ))
    (hk : KernelArg G L spin reality σ.name nside true method κ recursion kernel) :
    ∃ g, precomputeForwardTop G f L spin kernel σ.name reality method nside 0
        = .ok (.d2 L (2 * L - 1) g) ∧
      ∀ el m, 0 ≤ el → el < L → -L < m → m < L →
        g el (m + L - 1) = if |spin| ≤ el ∧ |m| ≤ el then c el m else 0 := by
  have hL := hv.1
  have hreal : reality = true → spin = 0 → RealInput G.nodes σ L (nside.getD 0) f.get2 := by
    rintro hr rfl
    have him := harmonicSum_real (hre hr rfl)
    unfold RealInput
    split_ifs with hR
    · refine ⟨harmF 0 L 0 c, harmF_parity 0 L 0 c, fun θ φ => ?_, fun t p h => ?_⟩
      · rw [← harmonicSum_sph]; exact him θ φ
      · rw [← harmonicSum_sph]; exact hs t p h
    · intro t p h
      rw [hs t p h]; exact him _ _
  obtain ⟨K, e, hK⟩ := getKernel_ok G hv reality true hrec hex hk
  obtain ⟨g, e', hg⟩ := precomputeForwardTop_values hmt G hv (fun h => absurd h hσ.1) f hf reality
    hreal hK e
  refine ⟨g, e', fun el m a b m0 m1 => ?_⟩
  rw [hg el m a b m0 m1]
  obtain ⟨q, n, hn, hlen, hw, hq⟩ := inner_rule G (nside := nside.getD 0) hL hσ
  have key : ∀ m, -L < m → m < L → fAt (ringSum σ.inner L (nside.getD 0)
      (innerSignal σ L spin f.get2)) spin (innerRings σ L (nside.getD 0))
      (kTheta G.nodes σ L (nside.getD 0) true) (kWeight G σ L (nside.getD 0) true) el m
      = if |spin| ≤ el ∧ |m| ≤ el then c el m else 0 := by
    intro m m0 m1
    by_cases hel : |spin| ≤ el
    · simp only [hel, true_and]
      refine fAt_exact (lo := 0) (n := n) (by exact_mod_cast (by omega : n ≠ 0)) ?_ hw hq
        a a hel b m0 m1
      intro t m t0 t1 m0 m1
      exact ringSum_harm hL hσ.1 hs hn hlen t0 t1 m0 m1
    · rw [if_neg (by tauto)]
      exact fAt_outside (Or.inr (by omega))
  unfold symm
  split_ifs with hr hc hc
  · rw [key _ (by omega) (by omega), if_pos (by rw [abs_neg]; exact hc)]
    have h3 := hre (effReality_true hr.1) (effReality_spin hr.1) el (-m) a b
      (by rw [abs_neg]; exact hc.2)
    rw [neg_neg] at h3
    rw [h3, zpow_neg, ← inv_zpow, inv_neg, inv_one]
  · rw [key _ (by omega) (by omega), if_neg (by rw [abs_neg]; exact hc)]; simp
  · rw [key _ m0 m1, if_pos hc]
  · rw [key _ m0 m1, if_neg hc]

/-- The round trip, the two kernels being made independently. -/
theorem C27_round_trip (G : GlTables) (σ : Scheme) (L spin : ℤ) (nside : Option ℤ)
    (hv : σ.Valid L (nside.getD 0)) (hσ : SamplingTheorem G σ L)
    (κ κ' ρ ρ' : PyStr) (hρ : RecursionOk L spin ρ) (hρ' : RecursionOk L spin ρ')
    (hex : KernelExact G.nodes σ L (nside.getD 0) spin false κ ρ)
    (hex' : KernelExact G.nodes σ L (nside.getD 0) spin true κ' ρ')
    (μ ν : PyStr) (hμ : μ ∈ [mNumpy, mJax, mTorch]) (hν : ν ∈ [mNumpy, mJax, mTorch])
    (flm : ℤ → ℤ → ℂ) (reality : Bool) (hre : RealOrderZero flm L spin reality 0)
    (k k' : Option (Nd ℂ))
    (hk : KernelArg G L spin reality σ.name nside false μ κ ρ k)
    (hk' : KernelArg G L spin reality σ.name nside true ν κ' ρ' k') :
    ∃ f g, precomputeInverseTop G (.d2 L (2 * L - 1) flm) L spin k σ.name reality μ nside = .ok f ∧
      precomputeForwardTop G f L spin k' σ.name reality ν nside 0 = .ok (.d2 L (2 * L - 1) g) ∧
      ∀ el m, 0 ≤ el → el < L → -L < m → m < L →
        g el (m + L - 1) = if |spin| ≤ el ∧ |m| ≤ el then coeffs flm L spin reality el m else 0 := by
  obtain ⟨f, e, hs, hf⟩ := C27_expansion G σ L spin nside hv (fun h => absurd h hσ.1) κ ρ hρ hex μ hμ
    flm reality hre k hk
  obtain ⟨g, e', hg⟩ := C27_analysis G σ L spin nside hv hσ κ' ρ' hρ' hex' ν hν
    (coeffs flm L spin reality) f hs hf reality (by
      intro hr hz
      unfold coeffs
      rw [if_pos ⟨hr, hz⟩]
      apply realCoeffs_real
      intro l a b
      rw [zero_add]; exact hre hr hz l a b) k' hk'
  exact ⟨f, g, e, e', hg⟩

/-- The angles between the poles at which the recursion of Price and McEwen would divide by zero are
finitely many, for each band-limit and spin. -/
theorem C27_regular (L spin : ℤ) :
    {θ : ℝ | 0 < θ ∧ θ < Real.pi ∧ ¬ PmRegular L spin θ}.Finite :=
  pmIrregular_finite L spin

/-- Every grid is handled by every constructor for `L = 2`, and by the NumPy one as far as
`C24_grids` says; that of Risbo needs nothing. -/
example (nodes : ℤ → ℤ → ℝ) : KernelExact nodes .dh 2 0 1 true mJax rAuto ∧
    KernelExact nodes .mw 8 0 2 true mNumpy rPm ∧ KernelExact nodes .gl 16 0 9 false mJax rAuto ∧
    RecursionOk 2 1 rAuto ∧ RecursionOk 8 2 rPm ∧ RecursionOk 16 9 rAuto := by
  refine ⟨fun _ => ?_, fun _ => ?_, fun h => absurd (Or.inr ⟨rfl, by decide⟩) h, ?_, ?_, ?_⟩
  · rw [if_neg (by decide)]
    intro t t0 t1
    have hR : ¬ Scheme.dh.Resampled := by decide
    unfold kRings innerRings at t1
    simp only [if_true, if_neg hR, Scheme.rings] at t1
    unfold kTheta innerTheta
    simp only [if_true, if_neg hR, Scheme.theta]
    right
    have hpi := Real.pi_pos
    have h0' : (0 : ℝ) ≤ t := by exact_mod_cast t0
    have h1' : (t : ℝ) + 1 ≤ 4 := by exact_mod_cast (by omega : t + 1 ≤ 4)
    refine ⟨by positivity, ?_, fun el k a b c d => absurd c (by omega)⟩
    push_cast
    rw [div_lt_iff₀ (by norm_num)]
    nlinarith
  · rw [if_pos rfl]
    exact (C24_grids nodes .mw 8 0 (Or.inl rfl) (by norm_num) (by norm_num)).2
  · exact ⟨by simp, fun h => absurd h (by decide), fun h => by norm_num⟩
  · exact ⟨by simp, fun h => by norm_num, fun h => by norm_num⟩
  · exact ⟨by simp, fun h => absurd h (by decide), fun h => by norm_num⟩

/-! ## Refusals -/

/-- Methods other than the three are refused. -/
theorem C27_method (G : GlTables) (a : Nd ℂ) (L spin : ℤ) (kernel : Option (Nd ℂ)) (s : PyStr)
    (reality : Bool) (method : PyStr) (nside : Option ℤ) (iter : ℤ)
    (h : method ∉ [mNumpy, mJax, mTorch]) :
    precomputeInverseTop G a L spin kernel s reality method nside = .error .valueError ∧
      precomputeForwardTop G a L spin kernel s reality method nside iter = .error .valueError := by
  unfold precomputeInverseTop precomputeForwardTop
  exact ⟨if_pos h, if_pos h⟩

/-- Both constructors refuse the recursion of Price and McEwen for `|spin| > 6`. -/
theorem C27_pm_spin (G : GlTables) (L spin : ℤ) (reality : Bool) (s : PyStr) (nside : Option ℤ)
    (forward : Bool) (κ recursion : PyStr) (h : lower recursion = rPm) (hs : 6 < |spin|) :
    kernelFunction κ G L spin reality s nside forward recursion = .error .valueError := by
  have : chooseRecursion spin recursion = .error .valueError := by
    unfold chooseRecursion; rw [if_pos ⟨h, hs⟩]
  unfold kernelFunction spinSphericalKernel spinSphericalKernelJax
  split_ifs <;> simp only [this] <;> rfl

/-- And recursions that are not one of the three. -/
theorem C27_recursion (G : GlTables) (σ : Scheme) (L spin : ℤ) (reality : Bool) (nside : Option ℤ)
    (hv : σ.Valid L (nside.getD 0)) (forward : Bool) (κ recursion : PyStr)
    (h : lower recursion ∉ [rAuto, rPm, rRisbo]) :
    kernelFunction κ G L spin reality σ.name nside forward recursion = .error .valueError := by
  simp only [List.mem_cons, List.not_mem_nil, or_false, not_or] at h
  have e1 : chooseRecursion spin recursion = .ok recursion := by
    unfold chooseRecursion
    rw [if_neg (by tauto), if_neg h.1]
  obtain ⟨θ, e2, -⟩ := kernelThetas_ok G (lower_name σ) hv forward
  unfold kernelFunction spinSphericalKernel spinSphericalKernelJax
  split_ifs
  all_goals
    simp only [e1, e2, bind, Except.bind, kernelDl, kernelDlJax, if_neg h.2.1, if_neg h.2.2]

/-! ## Spins not below the band-limit -/

theorem kernel_wraps (G : GlTables) : spinSphericalKernel G 1 1 false sGL none false rRisbo
    = spinSphericalKernel G 1 0 false sGL none false rRisbo := by
  have c : ∀ spin : ℤ, chooseRecursion spin rRisbo = .ok rRisbo := by
    intro spin
    rw [chooseRecursion_ok (by simp) (fun h => absurd h (by decide)), if_pos (c := Risbo spin rRisbo) (Or.inl rfl)]
  obtain ⟨θ, e, -⟩ := kernelThetas_ok G (lower_name .gl) (L := 1) (nside := none)
    ⟨le_rfl, by simp⟩ false
  have e' : kernelThetas G 1 sGL none false = .ok (sGL, 1, θ) := e
  have n1 : ¬ lower rRisbo = rPm := by decide
  have n2 : ¬ (lower sGL = sMW ∨ lower sGL = sMWSS ∨ lower sGL = sDH) := by decide
  have p1 : pyIndex (2 * 1 - 1) (1 - 1 - 1) = .ok 0 := by decide
  have p2 : pyIndex (2 * 1 - 1) (1 - 1 - 0) = .ok 0 := by decide
  have k : kernelRisbo 1 1 sGL 1 θ false = kernelRisbo 1 0 sGL 1 θ false := by
    unfold kernelRisbo
    rw [p1, p2]
    simp only [bind, Except.bind, if_neg n2]
  unfold spinSphericalKernel
  simp only [c, e', bind, Except.bind, Bool.false_eq_true, false_and, if_false]
  unfold kernelDl
  rw [k, if_neg n1, if_neg n1]

/-- For `spin ≥ L`, where no harmonic exists and the base transform returns zeros, the column of the
spin wraps around in the Risbo kernel: with `L = 1` and `spin = 1` `inverse` returns the spin-0
value. -/
theorem C27_risbo_spin_wraps (G : GlTables) :
    ∃ K out ref, spinSphericalKernel G 1 1 false sGL none false rRisbo = .ok K ∧
      precomputeInverseTop G (.d2 1 1 (fun _ _ => -1)) 1 1 (some K) sGL false mNumpy none
        = .ok out ∧
      baseInverse G (.d2 1 1 (fun _ _ => -1)) 1 1 sGL none false 0 = .ok ref ∧
      ref.get2 0 0 = 0 ∧ out.get2 0 0 = elfactor 0 ∧ elfactor 0 ≠ 0 := by
  have hv : Scheme.gl.Valid 1 ((none : Option ℤ).getD 0) := ⟨le_rfl, by simp⟩
  have hRis : RecursionOk 1 0 rRisbo := ⟨by simp, fun h => absurd h (by decide), by simp⟩
  obtain ⟨K, eK, hK⟩ := spinSphericalKernel_ok G (lower_name .gl) hv false false hRis.1 hRis.2.1
    hRis.2.2
  obtain ⟨out, e, -, h⟩ := precomputeInverse_values (lower_name .gl) (mOffset_name .gl)
    (method := mNumpy) (by simp) hv (fun h => nomatch h) (fun _ _ => 1) false
    (fun h => nomatch h) (fun h => nomatch h) hK
  obtain ⟨ref, e', -, h'⟩ := baseInverseWith_values G (lower_name .gl) (method := bVec)
    (by simp [baseMethods]) (fun _ => mOffset_name .gl) (spin := 1) hv (fun _ h => nomatch h)
    (fun _ _ => -1) false le_rfl one_pos (fun _ h => nomatch h)
  have hH : Scheme.gl.Has 1 ((none : Option ℤ).getD 0) 0 0 := ⟨le_rfl, by decide, le_rfl, by decide⟩
  have hpos : Scheme.gl.pos ((none : Option ℤ).getD 0) 0 0 = (0, 0) := rfl
  have h1 := h 0 0 hH
  have h2 := h' 0 0 hH
  rw [hpos] at h1 h2
  have hft : ∀ k : ℤ → ℤ → ℤ → ℂ, precomputeFtm (fun _ _ => -1) k 1 sGL false 1
      = precomputeFtm (fun _ _ => 1) k 1 sGL false 0 := by
    intro k
    funext t j
    unfold precomputeFtm
    have n : ¬ (lower sGL = sHP ∧ false = true) := by decide
    simp only [if_neg n]
    split_ifs <;> simp
  refine ⟨.d3 (kRings .gl 1 ((none : Option ℤ).getD 0) false) 1 (mDim 1 (effReality false 0)) K,
    out, ref, ?_, ?_, e', ?_, ?_, ?_⟩
  · rw [kernel_wraps]; exact eK
  · rw [← e]
    show precomputeInverse (.d2 1 1 (fun _ _ => -1)) (.d3 1 1 1 K) 1 sGL false 1 none mNumpy
      = precomputeInverse (.d2 1 1 (fun _ _ => 1)) (.d3 1 1 1 K) 1 sGL false 0 none mNumpy
    unfold precomputeInverse
    simp only [Nd.get2, hft]
    rfl
  · rw [h2]
    simp [synth_eq, gVal, elStart, gEff]
  · rw [h1, synth_gAt_harmonic (spin := 0) _ _ le_rfl le_rfl (fun _ => rfl)]
    unfold harmonicSum sYlm
    rw [show Finset.Ico (0 : ℤ) 1 = {0} from rfl, Finset.sum_singleton,
      show Finset.Ico (-0 : ℤ) (0 + 1) = {0} from rfl, Finset.sum_singleton]
    simp [wignerd_zero, elfactor, cis]
  · unfold elfactor
    have := Real.pi_pos
    apply (Real.sqrt_pos.2 _).ne'
    push_cast; positivity

end S2fft
