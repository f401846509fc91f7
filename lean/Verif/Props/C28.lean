import Verif.Lemmas.PrecomputeWignerForward
import Verif.Props.C26

/-! # C28: the precomputed-kernel Wigner transforms agree with the base Wigner transforms -/

namespace S2fft
open Spec

/-- The kernel argument: one made beforehand by either constructor, or none. -/
def WignerKernelArg (G : GlTables) (L N : ℤ) (reality : Bool) (s : PyStr) (nside : Option ℤ)
    (forward : Bool) (method κ mode : PyStr) (kernel : Option Nd4) : Prop :=
  (∃ K, wignerKernelFunction κ G L N reality s nside forward mode = .ok K ∧ kernel = some K) ∨
    (κ = method ∧ mode = mdAuto ∧ kernel = none)

theorem getWignerKernel_ok (G : GlTables) {σ : Scheme} {L N : ℤ} {nside : Option ℤ}
    (hv : σ.Valid L (nside.getD 0)) (h1 : 1 ≤ N) (hN : N ≤ L) (reality forward : Bool)
    {method κ mode : PyStr} (hm : ModeOk σ L mode) {kernel : Option Nd4}
    (hk : WignerKernelArg G L N reality σ.name nside forward method κ mode kernel) :
    ∃ K, getWignerKernel G kernel L N reality σ.name nside forward method
        = .ok ⟨nDim N reality, kRings σ L (nside.getD 0) forward, L, 2 * L - 1, K⟩ ∧
      Kernel4Is K G σ L N (nside.getD 0) reality forward := by
  rcases hk with ⟨K, e, rfl⟩ | ⟨rfl, rfl, rfl⟩
  · obtain ⟨K', e', hK'⟩ := wignerKernelFunction_ok G hv h1 hN reality forward (κ := κ) hm
    rw [e] at e'
    injection e' with e'
    subst e'
    exact ⟨K', rfl, hK'⟩
  · exact wignerKernelFunction_ok G hv h1 hN reality forward hm

/-- With the reality flag the coefficients with `n = 0` are those of a real signal, in all orders. -/
def RealPlane (flmn : ℤ → ℤ → ℤ → ℂ) (L N : ℤ) (reality : Bool) : Prop :=
  reality = true → ∀ el m, 0 ≤ el → el < L → |m| ≤ el →
    flmn (N - 1) el (-m + L - 1) = (-1) ^ m * (starRingEnd ℂ) (flmn (N - 1) el (m + L - 1))

theorem RealPlane.origin {flmn : ℤ → ℤ → ℤ → ℂ} {L N : ℤ} {reality : Bool}
    (h : RealPlane flmn L N reality) : RealOrigin flmn L N reality 0 := by
  intro hr el a b
  have := h hr el 0 a b (by simpa using a)
  rw [neg_zero, zero_add, zpow_zero, one_mul] at this
  exact Complex.conj_eq_iff_im.1 this.symm

/-- The planes read are those of the coefficients as the base transform understands them. -/
theorem wigPlane_coeffs {flmn : ℤ → ℤ → ℤ → ℂ} {L N : ℤ} {reality : Bool}
    (h : RealPlane flmn L N reality) {n : ℤ} (hn : reality = true → 0 ≤ n) (β α : ℝ) :
    wigPlane 0 L (fun n l m => flmn (N - 1 + n) l (m + L - 1)) n β α
      = wigPlane 0 L (wignerCoeffs flmn L N reality) n β α := by
  unfold wigPlane
  refine Finset.sum_congr rfl fun l hl => Finset.sum_congr rfl fun m hm => ?_
  rw [Finset.mem_Ico] at hl hm
  congr 2
  unfold wignerCoeffs
  cases reality
  · simp
  · rw [if_pos rfl]
    unfold realWignerCoeffs
    by_cases hc : n < 0 ∨ n = 0 ∧ m < 0
    · rw [if_pos hc]
      have hz : n = 0 := by have := hn rfl; omega
      subst hz
      have := h rfl l (-m) hl.1 hl.2 (by rw [abs_neg, abs_le]; omega)
      rw [neg_neg, neg_one_zpow_neg] at this
      beta_reduce
      rw [add_zero, add_zero, neg_zero, add_zero, this]
    · rw [if_neg hc]

/-- The planes, transformed over `γ`, give the expansion. -/
theorem gammaSynth_expansion {flmn : ℤ → ℤ → ℤ → ℂ} {L N : ℤ} {reality : Bool} (h1 : 1 ≤ N)
    (hre : RealPlane flmn L N reality) {a : ℤ → ℂ} {θ φ : ℝ}
    (ha : ∀ n, nFirst N reality ≤ n → n < N → a (N - 1 + n)
      = wigPlane 0 L (fun n l m => flmn (N - 1 + n) l (m + L - 1)) n θ φ) (g : ℤ) :
    gammaSynth N reality a g
      = wignerSum 0 L N (wignerCoeffs flmn L N reality) φ θ (gammaAt N g) := by
  rw [wignerSum_planes]
  unfold gammaSynth
  cases reality
  · rw [if_neg Bool.false_ne_true]
    rw [nFirst_false] at ha
    have := ifft_gamma h1 (fun n => a (N - 1 + n)) g
    simp only [show ∀ k, N - 1 + (k - (N - 1)) = k from fun k => by ring] at this
    rw [this]
    refine Finset.sum_congr rfl fun n hn => ?_
    rw [Finset.mem_Ioo] at hn
    rw [ha n (by omega) hn.2, wigPlane_coeffs hre (fun h => nomatch h)]
  · rw [if_pos rfl]
    rw [nFirst_true] at ha
    rw [← irfft_gamma h1 _ (fun n _ _ => wigPlane_conj (wignerCoeffs_real hre.origin) n θ φ)]
    refine irfft_congr (by omega) fun k k0 k1 => ?_
    rw [ha k k0 (by omega), wigPlane_coeffs hre (fun _ => k0)]

/-- Synthesis: with a kernel of either constructor and any mode, or with the one `inverse` makes
itself, `inverse` returns the Wigner expansion of the coefficients at every sample of every grid. -/
theorem C28_expansion_partial (G : GlTables) (σ : Scheme) (L N : ℤ) (nside : Option ℤ)
    (hv : σ.Valid L (nside.getD 0)) (h1 : 1 ≤ N) (hN : N ≤ L)
    (hhp : σ = .healpix → 2 * nside.getD 0 ≤ L) (κ mode : PyStr) (hm : ModeOk σ L mode)
    (method : PyStr) (hmt : method ∈ [mNumpy, mJax, mTorch]) (flmn : ℤ → ℤ → ℤ → ℂ)
    (reality : Bool) (hre : RealPlane flmn L N reality) (kernel : Option Nd4)
    (hk : WignerKernelArg G L N reality σ.name nside false method κ mode kernel) :
    ∃ out, precomputeWignerInverseTop G (.d3 (2 * N - 1) L (2 * L - 1) flmn) L N kernel σ.name
        reality method nside = .ok out ∧
      out.shape = (2 * N - 1) :: σ.shape L (nside.getD 0) ∧
      ∀ g t p, σ.Has L (nside.getD 0) t p →
        out.get3 g (σ.pos (nside.getD 0) t p).1 (σ.pos (nside.getD 0) t p).2
          = wignerSum 0 L N (wignerCoeffs flmn L N reality)
              (σ.phi L (nside.getD 0) t p) (σ.theta G.nodes L (nside.getD 0) t) (gammaAt N g) := by
  obtain ⟨K, eK, hK⟩ := getWignerKernel_ok G hv h1 hN reality false hm hk
  obtain ⟨out, e, hs, h⟩ := precomputeWignerInverse_values hmt hv h1 hhp flmn reality hK
  refine ⟨out, ?_, hs, fun g t p ht => ?_⟩
  · unfold precomputeWignerInverseTop
    rw [if_neg (by rw [not_not]; exact hmt), eK]
    exact e
  · obtain ⟨a, ha, ho⟩ := h g t p ht
    rw [ho, gammaSynth_expansion h1 hre ha]

/-- `inverse` returns what the base `inverse` does, at every sample. Grids with no rings in the pole
windows of the base transform (C13, `C18_grids`). -/
theorem C28_inverse_partial (G : GlTables) (σ : Scheme) (L N : ℤ) (nside : Option ℤ)
    (hv : σ.Valid L (nside.getD 0)) (h1 : 1 ≤ N) (hN : N ≤ L)
    (hhp : σ = .healpix → 2 * nside.getD 0 ≤ L) (hex : GridExact G.nodes σ L (nside.getD 0))
    (κ mode : PyStr) (hm : ModeOk σ L mode) (method : PyStr) (hmt : method ∈ [mNumpy, mJax, mTorch])
    (flmn : ℤ → ℤ → ℤ → ℂ) (reality : Bool) (hre : RealPlane flmn L N reality)
    (kernel : Option Nd4)
    (hk : WignerKernelArg G L N reality σ.name nside false method κ mode kernel) :
    ∃ out ref, precomputeWignerInverseTop G (.d3 (2 * N - 1) L (2 * L - 1) flmn) L N kernel σ.name
        reality method nside = .ok out ∧
      wignerBaseInverse G (.d3 (2 * N - 1) L (2 * L - 1) flmn) L N 0 σ.name reality nside = .ok ref ∧
      out.shape = ref.shape ∧
      ∀ g t p, 0 ≤ g → g < 2 * N - 1 → σ.Has L (nside.getD 0) t p →
        out.get3 g (σ.pos (nside.getD 0) t p).1 (σ.pos (nside.getD 0) t p).2
          = ref.get3 g (σ.pos (nside.getD 0) t p).1 (σ.pos (nside.getD 0) t p).2 := by
  obtain ⟨out, e, hs, h⟩ := C28_expansion_partial G σ L N nside hv h1 hN hhp κ mode hm method hmt
    flmn reality hre kernel hk
  obtain ⟨ref, e', hs', h'⟩ := C26_inverse G σ L N 0 nside hv h1 hhp le_rfl (by have := hv.1; omega)
    flmn reality hre.origin hex
  refine ⟨out, ref, e, e', hs.trans hs'.symm, fun g t p g0 g1 ht => ?_⟩
  rw [h g t p ht, h' g t p g0 g1 ht]

/-! ## Forward -/

/-- With the reality flag, on MW and MWSS grids, the samples summed over `γ` are those of a real
band-limited signal on the sphere, as they are for a real band-limited signal on the rotation group
(`realMean_of`). No condition on the other grids. -/
def RealMean (nodes : ℤ → ℤ → ℝ) (σ : Scheme) (L N nside : ℤ) (f : ℤ → ℤ → ℤ → ℂ)
    (reality : Bool) : Prop :=
  reality = true → σ.Resampled →
    RealInput nodes σ L nside (fun i j => ∑ g ∈ Finset.Ico 0 (2 * N - 1), f g i j)

theorem fbanAt_zero (f : ℤ → ℤ → ℤ → ℂ) {N : ℤ} (i j : ℤ) :
    fbanAt f N true 0 i j = ((∑ g ∈ Finset.Ico 0 (2 * N - 1), f g i j).re : ℂ) := by
  unfold fbanAt wignerFban
  rw [if_pos rfl, nFirst_true]
  unfold rfft
  rw [fft_eq, Complex.re_sum]
  push_cast
  refine Finset.sum_congr rfl fun g _ => ?_
  simp [tw, cis]

theorem realMean_rings {nodes : ℤ → ℤ → ℝ} {σ : Scheme} {L N nside : ℤ} (hL : 1 ≤ L)
    {f : ℤ → ℤ → ℤ → ℂ} (h : RealMean nodes σ L N nside f true) :
    RealRings σ.inner L nside (innerRings σ L nside) (innerSignal σ L 0 (fbanAt f N true 0)) := by
  apply realInput_rings (nodes := nodes) hL
  unfold RealInput
  by_cases hR : σ.Resampled
  · have := h rfl hR
    unfold RealInput at this
    rw [if_pos (show σ = .mw ∨ σ = .mwss from hR)] at this ⊢
    obtain ⟨F, a, b, c⟩ := this
    refine ⟨F, a, b, fun t p ht => ?_⟩
    have c := c t p ht
    beta_reduce at c
    rw [fbanAt_zero f, c, ← Complex.conj_eq_iff_re.1 (Complex.conj_eq_iff_im.2 (b _ _))]
    simp
  · rw [if_neg (show ¬ (σ = .mw ∨ σ = .mwss) from hR)]
    intro t p _
    rw [fbanAt_zero f]
    exact Complex.ofReal_im _

/-- `forward` returns what the base `forward` does. MW and MWSS grids need `N ≥ 2`
(`C28_one_direction`); the JAX methods need `nside ≥ 2` (C10). -/
theorem C28_forward_partial (G : GlTables) (σ : Scheme) (L N : ℤ) (nside : Option ℤ)
    (hv : σ.Valid L (nside.getD 0)) (h1 : 1 ≤ N) (hN : N ≤ L) (hσ : σ.Resampled → 2 ≤ N)
    (hex : InnerExact G.nodes σ L (nside.getD 0))
    (κ mode : PyStr) (hm : ModeOk σ L mode) (method : PyStr) (hmt : method ∈ [mNumpy, mJax, mTorch])
    (hhp : σ = .healpix → 2 * nside.getD 0 ≤ L ∧ (method ≠ mNumpy → 2 ≤ nside.getD 0))
    (f : Nd ℂ) (hf : f.shape = (2 * N - 1) :: σ.shape L (nside.getD 0))
    (reality : Bool) (hre : RealMean G.nodes σ L N (nside.getD 0) f.get3 reality)
    (kernel : Option Nd4)
    (hk : WignerKernelArg G L N reality σ.name nside true method κ mode kernel) :
    ∃ out ref, precomputeWignerForwardTop G f L N kernel σ.name reality method nside
        = .ok (.d3 (2 * N - 1) L (2 * L - 1) out) ∧
      wignerBaseForward G f L N 0 σ.name reality nside
        = .ok (.d3 (2 * N - 1) L (2 * L - 1) ref) ∧
      ∀ k el j, 0 ≤ k → k < 2 * N - 1 → 0 ≤ el → el < L → 0 ≤ j → j < 2 * L - 1 →
        out k el j = ref k el j := by
  obtain ⟨K, eK, hK⟩ := getWignerKernel_ok G hv h1 hN reality true hm hk
  obtain ⟨out, e, h⟩ := precomputeWignerForward_values hmt hv h1 hσ hhp f hf reality hK
  obtain ⟨ref, e', h'⟩ := wignerBaseForward_coefs G hv h1 (fun h => (hhp h).1) hex f hf reality
    (by rintro rfl; exact realMean_rings hv.1 hre)
  refine ⟨out, ref, ?_, e', fun k el j k0 k1 a b c d => ?_⟩
  · unfold precomputeWignerForwardTop
    rw [if_neg (by rw [not_not]; exact hmt), eK]
    exact e
  · have x := h (k - (N - 1)) el (j - L + 1) (by omega) (by omega) a b (by omega) (by omega)
    have y := h' (k - (N - 1)) el (j - L + 1) (by omega) (by omega) a b (by omega) (by omega)
    rw [show N - 1 + (k - (N - 1)) = k by ring, show j - L + 1 + L - 1 = j by ring] at x y
    rw [x, y]

/-- Samples of a real Wigner expansion satisfy `RealMean`. -/
theorem realMean_of {nodes : ℤ → ℤ → ℝ} {σ : Scheme} {L N nside : ℤ} (h1 : 1 ≤ N)
    {c : ℤ → ℤ → ℤ → ℂ} {f : ℤ → ℤ → ℤ → ℂ} {reality : Bool}
    (hre : reality = true → RealWigner c 0 L)
    (hs : So3SamplesOf nodes σ L N nside f (wignerSum 0 L N c)) :
    RealMean nodes σ L N nside f reality := by
  intro hr hR
  unfold RealInput
  rw [if_pos (show σ = .mw ∨ σ = .mwss from hR)]
  have key : ∀ θ φ, (2 * (N : ℂ) - 1) * wigPlane 0 L c 0 θ φ = harmonicSum 0 L 0 (fun l m =>
      (2 * (N : ℂ) - 1) * (c 0 l m * (√((2 * (l : ℝ) + 1) / (16 * Real.pi ^ 3)) : ℝ))) θ φ := by
    intro θ φ
    rw [wigPlane_harmonic le_rfl, zpow_zero, one_mul, neg_zero]
    unfold harmonicSum
    simp only [Finset.mul_sum]
    exact Finset.sum_congr rfl fun l _ => Finset.sum_congr rfl fun m _ => by ring
  refine ⟨harmF 0 L 0 (fun l m =>
      (2 * (N : ℂ) - 1) * (c 0 l m * (√((2 * (l : ℝ) + 1) / (16 * Real.pi ^ 3)) : ℝ))),
    harmF_parity 0 L 0 _, fun θ φ => ?_, fun t p ht => ?_⟩
  rotate_left
  · rw [← harmonicSum_sph, ← key]
    have := fft_gamma h1 (fun n => wigPlane 0 L c n (σ.theta nodes L nside t) (σ.phi L nside t p))
      (k := 0) (by omega) (by omega) (fun g => f g (σ.pos nside t p).1 (σ.pos nside t p).2)
      (fun g a b => by rw [← wignerSum_planes]; exact hs g t p a b ht)
    rw [← this, fft_eq]
    beta_reduce
    unfold ngamma
    exact Finset.sum_congr rfl fun g _ => by simp [tw, cis]
  · rw [← harmonicSum_sph, ← key, ← Complex.conj_eq_iff_im, map_mul,
      ← wigPlane_conj (hre hr), neg_zero, map_sub, map_mul, map_ofNat, map_intCast, map_one]

/-- Analysis: on the schemes with a sampling theorem, `forward` applied to the samples of a Wigner
expansion returns its coefficients. -/
theorem C28_analysis_partial (G : GlTables) (σ : Scheme) (L N : ℤ) (nside : Option ℤ)
    (hv : σ.Valid L (nside.getD 0)) (h1 : 1 ≤ N) (hN : N ≤ L) (hR : σ.Resampled → 2 ≤ N)
    (hσ : SamplingTheorem G σ L) (hex : InnerExact G.nodes σ L (nside.getD 0))
    (κ mode : PyStr) (hm : ModeOk σ L mode) (method : PyStr) (hmt : method ∈ [mNumpy, mJax, mTorch])
    (c : ℤ → ℤ → ℤ → ℂ) (f : Nd ℂ) (hf : f.shape = (2 * N - 1) :: σ.shape L (nside.getD 0))
    (hs : So3SamplesOf G.nodes σ L N (nside.getD 0) f.get3 (wignerSum 0 L N c))
    (reality : Bool) (hre : reality = true → RealWigner c 0 L) (kernel : Option Nd4)
    (hk : WignerKernelArg G L N reality σ.name nside true method κ mode kernel) :
    ∃ g, precomputeWignerForwardTop G f L N kernel σ.name reality method nside
        = .ok (.d3 (2 * N - 1) L (2 * L - 1) g) ∧
      ∀ n el m, |n| < N → 0 ≤ el → el < L → -L < m → m < L →
        g (N - 1 + n) el (m + L - 1) = if |n| ≤ el ∧ |m| ≤ el then c n el m else 0 := by
  obtain ⟨g, ref, e, e', h⟩ := C28_forward_partial G σ L N nside hv h1 hN hR hex κ mode hm method hmt
    (fun h => absurd h hσ.1) f hf reality (realMean_of h1 hre hs) kernel hk
  obtain ⟨ref', e'', h'⟩ := C26_forward G σ L N 0 0 nside hv h1 hσ hex le_rfl
    (by have := hv.1; omega) le_rfl c f hf hs reality hre
  rw [e'] at e''
  injection e'' with e''
  injection e'' with _ _ _ e''
  subst e''
  refine ⟨g, e, fun n el m hn a b m0 m1 => ?_⟩
  have hn' := abs_lt.1 hn
  rw [h _ el _ (by omega) (by omega) a b (by omega) (by omega), h' n el m hn a b m0 m1,
    max_eq_left (abs_nonneg n)]

/-- The round trip, the two kernels being made independently. -/
theorem C28_round_trip_partial (G : GlTables) (σ : Scheme) (L N : ℤ) (nside : Option ℤ)
    (hv : σ.Valid L (nside.getD 0)) (h1 : 1 ≤ N) (hN : N ≤ L) (hR : σ.Resampled → 2 ≤ N)
    (hσ : SamplingTheorem G σ L) (hex : InnerExact G.nodes σ L (nside.getD 0))
    (κ κ' mode mode' : PyStr) (hm : ModeOk σ L mode) (hm' : ModeOk σ L mode')
    (μ ν : PyStr) (hμ : μ ∈ [mNumpy, mJax, mTorch]) (hν : ν ∈ [mNumpy, mJax, mTorch])
    (flmn : ℤ → ℤ → ℤ → ℂ) (reality : Bool) (hre : RealPlane flmn L N reality)
    (k k' : Option Nd4)
    (hk : WignerKernelArg G L N reality σ.name nside false μ κ mode k)
    (hk' : WignerKernelArg G L N reality σ.name nside true ν κ' mode' k') :
    ∃ f g, precomputeWignerInverseTop G (.d3 (2 * N - 1) L (2 * L - 1) flmn) L N k σ.name reality μ
        nside = .ok f ∧
      precomputeWignerForwardTop G f L N k' σ.name reality ν nside
        = .ok (.d3 (2 * N - 1) L (2 * L - 1) g) ∧
      ∀ n el m, |n| < N → 0 ≤ el → el < L → -L < m → m < L →
        g (N - 1 + n) el (m + L - 1) = if |n| ≤ el ∧ |m| ≤ el
          then wignerCoeffs flmn L N reality n el m else 0 := by
  obtain ⟨f, e, hs, hf⟩ := C28_expansion_partial G σ L N nside hv h1 hN (fun h => absurd h hσ.1) κ
    mode hm μ hμ flmn reality hre k hk
  obtain ⟨g, e', hg⟩ := C28_analysis_partial G σ L N nside hv h1 hN hR hσ hex κ' mode' hm' ν hν
    (wignerCoeffs flmn L N reality) f hs (fun g t p _ _ ht => hf g t p ht) reality (by
      rintro rfl
      exact wignerCoeffs_real hre.origin) k' hk'
  exact ⟨f, g, e, e', hg⟩

/-- The hypotheses are met, e.g. by MW sampling with `L = 8`, `N = 3`, each mode, and coefficients
that are all non-zero. -/
example (G : GlTables) : Scheme.mw.Valid 8 0 ∧ (Scheme.mw.Resampled → (2 : ℤ) ≤ 3) ∧
    SamplingTheorem G .mw 8 ∧ GridExact G.nodes .mw 8 0 ∧ InnerExact G.nodes .mw 8 0 ∧
    ModeOk .mw 8 mdAuto ∧ ModeOk .mw 8 mdDirect ∧ ModeOk .mw 8 mdFft ∧
    RealPlane (fun n _ m => if n = 2 ∧ m < 7 then (-1) ^ (m - 7) else 1) 8 3 true := by
  refine ⟨⟨by norm_num, by simp⟩, fun _ => by norm_num, ⟨by simp, by simp⟩,
    (C24_grids G.nodes .mw 8 0 (Or.inl rfl) (by norm_num) (by norm_num)).1,
    (C24_grids G.nodes .mw 8 0 (Or.inl rfl) (by norm_num) (by norm_num)).2,
    ⟨by simp, fun h => absurd h (by decide), fun _ h => absurd h (by norm_num)⟩,
    ⟨by simp, fun h => absurd h (by decide), fun h => absurd h (by decide)⟩,
    ⟨by simp, fun _ => ⟨by simp, by simp⟩, fun h => absurd h (by decide)⟩, ?_⟩
  intro _ el m _ _ _
  have hone : ∀ k : ℤ, (starRingEnd ℂ) ((-1 : ℂ) ^ k) = (-1) ^ k := fun k => by
    rw [map_zpow₀, map_neg, map_one]
  norm_num
  rcases lt_trichotomy m 0 with h | h | h
  · rw [if_neg (by omega), if_pos (by omega), hone, show m + 8 - 1 - 7 = m by ring, neg_one_zpow_sq]
  · subst h; norm_num
  · rw [if_pos (by omega), if_neg (by omega), map_one, mul_one,
      show -m + 8 - 1 - 7 = -m by ring, neg_one_zpow_neg]

/-! ## Where the property fails -/

/-- With one direction (`N = 1`) `forward` fails on MW and MWSS grids, for every signal, kernel and
method: the resampling drops the axis of length one. The base transform succeeds. -/
theorem C28_one_direction (G : GlTables) (σ : Scheme) (L : ℤ) (nside : Option ℤ)
    (hL : 1 ≤ L) (hσ : σ = .mw ∨ σ = .mwss) (K : Nd4) (f : Nd ℂ)
    (hf : f.shape = 1 :: σ.shape L (nside.getD 0)) (reality : Bool)
    (method : PyStr) (hmt : method ∈ [mNumpy, mJax, mTorch]) :
    precomputeWignerForwardTop G f L 1 (some K) σ.name reality method nside = .error .indexError ∧
      (InnerExact G.nodes σ L (nside.getD 0) →
        ∃ ref, wignerBaseForward G f L 1 0 σ.name false nside
          = .ok (.d3 (2 * 1 - 1) L (2 * L - 1) ref)) := by
  have hv : σ.Valid L (nside.getD 0) := ⟨hL, by rcases hσ with rfl | rfl <;> exact nofun⟩
  have hh : σ ≠ .healpix := by rcases hσ with rfl | rfl <;> decide
  refine ⟨?_, fun hex => ?_⟩
  · obtain ⟨r, c, a, rfl⟩ : ∃ r c a, f = .d3 1 r c a := by
      have hsz : ∃ r c, f.shape = [1, r, c] := by
        rcases hσ with rfl | rfl <;> exact ⟨_, _, hf⟩
      obtain ⟨r, c, hsz⟩ := hsz
      cases f with
      | d3 x y z a =>
        simp only [Nd.shape, List.cons.injEq, and_true] at hsz
        obtain ⟨rfl, rfl, rfl⟩ := hsz
        exact ⟨_, _, a, rfl⟩
      | d1 n v => simp [Nd.shape] at hsz
      | d2 n m v => simp [Nd.shape] at hsz
      | other n =>
        exfalso
        simp only [Nd.shape] at hsz
        revert hsz
        rcases n with _ | n <;> simp [List.replicate_succ]
    unfold precomputeWignerForwardTop
    rw [if_neg (by rw [not_not]; exact hmt)]
    show precomputeWignerForward (.d3 1 r c a) K L 1 σ.name reality nside method = _
    have hfb : wignerFbanNd (.d3 1 r c a) σ.name reality
        = .ok (.d3 1 r c (wignerFban a 1 reality)) := by
      unfold wignerFbanNd
      simp only
      rw [lower_name, if_neg (by revert hh; cases σ <;> decide)]
      have : fbanPlanes 1 reality = 1 := by cases reality <;> rfl
      rw [this]
    have hup : ∀ s : ℤ → ℤ, ∃ v, wignerResample (.d3 1 r c (wignerFban a 1 reality)) L s σ.name
        method = .ok (.d2 (2 * L + 1) (2 * L) v, sMWSS) := by
      intro s
      have hj1 := fun f => (C23_jax L hL s f).1
      have hj2 := fun f => (C23_jax L hL s f).2
      have up : ∀ f, (if method = mNumpy then upsample_by_two_mwss else upsample_by_two_mwss_jax) f
          L s = upsample_by_two_mwss f L s := by
        intro f; split_ifs
        · rfl
        · exact hj2 f
      have tw : ∀ f, (if method = mNumpy then mw_to_mwss else mw_to_mwss_jax) f L
          s = mw_to_mwss f L s := by
        intro f; split_ifs
        · rfl
        · exact hj1 f
      unfold wignerResample
      simp only [up, tw, lower_name]
      rcases hσ with rfl | rfl
      · rw [if_pos (show Scheme.mw.name = sMW from rfl), mw_to_mwss_d3]
        simp only [bind, Except.bind, pure, Except.pure]
        rw [if_pos (Or.inl (show Scheme.mw.name = sMW from rfl)), upsample_d3, if_pos rfl]
        exact ⟨_, rfl⟩
      · rw [if_neg (by decide)]
        simp only [bind, Except.bind, pure, Except.pure]
        rw [if_pos (Or.inr (show Scheme.mwss.name = sMWSS from rfl)), upsample_d3, if_pos rfl]
        exact ⟨_, rfl⟩
    unfold precomputeWignerForward
    rw [hfb]
    obtain ⟨v, e⟩ := hup (fun k => -(nFirst 1 reality + k))
    simp only [bind, Except.bind]
    rw [e]
    simp only
    unfold wignerRings
    simp only
    rw [if_neg (by decide)]
  · obtain ⟨g, e, -⟩ := wignerBaseForward_coefs G hv (N := 1) le_rfl (fun h => absurd h hh) hex f
      (by rw [hf]; rfl) false (fun h => nomatch h)
    exact ⟨g, e⟩

theorem wignerKernel_many (G : GlTables) (σ : Scheme) (L N : ℤ) (nside : Option ℤ)
    (hv : σ.Valid L (nside.getD 0)) (hN : L < N) (reality forward : Bool) (mode : PyStr)
    (hm : ModeOk σ L mode) :
    wignerKernel G L N reality σ.name nside forward mode = .error .indexError := by
  obtain ⟨μ, e1, hμ⟩ := chooseMode_ok (lower_name σ) (N := N) hm
  obtain ⟨θ, e2, hθ⟩ := kernelThetas_ok G (lower_name σ) hv forward
  have hc : wignerColumns L N reality = .error .indexError := by
    unfold wignerColumns; rw [if_pos (by omega)]
  have ld : lower mdDirect = mdDirect := rfl
  have lf : lower mdFft = mdFft := rfl
  have n2 : ¬ mdFft = mdDirect := by decide
  unfold wignerKernel
  rw [e1]
  simp only [bind, Except.bind]
  rw [e2]
  simp only [hc]
  rcases hμ with rfl | ⟨rfl, -⟩
  · rw [ld, if_pos rfl]
  · rw [lf, if_neg n2, if_pos rfl]

/-- With more directions than the band-limit has degrees (`L < N`) NumPy `inverse` and `forward`
fail for every input, if they make the kernel themselves, and so does the NumPy constructor. The
base `inverse` accepts such coefficients. -/
theorem C28_many_directions (G : GlTables) (σ : Scheme) (L N : ℤ) (nside : Option ℤ)
    (hv : σ.Valid L (nside.getD 0)) (hN : L < N) (hm : ModeOk σ L mdAuto) (reality : Bool) :
    (∀ forward mode, ModeOk σ L mode →
      wignerKernelFunction mNumpy G L N reality σ.name nside forward mode = .error .indexError) ∧
    (∀ a, precomputeWignerInverseTop G a L N none σ.name reality mNumpy nside
      = .error .indexError) ∧
    (∀ a, precomputeWignerForwardTop G a L N none σ.name reality mNumpy nside
      = .error .indexError) ∧
    ((σ = .healpix → 2 * nside.getD 0 ≤ L) → GridExact G.nodes σ L (nside.getD 0) →
      ∀ flmn, ∃ ref, wignerBaseInverse G (.d3 (2 * N - 1) L (2 * L - 1) flmn) L N 0 σ.name false
        nside = .ok ref) := by
  have hk : ∀ forward mode, ModeOk σ L mode →
      wignerKernelFunction mNumpy G L N reality σ.name nside forward mode = .error .indexError :=
    fun forward mode hm => by
      unfold wignerKernelFunction
      rw [if_pos rfl]
      exact wignerKernel_many G σ L N nside hv hN reality forward mode hm
  refine ⟨hk, fun a => ?_, fun a => ?_, fun hhp hex flmn => ?_⟩
  · unfold precomputeWignerInverseTop getWignerKernel
    rw [if_neg (by decide)]
    simp only
    rw [hk _ _ hm]
    rfl
  · unfold precomputeWignerForwardTop getWignerKernel
    rw [if_neg (by decide)]
    simp only
    rw [hk _ _ hm]
    rfl
  · obtain ⟨ref, e, -⟩ := C26_inverse G σ L N 0 nside hv (by have := hv.1; omega) hhp le_rfl
      (by have := hv.1; omega) flmn false (fun h => nomatch h) hex
    exact ⟨ref, e⟩

/-- The symmetry of the plane `n = 0` cannot be dropped: with the reality flag the base `inverse`
ignores the coefficients with `n = 0` and `m < 0`, the precomputed one does not. Here the only
non-zero coefficient has degree one, `m = -1` and `n = 0`. -/
theorem C28_reality_needs_symmetry (G : GlTables) :
    ∃ out ref, precomputeWignerInverseTop G
        (.d3 1 2 3 (fun _ l m => if l = 1 ∧ m = 0 then 1 else 0)) 2 1 none sDH true mNumpy none
        = .ok out ∧
      wignerBaseInverse G (.d3 1 2 3 (fun _ l m => if l = 1 ∧ m = 0 then 1 else 0)) 2 1 0 sDH true
        none = .ok ref ∧ out.get3 0 0 0 ≠ ref.get3 0 0 0 := by
  have hv : Scheme.dh.Valid 2 ((none : Option ℤ).getD 0) := ⟨by norm_num, by simp⟩
  have hHas : Scheme.dh.Has 2 0 0 0 := ⟨le_rfl, by simp [Scheme.rings], le_rfl,
    by simp [Scheme.ringLen]⟩
  have hm : ModeOk .dh 2 mdAuto :=
    ⟨by simp, fun h => absurd h (by decide), fun _ h => absurd h (by norm_num)⟩
  obtain ⟨K, eK, hK⟩ := getWignerKernel_ok G hv (N := 1) le_rfl (by norm_num) true false hm
    (method := mNumpy) (κ := mNumpy) (kernel := none) (Or.inr ⟨rfl, rfl, rfl⟩)
  obtain ⟨out, e, -, h⟩ := precomputeWignerInverse_values (method := mNumpy) (by simp) hv (N := 1)
    le_rfl (by simp) (fun _ l m => if l = 1 ∧ m = 0 then 1 else 0) true hK
  obtain ⟨ref, e', -, h'⟩ := C26_inverse G .dh 2 1 0 none hv le_rfl (by simp) le_rfl (by norm_num)
    (fun _ l m => if l = 1 ∧ m = 0 then 1 else 0) true (by intro _ el _ _; simp)
    (C18_grids _ _ _ _ hv (by simp) (by norm_num) (by norm_num))
  refine ⟨out, ref, ?_, e', ?_⟩
  · unfold precomputeWignerInverseTop
    rw [if_neg (by decide)]
    have eK : getWignerKernel G none 2 1 true sDH none false mNumpy = _ := eK
    rw [eK]
    exact e
  · obtain ⟨a, ha, ho⟩ := h 0 0 0 hHas
    have hr := h' 0 0 0 le_rfl (by norm_num) hHas
    simp only [Scheme.pos, Option.getD_none] at ho hr
    have hz : ∀ n l m, |m| ≤ l → l < 2 → n = 0 →
        wignerCoeffs (fun _ l m => if l = 1 ∧ m = 0 then 1 else 0) 2 1 true n l m = 0 := by
      rintro n l m hml hl rfl
      have := abs_le.1 hml
      unfold wignerCoeffs realWignerCoeffs
      rw [if_pos rfl]
      split_ifs with hc
      · beta_reduce; rw [if_neg (by omega)]; simp
      · beta_reduce; rw [if_neg (by omega)]
    rw [ho, hr]
    have hsum : ∀ α β γ, wignerSum 0 2 1
        (wignerCoeffs (fun _ l m => if l = 1 ∧ m = 0 then 1 else 0) 2 1 true) α β γ = 0 := by
      intro α β γ
      unfold wignerSum
      refine Finset.sum_eq_zero fun n hn => Finset.sum_eq_zero fun l hl =>
        Finset.sum_eq_zero fun m hm => ?_
      rw [Finset.mem_Ioo] at hn
      rw [Finset.mem_Ico] at hl hm
      rw [hz n l m (abs_le.2 (by omega)) hl.2 (by omega)]
      ring
    rw [hsum]
    have hp : Scheme.dh.phi 2 0 0 0 = 0 := by simp [Scheme.phi, Scheme.shift]
    have ht : 0 < Scheme.dh.theta G.nodes 2 0 0 ∧ Scheme.dh.theta G.nodes 2 0 0 < Real.pi := by
      have := Real.pi_pos
      simp only [Scheme.theta]
      constructor
      · push_cast; positivity
      · push_cast; linarith
    have ha0 := ha 0 (by simp [nFirst_true]) (by norm_num)
    simp only [Option.getD_none, hp] at ha0
    generalize Scheme.dh.theta G.nodes 2 0 0 = θ at *
    have hs : 0 < Real.sin (θ / 2) := Real.sin_pos_of_pos_of_lt_pi (by linarith) (by linarith)
    have hc : 0 < Real.cos (θ / 2) := Real.cos_pos_of_mem_Ioo ⟨by linarith, by linarith⟩
    have hd : wignerd 1 (-1) 0 θ ≠ 0 := by
      unfold wignerd
      rw [if_pos (by simp), show Finset.Icc (max 0 ((0 : ℤ) - -1)) (min (1 + 0) (1 - -1)) = {1} by
        decide, Finset.sum_singleton]
      simp only [fact]
      norm_num [Nat.factorial]
      exact ⟨⟨Nat.factorial_ne_zero _, hc.ne'⟩, hs.ne'⟩
    have hw : wigPlane 0 2 (fun _ l m => if l = 1 ∧ m + 2 - 1 = 0 then 1 else 0) 0 θ 0
        = ((3 / (8 * Real.pi ^ 2) * wignerd 1 (-1) 0 θ : ℝ) : ℂ) := by
      unfold wigPlane
      rw [show Finset.Ico (0 : ℤ) 2 = {0, 1} by decide, Finset.sum_pair (by norm_num),
        show Finset.Ico (-(0 : ℤ)) (0 + 1) = {0} by decide,
        show Finset.Ico (-(1 : ℤ)) (1 + 1) = {-1, 0, 1} by decide]
      simp [cis]
      norm_num
    rw [hw] at ha0
    have hg : gammaSynth 1 true a 0 = ((a 0).re : ℂ) := by
      unfold gammaSynth irfft_fwd
      norm_num
    rw [hg, show a 0 = a (1 - 1 + 0) by norm_num, ha0, Complex.ofReal_re]
    have hpi := Real.pi_pos
    exact_mod_cast mul_ne_zero (show 3 / (8 * Real.pi ^ 2) ≠ 0 by positivity) hd

/-- For `L = 1` the mode "auto", which `inverse` and `forward` use to make a kernel, fails on the
grids uniform in `θ` (`int(L / log(L))`). -/
theorem C28_auto_fails (G : GlTables) (σ : Scheme) (hσ : σ ≠ .gl ∧ σ ≠ .healpix) (N : ℤ)
    (nside : Option ℤ) (reality : Bool) (a : Nd ℂ) (method : PyStr)
    (hmt : method ∈ [mNumpy, mJax, mTorch]) :
    precomputeWignerInverseTop G a 1 N none σ.name reality method nside = .error .overflowError ∧
      precomputeWignerForwardTop G a 1 N none σ.name reality method nside
        = .error .overflowError := by
  have hc : chooseMode 1 N σ.name mdAuto = .error .overflowError := by
    unfold chooseMode
    have l1 : lower mdAuto = mdAuto := rfl
    have n1 : ¬ mdAuto = mdFft := by decide
    rw [l1, if_neg (fun h => n1 h.1), if_pos rfl, if_pos ((uniformName_iff (lower_name σ)).2 hσ),
      if_pos rfl]
  have hk : ∀ forward, wignerKernelFunction method G 1 N reality σ.name nside forward mdAuto
      = .error .overflowError := by
    intro forward
    unfold wignerKernelFunction wignerKernel wignerKernelJax
    split_ifs <;> beta_reduce <;> rw [hc] <;> rfl
  unfold precomputeWignerInverseTop precomputeWignerForwardTop getWignerKernel
  rw [if_neg (by rw [not_not]; exact hmt), if_neg (by rw [not_not]; exact hmt)]
  simp only
  rw [hk, hk]
  exact ⟨rfl, rfl⟩

/-- Both constructors refuse the mode "fft" on the other grids. -/
theorem C28_fft_refused (G : GlTables) (σ : Scheme) (hσ : σ = .gl ∨ σ = .healpix) (L N : ℤ)
    (nside : Option ℤ) (reality forward : Bool) (κ mode : PyStr) (hm : lower mode = mdFft) :
    wignerKernelFunction κ G L N reality σ.name nside forward mode = .error .valueError := by
  have hc : chooseMode L N σ.name mode = .error .valueError := by
    unfold chooseMode
    rw [if_pos ⟨hm, by
      rw [uniformName_iff (lower_name σ)]
      rcases hσ with rfl | rfl <;> simp⟩]
  unfold wignerKernelFunction wignerKernel wignerKernelJax
  split_ifs <;> beta_reduce <;> rw [hc] <;> rfl

/-- And modes that are not one of the three. -/
theorem C28_mode_refused (G : GlTables) (σ : Scheme) (L N : ℤ) (nside : Option ℤ)
    (hv : σ.Valid L (nside.getD 0)) (reality forward : Bool) (κ mode : PyStr)
    (h : lower mode ∉ [mdAuto, mdDirect, mdFft]) :
    wignerKernelFunction κ G L N reality σ.name nside forward mode = .error .valueError := by
  simp only [List.mem_cons, List.not_mem_nil, or_false, not_or] at h
  have e1 : chooseMode L N σ.name mode = .ok mode := by
    unfold chooseMode
    rw [if_neg (fun h' => h.2.2 h'.1), if_neg h.1]
  obtain ⟨θ, e2, -⟩ := kernelThetas_ok G (lower_name σ) hv forward
  unfold wignerKernelFunction wignerKernel wignerKernelJax
  split_ifs
  all_goals
    simp only [e1, e2, bind, Except.bind, if_neg h.2.1, if_neg h.2.2]

/-- Methods other than the three are refused. -/
theorem C28_method (G : GlTables) (a : Nd ℂ) (L N : ℤ) (kernel : Option Nd4) (s : PyStr)
    (reality : Bool) (method : PyStr) (nside : Option ℤ) (h : method ∉ [mNumpy, mJax, mTorch]) :
    precomputeWignerInverseTop G a L N kernel s reality method nside = .error .valueError ∧
      precomputeWignerForwardTop G a L N kernel s reality method nside = .error .valueError := by
  unfold precomputeWignerInverseTop precomputeWignerForwardTop
  exact ⟨if_pos h, if_pos h⟩

end S2fft
