import Verif.Lemmas.FourierWignerForward
import Verif.Props.C28

/-! # C29: the Fourier-Wigner transforms -/

namespace S2fft
open Spec

/-- The argument `precomps`: none, or what either constructor returns. -/
def FwPrecomps (L : ℤ) (precomps : Option FwTables) : Prop :=
  precomps = none ∨ ∃ κ P, fourierWignerKernel κ L = .ok P ∧ precomps = some P

theorem FwPrecomps.ok {L : ℤ} (hL : 1 ≤ L) {precomps : Option FwTables}
    (h : FwPrecomps L precomps) : FwArgOk precomps L := by
  rcases h with rfl | ⟨κ, P, e, rfl⟩
  · exact fun P h => nomatch h
  · intro Q hQ
    injection hQ with hQ
    obtain ⟨P', e', hP'⟩ := fourierWignerKernel_ok κ hL
    rw [e] at e'
    injection e' with e'
    rw [← hQ, e']
    exact hP'

/-- Synthesis: on the MW and MWSS grids, named in any letter case, with or without tables, NumPy
and JAX `inverse` return the Wigner expansion of the coefficients at every sample. Needs `N ≤ L`
(`C29_many_directions`, `C29_many_directions_jax`). -/
theorem C29_expansion_partial (nodes : ℤ → ℤ → ℝ) (σ : Scheme) (hσ : σ = .mw ∨ σ = .mwss)
    (s : PyStr) (hs : lower s = σ.name) (L N : ℤ) (h1 : 1 ≤ N) (hN : N ≤ L) (method : PyStr)
    (flmn : ℤ → ℤ → ℤ → ℂ) (reality : Bool) (hre : RealPlane flmn L N reality)
    (precomps : Option FwTables) (hP : FwPrecomps L precomps) :
    ∃ out, fourierWignerInverse method (.d3 (2 * N - 1) L (2 * L - 1) flmn) L N precomps reality s
        = .ok out ∧
      out.shape = (2 * N - 1) :: σ.shape L 0 ∧
      ∀ g t p, out.get3 g t p = wignerSum 0 L N (wignerCoeffs flmn L N reality)
        (σ.phi L 0 t p) (σ.theta nodes L 0 t) (gammaAt N g) := by
  obtain ⟨out, e, h⟩ := fourierWignerInverse_values nodes method hσ hs h1 hN flmn
    (hP.ok (by omega)) reality
  refine ⟨_, e, ?_, fun g t p => ?_⟩
  · rw [fw_shape hσ]; rfl
  · obtain ⟨a, ha, ho⟩ := h g t p
    exact ho.trans (gammaSynth_expansion h1 hre ha g)

/-- Analysis: applied to the samples of a Wigner expansion, `forward` returns its coefficients.
MWSS grids need `L ≥ 2` (`C29_mwss_one`). -/
theorem C29_analysis_partial (nodes : ℤ → ℤ → ℝ) (σ : Scheme) (hσ : σ = .mw ∨ σ = .mwss)
    (s : PyStr) (hs : lower s = σ.name) (L N : ℤ) (h1 : 1 ≤ N) (hN : N ≤ L)
    (hL : σ = .mwss → 2 ≤ L) (method : PyStr) (c : ℤ → ℤ → ℤ → ℂ) (f : Nd ℂ)
    (hf : f.shape = (2 * N - 1) :: σ.shape L 0)
    (hsam : So3SamplesOf nodes σ L N 0 f.get3 (wignerSum 0 L N c)) (reality : Bool)
    (hre : reality = true → RealWigner c 0 L) (precomps : Option FwTables)
    (hP : FwPrecomps L precomps) :
    ∃ g, fourierWignerForward method f L N precomps reality s
        = .ok (.d3 (2 * N - 1) L (2 * L - 1) g) ∧
      ∀ n el m, |n| < N → 0 ≤ el → el < L → -L < m → m < L →
        g (N - 1 + n) el (m + L - 1) = if |n| ≤ el ∧ |m| ≤ el then c n el m else 0 := by
  obtain ⟨g, e, h⟩ := fourierWignerForward_values nodes method hσ hs h1 hN hL c f hf hsam
    (hP.ok (by omega)) reality hre
  refine ⟨g, e, fun n el m hn a b m0 m1 => ?_⟩
  have hn := abs_lt.1 hn
  exact h n el m hn.1 hn.2 a b m0 m1

/-- The round trip: either implementation, either with or without tables, in both directions. -/
theorem C29_round_trip_partial (σ : Scheme) (hσ : σ = .mw ∨ σ = .mwss) (s s' : PyStr)
    (hs : lower s = σ.name) (hs' : lower s' = σ.name) (L N : ℤ) (h1 : 1 ≤ N) (hN : N ≤ L)
    (hL : σ = .mwss → 2 ≤ L) (μ ν : PyStr) (flmn : ℤ → ℤ → ℤ → ℂ) (reality : Bool)
    (hre : RealPlane flmn L N reality) (P P' : Option FwTables) (hP : FwPrecomps L P)
    (hP' : FwPrecomps L P') :
    ∃ f g, fourierWignerInverse μ (.d3 (2 * N - 1) L (2 * L - 1) flmn) L N P reality s = .ok f ∧
      fourierWignerForward ν f L N P' reality s' = .ok (.d3 (2 * N - 1) L (2 * L - 1) g) ∧
      ∀ n el m, |n| < N → 0 ≤ el → el < L → -L < m → m < L →
        g (N - 1 + n) el (m + L - 1) = if |n| ≤ el ∧ |m| ≤ el
          then wignerCoeffs flmn L N reality n el m else 0 := by
  have hh : σ ≠ .healpix := by rcases hσ with rfl | rfl <;> decide
  obtain ⟨f, e, hsh, hf⟩ := C29_expansion_partial (fun _ _ => 0) σ hσ s hs L N h1 hN μ flmn reality
    hre P hP
  obtain ⟨g, e', hg⟩ := C29_analysis_partial (fun _ _ => 0) σ hσ s' hs' L N h1 hN hL ν
    (wignerCoeffs flmn L N reality) f hsh (fun g t p _ _ _ => by
      rw [equi_pos hh]; exact hf g t p) reality (by
      rintro rfl
      exact wignerCoeffs_real hre.origin) P' hP'
  exact ⟨f, g, e, e', hg⟩

/-- `inverse` returns what the base `inverse` does, at every sample. -/
theorem C29_base_inverse_partial (G : GlTables) (σ : Scheme) (hσ : σ = .mw ∨ σ = .mwss)
    (s : PyStr) (hs : lower s = σ.name) (L N : ℤ) (h1 : 1 ≤ N) (hN : N ≤ L)
    (hex : GridExact G.nodes σ L 0) (method : PyStr)
    (flmn : ℤ → ℤ → ℤ → ℂ) (reality : Bool) (hre : RealPlane flmn L N reality)
    (precomps : Option FwTables) (hP : FwPrecomps L precomps) :
    ∃ out ref, fourierWignerInverse method (.d3 (2 * N - 1) L (2 * L - 1) flmn) L N precomps
        reality s = .ok out ∧
      wignerBaseInverse G (.d3 (2 * N - 1) L (2 * L - 1) flmn) L N 0 σ.name reality none = .ok ref ∧
      out.shape = ref.shape ∧
      ∀ g t p, 0 ≤ g → g < 2 * N - 1 → σ.Has L 0 t p → out.get3 g t p = ref.get3 g t p := by
  have hh : σ ≠ .healpix := by rcases hσ with rfl | rfl <;> decide
  obtain ⟨out, e, hsh, h⟩ := C29_expansion_partial G.nodes σ hσ s hs L N h1 hN method flmn reality
    hre precomps hP
  obtain ⟨ref, e', hsh', h'⟩ := C26_inverse G σ L N 0 none ⟨by omega, fun h => absurd h hh⟩ h1
    (fun h => absurd h hh) le_rfl (by omega) flmn reality hre.origin hex
  refine ⟨out, ref, e, e', hsh.trans hsh'.symm, fun g t p g0 g1 ht => ?_⟩
  have := h' g t p g0 g1 ht
  rw [equi_pos hh] at this
  rw [h, this]
  rfl

/-- `forward` returns what the base `forward` does on samples of a Wigner expansion. -/
theorem C29_base_forward_partial (G : GlTables) (σ : Scheme) (hσ : σ = .mw ∨ σ = .mwss)
    (s : PyStr) (hs : lower s = σ.name) (L N : ℤ) (h1 : 1 ≤ N) (hN : N ≤ L)
    (hL : σ = .mwss → 2 ≤ L) (hex : InnerExact G.nodes σ L 0) (method : PyStr)
    (c : ℤ → ℤ → ℤ → ℂ) (f : Nd ℂ) (hf : f.shape = (2 * N - 1) :: σ.shape L 0)
    (hsam : So3SamplesOf G.nodes σ L N 0 f.get3 (wignerSum 0 L N c)) (reality : Bool)
    (hre : reality = true → RealWigner c 0 L) (precomps : Option FwTables)
    (hP : FwPrecomps L precomps) :
    ∃ g ref, fourierWignerForward method f L N precomps reality s
        = .ok (.d3 (2 * N - 1) L (2 * L - 1) g) ∧
      wignerBaseForward G f L N 0 σ.name reality none
        = .ok (.d3 (2 * N - 1) L (2 * L - 1) ref) ∧
      ∀ k el j, 0 ≤ k → k < 2 * N - 1 → 0 ≤ el → el < L → 0 ≤ j → j < 2 * L - 1 →
        g k el j = ref k el j := by
  have hh : σ ≠ .healpix := by rcases hσ with rfl | rfl <;> decide
  have hst : SamplingTheorem G σ L := by
    rcases hσ with rfl | rfl
    · exact ⟨by simp, by simp⟩
    · exact ⟨by simp, by simp⟩
  obtain ⟨g, e, h⟩ := C29_analysis_partial G.nodes σ hσ s hs L N h1 hN hL method c f hf hsam reality
    hre precomps hP
  obtain ⟨ref, e', h'⟩ := C26_forward G σ L N 0 0 none ⟨by omega, fun h => absurd h hh⟩ h1 hst hex
    le_rfl (by omega) le_rfl c f hf hsam reality hre
  refine ⟨g, ref, e, e', fun k el j k0 k1 a b c d => ?_⟩
  have x := h (k - (N - 1)) el (j - L + 1) (by rw [abs_lt]; omega) a b (by omega) (by omega)
  have y := h' (k - (N - 1)) el (j - L + 1) (by rw [abs_lt]; omega) a b (by omega) (by omega)
  rw [show N - 1 + (k - (N - 1)) = k by ring, show j - L + 1 + L - 1 = j by ring] at x y
  rw [x, y, max_eq_left (abs_nonneg _)]

/-- The hypotheses are met, e.g. by MWSS sampling with `L = 8`, `N = 3`, named "MwSS", with JAX
tables and coefficients that are all non-zero. -/
example (G : GlTables) : lower "MwSS".toList = Scheme.mwss.name ∧ (2 : ℤ) ≤ 8 ∧
    GridExact G.nodes .mwss 8 0 ∧ InnerExact G.nodes .mwss 8 0 ∧
    (∃ P, FwPrecomps 8 (some P)) ∧ FwPrecomps 8 none ∧
    RealPlane (fun n _ m => if n = 2 ∧ m < 7 then (-1) ^ (m - 7) else 1) 8 3 true := by
  refine ⟨by decide, by norm_num,
    (C24_grids G.nodes .mwss 8 0 (Or.inr (Or.inl rfl)) (by norm_num) (by norm_num)).1,
    (C24_grids G.nodes .mwss 8 0 (Or.inr (Or.inl rfl)) (by norm_num) (by norm_num)).2, ?_, Or.inl rfl, ?_⟩
  · obtain ⟨P, e, -⟩ := fourierWignerKernel_ok mJax (show (1 : ℤ) ≤ 8 by norm_num)
    exact ⟨P, Or.inr ⟨_, P, e, rfl⟩⟩
  intro _ el m _ _ _
  have hone : ∀ k : ℤ, (starRingEnd ℂ) ((-1 : ℂ) ^ k) = (-1) ^ k := fun k => by
    rw [map_zpow₀, map_neg, map_one]
  norm_num
  rcases lt_trichotomy m 0 with h | h | h
  · rw [if_neg (by omega), if_pos (by omega), hone, show m + 8 - 1 - 7 = m by ring, neg_one_zpow_sq]
  · subst h; norm_num
  · rw [if_pos (by omega), if_neg (by omega), map_one, mul_one,
      show -m + 8 - 1 - 7 = -m by ring, neg_one_zpow_neg]

/-! ## Where the property fails, and refusals -/

/-- Other sampling schemes are refused in both directions. -/
theorem C29_refused (method : PyStr) (a : Nd ℂ) (L N : ℤ) (P : Option FwTables) (reality : Bool)
    (s : PyStr) (h : lower s ≠ sMW) (h' : lower s ≠ sMWSS) :
    fourierWignerInverse method a L N P reality s = .error .valueError ∧
      fourierWignerForward method a L N P reality s = .error .valueError := by
  have hn : ¬ fwSupported s := by unfold fwSupported; exact not_or.2 ⟨h, h'⟩
  constructor
  · unfold fourierWignerInverse; rw [if_pos hn]
  · unfold fourierWignerForward; rw [if_pos hn]

/-- `forward` fails for MWSS sampling with `L = 1`, whatever the signal: the padding would be
negative. The base transform accepts such signals (`C26_forward`). -/
theorem C29_mwss_one (method : PyStr) (f : Nd ℂ) (N : ℤ) (P : Option FwTables) (reality : Bool)
    (s : PyStr) (hs : lower s = sMWSS) :
    fourierWignerForward method f 1 N P reality s = .error .valueError := by
  unfold fourierWignerForward
  rw [if_neg (not_not.2 (show fwSupported s from Or.inr hs))]
  by_cases h1 : f.shape ≠ [2 * N - 1, fwNtheta 1 s, fwSize 1 s]
  · rw [if_pos h1]
  · rw [if_neg h1]
    simp only
    rw [if_pos (by rw [if_pos hs]; norm_num)]

/-- With more directions than the band-limit has degrees (`L < N`) NumPy `inverse` and `forward`
fail for every array of the right shape. The base `inverse` accepts such coefficients. -/
theorem C29_many_directions (G : GlTables) (σ : Scheme) (hσ : σ = .mw ∨ σ = .mwss)
    (s : PyStr) (hs : lower s = σ.name) (L N : ℤ) (hL : 1 ≤ L) (hN : L < N)
    (hL2 : σ = .mwss → 2 ≤ L) (reality : Bool) (P : Option FwTables) :
    (∀ a : Nd ℂ, a.shape = [2 * N - 1, L, 2 * L - 1] →
      fourierWignerInverse mNumpy a L N P reality s = .error .indexError) ∧
    (∀ a : Nd ℂ, a.shape = (2 * N - 1) :: σ.shape L 0 →
      fourierWignerForward mNumpy a L N P reality s = .error .indexError) ∧
    (GridExact G.nodes σ L 0 → ∀ flmn, ∃ ref,
      wignerBaseInverse G (.d3 (2 * N - 1) L (2 * L - 1) flmn) L N 0 σ.name false none
        = .ok ref) := by
  have hh : σ ≠ .healpix := by rcases hσ with rfl | rfl <;> decide
  have hc : fwColumns mNumpy L N reality = .error .indexError := by
    unfold fwColumns wignerColumns; rw [if_pos rfl, if_pos (by omega)]
  refine ⟨fun a ha => ?_, fun a ha => ?_, fun hex flmn => ?_⟩
  · unfold fourierWignerInverse fwSpectrum
    rw [if_neg (not_not.2 (fw_supported hσ hs)), if_neg (not_not.2 ha), hc]
    rfl
  · unfold fourierWignerForward fwContract
    rw [if_neg (not_not.2 (fw_supported hσ hs)), fw_ntheta hσ hs, fw_size hσ hs,
      if_neg (by rw [ha, fw_shape hσ]; simp), hc]
    simp only
    rw [if_neg]
    · rfl
    · rw [hs]; rcases hσ with rfl | rfl
      · rw [if_neg (by decide)]; omega
      · rw [if_pos (show Scheme.mwss.name = sMWSS from rfl)]; have := hL2 rfl; omega
  · obtain ⟨ref, e, -⟩ := C26_inverse G σ L N 0 none ⟨hL, fun h => absurd h hh⟩ (by omega)
      (fun h => absurd h hh) le_rfl (by omega) flmn false (fun h => nomatch h) hex
    exact ⟨ref, e⟩

/-- With `L < N` JAX `inverse` does not fail, but reads wrong columns of its table, since JAX clamps
indices. Here `L = 1`, `N = 2`: the coefficient of degree zero with `n = 1`, which no Wigner function
has, contributes to the signal. -/
theorem C29_many_directions_jax (P : FwTables) (hP : FwPrecomps 1 (some P))
    (flmn : ℤ → ℤ → ℤ → ℂ) (h : flmn = fun n _ _ => if n = 2 then 1 else 0) :
    ∃ out, fourierWignerInverse mJax (.d3 3 1 1 flmn) 1 2 (some P) false sMW = .ok out ∧
      out.get3 0 0 0 ≠ 0 ∧
      ∀ α β γ, wignerSum 0 1 2 (wignerCoeffs flmn 1 2 false) α β γ = 0 := by
  have hd0 : P.delta 0 0 0 = 1 := by
    have := (hP.ok le_rfl P rfl).1 0 0 0 le_rfl one_pos
    rw [show (0 : ℤ) + 1 - 1 = 0 by ring] at this
    rw [this, wignerd_zero]
  have hx : ∃ x, fwSpectrum mJax flmn 1 2 0 (some P) false = .ok x ∧
      ∀ k, x 0 0 k = flmn k 0 0 * (1 / (8 * (Real.pi : ℂ) ^ 2)) := by
    have hc : ∀ k, wignerColumnsJax 1 2 false k = 0 := by
      intro k; unfold wignerColumnsJax jaxGet; simp only; split_ifs <;> omega
    unfold fwSpectrum fwColumns
    rw [if_neg (by decide)]
    refine ⟨_, rfl, fun k => ?_⟩
    have h01 : Finset.Ico (0 : ℤ) 1 = {0} := by decide
    simp [hc, h01, hd0, nStart]
  obtain ⟨x, e, hx⟩ := hx
  unfold fourierWignerInverse
  rw [if_neg (by decide), if_neg (by simp [Nd.shape])]
  have e : fwSpectrum mJax (Nd.d3 3 1 1 flmn).get3 1 2 (fwOffset sMW) (some P) false = .ok x := e
  simp only [bind, Except.bind]
  rw [e]
  refine ⟨_, rfl, ?_, fun α β γ => ?_⟩
  · have h01 : Finset.Ico (0 : ℤ) 1 = {0} := by decide
    have h03 : Finset.Ico (0 : ℤ) 3 = {0, 1, 2} := by decide
    have hs : fwSize 1 sMW = 1 := by decide
    have ht : fwOffset sMW = 0 := by decide
    have hpi : (Real.pi : ℂ) ≠ 0 := by exact_mod_cast Real.pi_ne_zero
    simp [Nd.get3, hs, ht, ifft_fwd, ifftshift, h01, h03, hx, h, nFirst, nStart, cis, hpi]
  · have h01 : Finset.Ico (0 : ℤ) 1 = {0} := by decide
    unfold wignerSum
    refine Finset.sum_eq_zero fun n hn => ?_
    rw [h01]
    refine (Finset.sum_singleton _ _).trans (Finset.sum_eq_zero fun m hm => ?_)
    rw [Finset.mem_Ico] at hm
    by_cases h0 : n = 1
    · unfold wignerD
      rw [wignerd_outside 0 m n β (Or.inr (by rw [h0]; norm_num))]
      simp
    · unfold wignerCoeffs
      rw [if_neg Bool.false_ne_true, h]
      beta_reduce
      rw [if_neg (by omega)]
      simp

end S2fft
