import Verif.Lemmas.CustomOps
import Verif.Props.C29

/-! # C34: transforms of a subset of directions -/

namespace S2fft
open Spec

theorem fwKernel_tables {κ : PyStr} {L : ℤ} (hL : 1 ≤ L) {P : FwTables}
    (hP : fourierWignerKernel κ L = .ok P) : FwTablesAre P L :=
  FwPrecomps.ok hL (Or.inr ⟨κ, P, hP, rfl⟩) P rfl

/-- Synthesis: for every batch entry `b`, channel `c` and position `i` in the list of spins,
`wigner_subset_to_s2` returns the samples of a signal of spin `spins[i]` whose harmonic
coefficients are those given, up to the factor relating Wigner to harmonic coefficients. -/
theorem C34_synthesis (nodes : ℤ → ℤ → ℝ) (σ : Scheme) (hσ : σ = .mw ∨ σ = .mwss) (sampling : PyStr)
    (hs : lower sampling = σ.name) (L : ℤ) (hL : 1 ≤ L) (method κ : PyStr) (P : FwTables)
    (hP : fourierWignerKernel κ L = .ok P) (B ns C : ℤ) (spins : ℤ → ℤ)
    (hsp : ∀ i, 0 ≤ i → i < ns → |spins i| < L) (flmn : ℤ → ℤ → ℤ → ℤ → ℤ → ℂ) :
    ∃ out, wignerSubsetToS2 method ⟨[B, ns, L, 2 * L - 1, C], flmn⟩ ns spins P L sampling
        = .ok ⟨[B, ns, σ.rings L 0, 2 * L - 1 + σ.off, C], out⟩ ∧
      ∀ b i t p c, 0 ≤ i → i < ns → out b i t p c
        = (-1) ^ spins i * harmonicSum 0 L (spins i) (fun l m => flmn b i l (m + L - 1) c
            * (√((2 * (l : ℝ) + 1) / (16 * Real.pi ^ 3)) : ℝ))
            (σ.theta nodes L 0 t) (σ.phi L 0 t p) := by
  obtain ⟨out, e, h⟩ := wignerSubsetToS2_values nodes method hσ hs hL (B := B) (C := C) flmn spins
    hsp (fwKernel_tables hL hP)
  refine ⟨out, e, fun b i t p c i0 i1 => ?_⟩
  rw [h b i t p c i0 i1, wigPlane_harmonic le_rfl, neg_neg, neg_one_zpow_neg]

/-- The synthesis is the slice of the full one: given the coefficients `flmn[b, :, :, :, c]` of all
directions, `wigner_subset_to_s2` applied to those of the directions `n = -spins[i]` returns the
component `n` of the full signal, i.e. its mean against `exp(-i n γ)` over the samples in `γ`. -/
theorem C34_synthesis_slice (σ : Scheme) (hσ : σ = .mw ∨ σ = .mwss) (s s' : PyStr)
    (hs : lower s = σ.name) (hs' : lower s' = σ.name) (L N : ℤ) (h1 : 1 ≤ N) (hN : N ≤ L)
    (method μ κ : PyStr) (P : FwTables) (hP : fourierWignerKernel κ L = .ok P)
    (precomps : Option FwTables) (hP' : FwPrecomps L precomps) (B ns C : ℤ) (spins : ℤ → ℤ)
    (hsp : ∀ i, 0 ≤ i → i < ns → |spins i| < N) (flmn : ℤ → ℤ → ℤ → ℤ → ℤ → ℂ) :
    ∃ out, wignerSubsetToS2 method ⟨[B, ns, L, 2 * L - 1, C],
        fun b i l j c => flmn b (N - 1 - spins i) l j c⟩ ns spins P L s
        = .ok ⟨[B, ns, σ.rings L 0, 2 * L - 1 + σ.off, C], out⟩ ∧
      ∀ b c, ∃ F, fourierWignerInverse μ (.d3 (2 * N - 1) L (2 * L - 1)
          (fun k l j => flmn b k l j c)) L N precomps false s' = .ok F ∧
        ∀ i t p, 0 ≤ i → i < ns → out b i t p c
          = (∑ g ∈ Finset.Ico 0 (2 * N - 1), F.get3 g t p * cis (spins i * gammaAt N g))
            / (2 * (N : ℂ) - 1) := by
  have hL : 1 ≤ L := by omega
  obtain ⟨out, e, h⟩ := wignerSubsetToS2_values (fun _ _ => 0) method hσ hs hL (B := B) (C := C)
    (fun b i l j c => flmn b (N - 1 - spins i) l j c) spins
    (fun i i0 i1 => (hsp i i0 i1).trans_le hN) (fwKernel_tables hL hP)
  refine ⟨out, e, fun b c => ?_⟩
  obtain ⟨F, eF, -, hF⟩ := C29_expansion_partial (fun _ _ => 0) σ hσ s' hs' L N h1 hN μ
    (fun k l j => flmn b k l j c) false (fun h => nomatch h) precomps hP'
  refine ⟨F, eF, fun i t p i0 i1 => ?_⟩
  have hs1 := abs_lt.1 (hsp i i0 i1)
  have hne : (2 * (N : ℂ) - 1) ≠ 0 := by exact_mod_cast (by omega : 2 * N - 1 ≠ 0)
  have hg := fft_gamma h1 (fun n => wigPlane 0 L (wignerCoeffs (fun k l j => flmn b k l j c) L N
    false) n (σ.theta (fun _ _ => 0) L 0 t) (σ.phi L 0 t p)) (k := -spins i) (by omega) (by omega)
    (fun g => F.get3 g t p) (fun g _ _ => by rw [hF, wignerSum_planes])
  rw [h b i t p c i0 i1, eq_div_iff hne, mul_comm]
  refine Eq.trans ?_ (hg.symm.trans ?_)
  · congr 1
  · unfold ngamma
    rw [fft_eq]
    refine Finset.sum_congr rfl fun g _ => ?_
    rw [show -(g * -spins i) = spins i * g by ring, tw_gamma]

/-- Analysis on the sphere: if `fs[b, i, :, :, c]` samples the signal of spin `spins[i]` with
coefficients `ĉ b i c`, then `s2_to_wigner_subset` returns `ĉ`, up to the same factor. MWSS sampling
needs `L ≥ 2` (`C34_mwss_one`). -/
theorem C34_analysis (nodes : ℤ → ℤ → ℝ) (σ : Scheme) (hσ : σ = .mw ∨ σ = .mwss) (sampling : PyStr)
    (hs : lower sampling = σ.name) (L : ℤ) (hL : 1 ≤ L) (hL2 : σ = .mwss → 2 ≤ L)
    (method κ : PyStr) (P : FwTables) (hP : fourierWignerKernel κ L = .ok P) (B ns C : ℤ)
    (spins : ℤ → ℤ) (hsp : ∀ i, 0 ≤ i → i < ns → |spins i| < L)
    (ĉ : ℤ → ℤ → ℤ → ℤ → ℤ → ℂ) (fs : ℤ → ℤ → ℤ → ℤ → ℤ → ℂ)
    (hfs : ∀ b i t p c, 0 ≤ i → i < ns → 0 ≤ t → t < σ.rings L 0 → 0 ≤ p →
      p < 2 * L - 1 + σ.off → fs b i t p c
        = harmonicSum 0 L (spins i) (ĉ b i c) (σ.theta nodes L 0 t) (σ.phi L 0 t p)) :
    ∃ out, s2ToWignerSubset method ⟨[B, ns, σ.rings L 0, 2 * L - 1 + σ.off, C], fs⟩ ns spins P L
        sampling = .ok ⟨[B, ns, L, 2 * L - 1, C], out⟩ ∧
      ∀ b i l m c, 0 ≤ i → i < ns → 0 ≤ l → l < L → -L < m → m < L → out b i l (m + L - 1) c
        = if |spins i| ≤ l ∧ |m| ≤ l then
            (-1) ^ spins i * ĉ b i c l m * (√(16 * Real.pi ^ 3 / (2 * (l : ℝ) + 1)) : ℝ) else 0 := by
  obtain ⟨out, e, h⟩ := s2ToWignerSubset_coef method hσ hs hL hL2 (B := B) (C := C) fs spins hsp P
  refine ⟨out, e, fun b i l m c i0 i1 l0 l1 m0 m1 => ?_⟩
  rw [h b i l _ c i0 i1, subsetCoef_values nodes hσ hs hL (fun _ l m => (-1) ^ spins i * ĉ b i c l m
    * (√(16 * Real.pi ^ 3 / (2 * (l : ℝ) + 1)) : ℝ)) (-spins i) _ (fun t p t0 t1 p0 p1 => ?_)
    (fwKernel_tables hL hP) l0 l1 m0 m1, abs_neg]
  rw [hfs b i t p c i0 i1 t0 t1 p0 p1, wigPlane_harmonic le_rfl, neg_neg, neg_one_zpow_neg]
  unfold harmonicSum
  rw [Finset.mul_sum]
  refine Finset.sum_congr rfl fun l hl => ?_
  rw [Finset.mul_sum]
  refine Finset.sum_congr rfl fun m _ => ?_
  rw [Finset.mem_Ico] at hl
  have hl' : (0 : ℝ) ≤ l := by exact_mod_cast hl.1
  have hpi := Real.pi_pos
  have hsq : ((√(16 * Real.pi ^ 3 / (2 * (l : ℝ) + 1)) : ℝ) : ℂ)
      * (√((2 * (l : ℝ) + 1) / (16 * Real.pi ^ 3)) : ℝ) = 1 := by
    rw [← Complex.ofReal_mul, ← Real.sqrt_mul (by positivity),
      show 16 * Real.pi ^ 3 / (2 * (l : ℝ) + 1) * ((2 * (l : ℝ) + 1) / (16 * Real.pi ^ 3)) = 1 by
        field_simp, Real.sqrt_one, Complex.ofReal_one]
  have h1 := neg_one_zpow_sq (spins i)
  calc _ = 1 * 1 * (ĉ b i c l m * sYlm (spins i) l m _ _) := by ring
    _ = ((-1) ^ spins i * (-1) ^ spins i) * (((√(16 * Real.pi ^ 3 / (2 * (l : ℝ) + 1)) : ℝ) : ℂ)
      * (√((2 * (l : ℝ) + 1) / (16 * Real.pi ^ 3)) : ℝ)) * (ĉ b i c l m * sYlm (spins i) l m _ _) := by
        rw [h1, hsq]
    _ = _ := by ring

/-- Analysis on the rotation group is the slice of the full one, for every signal, band-limited or
not: the coefficients `so3_to_wigner_subset` returns for `spins[i]` are those the Fourier-Wigner
`forward` returns for the direction `n = -spins[i]`. -/
theorem C34_analysis_slice (σ : Scheme) (hσ : σ = .mw ∨ σ = .mwss) (s s' : PyStr)
    (hs : lower s = σ.name) (hs' : lower s' = σ.name) (L N : ℤ) (h1 : 1 ≤ N) (hN : N ≤ L)
    (hL2 : σ = .mwss → 2 ≤ L) (method μ κ : PyStr) (P : FwTables)
    (hP : fourierWignerKernel κ L = .ok P) (precomps : Option FwTables)
    (hP' : FwPrecomps L precomps) (B ns C N' : ℤ) (spins : ℤ → ℤ)
    (hsp : ∀ i, 0 ≤ i → i < ns → |spins i| < N) (f : ℤ → ℤ → ℤ → ℤ → ℤ → ℂ) :
    ∃ out, so3ToWignerSubset method ⟨[B, 2 * N - 1, σ.rings L 0, 2 * L - 1 + σ.off, C], f⟩ ns spins
        P L N' s = .ok ⟨[B, ns, L, 2 * L - 1, C], out⟩ ∧
      ∀ b c, ∃ g, fourierWignerForward μ (.d3 (2 * N - 1) (σ.rings L 0) (2 * L - 1 + σ.off)
          (fun k t p => f b k t p c)) L N precomps false s' = .ok (.d3 (2 * N - 1) L (2 * L - 1) g) ∧
        ∀ i l j, 0 ≤ i → i < ns → 0 ≤ l → l < L → 0 ≤ j → j < 2 * L - 1 →
          out b i l j c = g (N - 1 - spins i) l j := by
  have hL : 1 ≤ L := by omega
  unfold so3ToWignerSubset
  simp only
  obtain ⟨out, e, h⟩ := s2ToWignerSubset_coef method hσ hs hL hL2 (B := B) (C := C) (ns := ns)
    (fun b i t p c => (∑ g ∈ Finset.Ico 0 (2 * N - 1), f b g t p c
      * cis (-2 * Real.pi * ((g : ℝ) / (2 * N - 1 : ℤ) * (-spins i : ℤ)))) / ((2 * N - 1 : ℤ) : ℂ))
    spins (fun i i0 i1 => (hsp i i0 i1).trans_le hN) P
  refine ⟨out, e, fun b c => ?_⟩
  obtain ⟨g, eg, hg⟩ := fourierWignerForward_coef μ hσ hs' h1 hN hL2 (fun k t p => f b k t p c)
    (hP'.ok hL) (fwKernel_tables hL hP)
  refine ⟨g, eg, fun i l j i0 i1 l0 l1 _ _ => ?_⟩
  have hs1 := abs_lt.1 (hsp i i0 i1)
  have hg := hg (-spins i) l (j - L + 1) (by omega) (by omega) l0 l1
  rw [show j - L + 1 + L - 1 = j by ring, show N - 1 + -spins i = N - 1 - spins i by ring] at hg
  rw [h b i l j c i0 i1, hg]
  congr 1
  · funext t p
    exact so3_dft (fun g => f b g t p c) (spins i)
  · rw [hs, hs']

/-- From the samples of a Wigner expansion (in each batch and channel) `so3_to_wigner_subset`
recovers its coefficients in the directions asked for. -/
theorem C34_wigner_coefficients (nodes : ℤ → ℤ → ℝ) (σ : Scheme) (hσ : σ = .mw ∨ σ = .mwss)
    (s : PyStr) (hs : lower s = σ.name) (L N : ℤ) (h1 : 1 ≤ N) (hN : N ≤ L)
    (hL2 : σ = .mwss → 2 ≤ L) (method κ : PyStr) (P : FwTables)
    (hP : fourierWignerKernel κ L = .ok P) (B ns C N' : ℤ) (spins : ℤ → ℤ)
    (hsp : ∀ i, 0 ≤ i → i < ns → |spins i| < N) (ĉ : ℤ → ℤ → ℤ → ℤ → ℤ → ℂ)
    (f : ℤ → ℤ → ℤ → ℤ → ℤ → ℂ) (hf : ∀ b c, So3SamplesOf nodes σ L N 0 (fun g t p => f b g t p c)
      (wignerSum 0 L N (ĉ b c))) :
    ∃ out, so3ToWignerSubset method ⟨[B, 2 * N - 1, σ.rings L 0, 2 * L - 1 + σ.off, C], f⟩ ns spins
        P L N' s = .ok ⟨[B, ns, L, 2 * L - 1, C], out⟩ ∧
      ∀ b i l m c, 0 ≤ i → i < ns → 0 ≤ l → l < L → -L < m → m < L → out b i l (m + L - 1) c
        = if |spins i| ≤ l ∧ |m| ≤ l then ĉ b c (-spins i) l m else 0 := by
  obtain ⟨out, e, h⟩ := C34_analysis_slice σ hσ s s hs hs L N h1 hN hL2 method mNumpy κ P hP none
    (Or.inl rfl) B ns C N' spins hsp f
  refine ⟨out, e, fun b i l m c i0 i1 l0 l1 m0 m1 => ?_⟩
  obtain ⟨g, eg, hg⟩ := h b c
  obtain ⟨g', eg', hg'⟩ := C29_analysis_partial nodes σ hσ s hs L N h1 hN hL2 mNumpy (ĉ b c)
    (.d3 (2 * N - 1) (σ.rings L 0) (2 * L - 1 + σ.off) (fun k t p => f b k t p c))
    (by rw [fw_shape hσ]; rfl) (hf b c) false (fun h => nomatch h) none (Or.inl rfl)
  rw [eg] at eg'
  injection eg' with eg'
  injection eg' with _ _ _ eg'
  subst eg'
  have := hg' (-spins i) l m (by rw [abs_neg]; exact hsp i i0 i1) l0 l1 m0 m1
  rw [hg i l _ i0 i1 l0 l1 (by omega) (by omega), ← abs_neg (spins i), ← this,
    show N - 1 + -spins i = N - 1 - spins i by ring]

/-- The round trip: either implementation in either direction, with repeated spins or not. -/
theorem C34_round_trip (σ : Scheme) (hσ : σ = .mw ∨ σ = .mwss) (s s' : PyStr)
    (hs : lower s = σ.name) (hs' : lower s' = σ.name) (L : ℤ) (hL : 1 ≤ L)
    (hL2 : σ = .mwss → 2 ≤ L) (μ ν κ κ' : PyStr) (P P' : FwTables)
    (hP : fourierWignerKernel κ L = .ok P) (hP' : fourierWignerKernel κ' L = .ok P') (B ns C : ℤ)
    (spins : ℤ → ℤ) (hsp : ∀ i, 0 ≤ i → i < ns → |spins i| < L)
    (flmn : ℤ → ℤ → ℤ → ℤ → ℤ → ℂ) :
    ∃ f out, wignerSubsetToS2 μ ⟨[B, ns, L, 2 * L - 1, C], flmn⟩ ns spins P L s = .ok f ∧
      s2ToWignerSubset ν f ns spins P' L s' = .ok ⟨[B, ns, L, 2 * L - 1, C], out⟩ ∧
      ∀ b i l m c, 0 ≤ i → i < ns → 0 ≤ l → l < L → -L < m → m < L → out b i l (m + L - 1) c
        = if |spins i| ≤ l ∧ |m| ≤ l then flmn b i l (m + L - 1) c else 0 := by
  obtain ⟨f, e, h⟩ := wignerSubsetToS2_values (fun _ _ => 0) μ hσ hs hL (B := B) (C := C) flmn spins
    hsp (fwKernel_tables hL hP)
  obtain ⟨out, e', h'⟩ := s2ToWignerSubset_coef ν hσ hs' hL hL2 (B := B) (C := C) f spins hsp P'
  refine ⟨_, out, e, e', fun b i l m c i0 i1 l0 l1 m0 m1 => ?_⟩
  rw [h' b i l _ c i0 i1, subsetCoef_values (fun _ _ => 0) hσ hs' hL
    (fun _ l m => flmn b i l (m + L - 1) c) (-spins i) _ (fun t p _ _ _ _ => h b i t p c i0 i1)
    (fwKernel_tables hL hP') l0 l1 m0 m1, abs_neg]

/-- The hypotheses are met, e.g. by MWSS sampling with `L = 8`, `N = 4`, named "MwSS", and the spins
`-3, 2, 2, 0` (and a non-zero spin-2 signal). -/
example : lower "MwSS".toList = Scheme.mwss.name ∧ (∃ P, fourierWignerKernel mJax 8 = .ok P) ∧
    (∀ i : ℤ, 0 ≤ i → i < 4 → |(if i = 0 then -3 else if i < 3 then 2 else 0 : ℤ)| < 4) ∧
    ∃ f : ℤ → ℤ → ℤ → ℤ → ℤ → ℂ, ∀ b c, So3SamplesOf (fun _ _ => 0) .mwss 8 4 0
      (fun g t p => f b g t p c) (wignerSum 0 8 4 (fun n l m => if n = -2 then 1 else l + m)) := by
  refine ⟨by decide, ?_, ?_, fun _ g t p _ => wignerSum 0 8 4 (fun n l m => if n = -2 then 1 else l + m)
    (Scheme.mwss.phi 8 0 t p) (Scheme.mwss.theta (fun _ _ => 0) 8 0 t) (gammaAt 4 g), ?_⟩
  · obtain ⟨P, e, -⟩ := fourierWignerKernel_ok mJax (show (1 : ℤ) ≤ 8 by norm_num)
    exact ⟨P, e⟩
  · intro i _ _; split_ifs <;> norm_num
  · intro b c g t p _ _ _
    rw [equi_pos (by decide)]

/-! ## Refusals -/

/-- Other sampling schemes, and lists of spins of the wrong length, are refused. -/
theorem C34_refused (method : PyStr) (a : Nd5 ℂ) (ns : ℤ) (spins : ℤ → ℤ) (P : FwTables) (L N : ℤ)
    (s : PyStr) :
    (lower s ≠ sMW → lower s ≠ sMWSS →
      wignerSubsetToS2 method a ns spins P L s = .error .valueError ∧
      s2ToWignerSubset method a ns spins P L s = .error .valueError ∧
      so3ToWignerSubset method a ns spins P L N s = .error .valueError) ∧
    (∀ B n l m C, a.shape = [B, n, l, m, C] → n ≠ ns →
      wignerSubsetToS2 method a ns spins P L s = .error .valueError ∧
      s2ToWignerSubset method a ns spins P L s = .error .valueError) := by
  constructor
  · intro h h'
    have hn : ¬ fwSupported s := by unfold fwSupported; exact not_or.2 ⟨h, h'⟩
    have h2 : ∀ a, s2ToWignerSubset method a ns spins P L s = .error .valueError := by
      intro a; unfold s2ToWignerSubset; rw [if_pos hn]
    refine ⟨by unfold wignerSubsetToS2; rw [if_pos hn], h2 a, ?_⟩
    unfold so3ToWignerSubset
    split
    · exact h2 _
    · rfl
  · intro B n l m C ha hne
    constructor
    · unfold wignerSubsetToS2
      by_cases hn : fwSupported s
      · rw [if_neg (not_not.2 hn), ha]; simp only; rw [if_pos hne]
      · rw [if_pos hn]
    · unfold s2ToWignerSubset
      by_cases hn : fwSupported s
      · rw [if_neg (not_not.2 hn), ha]; simp only; rw [if_pos (Or.inl hne)]
      · rw [if_pos hn]

/-- MWSS sampling with `L = 1` is refused by the analysis, as by the full one (`C29_mwss_one`). -/
theorem C34_mwss_one (method : PyStr) (a : Nd5 ℂ) (ns : ℤ) (spins : ℤ → ℤ) (P : FwTables) (N : ℤ)
    (s : PyStr) (hs : lower s = sMWSS) :
    s2ToWignerSubset method a ns spins P 1 s = .error .valueError ∧
      so3ToWignerSubset method a ns spins P 1 N s = .error .valueError := by
  have h2 : ∀ a, s2ToWignerSubset method a ns spins P 1 s = .error .valueError := by
    intro a
    unfold s2ToWignerSubset
    rw [if_neg (not_not.2 (show fwSupported s from Or.inr hs))]
    split
    · simp only
      split_ifs <;> first | rfl | omega
    · rfl
  refine ⟨h2 a, ?_⟩
  unfold so3ToWignerSubset
  split
  · exact h2 _
  · rfl

/-! ## Documentation that does not match -/

/-- The documentation of `so3_to_wigner_subset` allows spins with `|spin| ≤ N ≤ L`. With `spin = -L`
NumPy refuses every array of coefficients. -/
theorem C34_spin_limit (σ : Scheme) (hσ : σ = .mw ∨ σ = .mwss) (s : PyStr)
    (hs : lower s = σ.name) (L : ℤ) (P : FwTables) (B C : ℤ)
    (flmn : ℤ → ℤ → ℤ → ℤ → ℤ → ℂ) :
    wignerSubsetToS2 mNumpy ⟨[B, 1, L, 2 * L - 1, C], flmn⟩ 1 (fun _ => -L) P L s
      = .error .indexError := by
  have hc : subsetColumns mNumpy L 1 (fun _ => -L) = .error .indexError := by
    unfold subsetColumns
    dsimp only
    rw [if_pos rfl, if_neg]
    intro h
    have := (h 0 (by simp)).2
    omega
  unfold wignerSubsetToS2
  rw [if_neg (not_not.2 (fw_supported hσ hs))]
  simp only [bind, Except.bind, hc, ne_eq, not_true, if_false]

/-- With `spin = L` the index of the column is negative and counts from the end, in either
implementation. Here `L = 1`: the coefficient of degree zero, which no signal of spin one has,
contributes. -/
theorem C34_spin_limit_wraps (method κ : PyStr) (P : FwTables)
    (hP : fourierWignerKernel κ 1 = .ok P) :
    ∃ out, wignerSubsetToS2 method ⟨[1, 1, 1, 1, 1], fun _ _ _ _ _ => 1⟩ 1 (fun _ => 1) P 1 sMW
        = .ok ⟨[1, 1, 1, 1, 1], out⟩ ∧ out 0 0 0 0 0 ≠ 0 ∧
      ∀ c θ φ, harmonicSum 0 1 1 c θ φ = 0 := by
  have hd0 : P.delta 0 0 0 = 1 := by
    have := (fwKernel_tables le_rfl hP).1 0 0 0 le_rfl one_pos
    rw [show (0 : ℤ) + 1 - 1 = 0 by ring] at this
    rw [this, wignerd_zero]
  have h01 : Finset.Ico (0 : ℤ) 1 = {0} := by decide
  have hc : ∃ cols, subsetColumns method 1 1 (fun _ => 1) = .ok cols ∧ cols 0 = 0 := by
    unfold subsetColumns
    dsimp only
    by_cases h1 : method = mNumpy
    · rw [if_pos h1, if_pos (fun i _ => by norm_num)]
      exact ⟨_, rfl, by norm_num⟩
    · rw [if_neg h1]
      exact ⟨_, rfl, by unfold jaxGet; norm_num⟩
  obtain ⟨cols, ec, hc⟩ := hc
  unfold wignerSubsetToS2
  rw [if_neg (by decide)]
  simp only [ec, bind, Except.bind, ne_eq, not_true, if_false]
  rw [if_neg (by norm_num)]
  refine ⟨_, rfl, ?_, fun c θ φ => ?_⟩
  · have hs : fwSize 1 sMW = 1 := by decide
    have ht : fwOffset sMW = 0 := by decide
    have hpi : (Real.pi : ℂ) ≠ 0 := by exact_mod_cast Real.pi_ne_zero
    simp [hs, ht, ifft_fwd, ifftshift, h01, hc, hd0, cis, hpi]
  · unfold harmonicSum
    rw [h01, Finset.sum_singleton]
    refine Finset.sum_eq_zero fun m _ => ?_
    unfold sYlm
    rw [wignerd_outside 0 m (-1) θ (Or.inr (by norm_num))]
    simp

/-- The documentation calls the arguments of `wigner_subset_to_s2` spin spherical harmonic
coefficients, but they are not scaled as those of the spherical transforms: for `L = 1` and a
coefficient one the signal is `1 / 8π²`, not `Y_00 = 1 / √(4π)`. -/
theorem C34_not_harmonic (method κ : PyStr) (P : FwTables) (hP : fourierWignerKernel κ 1 = .ok P) :
    ∃ out, wignerSubsetToS2 method ⟨[1, 1, 1, 1, 1], fun _ _ _ _ _ => 1⟩ 1 (fun _ => 0) P 1 sMW
        = .ok ⟨[1, 1, 1, 1, 1], out⟩ ∧ out 0 0 0 0 0 = 1 / (8 * Real.pi ^ 2) ∧
      ∀ θ φ, out 0 0 0 0 0 ≠ harmonicSum 0 1 0 (fun _ _ => 1) θ φ := by
  obtain ⟨out, e, h⟩ := wignerSubsetToS2_values (fun _ _ => 0) method (σ := .mw) (Or.inl rfl)
    (s := sMW) (by decide) le_rfl (B := 1) (ns := 1) (C := 1) (fun _ _ _ _ _ => 1) (fun _ => 0)
    (fun _ _ _ => by norm_num) (fwKernel_tables le_rfl hP)
  have h01 : Finset.Ico (0 : ℤ) 1 = {0} := by decide
  have hv : out 0 0 0 0 0 = 1 / (8 * Real.pi ^ 2) := by
    rw [h 0 0 0 0 0 le_rfl one_pos]
    unfold wigPlane
    simp [h01, wignerd_zero, cis]
  refine ⟨out, e, hv, fun θ φ hc => ?_⟩
  rw [hv] at hc
  have hY : harmonicSum 0 1 0 (fun _ _ => 1) θ φ = ((√(1 / (4 * Real.pi)) : ℝ) : ℂ) := by
    unfold harmonicSum sYlm
    simp [h01, wignerd_zero, cis]
  rw [hY] at hc
  have hc : 1 / (8 * Real.pi ^ 2) = √(1 / (4 * Real.pi)) := by exact_mod_cast hc
  have hp := Real.pi_pos
  have h3 := Real.pi_gt_three
  have hsq : (1 / (8 * Real.pi ^ 2)) ^ 2 = 1 / (4 * Real.pi) := by
    rw [hc, Real.sq_sqrt (by positivity)]
  have h16 : 16 * Real.pi ^ 3 = 1 := by
    field_simp at hsq
    nlinarith [hsq]
  nlinarith [pow_pos hp 2, pow_pos hp 3, mul_pos hp hp]

end S2fft
