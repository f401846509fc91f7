import Verif.Lemmas.RefineReal
import Verif.Props.C31Refines

/-!
# C21, C31: refinement of real signals

With `iter` refinements the reality flag is still only an optimisation: for real samples on the grids
that are not resampled it changes no coefficient, however many refinements are made. So the refined
analysis of a real signal with the flag converges as it does without.
-/

namespace S2fft
open Spec

theorem coeffs_symm {c : ℤ → ℤ → ℂ} {L lo : ℤ} (hc : RealSymm c L) (h0 : 0 ≤ lo) (r : Bool)
    (x y : ℝ) : harmonicSum lo L 0 (coeffs c L 0 r) x y
      = harmonicSum lo L 0 (fun l m => c l (m + L - 1)) x y := by
  have : coeffs c L 0 false = fun l m => c l (m + L - 1) := by
    unfold coeffs
    simp
  cases r with
  | true => rw [coeffs_realSymm hc h0, this]
  | false => rw [this]

/-- Real samples on a grid that is not resampled. -/
theorem realSamples_input (nodes : ℤ → ℤ → ℝ) {σ : Scheme} (hσ : σ = .dh ∨ σ = .gl ∨ σ = .healpix)
    {L ns : ℤ} {f : Nd ℂ} (h : RealSamples σ L ns f) : RealInput nodes σ L ns f.get2 := by
  unfold RealInput
  rw [if_neg (by rcases hσ with rfl | rfl | rfl <;> decide)]
  exact h

section
variable (G : GlTables) (σ : Scheme) (hσ : σ = .dh ∨ σ = .gl ∨ σ = .healpix) (L lo : ℤ)
  (nside : Option ℤ)

include hσ in
theorem base_real (hv : σ.Valid L (nside.getD 0)) (hhp : σ = .healpix → 2 * nside.getD 0 ≤ L)
    (h0 : 0 ≤ lo) (h1 : lo < L) (reality : Bool) :
    RealPair σ L (nside.getD 0) lo
      (fun t => snapAngle (σ.theta G.nodes L (nside.getD 0) t)) (innerWeight G σ L (nside.getD 0))
      (fun c => baseInverseWith G c L 0 σ.name bVec nside reality lo)
      (fun x => baseForwardWith G x L 0 σ.name bVec nside reality lo) := by
  have hR := plain_scheme σ hσ
  constructor
  · intro c hc
    obtain ⟨F, e, hs, h⟩ := baseInverse_snapped G σ L 0 lo nside hv bVec (by simp) (fun _ => hhp)
      h0 h1 c reality (fun _ => realSymm_zero hc h0 reality)
    refine ⟨F, e, hs, fun t p ht => ?_⟩
    rw [h t p ht, coeffs_symm hc h0]
  · intro f hf hre
    have hre' := realInput_rings hv.1 (realSamples_input G.nodes hσ hre)
    obtain ⟨g, e, hg, hz⟩ := baseForwardWith_values G (lower_name σ) (method := bVec) (by simp [baseMethods])
      (fun _ h => by rw [h]; rfl) (spin := 0) hv (fun _ => hhp) f hf reality h0 h1
      (fun _ _ _ => hre')
    refine ⟨g, e, fun el m a b c d => ?_⟩
    have hst : elStart lo 0 = max |(0 : ℤ)| lo := max_comm _ _
    split_ifs with h
    · exact hz el _ (by omega)
    · rw [hg el m (by omega) b c d, ← fAt_snap, plain_theta hR,
        symm_plain hR (fun _ => rfl) (fun _ => hre')]

include hσ in
/-- Base `forward` with `iter` refinements: for real samples the flag does not change the result. -/
theorem C21_base_refined (hv : σ.Valid L (nside.getD 0)) (hhp : σ = .healpix → 2 * nside.getD 0 ≤ L)
    (h0 : 0 ≤ lo) (h1 : lo < L) (f : Nd ℂ) (hf : f.shape = σ.shape L (nside.getD 0))
    (hre : RealSamples σ L (nside.getD 0) f) (n : ℕ) :
    ∃ a b, baseForward G f L 0 σ.name nside true lo n = .ok (.d2 L (2 * L - 1) a) ∧
      baseForward G f L 0 σ.name nside false lo n = .ok (.d2 L (2 * L - 1) b) ∧ RealSymm a L ∧
      ∀ el j, 0 ≤ el → el < L → 0 ≤ j → j < 2 * L - 1 → a el j = b el j := by
  have := (base_real G σ hσ L lo nside hv hhp h0 h1 true).refine_agree
    (base_real G σ hσ L lo nside hv hhp h0 h1 false) hv h0 hf hre n
  rw [refine_iter, refine_iter f n fun x => baseForwardWith G x L 0 σ.name bVec nside false lo] at this
  exact this

include hσ in
/-- So the refinements with the flag lead to the nearest synthesized signal. -/
theorem C31_base_refines_real (hv : σ.Valid L (nside.getD 0))
    (hhp : σ = .healpix → 2 * nside.getD 0 ≤ L) (hgl : σ = .gl → SamplingTheorem G .gl L)
    (h0 : 0 ≤ lo) (h1 : lo < L) (δ : ℝ) (hδ : 0 ≤ δ) (hδ' : δ < 1)
    (htrip : RoundTripWithin L lo δ (fun c => baseInverse G c L 0 σ.name nside false lo)
      (fun x => baseForward G x L 0 σ.name nside false lo 0))
    (f : Nd ℂ) (hf : f.shape = σ.shape L (nside.getD 0)) (hre : RealSamples σ L (nside.getD 0) f) :
    ∃ w, quad_weights G.weights (some L) σ.name 0 nside = .ok (σ.rings L (nside.getD 0), w) ∧
      Refines σ L (nside.getD 0) w lo δ (fun c => baseInverse G c L 0 σ.name nside false lo) f
        (fun n => baseForward G f L 0 σ.name nside true lo n) := by
  have hm : max |(0 : ℤ)| lo = lo := by rw [abs_zero]; exact max_eq_right h0
  obtain ⟨w, e, h⟩ := C31_base_refines G σ hσ L 0 lo nside hv hhp hgl h0 h1 false (by rintro ⟨⟩) δ hδ
    hδ' (by rwa [hm]) f hf
  obtain rfl : innerWeight G σ L (nside.getD 0) = w := by
    have := (quad_weights_plain G (plain_scheme σ hσ) 0 hv).symm.trans e
    injection this with this
    exact (Prod.mk.inj this).2
  refine ⟨_, e, ?_⟩
  have := Refines.of_agree (r' := fun n => baseForward G f L 0 σ.name nside true lo n)
    (base_pair G σ hσ L 0 lo nside hv hhp h0 h1 false (by rintro ⟨⟩)) hv h0 h fun n => by
      obtain ⟨a, b, ea, eb, -, hab⟩ := C21_base_refined G σ hσ L lo nside hv hhp h0 h1 f hf hre n
      exact ⟨b, a, eb, ea, fun el j p q r s => (hab el j p q r s).symm⟩
  rwa [hm] at this

include hσ in
theorem precompute_real (hv : σ.Valid L (nside.getD 0))
    (method : PyStr) (hmt : method ∈ [mNumpy, mJax, mTorch])
    (hhp : σ = .healpix → 2 * nside.getD 0 ≤ L ∧ (method ≠ mNumpy → 2 ≤ nside.getD 0))
    (κ ρ : PyStr) (hρ : RecursionOk L 0 ρ) (hρ' : RecursionOk L 0 rAuto)
    (hex : KernelExact G.nodes σ L (nside.getD 0) 0 true κ ρ)
    (hex' : KernelExact G.nodes σ L (nside.getD 0) 0 false method rAuto)
    (reality : Bool) (kernel : Option (Nd ℂ))
    (hk : KernelArg G L 0 reality σ.name nside true method κ ρ kernel) :
    RealPair σ L (nside.getD 0) 0
      (fun t => σ.theta G.nodes L (nside.getD 0) t) (innerWeight G σ L (nside.getD 0))
      (fun c => precomputeInverseTop G c L 0 none σ.name reality method nside)
      (fun x => precomputeForwardTop G x L 0 kernel σ.name reality method nside 0) := by
  have hR := plain_scheme σ hσ
  obtain ⟨K, ek, hK⟩ := getKernel_ok G hv reality true hρ hex hk
  constructor
  · intro c hc
    obtain ⟨F, e, hs, h⟩ := C27_expansion G σ L 0 nside hv (fun h => (hhp h).1) method rAuto hρ'
      hex' method hmt c reality (realSymm_zero hc le_rfl reality) none (Or.inr ⟨rfl, rfl, rfl⟩)
    refine ⟨F, e, hs, fun t p ht => ?_⟩
    rw [h t p ht, coeffs_symm hc le_rfl]
  · intro x hx hre
    have hin := realSamples_input G.nodes hσ hre
    obtain ⟨g, e, hg⟩ := precomputeForwardTop_values hmt G hv hhp x hx reality
      (fun _ _ => hin) hK ek
    refine ⟨g, e, fun el m a b c d => ?_⟩
    rw [hg el m a b c d, symm_realRings (realInput_rings hv.1 hin), plain_inner hR, plain_signal hR,
      plain_rings hR,
      show kTheta G.nodes σ L (nside.getD 0) true = fun t => σ.theta G.nodes L (nside.getD 0) t from
        plain_theta hR _ _ _]
    rw [if_neg (by rw [abs_zero, max_self]; omega)]
    rfl

include hσ in
/-- Precompute `forward` with `iter` refinements, with a kernel made for each value of the flag or
with none. -/
theorem C21_precompute_refined (hv : σ.Valid L (nside.getD 0))
    (method : PyStr) (hmt : method ∈ [mNumpy, mJax, mTorch])
    (hhp : σ = .healpix → 2 * nside.getD 0 ≤ L ∧ (method ≠ mNumpy → 2 ≤ nside.getD 0))
    (κ ρ κ' ρ' : PyStr) (hρ : RecursionOk L 0 ρ) (hρ' : RecursionOk L 0 ρ')
    (hauto : RecursionOk L 0 rAuto)
    (hex : KernelExact G.nodes σ L (nside.getD 0) 0 true κ ρ)
    (hex' : KernelExact G.nodes σ L (nside.getD 0) 0 true κ' ρ')
    (hexa : KernelExact G.nodes σ L (nside.getD 0) 0 false method rAuto)
    (K K' : Option (Nd ℂ)) (hk : KernelArg G L 0 true σ.name nside true method κ ρ K)
    (hk' : KernelArg G L 0 false σ.name nside true method κ' ρ' K')
    (f : Nd ℂ) (hf : f.shape = σ.shape L (nside.getD 0)) (hre : RealSamples σ L (nside.getD 0) f)
    (n : ℕ) :
    ∃ a b, precomputeForwardTop G f L 0 K σ.name true method nside n = .ok (.d2 L (2 * L - 1) a) ∧
      precomputeForwardTop G f L 0 K' σ.name false method nside n = .ok (.d2 L (2 * L - 1) b) ∧
      RealSymm a L ∧ ∀ el j, 0 ≤ el → el < L → 0 ≤ j → j < 2 * L - 1 → a el j = b el j := by
  rw [precomputeForwardTop_refine hv hmt hρ hauto hex hexa true hk f n,
    precomputeForwardTop_refine hv hmt hρ' hauto hex' hexa false hk' f n]
  exact (precompute_real G σ hσ L nside hv method hmt hhp κ ρ hρ hauto hex hexa true K hk).refine_agree
    (precompute_real G σ hσ L nside hv method hmt hhp κ' ρ' hρ' hauto hex' hexa false K' hk') hv le_rfl
    hf hre n

include hσ in
/-- So its refinements with the flag lead to the nearest synthesized signal. -/
theorem C31_precompute_refines_real (hv : σ.Valid L (nside.getD 0))
    (method : PyStr) (hmt : method ∈ [mNumpy, mJax, mTorch])
    (hhp : σ = .healpix → 2 * nside.getD 0 ≤ L ∧ (method ≠ mNumpy → 2 ≤ nside.getD 0))
    (hgl : σ = .gl → SamplingTheorem G .gl L)
    (κ ρ : PyStr) (hρ : RecursionOk L 0 ρ) (hauto : RecursionOk L 0 rAuto)
    (hex : KernelExact G.nodes σ L (nside.getD 0) 0 true κ ρ)
    (hexf : KernelExact G.nodes σ L (nside.getD 0) 0 true method rAuto)
    (hexa : KernelExact G.nodes σ L (nside.getD 0) 0 false method rAuto)
    (K : Option (Nd ℂ)) (hk : KernelArg G L 0 true σ.name nside true method κ ρ K)
    (δ : ℝ) (hδ : 0 ≤ δ) (hδ' : δ < 1)
    (htrip : RoundTripWithin L 0 δ
      (fun c => precomputeInverseTop G c L 0 none σ.name false method nside)
      (fun x => precomputeForwardTop G x L 0 none σ.name false method nside 0))
    (f : Nd ℂ) (hf : f.shape = σ.shape L (nside.getD 0)) (hre : RealSamples σ L (nside.getD 0) f) :
    ∃ w, quad_weights G.weights (some L) σ.name 0 nside = .ok (σ.rings L (nside.getD 0), w) ∧
      Refines σ L (nside.getD 0) w 0 δ
        (fun c => precomputeInverseTop G c L 0 none σ.name false method nside) f
        (fun n => precomputeForwardTop G f L 0 K σ.name true method nside n) := by
  have hm : max |(0 : ℤ)| 0 = 0 := by simp
  have hk' : KernelArg G L 0 false σ.name nside true method method rAuto none :=
    Or.inr ⟨rfl, rfl, rfl⟩
  obtain ⟨w, e, h⟩ := C31_precompute_refines G σ hσ L 0 nside hv method hmt hhp hgl method rAuto hauto
    hauto hexf hexa false (by rintro ⟨⟩) none hk' δ hδ hδ' (by rwa [abs_zero]) f hf
  obtain rfl : innerWeight G σ L (nside.getD 0) = w := by
    have := (quad_weights_plain G (plain_scheme σ hσ) 0 hv).symm.trans e
    injection this with this
    exact (Prod.mk.inj this).2
  refine ⟨_, e, ?_⟩
  rw [abs_zero, ← hm] at h
  have := Refines.of_agree (r' := fun n => precomputeForwardTop G f L 0 K σ.name true method nside n)
    (precompute_pair G σ hσ L 0 nside hv method hmt hhp method rAuto hauto
    hauto hexf hexa false (by rintro ⟨⟩) none hk') hv le_rfl h fun n => by
      obtain ⟨a, b, ea, eb, -, hab⟩ := C21_precompute_refined G σ hσ L nside hv method hmt hhp κ ρ
        method rAuto hρ hauto hauto hex hexf hexa K none hk hk' f hf hre n
      exact ⟨b, a, eb, ea, fun el j p q r s => (hab el j p q r s).symm⟩
  rwa [hm] at this

end

section
variable (B : Backends) (G : Machine) (σ : Scheme) (hσ : σ = .dh ∨ σ = .gl ∨ σ = .healpix)
  (L lo : ℤ) (nside : Option ℤ)

include hσ in
theorem otf_real (hv : σ.Valid L (nside.getD 0)) (method : PyStr)
    (hmt : method ∈ [mNumpy, mJax, mTorch])
    (hhp : σ = .healpix → 2 * nside.getD 0 ≤ L ∧ (method ≠ mNumpy → 2 ≤ nside.getD 0))
    (hlo : LowerOk method L lo) (reality : Bool) (precomps : Option PmPre)
    (hP : PrecompsArg G L 0 σ.name nside true precomps)
    (hreg : OtfRegular G σ L (nside.getD 0) 0 false)
    (hreg' : OtfRegular G σ L (nside.getD 0) 0 true) (k : ℤ) :
    RealPair σ L (nside.getD 0) lo
      (fun t => G.rnd (σ.theta G.nodes L (nside.getD 0) t)) (innerWeight G.toGlTables σ L (nside.getD 0))
      (fun c => sphericalInverse B G c L 0 nside σ.name method reality none lo k)
      (fun x => sphericalForward B G x L 0 nside σ.name method reality precomps lo (some 0) k) := by
  have hR := plain_scheme σ hσ
  have hL := hv.1
  constructor
  · intro c hc
    obtain ⟨F, e, hs, h⟩ := C39_expansion_partial B G σ L 0 lo nside hv (fun h => (hhp h).1) method
      hmt (by rw [abs_zero]; omega) (by norm_num) hlo c
      (fun el k a b => absurd b (by have := hlo.1; rw [abs_zero]; omega)) reality (fun _ => rfl)
      (realSymm_zero hc hlo.1 reality) none (Or.inl rfl) hreg k
    refine ⟨F, e, hs, fun t p ht => ?_⟩
    rw [h t p ht, coeffs_symm hc hlo.1]
  · intro x hx hre
    have hre' := realInput_rings hv.1 (realSamples_input G.nodes hσ hre)
    obtain ⟨g, e, hg⟩ := sphericalForward_values B G σ L 0 lo nside hv method hmt hhp
      (by rw [abs_zero]; omega) (by norm_num) hlo x hx reality (fun _ => hre') precomps hP hreg'
      (some 0) (Or.inr rfl) k
    refine ⟨g, e, fun el m a b c d => ?_⟩
    have : G.inner σ L (nside.getD 0) = fun t => G.rnd (σ.theta G.nodes L (nside.getD 0) t) := by
      funext t
      unfold Machine.inner
      rw [plain_theta hR]
    rw [hg el m a b c d, symm_plain hR (fun _ => rfl) (fun _ => hre'), this]

include hσ in
/-- On-the-fly `forward` with `iter` refinements. -/
theorem C21_otf_refined (hv : σ.Valid L (nside.getD 0)) (method : PyStr)
    (hmt : method ∈ [mNumpy, mJax, mTorch])
    (hhp : σ = .healpix → 2 * nside.getD 0 ≤ L ∧ (method ≠ mNumpy → 2 ≤ nside.getD 0))
    (hlo : LowerOk method L lo) (p q : Option PmPre)
    (hp : PrecompsArg G L 0 σ.name nside true p) (hq : PrecompsArg G L 0 σ.name nside true q)
    (hreg : OtfRegular G σ L (nside.getD 0) 0 false)
    (hreg' : OtfRegular G σ L (nside.getD 0) 0 true) (k : ℤ)
    (f : Nd ℂ) (hf : f.shape = σ.shape L (nside.getD 0)) (hre : RealSamples σ L (nside.getD 0) f)
    (n : ℕ) :
    ∃ a b, sphericalForward B G f L 0 nside σ.name method true p lo (some n) k
        = .ok (.d2 L (2 * L - 1) a) ∧
      sphericalForward B G f L 0 nside σ.name method false q lo (some n) k
        = .ok (.d2 L (2 * L - 1) b) ∧
      RealSymm a L ∧ ∀ el j, 0 ≤ el → el < L → 0 ≤ j → j < 2 * L - 1 → a el j = b el j := by
  rw [sphericalForward_refine B G L 0 lo nside f σ.name hmt (by norm_num) true p k n,
    sphericalForward_refine B G L 0 lo nside f σ.name hmt (by norm_num) false q k n]
  exact (otf_real B G σ hσ L lo nside hv method hmt hhp hlo true p hp hreg hreg' k).refine_agree
    (otf_real B G σ hσ L lo nside hv method hmt hhp hlo false q hq hreg hreg' k) hv hlo.1 hf hre n

include hσ in
/-- So its refinements with the flag lead to the nearest synthesized signal. On HEALPix grids three
refinements are made unless the caller says otherwise. -/
theorem C31_otf_refines_real (hv : σ.Valid L (nside.getD 0)) (method : PyStr)
    (hmt : method ∈ [mNumpy, mJax, mTorch])
    (hhp : σ = .healpix → 2 * nside.getD 0 ≤ L ∧ (method ≠ mNumpy → 2 ≤ nside.getD 0))
    (hgl : σ = .gl → SamplingTheorem G.toGlTables .gl L)
    (hlo : LowerOk method L lo) (p : Option PmPre) (hp : PrecompsArg G L 0 σ.name nside true p)
    (hreg : OtfRegular G σ L (nside.getD 0) 0 false)
    (hreg' : OtfRegular G σ L (nside.getD 0) 0 true) (k : ℤ)
    (δ : ℝ) (hδ : 0 ≤ δ) (hδ' : δ < 1)
    (htrip : RoundTripWithin L lo δ
      (fun c => sphericalInverse B G c L 0 nside σ.name method false none lo k)
      (fun x => sphericalForward B G x L 0 nside σ.name method false p lo (some 0) k))
    (f : Nd ℂ) (hf : f.shape = σ.shape L (nside.getD 0)) (hre : RealSamples σ L (nside.getD 0) f) :
    ∃ w, quad_weights G.weights (some L) σ.name 0 nside = .ok (σ.rings L (nside.getD 0), w) ∧
      Refines σ L (nside.getD 0) w lo δ
        (fun c => sphericalInverse B G c L 0 nside σ.name method false none lo k) f
        (fun n => sphericalForward B G f L 0 nside σ.name method true p lo (some n) k) := by
  have hL := hv.1
  have hsp : |(0 : ℤ)| < L := by rw [abs_zero]; omega
  have hm : max |(0 : ℤ)| lo = lo := by rw [abs_zero]; exact max_eq_right hlo.1
  obtain ⟨w, e, h⟩ := C31_otf_refines B G σ hσ L 0 lo nside hv method hmt hhp hgl hsp (by norm_num)
    hlo false rfl p hp hreg hreg' k δ hδ hδ' (by rwa [hm]) f hf
  obtain rfl : innerWeight G.toGlTables σ L (nside.getD 0) = w := by
    have := (quad_weights_plain G.toGlTables (plain_scheme σ hσ) 0 hv).symm.trans e
    injection this with this
    exact (Prod.mk.inj this).2
  refine ⟨_, e, ?_⟩
  have := Refines.of_agree
    (r' := fun n => sphericalForward B G f L 0 nside σ.name method true p lo (some n) k)
    (otf_pair B G σ hσ L 0 lo nside hv method hmt hhp hsp (by norm_num) hlo p hp
      hreg hreg' k) hv hlo.1 h fun n => by
      obtain ⟨a, b, ea, eb, -, hab⟩ := C21_otf_refined B G σ hσ L lo nside hv method hmt hhp hlo p p hp
        hp hreg hreg' k f hf hre n
      exact ⟨b, a, eb, ea, fun el j p q r s => (hab el j p q r s).symm⟩
  rwa [hm] at this

end

/-- Real samples of the smallest HEALPix grid, refined three times with the flag: within `(1/9)^4` of
the coefficients of the nearest synthesized signal. -/
example (G : GlTables) (f : ℤ → ℝ) :
    ∃ w, quad_weights G.weights (some 2) sHP 0 (some 1) = .ok (3, w) ∧
      Refines .healpix 2 1 w 0 (1 / 9) (fun c => baseInverse G c 2 0 sHP (some 1) false 0)
        (.d1 12 fun i => f i) (fun n => baseForward G (.d1 12 fun i => f i) 2 0 sHP (some 1) true 0 n) :=
  C31_base_refines_real G .healpix (Or.inr (Or.inr rfl)) 2 0 (some 1)
    ⟨by norm_num, fun _ => by norm_num⟩ (fun _ => by norm_num) (by rintro ⟨⟩) le_rfl (by norm_num)
    (1 / 9) (by norm_num) (by norm_num) (C31_healpix_round_trip G) _ rfl (by
      intro t p _
      exact Complex.ofReal_im _)

end S2fft
