import Verif.Lemmas.Refinement
import Verif.Props.C31
import Verif.Props.C53

/-!
# C31: where refinement leads

On the grids whose samples are used as they are (`dh`, `gl`, `healpix`), when a plain round trip
changes coefficients by at most a fraction `δ < 1`, the refined analysis of *any* samples converges to
the coefficients of the nearest synthesized signal, by a factor `δ` per iteration. HEALPix sampling has
no exact rule, so there the limit differs from the analysis without refinement.
-/

namespace S2fft
open Spec

/-- The weights of the grids that are not resampled are positive. -/
theorem plain_weight_pos (G : GlTables) {σ : Scheme} (hσ : σ = .dh ∨ σ = .gl ∨ σ = .healpix)
    {L ns : ℤ} (hv : σ.Valid L ns) (hS : σ = .gl → SamplingTheorem G .gl L) :
    ∀ t, 0 ≤ t → t < σ.rings L ns → 0 < innerWeight G σ L ns t := by
  rcases hσ with rfl | rfl | rfl
  · exact innerWeight_pos G (Or.inl rfl) hv.1 ⟨by rintro ⟨⟩, by rintro ⟨⟩⟩
  · exact innerWeight_pos G (Or.inr rfl) hv.1 (hS rfl)
  · intro t _ _
    show 0 < 4 * Real.pi / ((12 * ns ^ 2 : ℤ) : ℝ)
    have : (0 : ℝ) < ((12 * ns ^ 2 : ℤ) : ℝ) := by
      have := hv.2 rfl
      exact_mod_cast (by positivity : 0 < 12 * ns ^ 2)
    have := Real.pi_pos
    positivity

theorem refines_congr {σ : Scheme} {L ns lo : ℤ} {w : ℤ → ℝ} {δ : ℝ}
    {bwd : Nd ℂ → Except PyErr (Nd ℂ)} {f : Nd ℂ} {r r' : ℤ → Except PyErr (Nd ℂ)}
    (h : Refines σ L ns w lo δ bwd f r) (e : ∀ n : ℕ, r n = r' n) :
    Refines σ L ns w lo δ bwd f r' := by
  obtain ⟨c, F, h1, h2, h3, h4⟩ := h
  refine ⟨c, F, h1, h2, h3, fun n => ?_⟩
  rw [← e n]
  exact h4 n

theorem refine_iter {α β : Type} (f : α) (n : ℕ) (fwd : α → Except PyErr β)
    (bwd : β → Except PyErr α) (sub : α → α → α) (add : β → β → β) :
    refine f n fwd bwd sub add = if (n : ℤ) = 0 then fwd f else refine f n fwd bwd sub add := by
  split_ifs with h
  · exact C31_zero f n (by omega) fwd bwd sub add
  · rfl

section
variable (G : GlTables) (σ : Scheme) (hσ : σ = .dh ∨ σ = .gl ∨ σ = .healpix) (L spin lo : ℤ)
  (nside : Option ℤ)

include hσ in
theorem base_pair (hv : σ.Valid L (nside.getD 0)) (hhp : σ = .healpix → 2 * nside.getD 0 ≤ L)
    (h0 : 0 ≤ lo) (h1 : lo < L) (reality : Bool) (hr : reality = true → spin ≠ 0) :
    PlainPair σ L (nside.getD 0) spin lo
      (fun t => snapAngle (σ.theta G.nodes L (nside.getD 0) t)) (innerWeight G σ L (nside.getD 0))
      (fun c => baseInverseWith G c L spin σ.name bVec nside reality lo)
      (fun x => baseForwardWith G x L spin σ.name bVec nside reality lo) := by
  have hR := plain_scheme σ hσ
  constructor
  · intro c _
    obtain ⟨F, e, hs, h⟩ := baseInverse_snapped G σ L spin lo nside hv bVec (by simp) (fun _ => hhp)
      h0 h1 c reality (fun _ x y => absurd y (hr x))
    refine ⟨F, e, hs, fun t p ht => ?_⟩
    rw [h t p ht]
    congr 1
    unfold coeffs
    rw [if_neg (by rintro ⟨x, y⟩; exact hr x y)]
  · intro f hf
    obtain ⟨g, e, hg, hz⟩ := baseForwardWith_values G (lower_name σ) (method := bVec) (by simp [baseMethods])
      (fun _ h => by rw [h]; rfl) (spin := spin) hv (fun _ => hhp) f hf reality h0 h1
      (fun _ x y => absurd y (hr x))
    refine ⟨g, e, fun el m a b c d => ?_⟩
    have hst : elStart lo spin = max |spin| lo := max_comm _ _
    split_ifs with h
    · exact hz el _ (by omega)
    · have her : effReality reality spin = false := by
        unfold effReality
        split_ifs with h
        · rfl
        · cases reality with
          | false => rfl
          | true => exact absurd ⟨rfl, hr rfl⟩ h
      rw [hg el m (by omega) b c d, her, ← fAt_snap, plain_theta hR, plain_inner hR, plain_signal hR,
        plain_rings hR]
      rfl

include hσ in
/-- `base_transforms.spherical.forward` with `iter` refinements. -/
theorem C31_base_refines (hv : σ.Valid L (nside.getD 0))
    (hhp : σ = .healpix → 2 * nside.getD 0 ≤ L) (hgl : σ = .gl → SamplingTheorem G .gl L)
    (h0 : 0 ≤ lo) (h1 : lo < L) (reality : Bool) (hr : reality = true → spin ≠ 0)
    (δ : ℝ) (hδ : 0 ≤ δ) (hδ' : δ < 1)
    (htrip : RoundTripWithin L (max |spin| lo) δ
      (fun c => baseInverse G c L spin σ.name nside reality lo)
      (fun x => baseForward G x L spin σ.name nside reality lo 0))
    (f : Nd ℂ) (hf : f.shape = σ.shape L (nside.getD 0)) :
    ∃ w, quad_weights G.weights (some L) σ.name spin nside = .ok (σ.rings L (nside.getD 0), w) ∧
      Refines σ L (nside.getD 0) w (max |spin| lo) δ
        (fun c => baseInverse G c L spin σ.name nside reality lo) f
        (fun n => baseForward G f L spin σ.name nside reality lo n) := by
  refine ⟨_, quad_weights_plain G (plain_scheme σ hσ) spin hv, ?_⟩
  refine refines_congr ((base_pair G σ hσ L spin lo nside hv hhp h0 h1 reality hr).refines hv h0
    (plain_weight_pos G hσ hv hgl) hδ hδ' htrip hf) fun n => ?_
  exact refine_iter f n _ _ _ _

end

/-! ## The transforms with precomputed kernels -/

section
variable (G : GlTables) (σ : Scheme) (hσ : σ = .dh ∨ σ = .gl ∨ σ = .healpix) (L spin : ℤ)
  (nside : Option ℤ)

/-- Refinement synthesizes with a kernel made by the method's own constructor. -/
theorem precomputeForwardTop_refine {G : GlTables} {σ : Scheme} {L spin : ℤ} {nside : Option ℤ}
    (hv : σ.Valid L (nside.getD 0)) {method : PyStr} (hmt : method ∈ [mNumpy, mJax, mTorch])
    {κ ρ : PyStr} (hρ : RecursionOk L spin ρ) (hρ' : RecursionOk L spin rAuto)
    (hex : KernelExact G.nodes σ L (nside.getD 0) spin true κ ρ)
    (hex' : KernelExact G.nodes σ L (nside.getD 0) spin false method rAuto)
    (reality : Bool) {kernel : Option (Nd ℂ)}
    (hk : KernelArg G L spin reality σ.name nside true method κ ρ kernel) (f : Nd ℂ) (n : ℕ) :
    precomputeForwardTop G f L spin kernel σ.name reality method nside n
      = refine f n
        (fun x => precomputeForwardTop G x L spin kernel σ.name reality method nside 0)
        (fun c => precomputeInverseTop G c L spin none σ.name reality method nside)
        (Nd.map2 (· - ·)) (Nd.map2 (· + ·)) := by
  obtain ⟨K, ek, hK⟩ := getKernel_ok G hv reality true hρ hex hk
  obtain ⟨K', ek', hK'⟩ := getKernel_ok G (method := method) hv reality false hρ' hex'
    (kernel := none) (Or.inr ⟨rfl, rfl, rfl⟩)
  have ek'' : kernelFunction method G L spin (effReality reality spin) σ.name nside false rAuto
      = _ := ek'
  rw [refine_iter]
  have hfwd : ∀ x, precomputeForwardTop G x L spin kernel σ.name reality method nside 0
      = precomputeForward x (.d3 (kRings σ L (nside.getD 0) true) L (mDim L (effReality reality spin)) K)
        L σ.name (effReality reality spin) spin nside method := by
    intro x
    unfold precomputeForwardTop
    rw [if_neg (by rw [not_not]; exact hmt)]
    show (getKernel G kernel L spin (effReality reality spin) σ.name nside true method >>= _) = _
    rw [ek]
    simp only [bind, Except.bind, if_true]
    rfl
  have hinv : ∀ x, precomputeInverseTop G x L spin none σ.name reality method nside
      = precomputeInverse x (.d3 (kRings σ L (nside.getD 0) false) L (mDim L (effReality reality spin)) K')
        L σ.name (effReality reality spin) spin nside method := by
    intro x
    unfold precomputeInverseTop
    rw [if_neg (by rw [not_not]; exact hmt)]
    show (getKernel G none L spin (effReality reality spin) σ.name nside false method >>= _) = _
    rw [ek']
    rfl
  simp only [hfwd, hinv]
  unfold precomputeForwardTop
  rw [if_neg (c := method ∉ precomputeMethods) (by rw [not_not]; exact hmt)]
  show (getKernel G kernel L spin (effReality reality spin) σ.name nside true method >>= _) = _
  rw [ek]
  show (if (n : ℤ) = 0 then precomputeForward f
      (.d3 (kRings σ L (nside.getD 0) true) L (mDim L (effReality reality spin)) K) L σ.name
      (effReality reality spin) spin nside method
    else (kernelFunction method G L spin (effReality reality spin) σ.name nside false rAuto >>= _)) = _
  rw [ek'']
  rfl

include hσ in
theorem precompute_pair (hv : σ.Valid L (nside.getD 0))
    (method : PyStr) (hmt : method ∈ [mNumpy, mJax, mTorch])
    (hhp : σ = .healpix → 2 * nside.getD 0 ≤ L ∧ (method ≠ mNumpy → 2 ≤ nside.getD 0))
    (κ ρ : PyStr) (hρ : RecursionOk L spin ρ) (hρ' : RecursionOk L spin rAuto)
    (hex : KernelExact G.nodes σ L (nside.getD 0) spin true κ ρ)
    (hex' : KernelExact G.nodes σ L (nside.getD 0) spin false method rAuto)
    (reality : Bool) (hr : reality = true → spin ≠ 0) (kernel : Option (Nd ℂ))
    (hk : KernelArg G L spin reality σ.name nside true method κ ρ kernel) :
    PlainPair σ L (nside.getD 0) spin 0
      (fun t => σ.theta G.nodes L (nside.getD 0) t) (innerWeight G σ L (nside.getD 0))
      (fun c => precomputeInverseTop G c L spin none σ.name reality method nside)
      (fun x => precomputeForwardTop G x L spin kernel σ.name reality method nside 0) := by
  have hR := plain_scheme σ hσ
  have her : effReality reality spin = false := by
    unfold effReality
    split_ifs with h
    · rfl
    · cases reality with
      | false => rfl
      | true => exact absurd ⟨rfl, hr rfl⟩ h
  have hri : ∀ flm, RealOrderZero flm L spin reality 0 := fun _ x y => absurd y (hr x)
  obtain ⟨K, ek, hK⟩ := getKernel_ok G hv reality true hρ hex hk
  constructor
  · intro c _
    obtain ⟨F, e, hs, h⟩ := C27_expansion G σ L spin nside hv (fun h => (hhp h).1) method rAuto hρ'
      hex' method hmt c reality (hri c) none (Or.inr ⟨rfl, rfl, rfl⟩)
    refine ⟨F, e, hs, fun t p ht => ?_⟩
    rw [h t p ht]
    congr 1
    unfold coeffs
    rw [if_neg (by rintro ⟨x, y⟩; exact hr x y)]
  · intro x hx
    obtain ⟨g, e, hg⟩ := precomputeForwardTop_values hmt G hv hhp x hx reality
      (fun a b => absurd b (hr a)) hK ek
    refine ⟨g, e, fun el m a b c d => ?_⟩
    rw [hg el m a b c d, her, plain_inner hR, plain_signal hR, plain_rings hR,
      show kTheta G.nodes σ L (nside.getD 0) true = fun t => σ.theta G.nodes L (nside.getD 0) t from
        plain_theta hR _ _ _]
    split_ifs with h
    · exact symm_zero (fAt_outside (Or.inr (by omega))) (fAt_outside (Or.inr (by omega)))
    · rfl

include hσ in
/-- `precompute_transforms.spherical.forward` with `iter` refinements, which synthesize with a kernel
made by the method's own constructor. -/
theorem C31_precompute_refines (hv : σ.Valid L (nside.getD 0))
    (method : PyStr) (hmt : method ∈ [mNumpy, mJax, mTorch])
    (hhp : σ = .healpix → 2 * nside.getD 0 ≤ L ∧ (method ≠ mNumpy → 2 ≤ nside.getD 0))
    (hgl : σ = .gl → SamplingTheorem G .gl L)
    (κ ρ : PyStr) (hρ : RecursionOk L spin ρ) (hρ' : RecursionOk L spin rAuto)
    (hex : KernelExact G.nodes σ L (nside.getD 0) spin true κ ρ)
    (hex' : KernelExact G.nodes σ L (nside.getD 0) spin false method rAuto)
    (reality : Bool) (hr : reality = true → spin ≠ 0) (kernel : Option (Nd ℂ))
    (hk : KernelArg G L spin reality σ.name nside true method κ ρ kernel)
    (δ : ℝ) (hδ : 0 ≤ δ) (hδ' : δ < 1)
    (htrip : RoundTripWithin L |spin| δ
      (fun c => precomputeInverseTop G c L spin none σ.name reality method nside)
      (fun x => precomputeForwardTop G x L spin kernel σ.name reality method nside 0))
    (f : Nd ℂ) (hf : f.shape = σ.shape L (nside.getD 0)) :
    ∃ w, quad_weights G.weights (some L) σ.name spin nside = .ok (σ.rings L (nside.getD 0), w) ∧
      Refines σ L (nside.getD 0) w |spin| δ
        (fun c => precomputeInverseTop G c L spin none σ.name reality method nside) f
        (fun n => precomputeForwardTop G f L spin kernel σ.name reality method nside n) := by
  refine ⟨_, quad_weights_plain G (plain_scheme σ hσ) spin hv, ?_⟩
  rw [← max_eq_left (abs_nonneg spin)]
  refine refines_congr ((precompute_pair G σ hσ L spin nside hv method hmt hhp κ ρ hρ hρ' hex hex'
    reality hr kernel hk).refines hv le_rfl (plain_weight_pos G hσ hv hgl) hδ hδ'
    (by rwa [max_eq_left (abs_nonneg spin)]) hf) fun n => ?_
  exact (precomputeForwardTop_refine hv hmt hρ hρ' hex hex' reality hk f n).symm

end

/-! ## The on-the-fly transforms -/

section
variable (B : Backends) (G : Machine) (σ : Scheme) (hσ : σ = .dh ∨ σ = .gl ∨ σ = .healpix)
  (L spin lo : ℤ) (nside : Option ℤ)

/-- Refinement runs the inverse transform without the precomputed coefficients. -/
theorem sphericalForward_refine (f : Nd ℂ) (s : PyStr) {method : PyStr}
    (hmt : method ∈ [mNumpy, mJax, mTorch]) (h8 : spin < 8) (reality : Bool)
    (precomps : Option PmPre) (k : ℤ) (n : ℕ) :
    sphericalForward B G f L spin nside s method reality precomps lo (some n) k
      = refine f n
        (fun x => sphericalForward B G x L spin nside s method reality precomps lo (some 0) k)
        (fun c => sphericalInverse B G c L spin nside s method reality none lo k)
        (Nd.map2 (· - ·)) (Nd.map2 (· + ·)) := by
  rw [refine_iter]
  split_ifs with hn
  · rw [hn]
  simp only [sphericalForward_otf B G _ nside s hmt h8 reality precomps lo k (Or.inr rfl),
    sphericalInverse_otf B G _ nside s hmt h8 reality none lo k]
  unfold sphericalForward otfForward otfInverse otfFwd otfInv
  simp only [List.mem_cons, List.not_mem_nil, or_false] at hmt
  rcases hmt with rfl | rfl | rfl
  all_goals
    rw [if_neg (by decide), if_neg (by omega)]
    simp only [Option.getD_some]
    rw [if_neg (by decide), if_neg (by decide), if_pos (by omega)]
    simp only [if_neg (show ¬ mJax = mNumpy by decide), if_neg (show ¬ mJax = mJaxCuda by decide),
      if_neg (show ¬ mTorch = mNumpy by decide), if_neg (show ¬ mTorch = mJaxCuda by decide), if_true]

include hσ in
theorem otf_pair (hv : σ.Valid L (nside.getD 0)) (method : PyStr)
    (hmt : method ∈ [mNumpy, mJax, mTorch])
    (hhp : σ = .healpix → 2 * nside.getD 0 ≤ L ∧ (method ≠ mNumpy → 2 ≤ nside.getD 0))
    (hsp : |spin| < L) (h8 : spin < 8) (hlo : LowerOk method L lo) (precomps : Option PmPre)
    (hP : PrecompsArg G L spin σ.name nside true precomps)
    (hreg : OtfRegular G σ L (nside.getD 0) spin false)
    (hreg' : OtfRegular G σ L (nside.getD 0) spin true) (k : ℤ) :
    PlainPair σ L (nside.getD 0) spin lo
      (fun t => G.rnd (σ.theta G.nodes L (nside.getD 0) t)) (innerWeight G.toGlTables σ L (nside.getD 0))
      (fun c => sphericalInverse B G c L spin nside σ.name method false none lo k)
      (fun x => sphericalForward B G x L spin nside σ.name method false precomps lo (some 0) k) := by
  have hR := plain_scheme σ hσ
  constructor
  · intro c hc
    obtain ⟨F, e, hs, h⟩ := C39_expansion_partial B G σ L spin lo nside hv (fun h => (hhp h).1) method
      hmt hsp h8 hlo c (fun el k a b => hc el k a b (by omega)) false (by rintro ⟨⟩) (by rintro ⟨⟩)
      none (Or.inl rfl) hreg k
    exact ⟨F, e, hs, h⟩
  · intro x hx
    obtain ⟨g, e, hg⟩ := sphericalForward_values B G σ L spin lo nside hv method hmt hhp hsp h8 hlo
      x hx false (by rintro ⟨⟩) precomps hP hreg' (some 0) (Or.inr rfl) k
    refine ⟨g, e, fun el m a b c d => ?_⟩
    rw [hg el m a b c d, plain_inner hR, plain_signal hR, plain_rings hR]
    have : G.inner σ L (nside.getD 0) = fun t => G.rnd (σ.theta G.nodes L (nside.getD 0) t) := by
      funext t
      unfold Machine.inner
      rw [plain_theta hR]
    rw [this]
    rfl

include hσ in
/-- `transforms.spherical.forward` with `iter` refinements. Its recursions fail on coefficients of
degrees below the spin, but refinement never produces any. -/
theorem C31_otf_refines (hv : σ.Valid L (nside.getD 0)) (method : PyStr)
    (hmt : method ∈ [mNumpy, mJax, mTorch])
    (hhp : σ = .healpix → 2 * nside.getD 0 ≤ L ∧ (method ≠ mNumpy → 2 ≤ nside.getD 0))
    (hgl : σ = .gl → SamplingTheorem G.toGlTables .gl L)
    (hsp : |spin| < L) (h8 : spin < 8) (hlo : LowerOk method L lo)
    (reality : Bool) (hr : reality = false) (precomps : Option PmPre)
    (hP : PrecompsArg G L spin σ.name nside true precomps)
    (hreg : OtfRegular G σ L (nside.getD 0) spin false)
    (hreg' : OtfRegular G σ L (nside.getD 0) spin true)
    (k : ℤ) (δ : ℝ) (hδ : 0 ≤ δ) (hδ' : δ < 1)
    (htrip : RoundTripWithin L (max |spin| lo) δ
      (fun c => sphericalInverse B G c L spin nside σ.name method reality none lo k)
      (fun x => sphericalForward B G x L spin nside σ.name method reality precomps lo (some 0) k))
    (f : Nd ℂ) (hf : f.shape = σ.shape L (nside.getD 0)) :
    ∃ w, quad_weights G.weights (some L) σ.name spin nside = .ok (σ.rings L (nside.getD 0), w) ∧
      Refines σ L (nside.getD 0) w (max |spin| lo) δ
        (fun c => sphericalInverse B G c L spin nside σ.name method reality none lo k) f
        (fun n => sphericalForward B G f L spin nside σ.name method reality precomps lo (some n) k) := by
  subst hr
  have hR := plain_scheme σ hσ
  refine ⟨_, quad_weights_plain G.toGlTables hR spin hv, ?_⟩
  refine refines_congr ((otf_pair B G σ hσ L spin lo nside hv method hmt hhp hsp h8 hlo
    precomps hP hreg hreg' k).refines hv hlo.1 (plain_weight_pos G.toGlTables hσ hv hgl) hδ hδ' htrip
    hf) fun n => ?_
  exact (sphericalForward_refine B G L spin lo nside f σ.name hmt h8 false precomps k n).symm

end

/-! ## The smallest HEALPix grid -/

theorem hp_theta (nodes : ℤ → ℤ → ℝ) {t : ℤ} (h0 : 0 ≤ t) (h1 : t < 3) :
    Real.cos (Scheme.healpix.theta nodes 2 1 t) = 2 / 3 * (1 - (t : ℝ)) ∧
      Real.sin (Scheme.healpix.theta nodes 2 1 t) ^ 2 = 1 - (2 / 3 * (1 - (t : ℝ))) ^ 2 := by
  have hz : Scheme.healpixZ 1 t = 2 / 3 * (1 - (t : ℝ)) := by
    unfold Scheme.healpixZ
    interval_cases t <;> norm_num
  have hr : -1 ≤ Scheme.healpixZ 1 t ∧ Scheme.healpixZ 1 t ≤ 1 := by
    rw [hz]
    interval_cases t <;> norm_num
  have hc : Real.cos (Scheme.healpix.theta nodes 2 1 t) = 2 / 3 * (1 - (t : ℝ)) := by
    rw [← hz]
    exact Real.cos_arccos hr.1 hr.2
  exact ⟨hc, by rw [Real.sin_sq, hc]⟩

/-- The azimuths of a ring resolve the orders up to one. -/
theorem hp_ring {t k : ℤ} (h0 : 0 ≤ t) (h1 : t < 3) (hk : |k| ≤ 2) :
    ∑ p ∈ Finset.Ico 0 (Scheme.healpix.ringLen 2 1 t), cis (k * Scheme.healpix.phi 2 1 t p)
      = if k = 0 then 4 else 0 := by
  have hl : Scheme.healpix.ringLen 2 1 t = 4 := by
    show ringSize 1 t = 4
    unfold ringSize
    interval_cases t <;> rfl
  have hp : ∀ p : ℤ, cis (k * Scheme.healpix.phi 2 1 t p)
      = cis (k * (Real.pi / 2 * Scheme.healpix.shift 1 t)) * cis (Real.pi * (k * p) / 2) := by
    intro p
    rw [← cis_add]
    unfold Scheme.phi
    rw [hl]
    congr 1
    push_cast
    ring
  simp only [hp, ← Finset.mul_sum, hl]
  have hI : ∀ p : ℕ, cis (Real.pi * (k * p) / 2) = cis (Real.pi * k / 2) ^ p := by
    intro p
    rw [← cis_nat_mul]
    congr 1
    ring
  have hs : ∑ p ∈ Finset.Ico (0 : ℤ) 4, cis (Real.pi * (k * p) / 2)
      = 1 + cis (Real.pi * k / 2) + cis (Real.pi * k / 2) ^ 2 + cis (Real.pi * k / 2) ^ 3 := by
    rw [show Finset.Ico (0 : ℤ) 4 = {0, 1, 2, 3} from rfl]
    rw [Finset.sum_insert (by decide), Finset.sum_insert (by decide), Finset.sum_insert (by decide),
      Finset.sum_singleton]
    have e0 := hI 0
    have e1 := hI 1
    have e2 := hI 2
    have e3 := hI 3
    push_cast at e0 e1 e2 e3 ⊢
    rw [e0, e1, e2, e3]
    ring
  rw [hs]
  have hk' := abs_le.1 hk
  have h4 : cis (Real.pi * k / 2) ^ 2 = (-1) ^ k := by
    rw [← cis_nat_mul, ← cis_pi_int]
    congr 1
    push_cast
    ring
  have hfac : 1 + cis (Real.pi * k / 2) + cis (Real.pi * k / 2) ^ 2 + cis (Real.pi * k / 2) ^ 3
      = (1 + cis (Real.pi * k / 2)) * (1 + cis (Real.pi * k / 2) ^ 2) := by ring
  rw [hfac, h4]
  obtain ⟨a, b⟩ := hk'
  have hcase : k = 0 ∨ k = 1 ∨ k = -1 ∨ k = 2 ∨ k = -2 := by omega
  rcases hcase with rfl | rfl | rfl | rfl | rfl
  · norm_num
  · simp
  · simp
  · rw [show Real.pi * ((2 : ℤ) : ℝ) / 2 = Real.pi by push_cast; ring, cis_pi]
    simp
  · rw [show Real.pi * ((-2 : ℤ) : ℝ) / 2 = -Real.pi by push_cast; ring, cis_neg, cis_pi]
    norm_num

/-- The harmonics at the angle `x`, without the azimuth. -/
noncomputable def hpC (x : ℝ) (l m : ℤ) : ℝ := √((2 * (l : ℝ) + 1) / (4 * Real.pi)) * wignerd l m 0 x

theorem sYlm_hpC (l m : ℤ) (x φ : ℝ) : sYlm 0 l m x φ = hpC x l m * cis (m * φ) := by
  unfold sYlm hpC
  simp

theorem hp_trip (θ : ℤ → ℝ) (w : ℝ) (a : ℤ → ℤ → ℂ) {l m : ℤ} (hl : l < 2) (hm : |m| ≤ l) :
    gridTrip .healpix 2 1 0 0 θ (fun _ => w) a l m
      = ∑ t ∈ Finset.Ico (0 : ℤ) 3, 4 * w * hpC (θ t) l m
        * ∑ l' ∈ Finset.Ico (0 : ℤ) 2, if |m| ≤ l' then a l' m * hpC (θ t) l' m else 0 := by
  unfold gridTrip gridAn gridSum gridHarm harmonicSum
  refine Finset.sum_congr rfl fun t ht => ?_
  rw [Finset.mem_Ico] at ht
  have ht : 0 ≤ t ∧ t < 3 := ht
  have h1 : ∀ p : ℤ, (w : ℂ) * (∑ l' ∈ Finset.Ico (0 : ℤ) 2, ∑ m' ∈ Finset.Ico (-l') (l' + 1),
        a l' m' * sYlm 0 l' m' (θ t) (Scheme.healpix.phi 2 1 t p))
        * (starRingEnd ℂ) (sYlm 0 l m (θ t) (Scheme.healpix.phi 2 1 t p))
      = ∑ l' ∈ Finset.Ico (0 : ℤ) 2, ∑ m' ∈ Finset.Ico (-l') (l' + 1),
        w * hpC (θ t) l m * a l' m' * hpC (θ t) l' m'
          * cis (((m' - m : ℤ) : ℝ) * Scheme.healpix.phi 2 1 t p) := by
    intro p
    simp only [Finset.mul_sum, Finset.sum_mul]
    refine Finset.sum_congr rfl fun l' _ => Finset.sum_congr rfl fun m' _ => ?_
    rw [sYlm_hpC, sYlm_hpC, map_mul, Complex.conj_ofReal, conj_cis,
      show ((m' - m : ℤ) : ℝ) * Scheme.healpix.phi 2 1 t p
        = m' * Scheme.healpix.phi 2 1 t p - m * Scheme.healpix.phi 2 1 t p by push_cast; ring, cis_sub]
    ring
  simp only [h1]
  rw [Finset.sum_comm, Finset.mul_sum]
  refine Finset.sum_congr rfl fun l' hl' => ?_
  rw [Finset.mem_Ico] at hl'
  rw [Finset.sum_comm]
  rw [Finset.sum_congr rfl (g := fun m' => if m' = m then
    4 * (w * hpC (θ t) l m * a l' m' * hpC (θ t) l' m') else 0) fun m' hm' => ?_]
  · rw [Finset.sum_ite_eq' (Finset.Ico (-l') (l' + 1)) m]
    have : m ∈ Finset.Ico (-l') (l' + 1) ↔ |m| ≤ l' := by
      rw [Finset.mem_Ico, abs_le]
      omega
    simp only [this]
    split_ifs
    · ring
    · ring
  · rw [Finset.mem_Ico] at hm'
    rw [← Finset.mul_sum, hp_ring ht.1 ht.2 (by rw [abs_le] at hm ⊢; omega)]
    simp only [sub_eq_zero]
    split_ifs <;> ring

/-- On the twelve pixels of `nside = 1` the round trip of harmonics up to degree one keeps degree zero
and changes degree one by at most a ninth. -/
theorem C31_healpix_round_trip (G : GlTables) :
    RoundTripWithin 2 0 (1 / 9) (fun c => baseInverse G c 2 0 sHP (some 1) false 0)
      (fun x => baseForward G x 2 0 sHP (some 1) false 0 0) := by
  intro c F g _ eF eg
  have hv : Scheme.healpix.Valid 2 1 := ⟨by norm_num, fun _ => le_rfl⟩
  have hp := base_pair G .healpix (Or.inr (Or.inr rfl)) 2 0 0 (some 1) hv (fun _ => le_rfl) le_rfl
    (by norm_num) false (by rintro ⟨⟩)
  obtain ⟨F', e', hs, hF⟩ := hp.inv c fun el k a b => by simp at b; omega
  obtain rfl : F = F' := by
    have := eF.symm.trans e'
    injection this
  obtain ⟨g', e'', hg⟩ := hp.fwd F hs
  obtain rfl : g = g' := by
    have : Except.ok (.d2 2 (2 * 2 - 1) g) = (Except.ok (.d2 2 (2 * 2 - 1) g') : Except PyErr (Nd ℂ)) :=
      eg.symm.trans e''
    injection this with this
    injection this
  have hgrid := C18_grids G.nodes .healpix 2 1 hv (by rintro ⟨⟩) (by norm_num) (by norm_num)
  set θ : ℤ → ℝ := fun t => snapAngle (Scheme.healpix.theta G.nodes 2 1 t) with hθ
  have hθ' : ∀ t, 0 ≤ t → t < 3 → Real.cos (θ t) = 2 / 3 * (1 - (t : ℝ)) ∧
      Real.sin (θ t) ^ 2 = 1 - (2 / 3 * (1 - (t : ℝ))) ^ 2 := by
    intro t h0 h1
    rw [hθ]
    beta_reduce
    rw [snapAngle_eq _ (hgrid t h0 h1)]
    exact hp_theta G.nodes h0 h1
  have key : ∀ l m, 0 ≤ l → l < 2 → |m| ≤ l → g l (m + 2 - 1)
      = ∑ t ∈ Finset.Ico (0 : ℤ) 3, 4 * (Real.pi / 3 : ℝ) * hpC (θ t) l m
        * ∑ l' ∈ Finset.Ico (0 : ℤ) 2, if |m| ≤ l' then c l' (m + 2 - 1) * hpC (θ t) l' m else 0 := by
    intro l m h0 h1 hm
    have hm' := abs_le.1 hm
    rw [hg l m h0 h1 (by omega) (by omega), if_neg (by simp; omega), fAt_gridAn,
      ← hp_trip θ (Real.pi / 3) (fun l m => c l (m + 2 - 1)) h1 hm]
    unfold gridTrip
    have hw : innerWeight G .healpix 2 1 = fun _ => Real.pi / 3 := by
      funext t
      show 4 * Real.pi / ((12 * 1 ^ 2 : ℤ) : ℝ) = _
      push_cast
      ring
    show gridAn Scheme.healpix 2 1 0 θ (innerWeight G .healpix 2 1) _ l m = _
    rw [hw]
    exact gridAn_congr hF l m
  have sums : ∀ φ : ℤ → ℂ, ∑ t ∈ Finset.Ico (0 : ℤ) 3, φ t = φ 0 + φ 1 + φ 2 := by
    intro φ
    rw [show Finset.Ico (0 : ℤ) 3 = {0, 1, 2} from rfl, Finset.sum_insert (by decide),
      Finset.sum_insert (by decide), Finset.sum_singleton, add_assoc]
  have sums2 : ∀ φ : ℤ → ℂ, ∑ t ∈ Finset.Ico (0 : ℤ) 2, φ t = φ 0 + φ 1 := by
    intro φ
    rw [show Finset.Ico (0 : ℤ) 2 = {0, 1} from rfl, Finset.sum_insert (by decide),
      Finset.sum_singleton]
  have hpi := Real.pi_pos
  have hpi' : (Real.pi : ℂ) ≠ 0 := by exact_mod_cast hpi.ne'
  have d0 : ∀ x, hpC x 0 0 = √(1 / (4 * Real.pi)) := fun x => by
    unfold hpC
    rw [wignerd_zero]
    simp
  have d1 : ∀ x, hpC x 1 0 = √(3 / (4 * Real.pi)) * Real.cos x := fun x => by
    unfold hpC
    rw [(wignerd_one x).2.2.2.2.1]
    norm_num
  have d2 : ∀ x, hpC x 1 1 = -(√(3 / (4 * Real.pi)) * Real.sin x * (√2)⁻¹) := fun x => by
    unfold hpC
    rw [(wignerd_one x).2.2.2.2.2.2.2.1]
    norm_num
    ring
  have d3 : ∀ x, hpC x 1 (-1) = √(3 / (4 * Real.pi)) * Real.sin x * (√2)⁻¹ := fun x => by
    unfold hpC
    rw [(wignerd_one x).2.1]
    norm_num
    ring
  obtain ⟨c0, s0⟩ := hθ' 0 (by norm_num) (by norm_num)
  obtain ⟨c1, s1⟩ := hθ' 1 (by norm_num) (by norm_num)
  obtain ⟨c2, s2⟩ := hθ' 2 (by norm_num) (by norm_num)
  have q1 : Real.pi * √(1 / (4 * Real.pi)) ^ 2 = 1 / 4 := by
    rw [Real.sq_sqrt (by positivity)]
    field_simp
  have q3 : Real.pi * √(3 / (4 * Real.pi)) ^ 2 = 3 / 4 := by
    rw [Real.sq_sqrt (by positivity)]
    field_simp
  have q2 : ((√2)⁻¹ : ℝ) ^ 2 = 1 / 2 := by
    rw [inv_pow, Real.sq_sqrt (by norm_num)]
    norm_num
  generalize √(1 / (4 * Real.pi)) = A at *
  generalize √(3 / (4 * Real.pi)) = B at *
  generalize ((√2)⁻¹ : ℝ) = k at *
  have q1 : (Real.pi : ℂ) * A ^ 2 = 1 / 4 := by
    have := congrArg Complex.ofReal q1
    push_cast at this
    exact this
  have q3 : (Real.pi : ℂ) * B ^ 2 = 3 / 4 := by
    have := congrArg Complex.ofReal q3
    push_cast at this
    exact this
  have q2 : (k : ℂ) ^ 2 = 1 / 2 := by
    have := congrArg Complex.ofReal q2
    push_cast at this
    exact this
  have qs : Complex.sin (θ 0) ^ 2 + Complex.sin (θ 1) ^ 2 + Complex.sin (θ 2) ^ 2 = 19 / 9 := by
    have : Real.sin (θ 0) ^ 2 + Real.sin (θ 1) ^ 2 + Real.sin (θ 2) ^ 2 = 19 / 9 := by
      rw [s0, s1, s2]
      norm_num
    have := congrArg Complex.ofReal this
    push_cast at this
    exact this
  have g00 : g 0 1 = c 0 1 := by
    have h := key 0 0 le_rfl (by norm_num) (by norm_num)
    rw [sums] at h
    simp only [sums2, d0, d1, c0, c1, c2] at h
    norm_num at h
    rw [h]
    linear_combination (4 * c 0 1) * q1
  have g10 : g 1 1 = 8 / 9 * c 1 1 := by
    have h := key 1 0 (by norm_num) (by norm_num) (by norm_num)
    rw [sums] at h
    simp only [sums2, d0, d1, c0, c1, c2] at h
    norm_num at h
    rw [h]
    linear_combination (32 / 27 * c 1 1) * q3
  have g11 : g 1 2 = 19 / 18 * c 1 2 := by
    have h := key 1 1 (by norm_num) (by norm_num) (by norm_num)
    rw [sums] at h
    simp only [sums2, d2] at h
    norm_num at h
    rw [h]
    linear_combination (4 / 3 * c 1 2 * k ^ 2 * (Complex.sin (θ 0) ^ 2 + Complex.sin (θ 1) ^ 2 + Complex.sin (θ 2) ^ 2)) * q3
      + (c 1 2 * (Complex.sin (θ 0) ^ 2 + Complex.sin (θ 1) ^ 2 + Complex.sin (θ 2) ^ 2)) * q2 + (c 1 2 / 2) * qs
  have g1m : g 1 0 = 19 / 18 * c 1 0 := by
    have h := key 1 (-1) (by norm_num) (by norm_num) (by norm_num)
    rw [sums] at h
    simp only [sums2, d3] at h
    norm_num at h
    rw [h]
    linear_combination (4 / 3 * c 1 0 * k ^ 2 * (Complex.sin (θ 0) ^ 2 + Complex.sin (θ 1) ^ 2 + Complex.sin (θ 2) ^ 2)) * q3
      + (c 1 0 * (Complex.sin (θ 0) ^ 2 + Complex.sin (θ 1) ^ 2 + Complex.sin (θ 2) ^ 2)) * q2 + (c 1 0 / 2) * qs
  have en : ∀ a : ℤ → ℤ → ℂ, coeffEnergy 0 2 a
      = ‖a 0 0‖ ^ 2 + (‖a 1 (-1)‖ ^ 2 + ‖a 1 0‖ ^ 2 + ‖a 1 1‖ ^ 2) := by
    intro a
    unfold coeffEnergy
    rw [show Finset.Ico (0 : ℤ) 2 = {0, 1} from rfl, Finset.sum_insert (by decide),
      Finset.sum_singleton, show Finset.Ico (-0 : ℤ) (0 + 1) = {0} from rfl, Finset.sum_singleton,
      show Finset.Ico (-1 : ℤ) (1 + 1) = {-1, 0, 1} from rfl, Finset.sum_insert (by decide),
      Finset.sum_insert (by decide), Finset.sum_singleton, add_assoc (‖a 1 (-1)‖ ^ 2)]
  rw [en, en]
  norm_num
  rw [g00, g10, g11, g1m, sub_self, show c 1 1 - 8 / 9 * c 1 1 = 1 / 9 * c 1 1 by ring,
    show c 1 0 - 19 / 18 * c 1 0 = -(1 / 18) * c 1 0 by ring,
    show c 1 2 - 19 / 18 * c 1 2 = -(1 / 18) * c 1 2 by ring]
  simp only [norm_mul, norm_neg, norm_div, norm_one, Complex.norm_ofNat, norm_zero, mul_pow]
  nlinarith [sq_nonneg ‖c 0 1‖, sq_nonneg ‖c 1 0‖, sq_nonneg ‖c 1 1‖, sq_nonneg ‖c 1 2‖]

/-- There refinement converges: `n` iterations leave an error of `9 ^ -(n + 1)` of the coefficients of
the nearest signal, for every twelve numbers. -/
example (G : GlTables) (x : ℤ → ℂ) :
    ∃ w, quad_weights G.weights (some 2) sHP 0 (some 1) = .ok (3, w) ∧
      Refines .healpix 2 1 w 0 (1 / 9) (fun c => baseInverse G c 2 0 sHP (some 1) false 0) (.d1 12 x)
        (fun n => baseForward G (.d1 12 x) 2 0 sHP (some 1) false 0 n) :=
  C31_base_refines G .healpix (Or.inr (Or.inr rfl)) 2 0 0 (some 1) ⟨by norm_num, fun _ => le_rfl⟩
    (fun _ => le_rfl) (by rintro ⟨⟩) le_rfl (by norm_num) false (by rintro ⟨⟩) (1 / 9) (by norm_num)
    (by norm_num) (C31_healpix_round_trip G) (.d1 12 x) rfl

end S2fft
