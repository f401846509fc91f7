import Verif.Spec.Energy
import Verif.Lemmas.LinearComb
import Verif.Lemmas.CBackendExact

/-! # Analysis as the adjoint of synthesis -/

namespace S2fft
open Spec

/-- Coefficients as sums over the grid, the rings being at the angles `θ`. -/
theorem fAt_ringSum {σ : Scheme} {L ns s : ℤ} {θ w : ℤ → ℝ} {f : ℤ → ℤ → ℂ} (el m : ℤ) :
    fAt (ringSum σ L ns f) s (σ.rings L ns) θ w el m
      = gridSum σ L ns (fun t p => w t * f (σ.pos ns t p).1 (σ.pos ns t p).2
          * (starRingEnd ℂ) (sYlm s el m (θ t) (σ.phi L ns t p))) := by
  unfold fAt gridSum ringSum
  refine Finset.sum_congr rfl fun t _ => ?_
  rw [Finset.mul_sum]
  refine Finset.sum_congr rfl fun p _ => ?_
  unfold sYlm elfactor
  simp only [map_mul, map_zpow₀, map_neg, map_one, Complex.conj_ofReal, conj_cis]
  push_cast
  ring

/-- The weighted product of samples with an expansion, as a sum over the coefficients. -/
theorem gridSum_expansion {σ : Scheme} {lo L ns s : ℤ} {θ w : ℤ → ℝ} {f : ℤ → ℤ → ℂ}
    {c : ℤ → ℤ → ℂ} :
    gridSum σ L ns (fun t p => w t * f (σ.pos ns t p).1 (σ.pos ns t p).2
        * (starRingEnd ℂ) (harmonicSum lo L s c (θ t) (σ.phi L ns t p)))
      = lmSum lo L fun l m => fAt (ringSum σ L ns f) s (σ.rings L ns) θ w l m
          * (starRingEnd ℂ) (c l m) := by
  rw [gridSum_congr (b := fun t p => ∑ l ∈ Finset.Ico lo L, ∑ m ∈ Finset.Ico (-l) (l + 1),
    w t * f (σ.pos ns t p).1 (σ.pos ns t p).2 * (starRingEnd ℂ) (sYlm s l m (θ t) (σ.phi L ns t p))
      * (starRingEnd ℂ) (c l m))]
  · unfold lmSum gridSum
    simp only [fAt_ringSum, gridSum, Finset.sum_mul]
    have h1 : ∀ t, ∑ p ∈ Finset.Ico 0 (σ.ringLen L ns t), ∑ l ∈ Finset.Ico lo L,
        ∑ m ∈ Finset.Ico (-l) (l + 1), w t * f (σ.pos ns t p).1 (σ.pos ns t p).2
          * (starRingEnd ℂ) (sYlm s l m (θ t) (σ.phi L ns t p)) * (starRingEnd ℂ) (c l m)
        = ∑ l ∈ Finset.Ico lo L, ∑ m ∈ Finset.Ico (-l) (l + 1),
          ∑ p ∈ Finset.Ico 0 (σ.ringLen L ns t), w t * f (σ.pos ns t p).1 (σ.pos ns t p).2
          * (starRingEnd ℂ) (sYlm s l m (θ t) (σ.phi L ns t p)) * (starRingEnd ℂ) (c l m) := by
      intro t
      rw [Finset.sum_comm]
      exact Finset.sum_congr rfl fun l _ => Finset.sum_comm
    rw [Finset.sum_congr rfl fun t _ => h1 t, Finset.sum_comm]
    exact Finset.sum_congr rfl fun l _ => Finset.sum_comm
  · intro t p h
    unfold harmonicSum
    simp only [map_sum, Finset.mul_sum, map_mul]
    refine Finset.sum_congr rfl fun l _ => Finset.sum_congr rfl fun m _ => ?_
    ring

theorem sampleInner_expansion {σ : Scheme} {lo L ns s : ℤ} {θ w : ℤ → ℝ} {f F : ℤ → ℤ → ℂ}
    {c : ℤ → ℤ → ℂ}
    (hF : ∀ t p, σ.Has L ns t p → F (σ.pos ns t p).1 (σ.pos ns t p).2
      = harmonicSum lo L s c (θ t) (σ.phi L ns t p)) :
    sampleInner σ L ns w f F
      = lmSum lo L fun l m => fAt (ringSum σ L ns f) s (σ.rings L ns) θ w l m
          * (starRingEnd ℂ) (c l m) := by
  rw [← gridSum_expansion]
  exact gridSum_congr fun t p h => by rw [hF t p h]

/-- The weights of `quad_weights` on the grids that are not resampled. -/
theorem quad_weights_plain (G : GlTables) {σ : Scheme} (hσ : ¬ σ.Resampled) {L : ℤ} (spin : ℤ)
    {nside : Option ℤ} (hv : σ.Valid L (nside.getD 0)) :
    quad_weights G.weights (some L) σ.name spin nside
      = .ok (σ.rings L (nside.getD 0), innerWeight G σ L (nside.getD 0)) := by
  cases σ with
  | mw => exact absurd (Or.inl rfl) hσ
  | mwss => exact absurd (Or.inr rfl) hσ
  | dh => rfl
  | gl => rfl
  | healpix =>
    cases nside with
    | none => exact absurd (hv.2 rfl) (by simp)
    | some ns => rfl

theorem plain_signal {σ : Scheme} (hσ : ¬ σ.Resampled) (L spin : ℤ) (f : ℤ → ℤ → ℂ) :
    innerSignal σ L spin f = f := by
  revert hσ; cases σ <;> simp [Scheme.Resampled, innerSignal]

theorem plain_inner {σ : Scheme} (hσ : ¬ σ.Resampled) : σ.inner = σ := by
  revert hσ; cases σ <;> simp [Scheme.Resampled, Scheme.inner]

theorem plain_rings {σ : Scheme} (hσ : ¬ σ.Resampled) (L ns : ℤ) :
    innerRings σ L ns = σ.rings L ns := if_neg hσ

theorem plain_theta {σ : Scheme} (hσ : ¬ σ.Resampled) (nodes : ℤ → ℤ → ℝ) (L ns : ℤ) :
    innerTheta nodes σ L ns = fun t => σ.theta nodes L ns t := by
  funext t; exact if_neg hσ

/-- Analysis and synthesis at the same angles are adjoint. -/
theorem adjoint_plain (G : GlTables) {σ : Scheme} (hσ : ¬ σ.Resampled) {lo L ns s : ℤ}
    {θ : ℤ → ℝ} {f F g : ℤ → ℤ → ℂ} {c : ℤ → ℤ → ℂ} (hl : 0 ≤ lo)
    (hF : ∀ t p, σ.Has L ns t p → F (σ.pos ns t p).1 (σ.pos ns t p).2
      = harmonicSum lo L s c (θ t) (σ.phi L ns t p)) {r : Bool} (hr : r = true → s = 0)
    (hre : r = true → RealRings σ.inner L ns (innerRings σ L ns) (innerSignal σ L s f))
    (hg : ∀ l m, max |s| lo ≤ l → l < L → -l ≤ m → m ≤ l → g l (m + L - 1)
      = symm r (fAt (ringSum σ.inner L ns (innerSignal σ L s f)) s (innerRings σ L ns) θ
          (innerWeight G σ L ns) l) m)
    (hz : ∀ l m, 0 ≤ l → l < max |s| lo → l < L → -l ≤ m → m ≤ l → g l (m + L - 1) = 0) :
    coeffInner lo L (fun l m => g l (m + L - 1)) c
      = sampleInner σ L ns (innerWeight G σ L ns) f F := by
  rw [sampleInner_expansion hF]
  unfold coeffInner
  refine lmSum_congr fun l m l0 l1 hm => ?_
  obtain ⟨m0, m1⟩ := abs_le.1 hm
  congr 1
  beta_reduce
  by_cases h : max |s| lo ≤ l
  · rw [hg l m h l1 m0 m1]
    have key : symm r (fAt (ringSum σ.inner L ns (innerSignal σ L s f)) s (innerRings σ L ns) θ
        (innerWeight G σ L ns) l) m = fAt (ringSum σ.inner L ns (innerSignal σ L s f)) s
        (innerRings σ L ns) θ (innerWeight G σ L ns) l m := by
      by_cases hr' : r = true
      · have := hr hr'
        subst this
        exact symm_realRings (hre hr') _ _ _ _ _
      · unfold symm
        rw [if_neg (by tauto)]
    rw [key, plain_inner hσ, plain_signal hσ, plain_rings hσ]
  · rw [hz l m (by omega) (by omega) l1 m0 m1]
    symm
    exact fAt_outside (Or.inr (by
      have := le_max_right |s| lo
      rcases max_choice |s| lo with h' | h' <;> omega))

/-- The coefficients of a band-limited signal on a grid with a sampling theorem that is not
resampled. -/
theorem fAt_plain (G : GlTables) {σ : Scheme} (hσ : ¬ σ.Resampled) {lo L ns s : ℤ}
    (hL : 1 ≤ L) (hl : 0 ≤ lo) (hS : SamplingTheorem G σ L) {f : ℤ → ℤ → ℂ} {b : ℤ → ℤ → ℂ}
    (hf : ∀ t p, σ.Has L ns t p → f (σ.pos ns t p).1 (σ.pos ns t p).2
      = harmonicSum lo L s b (σ.theta G.nodes L ns t) (σ.phi L ns t p)) {l m : ℤ} (l0 : lo ≤ l)
    (l1 : l < L) (hm : |m| ≤ l) :
    fAt (ringSum σ L ns f) s (σ.rings L ns) (fun t => σ.theta G.nodes L ns t)
        (innerWeight G σ L ns) l m = if |s| ≤ l then b l m else 0 := by
  have hs : SamplesOf G.nodes σ L ns f (harmonicSum lo L s b) := hf
  obtain ⟨q, n, hn, hlen, hw, hq⟩ := inner_rule G (nside := ns) hL hS
  obtain ⟨m0, m1⟩ := abs_le.1 hm
  split_ifs with h
  · have := fAt_exact (lo := lo) (n := n) (A := ringSum σ.inner L ns (innerSignal σ L s f)) (c := b)
      (by exact_mod_cast (by omega : n ≠ 0))
      (fun t m t0 t1 m0 m1 => ringSum_harm hL hS.1 hs hn hlen t0 t1 m0 m1) hw hq (by omega) l0 h l1
      (show -L < m by omega) (by omega)
    rw [plain_inner hσ, plain_signal hσ, plain_rings hσ, plain_theta hσ] at this
    rw [this, if_pos hm]
  · exact fAt_outside (Or.inr (by omega))

/-- Degrees without terms. -/
theorem lmSum_low {s lo L : ℤ} {a : ℤ → ℤ → ℂ} (h : ∀ l m, l < |s| → a l m = 0) :
    lmSum lo L a = lmSum (max lo |s|) L a := by
  unfold lmSum
  symm
  refine Finset.sum_subset (fun l hl => ?_) (fun l hl hl' => ?_)
  · rw [Finset.mem_Ico] at hl ⊢
    omega
  · rw [Finset.mem_Ico] at hl hl'
    exact Finset.sum_eq_zero fun m _ => h l m (by omega)

/-- On the grids with a sampling theorem that are not resampled the products of band-limited signals
are those of their coefficients. -/
theorem parseval_plain (G : GlTables) {σ : Scheme} (hσ : ¬ σ.Resampled) {lo L ns s : ℤ}
    (hL : 1 ≤ L) (hl : 0 ≤ lo) (hS : SamplingTheorem G σ L) {f F : ℤ → ℤ → ℂ} {b c : ℤ → ℤ → ℂ}
    (hf : ∀ t p, σ.Has L ns t p → f (σ.pos ns t p).1 (σ.pos ns t p).2
      = harmonicSum lo L s b (σ.theta G.nodes L ns t) (σ.phi L ns t p))
    (hF : ∀ t p, σ.Has L ns t p → F (σ.pos ns t p).1 (σ.pos ns t p).2
      = harmonicSum lo L s c (σ.theta G.nodes L ns t) (σ.phi L ns t p)) :
    sampleInner σ L ns (innerWeight G σ L ns) f F = coeffInner (max lo |s|) L b c := by
  rw [sampleInner_expansion hF, lmSum_low (s := s) (fun l m h => by
    rw [fAt_outside (Or.inr (by omega)), zero_mul])]
  unfold coeffInner
  refine lmSum_congr fun l m l0 l1 hm => ?_
  rw [fAt_plain G hσ hL hl hS hf (le_trans (le_max_left _ _) l0) l1 hm,
    if_pos (le_trans (le_max_right _ _) l0)]

theorem sampleInner_self (σ : Scheme) (L ns : ℤ) (w : ℤ → ℝ) (f : ℤ → ℤ → ℂ) :
    sampleInner σ L ns w f f = (sampleEnergy σ L ns w f : ℝ) := by
  unfold sampleInner sampleEnergy gridSum
  push_cast
  refine Finset.sum_congr rfl fun t _ => Finset.sum_congr rfl fun p _ => ?_
  rw [mul_assoc, Complex.mul_conj, Complex.normSq_eq_norm_sq]
  push_cast; rfl

theorem coeffInner_self (lo L : ℤ) (c : ℤ → ℤ → ℂ) :
    coeffInner lo L c c = (coeffEnergy lo L c : ℝ) := by
  unfold coeffInner coeffEnergy lmSum
  push_cast
  refine Finset.sum_congr rfl fun t _ => Finset.sum_congr rfl fun p _ => ?_
  rw [Complex.mul_conj, Complex.normSq_eq_norm_sq]
  push_cast; rfl

end S2fft
