import Verif.Lemmas.CBackendRules
import Verif.Props.C01

/-! # Libraries that meet the contracts -/

namespace S2fft
open Spec

/-- A grid from its name in SSHT. -/
def schemeOfSsht (s : PyStr) : Scheme :=
  if s = "MW".toList then .mw else if s = "MWSS".toList then .mwss else if s = "DH".toList then .dh
  else .gl

theorem schemeOfSsht_method {σ : Scheme} (h : σ ≠ .healpix) : schemeOfSsht (sshtMethod σ) = σ := by
  cases σ
  case healpix => exact absurd rfl h
  all_goals rfl

/-- A kernel for forward transforms: the quadrature on the DH and GL grids. On MW and MWSS any kernel
with the symmetry will do. -/
noncomputable def plainKernel (G : GlTables) (σ : Scheme) (L s l m t p : ℤ) : ℂ :=
  ((if σ = .dh ∨ σ = .gl then sshtWeight G.weights σ L t else 1 : ℝ) : ℂ)
    * (starRingEnd ℂ) (sYlm s l m (σ.theta G.nodes L 0 t) (σ.phi L 0 t p))

/-- An array in SSHT's order. -/
noncomputable def toSshtArray (L : ℤ) (a : ℤ → ℤ → ℂ) : Nd ℂ :=
  .d1 (L ^ 2) (fun i => a (ind2elm i).1 (ind2elm i).2)

/-- A synthesis with functions `Y` and an analysis with `Y`. -/
noncomputable def plainSynthesis (Y : Scheme → ℤ → ℤ → ℤ → ℤ → ℤ → ℤ → ℂ)
    (c : Nd ℂ) (L s : ℤ) (name : PyStr) (reality : Bool) (_ : PyStr) : Except PyErr (Nd ℂ) :=
  let σ := schemeOfSsht name
  let x : ℤ → ℤ → ℂ := fun l m => c.get2 0 (sshtInd l m)
  .ok (.d2 (σ.rings L 0) (σ.ringLen L 0 0) (fun t p => lmSum |s| L (fun l m =>
    (if reality then realSignal x l m else x l m) * Y σ L s l m t p)))

noncomputable def plainAnalysis (Y : Scheme → ℤ → ℤ → ℤ → ℤ → ℤ → ℤ → ℂ)
    (f : Nd ℂ) (L s : ℤ) (name : PyStr) (reality : Bool) (_ : PyStr) : Except PyErr (Nd ℂ) :=
  let σ := schemeOfSsht name
  .ok (toSshtArray L (fun l m => if l < |s| then 0 else gridSum σ L 0 (fun t p =>
    Y σ L s l m t p * (if reality then ((f.get2 t p).re : ℂ) else f.get2 t p))))

/-- A library with the formulas of the contract. -/
noncomputable def kernelSsht (G : GlTables) (K : Scheme → ℤ → ℤ → ℤ → ℤ → ℤ → ℤ → ℂ) : Ssht where
  inverse := plainSynthesis (fun σ L s l m t p => sYlm s l m (σ.theta G.nodes L 0 t) (σ.phi L 0 t p))
  forward := plainAnalysis K
  inverse_adjoint := plainAnalysis (fun σ L s l m t p =>
    (starRingEnd ℂ) (sYlm s l m (σ.theta G.nodes L 0 t) (σ.phi L 0 t p)))
  forward_adjoint := plainSynthesis (fun σ L s l m t p => (starRingEnd ℂ) (K σ L s l m t p))

noncomputable def plainSsht (G : GlTables) : Ssht := kernelSsht G (plainKernel G)

theorem plainSynthesis_eq (Y : Scheme → ℤ → ℤ → ℤ → ℤ → ℤ → ℤ → ℂ) (c : ℤ → ℂ) (n L s : ℤ)
    (reality : Bool) (b : PyStr) {σ : Scheme} (h : σ ≠ .healpix) :
    plainSynthesis Y (.d1 n c) L s (sshtMethod σ) reality b
      = .ok (.d2 (σ.rings L 0) (σ.ringLen L 0 0) (fun t p => lmSum |s| L (fun l m =>
        (if reality then realSignal (fun l m => c (sshtInd l m)) l m else c (sshtInd l m))
          * Y σ L s l m t p))) := by
  unfold plainSynthesis
  rw [schemeOfSsht_method h]
  rfl

theorem plainAnalysis_eq (Y : Scheme → ℤ → ℤ → ℤ → ℤ → ℤ → ℤ → ℂ) (f : ℤ → ℤ → ℂ) (r k L s : ℤ)
    (reality : Bool) (b : PyStr) {σ : Scheme} (h : σ ≠ .healpix) :
    ∃ c, plainAnalysis Y (.d2 r k f) L s (sshtMethod σ) reality b = .ok (.d1 (L ^ 2) c) ∧
      ∀ l m, |m| ≤ l → c (sshtInd l m) = if l < |s| then 0 else
        gridSum σ L 0 (fun t p => Y σ L s l m t p * (if reality then ((f t p).re : ℂ) else f t p)) := by
  unfold plainAnalysis
  rw [schemeOfSsht_method h]
  refine ⟨_, rfl, fun l m hm => ?_⟩
  rw [sshtInd_eq, C01_ind2elm_elm2ind l m hm]
  rfl

theorem kernelSsht_contract (G : GlTables) {K : Scheme → ℤ → ℤ → ℤ → ℤ → ℤ → ℤ → ℂ}
    (hq : ∀ σ L s l m t p, σ = .dh ∨ σ = .gl → K σ L s l m t p = sshtWeight G.weights σ L t
      * (starRingEnd ℂ) (sYlm s l m (σ.theta G.nodes L 0 t) (σ.phi L 0 t p)))
    (hr : ∀ σ L l m t p, K σ L 0 l (-m) t p = (-1) ^ m * (starRingEnd ℂ) (K σ L 0 l m t p)) :
    SshtContract (kernelSsht G K) G.nodes (sshtWeight G.weights) K where
  kernel_quad := hq
  kernel_real := hr
  inverse σ L s reality b c h _ _ _ := by
    have e := plainSynthesis_eq (fun σ L s l m t p =>
      sYlm s l m (σ.theta G.nodes L 0 t) (σ.phi L 0 t p)) c (L ^ 2) L s reality b h
    exact ⟨_, e, fun _ _ _ => rfl⟩
  forward σ L s reality b f h _ _ _ := by
    obtain ⟨c, e, hc⟩ := plainAnalysis_eq K f (σ.rings L 0) (σ.ringLen L 0 0) L s reality b h
    exact ⟨c, e, fun l m _ _ hm => hc l m hm⟩
  inverse_adjoint σ L s reality b f h _ _ _ := by
    obtain ⟨c, e, hc⟩ := plainAnalysis_eq (fun σ L s l m t p =>
      (starRingEnd ℂ) (sYlm s l m (σ.theta G.nodes L 0 t) (σ.phi L 0 t p)))
      f (σ.rings L 0) (σ.ringLen L 0 0) L s reality b (σ := σ) (by rcases h with rfl | rfl <;> decide)
    exact ⟨c, e, fun l m _ _ hm => hc l m hm⟩
  forward_adjoint σ L s reality b c h _ _ _ := by
    have e := plainSynthesis_eq (fun σ L s l m t p => (starRingEnd ℂ) (K σ L s l m t p))
      c (L ^ 2) L s reality b (σ := σ) (by rcases h with rfl | rfl <;> decide)
    exact ⟨_, e, fun _ _ _ => rfl⟩

theorem plainSsht_contract (G : GlTables) :
    SshtContract (plainSsht G) G.nodes (sshtWeight G.weights) (plainKernel G) := by
  refine kernelSsht_contract G (fun σ L s l m t p h => ?_) (fun σ L l m t p => ?_)
  · unfold plainKernel; rw [if_pos h]
  · unfold plainKernel
    rw [sYlm_zero_neg]
    simp only [map_mul, map_zpow₀, map_neg, map_one, Complex.conj_conj, Complex.conj_ofReal]
    ring

/-- For any table of values there is an array in healpy's order. -/
theorem exists_healpyArray (L : ℤ) (hL : 1 ≤ L) (a : ℤ → ℤ → ℂ) :
    ∃ c : ℤ → ℂ, ∀ l m, 0 ≤ m → m ≤ l → l < L → c (healpyInd L l m) = a l m := by
  obtain ⟨c, _, h⟩ := to_healpy hL (fun l k => a l (k - (L - 1)))
  refine ⟨c, fun l m h0 h1 h2 => ?_⟩
  rw [h l m h0 h1 h2, add_sub_cancel_left]

open Classical in
theorem exists_healpyMap (nside : ℤ) (a : ℤ → ℤ → ℂ) :
    ∃ f : ℤ → ℂ, ∀ t p, 0 ≤ t → t < 4 * nside - 1 → 0 ≤ p → p < ringSize nside t →
      f (ringStart nside t + p) = a t p := by
  have key : ∀ i : ℤ, ∃ v : ℂ, ∀ t p, 0 ≤ t → t < 4 * nside - 1 → 0 ≤ p → p < ringSize nside t →
      ringStart nside t + p = i → v = a t p := by
    intro i
    by_cases h : ∃ t p, 0 ≤ t ∧ t < 4 * nside - 1 ∧ 0 ≤ p ∧ p < ringSize nside t ∧
        ringStart nside t + p = i
    · obtain ⟨t, p, h0, h1, h2, h3, h4⟩ := h
      refine ⟨a t p, fun t' p' h0' h1' h2' h3' h4' => ?_⟩
      have e : t = t' := by
        rcases lt_trichotomy t t' with hlt | he | hlt
        · have := ringStart_mono (n := nside) (s := t + 1) (t := t') (by omega) (by omega) (by omega)
          rw [ringStart_succ nside t h0] at this
          omega
        · exact he
        · have := ringStart_mono (n := nside) (s := t' + 1) (t := t) (by omega) (by omega) (by omega)
          rw [ringStart_succ nside t' h0'] at this
          omega
      subst e
      rw [show p = p' by omega]
    · exact ⟨0, fun t p h0 h1 h2 h3 h4 => absurd ⟨t, p, h0, h1, h2, h3, h4⟩ h⟩
  choose f hf using key
  exact ⟨f, fun t p h0 h1 h2 h3 => hf _ t p h0 h1 h2 h3 rfl⟩

theorem healpyContract_met : ∃ H : Healpy, HealpyContract H := by
  have h1 : ∀ (x : Nd ℂ) (L : ℤ), ∃ r : Except PyErr (Nd ℂ), ∀ nside f, 1 ≤ L → 1 ≤ nside →
      x = .d1 (12 * nside ^ 2) f → ∃ c, r = .ok (.d1 (L * (L + 1) / 2) c) ∧
      ∀ l m, 0 ≤ m → m ≤ l → l < L → c (healpyInd L l m)
        = 4 * Real.pi / (12 * nside ^ 2) * gridSum .healpix L nside (fun t p =>
          f (ringStart nside t + p) * (starRingEnd ℂ) (sYlm 0 l m (hpTheta nside t) (hpPhi nside t p))) := by
    intro x L
    by_cases h : 1 ≤ L ∧ ∃ nside f, 1 ≤ nside ∧ x = .d1 (12 * nside ^ 2) f
    · obtain ⟨hL, nside, f, hn, e⟩ := h
      obtain ⟨c, hc⟩ := exists_healpyArray L hL (fun l m =>
        4 * Real.pi / (12 * nside ^ 2) * gridSum .healpix L nside (fun t p =>
          f (ringStart nside t + p) * (starRingEnd ℂ) (sYlm 0 l m (hpTheta nside t) (hpPhi nside t p))))
      refine ⟨.ok (.d1 (L * (L + 1) / 2) c), fun nside' f' _ hn' e' => ⟨c, rfl, ?_⟩⟩
      rw [e] at e'
      injection e' with e1 e2
      have : nside = nside' := by nlinarith
      subst this e2
      exact hc
    · exact ⟨.ok x, fun nside f hL hn e => absurd ⟨hL, nside, f, hn, e⟩ h⟩
  have h2 : ∀ (x : Nd ℂ) (L nside : ℤ), ∃ r : Except PyErr (Nd ℂ), ∀ c, 1 ≤ L → 1 ≤ nside →
      x = .d1 (L * (L + 1) / 2) c → ∃ f, r = .ok (.d1 (12 * nside ^ 2) f) ∧
      ∀ t p, Scheme.healpix.Has L nside t p → f (ringStart nside t + p)
        = lmSum 0 L (fun l m => realSignal (fun l m => c (healpyInd L l m)) l m
            * sYlm 0 l m (hpTheta nside t) (hpPhi nside t p)) := by
    intro x L nside
    by_cases h : ∃ c, x = .d1 (L * (L + 1) / 2) c
    · obtain ⟨c, e⟩ := h
      obtain ⟨f, hf⟩ := exists_healpyMap nside (fun t p =>
        lmSum 0 L (fun l m => realSignal (fun l m => c (healpyInd L l m)) l m
            * sYlm 0 l m (hpTheta nside t) (hpPhi nside t p)))
      refine ⟨.ok (.d1 (12 * nside ^ 2) f), fun c' _ _ e' => ⟨f, rfl, fun t p h => ?_⟩⟩
      rw [e] at e'
      injection e' with _ e2
      subst e2
      exact hf t p h.1 h.2.1 h.2.2.1 h.2.2.2
    · exact ⟨.ok x, fun c _ _ e => absurd ⟨c, e⟩ h⟩
  choose m hm using h1
  choose a ha using h2
  exact ⟨⟨m, a⟩, fun L nside f hL hn _ => hm _ L nside f hL hn rfl,
    fun L nside c hL hn => ha _ L nside c hL hn rfl⟩

end S2fft
