import Verif.Lemmas.CBackend
import Verif.Lemmas.RoundTrip

/-! # Values of the wrappers and of their reverse rules -/

namespace S2fft
open Spec

/-- Quadrature weights of SSHT's forward transforms on the DH and GL grids. -/
noncomputable def sshtWeight (gl : ℤ → ℤ → ℝ) : Scheme → ℤ → ℤ → ℝ
  | .dh, L, t => quad_weights_dh L t
  | .gl, L, t => gl L t
  | _, _, _ => 0

/-- The number of a grid. -/
def sshtNumber : Scheme → ℤ
  | .mw => 0
  | .mwss => 1
  | .dh => 2
  | _ => 3

theorem sshtSampling_number {σ : Scheme} (h : σ ≠ .healpix) :
    sshtSampling σ.name = .ok (sshtNumber σ) := by
  cases σ
  case healpix => exact absurd rfl h
  all_goals rfl

theorem sshtName_number {σ : Scheme} (h : σ ≠ .healpix) :
    sshtName (sshtNumber σ) = .ok (sshtMethod σ) := by
  cases σ
  case healpix => exact absurd rfl h
  all_goals rfl

theorem sshtWeight_ok (gl : ℤ → ℤ → ℝ) (L : ℤ) {σ : Scheme} (h : σ = .dh ∨ σ = .gl) :
    quad_weights_transform gl L (lower (sshtMethod σ)) 0
      = .ok (σ.rings L 0, sshtWeight gl σ L) := by
  rcases h with rfl | rfl <;> rfl

theorem number_lt {σ : Scheme} (h : σ ≠ .healpix) :
    sshtNumber σ < 2 ∧ (σ = .mw ∨ σ = .mwss) ∨ ¬ sshtNumber σ < 2 ∧ (σ = .dh ∨ σ = .gl) := by
  cases σ
  case healpix => exact absurd rfl h
  all_goals simp [sshtNumber]

theorem realSignal_congr {x y : ℤ → ℤ → ℂ} {l : ℤ} (h : ∀ m, |m| ≤ l → x l m = y l m) {m : ℤ}
    (hm : |m| ≤ l) : realSignal x l m = realSignal y l m := by
  unfold realSignal
  rw [h m hm, h (-m) (by rwa [abs_neg]), h 0 (by rw [abs_zero]; exact (abs_nonneg m).trans hm)]

theorem conj_realSignal (x : ℤ → ℤ → ℂ) (l m : ℤ) :
    (starRingEnd ℂ) (realSignal (fun l m => (starRingEnd ℂ) (x l m)) l m) = realSignal x l m := by
  unfold realSignal
  split_ifs <;> simp

section
variable {S : Ssht} {G : GlTables} {K : Scheme → ℤ → ℤ → ℤ → ℤ → ℤ → ℤ → ℂ}
  (hS : SshtContract S G.nodes (sshtWeight G.weights) K) {σ : Scheme} (hσ : σ ≠ .healpix) {L s : ℤ}
  (hL : 1 ≤ L) (hs : |s| < L) {reality : Bool} (hrs : reality = true → s = 0) (b : ℤ)
include hS hσ hL hs hrs

theorem sshtInverse_values (x : ℤ → ℤ → ℂ) :
    ∃ f, sshtInverse S (.d2 L (2 * L - 1) x) L s reality (sshtNumber σ) b
        = .ok (.d2 (σ.rings L 0) (σ.ringLen L 0 0) f) ∧
      ∀ t p, σ.Has L 0 t p → f t p = lmSum |s| L (fun l m =>
        (if reality then realSignal (fun l m => x l (L - 1 + m)) l m else x l (L - 1 + m))
          * sYlm s l m (σ.theta G.nodes L 0 t) (σ.phi L 0 t p)) := by
  obtain ⟨c, e, hc⟩ := to_ssht hL x
  obtain ⟨f, ef, hf⟩ := hS.inverse σ L s reality (sshtBackendName b) c hσ hL hs hrs
  refine ⟨f, ?_, fun t p h => ?_⟩
  · unfold sshtInverse
    rw [sshtName_number hσ]
    show S.inverse (ndOfList (flm_2d_to_1d_fast x L)) L s (sshtMethod σ) reality _ = _
    rw [e, ef]
  · rw [hf t p h]
    refine lmSum_congr fun l m h0 h1 h2 => ?_
    rw [realSignal_congr (y := fun l m => x l (L - 1 + m)) (fun m hm => hc l m h1 hm) h2,
      hc l m h1 h2]

theorem sshtForward_values (f : ℤ → ℤ → ℂ) :
    ∃ a, sshtForward S (.d2 (σ.rings L 0) (σ.ringLen L 0 0) f) L s reality (sshtNumber σ) b
        = .ok (.d2 L (2 * L - 1) a) ∧
      ∀ l k, a l k = if 0 ≤ l ∧ l < L ∧ |k - (L - 1)| ≤ l then (if l < |s| then 0 else
        gridSum σ L 0 (fun t p => K σ L s l (k - (L - 1)) t p
          * (if reality then ((f t p).re : ℂ) else f t p))) else 0 := by
  obtain ⟨c, ec, hc⟩ := hS.forward σ L s reality (sshtBackendName b) f hσ hL hs hrs
  obtain ⟨a, ea, ha⟩ := from_ssht hL c
  refine ⟨a, ?_, fun l k => ?_⟩
  · unfold sshtForward
    rw [sshtName_number hσ]
    show (S.forward _ L s (sshtMethod σ) reality _ >>= _) = _
    rw [ec]
    show (flm_1d_to_2d_fast (L ^ 2) c L >>= _) = _
    rw [ea]
    rfl
  · rw [ha l k]
    by_cases h : 0 ≤ l ∧ l < L ∧ |k - (L - 1)| ≤ l
    · rw [if_pos h, if_pos h, hc l _ h.1 h.2.1 h.2.2]
    · rw [if_neg h, if_neg h]

/-- The rule of the inverse transform before the completion for real signals: the sums
`∑ Y_{lm}(t, p) g(t, p)`. -/
theorem sshtInverseBwd_values (g : ℤ → ℤ → ℂ)
    (hw : σ = .dh ∨ σ = .gl → ∀ t, 0 ≤ t → t < σ.rings L 0 → sshtWeight G.weights σ L t ≠ 0) :
    ∃ a, sshtInverseBwd S G (.d2 (σ.rings L 0) (σ.ringLen L 0 0) g) L s reality (sshtNumber σ) b
        = .ok (.d2 L (2 * L - 1) (if reality then sshtFold a L else a)) ∧
      ∀ l k, a l k = if 0 ≤ l ∧ l < L ∧ |k - (L - 1)| ≤ l then (if l < |s| then 0 else
        gridSum σ L 0 (fun t p => sYlm s l (k - (L - 1)) (σ.theta G.nodes L 0 t) (σ.phi L 0 t p)
          * (if reality then ((g t p).re : ℂ) else g t p))) else 0 := by
  have key : ∃ c, sshtInverseBwdCall S G (.d2 (σ.rings L 0) (σ.ringLen L 0 0) g) L s reality
        (sshtNumber σ) b = .ok (.d1 (L ^ 2) c) ∧
      ∀ l m, 0 ≤ l → l < L → |m| ≤ l → (starRingEnd ℂ) (c (sshtInd l m)) = if l < |s| then 0 else
        gridSum σ L 0 (fun t p => sYlm s l m (σ.theta G.nodes L 0 t) (σ.phi L 0 t p)
          * (if reality then ((g t p).re : ℂ) else g t p)) := by
    unfold sshtInverseBwdCall
    rw [sshtName_number hσ]
    rcases number_lt hσ with ⟨h1, h2⟩ | ⟨h1, h2⟩
    · obtain ⟨c, ec, hc⟩ := hS.inverse_adjoint σ L s reality (sshtBackendName b)
        (fun t p => (starRingEnd ℂ) (g t p)) h2 hL hs hrs
      refine ⟨c, ?_, fun l m h0 h3 h4 => ?_⟩
      · show (if sshtNumber σ < 2 then _ else _) = _
        rw [if_pos h1]
        exact ec
      · rw [hc l m h0 h3 h4]
        split_ifs
        · exact map_zero _
        · rw [conj_gridSum]
          refine gridSum_congr fun t p _ => ?_
          cases reality <;> simp
        · rw [conj_gridSum]
          refine gridSum_congr fun t p _ => ?_
          cases reality <;> simp
    · obtain ⟨c, ec, hc⟩ := hS.forward σ L s reality (sshtBackendName b)
        (fun t p => (starRingEnd ℂ) (g t p * (1 / sshtWeight G.weights σ L t : ℝ))) hσ hL hs hrs
      refine ⟨c, ?_, fun l m h0 h3 h4 => ?_⟩
      · show (if sshtNumber σ < 2 then _ else _) = _
        rw [if_neg h1, sshtWeight_ok _ _ h2]
        exact ec
      · rw [hc l m h0 h3 h4]
        by_cases hl : l < |s|
        · rw [if_pos hl, if_pos hl, map_zero]
        · rw [if_neg hl, if_neg hl, conj_gridSum]
          refine gridSum_congr fun t p hp => ?_
          have hne : (sshtWeight G.weights σ L t : ℂ) ≠ 0 := by
            exact_mod_cast hw h2 t hp.1 hp.2.1
          rw [hS.kernel_quad σ L s l m t p h2]
          cases reality
          · simp only [Bool.false_eq_true, if_false, map_mul, Complex.conj_conj, Complex.conj_ofReal]
            push_cast
            field_simp
          · simp only [if_true, map_mul, Complex.conj_conj, Complex.conj_ofReal, Complex.mul_re,
              Complex.conj_re, Complex.ofReal_re, Complex.ofReal_im, mul_zero, sub_zero]
            push_cast
            field_simp
  obtain ⟨c, ec, hc⟩ := key
  obtain ⟨a, ea, ha⟩ := from_ssht hL (fun i => (starRingEnd ℂ) (c i))
  refine ⟨a, ?_, fun l k => ?_⟩
  · unfold sshtInverseBwd
    rw [ec]
    show (flm_1d_to_2d_fast (L ^ 2) (fun i => (starRingEnd ℂ) (c i)) L >>= _) = _
    rw [ea]
    rfl
  · rw [ha l k]
    by_cases h : 0 ≤ l ∧ l < L ∧ |k - (L - 1)| ≤ l
    · rw [if_pos h, if_pos h, hc l _ h.1 h.2.1 h.2.2]
    · rw [if_neg h, if_neg h]

/-- The rule of the forward transform: `∑ K_{lm}(t, p) g_{lm}`. -/
theorem sshtForwardBwd_values (g : ℤ → ℤ → ℂ) :
    ∃ f, sshtForwardBwd S G (.d2 L (2 * L - 1) g) L s reality (sshtNumber σ) b
        = .ok (.d2 (σ.rings L 0) (σ.ringLen L 0 0) f) ∧
      ∀ t p, σ.Has L 0 t p → f t p = lmSum |s| L (fun l m =>
        (if reality then realSignal (fun l m => g l (L - 1 + m)) l m else g l (L - 1 + m))
          * K σ L s l m t p) := by
  obtain ⟨c, e, hc⟩ := to_ssht hL g
  have hr : ∀ l m, l < L → |m| ≤ l →
      (starRingEnd ℂ) (realSignal (fun l m => (starRingEnd ℂ) (c (sshtInd l m))) l m)
        = realSignal (fun l m => g l (L - 1 + m)) l m := by
    intro l m h1 h2
    have := conj_realSignal (fun l m => c (sshtInd l m)) l m
    rw [this]
    exact realSignal_congr (fun m hm => hc l m h1 hm) h2
  unfold sshtForwardBwd
  rw [sshtName_number hσ]
  rcases number_lt hσ with ⟨h1, h2⟩ | ⟨h1, h2⟩
  · obtain ⟨f, ef, hf⟩ := hS.forward_adjoint σ L s reality (sshtBackendName b)
      (fun i => (starRingEnd ℂ) (c i)) h2 hL hs hrs
    refine ⟨fun t p => (starRingEnd ℂ) (f t p), ?_, fun t p h => ?_⟩
    · show (if sshtNumber σ < 2 then _ else _) = _
      rw [if_pos h1]
      show (S.forward_adjoint (ndOfList (flm_2d_to_1d_fast g L)).conj L s _ reality _ >>= _) = _
      rw [e]
      show (S.forward_adjoint (.d1 (L ^ 2) (fun i => (starRingEnd ℂ) (c i))) L s _ reality _ >>= _) = _
      rw [ef]
      rfl
    · beta_reduce
      rw [hf t p h, conj_lmSum]
      refine lmSum_congr fun l m h0 h3 h4 => ?_
      rw [map_mul, Complex.conj_conj]
      congr 1
      cases reality
      · simp only [Bool.false_eq_true, if_false, Complex.conj_conj]
        exact hc l m h3 h4
      · simp only [if_true]
        exact hr l m h3 h4
  · obtain ⟨f, ef, hf⟩ := hS.inverse σ L s reality (sshtBackendName b)
      (fun i => (starRingEnd ℂ) (c i)) hσ hL hs hrs
    refine ⟨fun t p => (starRingEnd ℂ) (f t p) * sshtWeight G.weights σ L t, ?_, fun t p h => ?_⟩
    · show (if sshtNumber σ < 2 then _ else _) = _
      rw [if_neg h1, sshtWeight_ok _ _ h2]
      show (S.inverse (ndOfList (flm_2d_to_1d_fast g L)).conj L s _ reality _ >>= _) = _
      rw [e]
      show (S.inverse (.d1 (L ^ 2) (fun i => (starRingEnd ℂ) (c i))) L s _ reality _ >>= _) = _
      rw [ef]
      rfl
    · beta_reduce
      rw [hf t p h, conj_lmSum, mul_comm, ← lmSum_mul_left]
      refine lmSum_congr fun l m h0 h3 h4 => ?_
      rw [map_mul, hS.kernel_quad σ L s l m t p h2]
      have : (starRingEnd ℂ) (if reality = true
            then realSignal (fun l m => (starRingEnd ℂ) (c (sshtInd l m))) l m
            else (starRingEnd ℂ) (c (sshtInd l m)))
          = if reality = true then realSignal (fun l m => g l (L - 1 + m)) l m else g l (L - 1 + m) := by
        cases reality
        · simp only [Bool.false_eq_true, if_false, Complex.conj_conj]
          exact hc l m h3 h4
        · simp only [if_true]
          exact hr l m h3 h4
      rw [this]
      ring
end

end S2fft
