import Verif.Lemmas.Otf
import Verif.Lemmas.Precompute

/-! # The rings of the on-the-fly transforms, poles included -/

namespace S2fft
open Spec

theorem mOffset_scheme {σ : Scheme} {s : PyStr} (hs : lower s = σ.name) : mOffsetLower s = σ.off := by
  unfold mOffsetLower; rw [hs]; exact mOffset_name σ

theorem pyIndex_ok {n i : ℤ} (h0 : 0 ≤ i) (h1 : i < n) : pyIndex n i = .ok i := if_pos ⟨h0, h1⟩

theorem jaxGet_ok {n i : ℤ} (h0 : 0 ≤ i) (h1 : i < n) : jaxGet n i = i := by
  unfold jaxGet; simp only [if_neg (not_lt.2 h0), if_neg (not_le.2 h1)]

theorem negOne_absC (n : ℤ) : ((-1 : ℂ)) ^ |n| = (-1) ^ n := by
  rcases abs_choice n with h | h <;> rw [h]
  rw [zpow_neg, ← inv_zpow]; norm_num

/-- The pole rings of the inverse transforms. -/
noncomputable def poleRings (σ : Scheme) (ftm flm : ℤ → ℤ → ℂ) (L spin lo nt : ℤ) : ℤ → ℤ → ℂ :=
  let ftm := if σ = .mw ∨ σ = .mwss then
    southPole ftm flm L spin lo nt (L - 1 + spin) (L - 1 + spin + σ.off) else ftm
  if σ = .mwss then northPole ftm flm L lo (L - 1 - spin) (L - 1 - spin + σ.off) else ftm

theorem lower_mw_iff {σ : Scheme} {s : PyStr} (hs : lower s = σ.name) :
    lower s = sMW ↔ σ = .mw := by
  rw [hs]; cases σ <;> decide

theorem lower_mwss_iff {σ : Scheme} {s : PyStr} (hs : lower s = σ.name) :
    lower s = sMWSS ↔ σ = .mwss := by
  rw [hs]; cases σ <;> decide

theorem off_nonneg (σ : Scheme) : 0 ≤ σ.off ∧ σ.off ≤ 1 := by cases σ <;> decide

theorem inversePolesNumpy_eq {σ : Scheme} {s : PyStr} (hs : lower s = σ.name) (ftm flm : ℤ → ℤ → ℂ)
    {L spin : ℤ} (lo nt : ℤ) (hsp : |spin| < L) :
    inversePolesNumpy ftm flm L spin lo nt (2 * L - 1 + σ.off) s
      = .ok (poleRings σ ftm flm L spin lo nt) := by
  rw [abs_lt] at hsp
  have ho := off_nonneg σ
  unfold inversePolesNumpy poleRings
  rw [mOffset_scheme hs]
  simp only [lower_mw_iff hs, lower_mwss_iff hs]
  by_cases h1 : σ = .mw ∨ σ = .mwss
  · simp only [if_pos h1]
    rw [pyIndex_ok (i := L - 1 + spin) (by omega) (by omega),
      pyIndex_ok (i := L - 1 + spin + σ.off) (by omega) (by omega)]
    simp only [bind, Except.bind, pure, Except.pure]
    rw [pyIndex_ok (i := L - 1 - spin) (by omega) (by omega),
      pyIndex_ok (i := L - 1 - spin + σ.off) (by omega) (by omega)]
    split_ifs <;> rfl
  · have h2 : ¬ σ = .mwss := fun h => h1 (Or.inr h)
    simp only [if_neg h1, if_neg h2]
    rfl

theorem inversePolesJax_eq {σ : Scheme} {s : PyStr} (hs : lower s = σ.name) (ho : mOffset s = σ.off)
    (flm : ℤ → ℤ → ℂ) (β : ℤ → ℝ) {L spin : ℤ} (lo nt : ℤ) (hsp : |spin| < L) (reality : Bool)
    (precomps : Option PmPre) :
    inverseLatitudinalStepJax flm β nt L spin s reality precomps lo
      = poleRings σ (otfSynth (precomps.getD (generatePrecomputesJax L spin β)) flm β L spin σ.off
          (2 * L - 1 + σ.off) reality lo) flm L spin lo nt := by
  rw [abs_lt] at hsp
  have hf := off_nonneg σ
  unfold inverseLatitudinalStepJax poleRings
  rw [mOffset_scheme hs, ho]
  simp only [lower_mw_iff hs, lower_mwss_iff hs]
  rw [jaxGet_ok (i := L - 1 + spin) (by omega) (by omega),
    jaxGet_ok (i := L - 1 - spin) (by omega) (by omega)]
  rw [show jaxSet (2 * L - 1 + σ.off) (L - 1 + spin + σ.off) = L - 1 + spin + σ.off from
      if_neg (by omega),
    show jaxSet (2 * L - 1 + σ.off) (L - 1 - spin + σ.off) = L - 1 - spin + σ.off from
      if_neg (by omega)]

/-- Where the angles of a ring are handled: set by hand at the poles, by the recursion elsewhere. -/
def RingOk (σ : Scheme) (L spin nt : ℤ) (θ : ℤ → ℝ) (t : ℤ) : Prop :=
  (σ = .mwss ∧ t = 0 ∧ θ t = 0) ∨ ((σ = .mw ∨ σ = .mwss) ∧ t = nt - 1 ∧ θ t = Real.pi) ∨
    (¬ (σ = .mwss ∧ t = 0) ∧ ¬ ((σ = .mw ∨ σ = .mwss) ∧ t = nt - 1) ∧ PmRegular L spin (θ t))

theorem poleRings_eq {σ : Scheme} {L spin lo nt : ℤ} (hsp : |spin| < L) (h0 : 0 ≤ lo)
    {ftm flm : ℤ → ℤ → ℂ} {θ : ℤ → ℝ} {reality : Bool} (hnt : σ = .mwss → 1 < nt)
    (hf : ∀ el k, lo ≤ el → el < L → el < |spin| → 0 ≤ k → k < 2 * L - 1 → flm el k = 0) {t m : ℤ}
    (hr : RingOk σ L spin nt θ t)
    (hin : PmRegular L spin (θ t) → ftm t (m + L - 1 + σ.off)
      = ∑ el ∈ Finset.Ico lo L, (wignerd el m (-spin) (θ t) : ℂ) * flm el (m + L - 1)) :
    poleRings σ ftm flm L spin lo nt t (m + L - 1 + σ.off)
      = ∑ el ∈ Finset.Ico lo L, (wignerd el m (-spin) (θ t) : ℂ) * flm el (m + L - 1) := by
  unfold poleRings
  rcases hr with ⟨h1, h2, h3⟩ | ⟨h1, h2, h3⟩ | ⟨h1, h2, h3⟩
  · simp only [h1, if_true]
    unfold northPole
    rw [if_pos h2, h3]
    simp only [wignerd_at_zero]
    by_cases hm : m = -spin
    · rw [if_pos (by omega)]
      apply Finset.sum_congr rfl
      intro el hel
      rw [Finset.mem_Ico] at hel
      by_cases hs : |spin| ≤ el
      · rw [if_pos ⟨by rw [hm, abs_neg]; exact hs, hm⟩, hm, show -spin + L - 1 = L - 1 - spin by ring]
        simp
      · have hb := abs_lt.1 hsp
        rw [hf el _ hel.1 hel.2 (by omega) (by omega) (by omega), hf el _ hel.1 hel.2 (by omega) (by omega) (by omega), mul_zero]
    · rw [if_neg (by omega)]
      symm
      apply Finset.sum_eq_zero
      intro el _
      rw [if_neg (by tauto)]; simp
  · have hn0 : σ = .mwss → ¬ t = 0 := fun h => by have := hnt h; omega
    have hno : (if σ = .mwss then northPole (southPole ftm flm L spin lo nt (L - 1 + spin)
        (L - 1 + spin + σ.off)) flm L lo (L - 1 - spin) (L - 1 - spin + σ.off)
        else southPole ftm flm L spin lo nt (L - 1 + spin) (L - 1 + spin + σ.off)) t
          (m + L - 1 + σ.off)
        = southPole ftm flm L spin lo nt (L - 1 + spin) (L - 1 + spin + σ.off) t
          (m + L - 1 + σ.off) := by
      split_ifs with h
      · unfold northPole; rw [if_neg (hn0 h)]
      · rfl
    simp only [if_pos h1]
    rw [hno]
    unfold southPole
    rw [if_pos h2, h3]
    simp only [wignerd_at_pi]
    by_cases hm : m = spin
    · rw [if_pos (by omega)]
      apply Finset.sum_congr rfl
      intro el hel
      rw [Finset.mem_Ico] at hel
      by_cases hs : |spin| ≤ el
      · rw [if_pos ⟨by rw [hm]; exact hs, by omega⟩, hm, show spin + L - 1 = L - 1 + spin by ring,
          negOne_absC]
        push_cast
        rw [sub_eq_add_neg]
      · have hb := abs_lt.1 hsp
        rw [hf el _ hel.1 hel.2 (by omega) (by omega) (by omega), hf el _ hel.1 hel.2 (by omega) (by omega) (by omega), mul_zero, mul_zero]
    · rw [if_neg (by omega)]
      symm
      apply Finset.sum_eq_zero
      intro el _
      rw [if_neg (by omega)]; simp
  · rw [← hin h3]
    have e1 : (if σ = .mw ∨ σ = .mwss then southPole ftm flm L spin lo nt (L - 1 + spin)
        (L - 1 + spin + σ.off) else ftm) t (m + L - 1 + σ.off) = ftm t (m + L - 1 + σ.off) := by
      split_ifs with h
      · unfold southPole; rw [if_neg (fun h' => h2 ⟨h, h'⟩)]
      · rfl
    rw [← e1]
    split_ifs with h h'
    · unfold northPole; rw [if_neg (fun h' => h1 ⟨h, h'⟩)]
    · unfold northPole; rw [if_neg (fun h' => h1 ⟨h, h'⟩)]
    · rfl
    · rfl

/-- The values on a ring before the Fourier synthesis. -/
theorem normalised_gAt {flm : ℤ → ℤ → ℂ} {L spin lo : ℤ} (h0 : 0 ≤ lo) (α : ℝ) (m : ℤ) :
    (∑ el ∈ Finset.Ico lo L, (wignerd el m (-spin) α : ℂ) * otfNormalise flm lo el (m + L - 1))
      * (-1) ^ spin = gAt flm L spin lo α m := by
  unfold gAt otfNormalise
  rw [Finset.sum_mul]
  have hsub : Finset.Ico (elStart lo spin) L ⊆ Finset.Ico lo L := by
    intro x; simp only [Finset.mem_Ico, elStart]; omega
  symm
  rw [Finset.sum_subset hsub]
  · apply Finset.sum_congr rfl
    intro el hel
    rw [Finset.mem_Ico] at hel
    rw [if_pos hel.1]; ring
  · intro el h1 h2
    simp only [Finset.mem_Ico, elStart] at h1 h2
    rw [wignerd_outside _ _ _ _ (Or.inr (by rw [abs_neg]; omega))]; simp

end S2fft
