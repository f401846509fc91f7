import Verif.Lemmas.Precompute
import Verif.Lemmas.PriceMcEwen

/-! # The JAX kernel -/

namespace S2fft
open Spec Real

/-- Angles strictly inside, at which the recursion of Price and McEwen meets no zero to divide by. -/
def PmRegular (L spin : ℤ) (θ : ℝ) : Prop :=
  0 < θ ∧ θ < π ∧ ∀ el k, |spin| ≤ el → el < L → 1 ≤ |k| → |k| < el → wignerd el k (-spin) θ ≠ 0

/-- One pass of the loop of `pmAllSlices`. -/
noncomputable def pmPass (P : PmPre) (L mm i : ℤ) (β : ℤ → ℝ) (dl : ℤ → ℤ → ℤ → ℝ) :
    ℤ → ℤ → ℤ → ℝ :=
  let s := pmInit P L mm i β
  let r0 := pmRow (2 * L - 1) i 0
  let dl : ℤ → ℤ → ℤ → ℝ := fun r t el => if r = r0 ∧ L - 1 ≤ el then
    s.d0 t el * P.vsign r0 el * P.exp i el (s.lr t el) else dl r t el
  let r1 := pmRow (2 * L - 1) i 1
  let dl : ℤ → ℤ → ℤ → ℝ := fun r t el => if r = r1 ∧ L - 2 ≤ el then
    s.d1 t el * P.vsign r1 el * P.exp i el (s.lr t el) else dl r t el
  pmLoop P L mm i β L (fun m v (dl : ℤ → ℤ → ℤ → ℝ) =>
    fun r t el => if r = pmRow (2 * L - 1) i m ∧ el ≥ L - m - 1 then
      v t el * P.vsign (pmRow (2 * L - 1) i m) el else dl r t el) dl

theorem pmAllSlices_pass (L spin : ℤ) (β : ℤ → ℝ) :
    pmAllSlices L spin β = pmPass (generatePrecomputesJax L spin β) L (-spin) 1 β
      (pmPass (generatePrecomputesJax L spin β) L (-spin) 0 β (fun _ _ _ => 0)) := by
  unfold pmAllSlices
  simp only
  rw [show (2 : ℤ) = 0 + 1 + 1 by norm_num, forRange_succ (by norm_num), forRange_succ le_rfl,
    forRange_of_le le_rfl]
  rfl

theorem pmRow_inj {n i a b : ℤ} : pmRow n i a = pmRow n i b ↔ a = b := by
  unfold pmRow; split_ifs <;> omega

theorem pmPass_row (P : PmPre) {L mm i m t el : ℤ} (β : ℤ → ℝ) (dl : ℤ → ℤ → ℤ → ℝ) (h0 : 0 ≤ m)
    (h1 : m < L) :
    pmPass P L mm i β dl (pmRow (2 * L - 1) i m) t el
      = if L - 1 - m ≤ el then
          pmRowVal P L mm i β m t el * P.vsign (pmRow (2 * L - 1) i m) el
        else dl (pmRow (2 * L - 1) i m) t el := by
  unfold pmPass
  simp only
  rw [pmLoop_eq]
  unfold pmRowVal
  by_cases m0 : m = 0
  · subst m0
    rw [forRange_frame 2 L _ _ (fun d : ℤ → ℤ → ℤ → ℝ => d (pmRow (2 * L - 1) i 0) t el)
      (fun j d a b => if_neg (by rw [pmRow_inj]; omega))]
    beta_reduce
    rw [if_neg (by rw [pmRow_inj]; omega), if_pos rfl]
    simp only [true_and, sub_zero]
    split_ifs
    · simp only [pmInit]; ring
    · rfl
  · by_cases m1 : m = 1
    · subst m1
      rw [forRange_frame 2 L _ _ (fun d : ℤ → ℤ → ℤ → ℝ => d (pmRow (2 * L - 1) i 1) t el)
        (fun j d a b => if_neg (by rw [pmRow_inj]; omega))]
      beta_reduce
      rw [if_neg m0, if_pos rfl]
      simp only [true_and, show L - 1 - 1 = L - 2 by ring]
      split_ifs with a b
      · simp only [pmInit]; ring
      · exfalso; rw [pmRow_inj] at b; omega
      · rfl
    · rw [if_neg m0, if_neg m1]
      by_cases hel : L - 1 - m ≤ el
      · rw [if_pos hel]
        refine forRange_write 2 L _ _ (fun d : ℤ → ℤ → ℤ → ℝ => d (pmRow (2 * L - 1) i m) t el) m _
          (by omega) h1 (fun d => ?_) (fun j d _ _ hne => ?_)
        · exact if_pos ⟨rfl, by omega⟩
        · exact if_neg (by rw [pmRow_inj]; omega)
      · rw [if_neg hel, forRange_frame 2 L _ _
          (fun d : ℤ → ℤ → ℤ → ℝ => d (pmRow (2 * L - 1) i m) t el) (fun j d a b => if_neg (by
            rw [pmRow_inj]; omega))]
        beta_reduce
        rw [if_neg (by rw [pmRow_inj]; omega), if_neg (by rw [pmRow_inj]; omega)]

theorem pmPass_frame (P : PmPre) {L mm i r t el : ℤ} (β : ℤ → ℝ) (dl : ℤ → ℤ → ℤ → ℝ)
    (hr0 : 0 ≤ r) (hr1 : r ≤ 2 * L - 2) (h : ∀ m, 0 ≤ m → m < L → r ≠ pmRow (2 * L - 1) i m) :
    pmPass P L mm i β dl r t el = dl r t el := by
  unfold pmPass
  simp only
  have hL : 1 < L ∨ L = 1 := by omega
  rw [pmLoop_eq, forRange_frame 2 L _ _ (fun d : ℤ → ℤ → ℤ → ℝ => d r t el)
    (fun j d a b => if_neg (fun hh => h j (by omega) b hh.1))]
  beta_reduce
  rw [if_neg, if_neg]
  · rintro ⟨e, -⟩
    exact h 0 le_rfl (by omega) e
  · rintro ⟨e, -⟩
    rcases hL with hL | hL
    · exact h 1 (by omega) hL e
    · subst hL
      apply h 0 le_rfl one_pos
      rw [e] at hr0 hr1 ⊢
      revert hr0 hr1
      unfold pmRow
      split_ifs <;> intros <;> omega

/-- The slices hold the `d`-functions. -/
theorem pmAllSlices_eq {L spin t el m : ℤ} {β : ℤ → ℝ} (hr : PmRegular L spin (β t))
    (hs : |spin| ≤ el) (hel : el < L) (h0 : -L < m) (h1 : m < L) :
    pmAllSlices L spin β (m + L - 1) t el = wignerd el m (-spin) (β t) := by
  obtain ⟨b0, b1, hz⟩ := hr
  have hel0 : 0 ≤ el := le_trans (abs_nonneg _) hs
  have hsin := (Real.sin_pos_of_pos_of_lt_pi b0 b1).ne'
  rw [pmAllSlices_pass]
  have key : ∀ i m', 0 ≤ m' → m' < L → (i = 0 → m' < L - 1) →
      ∀ dl : ℤ → ℤ → ℤ → ℝ, (m' < L - 1 - el → dl (pmRow (2 * L - 1) i m') t el = 0) →
      pmPass (generatePrecomputesJax L spin β) L (-spin) i β dl (pmRow (2 * L - 1) i m') t el
        = wignerd el (pmOrder L i m') (-spin) (β t) := by
    intro i m' a b c dl hdl
    have e := pmRowVal_eq (P := generatePrecomputesJax L spin β) b0 b1 hs hel
      (pmGood_jax hsin hs hel) a b c (fun k k1 k2 => hz el k hs hel k1 k2)
    rw [pmPass_row _ _ _ a b, ← e]
    split_ifs with hh
    · rfl
    · rw [hdl (by omega)]
      have : wignerd el (pmOrder L i m') (-spin) (β t) = 0 := by
        apply wignerd_outside
        left
        unfold pmOrder
        rw [lt_abs]
        split_ifs <;> omega
      rw [e, this]
  by_cases hm : 0 ≤ m
  · have hrow : m + L - 1 = pmRow (2 * L - 1) 1 (L - 1 - m) := by
      unfold pmRow; rw [if_neg one_ne_zero]; ring
    have hord : pmOrder L 1 (L - 1 - m) = m := by unfold pmOrder; rw [if_neg one_ne_zero]; ring
    rw [hrow, key 1 _ (by omega) (by omega) (fun h => absurd h one_ne_zero), hord]
    intro hlt
    rw [← hrow, pmPass_frame _ _ _ (by omega) (by omega)]
    intro m' a b
    unfold pmRow; rw [if_pos rfl]; omega
  · rw [pmPass_frame _ _ _ (by omega) (by omega) (fun m' a b => by
      unfold pmRow; rw [if_neg one_ne_zero]; omega)]
    have hrow : m + L - 1 = pmRow (2 * L - 1) 0 (m + L - 1) := by unfold pmRow; rw [if_pos rfl]
    have hord : pmOrder L 0 (m + L - 1) = m := by unfold pmOrder; rw [if_pos rfl]; ring
    rw [hrow, key 0 _ (by omega) (by omega) (fun _ => by omega) _ (fun _ => rfl), hord]

/-- Rings whose values are set by hand. -/
def PoleRing (σ : Scheme) (nt t : ℤ) : Prop :=
  (σ = .mwss ∧ t = 0) ∨ ((σ = .mw ∨ σ = .mwss) ∧ t = nt - 1)

theorem jaxSet_eq {n i : ℤ} (h : 0 ≤ i) : jaxSet n i = i := if_neg (by omega)

/-- The JAX kernel by the recursion of Price and McEwen. -/
theorem kernelPmJax_is {σ : Scheme} {s : PyStr} (hs : lower s = σ.name) {L spin nt : ℤ}
    {θ : ℤ → ℝ} (reality : Bool) (hn : σ = .mwss → 1 < nt)
    (h0 : σ = .mwss → θ 0 = 0) (h1 : σ = .mw ∨ σ = .mwss → θ (nt - 1) = π)
    {t : ℤ} (ht : PoleRing σ nt t ∨ PmRegular L spin (θ t)) {el m : ℤ} (e0 : 0 ≤ el) (e1 : el < L)
    (m0 : -L < m) (m1 : m < L) :
    kernelPmJax L spin s nt θ reality t el (m + L - 1 - mStart L reality)
      = wignerd el m (-spin) (θ t) * elfactor el := by
  unfold kernelPmJax
  simp only
  rw [show mStart L reality + (m + L - 1 - mStart L reality) = m + L - 1 by ring]
  congr 1
  by_cases he : el < |spin|
  · rw [if_pos he, mul_zero, wignerd_outside _ _ _ _ (Or.inr (by rwa [abs_neg]))]
  rw [if_neg he]
  have hsp := abs_le.1 (not_lt.1 he)
  have c1 : (lower s = sMW ∨ lower s = sMWSS) ↔ (σ = .mw ∨ σ = .mwss) := by
    rw [hs]; cases σ <;> decide
  have c2 : lower s = sMWSS ↔ σ = .mwss := by rw [hs]; cases σ <;> decide
  have south : t = nt - 1 → (σ = .mw ∨ σ = .mwss) →
      (if m + L - 1 = jaxSet (2 * L - 1) (L - 1 + spin) then (-1 : ℝ) ^ (el - spin) else 0)
        = wignerd el m (-spin) (θ t) := by
    intro ht hσ
    rw [jaxSet_eq (by omega), ht, h1 hσ, wignerd_at_pi]
    by_cases hm : m = spin
    · rw [if_pos (by omega), if_pos ⟨by rw [hm]; exact not_lt.1 he, by omega⟩, sub_eq_add_neg]
    · rw [if_neg (by omega), if_neg (by omega)]
  have north : t = 0 → σ = .mwss →
      (if m + L - 1 = jaxSet (2 * L - 1) (L - 1 - spin) then (1 : ℝ) else 0)
        = wignerd el m (-spin) (θ t) := by
    intro ht hσ
    rw [jaxSet_eq (by omega), ht, h0 hσ, wignerd_at_zero]
    by_cases hm : m = -spin
    · rw [if_pos (by omega), if_pos ⟨by rw [hm, abs_neg]; exact not_lt.1 he, hm⟩]
    · rw [if_neg (by omega), if_neg (by omega)]
  have inside : ¬ PoleRing σ nt t → pmAllSlices L spin θ (m + L - 1) t el
      = wignerd el m (-spin) (θ t) := fun h =>
    pmAllSlices_eq (ht.resolve_left h) (not_lt.1 he) e1 m0 m1
  unfold PoleRing at inside
  by_cases hσ : lower s = sMW ∨ lower s = sMWSS
  · rw [if_pos hσ]
    have hσ' := c1.1 hσ
    by_cases htn : t = nt - 1
    · simp only [if_pos htn]
      exact south htn hσ'
    · simp only [if_neg htn]
      by_cases hw : lower s = sMWSS
      · rw [if_pos hw]
        have hw' := c2.1 hw
        by_cases ht0 : t = 0
        · simp only [if_pos ht0]; exact north ht0 hw'
        · simp only [if_neg ht0]
          exact inside (fun h => h.elim (fun h => ht0 h.2) (fun h => htn h.2))
      · rw [if_neg hw]
        have hw' := mt c2.2 hw
        exact inside (fun h => h.elim (fun h => hw' h.1) (fun h => htn h.2))
  · rw [if_neg hσ, if_neg (fun h => hσ (Or.inr h))]
    have hσ' := mt c1.2 hσ
    exact inside (fun h => h.elim (fun h => hσ' (Or.inr h.1)) (fun h => hσ' h.1))

/-- The rings of a kernel set by hand are at the poles. -/
theorem kTheta_poles (nodes : ℤ → ℤ → ℝ) {σ : Scheme} {L nside : ℤ} (hv : σ.Valid L nside)
    (forward : Bool) :
    (kScheme σ forward = .mwss → 1 < kRings σ L nside forward ∧
      kTheta nodes σ L nside forward 0 = 0) ∧
    (kScheme σ forward = .mw ∨ kScheme σ forward = .mwss →
      kTheta nodes σ L nside forward (kRings σ L nside forward - 1) = π) := by
  have hL := hv.1
  have hLr : (1 : ℝ) ≤ L := by exact_mod_cast hL
  cases forward with
  | false =>
    show (σ = .mwss → 1 < σ.rings L nside ∧ σ.theta nodes L nside 0 = 0) ∧
      (σ = .mw ∨ σ = .mwss → σ.theta nodes L nside (σ.rings L nside - 1) = π)
    constructor
    · rintro rfl
      refine ⟨by simp only [Scheme.rings]; omega, by simp [Scheme.theta]⟩
    · rintro (rfl | rfl)
      · simp only [Scheme.theta, Scheme.rings]
        push_cast
        have : 2 * (L : ℝ) - 1 ≠ 0 := by linarith
        field_simp; ring
      · simp only [Scheme.theta, Scheme.rings]
        push_cast
        have : (L : ℝ) ≠ 0 := by linarith
        field_simp; ring
  | true =>
    show (σ.inner = .mwss → 1 < innerRings σ L nside ∧ innerTheta nodes σ L nside 0 = 0) ∧
      (σ.inner = .mw ∨ σ.inner = .mwss →
        innerTheta nodes σ L nside (innerRings σ L nside - 1) = π)
    have hR : σ.inner = .mw ∨ σ.inner = .mwss → σ.Resampled := by cases σ <;> decide
    constructor
    · intro h
      unfold innerRings innerTheta
      rw [if_pos (hR (Or.inr h)), if_pos (hR (Or.inr h))]
      exact ⟨by omega, by simp⟩
    · intro h
      unfold innerRings innerTheta
      rw [if_pos (hR h), if_pos (hR h)]
      push_cast
      have : (L : ℝ) ≠ 0 := by linarith
      field_simp; ring

/-- The rings of a kernel are at the poles, where the values are set by hand, or at angles that the
recursion handles. -/
def KernelRegular (nodes : ℤ → ℤ → ℝ) (σ : Scheme) (L nside spin : ℤ) (forward : Bool) : Prop :=
  ∀ t, 0 ≤ t → t < kRings σ L nside forward →
    PoleRing (kScheme σ forward) (kRings σ L nside forward) t ∨
      PmRegular L spin (kTheta nodes σ L nside forward t)

theorem spinSphericalKernelJax_ok (G : GlTables) {σ : Scheme} {s : PyStr} (hs : lower s = σ.name)
    {L spin : ℤ} {nside : Option ℤ} (hv : σ.Valid L (nside.getD 0)) (reality forward : Bool)
    {recursion : PyStr} (hrec : recursion ∈ [rAuto, rPm, rRisbo])
    (hp : recursion = rPm → |spin| ≤ 6) (hR : Risbo spin recursion → |spin| < L)
    (hreg : ¬ Risbo spin recursion → KernelRegular G.nodes σ L (nside.getD 0) spin forward) :
    ∃ K, spinSphericalKernelJax G L spin reality s nside forward recursion
        = .ok (.d3 (kRings σ L (nside.getD 0) forward) L (mDim L (effReality reality spin)) K) ∧
      KernelIs K (kScheme σ forward) L (nside.getD 0) spin (kRings σ L (nside.getD 0) forward)
        (effReality reality spin) forward
        (kTheta G.nodes σ L (nside.getD 0) forward)
        (kWeight G σ L (nside.getD 0) forward) := by
  obtain ⟨θ, e, hθ⟩ := kernelThetas_ok G hs hv forward
  have hpos := kRings_pos hv forward
  have l2 : lower rPm = rPm := rfl
  have l3 : lower rRisbo = rRisbo := rfl
  have n2 : ¬ rRisbo = rPm := by decide
  obtain ⟨dl, e1, hd⟩ : ∃ dl, kernelDlJax L spin (kName σ s forward)
      (kRings σ L (nside.getD 0) forward) θ (effReality reality spin)
      (if Risbo spin recursion then rRisbo else rPm) = .ok dl ∧
      DlIs dl L spin (kRings σ L (nside.getD 0) forward) (effReality reality spin)
        (kTheta G.nodes σ L (nside.getD 0) forward) := by
    unfold kernelDlJax
    by_cases h : Risbo spin recursion
    · simp only [if_pos h, l3, if_neg n2, if_true]
      exact ⟨_, rfl, (kernelRisbo_ok G.nodes hs hv forward _ (hR h) hθ).2⟩
    · simp only [if_neg h, l2, if_true]
      obtain ⟨p1, p2⟩ := kTheta_poles G.nodes hv forward
      refine ⟨_, rfl, ?_⟩
      intro t el m t0 t1 a b c d _
      rw [kernelPmJax_is (kName_lower hs forward) _ (fun h => (p1 h).1)
        (fun h => by rw [hθ 0 le_rfl hpos]; exact (p1 h).2)
        (fun h => by rw [hθ _ (by omega) (by omega)]; exact p2 h)
        (by rw [hθ t t0 t1]; exact hreg h t t0 t1) a b c d, hθ t t0 t1]
  obtain ⟨K, e2, hK⟩ := kernelFold_scheme G hs hv forward (effReality reality spin) hd
  refine ⟨K, ?_, hK⟩
  unfold spinSphericalKernelJax
  rw [chooseRecursion_ok hrec hp, e]
  show (kernelDlJax L spin (kName σ s forward) _ θ (effReality reality spin) _ >>= _) = _
  rw [e1]
  exact e2

end S2fft
