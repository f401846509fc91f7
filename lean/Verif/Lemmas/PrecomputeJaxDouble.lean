import Verif.Lemmas.PrecomputeWignerDoubleInverse
import Verif.Model.PrecomputeJaxDouble
import Verif.Lemmas.PrecomputeWignerDouble
import Verif.Lemmas.DhWeightsDouble
import Verif.Lemmas.RisboJaxDouble

/-! # The kernels and weights of the JAX transforms in double precision -/

namespace S2fft
open Spec

/-! ## Spherical kernels -/

/-- The uniform branch. -/
theorem kernelRisboFourierJ_near (F : XlaLib) {L spin nt : ℤ} {s : PyStr} {θ θ' : ℤ → ℝ} {E : ℝ}
    {reality : Bool} (hL : 1 ≤ L) (hL1 : L ≤ 2 ^ 26) (hE : Covers L E)
    (hg : UniformGrid L nt (kernelSamps s nt) θ) (hn : kernelSamps s nt ≤ 4 * L)
    (hnt : nt ≤ kernelSamps s nt) (hθ0 : 0 ≤ θ 0) (hLθ : (L - 1 : ℝ) * θ 0 ≤ Real.pi)
    (hθ : |θ' 0 - θ 0| ≤ θ 0 / 2 ^ 51) (hs : |spin| < L) :
    DlNear (kernelRisboFourierJ F L spin (L - 1 - spin) s nt θ' reality) L spin nt reality θ (5 * E) L := by
  obtain ⟨b0, b1, b2, b3⟩ := halfPiF F.toDoubleLib
  unfold kernelRisboFourierJ
  have := forRange_ind (show (0 : ℤ) ≤ L by omega)
    (fun el (st : (ℤ → ℤ → ℝ) × (ℤ → ℤ → ℤ → ℝ)) =>
      let delta := risboFullJ F st.1 (F.fl (F.fl Real.pi / 2)) L el
      (delta, setDegree st.2 el (fun t j =>
        F.irfft L (fun a => kernelFourierF F.toFftLib L spin (L - 1 - spin) (θ' 0) reality delta a j)
          (kernelSamps s nt) t)))
    (fun _ _ => 0, fun _ _ _ => 0)
    (fun el st => (if el = 0 then ∀ m n : ℤ, st.1 (m + L - 1) (n + L - 1) = 0
        else HoldsNear st.1 L (el - 1) (Real.pi / 2)) ∧
      DlNear st.2 L spin nt reality θ (5 * E) el)
    ⟨by simp, fun t el m _ _ a b => absurd a (by omega)⟩
    (fun el st h1 h2 h3 => by
      have hs' := risboFullJ_near F h1 (by omega) b2 b3 h3.1
      refine ⟨?_, ?_⟩
      · rw [if_neg (by omega), add_sub_cancel_right]; exact hs'
      · exact h3.2.step fun t m t0 t1 hm =>
          kernelDlF_near F.toFftLib hL hL1 hE hg hn hnt hθ0 hLθ hθ h1 h2 hs' hs t0 t1 hm)
  exact this.2

/-- The direct branch, at the angles given. -/
theorem kernelRisboDirectJ_near (F : XlaLib) {L spin nt : ℤ} {θ' : ℤ → ℝ} {E : ℝ} {reality : Bool}
    (hL : 1 ≤ L) (hL1 : L ≤ 2 ^ 26) (hE : Covers L E)
    (hθ : ∀ t, 0 ≤ t → t < nt → |θ' t| ≤ 4) :
    DlNear (kernelRisboDirectJ F L (L - 1 - spin) θ' reality) L spin nt reality θ' E L := by
  unfold kernelRisboDirectJ
  have := forRange_ind (show (0 : ℤ) ≤ L by omega)
    (fun el (st : (ℤ → ℤ → ℤ → ℝ) × (ℤ → ℤ → ℤ → ℝ)) =>
      let delta := fun t => risboFullJ F (st.1 t) (θ' t) L el
      (delta, setDegree st.2 el (fun t j => delta t (mStart L reality + j) (L - 1 - spin))))
    (fun _ _ _ => 0, fun _ _ _ => 0)
    (fun el st => (∀ t, 0 ≤ t → t < nt → if el = 0 then ∀ m n : ℤ, st.1 t (m + L - 1) (n + L - 1) = 0
        else HoldsNear (st.1 t) L (el - 1) (θ' t)) ∧
      DlNear st.2 L spin nt reality θ' E el)
    ⟨by simp, fun t el m _ _ a b => absurd a (by omega)⟩
    (fun el st h1 h2 h3 => by
      have hs' : ∀ t, 0 ≤ t → t < nt → HoldsNear (risboFullJ F (st.1 t) (θ' t) L el) L el (θ' t) :=
        fun t t0 t1 => risboFullJ_near F h1 (by omega) (hθ t t0 t1) (by simp) (h3.1 t t0 t1)
      refine ⟨fun t t0 t1 => ?_, h3.2.step fun t m t0 t1 hm => ?_⟩
      · rw [if_neg (by omega), add_sub_cancel_right]; exact hs' t t0 t1
      · rw [show mStart L reality + (m + L - 1 - mStart L reality) = m + L - 1 by ring,
          show L - 1 - spin = -spin + L - 1 by ring]
        exact le_trans ((hs' t t0 t1).entry h1 m (-spin)) (hE.1 el h1 h2))
  exact this.2

/-- The kernel on the uniform grids. -/
theorem kernelRisboJ_near (F : XlaLib) {L spin nt : ℤ} {s : PyStr} {θ θ' : ℤ → ℝ} {E : ℝ}
    {reality : Bool} (hs' : lower s = sMW ∨ lower s = sMWSS ∨ lower s = sDH) (hL : 1 ≤ L)
    (hL1 : L ≤ 2 ^ 26) (hE : Covers L E) (hg : UniformGrid L nt (kernelSamps s nt) θ)
    (hn : kernelSamps s nt ≤ 4 * L) (hnt : nt ≤ kernelSamps s nt) (hθ0 : 0 ≤ θ 0)
    (hLθ : (L - 1 : ℝ) * θ 0 ≤ Real.pi) (hθ : |θ' 0 - θ 0| ≤ θ 0 / 2 ^ 51) (hs : |spin| < L) :
    KernelNearF (kernelRisboJ F L spin s nt θ' reality) L spin nt reality θ (6 * E) := by
  have h := kernelRisboFourierJ_near F (reality := reality) hL hL1 hE hg hn hnt hθ0 hLθ hθ hs
  have hp := hE.pos hL
  have c1 : ¬ (lower s = sHP ∨ lower s = sGL) := by
    rcases hs' with h | h | h <;> rw [h] <;> decide
  intro t el m t0 t1 e0 e1 hm
  unfold kernelRisboJ
  rw [jaxGet_spin hs, if_neg c1, if_pos hs']
  refine le_trans (h.kernel F.toDoubleLib (by omega) (by linarith [hE.2.2]) t el m t0 t1 e0 e1 hm) ?_
  refine mul_le_mul_of_nonneg_left ?_ (by linarith [elfactor_ge e0])
  norm_num at hp ⊢
  linarith

/-- The kernel on the Gauss-Legendre grid, with colatitudes off by `τ`. -/
theorem kernelRisboJ_near_gl (F : XlaLib) {L spin nt : ℤ} {s : PyStr} {θ θ' : ℤ → ℝ} {E τ : ℝ}
    {reality : Bool} (hs' : lower s = sGL) (hL : 1 ≤ L)
    (hL1 : L ≤ 2 ^ 26) (hE : Covers L E) (hθ4 : ∀ t, 0 ≤ t → t < nt → |θ' t| ≤ 4)
    (hθ : ∀ t, 0 ≤ t → t < nt → |θ' t - θ t| ≤ τ) (hτ : L * τ ≤ 1 / 4) (hs : |spin| < L) :
    KernelNearF (kernelRisboJ F L spin s nt θ' reality) L spin nt reality θ (2 * E + L * τ) := by
  have h := kernelRisboDirectJ_near F (spin := spin) (reality := reality) hL hL1 hE hθ4
  have hp := hE.pos hL
  have h' : DlNear (kernelRisboDirectJ F L (L - 1 - spin) θ' reality) L spin nt reality θ
      (E + L * τ) L := by
    intro t el m t0 t1 e0 e1 hm
    have h1 := h t el m t0 t1 e0 e1 hm
    have h2 := wignerd_lipschitz el m (-spin) e0 (θ' t) (θ t)
    have h3 : ((el : ℝ) + 1) * |θ' t - θ t| ≤ L * τ := by
      have : (el : ℝ) + 1 ≤ L := by exact_mod_cast (by omega : el + 1 ≤ L)
      have h0' : (0 : ℝ) ≤ el := by exact_mod_cast e0
      exact mul_le_mul this (hθ t t0 t1) (abs_nonneg _) (by linarith)
    exact (abs_sub_le _ _ _).trans (add_le_add h1 (h2.trans h3))
  intro t el m t0 t1 e0 e1 hm
  unfold kernelRisboJ
  rw [jaxGet_spin hs, if_pos (Or.inr hs')]
  refine le_trans (h'.kernel F.toDoubleLib (by omega) (by linarith [hE.2.2]) t el m t0 t1 e0 e1 hm) ?_
  refine mul_le_mul_of_nonneg_left ?_ (by linarith [elfactor_ge e0])
  norm_num at hp ⊢
  linarith

/-- The kernel before the weights, on the uniform grids. -/
theorem spinSphericalKernelJ_near (F : XlaLib) (lg nodes : ℤ → ℤ → ℝ) (w : ℤ → ℝ) {σ : Scheme}
    (hσ : σ = .mw ∨ σ = .mwss ∨ σ = .dh) {s : PyStr} (hs : lower s = σ.name) {L spin n : ℤ} {E : ℝ}
    (hv : σ.Valid L n) (hL1 : L ≤ 2 ^ 26) (hE : Covers L E) (hsp : |spin| < L) (reality forward : Bool) :
    ∃ K, spinSphericalKernelJ F lg w L spin reality s forward
        = .ok (.d3 (kRings σ L n forward) L (mDim L (effReality reality spin))
            (if forward then fun t el j => F.fl (K t el j * w t) else K)) ∧
      KernelNearF K L spin (kRings σ L n forward) (effReality reality spin)
        (kTheta nodes σ L n forward) (6 * E) := by
  have hL := hv.1
  obtain ⟨T, e, h⟩ := kernelThetasF_ok F.toDoubleLib lg nodes hσ hs (n := n) hL (by omega) forward
  obtain ⟨g1, g2, g3, g4, g5⟩ := kGrid_bounds nodes hσ hs n hL forward
  have hu := kTheta_uniform nodes hs hv forward (by rintro rfl; simp at hσ) (by rintro rfl; simp at hσ)
  refine ⟨_, ?_, kernelRisboJ_near F (reality := effReality reality spin) (θ' := T) g5 hL hL1 hE hu
    g1 g2 g3 g4 (h 0 le_rfl (kRings_pos hv forward)) hsp⟩
  unfold spinSphericalKernelJ
  rw [e]
  rfl

/-! ## Wigner kernels -/

/-- The "fft" branch. -/
theorem wignerFourierJ_near (F : XlaLib) {L n0 nd nt : ℤ} {s : PyStr} {θ θ' : ℤ → ℝ} {E : ℝ}
    {cols : ℤ → ℤ} (hL : 1 ≤ L) (hL1 : L ≤ 2 ^ 26) (hE : Covers L E)
    (hg : UniformGrid L nt (kernelSamps s nt) θ) (hn : kernelSamps s nt ≤ 4 * L)
    (hnt : nt ≤ kernelSamps s nt) (hθ0 : 0 ≤ θ 0) (hLθ : (L - 1 : ℝ) * θ 0 ≤ Real.pi)
    (hθ : |θ' 0 - θ 0| ≤ θ 0 / 2 ^ 51) (hnd : ∀ k, 0 ≤ k → k < nd → |n0 + k| < L)
    (hc : ∀ k, 0 ≤ k → k < nd → cols k = n0 + k + L - 1) :
    WDlNear (wignerFourierJ F L n0 cols s nt θ') L n0 nd nt θ (5 * E) L := by
  obtain ⟨b0, b1, b2, b3⟩ := halfPiF F.toDoubleLib
  unfold wignerFourierJ
  have := forRange_ind (show (0 : ℤ) ≤ L by omega)
    (fun el (st : (ℤ → ℤ → ℝ) × (ℤ → ℤ → ℤ → ℤ → ℝ)) =>
      let delta := risboFullJ F st.1 (F.fl (F.fl Real.pi / 2)) L el
      (delta, fun k => setDegree (st.2 k) el (fun t j =>
        F.irfft L (fun a => wignerFourierCoeffF F.toFftLib L (n0 + k) (cols k) (θ' 0) delta a j)
          (kernelSamps s nt) t)))
    (fun _ _ => 0, fun _ _ _ _ => 0)
    (fun el st => (if el = 0 then ∀ m n : ℤ, st.1 (m + L - 1) (n + L - 1) = 0
        else HoldsNear st.1 L (el - 1) (Real.pi / 2)) ∧
      WDlNear st.2 L n0 nd nt θ (5 * E) el)
    ⟨by simp, fun k t el m _ _ _ _ a b => absurd a (by omega)⟩
    (fun el st h1 h2 h3 => by
      have hs' := risboFullJ_near F h1 (by omega) b2 b3 h3.1
      refine ⟨?_, ?_⟩
      · rw [if_neg (by omega), add_sub_cancel_right]; exact hs'
      · refine h3.2.step (v := fun k t j => F.irfft L (fun a => wignerFourierCoeffF F.toFftLib L (n0 + k)
          (cols k) (θ' 0) (risboFullJ F st.1 (F.fl (F.fl Real.pi / 2)) L el) a j)
          (kernelSamps s nt) t) fun k t m k0 k1 t0 t1 hm => ?_
        rw [hc k k0 k1]
        exact wignerDlF_near F.toFftLib hL hL1 hE hg hn hnt hθ0 hLθ hθ h1 h2 hs' (hnd k k0 k1) t0 t1 hm)
  exact this.2

/-- The "direct" branch, with colatitudes off by `τ`. -/
theorem wignerDirectJ_near (F : XlaLib) {L n0 nd nt : ℤ} {θ θ' : ℤ → ℝ} {E τ : ℝ} {cols : ℤ → ℤ}
    (hL : 1 ≤ L) (hL1 : L ≤ 2 ^ 26) (hE : Covers L E)
    (hθ4 : ∀ t, 0 ≤ t → t < nt → |θ' t| ≤ 4) (hθ : ∀ t, 0 ≤ t → t < nt → |θ' t - θ t| ≤ τ)
    (hc : ∀ k, 0 ≤ k → k < nd → cols k = n0 + k + L - 1) :
    WDlNear (wignerDirectJ F L cols θ') L n0 nd nt θ (E + L * τ) L := by
  unfold wignerDirectJ
  have := forRange_ind (show (0 : ℤ) ≤ L by omega)
    (fun el (st : (ℤ → ℤ → ℤ → ℝ) × (ℤ → ℤ → ℤ → ℤ → ℝ)) =>
      let delta := fun t => risboFullJ F (st.1 t) (θ' t) L el
      (delta, fun k => setDegree (st.2 k) el (fun t j => delta t j (cols k))))
    (fun _ _ _ => 0, fun _ _ _ _ => 0)
    (fun el st => (∀ t, 0 ≤ t → t < nt → if el = 0 then ∀ m n : ℤ, st.1 t (m + L - 1) (n + L - 1) = 0
        else HoldsNear (st.1 t) L (el - 1) (θ' t)) ∧
      WDlNear st.2 L n0 nd nt θ' E el)
    ⟨by simp, fun k t el m _ _ _ _ a b => absurd a (by omega)⟩
    (fun el st h1 h2 h3 => by
      have hs' : ∀ t, 0 ≤ t → t < nt → HoldsNear (risboFullJ F (st.1 t) (θ' t) L el) L el (θ' t) :=
        fun t t0 t1 => risboFullJ_near F h1 (by omega) (hθ4 t t0 t1) (by simp) (h3.1 t t0 t1)
      refine ⟨fun t t0 t1 => ?_, h3.2.step (v := fun k t j => risboFullJ F (st.1 t) (θ' t) L el j
        (cols k)) fun k t m k0 k1 t0 t1 hm => ?_⟩
      · rw [if_neg (by omega), add_sub_cancel_right]; exact hs' t t0 t1
      · rw [hc k k0 k1]
        exact le_trans ((hs' t t0 t1).entry h1 m (n0 + k)) (hE.1 el h1 h2))
  intro k t el m k0 k1 t0 t1 e0 e1 hm
  have h1 := this.2 k t el m k0 k1 t0 t1 e0 e1 hm
  have h2 := wignerd_lipschitz el m (n0 + k) e0 (θ' t) (θ t)
  have h3 : ((el : ℝ) + 1) * |θ' t - θ t| ≤ L * τ := by
    have : (el : ℝ) + 1 ≤ L := by exact_mod_cast (by omega : el + 1 ≤ L)
    have h0' : (0 : ℝ) ≤ el := by exact_mod_cast e0
    exact mul_le_mul this (hθ t t0 t1) (abs_nonneg _) (by linarith)
  exact le_trans (abs_sub_le _ _ _) (by linarith)

/-- The kernel in terms of planes near the Wigner functions, on the uniform grids. -/
theorem wignerKernelJ_near (F : XlaLib) (lg nodes : ℤ → ℤ → ℝ) (logL : ℝ) (w : ℤ → ℝ) {σ : Scheme}
    (hσ : σ = .mw ∨ σ = .mwss ∨ σ = .dh) {L N : ℤ} {E : ℝ} (hL : 1 ≤ L) (hL1 : L ≤ 2 ^ 26)
    (h1 : 1 ≤ N) (hN : N ≤ L) (hE : Covers L E) (reality forward : Bool) {mode : PyStr}
    (hm : ModeOk σ L mode) :
    ∃ dl, wignerKernelJ F lg logL w L N reality σ.name forward mode
        = .ok ⟨nDim N reality, kRings σ L 0 forward, L, 2 * L - 1, fun k t el j =>
          ((if forward then F.fl (F.fl (dl k t el j * w t) * gammaWeightF F.toDoubleLib N)
            else F.fl (dl k t el j * degreeWeightF F.toDoubleLib el) : ℝ) : ℂ)⟩ ∧
      WDlNear dl L (nFirst N reality) (nDim N reality) (kRings σ L 0 forward)
        (kTheta nodes σ L 0 forward) (5 * E) L := by
  have hh : σ ≠ .healpix := by rintro rfl; simp at hσ
  have hgl : σ ≠ .gl := by rintro rfl; simp at hσ
  have hv : σ.Valid L 0 := ⟨hL, fun h => absurd h hh⟩
  have hL' : (1 : ℝ) ≤ L := by exact_mod_cast hL
  have hb := nFirst_bounds h1 reality
  obtain ⟨T, e, h⟩ := kernelThetasF_ok F.toDoubleLib lg nodes hσ (lower_name σ) (n := 0) hL (by omega)
    forward
  obtain ⟨g1, g2, g3, g4, g5⟩ := kGrid_bounds nodes hσ (lower_name σ) 0 hL forward
  have hu := kTheta_uniform nodes (lower_name σ) hv forward hgl hh
  obtain ⟨μ, eμ, hμ⟩ := chooseModeF_ok F.toDoubleLib logL (lower_name σ) (N := N) hm
  have hc : ∀ k, 0 ≤ k → k < nDim N reality →
      wignerColumnsJax L N reality k = nFirst N reality + k + L - 1 := fun k k0 k1 => by
    rw [wignerColumnsJax_ok h1 hN reality k0 k1]; ring
  have key : ∃ dl, (if lower μ = mdDirect then pure (wignerDirectJ F L (wignerColumnsJax L N reality) T)
      else if lower μ = mdFft then pure (wignerFourierJ F L (nFirst N reality)
        (wignerColumnsJax L N reality) (kName σ σ.name forward) (kRings σ L 0 forward) T)
      else .error .valueError : Except PyErr (ℤ → ℤ → ℤ → ℤ → ℝ)) = .ok dl ∧
      WDlNear dl L (nFirst N reality) (nDim N reality) (kRings σ L 0 forward)
        (kTheta nodes σ L 0 forward) (5 * E) L := by
    rcases hμ with rfl | ⟨rfl, -⟩
    · rw [if_pos (by decide)]
      have hpi := Real.pi_le_four
      have hpi3 := Real.pi_lt_d2
      have hth : ∀ t, 0 ≤ t → t < kRings σ L 0 forward →
          0 ≤ kTheta nodes σ L 0 forward t ∧ kTheta nodes σ L 0 forward t ≤ Real.pi := fun t t0 t1 =>
        kTheta_mem nodes hv t0 t1
      have hc' : ∀ t, 0 ≤ t → t < kRings σ L 0 forward →
          |T t - kTheta nodes σ L 0 forward t| ≤ 4 / 2 ^ 51 := fun t t0 t1 =>
        (h t t0 t1).trans (by gcongr; linarith [(hth t t0 t1).2])
      refine ⟨_, rfl, fun k t el m k0 k1 t0 t1 e0 e1 hm' => ?_⟩
      refine (wignerDirectJ_near F hL hL1 hE (fun t t0 t1 => ?_) hc' hc k t el m k0 k1 t0 t1 e0
        e1 hm').trans ?_
      · have a1 := abs_le.1 (hc' t t0 t1)
        have a2 := hth t t0 t1
        norm_num at a1 hpi3
        rw [abs_le]
        constructor <;> linarith
      · have := hE.2.1
        norm_num at this ⊢
        linarith
    · rw [if_neg (by decide), if_pos (by decide)]
      exact ⟨_, rfl, wignerFourierJ_near F hL hL1 hE hu g1 g2 g3 g4 (h 0 le_rfl (kRings_pos hv forward))
        (fun k k0 k1 => by rw [nDim_eq] at k1; rw [abs_lt]; omega) hc⟩
  obtain ⟨dl, edl, hdl⟩ := key
  refine ⟨dl, ?_, hdl⟩
  unfold wignerKernelJ
  rw [eμ]
  simp only [bind, Except.bind]
  rw [e]
  simp only
  rcases hμ with rfl | ⟨rfl, -⟩
  · rw [if_pos (by decide)] at edl ⊢
    simp only [pure, Except.pure] at edl ⊢
    injection edl with edl
    subst edl
    cases forward <;> rfl
  · rw [if_neg (by decide), if_pos (by decide)] at edl ⊢
    simp only [pure, Except.pure] at edl ⊢
    injection edl with edl
    subst edl
    cases forward <;> rfl

/-! ## Driscoll–Healy weights -/

/-- The reciprocal of an integer. -/
theorem flInv_near {fl : ℝ → ℝ} (hf : RoundsToNearest fl) {n : ℝ} (h1 : 1 ≤ n) (h2 : n ≤ 2 ^ 28) :
    ∃ d, |d| ≤ 1 / 2 ^ 53 ∧ fl (1 / n) = 1 / n * (1 + d) := by
  obtain ⟨d, hd, ed, -⟩ := fl_rel_pos hf (x := 1 / n) (c := 1 / 2 ^ 28)
    (one_div_le_one_div_of_le (by linarith) h2) (by norm_num)
  exact ⟨d, hd, ed⟩

/-- A term of the sum. -/
theorem dhTermJ_near (F : XlaLib) (fuse : ℤ → Bool) {k : ℤ} {θ θ' : ℝ} (w : ℝ) (h0 : 0 ≤ k)
    (h1 : k < 2 ^ 26) (hθ0 : 0 ≤ θ) (hθ1 : θ ≤ Real.pi) (hθ : |θ' - θ| ≤ θ / 2 ^ 51) :
    ∃ q', dhTermJ F fuse θ' k w = F.fl (w + q') ∧
      |q' - Real.sin ((2 * (k : ℝ) + 1) * θ) / (2 * k + 1)| ≤ 5 / 2 ^ 50 := by
  have hf := F.nearest
  have hk : (0 : ℝ) ≤ k := by exact_mod_cast h0
  have hk2 : (k : ℝ) ≤ 2 ^ 26 := by exact_mod_cast h1.le
  have ht := dhTermF_near F.toDoubleLib h0 h1 hθ0 hθ1 hθ
  have hs := dhSinF_near F.toDoubleLib h0 hθ0 hθ1 hθ
  have hsin := Real.abs_sin_le_one ((2 * (k : ℝ) + 1) * θ)
  unfold dhTermJ
  simp only
  rw [fl_int hf (by rw [abs_of_nonneg (by omega)]; omega)] at ht ⊢
  push_cast at ht ⊢
  generalize F.sin (F.fl ((2 * (k : ℝ) + 1) * θ')) = s' at *
  generalize Real.sin ((2 * (k : ℝ) + 1) * θ) = s at *
  have hn1 : (1 : ℝ) ≤ 2 * k + 1 := by linarith
  have hn2 : 2 * (k : ℝ) + 1 ≤ 2 ^ 28 := by norm_num at hk2 ⊢; linarith
  generalize 2 * (k : ℝ) + 1 = n at *
  obtain ⟨d, hd, ed⟩ := flInv_near hf hn1 hn2
  have hs' : |s' / n| ≤ 2 := by
    rw [abs_div, abs_of_pos (by linarith : 0 < n), div_le_iff₀ (by linarith)]
    have := abs_sub_abs_le_abs_sub s' s
    norm_num at hs
    linarith
  have hq1 : |s' / n - s / n| ≤ 4 / 2 ^ 50 := by
    rw [← sub_div, abs_div, abs_of_pos (by linarith : 0 < n), div_le_iff₀ (by linarith), mul_comm]
    exact hs
  have hr : |s' * F.fl (1 / n) - s / n| ≤ 4 / 2 ^ 50 + 2 / 2 ^ 53 := by
    rw [ed, show s' * (1 / n * (1 + d)) - s / n = (s' / n - s / n) + d * (s' / n) by ring]
    refine (abs_add_le _ _).trans (add_le_add hq1 ?_)
    rw [abs_mul]
    calc |d| * |s' / n| ≤ 1 / 2 ^ 53 * 2 := by gcongr
      _ = 2 / 2 ^ 53 := by norm_num
  have hsn : |s / n| ≤ 1 := by
    rw [abs_div, abs_of_pos (by linarith : 0 < n), div_le_one (by linarith)]
    linarith
  have hr2 : |F.fl (s' * F.fl (1 / n)) - s / n| ≤ 5 / 2 ^ 50 :=
    (fl_step hf hr (B := 2) (by norm_num; linarith)).trans (by norm_num)
  have hr3 : |s' * F.fl (1 / n) - s / n| ≤ 5 / 2 ^ 50 := hr.trans (by norm_num)
  split_ifs
  · rcases F.mulAdd_is [k, 213] w s' (F.fl (1 / n)) with e | e
    · exact ⟨_, e, hr2⟩
    · exact ⟨_, e, hr3⟩
  · refine ⟨_, rfl, ?_⟩
    rcases F.quot_is [k, 213] s' n with e | e
    · rw [e]; exact ht
    · rw [e]; exact hr2

/-- The factor `2π / n`. -/
theorem scaleJ_near (F : XlaLib) (fold : Bool) (at_ : List ℤ) {w' w e n : ℝ} (hn1 : 1 ≤ n)
    (hn2 : n ≤ 2 ^ 28) (he0 : 0 ≤ e) (hs2 : e ≤ 2 ^ 18) (hw : |w' - w| ≤ e / 2 ^ 50) (hw1 : |w| ≤ 4) :
    |scaleJ F fold w' n at_ - w * 2 * Real.pi / n| ≤ (7 * e + 30) / 2 ^ 50 / n := by
  have hf := F.nearest
  have hpi3 := Real.pi_gt_three
  have hpid := Real.pi_lt_d2
  have hP : |F.fl Real.pi - Real.pi| ≤ 4 / 2 ^ 53 := by
    refine fl_near hf ?_
    rw [abs_of_pos Real.pi_pos]; exact Real.pi_le_four
  have hP16 : |F.fl Real.pi| ≤ 16 / 5 := by
    have a1 := abs_sub_abs_le_abs_sub (F.fl Real.pi) Real.pi
    rw [abs_of_pos Real.pi_pos] at a1
    norm_num at hP hpid
    linarith
  have hbp : |w * 2 * Real.pi| ≤ 25.2 := by
    rw [abs_mul, abs_mul, abs_of_pos Real.pi_pos, abs_of_pos (by norm_num : (0 : ℝ) < 2)]
    norm_num at hpid ⊢
    nlinarith [abs_nonneg w]
  have hb2 : |F.fl (F.fl (w' * 2) * F.fl Real.pi) - w * 2 * Real.pi| ≤ (32 / 5 * e + 12) / 2 ^ 50 := by
    have ha1 : |w' * 2 - w * 2| ≤ 2 * e / 2 ^ 50 := by
      rw [← sub_mul, abs_mul, abs_of_pos (by norm_num : (0 : ℝ) < 2)]
      linarith
    have hw2 : |w * 2| ≤ 8 := by
      rw [abs_mul, abs_of_pos (by norm_num : (0 : ℝ) < 2)]; linarith
    have ha2 : |F.fl (w' * 2) - w * 2| ≤ (2 * e + 9 / 8) / 2 ^ 50 := by
      refine le_trans (fl_step hf ha1 (B := 9) ?_) ?_
      · generalize |w * 2| = z at *
        norm_num at hs2 ⊢; linarith
      · norm_num; linarith
    have hb1 : |F.fl (w' * 2) * F.fl Real.pi - w * 2 * Real.pi| ≤ (32 / 5 * e + 8) / 2 ^ 50 := by
      rw [show F.fl (w' * 2) * F.fl Real.pi - w * 2 * Real.pi
        = (F.fl (w' * 2) - w * 2) * F.fl Real.pi + w * 2 * (F.fl Real.pi - Real.pi) by ring]
      refine le_trans (abs_add_le _ _) ?_
      rw [abs_mul, abs_mul (w * 2)]
      refine le_trans (add_le_add (mul_le_mul ha2 hP16 (abs_nonneg _) (by positivity))
        (mul_le_mul hw2 hP (abs_nonneg _) (by norm_num))) ?_
      norm_num; linarith
    refine le_trans (fl_step hf hb1 (B := 26) ?_) ?_
    · generalize |w * 2 * Real.pi| = z at *
      norm_num at hs2 hbp ⊢; linarith
    · norm_num; linarith
  unfold scaleJ
  have hn0 : 0 < n := by linarith
  obtain ⟨d, hd, ed⟩ := flInv_near hf hn1 hn2
  have hsmall : ∀ B : ℝ, 1 ≤ B → 1 / 2 ^ 200 ≤ B / n := fun B hB => by
    rw [div_le_div_iff₀ (by norm_num) hn0]
    norm_num at hn2 ⊢
    linarith
  have ovr : ∀ {x y e : ℝ}, |x - y| ≤ e → |x / n - y / n| ≤ e / n := fun {x y e} h => by
    rw [← sub_div, abs_div, abs_of_pos hn0]
    exact div_le_div_of_nonneg_right h hn0.le
  have step : ∀ {x y e B : ℝ}, |x - y / n| ≤ e / n → |y| + e ≤ B → 1 ≤ B →
      |F.fl x - y / n| ≤ (e + B / 2 ^ 53) / n := fun {x y e B} h hB h1 => by
    have := fl_step hf h (B := B / n) (by
      rw [abs_div, abs_of_pos hn0, ← add_div]
      exact div_le_div_of_nonneg_right hB hn0.le) (hsmall B h1)
    rw [add_div, div_right_comm B]
    exact this
  split_ifs
  · have hQ : |F.fl (2 * F.fl Real.pi) - 2 * Real.pi| ≤ 15 / 2 ^ 53 := by
      have a1 : |2 * F.fl Real.pi - 2 * Real.pi| ≤ 8 / 2 ^ 53 := by
        rw [← mul_sub, abs_mul, abs_of_pos (by norm_num : (0 : ℝ) < 2)]
        linarith
      refine (fl_step hf a1 (B := 7) ?_).trans (by norm_num)
      rw [abs_of_pos (by linarith)]
      norm_num at hpid ⊢; linarith
    generalize F.fl (2 * F.fl Real.pi) = Q at *
    have hQ7 : |Q| ≤ 7 := by
      have a1 := abs_sub_abs_le_abs_sub Q (2 * Real.pi)
      rw [abs_of_pos (by linarith : 0 < 2 * Real.pi)] at a1
      norm_num at hQ hpid
      linarith
    have hc1 : |Q * F.fl (1 / n) - 2 * Real.pi / n| ≤ 22 / 2 ^ 53 / n := by
      rw [ed, show Q * (1 / n * (1 + d)) = (Q + d * Q) / n by ring]
      refine ovr ?_
      rw [show Q + d * Q - 2 * Real.pi = (Q - 2 * Real.pi) + d * Q by ring]
      have a1 : |d * Q| ≤ 7 / 2 ^ 53 := by
        rw [abs_mul]
        calc |d| * |Q| ≤ 1 / 2 ^ 53 * 7 := by gcongr
          _ = 7 / 2 ^ 53 := by norm_num
      exact (abs_add_le _ _).trans ((add_le_add hQ a1).trans (by norm_num))
    have hc2 := step hc1 (B := 7) (by
      rw [abs_of_pos (by linarith)]
      norm_num at hpid ⊢; linarith) (by norm_num)
    generalize F.fl (Q * F.fl (1 / n)) = c at *
    have e1 : ∀ x, x = x * n / n := fun x => by field_simp
    have hc3 : |c * n - 2 * Real.pi| ≤ 29 / 2 ^ 53 := by
      rw [e1 c, ← sub_div, abs_div, abs_of_pos hn0] at hc2
      refine le_trans ((div_le_div_iff_of_pos_right hn0).1 hc2) (by norm_num)
    have hc4 : |c * n| ≤ 13 / 2 := by
      have a1 := abs_sub_abs_le_abs_sub (c * n) (2 * Real.pi)
      rw [abs_of_pos (by linarith : 0 < 2 * Real.pi)] at a1
      norm_num at hc3 hpid
      linarith
    have hd1 : |w' * c - w * 2 * Real.pi / n| ≤ (13 / 2 * e / 2 ^ 50 + 116 / 2 ^ 53) / n := by
      rw [show w' * c = w' * (c * n) / n by field_simp]
      refine ovr ?_
      rw [show w' * (c * n) - w * 2 * Real.pi = (w' - w) * (c * n) + w * (c * n - 2 * Real.pi) by ring]
      refine (abs_add_le _ _).trans (add_le_add ?_ ?_)
      · rw [abs_mul]
        refine (mul_le_mul hw hc4 (abs_nonneg _) (by positivity)).trans ?_
        norm_num; linarith
      · rw [abs_mul]
        refine (mul_le_mul hw1 hc3 (abs_nonneg _) (by norm_num)).trans ?_
        norm_num
    refine (step hd1 (B := 32) ?_ (by norm_num)).trans (div_le_div_of_nonneg_right ?_ hn0.le)
    · generalize |w * 2 * Real.pi| = z at *
      norm_num at hs2 hbp ⊢; linarith
    · norm_num; linarith
  · generalize F.fl (F.fl (w' * 2) * F.fl Real.pi) = c at *
    generalize w * 2 * Real.pi = b at *
    have hc : |c| ≤ 26 := by
      have a1 := abs_sub_abs_le_abs_sub c b
      norm_num at hb2 hs2 hbp
      linarith
    rcases F.quot_is at_ c n with eq | eq
    · rw [eq]
      refine (step (ovr hb2) (B := 26) ?_ (by norm_num)).trans (div_le_div_of_nonneg_right ?_ hn0.le)
      · generalize |b| = z at *
        norm_num at hs2 hbp ⊢; linarith
      · norm_num; linarith
    · have hr : |c * F.fl (1 / n) - b / n| ≤ ((32 / 5 * e + 12) / 2 ^ 50 + 26 / 2 ^ 53) / n := by
        rw [ed, show c * (1 / n * (1 + d)) = (c + d * c) / n by ring]
        refine ovr ?_
        rw [show c + d * c - b = (c - b) + d * c by ring]
        refine (abs_add_le _ _).trans (add_le_add hb2 ?_)
        rw [abs_mul]
        calc |d| * |c| ≤ 1 / 2 ^ 53 * 26 := by gcongr
          _ = 26 / 2 ^ 53 := by norm_num
      rw [eq]
      refine (step hr (B := 26) ?_ (by norm_num)).trans (div_le_div_of_nonneg_right ?_ hn0.le)
      · generalize |b| = z at *
        norm_num at hs2 hbp ⊢; linarith
      · norm_num; linarith

/-- The Driscoll–Healy weights, however they are compiled. -/
theorem quadWeightsDhJ_near (F : XlaLib) (fuse : ℤ → ℤ → Bool) (fold : Bool) {L : ℤ} {T : ℤ → ℝ} {t : ℤ}
    (hL : 1 ≤ L) (hL1 : L ≤ 2 ^ 26) (h0 : 0 ≤ t) (h1 : t < 2 * L)
    (hT : |T t - (2 * (t : ℝ) + 1) * Real.pi / (4 * L)| ≤
      (2 * (t : ℝ) + 1) * Real.pi / (4 * L) / 2 ^ 51) :
    |quadWeightsDhJ F fuse fold L T t - quad_weights_dh L t| ≤ 192 * √(L : ℝ) / 2 ^ 50 / (2 * L - 1) := by
  have hL' : (1 : ℝ) ≤ L := by exact_mod_cast hL
  have hL2 : (L : ℝ) ≤ 2 ^ 26 := by exact_mod_cast hL1
  have hpi0 := Real.pi_pos
  have ht0 : (0 : ℝ) ≤ t := by exact_mod_cast h0
  have ht1 : (t : ℝ) + 1 ≤ 2 * L := by exact_mod_cast h1
  have hs1 : 1 ≤ √(L : ℝ) := by rw [Real.le_sqrt' (by norm_num)]; linarith
  have hs2 : √(L : ℝ) ≤ 2 ^ 13 := by
    rw [Real.sqrt_le_left (by norm_num)]; norm_num at hL2 ⊢; exact hL2
  have hθ0 : 0 ≤ (2 * (t : ℝ) + 1) * Real.pi / (4 * L) := by positivity
  have hθ1 : (2 * (t : ℝ) + 1) * Real.pi / (4 * L) ≤ Real.pi := by
    rw [div_le_iff₀ (by linarith)]; nlinarith
  obtain ⟨hw, hw1⟩ := dhTheta_of_sum F.toDoubleLib hL hL1 hθ1 hT
    (dhSum_steps F.toDoubleLib hL hL1 _ fun k w h0 h1 =>
      dhTermJ_near F (fuse t) w h0 (by omega) hθ0 hθ1 hT)
  have h := scaleJ_near F fold [t, 193] (w' := quadWeightDhThetaJ F (fuse t) (T t) L) (n := 2 * L - 1)
    (e := 22 * √L) (by linarith) (by norm_num at hL2 ⊢; linarith) (by positivity)
    (by norm_num at hs2 ⊢; linarith) hw (hw1.trans (by norm_num))
  unfold quadWeightsDhJ
  rw [fl_int F.nearest (k := 2 * L - 1) (by rw [abs_of_nonneg (by omega)]; omega)]
  push_cast
  refine h.trans (div_le_div_of_nonneg_right (div_le_div_of_nonneg_right ?_ (by norm_num)) (by linarith))
  linarith

theorem wignerKernelJ_inverse (F : XlaLib) (lg nodes : ℤ → ℤ → ℝ) (logL : ℝ) (w : ℤ → ℝ) {σ : Scheme}
    (hσ : σ = .mw ∨ σ = .mwss ∨ σ = .dh) {L N : ℤ} {E : ℝ} (hL : 1 ≤ L) (hL1 : L ≤ 2 ^ 26)
    (h1 : 1 ≤ N) (hN : N ≤ L) (hE : Covers L E) (hE0 : 1 / 2 ^ 44 ≤ E) (hE1 : E ≤ 1 / 16)
    (reality : Bool) {mode : PyStr} (hm : ModeOk σ L mode) :
    ∃ K, wignerKernelJ F lg logL w L N reality σ.name false mode
        = .ok ⟨nDim N reality, σ.rings L 0, L, 2 * L - 1, K⟩ ∧
      WKNear K L (nFirst N reality) (nDim N reality) (σ.rings L 0) (σ.theta nodes L 0) (6 * E) := by
  obtain ⟨dl, e, h⟩ := wignerKernelJ_near F lg nodes logL w hσ hL hL1 h1 hN hE reality false hm
  refine ⟨_, e, fun k t el m k0 k1 t0 t1 e0 e1 hm => ?_⟩
  have h2 := h k t el m k0 k1 t0 t1 e0 e1 hm
  rw [if_neg (by simp), ← Complex.ofReal_sub, Complex.norm_real, Real.norm_eq_abs]
  refine (degreeF_entry F.toDoubleLib e0 (by omega) h2 (wignerd_abs_le_one _ _ _ _)
    (by linarith)).trans ?_
  refine mul_le_mul_of_nonneg_left ?_ (degreeWeight_nonneg e0)
  have : (4 / 2 ^ 50 : ℝ) ≤ 1 / 2 ^ 44 := by norm_num
  linarith

end S2fft
