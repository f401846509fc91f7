import Verif.Lemmas.PrecomputeWignerDoubleGl
import Verif.Lemmas.PrecomputeJaxDouble

/-! # The JAX Wigner kernels on the Gauss–Legendre grid in double precision -/

namespace S2fft
open Spec

/-- The kernels in terms of planes near the Wigner functions. -/
theorem wignerKernelJ_gl (F : XlaLib) (lg nodes : ℤ → ℤ → ℝ) (logL : ℝ) (w : ℤ → ℝ) {L N : ℤ} {E τ : ℝ}
    (hL1 : L ≤ 2 ^ 26) (h1 : 1 ≤ N) (hN : N ≤ L) (hE : Covers L E) (hE0 : 0 ≤ E) (reality forward : Bool)
    {mode : PyStr} (hm : ModeOk .gl L mode)
    (hτ : ∀ t, 0 ≤ t → t < L →
      |F.arccos (lg L (L - 1 - t)) - Real.arccos (nodes L (L - 1 - t))| ≤ τ) (hτ1 : L * τ ≤ 1 / 32) :
    ∃ dl, wignerKernelJ F lg logL w L N reality sGL forward mode
        = .ok ⟨nDim N reality, L, L, 2 * L - 1, fun k t el j =>
          ((if forward then F.fl (F.fl (dl k t el j * w t) * gammaWeightF F.toDoubleLib N)
            else F.fl (dl k t el j * degreeWeightF F.toDoubleLib el) : ℝ) : ℂ)⟩ ∧
      WDlNear dl L (nFirst N reality) (nDim N reality) L (Scheme.gl.theta nodes L 0) (5 * (E + L * τ)) L := by
  have hL : 1 ≤ L := h1.trans hN
  have hL' : (1 : ℝ) ≤ L := by exact_mod_cast hL
  have hτ0 : 0 ≤ τ := le_trans (abs_nonneg _) (hτ 0 le_rfl (by omega))
  have hc : ∀ k, 0 ≤ k → k < nDim N reality →
      wignerColumnsJax L N reality k = nFirst N reality + k + L - 1 := fun k k0 k1 => by
    rw [wignerColumnsJax_ok h1 hN reality k0 k1]; ring
  obtain ⟨μ, eμ, rfl | ⟨-, h, -⟩⟩ := chooseModeF_ok F.toDoubleLib logL (lower_name .gl) (N := N) hm
  · refine ⟨_, ?_, (wignerDirectJ_near F (θ := Scheme.gl.theta nodes L 0)
      (θ' := fun t => F.arccos (lg L (L - 1 - t))) hL hL1 hE
      (fun t t0 t1 => arccos_le_four hL (hτ t t0 t1) hτ1) hτ hc).mono (by
        have : 0 ≤ (L : ℝ) * τ := by positivity
        linarith)⟩
    unfold wignerKernelJ
    rw [show chooseModeF F.toDoubleLib logL L N sGL mode = .ok mdDirect from eμ]
    simp only [bind, Except.bind]
    rw [kernelThetasF_gl]
    simp only
    rw [if_pos (by decide)]
    simp only [pure, Except.pure]
    cases forward <;> rfl
  · exact absurd rfl h

end S2fft
