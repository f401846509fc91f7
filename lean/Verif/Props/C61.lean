import Verif.Lemmas.FourierWignerDoubleInverse
import Verif.Lemmas.RotationDoubleNorm

/-!
# C61: the Fourier-Wigner transforms are stable in double precision

`fourier_wigner_kernel` and the inverse transform, NumPy and JAX in 64-bit mode, with every operation
rounded.
-/

namespace S2fft
open Spec

/-- The argument `precomps`: none, or the tables computed in double precision by either constructor,
possibly by another library than the transform. -/
def FwPrecompsF (L : ℤ) (precomps : Option FwTables) : Prop :=
  precomps = none ∨ ∃ F κ P, fourierWignerKernelF F κ L = .ok P ∧ precomps = some P

theorem FwPrecompsF.near {L : ℤ} (hL : 1 ≤ L) (hL1 : L ≤ 2 ^ 26) {precomps : Option FwTables}
    (h : FwPrecompsF L precomps) : ∀ P, precomps = some P → FwTablesNear P L := by
  rcases h with rfl | ⟨F, κ, P, e, rfl⟩
  · exact fun P h => nomatch h
  · intro Q hQ
    cases hQ
    obtain ⟨P', e', h, -⟩ := fourierWignerKernelF_near F κ hL hL1
    rw [e] at e'
    cases e'
    exact h

/-- The tables of both constructors hold the Wigner functions at `π/2`: an entry of degree `l` is in
error by at most `(l+1)^(3/2) / 2^44`, and entries outside `|m|, |n| ≤ l` are zero. -/
theorem C61_planes (F : XlaLib) (κ : PyStr) (L : ℤ) (hL : 1 ≤ L) (hL1 : L ≤ 2 ^ 26) :
    ∃ P, fourierWignerKernelF F κ L = .ok P ∧ ∀ l m n, 0 ≤ l → l < L →
      |P.delta l (m + L - 1) (n + L - 1) - wignerd l m n (Real.pi / 2)| ≤ (l + 1) * √(l + 1) / 2 ^ 44 ∧
      (l < |m| ∨ l < |n| → P.delta l (m + L - 1) (n + L - 1) = 0) := by
  obtain ⟨P, e, h, -⟩ := fourierWignerKernelF_near F κ hL hL1
  exact ⟨P, e, fun l m n h0 hl => ⟨(h l h0 hl).entry h0 m n, (h l h0 hl).2 m n⟩⟩

/-- **The inverse transform.** Every sample is that of the Wigner expansion up to `L^(3/2) / 2⁴¹` times
the size of the coefficients, with or without tables computed beforehand; the samples of a real signal
are real. -/
theorem C61_inverse (F : XlaLib) (pair : Fin 3) (nodes : ℤ → ℤ → ℝ) (method : PyStr) (σ : Scheme)
    (hσ : σ = .mw ∨ σ = .mwss) (s : PyStr) (hs : lower s = σ.name) (L N : ℤ) (hL1 : L ≤ 2 ^ 26)
    (h1 : 1 ≤ N) (hN : N ≤ L) (flmn : ℤ → ℤ → ℤ → ℂ) (reality : Bool) (hre : RealPlane flmn L N reality)
    (precomps : Option FwTables) (hP : FwPrecompsF L precomps) :
    ∃ f, fourierWignerInverseF F pair method (.d3 (2 * N - 1) L (2 * L - 1) flmn) L N precomps reality s
        = .ok f ∧
      f.shape = (2 * N - 1) :: σ.shape L 0 ∧ (reality = true → ∀ g t p, (f.get3 g t p).im = 0) ∧
      ∀ g t p, 0 ≤ g → g < 2 * N - 1 → σ.Has L 0 t p → ‖f.get3 g t p
        - wignerSum 0 L N (wignerCoeffs flmn L N reality) (σ.phi L 0 t p) (σ.theta nodes L 0 t)
            (gammaAt N g)‖
        ≤ L * √L / 2 ^ 41 * so3CoeffSize L N reality flmn + 1 / 2 ^ 850 := by
  have hL : 1 ≤ L := h1.trans hN
  have hL' : (1 : ℝ) ≤ L := by exact_mod_cast hL
  obtain ⟨s1, s2, s3⟩ := sizeE hL hL1
  obtain ⟨f, e1, e2, e3, hf⟩ := fourierWignerInverseF_near F pair nodes method hσ hs h1 hN hL1
    (covers_sqrt hL hL1) (by linarith) flmn (hP.near hL hL1) hre
  refine ⟨f, e1, e2, e3, fun g t p g0 g1 hp => (hf g t p g0 g1 hp).trans (add_le_add ?_ le_rfl)⟩
  refine mul_le_mul_of_nonneg_right ?_ ?_
  · rw [show (L : ℝ) * √L / 2 ^ 41 = 8 * (L * √L / 2 ^ 44) by ring]
    have : (L : ℝ) / 2 ^ 46 = 1 / 4 * (L / 2 ^ 44) := by ring
    linarith
  · exact Finset.sum_nonneg fun n _ => Finset.sum_nonneg fun l hl => Finset.sum_nonneg fun m _ =>
      mul_nonneg (degreeWeight_nonneg (Finset.mem_Ico.1 hl).1) (norm_nonneg _)

/-- The tables for a thousand degrees, with a compiler that fuses. -/
example := C61_planes fusedXlaLib mJax 1000 (by norm_num) (by norm_num)

/-- The inverse transform of a complex signal, without tables. -/
example := C61_inverse fusedXlaLib 0 (fun _ _ => 0) mNumpy .mw (Or.inl rfl) sMW (by decide) 128 4
  (by norm_num) (by norm_num) (by norm_num) (fun n l m => n + l + m * Complex.I) false
  (by simp [RealPlane]) none (Or.inl rfl)

/-- The inverse transform of a real signal with JAX and the tables of NumPy. -/
example : ∃ P f, fourierWignerKernelF fusedXlaLib mNumpy 128 = .ok P ∧
    fourierWignerInverseF fusedXlaLib 2 mJax (.d3 (2 * 4 - 1) 128 (2 * 128 - 1)
      fun n l j => if j = 127 then (n + l + 1 : ℂ) else 0) 128 4
      (some P) true sMWSS = .ok f := by
  obtain ⟨P, e, -⟩ := C61_planes fusedXlaLib mNumpy 128 (by norm_num) (by norm_num)
  obtain ⟨f, e', -⟩ := C61_inverse fusedXlaLib 2 (fun _ _ => 0) mJax .mwss (Or.inr rfl) sMWSS (by decide)
    128 4 (by norm_num) (by norm_num) (by norm_num) (fun n l j => if j = 127 then (n + l + 1 : ℂ) else 0) true
    (fun _ l m _ _ _ => by by_cases h : m = 0 <;> simp [h, map_ofNat, show -m + 128 - 1 = 127 ↔ m = 0 by omega,
      show m + 128 - 1 = 127 ↔ m = 0 by omega]) (some P)
    (Or.inr ⟨_, _, _, e, rfl⟩)
  exact ⟨P, f, e, e'⟩

end S2fft
