import Verif.Props.C49Resampled
import Verif.Lemmas.PrecomputeDoubleGlForward
import Verif.Lemmas.GlNodesDouble

/-! # C49: the round trip on the Gauss–Legendre grid, from the accuracy of the table of nodes -/

namespace S2fft
open Spec

/-- In terms of the error `e` of the table of nodes and the error `δ` of the weights. -/
theorem C49_round_trip_gl_table (F : FftLib) (lg nodes weights : ℤ → ℤ → ℝ) (w w' : ℤ → ℝ) (L spin : ℤ)
    (hL : 1 ≤ L) (hL1 : L ≤ 2 ^ 26) (hG : GlExact nodes weights L) (hsp : |spin| < L) (reality : Bool)
    (hr : reality = true → spin = 0) (e δ : ℝ)
    (he : ∀ i, 0 ≤ i → i < L → |lg L i - nodes L i| ≤ e) (he1 : 16 * 8 * L * L * e ≤ 1)
    (hδ : ∀ t, 0 ≤ t → t < L → |w' t - weights L t| ≤ δ) (hδ0 : 1 / 2 ^ 190 ≤ δ)
    (hδ1 : 2 * L * L * δ ≤ 1) (flm : ℤ → ℤ → ℂ)
    (hre : reality = true → ∀ el, 0 ≤ el → el < L → (flm el (L - 1)).im = 0) :
    ∃ Ki Kf f out, spinSphericalKernelF F lg w L spin reality sGL false = .ok Ki ∧
      spinSphericalKernelF F lg w' L spin reality sGL true = .ok Kf ∧
      precomputeInverseF F (.d2 L (2 * L - 1) flm) Ki L sGL reality spin = .ok f ∧
      precomputeForwardF F f Kf L sGL reality spin = .ok (.d2 L (2 * L - 1) out) ∧
      ∀ el m, 0 ≤ el → el < L → |m| < L → ‖out el (m + L - 1)
          - (if |spin| ≤ el ∧ |m| ≤ el then effCoeffs flm L reality el m else 0)‖
        ≤ 4 * Real.pi * √((2 * (el : ℝ) + 1) / (4 * Real.pi))
            * (coeffSize L (effCoeffs flm L reality) * (L * √L / 2 ^ 40 + 12 * L * L * e + L * L * δ))
          + 1 / 2 ^ 700 := by
  obtain ⟨q1, q2⟩ := gl_table_small (k := 8) hL hL1 (by norm_num) he1
  obtain ⟨s1, s2, s3⟩ := sizeE hL hL1
  have hL' : (1 : ℝ) ≤ L := by exact_mod_cast hL
  obtain ⟨Ki, Kf, f, out, e1, e2, e3, e4, h⟩ := C49_round_trip_gl F lg nodes weights w w' L spin hL hL1 hG hsp reality hr
    (1 / 2 ^ 50 + 4 * L * e) δ
    (arccosF_gl F.toDoubleLib (x := nodes L) (x' := lg L) ⟨hG.mono, hG.root⟩ he (gl_table_le (by norm_num) he1))
    (by norm_num at q1 ⊢; linarith) hδ hδ0 hδ1 flm hre
  refine ⟨Ki, Kf, f, out, e1, e2, e3, e4, fun el m e0 e1 hm => (h el m e0 e1 hm).trans
    (add_le_add (mul_le_mul_of_nonneg_left (mul_le_mul_of_nonneg_left ?_ ?_) (by positivity)) le_rfl)⟩
  · rw [show (L : ℝ) * √L / 2 ^ 41 = 8 * (L * √L / 2 ^ 44) by ring,
      show (L : ℝ) * √L / 2 ^ 40 = 16 * (L * √L / 2 ^ 44) by ring]
    rw [show (L : ℝ) * √L / 2 ^ 50 = 1 / 64 * (L * √L / 2 ^ 44) by ring] at q2
    linarith
  · unfold coeffSize
    exact Finset.sum_nonneg fun l _ => Finset.sum_nonneg fun m _ =>
      mul_nonneg (Real.sqrt_nonneg _) (norm_nonneg _)

/-- A table of nodes with errors in the last place and exact weights. -/
example : True := by
  obtain ⟨nodes, _, h⟩ := C24_gl_tables
  have := C49_round_trip_gl_table exactFftLib (fun L i => nodes L i + 1 / 2 ^ 53) nodes (glWeights nodes) (fun _ => 0)
    (glWeights nodes 4096) 4096 1
    (by norm_num) (by norm_num) (h 4096 (by norm_num)).1 (by norm_num) false (by simp) (1 / 2 ^ 53) (1 / 2 ^ 48)
    (fun i _ _ => by rw [add_sub_cancel_left, abs_of_pos (by positivity)]) (by norm_num)
    (fun t _ _ => by simp) (by norm_num) (by norm_num)
    (fun l m => l + m * Complex.I) (by simp)
  trivial

/-- The forward transform, of samples that are those of an expansion up to `η` and at most `M` in size, for a
table of nodes with error `e` and weights with error `δ`. -/
theorem C49_forward_gl (F : FftLib) (lg nodes weights : ℤ → ℤ → ℝ) (w : ℤ → ℝ) (L spin : ℤ)
    (hL : 1 ≤ L) (hL1 : L ≤ 2 ^ 26) (hG : GlExact nodes weights L) (hsp : |spin| < L) (reality : Bool)
    (hr : reality = true → spin = 0) (e δ : ℝ)
    (he : ∀ i, 0 ≤ i → i < L → |lg L i - nodes L i| ≤ e) (he1 : 16 * 8 * L * L * e ≤ 1)
    (hδ : ∀ t, 0 ≤ t → t < L → |w t - weights L t| ≤ δ) (hδ0 : 1 / 2 ^ 190 ≤ δ) (hδ1 : 2 * L * L * δ ≤ 1)
    (c : ℤ → ℤ → ℂ) (f : Nd ℂ) (M η : ℝ) (hsh : f.shape = Scheme.gl.shape L 0)
    (hM : ∀ t p, Scheme.gl.Has L 0 t p → ‖f.get2 t p‖ ≤ M)
    (hf : ∀ t p, Scheme.gl.Has L 0 t p → ‖f.get2 t p - harmonicSum 0 L spin c
      (Real.arccos (nodes L (L - 1 - t))) (Scheme.gl.phi L 0 t p)‖ ≤ η)
    (hre : reality = true → RealHarmonics c 0 L ∧
      ∀ t p, Scheme.gl.Has L 0 t p → (f.get2 t p).im = 0) :
    ∃ K out, spinSphericalKernelF F lg w L spin reality sGL true = .ok K ∧
      precomputeForwardF F f K L sGL reality spin = .ok (.d2 L (2 * L - 1) out) ∧
      ∀ el m, 0 ≤ el → el < L → |m| < L →
        ‖out el (m + L - 1) - (if |spin| ≤ el ∧ |m| ≤ el then c el m else 0)‖
          ≤ 4 * Real.pi * √((2 * (el : ℝ) + 1) / (4 * Real.pi))
              * (M * (L * √L / 2 ^ 41 + 4 * L * L * e + L * L * δ) + η) + 1 / 2 ^ 800 := by
  obtain ⟨q1, q2⟩ := gl_table_small (k := 8) hL hL1 (by norm_num) he1
  obtain ⟨s1, s2, s3⟩ := sizeE hL hL1
  have hτ := arccosF_gl F.toDoubleLib (x := nodes L) (x' := lg L) ⟨hG.mono, hG.root⟩ he
    (gl_table_le (by norm_num) he1)
  have hτ0 : 0 ≤ 1 / 2 ^ 50 + 4 * L * e := le_trans (abs_nonneg _) (hτ 0 le_rfl (by omega))
  have hτ1 : L * (1 / 2 ^ 50 + 4 * L * e) ≤ 1 / 16 := by norm_num at q1 ⊢; linarith
  have hM0 : 0 ≤ M := (norm_nonneg _).trans (hM 0 0
    ⟨le_rfl, by simp only [Scheme.rings]; omega, le_rfl, by simp only [Scheme.ringLen]; omega⟩)
  obtain ⟨K, e1, hK⟩ := C49_kernel_gl F lg nodes w sGL rfl L spin hL hL1 hsp reality true hr _ hτ (by linarith)
  obtain ⟨out, e2, ho⟩ := precomputeForwardF_gl F hL hL1 hG hr hτ0 hτ1 (K := K) (w' := w)
    (fun t el m t0 t1 e0 e1 hm => by
      have h1 := hK t el m t0 t1 e0 e1 hm
      have e2 : m + L - 1 - mStart L reality = if reality then m else m + L - 1 := by
        unfold mStart; split_ifs <;> ring
      rw [e2, show 2 * ((L : ℝ) * √L / 2 ^ 44) = L * √L / 2 ^ 43 by ring]
      exact h1) hδ hδ0 hδ1 c f M η hsh hM hf hre
  refine ⟨_, out, e1, e2, fun el m e0 e1 hm => (ho el m e0 e1 hm).trans
    (add_le_add (mul_le_mul_of_nonneg_left (add_le_add (mul_le_mul_of_nonneg_left ?_ hM0) le_rfl)
      (by positivity)) le_rfl)⟩
  rw [show (L : ℝ) * √L / 2 ^ 41 = 8 * (L * √L / 2 ^ 44) by ring,
    show (L : ℝ) * √L / 2 ^ 42 = 4 * (L * √L / 2 ^ 44) by ring]
  rw [show (L : ℝ) * √L / 2 ^ 50 = 1 / 64 * (L * √L / 2 ^ 44) by ring] at q2
  linarith

/-- The samples of a single spin harmonic. -/
example : True := by
  obtain ⟨nodes, _, h⟩ := C24_gl_tables
  have := C49_forward_gl exactFftLib (fun L i => nodes L i + 1 / 2 ^ 53) nodes (glWeights nodes)
    (glWeights nodes 4096) 4096 1
    (by norm_num) (by norm_num) (h 4096 (by norm_num)).1 (by norm_num) false (by simp) (1 / 2 ^ 53) (1 / 2 ^ 48)
    (fun i _ _ => by rw [add_sub_cancel_left, abs_of_pos (by positivity)]) (by norm_num)
    (fun t _ _ => by simp) (by norm_num) (by norm_num)
    (fun l m => if l = 2 ∧ m = 1 then 1 else 0)
    (.d2 4096 8191 fun t p => harmonicSum 0 4096 1 (fun l m => if l = 2 ∧ m = 1 then 1 else 0)
      (Real.arccos (nodes 4096 (4096 - 1 - t))) (Scheme.gl.phi 4096 0 t p))
    _ 0 (by simp [Nd.shape, Scheme.shape, Scheme.rings, Scheme.ringLen])
    (fun t p _ => harmonicSum_le _ _ _ _ _)
    (fun t p _ => by simp only [Nd.get2, sub_self, norm_zero, le_refl]) (by simp)
  trivial

end S2fft
