import Verif.Lemmas.GlNodesDouble
import Verif.Props.C59Forward
import Verif.Lemmas.PrecomputeWignerDoubleGl

/-! # C59: the Wigner transforms with precomputed kernels on the Gauss–Legendre grid

The angles and weights of this grid come from tables; the bounds are in terms of their accuracy. -/

namespace S2fft
open Spec

/-- The inverse transform, for angles correct up to `τ`. -/
theorem C59_inverse_gl (F : FftLib) (lg nodes : ℤ → ℤ → ℝ) (logL : ℝ) (w : ℤ → ℝ) (L N : ℤ)
    (hL1 : L ≤ 2 ^ 26) (h1 : 1 ≤ N) (hN : N ≤ L) (reality : Bool) (mode : PyStr) (hm : ModeOk .gl L mode)
    (τ : ℝ) (hτ : ∀ t, 0 ≤ t → t < L →
      |F.arccos (lg L (L - 1 - t)) - Real.arccos (nodes L (L - 1 - t))| ≤ τ) (hτ1 : L * τ ≤ 1 / 512)
    (flmn : ℤ → ℤ → ℤ → ℂ) (hre : RealPlane flmn L N reality) :
    ∃ K f, wignerKernelF F lg logL w L N reality sGL false mode = .ok K ∧
      precomputeWignerInverseF F (.d3 (2 * N - 1) L (2 * L - 1) flmn) K L N sGL reality = .ok f ∧
      f.shape = (2 * N - 1) :: Scheme.gl.shape L 0 ∧ (reality = true → ∀ g t p, (f.get3 g t p).im = 0) ∧
      ∀ g t p, 0 ≤ g → g < 2 * N - 1 → Scheme.gl.Has L 0 t p → ‖f.get3 g t p
        - wignerSum 0 L N (wignerCoeffs flmn L N reality) (Scheme.gl.phi L 0 t p)
            (Real.arccos (nodes L (L - 1 - t))) (gammaAt N g)‖
        ≤ (L * √L / 2 ^ 41 + 6 * L * τ) * so3CoeffSize L N reality flmn + 1 / 2 ^ 900 := by
  have hL : 1 ≤ L := h1.trans hN
  have hL' : (1 : ℝ) ≤ L := by exact_mod_cast hL
  have hτ0 : 0 ≤ τ := le_trans (abs_nonneg _) (hτ 0 le_rfl (by omega))
  have hLτ : 0 ≤ (L : ℝ) * τ := by positivity
  obtain ⟨s1, s2, s3⟩ := sizeE hL hL1
  have hE2 : 1 / 2 ^ 44 ≤ (L : ℝ) * √L / 2 ^ 44 :=
    le_trans (div_le_div_of_nonneg_right hL' (by norm_num)) s3
  obtain ⟨dl, e, hd⟩ := wignerKernelF_gl F lg nodes logL w hL1 h1 hN (covers_sqrt hL hL1) s1 reality false hm
    hτ (by linarith)
  obtain ⟨f, e2, e3, e4, hf⟩ := precomputeWignerInverseF_near F (σ := .gl) (by decide) ⟨hL, by simp⟩ hL1 h1 hN
    flmn hre (θ := Scheme.gl.theta nodes L 0)
    (WDlNear.inverse F.toDoubleLib hL1 hd (by linarith) (by linarith)) (by linarith)
  refine ⟨_, f, e, e2, e3, e4, fun g t p g0 g1 hp => (hf g t p g0 g1 hp).trans
    (add_le_add (mul_le_mul_of_nonneg_right ?_ (so3CoeffSize_nonneg L N reality flmn)) le_rfl)⟩
  have : (L : ℝ) / 2 ^ 46 = 1 / 4 * (L / 2 ^ 44) := by ring
  rw [show (L : ℝ) * √L / 2 ^ 41 = 8 * (L * √L / 2 ^ 44) by ring]
  linarith

/-- The round trip, for angles correct up to `τ` and weights up to `δ`. -/
theorem C59_round_trip_gl (F : FftLib) (lg nodes weights : ℤ → ℤ → ℝ) (logL : ℝ) (w w' : ℤ → ℝ) (L N : ℤ)
    (hL1 : L ≤ 2 ^ 26) (h1 : 1 ≤ N) (hN : N ≤ L) (hG : GlExact nodes weights L) (reality : Bool)
    (mode : PyStr) (hm : ModeOk .gl L mode) (τ δ : ℝ)
    (hτ : ∀ t, 0 ≤ t → t < L →
      |F.arccos (lg L (L - 1 - t)) - Real.arccos (nodes L (L - 1 - t))| ≤ τ) (hτ1 : L * τ ≤ 1 / 512)
    (hδ : ∀ t, 0 ≤ t → t < L → |w' t - weights L t| ≤ δ) (hδ0 : 1 / 2 ^ 150 ≤ δ)
    (hδ1 : 2 * L * L * δ ≤ 1) (flmn : ℤ → ℤ → ℤ → ℂ) (hre : RealPlane flmn L N reality) :
    ∃ Ki Kf f out, wignerKernelF F lg logL w L N reality sGL false mode = .ok Ki ∧
      wignerKernelF F lg logL w' L N reality sGL true mode = .ok Kf ∧
      precomputeWignerInverseF F (.d3 (2 * N - 1) L (2 * L - 1) flmn) Ki L N sGL reality = .ok f ∧
      precomputeWignerForwardF F f Kf L N sGL reality = .ok (.d3 (2 * N - 1) L (2 * L - 1) out) ∧
      ∀ n el m, |n| < N → 0 ≤ el → el < L → |m| < L → ‖out (N - 1 + n) el (m + L - 1)
          - (if |n| ≤ el ∧ |m| ≤ el then wignerCoeffs flmn L N reality n el m else 0)‖
        ≤ 8 * Real.pi ^ 2 * (so3CoeffSize L N reality flmn
            * (L * √L / 2 ^ 39 + 32 * L * τ + 2 * L * L * δ)) + 1 / 2 ^ 700 := by
  have hL : 1 ≤ L := h1.trans hN
  have hL' : (1 : ℝ) ≤ L := by exact_mod_cast hL
  have hτ0 : 0 ≤ τ := le_trans (abs_nonneg _) (hτ 0 le_rfl (by omega))
  have hLτ : 0 ≤ (L : ℝ) * τ := by positivity
  obtain ⟨s1, s2, s3⟩ := sizeE hL hL1
  obtain ⟨di, e1, hdi⟩ := wignerKernelF_gl F lg nodes logL w hL1 h1 hN (covers_sqrt hL hL1) s1 reality false hm
    hτ (by linarith)
  obtain ⟨df, e2, hdf⟩ := wignerKernelF_gl F lg nodes logL w' hL1 h1 hN (covers_sqrt hL hL1) s1 reality true hm
    hτ (by linarith)
  obtain ⟨f, out, e3, e4, ho⟩ := precomputeWignerRoundTripF_gl F hL1 h1 hN hG reality
    (le_add_of_nonneg_right hLτ) (by linarith) hdi hdf hδ hδ0 hδ1 flmn hre
  refine ⟨_, _, f, out, e1, e2, e3, e4, fun n el m hn e0 e1 hm => (ho n el m hn e0 e1 hm).trans
    (le_of_eq (by ring))⟩

/-- Exact tables, which exist. -/
example : True := by
  obtain ⟨nodes, _, h⟩ := C24_gl_tables
  have := C59_round_trip_gl exactFftLib nodes nodes (glWeights nodes) 4 (fun _ => 0) (glWeights nodes 64) 64 4
    (by norm_num) (by norm_num) (by norm_num) (h 64 (by norm_num)).1 false mdAuto
    ⟨by simp, fun h => absurd h (by decide), fun _ _ => by simp⟩ (1 / 2 ^ 48) (1 / 2 ^ 48)
    (fun t _ _ => by show |Real.arccos _ - Real.arccos _| ≤ _; simp) (by norm_num)
    (fun t _ _ => by simp) (by norm_num) (by norm_num)
    (fun n l m => n + l + m * Complex.I) (by simp [RealPlane])
  trivial

/-- In terms of the error `e` of the table of nodes and the error `δ` of the weights. -/
theorem C59_round_trip_gl_table (F : FftLib) (lg nodes weights : ℤ → ℤ → ℝ) (logL : ℝ) (w w' : ℤ → ℝ) (L N : ℤ)
    (hL1 : L ≤ 2 ^ 26) (h1 : 1 ≤ N) (hN : N ≤ L) (hG : GlExact nodes weights L) (reality : Bool)
    (mode : PyStr) (hm : ModeOk .gl L mode) (e δ : ℝ)
    (he : ∀ i, 0 ≤ i → i < L → |lg L i - nodes L i| ≤ e) (he1 : 16 * 256 * L * L * e ≤ 1)
    (hδ : ∀ t, 0 ≤ t → t < L → |w' t - weights L t| ≤ δ) (hδ0 : 1 / 2 ^ 150 ≤ δ)
    (hδ1 : 2 * L * L * δ ≤ 1) (flmn : ℤ → ℤ → ℤ → ℂ) (hre : RealPlane flmn L N reality) :
    ∃ Ki Kf f out, wignerKernelF F lg logL w L N reality sGL false mode = .ok Ki ∧
      wignerKernelF F lg logL w' L N reality sGL true mode = .ok Kf ∧
      precomputeWignerInverseF F (.d3 (2 * N - 1) L (2 * L - 1) flmn) Ki L N sGL reality = .ok f ∧
      precomputeWignerForwardF F f Kf L N sGL reality = .ok (.d3 (2 * N - 1) L (2 * L - 1) out) ∧
      ∀ n el m, |n| < N → 0 ≤ el → el < L → |m| < L → ‖out (N - 1 + n) el (m + L - 1)
          - (if |n| ≤ el ∧ |m| ≤ el then wignerCoeffs flmn L N reality n el m else 0)‖
        ≤ 8 * Real.pi ^ 2 * (so3CoeffSize L N reality flmn
            * (L * √L / 2 ^ 38 + 128 * L * L * e + 2 * L * L * δ)) + 1 / 2 ^ 700 := by
  have hL : 1 ≤ L := h1.trans hN
  obtain ⟨q1, q2⟩ := gl_table_small (k := 256) hL hL1 (by norm_num) he1
  obtain ⟨s1, s2, s3⟩ := sizeE hL hL1
  have hL' : (1 : ℝ) ≤ L := by exact_mod_cast hL
  obtain ⟨Ki, Kf, f, out, e1, e2, e3, e4, h⟩ := C59_round_trip_gl F lg nodes weights logL w w' L N hL1 h1 hN hG reality mode
    hm (1 / 2 ^ 50 + 4 * L * e) δ
    (arccosF_gl F.toDoubleLib (x := nodes L) (x' := lg L) ⟨hG.mono, hG.root⟩ he (gl_table_le (by norm_num) he1))
    (by norm_num at q1 ⊢; linarith) hδ hδ0 hδ1 flmn hre
  refine ⟨Ki, Kf, f, out, e1, e2, e3, e4, fun n el m hn e0 e1 hm => (h n el m hn e0 e1 hm).trans
    (add_le_add (mul_le_mul_of_nonneg_left (mul_le_mul_of_nonneg_left ?_
      (so3CoeffSize_nonneg L N reality flmn)) (by positivity)) le_rfl)⟩
  rw [show (L : ℝ) * √L / 2 ^ 39 = 32 * (L * √L / 2 ^ 44) by ring,
    show (L : ℝ) * √L / 2 ^ 38 = 64 * (L * √L / 2 ^ 44) by ring]
  rw [show (L : ℝ) * √L / 2 ^ 50 = 1 / 64 * (L * √L / 2 ^ 44) by ring] at q2
  linarith

/-- A table of nodes with errors in the last place and exact weights. -/
example : True := by
  obtain ⟨nodes, _, h⟩ := C24_gl_tables
  have := C59_round_trip_gl_table exactFftLib (fun L i => nodes L i + 1 / 2 ^ 53) nodes (glWeights nodes) 4 (fun _ => 0)
    (glWeights nodes 4096) 4096 4
    (by norm_num) (by norm_num) (by norm_num) (h 4096 (by norm_num)).1 false mdAuto
    ⟨by simp, fun h => absurd h (by decide), fun _ _ => by simp⟩ (1 / 2 ^ 53) (1 / 2 ^ 48)
    (fun i _ _ => by rw [add_sub_cancel_left, abs_of_pos (by positivity)]) (by norm_num)
    (fun t _ _ => by simp) (by norm_num) (by norm_num)
    (fun n l m => n + l + m * Complex.I) (by simp [RealPlane])
  trivial

/-- The forward transform, of samples that are those of an expansion up to `η` and at most `M` in size, for a
table of nodes with error `e` and weights with error `δ`. -/
theorem C59_forward_gl (F : FftLib) (lg nodes weights : ℤ → ℤ → ℝ) (logL : ℝ) (w : ℤ → ℝ) (L N : ℤ)
    (hL1 : L ≤ 2 ^ 26) (h1 : 1 ≤ N) (hN : N ≤ L) (hG : GlExact nodes weights L) (reality : Bool)
    (mode : PyStr) (hm : ModeOk .gl L mode) (e δ : ℝ)
    (he : ∀ i, 0 ≤ i → i < L → |lg L i - nodes L i| ≤ e) (he1 : 16 * 256 * L * L * e ≤ 1)
    (hδ : ∀ t, 0 ≤ t → t < L → |w t - weights L t| ≤ δ) (hδ0 : 1 / 2 ^ 150 ≤ δ) (hδ1 : 2 * L * L * δ ≤ 1)
    (c : ℤ → ℤ → ℤ → ℂ) (f : Nd ℂ) (M η : ℝ) (hsh : f.shape = (2 * N - 1) :: Scheme.gl.shape L 0)
    (hM : ∀ g t p, 0 ≤ g → g < 2 * N - 1 → Scheme.gl.Has L 0 t p → ‖f.get3 g t p‖ ≤ M)
    (hf : ∀ g t p, 0 ≤ g → g < 2 * N - 1 → Scheme.gl.Has L 0 t p → ‖f.get3 g t p
      - wignerSum 0 L N c (Scheme.gl.phi L 0 t p) (Real.arccos (nodes L (L - 1 - t))) (gammaAt N g)‖ ≤ η)
    (hre : reality = true → RealWigner c 0 L) :
    ∃ K out, wignerKernelF F lg logL w L N reality sGL true mode = .ok K ∧
      precomputeWignerForwardF F f K L N sGL reality = .ok (.d3 (2 * N - 1) L (2 * L - 1) out) ∧
      ∀ n el m, |n| < N → 0 ≤ el → el < L → |m| < L →
        ‖out (N - 1 + n) el (m + L - 1) - (if |n| ≤ el ∧ |m| ≤ el then c n el m else 0)‖
          ≤ 8 * Real.pi ^ 2 * (M * (L * √L / 2 ^ 39 + 64 * L * L * e + L * L * δ) + η) + 1 / 2 ^ 800 := by
  have hL : 1 ≤ L := h1.trans hN
  have hL' : (1 : ℝ) ≤ L := by exact_mod_cast hL
  obtain ⟨q1, q2⟩ := gl_table_small (k := 256) hL hL1 (by norm_num) he1
  obtain ⟨s1, s2, s3⟩ := sizeE hL hL1
  have hτ := arccosF_gl F.toDoubleLib (x := nodes L) (x' := lg L) ⟨hG.mono, hG.root⟩ he
    (gl_table_le (by norm_num) he1)
  have hτ0 : 0 ≤ 1 / 2 ^ 50 + 4 * L * e := le_trans (abs_nonneg _) (hτ 0 le_rfl (by omega))
  have hLτ : 0 ≤ (L : ℝ) * (1 / 2 ^ 50 + 4 * L * e) := by positivity
  have hM0 : 0 ≤ M := (norm_nonneg _).trans (hM 0 0 0 le_rfl (by omega)
    ⟨le_rfl, by simp only [Scheme.rings]; omega, le_rfl, by simp only [Scheme.ringLen]; omega⟩)
  obtain ⟨dl, e1, hd⟩ := wignerKernelF_gl F lg nodes logL w hL1 h1 hN (covers_sqrt hL hL1) s1 reality true hm hτ
    (by norm_num at q1 ⊢; linarith)
  obtain ⟨out, e2, ho⟩ := precomputeWignerForwardF_gl F hL1 h1 hN hG reality
    (le_add_of_nonneg_right hLτ) (by norm_num at q1 ⊢; linarith) hd hδ hδ0 hδ1 c f M η hsh hM hf hre
  refine ⟨_, out, e1, e2, fun n el m hn e0 e1 hm => (ho n el m hn e0 e1 hm).trans
    (add_le_add (mul_le_mul_of_nonneg_left (add_le_add (mul_le_mul_of_nonneg_left ?_ hM0) le_rfl)
      (by positivity)) le_rfl)⟩
  rw [show (L : ℝ) * √L / 2 ^ 39 = 32 * (L * √L / 2 ^ 44) by ring]
  rw [show (L : ℝ) * √L / 2 ^ 50 = 1 / 64 * (L * √L / 2 ^ 44) by ring] at q2
  linarith

/-- The samples of a single Wigner function. -/
example : True := by
  obtain ⟨nodes, _, h⟩ := C24_gl_tables
  have := C59_forward_gl exactFftLib (fun L i => nodes L i + 1 / 2 ^ 53) nodes (glWeights nodes) 4
    (glWeights nodes 4096) 4096 4
    (by norm_num) (by norm_num) (by norm_num) (h 4096 (by norm_num)).1 false mdAuto
    ⟨by simp, fun h => absurd h (by decide), fun _ _ => by simp⟩ (1 / 2 ^ 53) (1 / 2 ^ 48)
    (fun i _ _ => by rw [add_sub_cancel_left, abs_of_pos (by positivity)]) (by norm_num)
    (fun t _ _ => by simp) (by norm_num) (by norm_num)
    (fun n l m => if n = 1 ∧ l = 2 ∧ m = 1 then 1 else 0)
    (.d3 7 4096 8191 fun g t p => wignerSum 0 4096 4 (fun n l m => if n = 1 ∧ l = 2 ∧ m = 1 then 1 else 0)
      (Scheme.gl.phi 4096 0 t p) (Real.arccos (nodes 4096 (4096 - 1 - t))) (gammaAt 4 g))
    _ 0 (by simp [Nd.shape, Scheme.shape, Scheme.rings, Scheme.ringLen]) (fun g t p _ _ _ => norm_wignerSum_le le_rfl _ _ _ _ _ _)
    (fun g t p _ _ _ => by simp only [Nd.get3, sub_self, norm_zero, le_refl]) (by simp)
  trivial

end S2fft
