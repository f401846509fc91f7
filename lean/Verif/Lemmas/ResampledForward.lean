import Verif.Props.C49
import Verif.Props.C24
import Verif.Lemmas.ResamplingDouble4

/-! # The forward transform from the grids that are resampled first -/

namespace S2fft
open Spec

/-- The forward transform with any accurate resampling and weights. -/
theorem forwardF_resampled (F : FftLib) (nodes : ℤ → ℤ → ℝ) {σ : Scheme} (hσ : σ = .mw ∨ σ = .mwss)
    {L spin : ℤ} (hL : 1 ≤ L) (hL1 : L ≤ 2 ^ 26) {reality : Bool} (hr : reality = true → spin = 0)
    {R : (ℤ → ℤ → ℂ) → ℤ → ℤ → ℤ → ℂ} (hR : ResampleNear σ L R) {w' : ℤ → ℝ} (hw' : WeightNear σ L w')
    {K : ℤ → ℤ → ℤ → ℝ} (hK : KernelNearF K L spin (2 * L + 1) reality (innerTheta nodes σ L 0)
      (6 * (L * √L / 2 ^ 44))) {c f : ℤ → ℤ → ℂ} {M η : ℝ}
    (hM : ∀ t p, σ.Has L 0 t p → ‖f t p‖ ≤ M)
    (hf : ∀ t p, σ.Has L 0 t p → ‖f t p - harmonicSum 0 L spin c
      (σ.theta nodes L 0 t) (σ.phi L 0 t p)‖ ≤ η)
    (hre : reality = true → RealHarmonics c 0 L) {el m : ℤ} (e0 : 0 ≤ el) (e1 : el < L) (hm : |m| < L) :
    ‖precomputeFlmF F (precomputeFftF F (R f spin) sMWSS (2 * L) reality)
        (fun t el j => F.fl (K t el j * w' t)) L (2 * L + 1) reality spin el (m + L - 1)
        - (if |spin| ≤ el ∧ |m| ≤ el then c el m else 0)‖
      ≤ 4 * Real.pi * √((2 * (el : ℝ) + 1) / (4 * Real.pi)) * (M * (L * √L / 2 ^ 35) + 68 * η)
        + 1 / 2 ^ 800 := by
  have hσ' : σ.Resampled := hσ
  have hh : σ ≠ .healpix := by rintro rfl; simp at hσ
  have hv : σ.Valid L 0 := ⟨hL, fun h => absurd h hh⟩
  have hh0 : σ.Has L 0 0 0 := by
    rcases hσ with rfl | rfl <;>
      exact ⟨le_rfl, by simp [Scheme.rings]; omega, le_rfl, by simp [Scheme.ringLen]; omega⟩
  have hM0 : 0 ≤ M := le_trans (norm_nonneg _) (hM 0 0 hh0)
  have hη : 0 ≤ η := le_trans (norm_nonneg _) (hf 0 0 hh0)
  have htn := tn_pos
  obtain ⟨s1, s2, s3⟩ := sizeE hL hL1
  obtain ⟨G, hG⟩ : ∃ G : GlTables, G.nodes = nodes := ⟨⟨nodes, fun _ _ => 0⟩, rfl⟩
  have hST : SamplingTheorem G σ L := ⟨hh, fun h => by subst h; simp at hσ⟩
  obtain ⟨g, hgd⟩ : ∃ g : ℤ → ℤ → ℂ, g = fun t p => harmonicSum 0 L spin c (σ.theta nodes L 0 t)
    (σ.phi L 0 t p) := ⟨_, rfl⟩
  have hgM : ∀ t p, σ.Has L 0 t p → ‖g t p‖ ≤ M + η := by
    intro t p hp
    have h1 := norm_le_norm_add_norm_sub (f t p) (g t p)
    have h2 := hf t p hp
    rw [show harmonicSum 0 L spin c (σ.theta nodes L 0 t) (σ.phi L 0 t p) = g t p by rw [hgd]] at h2
    linarith [hM t p hp]
  have hgs : SamplesOf nodes σ L 0 g (harmonicSum 0 L spin c) := by
    intro t p hp; rw [pos_plain hh, hgd]
  obtain ⟨m0, m1⟩ := abs_lt.1 hm
  have hin : reality = true → ∀ t p, 0 ≤ t → t < 2 * L + 1 → 0 ≤ p → p < 2 * L →
      (innerSignal σ L spin g t p).im = 0 := by
    intro h t p t0 t1 p0 p1
    have hl : p < σ.inner.ringLen L 0 t := by rcases hσ with rfl | rfl <;> exact p1
    rw [inner_samples hL hh (harmF_parity 0 L spin c) (f := g) (nodes := nodes) (nside := 0)
      (by intro t p h; rw [hgs t p h, harmonicSum_sph]) t0
      (by unfold innerRings; rw [if_pos hσ']; exact t1) p0 hl, ← harmonicSum_sph, hr h]
    exact harmonicSum_real (hre h) _ _
  have h1 := precomputeFlmF_plain F (L := L) (nt := 2 * L + 1) (θ := innerTheta nodes σ L 0)
    (w := innerWeight G σ L 0) hr (A := ringSum .mwss L 0 (innerSignal σ L spin g))
    (ftm := precomputeFftF F (R f spin) sMWSS (2 * L) reality)
    (K := fun t el j => F.fl (K t el j * w' t)) (el := el)
    (fun m m0 m1 hm => resampled_coeff F G hσ' hL hL1 hR hw' hK (by positivity : 0 ≤ M + η) hη hgM
      (fun t p hp => by rw [hgd]; exact hf t p hp) hin e0 e1 m0 m1 hm) m0 m1
  have h2 := analysis_near hv hST (ns := 0) (spin := spin) (c := c) (f := g) (η := 0) (ε := 0)
    (α := innerTheta nodes σ L 0) (M := M + η) (by intro t _ _; rw [hG, sub_self, abs_zero]) hgM
    (by intro t p hp; rw [hG, hgd, sub_self, norm_zero]) hre e0 e1 m0 m1
  rw [show innerRings σ L 0 = 2 * L + 1 by unfold innerRings; rw [if_pos hσ'],
    show σ.inner = .mwss by rcases hσ with rfl | rfl <;> rfl] at h2
  rw [mul_zero, zero_mul, add_zero, mul_zero] at h2
  refine ((norm_sub_le_norm_sub_add_norm_sub _ _ _).trans (add_le_add h1 h2)).trans ?_
  have he := elfactor_nonneg el
  have hsm := elfactor_small e0 e1 hL1
  rw [show √((2 * (el : ℝ) + 1) / (4 * Real.pi)) = elfactor el from rfl,
    show (L : ℝ) * √L / 2 ^ 35 = 512 * (L * √L / 2 ^ 44) by ring]
  rw [show (1 / 2 ^ 900 : ℝ) = tn from rfl] at hsm
  have hpi := Real.pi_gt_d2
  have hL2 : (L : ℝ) ≤ 2 ^ 26 := by exact_mod_cast hL1
  have h3 : 3 * (L : ℝ) / 2 ^ 1000 ≤ 1 / 2 ^ 900 := by
    rw [show (3 * (L : ℝ) / 2 ^ 1000) = 3 * L * (1 / 2 ^ 1000) by ring, tiny_tn,
      show (1 / 2 ^ 900 : ℝ) = tn from rfl]
    have : 3 * (L : ℝ) * (tn / 2 ^ 100) = 3 * L / 2 ^ 100 * tn := by ring
    rw [this]
    refine mul_le_of_le_one_left htn.le ?_
    rw [div_le_one (by norm_num)]
    norm_num at hL2 ⊢; linarith
  have htin : 512 * (1 / 2 ^ 880 : ℝ) + 1 / 2 ^ 900 ≤ 1 / 2 ^ 800 := by
    have t1 : (1 / 2 ^ 880 : ℝ) ≤ 1 / 2 ^ 810 :=
      one_div_le_one_div_of_le (by positivity) (pow_le_pow_right₀ (by norm_num) (by norm_num))
    have t2 : (1 / 2 ^ 900 : ℝ) ≤ 1 / 2 ^ 810 :=
      one_div_le_one_div_of_le (by positivity) (pow_le_pow_right₀ (by norm_num) (by norm_num))
    have t3 : 1024 * (1 / 2 ^ 810 : ℝ) = 1 / 2 ^ 800 := by
      rw [pow_add 2 800 10]; field_simp; norm_num
    have t4 : (0 : ℝ) ≤ 1 / 2 ^ 810 := by positivity
    linarith
  generalize (L : ℝ) * √L / 2 ^ 44 = E at *
  have hb : 5700 * E * (M + η + tn) + 661 * η
      ≤ 4 * Real.pi * (M * (512 * E) + 68 * η) + 4 * Real.pi * tn * 512 := by
    have a1 : 0 ≤ E * M := by positivity
    have a2 : E * η ≤ 1 / 32 * η := by gcongr
    have a3 : E * tn ≤ 1 / 32 * tn := by gcongr
    have a4 := mul_nonneg (sub_nonneg.2 hpi.le) a1
    have a5 := mul_nonneg (sub_nonneg.2 hpi.le) hη
    have a6 := mul_nonneg (sub_nonneg.2 hpi.le) htn.le
    norm_num at a4 a5 a6
    nlinarith
  have h4 := mul_le_mul_of_nonneg_left hb he
  have h5 : elfactor el * (4 * Real.pi * (M * (512 * E) + 68 * η) + 4 * Real.pi * tn * 512)
    = 4 * Real.pi * elfactor el * (M * (512 * E) + 68 * η)
      + 512 * (4 * Real.pi * elfactor el * tn) := by ring
  linarith

/-- What the round trip loses. -/
theorem roundTrip_resampled {L el : ℤ} {S : ℝ} (hL : 1 ≤ L) (hL1 : L ≤ 2 ^ 26) (e0 : 0 ≤ el) (e1 : el < L)
    (hS0 : 0 ≤ S) :
    4 * Real.pi * √((2 * (el : ℝ) + 1) / (4 * Real.pi))
        * ((S + (L * √L / 2 ^ 41 * S + 1 / 2 ^ 900)) * (L * √L / 2 ^ 35)
          + 68 * (L * √L / 2 ^ 41 * S + 1 / 2 ^ 900)) + 1 / 2 ^ 800
      ≤ 4 * Real.pi * √((2 * (el : ℝ) + 1) / (4 * Real.pi)) * (S * (L * √L / 2 ^ 33)) + 1 / 2 ^ 700 := by
  obtain ⟨s1, s2, s3⟩ := sizeE hL hL1
  have he := elfactor_nonneg el
  have hsm := elfactor_small e0 e1 hL1
  rw [show √((2 * (el : ℝ) + 1) / (4 * Real.pi)) = elfactor el from rfl,
    show (L : ℝ) * √L / 2 ^ 41 = 8 * (L * √L / 2 ^ 44) by ring,
    show (L : ℝ) * √L / 2 ^ 35 = 512 * (L * √L / 2 ^ 44) by ring,
    show (L : ℝ) * √L / 2 ^ 33 = 2048 * (L * √L / 2 ^ 44) by ring]
  generalize (L : ℝ) * √L / 2 ^ 44 = E at *
  have hpe : 0 ≤ 4 * Real.pi * elfactor el := mul_nonneg (by positivity) he
  have hSE : 0 ≤ S * E := mul_nonneg hS0 s1
  have hSEE : S * E * E ≤ S * E * (1 / 32) := mul_le_mul_of_nonneg_left s2 hSE
  have h1 : (S + (8 * E * S + 1 / 2 ^ 900)) * (512 * E) + 68 * (8 * E * S + 1 / 2 ^ 900)
      ≤ S * (2048 * E) + 84 * (1 / 2 ^ 900) := by
    have ht : (0 : ℝ) ≤ 1 / 2 ^ 900 := by positivity
    have ht2 : (1 / 2 ^ 900 : ℝ) * (512 * E) ≤ 1 / 2 ^ 900 * 16 :=
      mul_le_mul_of_nonneg_left (by linarith) ht
    have e : (S + (8 * E * S + 1 / 2 ^ 900)) * (512 * E) + 68 * (8 * E * S + 1 / 2 ^ 900)
      = 1056 * (S * E) + 4096 * (S * E * E) + 1 / 2 ^ 900 * (512 * E) + 68 * (1 / 2 ^ 900) := by ring
    rw [e, show S * (2048 * E) = 2048 * (S * E) by ring]
    linarith
  have h2 := mul_le_mul_of_nonneg_left h1 hpe
  have e3 : 4 * Real.pi * elfactor el * (S * (2048 * E) + 84 * (1 / 2 ^ 900))
      = 4 * Real.pi * elfactor el * (S * (2048 * E)) + 84 * (4 * Real.pi * elfactor el * (1 / 2 ^ 900)) := by
    ring
  have htin : 84 * (1 / 2 ^ 880 : ℝ) + 1 / 2 ^ 800 ≤ 1 / 2 ^ 700 := by
    have t1 : (1 / 2 ^ 880 : ℝ) ≤ 1 / 2 ^ 710 :=
      one_div_le_one_div_of_le (by positivity) (pow_le_pow_right₀ (by norm_num) (by norm_num))
    have t2 : (1 / 2 ^ 800 : ℝ) ≤ 1 / 2 ^ 710 :=
      one_div_le_one_div_of_le (by positivity) (pow_le_pow_right₀ (by norm_num) (by norm_num))
    have t3 : 1024 * (1 / 2 ^ 710 : ℝ) = 1 / 2 ^ 700 := by
      rw [pow_add 2 700 10]; field_simp; norm_num
    have t4 : (0 : ℝ) ≤ 1 / 2 ^ 710 := by positivity
    linarith
  linarith

theorem coeffSize_nonneg (L : ℤ) (c : ℤ → ℤ → ℂ) : 0 ≤ coeffSize L c := by
  unfold coeffSize
  exact Finset.sum_nonneg fun l _ => Finset.sum_nonneg fun m _ =>
    mul_nonneg (Real.sqrt_nonneg _) (norm_nonneg _)

end S2fft
