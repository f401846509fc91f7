import Verif.Props.C61
import Verif.Props.C59Forward
import Verif.Lemmas.FourierWignerDoubleResult

/-! # C61: the forward Fourier-Wigner transform and the round trip -/

namespace S2fft
open Spec

theorem FwPrecompsF.quads {L : ℤ} (hL : 1 ≤ L) (hL1 : L ≤ 2 ^ 26) {precomps : Option FwTables}
    (h : FwPrecompsF L precomps) (F : FftLib) {p : ℤ} (p0 : 0 ≤ p) (p1 : p < 4 * L - 3) :
    ‖fwQuadsOfF F precomps L p - fwQuads L p‖ ≤ 64 * L / 2 ^ 50 := by
  rcases h with rfl | ⟨F', κ, P, e, rfl⟩
  · exact fwQuadsF_near F hL hL1 p0 p1
  · obtain ⟨P', e', -, hq⟩ := fourierWignerKernelF_near F' κ hL hL1
    rw [e] at e'
    cases e'
    show ‖P.quads p - _‖ ≤ _
    rw [hq]
    exact fwQuadsF_near F'.toFftLib hL hL1 p0 p1

/-- **The forward transform**, of samples that are those of an expansion up to `η` and at most `M` in
size: every coefficient is that of the expansion up to `8π² (M L^(3/2) / 2³⁸ + 12 η)`, with or without
tables computed beforehand; `8π²` is the volume of the rotation group. -/
theorem C61_forward (F : XlaLib) (pair : Fin 3) (nodes : ℤ → ℤ → ℝ) (method : PyStr) (σ : Scheme)
    (hσ : σ = .mw ∨ σ = .mwss) (s : PyStr) (hs : lower s = σ.name) (L N : ℤ) (hL1 : L ≤ 2 ^ 26)
    (hL : σ = .mwss → 2 ≤ L) (h1 : 1 ≤ N) (hN : N ≤ L) (reality : Bool) (c : ℤ → ℤ → ℤ → ℂ) (f : Nd ℂ)
    (M η : ℝ) (hsh : f.shape = (2 * N - 1) :: σ.shape L 0)
    (hM : ∀ g t p, 0 ≤ g → g < 2 * N - 1 → σ.Has L 0 t p → ‖f.get3 g t p‖ ≤ M)
    (hf : ∀ g t p, 0 ≤ g → g < 2 * N - 1 → σ.Has L 0 t p → ‖f.get3 g t p
      - wignerSum 0 L N c (σ.phi L 0 t p) (σ.theta nodes L 0 t) (gammaAt N g)‖ ≤ η)
    (hre : reality = true → RealWigner c 0 L) (precomps : Option FwTables)
    (hP : FwPrecompsF L precomps) :
    ∃ out, fourierWignerForwardF F pair method f L N precomps reality s
        = .ok (.d3 (2 * N - 1) L (2 * L - 1) out) ∧
      ∀ n el m, |n| < N → 0 ≤ el → el < L → |m| < L →
        ‖out (N - 1 + n) el (m + L - 1) - (if |n| ≤ el ∧ |m| ≤ el then c n el m else 0)‖
          ≤ 8 * Real.pi ^ 2 * (M * (L * √L / 2 ^ 38) + 12 * η) + 1 / 2 ^ 800 := by
  have hL0 : 1 ≤ L := h1.trans hN
  obtain ⟨s1, s2, s3⟩ := sizeE hL0 hL1
  have hh0 : σ.Has L 0 0 0 := by
    refine ⟨le_rfl, ?_, le_rfl, ?_⟩ <;>
      rcases hσ with rfl | rfl <;> simp [Scheme.rings, Scheme.ringLen] <;> omega
  have hM0 : 0 ≤ M := le_trans (norm_nonneg _) (hM 0 0 0 le_rfl (by omega) hh0)
  obtain ⟨out, e, ho⟩ := fourierWignerForwardF_near F pair nodes method hσ hs h1 hN hL1 hL c f hsh hM hf
    (hP.near hL0 hL1) (fun p p0 p1 => hP.quads hL0 hL1 F.toFftLib p0 p1) hre
  refine ⟨out, e, fun n el m hn e0 e1 hm => ?_⟩
  rw [abs_lt] at hn hm
  refine (ho n el m hn.1 hn.2 e0 e1 hm.1 hm.2).trans ?_
  have hp2 : 8 * Real.pi ^ 2 ≤ 128 := by nlinarith [Real.pi_le_four, Real.pi_pos]
  have htn := tn_pos
  have ht : 1024 * tn ≤ 1 / 2 ^ 800 := by
    unfold tn
    have t1 : (1 / 2 ^ 900 : ℝ) ≤ 1 / 2 ^ 810 :=
      one_div_le_one_div_of_le (by positivity) (pow_le_pow_right₀ (by norm_num) (by norm_num))
    have t3 : 1024 * (1 / 2 ^ 810 : ℝ) = 1 / 2 ^ 800 := by
      rw [pow_add 2 800 10]; field_simp; norm_num
    linarith
  rw [show (L : ℝ) * √L / 2 ^ 38 = 64 * (L * √L / 2 ^ 44) by ring]
  generalize (1 / 2 ^ 800 : ℝ) = τ at *
  generalize (L : ℝ) * √L / 2 ^ 44 = E at *
  have hEM : 0 ≤ E * M := mul_nonneg s1 hM0
  have e2 : (2 * Real.pi) ^ 2 * (24 * η + 112 * (E * M) + 9 * tn)
      = 8 * Real.pi ^ 2 * (56 * (E * M) + 12 * η) + 9 / 2 * (8 * Real.pi ^ 2 * tn) := by ring
  rw [e2]
  have k1 := mul_le_mul_of_nonneg_right hp2 htn.le
  have k2 : 8 * Real.pi ^ 2 * (56 * (E * M) + 12 * η) ≤ 8 * Real.pi ^ 2 * (M * (64 * E) + 12 * η) :=
    mul_le_mul_of_nonneg_left (by linarith) (by positivity)
  linarith

/-- **The round trip**: each coefficient comes back up to `8π² L^(3/2) / 2³⁶` times the size of the
coefficients, whatever the libraries and tables used on either side. -/
theorem C61_round_trip (F F' : XlaLib) (pair pair' : Fin 3) (method method' : PyStr) (σ : Scheme)
    (hσ : σ = .mw ∨ σ = .mwss) (s : PyStr) (hs : lower s = σ.name) (L N : ℤ) (hL1 : L ≤ 2 ^ 26)
    (hL : σ = .mwss → 2 ≤ L) (h1 : 1 ≤ N) (hN : N ≤ L) (reality : Bool) (flmn : ℤ → ℤ → ℤ → ℂ)
    (hre : RealPlane flmn L N reality) (precomps precomps' : Option FwTables)
    (hP : FwPrecompsF L precomps) (hP' : FwPrecompsF L precomps') :
    ∃ f out, fourierWignerInverseF F pair method (.d3 (2 * N - 1) L (2 * L - 1) flmn) L N precomps
        reality s = .ok f ∧
      fourierWignerForwardF F' pair' method' f L N precomps' reality s
        = .ok (.d3 (2 * N - 1) L (2 * L - 1) out) ∧
      ∀ n el m, |n| < N → 0 ≤ el → el < L → |m| < L → ‖out (N - 1 + n) el (m + L - 1)
          - (if |n| ≤ el ∧ |m| ≤ el then wignerCoeffs flmn L N reality n el m else 0)‖
        ≤ 8 * Real.pi ^ 2 * (so3CoeffSize L N reality flmn * (L * √L / 2 ^ 36)) + 1 / 2 ^ 700 := by
  obtain ⟨s1, s2, s3⟩ := sizeE (h1.trans hN) hL1
  obtain ⟨f, e1, e2, -, hf⟩ := C61_inverse F pair (fun _ _ => 0) method σ hσ s hs L N hL1 h1 hN flmn
    reality hre precomps hP
  have hM : ∀ g t p, 0 ≤ g → g < 2 * N - 1 → σ.Has L 0 t p → ‖f.get3 g t p‖
      ≤ so3CoeffSize L N reality flmn + (L * √L / 2 ^ 41 * so3CoeffSize L N reality flmn
        + 1 / 2 ^ 850) := fun g t p g0 g1 hp => by
    have h1 := hf g t p g0 g1 hp
    have h2 := norm_le_norm_add_norm_sub' (f.get3 g t p) (wignerSum 0 L N (wignerCoeffs flmn L N reality)
      (σ.phi L 0 t p) (σ.theta (fun _ _ => 0) L 0 t) (gammaAt N g))
    have h3 := wignerSum_le hre (σ.phi L 0 t p) (σ.theta (fun _ _ => 0) L 0 t) (gammaAt N g)
    linarith
  obtain ⟨out, e3, ho⟩ := C61_forward F' pair' (fun _ _ => 0) method' σ hσ s hs L N hL1 hL h1 hN reality
    (wignerCoeffs flmn L N reality) f _ _ e2 hM hf
    (fun h => by subst h; exact wignerCoeffs_real hre.origin) precomps' hP'
  refine ⟨f, out, e1, e3, fun n el m hn e0 e1 hm => le_trans (ho n el m hn e0 e1 hm) ?_⟩
  have hS0 := so3CoeffSize_nonneg L N reality flmn
  have hp2 : 8 * Real.pi ^ 2 ≤ 128 := by nlinarith [Real.pi_le_four, Real.pi_pos]
  rw [show (L : ℝ) * √L / 2 ^ 41 = 8 * (L * √L / 2 ^ 44) by ring,
    show (L : ℝ) * √L / 2 ^ 38 = 64 * (L * √L / 2 ^ 44) by ring,
    show (L : ℝ) * √L / 2 ^ 36 = 256 * (L * √L / 2 ^ 44) by ring]
  have htin : 128 * 14 * (1 / 2 ^ 850 : ℝ) + 1 / 2 ^ 800 ≤ 1 / 2 ^ 700 := by
    have t1 : (1 / 2 ^ 850 : ℝ) ≤ 1 / 2 ^ 714 :=
      one_div_le_one_div_of_le (by positivity) (pow_le_pow_right₀ (by norm_num) (by norm_num))
    have t2 : (1 / 2 ^ 800 : ℝ) ≤ 1 / 2 ^ 714 :=
      one_div_le_one_div_of_le (by positivity) (pow_le_pow_right₀ (by norm_num) (by norm_num))
    have t3 : 16384 * (1 / 2 ^ 714 : ℝ) = 1 / 2 ^ 700 := by
      rw [pow_add 2 700 14]; field_simp; norm_num
    have t4 : (0 : ℝ) ≤ 1 / 2 ^ 714 := by positivity
    linarith
  have ht : (0 : ℝ) ≤ 1 / 2 ^ 850 := by positivity
  generalize (1 / 2 ^ 850 : ℝ) = τ at *
  generalize (L : ℝ) * √L / 2 ^ 44 = E at *
  generalize so3CoeffSize L N reality flmn = S at *
  have hSE : 0 ≤ S * E := mul_nonneg hS0 s1
  have hSEE : S * E * E ≤ S * E * (1 / 32) := mul_le_mul_of_nonneg_left s2 hSE
  have h1 : (S + (8 * E * S + τ)) * (64 * E) + 12 * (8 * E * S + τ) ≤ S * (256 * E) + 14 * τ := by
    have ht2 : τ * (64 * E) ≤ τ * 2 := mul_le_mul_of_nonneg_left (by linarith) ht
    have e : (S + (8 * E * S + τ)) * (64 * E) + 12 * (8 * E * S + τ)
      = 160 * (S * E) + 512 * (S * E * E) + τ * (64 * E) + 12 * τ := by ring
    rw [e, show S * (256 * E) = 256 * (S * E) by ring]
    linarith
  have h2 := mul_le_mul_of_nonneg_left h1 (by positivity : 0 ≤ 8 * Real.pi ^ 2)
  have h3 := mul_le_mul_of_nonneg_right hp2 ht
  linarith

/-- A complex signal without tables: NumPy one way, JAX with a compiler that fuses the other. -/
example := C61_round_trip fusedXlaLib fusedXlaLib 0 2 mNumpy mJax .mw (Or.inl rfl) sMW (by decide) 128 4
  (by norm_num) (fun h => nomatch h) (by norm_num) (by norm_num) false
  (fun n l m => n + l + m * Complex.I) (by simp [RealPlane]) none none (Or.inl rfl) (Or.inl rfl)

/-- A real signal, with the tables of JAX for the forward transform. -/
example : ∃ P f out, fourierWignerKernelF fusedXlaLib mJax 64 = .ok P ∧
    fourierWignerInverseF fusedXlaLib 1 mNumpy (.d3 (2 * 4 - 1) 64 (2 * 64 - 1)
      fun n l m => if n = 3 then (if m = 63 then l else 0) else n + l + m * Complex.I) 64 4 none true sMWSS
      = .ok f ∧
    fourierWignerForwardF fusedXlaLib 1 mNumpy f 64 4 (some P) true sMWSS
      = .ok (.d3 (2 * 4 - 1) 64 (2 * 64 - 1) out) := by
  obtain ⟨P, e, -⟩ := C61_planes fusedXlaLib mJax 64 (by norm_num) (by norm_num)
  obtain ⟨f, out, e1, e2, -⟩ := C61_round_trip fusedXlaLib fusedXlaLib 1 1 mNumpy mNumpy .mwss (Or.inr rfl)
    sMWSS (by decide) 64 4 (by norm_num) (fun _ => by norm_num) (by norm_num) (by norm_num) true
    (fun n l m => if n = 3 then (if m = 63 then l else 0) else n + l + m * Complex.I)
    (fun _ el m h0 h1 hm => by
      have e : ∀ k : ℤ, k + 64 - 1 = 63 ↔ k = 0 := fun k => by omega
      by_cases hm0 : m = 0
      · subst hm0; simp
      · simp [e, hm0]) none (some P) (Or.inl rfl) (Or.inr ⟨_, _, _, e, rfl⟩)
  exact ⟨P, f, out, e, e1, e2⟩

end S2fft
