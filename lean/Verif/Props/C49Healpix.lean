import Verif.Props.C48
import Verif.Props.C49
import Verif.Lemmas.PrecomputeHealpixDouble

/-! # C49: the precomputed kernel of the HEALPix grid -/

namespace S2fft
open Spec

/-- The entries of the kernel are `√((2l+1)/4π) dˡ(θ) e^(±imφ)`, with `θ` the colatitude of the ring and `φ` the
azimuth of its first pixel, times the weight of the ring for the forward transform. -/
theorem C49_kernel_healpix (F : FftLib) (nodes : ℤ → ℤ → ℝ) (w : ℤ → ℝ) (L spin nside : ℤ) (hL : 1 ≤ L)
    (hL1 : L ≤ 2 ^ 26) (hn : 1 ≤ nside) (hn1 : nside ≤ 2 ^ 18) (hLn : L * nside ≤ 2 ^ 42) (hsp : |spin| < L)
    (reality forward : Bool) (hr : reality = true → spin = 0) :
    ∃ K, spinSphericalKernelHpF F w L spin nside reality forward
        = .ok (.d3 (4 * nside - 1) L (if reality then L else 2 * L - 1) K) ∧
      ∀ t el m, 0 ≤ t → t < 4 * nside - 1 → 0 ≤ el → el < L → |m| < L →
        ‖K t el (if reality then m else m + L - 1)
            - ((if forward then w t else 1) * (√((2 * (el : ℝ) + 1) / (4 * Real.pi))
                * wignerd el m (-spin) (Scheme.healpix.theta nodes L nside t)) : ℝ)
              * cis ((if forward then -1 else 1) * (m * Scheme.healpix.phi L nside t 0))‖
          ≤ |if forward then w t else 1| * √((2 * (el : ℝ) + 1) / (4 * Real.pi))
              * (L * √L / 2 ^ 42 + L * nside / 2 ^ 47) + 1 / 2 ^ 250 := by
  have hL' : (1 : ℝ) ≤ L := by exact_mod_cast hL
  have hn' : (1 : ℝ) ≤ nside := by exact_mod_cast hn
  have hLn' : (L : ℝ) * nside ≤ 2 ^ 42 := by exact_mod_cast hLn
  obtain ⟨s1, s2, s3⟩ := sizeE hL hL1
  obtain ⟨T, eT, hT, -⟩ := C48_colatitudes_healpix F.toDoubleLib (fun _ _ => 0) nodes sHP (by rfl) (some L) L
    nside hn hn1
  have eR : Scheme.healpix.rings L nside = 4 * nside - 1 := rfl
  rw [eR] at eT hT
  have hτ1 : (L : ℝ) * (nside / 2 ^ 47) ≤ 1 / 32 := by norm_num at hLn' ⊢; linarith
  obtain ⟨K, e, h⟩ := kernelRisboF_near_hp F (spin := spin) (nt := 4 * nside - 1)
    (θ := Scheme.healpix.theta nodes L nside) (θ' := T) (reality := reality) hL hL1 (covers_sqrt hL hL1)
    (fun t t0 t1 => by
      have h1 := hT t t0 t1
      have h2 := Real.arccos_nonneg (Scheme.healpixZ nside t)
      have h3 := Real.arccos_le_pi (Scheme.healpixZ nside t)
      have h4 := abs_sub_abs_le_abs_sub (T t) (Scheme.healpix.theta nodes L nside t)
      rw [show Scheme.healpix.theta nodes L nside t = Real.arccos (Scheme.healpixZ nside t) from rfl,
        abs_of_nonneg h2] at h4
      rw [show Scheme.healpix.theta nodes L nside t = Real.arccos (Scheme.healpixZ nside t) from rfl] at h1
      have h5 := Real.pi_lt_d2
      nlinarith) hT (by linarith) hsp
  refine ⟨fun t el j => F.mul ((if forward then fun t el j => F.fl (K t el j * w t) else K) t el j : ℝ)
    (ringPhaseShiftHpF F.toDoubleLib L t nside forward (mStart L reality + j)), ?_,
    fun t el m t0 t1 e0 e1 hm => ?_⟩
  · unfold spinSphericalKernelHpF
    rw [show (if reality = true ∧ spin ≠ 0 then false else reality) = reality from effReality_eq hr, eT]
    simp only [bind, Except.bind, pure, Except.pure]
    rw [e]
    rfl
  · have h1 := h t el m t0 t1 e0 e1 hm
    have e2 : (if reality then m else m + L - 1) = m + L - 1 - mStart L reality := by
      unfold mStart; split_ifs <;> ring
    have hel := elfactor_nonneg el
    obtain ⟨p0, p1⟩ := hp_first_phi L (n := nside) t0 t1
    have hP : ‖ringPhaseShiftHpF F.toDoubleLib L t nside forward (mStart L reality + (m + L - 1 - mStart L reality))
        - cis ((if forward then -1 else 1) * (m * Scheme.healpix.phi L nside t 0))‖ ≤ L / 2 ^ 48 := by
      unfold ringPhaseShiftHpF
      have := expIF_order F.toDoubleLib (m := (if forward then -1 else 1) * m) hL1
        (by cases forward <;> simpa using hm) p0 p1
        (p2phi_ringF_rel F.toDoubleLib L hn (by omega) t0 t1 le_rfl (by unfold ringSize; omega))
      rw [show -L + 1 + (mStart L reality + (m + L - 1 - mStart L reality)) = m by ring]
      refine le_of_eq_of_le ?_ this
      congr 3
      push_cast
      split_ifs <;> push_cast <;> ring
    have hd := wignerd_abs_le_one el m (-spin) (Scheme.healpix.theta nodes L nside t)
    rw [show √((2 * (el : ℝ) + 1) / (4 * Real.pi)) = elfactor el from rfl] at *
    have hlo : (L : ℝ) / 2 ^ 48 ≤ 1 / 16 * (L * √L / 2 ^ 44) := by
      have : (L : ℝ) / 2 ^ 48 = 1 / 16 * (L / 2 ^ 44) := by ring
      linarith
    have hu : (1 / 2 ^ 50 : ℝ) ≤ 1 / 64 * (L * √L / 2 ^ 44) := by
      have h2 : (1 / 2 ^ 50 : ℝ) = 1 / 64 * (1 / 2 ^ 44) := by norm_num
      have h3 : (1 : ℝ) / 2 ^ 44 ≤ L / 2 ^ 44 := div_le_div_of_nonneg_right hL' (by norm_num)
      linarith
    have hbase : |elfactor el * wignerd el m (-spin) (Scheme.healpix.theta nodes L nside t)| ≤ elfactor el := by
      rw [abs_mul, abs_of_nonneg hel]
      exact mul_le_of_le_one_right hel hd
    rw [e2]
    have htiny : 2 * (1 / 2 ^ 253 : ℝ) + 1 / 2 ^ 1000 ≤ 1 / 2 ^ 250 := by
      have h2 : (1 / 2 ^ 1000 : ℝ) ≤ 1 / 2 ^ 253 :=
        one_div_le_one_div_of_le (by positivity) (pow_le_pow_right₀ (by norm_num) (by norm_num))
      have h3 : (8 : ℝ) * (1 / 2 ^ 253) = 1 / 2 ^ 250 := by norm_num
      have h4 : (0 : ℝ) ≤ 1 / 2 ^ 253 := by positivity
      linarith
    set g : ℝ := if forward then w t else 1 with hg
    set x : ℝ := (if forward then fun t el j => F.fl (K t el j * w t) else K) t el
      (m + L - 1 - mStart L reality) with hx
    set a := elfactor el * wignerd el m (-spin) (Scheme.healpix.theta nodes L nside t) with ha
    have hxa : |x - g * a| ≤ |g| * elfactor el * (2 * (L * √L / 2 ^ 44) + L * (nside / 2 ^ 47) + 2 / 2 ^ 53)
        + 1 / 2 ^ 253 := by
      cases forward
      · simp only [Bool.false_eq_true, if_false] at hx hg
        rw [hx, hg, one_mul, abs_one, one_mul]
        refine h1.trans ?_
        have : elfactor el * (2 * (L * √L / 2 ^ 44) + L * (nside / 2 ^ 47))
            ≤ elfactor el * (2 * (L * √L / 2 ^ 44) + L * (nside / 2 ^ 47) + 2 / 2 ^ 53) :=
          mul_le_mul_of_nonneg_left (by norm_num) hel
        have h4 : (0 : ℝ) ≤ 1 / 2 ^ 253 := by positivity
        linarith
      · simp only [if_true] at hx hg
        rw [hx, hg]
        have hK : |K t el (m + L - 1 - mStart L reality) * w t - w t * a|
            ≤ |w t| * (elfactor el * (2 * (L * √L / 2 ^ 44) + L * (nside / 2 ^ 47))) := by
          rw [mul_comm (K _ _ _), ← mul_sub, abs_mul]
          exact mul_le_mul_of_nonneg_left h1 (abs_nonneg _)
        have hz : 2 * (L * √L / 2 ^ 44) + L * (nside / 2 ^ 47) ≤ (1 : ℝ) := by linarith
        have hwa : |w t * a| ≤ |w t| * elfactor el := by
          rw [abs_mul]; exact mul_le_mul_of_nonneg_left hbase (abs_nonneg _)
        have hwe : 0 ≤ |w t| * elfactor el := mul_nonneg (abs_nonneg _) hel
        have h5 : |w t| * (elfactor el * (2 * (L * √L / 2 ^ 44) + L * (nside / 2 ^ 47)))
            ≤ |w t| * elfactor el * 1 := by
          rw [← mul_assoc]; exact mul_le_mul_of_nonneg_left hz hwe
        have h6 := fl_step F.nearest hK (B := 2 * (|w t| * elfactor el) + 1 / 2 ^ 200) (by
          have : (0 : ℝ) ≤ 1 / 2 ^ 200 := by positivity
          linarith) (by linarith)
        refine h6.trans (le_of_eq ?_)
        rw [show (1 / 2 ^ 253 : ℝ) = 1 / 2 ^ 200 / 2 ^ 53 by norm_num]
        ring
    have hA : 0 ≤ |g| * elfactor el := mul_nonneg (abs_nonneg _) hel
    have hga : |g * a| ≤ |g| * elfactor el := by
      rw [abs_mul]; exact mul_le_mul_of_nonneg_left hbase (abs_nonneg _)
    have key := phase_entry F hA hga hxa hP (norm_cis _) (by norm_num at *; linarith) (by linarith)
      (by positivity)
    refine key.trans ?_
    have h7 : |g| * elfactor el * (2 * (L * √L / 2 ^ 44) + L * (nside / 2 ^ 47) + 2 / 2 ^ 53 + 2 * (L / 2 ^ 48)
        + 2 / 2 ^ 50) ≤ |g| * elfactor el * (L * √L / 2 ^ 42 + L * nside / 2 ^ 47) := by
      refine mul_le_mul_of_nonneg_left ?_ hA
      rw [show (L : ℝ) * √L / 2 ^ 42 = 4 * (L * √L / 2 ^ 44) by ring,
        show (L : ℝ) * nside / 2 ^ 47 = L * (nside / 2 ^ 47) by ring,
        show (2 / 2 ^ 53 : ℝ) = 1 / 4 * (1 / 2 ^ 50) by norm_num,
        show (2 / 2 ^ 50 : ℝ) = 2 * (1 / 2 ^ 50) by norm_num]
      generalize (1 / 2 ^ 50 : ℝ) = u at *
      linarith
    linarith

/-- A large map of spin 2, and its forward kernel. -/
example := C49_kernel_healpix exactFftLib (fun _ _ => 0) (fun _ => 4 * Real.pi / (12 * 8192 ^ 2)) 24576 2 8192
  (by norm_num) (by norm_num) (by norm_num) (by norm_num) (by norm_num) (by norm_num) false true (by simp)

end S2fft
