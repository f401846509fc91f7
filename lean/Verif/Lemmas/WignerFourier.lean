import Verif.Lemmas.Wigner
import Verif.Lemmas.Risbo
import Verif.Lemmas.Dft

/-! # Fourier expansion of the Wigner-d functions -/

namespace S2fft
open Spec

/-- Scaling the columns. -/
theorem U_colscale (p q r t y : ℂ) (hy : y ≠ 0) (j k i : ℤ) :
    U (y * p) q (y * r) t j k i = y ^ k * U p q r t j k i := by
  unfold U
  split_ifs
  · have := qf_scale p q r t (Units.mk0 y hy) i.toNat (j - i).toNat k
    simp only [Units.val_mk0] at this
    rw [this, Units.val_zpow_eq_zpow_val, Units.val_mk0]
    ring
  · rw [mul_zero]

/-- `(c, -is; -is, c)` is `(c, s; -s, c)` up to powers of `i`. -/
theorem U_phase (c s : ℂ) (j k i : ℤ) (hi : 0 ≤ i) (hij : i ≤ j) :
    U c (-(Complex.I * s)) (-(Complex.I * s)) c j k i
      = Complex.I ^ (k - i) * U c s (-s) c j k i := by
  have hI := Complex.I_ne_zero
  have h1 := U_colscale c s (-s) c Complex.I hI j k i
  have h2 := U_smul (Complex.I * c) s (Complex.I * -s) c (-Complex.I) 1 j k i hi hij
  simp only [one_mul, one_pow, mul_one] at h2
  have e1 : -Complex.I * (Complex.I * c) = c := by
    linear_combination (-c) * Complex.I_mul_I
  rw [e1, h1] at h2
  have e2 : -Complex.I * s = -(Complex.I * s) := by ring
  have e3 : Complex.I * -s = -(Complex.I * s) := by ring
  rw [e2, e3] at h2
  rw [h2, zpow_sub₀ hI]
  have e4 : (-Complex.I) ^ i.toNat = (Complex.I ^ i)⁻¹ := by
    rw [← Complex.inv_I, ← zpow_natCast, Int.toNat_of_nonneg hi, inv_zpow]
  rw [e4]
  field_simp

/-- `d_{mn}(β) = i^(n-m) Σ_k Δ_{km} Δ_{kn} e^{ikβ}` with `Δ = d(π/2)`. -/
theorem wignerd_fourier (l m n : ℤ) (β : ℝ) :
    (wignerd l m n β : ℂ) = Complex.I ^ (n - m) * ∑ k ∈ Finset.Ico (-l) (l + 1),
      (wignerd l k m (Real.pi / 2) : ℂ) * wignerd l k n (Real.pi / 2) * cis (k * β) := by
  by_cases hn : 0 ≤ l + n ∧ l + n ≤ 2 * l
  · set c : ℂ := ((Real.cos (Real.pi / 2 / 2) : ℝ) : ℂ) with hc
    set s : ℂ := ((Real.sin (Real.pi / 2 / 2) : ℝ) : ℂ) with hs
    have hcs : s = c := by
      rw [hc, hs, show Real.pi / 2 / 2 = Real.pi / 4 by ring, Real.cos_pi_div_four,
        Real.sin_pi_div_four]
    have hc2 : c * c = 1 / 2 := by
      rw [hc, ← Complex.ofReal_mul, show Real.pi / 2 / 2 = Real.pi / 4 by ring,
        Real.cos_pi_div_four]
      have : √2 / 2 * (√2 / 2) = (1 / 2 : ℝ) := by
        have := Real.mul_self_sqrt (show (0 : ℝ) ≤ 2 by norm_num)
        linarith
      rw [this]; push_cast; norm_num
    have hd1 : ∀ k, (wignerd l k n (Real.pi / 2) : ℂ) = U c s (-s) c (2 * l) (l + k) (l + n) := by
      intro k
      rw [wignerd_eq_U, U_ofReal, Complex.ofReal_neg]
    have hd2 : ∀ k, (wignerd l k m (Real.pi / 2) : ℂ) = U c (-s) s c (2 * l) (l + m) (l + k) := by
      intro k
      rw [wignerd_eq_U, U_ofReal, Complex.ofReal_neg, U_transpose]
    set p : ℂ := cis (β / 2) with hp
    set t : ℂ := cis (-(β / 2)) with ht
    have hdiag : ∀ k ∈ Finset.Ico (-l) (l + 1), p ^ (l + k).toNat * t ^ (2 * l - (l + k)).toNat
        = cis (k * β) := by
      intro k hk
      rw [Finset.mem_Ico] at hk
      rw [hp, ht, ← zpow_natCast, ← zpow_natCast, Int.toNat_of_nonneg (by omega),
        Int.toNat_of_nonneg (by omega), ← cis_int_mul, ← cis_int_mul, ← cis_add]
      congr 1; push_cast; ring
    have h1 : ∀ k ∈ Finset.Ico (-l) (l + 1), cis (k * β) * U c (-s) s c (2 * l) (l + m) (l + k)
        = U (p * c) (p * -s) (t * s) (t * c) (2 * l) (l + m) (l + k) := by
      intro k hk
      have hk' := hk
      rw [Finset.mem_Ico] at hk'
      rw [U_smul _ _ _ _ _ _ _ _ _ (by omega) (by omega), hdiag k hk]
    have h2 := U_mul c s (-s) c (p * c) (p * -s) (t * s) (t * c)
      (2 * l) (l + m) (l + n) hn.1 hn.2
    have hexp : Complex.cos ((β / 2 : ℝ) : ℂ) = (p + t) / 2 ∧
        Complex.I * Complex.sin ((β / 2 : ℝ) : ℂ) = (p - t) / 2 := by
      rw [hp, ht, cis, cis, Complex.cos, Complex.sin]
      push_cast
      constructor
      · ring
      · linear_combination ((Complex.exp (-(↑β / 2) * Complex.I) - Complex.exp (↑β / 2 * Complex.I)) / 2) * Complex.I_mul_I
    have e1 : c * (p * c) + s * (t * s) = (Real.cos (β / 2) : ℝ) := by
      rw [hcs, Complex.ofReal_cos, hexp.1]; linear_combination (p + t) * hc2
    have e2 : c * (p * -s) + s * (t * c) = -(Complex.I * (Real.sin (β / 2) : ℝ)) := by
      rw [hcs, Complex.ofReal_sin, hexp.2]; linear_combination (t - p) * hc2
    have e3 : -s * (p * c) + c * (t * s) = -(Complex.I * (Real.sin (β / 2) : ℝ)) := by
      rw [hcs, Complex.ofReal_sin, hexp.2]; linear_combination (t - p) * hc2
    have e4 : -s * (p * -s) + c * (t * c) = (Real.cos (β / 2) : ℝ) := by
      rw [hcs, Complex.ofReal_cos, hexp.1]; linear_combination (p + t) * hc2
    rw [e1, e2, e3, e4, U_phase _ _ _ _ _ hn.1 hn.2] at h2
    have hsum : ∑ k ∈ Finset.Ico (-l) (l + 1),
        (wignerd l k m (Real.pi / 2) : ℂ) * wignerd l k n (Real.pi / 2) * cis (k * β)
        = ∑ i ∈ Finset.Ico 0 (2 * l + 1), U c s (-s) c (2 * l) i (l + n)
          * U (p * c) (p * -s) (t * s) (t * c) (2 * l) (l + m) i := by
      have := sum_Ico_shift (-l) (l + 1) l (fun i => U c s (-s) c (2 * l) i (l + n)
          * U (p * c) (p * -s) (t * s) (t * c) (2 * l) (l + m) i)
      rw [show -l + l = 0 by ring, show l + 1 + l = 2 * l + 1 by ring] at this
      rw [this]
      apply Finset.sum_congr rfl
      intro k hk
      rw [add_comm k l, ← h1 k hk, hd1, hd2]
      ring
    rw [hsum, h2, wignerd_eq_U, U_ofReal, Complex.ofReal_neg, ← mul_assoc,
      ← zpow_add₀ Complex.I_ne_zero, show n - m + (l + m - (l + n)) = 0 by ring, zpow_zero, one_mul]
  · rw [wignerd_outside _ _ _ _ (Or.inr (by rw [lt_abs]; omega))]
    rw [Finset.sum_eq_zero, mul_zero, Complex.ofReal_zero]
    intro k _
    rw [wignerd_outside l k n _ (Or.inr (by rw [lt_abs]; omega))]
    simp

end S2fft
