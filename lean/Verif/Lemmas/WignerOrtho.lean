import Verif.Lemmas.Risbo
import Verif.Lemmas.Wigner
import Mathlib.MeasureTheory.Integral.IntervalIntegral.FundThmCalculus
import Mathlib.Analysis.SpecialFunctions.Integrals.Basic

/-! # Orthogonality of the Wigner-d functions over the angle -/

namespace S2fft
open Spec

/-- Raising form of the derivative. -/
theorem sin_deriv_up (l m n : ℤ) (β : ℝ) (hm : |m| ≤ l) (hn : |n| ≤ l) :
    Real.sin β * ((ladder l n * wignerd l m (n - 1) β - ladder l (n + 1) * wignerd l m (n + 1) β) / 2)
      = -(ladder l (n + 1) * Real.sin β * wignerd l m (n + 1) β)
        - ((m : ℝ) - n * Real.cos β) * wignerd l m n β := by
  have := wignerd_three' l m n β hm hn
  linear_combination this

/-- Lowering form of the derivative. -/
theorem sin_deriv_down (l m n : ℤ) (β : ℝ) (hm : |m| ≤ l) (hn : |n| ≤ l) :
    Real.sin β * ((ladder l n * wignerd l m (n - 1) β - ladder l (n + 1) * wignerd l m (n + 1) β) / 2)
      = ladder l n * Real.sin β * wignerd l m (n - 1) β
        + ((m : ℝ) - n * Real.cos β) * wignerd l m n β := by
  have := wignerd_three' l m n β hm hn
  linear_combination -this

/-- `∫_0^π d^l_{mn} d^{l'}_{mn} sin`. -/
noncomputable def wigInt (l l' m n : ℤ) : ℝ :=
  ∫ β in (0 : ℝ)..Real.pi, wignerd l m n β * wignerd l' m n β * Real.sin β

theorem wigInt_step (l l' m n : ℤ) (hm : |m| ≤ l) (hm' : |m| ≤ l') (hn : |n| ≤ l)
    (hn' : |n + 1| ≤ l') :
    ladder l' (n + 1) * wigInt l l' m n = ladder l (n + 1) * wigInt l l' m (n + 1) := by
  have hd : ∀ β : ℝ, HasDerivAt (fun β => Real.sin β * (wignerd l' m (n + 1) β * wignerd l m n β))
      (ladder l' (n + 1) * (wignerd l m n β * wignerd l' m n β * Real.sin β)
        - ladder l (n + 1) * (wignerd l m (n + 1) β * wignerd l' m (n + 1) β * Real.sin β)) β := by
    intro β
    have h := (Real.hasDerivAt_sin β).mul
      ((hasDerivAt_wignerd l' m (n + 1) β).mul (hasDerivAt_wignerd l m n β))
    refine HasDerivAt.congr_deriv h ?_
    simp only [Pi.mul_apply]
    have a := sin_deriv_down l' m (n + 1) β hm' hn'
    have b := sin_deriv_up l m n β hm hn
    rw [show n + 1 - 1 = n by ring] at a ⊢
    push_cast at a
    linear_combination (wignerd l m n β) * a + (wignerd l' m (n + 1) β) * b
  have hint := intervalIntegral.integral_eq_sub_of_hasDerivAt (a := 0) (b := Real.pi)
    (fun β _ => hd β) (by
      apply Continuous.intervalIntegrable
      have := continuous_wignerd l m n
      have := continuous_wignerd l' m n
      have := continuous_wignerd l m (n + 1)
      have := continuous_wignerd l' m (n + 1)
      have := Real.continuous_sin
      fun_prop)
  rw [Real.sin_pi, Real.sin_zero, zero_mul, zero_mul, sub_zero, intervalIntegral.integral_sub,
    intervalIntegral.integral_const_mul, intervalIntegral.integral_const_mul] at hint
  · unfold wigInt; linarith
  · apply Continuous.intervalIntegrable
    have := continuous_wignerd l m n
    have := continuous_wignerd l' m n
    fun_prop
  · apply Continuous.intervalIntegrable
    have := continuous_wignerd l m (n + 1)
    have := continuous_wignerd l' m (n + 1)
    fun_prop

theorem wigInt_comm (l l' m n : ℤ) : wigInt l l' m n = wigInt l' l m n := by
  unfold wigInt
  congr 1; ext β; ring

theorem wigInt_lt {l l' m n : ℤ} (h : l < l') (hm : |m| ≤ l) (hn : |n| ≤ l) :
    wigInt l l' m n = 0 := by
  have hm' : |m| ≤ l' := by omega
  have key : ∀ k : ℕ, ∀ n : ℤ, |n| ≤ l → l - n = k → wigInt l l' m n = 0 := by
    intro k
    induction k with
    | zero =>
      intro n hn hk
      have e : n = l := by omega
      subst e
      rw [abs_le] at hn
      have := wigInt_step n l' m n hm hm' (by rw [abs_le]; omega) (by rw [abs_le]; omega)
      rw [ladder_top, zero_mul] at this
      exact (mul_eq_zero.1 this).resolve_left (ladder_pos l' (n + 1) (by omega) (by omega)).ne'
    | succ k ih =>
      intro n hn hk
      rw [abs_le] at hn
      have := wigInt_step l l' m n hm hm' (by rw [abs_le]; omega) (by rw [abs_le]; omega)
      rw [ih (n + 1) (by rw [abs_le]; omega) (by omega), mul_zero] at this
      exact (mul_eq_zero.1 this).resolve_left (ladder_pos l' (n + 1) (by omega) (by omega)).ne'
  rw [abs_le] at hn
  exact key (l - n).toNat n (by rw [abs_le]; omega) (by omega)

theorem wigInt_const {l m n : ℤ} (hm : |m| ≤ l) (hn : |n| ≤ l) :
    wigInt l l m n = wigInt l l m (-l) := by
  have key : ∀ k : ℕ, (k : ℤ) ≤ 2 * l → wigInt l l m (-l + k) = wigInt l l m (-l) := by
    intro k
    induction k with
    | zero => intro _; simp
    | succ k ih =>
      intro hk
      push_cast at hk
      have := wigInt_step l l m (-l + k) hm hm (by rw [abs_le]; omega) (by rw [abs_le]; omega)
      have h0 := (ladder_pos l (-l + k + 1) (by omega) (by omega)).ne'
      have := mul_left_cancel₀ h0 this
      push_cast
      rw [← add_assoc, ← this, ih (by omega)]
  rw [abs_le] at hn
  have := key (n + l).toNat (by omega)
  rwa [show -l + (((n + l).toNat : ℕ) : ℤ) = n by omega] at this

theorem wigInt_self {l m n : ℤ} (hm : |m| ≤ l) (hn : |n| ≤ l) :
    wigInt l l m n = 2 / (2 * l + 1) := by
  have hl : 0 ≤ l := le_trans (abs_nonneg _) hm
  have hs : ∑ n ∈ Finset.Ico (-l) (l + 1), wigInt l l m n = 2 := by
    unfold wigInt
    rw [← intervalIntegral.integral_finsetSum]
    · have : ∀ β : ℝ, ∑ n ∈ Finset.Ico (-l) (l + 1), wignerd l m n β * wignerd l m n β * Real.sin β
          = Real.sin β := by
        intro β
        rw [← Finset.sum_mul, wignerd_orthonormal, if_pos ⟨hm, rfl⟩, one_mul]
      simp only [this]
      rw [integral_sin]; simp; norm_num
    · intro n _
      apply Continuous.intervalIntegrable
      have := continuous_wignerd l m n
      fun_prop
  have hc : ∀ k ∈ Finset.Ico (-l) (l + 1), wigInt l l m k = wigInt l l m n := by
    intro k hk
    rw [Finset.mem_Ico] at hk
    rw [wigInt_const hm (by rw [abs_le]; omega), wigInt_const hm hn]
  rw [Finset.sum_congr rfl hc, Finset.sum_const, Int.card_Ico, nsmul_eq_mul] at hs
  have e : (((l + 1 - -l).toNat : ℕ) : ℝ) = 2 * l + 1 := by
    have : (((l + 1 - -l).toNat : ℕ) : ℤ) = 2 * l + 1 := by omega
    exact_mod_cast this
  rw [e] at hs
  have : (2 * (l : ℝ) + 1) ≠ 0 := by
    have : (0 : ℝ) ≤ l := by exact_mod_cast hl
    positivity
  rw [eq_div_iff this, mul_comm]; exact hs

/-- Orthogonality of the Wigner-d functions of different degrees. -/
theorem wigInt_eq {l l' m n : ℤ} (hm : |m| ≤ l) (hm' : |m| ≤ l') (hn : |n| ≤ l) (hn' : |n| ≤ l') :
    wigInt l l' m n = if l = l' then 2 / (2 * (l : ℝ) + 1) else 0 := by
  split_ifs with h
  · subst h; exact wigInt_self hm hn
  · rcases lt_or_gt_of_ne h with h | h
    · exact wigInt_lt h hm hn
    · rw [wigInt_comm]; exact wigInt_lt h hm' hn'

end S2fft
