import Verif.Lemmas.TurokJax
import Verif.Model.Base

/-! # The slices used by the base transforms -/

namespace S2fft
open Spec

theorem turokQuarterSlice_outside (β : ℝ) (el L mm : ℤ) (po : Bool) (h0 : 0 ≤ el)
    (hs : ¬ isclose β 0 1e-8 → ¬ isclose β Real.pi 1e-8 → Real.sin β ≠ 0) (hmm : |mm| ≤ el) (x : ℤ)
    (hx : x < L - 1 - el ∨ L - 1 + el < x) :
    turokQuarterSlice (fun _ => 0) β el L mm po x = 0 := by
  have hmm' := hmm
  rw [abs_le] at hmm'
  unfold turokQuarterSlice
  split_ifs with a b c d
  · exact set1_ne _ _ (by omega)
  · exact set1_ne _ _ (by omega)
  · exact set1_ne _ _ (by omega)
  all_goals
    have hsin := hs a b
    have hl : 1 ≤ el := by omega
  · simp only
    rw [scale_loop_frame 0 (el + 1) (fun m => m + L - 1)
        (fun m v => v * (-1) ^ (|mm - m|).toNat) _ x (fun k h1 h2 => by omega),
      scale_loop_frame 0 (el + 1) (fun m => L - 1 + el + -1 * m)
        (fun m v => (-1) ^ ((mm - m + el) % 2).toNat * v * _) _ x (fun k h1 h2 => by omega)]
    have := (turokRow_spec β el (-mm) (turokCpi el) (turokCp2 el) hsin hl (by rwa [abs_neg])
      (turokCoef el) (fun k => L - 1 + el + -1 * k) (fun a b h => by simp at h; omega) (el + 1)
      (fun _ => 0)).2 x (fun k h1 h2 => by
        have : max (el + 1) 2 = el + 1 := by omega
        omega)
    rw [show el + -mm + 1 = el - mm + 1 by ring] at this
    exact this
  · simp only
    rw [scale_loop_frame (-el) (el + 1) (fun m => m + L - 1)
        (fun m v => v * (-1) ^ (|mm - m|).toNat) _ x (fun k h1 h2 => by omega),
      scale_loop_frame 0 (el + 1) (fun m => L - 1 + el + -1 * m)
        (fun m v => (-1) ^ ((mm - m + el) % 2).toNat * v * _) _ x (fun k h1 h2 => by omega)]
    have := fun a => (turokRow_spec β el (-mm) (turokCpi el) (turokCp2 el) hsin hl (by rwa [abs_neg])
      (turokCoef el) (fun k => L - 1 + el + -1 * k) (fun a b h => by simp at h; omega) (el + 1)
      a).2 x (fun k h1 h2 => by
        have : max (el + 1) 2 = el + 1 := by omega
        omega)
    rw [show el + -mm + 1 = el - mm + 1 by ring] at this
    rw [this, scale_loop_frame 0 el (fun m => L - 1 - el + 1 * m) (fun m v => v * _) _ x
      (fun k h1 h2 => by omega)]
    exact (turokRow_spec β el mm (turokCpi el) (turokCp2 el) hsin hl hmm
      (turokCoef el) (fun k => L - 1 - el + 1 * k) (fun a b h => by simp at h; omega) (el + 1)
      (fun _ => 0)).2 x (fun k h1 h2 => by
        have : max (el + 1) 2 = el + 1 := by omega
        omega)

/-- The slice used by the transforms holds Wigner-d values at the rounded angle, zeros included. -/
theorem baseSlice_eq (θ : ℝ) (el L spin : ℤ) (reality : Bool) (h0 : 0 ≤ θ) (hp : θ ≤ Real.pi)
    (hs : |spin| ≤ el) (hL : el < L) (hr : reality = true → spin = 0) (m : ℤ)
    (hm : reality = true → 0 ≤ m) :
    baseSlice θ el L spin reality (m + L - 1) = wignerd el m (-spin) (snapAngle θ) := by
  have hmm : |-spin| ≤ el := by rwa [abs_neg]
  unfold baseSlice
  by_cases hmel : |m| ≤ el
  · obtain ⟨d, h1, h2⟩ := turokSlice_snap θ el L (-spin) reality h0 hp hmm hL
    rw [h1]
    exact h2 m hmel (fun h _ => hm h)
  · rw [wignerd_outside _ _ _ _ (by omega)]
    unfold turokSlice
    rw [abs_le] at hmm
    rw [if_neg (by omega), if_neg (by omega)]
    refine turokQuarterSlice_outside θ el L (-spin) _ (by have := abs_nonneg spin; omega)
      (sin_ne_of_not_isclose θ h0 hp) (by rwa [abs_neg]) _ ?_
    rw [abs_le] at hmel
    omega

end S2fft
