import Verif.Props.C13

/-! # C14: the JAX Turok slice agrees with the NumPy slice

`turok_jax.compute_slice`. Coefficients of the ignored entries (`k ≥ 2 el`), which are not real
numbers in the source, are the arbitrary sequence `junk`. -/

namespace S2fft
open Spec

/-- The JAX slice holds `d^el_{m,mm}(β)` at the poles and at every angle at least `1e-10` from
them. -/
theorem C14_slice (junk : ℤ → ℝ) (β : ℝ) (el L mm : ℤ) (h0 : 0 ≤ β) (hp : β ≤ Real.pi)
    (hβ : β = 0 ∨ β = Real.pi ∨ (1e-10 ≤ |β| ∧ 1e-10 ≤ |β - Real.pi|))
    (hmm : |mm| ≤ el) (hL : el < L) (m : ℤ) (hm : |m| ≤ el) :
    turokSliceJax junk β el L mm (m + L - 1) = wignerd el m mm β := by
  by_cases hz : el = 0
  · subst hz
    obtain rfl : mm = 0 := abs_nonpos_iff.mp hmm
    obtain rfl : m = 0 := abs_nonpos_iff.mp hm
    rw [turokSliceJax_zero _ _ _ hL, wignerd_zero]
  · have hel : 1 ≤ el := by have := abs_nonneg m; omega
    rcases hβ with rfl | rfl | h
    · exact turokSliceJax_north junk 0 el L mm (by rw [abs_zero]; norm_num) hel hL hmm m hm
    · exact turokSliceJax_south junk _ el L mm (by rw [sub_self, abs_zero]; norm_num) hel hL hmm m hm
    · refine turokSliceJax_generic junk β el L mm (not_lt.mpr h.1) (not_lt.mpr h.2) ?_ hel hL hmm m hm
      have ha : 0 < β := h0.lt_of_ne (fun e => by
        have := h.1; rw [← e, abs_zero] at this; norm_num at this)
      have hb : β < Real.pi := hp.lt_of_ne (fun e => by
        have := h.2; rw [e, sub_self, abs_zero] at this; norm_num at this)
      exact (Real.sin_pos_of_pos_of_lt_pi ha hb).ne'

/-- NumPy and JAX slices are equal on the orders `|m| ≤ el` wherever the NumPy one is exact. -/
theorem C14_agree (junk : ℤ → ℝ) (β : ℝ) (el L mm : ℤ) (h0 : 0 ≤ β) (hp : β ≤ Real.pi)
    (hβ : ExactAngle β) (hmm : |mm| ≤ el) (hL : el < L) :
    ∃ d, turokSlice β el L mm false = .ok d ∧ ∀ m : ℤ, |m| ≤ el →
      turokSliceJax junk β el L mm (m + L - 1) = d (m + L - 1) := by
  obtain ⟨d, h1, h2⟩ := C13_slice β el L mm false h0 hp hβ hmm hL
  refine ⟨d, h1, fun m hm => ?_⟩
  rw [h2 m hm (by simp)]
  refine C14_slice junk β el L mm h0 hp ?_ hmm hL m hm
  rcases hβ with h | h | h
  · exact Or.inl h
  · exact Or.inr (Or.inl h)
  · refine Or.inr (Or.inr ⟨?_, ?_⟩)
    · refine le_trans ?_ h.1.le; norm_num
    · refine le_trans ?_ h.2.le
      have := Real.pi_pos
      norm_num; linarith

/-- At every angle the JAX slice is within `1e-10 (el + 1)` of the right values, and within
`3.3e-5 (el + 1)` of the NumPy slice. -/
theorem C14_close (junk : ℤ → ℝ) (β : ℝ) (el L mm : ℤ) (h0 : 0 ≤ β) (hp : β ≤ Real.pi)
    (hmm : |mm| ≤ el) (hL : el < L) :
    (∀ m : ℤ, |m| ≤ el →
      |turokSliceJax junk β el L mm (m + L - 1) - wignerd el m mm β| ≤ 1e-10 * (el + 1)) ∧
    ∃ d, turokSlice β el L mm false = .ok d ∧ ∀ m : ℤ, |m| ≤ el →
      |turokSliceJax junk β el L mm (m + L - 1) - d (m + L - 1)| ≤ 3.3e-5 * (el + 1) := by
  have hel : 0 ≤ el := (abs_nonneg mm).trans hmm
  have hel' : (0 : ℝ) ≤ el := by exact_mod_cast hel
  have key : ∀ m : ℤ, |m| ≤ el →
      |turokSliceJax junk β el L mm (m + L - 1) - wignerd el m mm β| ≤ 1e-10 * (el + 1) := by
    intro m hm
    by_cases hz : el = 0
    · subst hz
      obtain rfl : mm = 0 := abs_nonpos_iff.mp hmm
      obtain rfl : m = 0 := abs_nonpos_iff.mp hm
      rw [turokSliceJax_zero _ _ _ hL, wignerd_zero, sub_self, abs_zero]
      positivity
    · have h1 : 1 ≤ el := by omega
      by_cases a : |β| < 1e-10
      · rw [turokSliceJax_north junk β el L mm a h1 hL hmm m hm]
        refine (wignerd_lipschitz el m mm hel _ _).trans ?_
        rw [mul_comm, zero_sub, abs_neg]
        exact mul_le_mul_of_nonneg_right a.le (by linarith)
      · by_cases b : |β - Real.pi| < 1e-10
        · rw [turokSliceJax_south junk β el L mm b h1 hL hmm m hm]
          refine (wignerd_lipschitz el m mm hel _ _).trans ?_
          rw [mul_comm, abs_sub_comm]
          exact mul_le_mul_of_nonneg_right b.le (by linarith)
        · rw [C14_slice junk β el L mm h0 hp (Or.inr (Or.inr ⟨not_lt.mp a, not_lt.mp b⟩)) hmm hL m hm,
            sub_self, abs_zero]
          positivity
  refine ⟨key, ?_⟩
  obtain ⟨d, h1, h2⟩ := C13_slice_close β el L mm false h0 hp hmm hL
  refine ⟨d, h1, fun m hm => ?_⟩
  have a := key m hm
  have b := h2 m hm (by simp)
  rw [abs_sub_comm] at b
  refine (abs_sub_le _ (wignerd el m mm β) _).trans ?_
  refine (add_le_add a b).trans ?_
  norm_num
  nlinarith

/-- A concrete case: degree 1 at `β = π/3`, whatever the ignored entries are. -/
example (junk : ℤ → ℝ) : turokSliceJax junk (Real.pi / 3) 1 4 0 3 = 1 / 2 := by
  have hpi := Real.pi_pos
  have h2 := Real.two_le_pi
  have := C14_slice junk (Real.pi / 3) 1 4 0 (by linarith) (by linarith)
    (Or.inr (Or.inr ⟨by rw [abs_of_pos (by linarith)]; norm_num; linarith, by
      rw [abs_sub_comm, abs_of_pos (by linarith)]; norm_num; linarith⟩)) (by norm_num) (by norm_num)
    0 (by norm_num)
  norm_num at this
  rw [this, (wignerd_one _).2.2.2.2.1, Real.cos_pi_div_three]

end S2fft
