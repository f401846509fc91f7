import Verif.Lemmas.TurokJax

/-! # C13: the Turok & Bucher recursion computes Wigner-d slices and planes

`turok.compute_slice` and `turok.compute_full`. Both treat angles within `1e-8` of `0` and within
`1e-8 + 1e-5 π` of `π` (the default relative tolerance of `np.isclose`) as the pole itself. -/

namespace S2fft
open Spec

/-- The angles at which no rounding to a pole happens: the poles, and everything outside the
windows. -/
def ExactAngle (β : ℝ) : Prop :=
  β = 0 ∨ β = Real.pi ∨ (1e-8 < |β| ∧ 1e-8 + 1e-5 * Real.pi < |β - Real.pi|)

/-- `compute_slice` returns `d^el_{m,mm}(β)` for every order `m` (every `m ≥ 0` if only those are
asked for), whatever renormalisations happen on the way. -/
theorem C13_slice (β : ℝ) (el L mm : ℤ) (po : Bool) (h0 : 0 ≤ β) (hp : β ≤ Real.pi)
    (hβ : ExactAngle β) (hmm : |mm| ≤ el) (hL : el < L) :
    ∃ d, turokSlice β el L mm po = .ok d ∧ ∀ m : ℤ, |m| ≤ el → (po = true → mm = 0 → 0 ≤ m) →
      d (m + L - 1) = wignerd el m mm β := by
  have := turokSlice_snap β el L mm po h0 hp hmm hL
  rwa [snapAngle_eq β hβ] at this

/-- At every angle, windows included, the slice is within `3.2e-5 (el + 1)` of the right values. -/
theorem C13_slice_close (β : ℝ) (el L mm : ℤ) (po : Bool) (h0 : 0 ≤ β) (hp : β ≤ Real.pi)
    (hmm : |mm| ≤ el) (hL : el < L) :
    ∃ d, turokSlice β el L mm po = .ok d ∧ ∀ m : ℤ, |m| ≤ el → (po = true → mm = 0 → 0 ≤ m) →
      |d (m + L - 1) - wignerd el m mm β| ≤ 3.2e-5 * (el + 1) := by
  obtain ⟨d, h1, h2⟩ := turokSlice_snap β el L mm po h0 hp hmm hL
  have hel : 0 ≤ el := (abs_nonneg mm).trans hmm
  have hel' : (0 : ℝ) ≤ el := by exact_mod_cast hel
  refine ⟨d, h1, fun m hm hpo => ?_⟩
  rw [h2 m hm hpo]
  refine (wignerd_lipschitz el m mm hel _ _).trans ?_
  rw [mul_comm]
  exact mul_le_mul_of_nonneg_right (snapAngle_close β) (by linarith)

/-- `compute_full` returns the whole plane, zeros outside `|m|, |n| ≤ el` included. -/
theorem C13_full (β : ℝ) (el L : ℤ) (h0 : 0 ≤ β) (hp : β ≤ Real.pi) (hβ : ExactAngle β)
    (hel : 0 ≤ el) (hL : el < L) :
    ∃ d, turokFull β el L = .ok d ∧ ∀ m n : ℤ, d (m + L - 1) (n + L - 1) = wignerd el m n β := by
  refine ⟨_, by unfold turokFull; rw [if_neg (by omega)], fun m n => ?_⟩
  rw [turokFull_plane β el L hel (sin_ne_of_not_isclose β h0 hp), snapAngle_eq β hβ, tgtB]
  congr 1 <;> ring

/-- At every angle, windows included, the plane is within `3.2e-5 (el + 1)` of the right values. -/
theorem C13_full_close (β : ℝ) (el L : ℤ) (h0 : 0 ≤ β) (hp : β ≤ Real.pi) (hel : 0 ≤ el)
    (hL : el < L) :
    ∃ d, turokFull β el L = .ok d ∧ ∀ m n : ℤ,
      |d (m + L - 1) (n + L - 1) - wignerd el m n β| ≤ 3.2e-5 * (el + 1) := by
  have hel' : (0 : ℝ) ≤ el := by exact_mod_cast hel
  refine ⟨_, by unfold turokFull; rw [if_neg (by omega)], fun m n => ?_⟩
  rw [turokFull_plane β el L hel (sin_ne_of_not_isclose β h0 hp), tgtB,
    show m + L - 1 - (L - 1) = m by ring, show n + L - 1 - (L - 1) = n by ring]
  refine (wignerd_lipschitz el m n hel _ _).trans ?_
  rw [mul_comm]
  exact mul_le_mul_of_nonneg_right (snapAngle_close β) (by linarith)

/-- A degree outside the band, or below the order of the slice, is rejected. -/
theorem C13_reject (β : ℝ) (el L mm : ℤ) (po : Bool) :
    (el < mm ∨ L ≤ el → turokSlice β el L mm po = .error .valueError) ∧
    (L ≤ el → turokFull β el L = .error .valueError) := by
  refine ⟨fun h => ?_, fun h => ?_⟩
  · unfold turokSlice
    by_cases h1 : el < mm
    · rw [if_pos h1]
    · rw [if_neg h1, if_pos (by omega)]
  · unfold turokFull; rw [if_pos h]

/-- Inside the windows the values are not exact: at `β = 1e-8` the entry `d^1_{00} = cos β` is
returned as `1`. -/
theorem C13_window_inexact : ∃ d, turokSlice 1e-8 1 2 0 false = .ok d ∧
    d (0 + 2 - 1) = 1 ∧ wignerd 1 0 0 1e-8 < 1 := by
  have hpi := Real.two_le_pi
  obtain ⟨d, h1, h2⟩ := turokSlice_snap 1e-8 1 2 0 false (by norm_num) (by norm_num; linarith)
    (by norm_num) (by norm_num)
  refine ⟨d, h1, ?_, ?_⟩
  · rw [h2 0 (by norm_num) (by simp)]
    unfold snapAngle
    rw [if_pos (by rw [isclose_zero_iff, abs_of_pos (by norm_num)]), wignerd_at_zero,
      if_pos ⟨by norm_num, rfl⟩]
  · rw [(wignerd_one _).2.2.2.2.1, ← Real.cos_zero]
    exact Real.cos_lt_cos_of_nonneg_of_le_pi le_rfl (by norm_num; linarith) (by norm_num)

/-- An order below `-el` is not rejected, although one above `el` is: degree 0, order -1. -/
theorem C13_low_order_accepted : ∃ d, turokSlice 1 0 2 (-1) false = .ok d ∧ d 1 = 1 := by
  refine ⟨_, by unfold turokSlice; rw [if_neg (by norm_num), if_neg (by norm_num)], ?_⟩
  have hpi := Real.two_le_pi
  have hpi4 := Real.pi_le_four
  unfold turokQuarterSlice
  rw [if_neg, if_neg, if_pos rfl]
  · unfold set1; rw [if_pos (by norm_num)]
  · rw [isclose_pi_iff, abs_sub_comm, abs_of_pos (by linarith)]
    norm_num; linarith
  · rw [isclose_zero_iff]; norm_num

/-- The hypotheses are met and the values are not trivial: degree 1 at `β = π/3`. -/
example : ∃ d, turokSlice (Real.pi / 3) 1 3 0 false = .ok d ∧ d 2 = 1 / 2 ∧ d 3 ≠ 0 := by
  have hpi := Real.pi_pos
  have h2 := Real.two_le_pi
  obtain ⟨d, h1, hd⟩ := C13_slice (Real.pi / 3) 1 3 0 false (by linarith) (by linarith)
    (Or.inr (Or.inr ⟨by rw [abs_of_pos (by linarith)]; norm_num; linarith, by
      rw [abs_sub_comm, abs_of_pos (by linarith)]; norm_num; linarith⟩)) (by norm_num) (by norm_num)
  refine ⟨d, h1, ?_, ?_⟩
  · have := hd 0 (by norm_num) (by simp)
    norm_num at this
    rw [this, (wignerd_one _).2.2.2.2.1, Real.cos_pi_div_three]
  · have := hd 1 (by norm_num) (by simp)
    norm_num at this
    rw [this, (wignerd_one _).2.2.2.2.2.2.2.1, Real.sin_pi_div_three]
    have := Real.sqrt_pos.mpr (show (0 : ℝ) < 3 by norm_num)
    have := Real.sqrt_pos.mpr (show (0 : ℝ) < 2 by norm_num)
    apply div_ne_zero
    · intro h; linarith
    · exact this.ne'

end S2fft
