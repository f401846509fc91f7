import Verif.Lemmas.Index

/-! # C01: the one-dimensional harmonic index is a bijection -/

namespace S2fft

/-- `ind2elm` undoes `elm2ind` on every valid pair. -/
theorem C01_ind2elm_elm2ind (el m : ℤ) (h : |m| ≤ el) : ind2elm (elm2ind el m) = (el, m) := by
  have h' := abs_le.1 h
  have e : ⌊Real.sqrt (elm2ind el m : ℤ)⌋ = el :=
    floor_sqrt_eq (by omega) (by unfold elm2ind; omega) (by unfold elm2ind; nlinarith)
  simp only [ind2elm, e]
  unfold elm2ind
  simp only [Prod.mk.injEq, true_and]
  ring

/-- `elm2ind` undoes `ind2elm` on every non-negative index, and the pair found is valid. -/
theorem C01_elm2ind_ind2elm (ind : ℤ) (h : 0 ≤ ind) :
    elm2ind (ind2elm ind).1 (ind2elm ind).2 = ind ∧ |(ind2elm ind).2| ≤ (ind2elm ind).1 := by
  have h0 : (0 : ℝ) ≤ Real.sqrt ind := Real.sqrt_nonneg _
  have hind : (0 : ℝ) ≤ (ind : ℝ) := by exact_mod_cast h
  obtain ⟨k, hk⟩ : ∃ k : ℤ, ⌊Real.sqrt ind⌋ = k := ⟨_, rfl⟩
  have hk0 : 0 ≤ k := by rw [← hk]; exact Int.floor_nonneg.2 h0
  obtain ⟨h1, h2⟩ := Int.floor_eq_iff.1 hk
  have h3 : k ^ 2 ≤ ind := by
    have : (k : ℝ) ^ 2 ≤ ind := by
      rw [← Real.sq_sqrt hind]
      exact pow_le_pow_left₀ (by exact_mod_cast hk0) h1 2
    exact_mod_cast this
  have h4 : ind < (k + 1) ^ 2 := by
    have : (ind : ℝ) < ((k : ℝ) + 1) ^ 2 := by
      rw [← Real.sq_sqrt hind]
      exact pow_lt_pow_left₀ h2 h0 (by norm_num)
    exact_mod_cast this
  simp only [ind2elm, hk]
  refine ⟨by unfold elm2ind; ring, ?_⟩
  rw [abs_le]
  constructor <;> nlinarith

/-- The number of coefficients is `L²`, and `elm2ind` is a bijection from the valid pairs below
`L` onto the indices `0, …, ncoeff L - 1`. -/
theorem C01_bijection (L : ℤ) :
    ncoeff L = L ^ 2 ∧
    Set.BijOn (fun p : ℤ × ℤ => elm2ind p.1 p.2)
      {p | p.1 < L ∧ |p.2| ≤ p.1} {k | 0 ≤ k ∧ k < ncoeff L ∧ 0 ≤ L} := by
  refine ⟨ncoeff_eq L, ?_, ?_, ?_⟩
  · rintro ⟨el, m⟩ ⟨h1, h2⟩
    have h3 := elm2ind_range h2 h1
    have h4 := abs_nonneg m
    rw [← ncoeff_eq] at h3
    simp only at h1 h2
    exact ⟨h3.1, h3.2, by omega⟩
  · rintro ⟨el, m⟩ ⟨_, h2⟩ ⟨el', m'⟩ ⟨_, h2'⟩ h
    have := elm2ind_inj h2 h2' h
    exact Prod.ext this.1 this.2
  · rintro k ⟨h1, h2, h3⟩
    obtain ⟨e, h⟩ := C01_elm2ind_ind2elm k h1
    refine ⟨ind2elm k, ⟨?_, h⟩, e⟩
    rw [ncoeff_eq] at h2
    by_contra hc
    push Not at hc
    have h' := abs_le.1 h
    have : (ind2elm k).1 ^ 2 ≤ k := by
      have e' := e
      unfold elm2ind at e'
      linarith [h'.1]
    nlinarith

/-- Witness: degree 7, order -3 at index 53. -/
example : |(-3 : ℤ)| ≤ 7 ∧ elm2ind 7 (-3) = 53 ∧ (7 : ℤ) < 8 := by decide

end S2fft
