import Verif.Lemmas.Reindex

/-! # C04: Wigner coefficient indexing -/

namespace S2fft

/-- `elmn2ind` is a bijection from the valid triples `(el, m, n)` onto `0, …, (2N-1)L² - 1`. -/
theorem C04_bijection (L N : ℤ) (hL : 1 ≤ L) :
    Set.BijOn (fun p : ℤ × ℤ × ℤ => elmn2ind p.1 p.2.1 p.2.2 L N)
      {p | p.1 < L ∧ |p.2.1| ≤ p.1 ∧ |p.2.2| < N} {k | 0 ≤ k ∧ k < flmn_shape_1d L N} := by
  refine ⟨?_, ?_, ?_⟩
  · rintro ⟨el, m, n⟩ ⟨h0, h1, h2⟩
    simp only at h0 h1 h2
    have h3 := elm2ind_range h1 h0
    rw [abs_lt] at h2
    have hp : 0 < L ^ 2 := by positivity
    show 0 ≤ elmn2ind el m n L N ∧ elmn2ind el m n L N < flmn_shape_1d L N
    rw [elmn2ind_eq]
    unfold flmn_shape_1d
    constructor
    · nlinarith [mul_nonneg (by omega : 0 ≤ N - 1 + n) hp.le]
    · nlinarith [mul_nonneg (by omega : 0 ≤ N - 1 - n) hp.le]
  · rintro ⟨el, m, n⟩ ⟨h0, h1, h2⟩ ⟨el', m', n'⟩ ⟨h0', h1', h2'⟩ h
    have := elmn2ind_inj h1 h0 h1' h0' h
    exact Prod.ext this.1 (Prod.ext this.2.1 this.2.2)
  · rintro k ⟨h0, h1⟩
    obtain ⟨el, m, n, _, h3, h4, h5, h6⟩ := exists_elmn hL h0 h1
    exact ⟨(el, m, n), ⟨h3, h4, h5⟩, h6⟩

/-- 3D → 1D → 3D keeps every valid coefficient and zeroes the padding. -/
theorem C04_3d_1d_3d (L N : ℤ) (hL : 1 ≤ L) (hN : 1 ≤ N) (a : ℤ → ℤ → ℤ → ℂ) :
    ∃ b c, flmn_3d_to_1d (.d3 (2 * N - 1) L (2 * L - 1) a) L N
        = .ok (.d1 ((2 * N - 1) * L * L) b) ∧
      flmn_1d_to_3d (.d1 ((2 * N - 1) * L * L) b) L N = .ok (.d3 (2 * N - 1) L (2 * L - 1) c) ∧
      ∀ n el m, |n| < N → 0 ≤ el → el < L → |m| < L →
        c (N - 1 + n) el (L - 1 + m) = if |m| ≤ el then a (N - 1 + n) el (L - 1 + m) else 0 := by
  obtain ⟨b, hb, hb'⟩ := to1d3_ok L N a
  obtain ⟨c, hc, hc'⟩ := to3d_ok L N b
  refine ⟨b, c, hb, hc, ?_⟩
  intro n el m h0 h1 h2 _
  rw [hc']
  simp only [add_sub_cancel_left]
  by_cases h : |m| ≤ el
  · rw [if_pos ⟨h0, h1, h2, h⟩, if_pos h, hb' el m n h2 h h0]
  · rw [if_neg (by tauto), if_neg h]

/-- 1D → 3D → 1D is the identity. -/
theorem C04_1d_3d_1d (L N : ℤ) (hL : 1 ≤ L) (hN : 1 ≤ N) (a : ℤ → ℂ) :
    ∃ b c, flmn_1d_to_3d (.d1 ((2 * N - 1) * L * L) a) L N
        = .ok (.d3 (2 * N - 1) L (2 * L - 1) b) ∧
      flmn_3d_to_1d (.d3 (2 * N - 1) L (2 * L - 1) b) L N = .ok (.d1 ((2 * N - 1) * L * L) c) ∧
      ∀ k, 0 ≤ k → k < (2 * N - 1) * L * L → c k = a k := by
  obtain ⟨b, hb, hb'⟩ := to3d_ok L N a
  obtain ⟨c, hc, hc'⟩ := to1d3_ok L N b
  refine ⟨b, c, hb, hc, ?_⟩
  intro k h0 h1
  obtain ⟨el, m, n, h2, h3, h4, h5, rfl⟩ := exists_elmn hL h0 h1
  rw [hc' el m n h3 h4 h5, hb']
  simp only [add_sub_cancel_left]
  rw [if_pos ⟨h5, h2, h3, h4⟩]

/-- Arrays with the wrong number of dimensions are rejected. -/
theorem C04_reject (L N : ℤ) :
    (∀ n a, flmn_3d_to_1d (.d1 n a) L N = .error .valueError) ∧
    (∀ r c a, flmn_3d_to_1d (.d2 r c a) L N = .error .valueError) ∧
    (∀ k, flmn_3d_to_1d (.other k) L N = .error .valueError) ∧
    (∀ p r c a, flmn_1d_to_3d (.d3 p r c a) L N = .error .valueError) ∧
    (∀ r c a, flmn_1d_to_3d (.d2 r c a) L N = .error .valueError) ∧
    (∀ k, flmn_1d_to_3d (.other k) L N = .error .valueError) :=
  ⟨fun _ _ => rfl, fun _ _ _ => rfl, fun _ => rfl, fun _ _ _ _ => rfl, fun _ _ _ => rfl,
    fun _ => rfl⟩

/-- Witness: `(el,m,n) = (2,-1,1)` at `L = 3, N = 2` is the triple with index 23 of 27. -/
example : (1 : ℤ) ≤ 3 ∧ |(-1 : ℤ)| ≤ 2 ∧ |(1 : ℤ)| < 2 ∧ elmn2ind 2 (-1) 1 3 2 = 23 ∧
    flmn_shape_1d 3 2 = 27 := by decide

end S2fft
