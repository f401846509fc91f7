import Verif.Lemmas.Quadrature

/-! # The Driscoll–Healy weights are positive -/

namespace S2fft

theorem sum_sin_odd (x : ℝ) (n : ℕ) :
    (∑ k ∈ Finset.range n, Real.sin ((2 * k + 1) * x)) * Real.sin x = Real.sin (n * x) ^ 2 := by
  induction n with
  | zero => simp
  | succ n ih =>
    rw [Finset.sum_range_succ, add_mul, ih]
    push_cast
    have h := Real.cos_sub_cos (2 * (n * x)) (2 * ((n + 1) * x))
    have e1 : (2 * (n * x) + 2 * ((n + 1) * x)) / 2 = (2 * n + 1) * x := by ring
    have e2 : (2 * (n * x) - 2 * ((n + 1) * x)) / 2 = -x := by ring
    rw [e1, e2, Real.sin_neg] at h
    rw [Real.cos_two_mul, Real.cos_two_mul] at h
    have h1 := Real.sin_sq_add_cos_sq (n * x)
    have h2 := Real.sin_sq_add_cos_sq ((n + 1) * x)
    nlinarith

/-- Summation by parts: partial sums `≥ 0` and decreasing weights. -/
theorem sum_weighted_ge (a c : ℕ → ℝ) (hc : ∀ k, c (k + 1) ≤ c k)
    (ha : ∀ n, 0 ≤ ∑ k ∈ Finset.range n, a k) (n : ℕ) :
    c (n + 1) * ∑ k ∈ Finset.range (n + 2), a k + (c 0 - c 1) * a 0
      ≤ ∑ k ∈ Finset.range (n + 2), c k * a k := by
  induction n with
  | zero =>
    simp only [Finset.sum_range_succ, Finset.sum_range_zero, zero_add]
    linarith
  | succ n ih =>
    rw [Finset.sum_range_succ (fun k => c k * a k), Finset.sum_range_succ a]
    have := mul_le_mul_of_nonneg_right (hc (n + 1)) (ha (n + 2))
    have e : n + 1 + 1 = n + 2 := rfl
    rw [e] at this ⊢
    linarith

theorem sum_weighted_pos (a c : ℕ → ℝ) (hc : ∀ k, c (k + 1) ≤ c k) (hc0 : ∀ k, 0 < c k)
    (h01 : c 1 < c 0) (ha0 : 0 < a 0)
    (ha : ∀ n, 0 ≤ ∑ k ∈ Finset.range n, a k) (n : ℕ) (hn : 1 ≤ n) :
    0 < ∑ k ∈ Finset.range n, c k * a k := by
  obtain rfl | ⟨m, rfl⟩ : n = 1 ∨ ∃ m, n = m + 2 := by
    rcases n with _ | _ | m
    · omega
    · exact Or.inl rfl
    · exact Or.inr ⟨m, rfl⟩
  · simpa using mul_pos (hc0 0) ha0
  · refine lt_of_lt_of_le ?_ (sum_weighted_ge a c hc ha m)
    have := mul_nonneg (hc0 (m + 1)).le (ha (m + 2))
    have := mul_pos (sub_pos.2 h01) ha0
    linarith

theorem dh_theta_weight_pos {L : ℤ} (hL : 1 ≤ L) {θ : ℝ} (h0 : 0 < θ) (h1 : θ < Real.pi) :
    0 < quad_weight_dh_theta_only θ L := by
  have hs := Real.sin_pos_of_pos_of_lt_pi h0 h1
  have hLr : (0 : ℝ) < L := by exact_mod_cast (by omega : 0 < L)
  rw [dh_w_eq]
  refine mul_pos ?_ (mul_pos (div_pos (by norm_num) hLr) hs)
  obtain ⟨n, rfl⟩ := Int.eq_ofNat_of_zero_le (by omega : 0 ≤ L)
  have e : ∑ k ∈ Finset.Ico 0 (n : ℤ), Real.sin ((2 * k + 1) * θ) / (2 * k + 1)
      = ∑ k ∈ Finset.range n, (1 / (2 * (k : ℝ) + 1)) * Real.sin ((2 * k + 1) * θ) := by
    symm
    refine Finset.sum_bij (fun k _ => (k : ℤ)) ?_ ?_ ?_ ?_
    · intro k hk; rw [Finset.mem_range] at hk; rw [Finset.mem_Ico]; omega
    · intro i _ j _ h; exact_mod_cast h
    · intro k hk; rw [Finset.mem_Ico] at hk
      exact ⟨k.toNat, by rw [Finset.mem_range]; omega, by omega⟩
    · intro k _; push_cast; ring
  rw [e]
  refine sum_weighted_pos (fun k => Real.sin ((2 * k + 1) * θ)) (fun k => 1 / (2 * (k : ℝ) + 1))
    (fun k => ?_) (fun k => by positivity) (by norm_num) (by simpa using hs) (fun n => ?_) n (by omega)
  · apply one_div_le_one_div_of_le (by positivity)
    push_cast; linarith
  · have := sum_sin_odd θ n
    by_contra h
    have := mul_neg_of_neg_of_pos (not_le.1 h) hs
    nlinarith [sq_nonneg (Real.sin (n * θ))]

theorem dh_weight_pos {L t : ℤ} (hL : 1 ≤ L) (h0 : 0 ≤ t) (h1 : t < 2 * L) :
    0 < quad_weights_dh L t := by
  have hLr : (1 : ℝ) ≤ L := by exact_mod_cast hL
  have h0r : (0 : ℝ) ≤ t := by exact_mod_cast h0
  have h1r : (t : ℝ) + 1 ≤ 2 * L := by exact_mod_cast h1
  have hp := Real.pi_pos
  unfold quad_weights_dh
  have := dh_theta_weight_pos hL (θ := (2 * (t : ℝ) + 1) * Real.pi / (4 * (L : ℝ)))
    (by positivity) (by rw [div_lt_iff₀ (by positivity)]; nlinarith)
  apply div_pos (by positivity) (by linarith)

end S2fft
