import Verif.Lemmas.GridDouble
import Verif.Lemmas.LegendreNodes
import Verif.Spec.LegendreZeros

/-! # Where the Gauss–Legendre colatitudes lie, and how errors of the table of nodes change them -/

namespace S2fft
open Spec

/-- The colatitudes are away from the poles. -/
theorem Spec.LegendreZeros.theta_mem {x : ℤ → ℝ} {L : ℤ} (h : LegendreZeros x L) (t : ℤ) (t0 : 0 ≤ t)
    (t1 : t < L) : Real.pi / (2 * L) ≤ Real.arccos (x (L - 1 - t)) ∧
      Real.arccos (x (L - 1 - t)) ≤ Real.pi - Real.pi / (2 * L) := by
  obtain ⟨N, rfl⟩ : ∃ N : ℕ, L = N + 1 := ⟨(L - 1).toNat, by omega⟩
  obtain ⟨hm, hr⟩ := h
  rw [show ((N : ℤ) + 1).toNat = N + 1 by omega] at hr
  have e : Real.arccos (x (N + 1 - 1 - t)) = glθ N x (t + 1) := by
    unfold glθ; congr 2; ring
  have hN : (0 : ℝ) ≤ N := by positivity
  have hpi := Real.pi_pos
  have h1 := glδ_nonneg N x hm hr 1 le_rfl (by omega)
  have h2 : Real.pi / (2 * ((N + 1 : ℤ) : ℝ)) ≤ glφ N 1 := by
    unfold glφ
    push_cast
    rw [div_le_div_iff₀ (by positivity) (by positivity)]
    norm_num
    nlinarith
  have h3 : glθ N x 1 ≤ glθ N x (t + 1) := by
    rcases (by omega : t = 0 ∨ 0 < t) with rfl | h
    · rfl
    · exact (glθ_mono N x hm hr 1 (t + 1) le_rfl (by omega) (by omega)).le
  have h4 : glθ N x (t + 1) ≤ Real.pi - glθ N x 1 := by
    rw [← glθ_symm N x hm hr 1 le_rfl (by omega)]
    rcases (by omega : t + 1 = N + 2 - 1 ∨ t + 1 < N + 2 - 1) with h | h
    · rw [h]
    · exact (glθ_mono N x hm hr _ _ (by omega) h (by omega)).le
  rw [e]
  constructor <;> linarith

/-- Neighbouring colatitudes are apart. -/
theorem Spec.LegendreZeros.gap {x : ℤ → ℝ} {L : ℤ} (h : LegendreZeros x L) (t : ℤ) (t0 : 0 ≤ t)
    (t1 : t + 1 < L) :
    1 / (L : ℝ) ≤ Real.arccos (x (L - 1 - (t + 1))) - Real.arccos (x (L - 1 - t)) := by
  obtain ⟨N, rfl⟩ : ∃ N : ℕ, L = N + 1 := ⟨(L - 1).toNat, by omega⟩
  obtain ⟨hm, hr⟩ := h
  rw [show ((N : ℤ) + 1).toNat = N + 1 by omega] at hr
  have hN : (0 : ℝ) ≤ N := by positivity
  have hpi := Real.pi_gt_three
  have key : ∀ i : ℤ, 1 ≤ i → 2 * i ≤ N + 1 → 1 / (((N : ℤ) + 1 : ℤ) : ℝ) ≤ glθ N x (i + 1) - glθ N x i := by
    intro i i1 i2
    have h1 := glθ_gap_ge N x hm hr i i1 i2
    have h2 := glδ_nonneg N x hm hr i i1 (by omega)
    have h3 := glθ_half N x hm hr i i1 (by omega)
    have h4 := glθ_pos N x hr i i1 (by omega)
    have h5 := Real.mul_le_sin h4.1.le h3
    have i1' : (1 : ℝ) ≤ i := by exact_mod_cast i1
    refine le_trans ?_ h1
    push_cast
    have hν : 0 < (N : ℝ) + 3 / 2 := by positivity
    have h6 : 3 / (2 * ((N : ℝ) + 3 / 2)) ≤ Real.sin (glθ N x i) := by
      refine le_trans ?_ h5
      have h7 : Real.pi * (3 / 4) / ((N : ℝ) + 3 / 2) ≤ glθ N x i := by
        refine le_trans ?_ h2
        unfold glφ
        gcongr
        norm_num
        linarith
      have h8 := mul_le_mul_of_nonneg_left h7 (by positivity : 0 ≤ 2 / Real.pi)
      refine le_trans (le_of_eq ?_) h8
      field_simp
      norm_num
    have h9 : √(((N : ℝ) + 3 / 2) ^ 2 + 1 / (4 * Real.sin (glθ N x i) ^ 2)) ≤ 2 * ((N : ℝ) + 3 / 2) := by
      rw [Real.sqrt_le_left (by positivity)]
      have h10 : 1 / (4 * Real.sin (glθ N x i) ^ 2) ≤ ((N : ℝ) + 3 / 2) ^ 2 := by
        have : 1 / ((N : ℝ) + 3 / 2) ^ 2 ≤ 4 * Real.sin (glθ N x i) ^ 2 := by
          have a1 : 9 / (4 * ((N : ℝ) + 3 / 2) ^ 2) ≤ Real.sin (glθ N x i) ^ 2 := by
            rw [show 9 / (4 * ((N : ℝ) + 3 / 2) ^ 2) = (3 / (2 * ((N : ℝ) + 3 / 2))) ^ 2 by
              rw [div_pow, mul_pow]; norm_num]
            gcongr
          have a2 : 1 / ((N : ℝ) + 3 / 2) ^ 2 ≤ 4 * (9 / (4 * ((N : ℝ) + 3 / 2) ^ 2)) := by
            rw [show 4 * (9 / (4 * ((N : ℝ) + 3 / 2) ^ 2)) = 9 / ((N : ℝ) + 3 / 2) ^ 2 by field_simp]
            gcongr
            norm_num
          linarith
        rw [div_le_iff₀ (lt_of_lt_of_le (by positivity) this)]
        rw [div_le_iff₀ (by positivity)] at this
        linarith
      nlinarith
    have h11 : 0 < √(((N : ℝ) + 3 / 2) ^ 2 + 1 / (4 * Real.sin (glθ N x i) ^ 2)) :=
      Real.sqrt_pos.2 (by positivity)
    rw [div_le_div_iff₀ (by positivity) h11]
    nlinarith
  have e : Real.arccos (x (N + 1 - 1 - t)) = glθ N x (t + 1) := by
    unfold glθ; congr 2; ring
  have e' : Real.arccos (x (N + 1 - 1 - (t + 1))) = glθ N x (t + 2) := by
    unfold glθ; congr 2; ring
  rw [e, e']
  by_cases hc : 2 * (t + 1) ≤ N + 1
  · have := key (t + 1) (by omega) hc
    rwa [show t + 1 + 1 = t + 2 by ring] at this
  · have h1 := key (N - t) (by omega) (by omega)
    have s1 := glθ_symm N x hm hr (N - t) (by omega) (by omega)
    have s2 := glθ_symm N x hm hr (N - t + 1) (by omega) (by omega)
    rw [show (N : ℤ) + 2 - (N - t) = t + 2 by ring] at s1
    rw [show (N : ℤ) + 2 - (N - t + 1) = t + 1 by ring] at s2
    linarith

/-- A zero, and what is near it, is not near `±1`. -/
theorem Spec.LegendreZeros.node_abs {x : ℤ → ℝ} {L : ℤ} (h : LegendreZeros x L) (t : ℤ) (t0 : 0 ≤ t)
    (t1 : t < L) : |x (L - 1 - t)| ≤ 1 - 1 / (2 * (L : ℝ) ^ 2) := by
  have hL : (1 : ℝ) ≤ L := by exact_mod_cast (by omega : 1 ≤ L)
  obtain ⟨a, b⟩ := h.theta_mem t t0 t1
  have hx := legendre_root_abs _ _ (h.root (L - 1 - t) (by omega) (by omega))
  have hc := Real.cos_arccos hx.1.le hx.2.le
  have hpi := Real.pi_pos
  have key : ∀ θ : ℝ, Real.pi / (2 * L) ≤ θ → θ ≤ Real.pi → Real.cos θ ≤ 1 - 1 / (2 * (L : ℝ) ^ 2) := by
    intro θ h1 h2
    have h0 : 0 < Real.pi / (2 * L) := by positivity
    have h3 := Real.cos_le_one_sub_mul_cos_sq (x := θ) (by rw [abs_of_pos (by linarith)]; exact h2)
    have h4 : (Real.pi / (2 * L)) ^ 2 ≤ θ ^ 2 := by gcongr
    have h5 := mul_le_mul_of_nonneg_left h4 (by positivity : 0 ≤ 2 / Real.pi ^ 2)
    have h6 : 2 / Real.pi ^ 2 * (Real.pi / (2 * L)) ^ 2 = 1 / (2 * (L : ℝ) ^ 2) := by
      field_simp
    linarith
  have h1 := key _ a (by linarith [show 0 < Real.pi / (2 * L) by positivity])
  have h2 := key (Real.pi - Real.arccos (x (L - 1 - t))) (by linarith)
    (by linarith [Real.arccos_nonneg (x (L - 1 - t))])
  rw [Real.cos_pi_sub, hc] at h2
  rw [hc] at h1
  rw [abs_le]
  constructor <;> linarith

/-- The computed colatitudes, for a table with an error of `e`. -/
theorem arccosF_gl (F : DoubleLib) {x x' : ℤ → ℝ} {L : ℤ} (h : LegendreZeros x L) {e : ℝ}
    (he : ∀ i, 0 ≤ i → i < L → |x' i - x i| ≤ e) (he1 : 16 * L * L * e ≤ 1) (t : ℤ) (t0 : 0 ≤ t)
    (t1 : t < L) :
    |F.arccos (x' (L - 1 - t)) - Real.arccos (x (L - 1 - t))| ≤ 1 / 2 ^ 50 + 4 * L * e := by
  have hL : (1 : ℝ) ≤ L := by exact_mod_cast (by omega : 1 ≤ L)
  have h1 := h.node_abs t t0 t1
  have h2 := he (L - 1 - t) (by omega) (by omega)
  have h3 : e ≤ 1 / (16 * (L : ℝ) ^ 2) := by
    rw [le_div_iff₀ (by positivity)]
    nlinarith
  have h4 : |x' (L - 1 - t)| ≤ 1 - (1 / (2 * (L : ℝ))) ^ 2 := by
    have := abs_sub_abs_le_abs_sub (x' (L - 1 - t)) (x (L - 1 - t))
    have e1 : (1 / (2 * (L : ℝ))) ^ 2 = 4 * (1 / (16 * (L : ℝ) ^ 2)) := by field_simp; norm_num
    have e2 : 1 / (2 * (L : ℝ) ^ 2) = 8 * (1 / (16 * (L : ℝ) ^ 2)) := by field_simp; norm_num
    have : 0 < 1 / (16 * (L : ℝ) ^ 2) := by positivity
    linarith
  have h5 : |x (L - 1 - t)| ≤ 1 - (1 / (2 * (L : ℝ))) ^ 2 := by
    have e1 : (1 / (2 * (L : ℝ))) ^ 2 = 1 / 2 * (1 / (2 * (L : ℝ) ^ 2)) := by field_simp
    have : 0 < 1 / (2 * (L : ℝ) ^ 2) := by positivity
    linarith
  have h6 := arccos_lipschitz (c := 1 / (2 * (L : ℝ))) (by positivity)
    (by rw [div_le_one (by positivity)]; linarith) h4 h5
  have h7 := abs_le.1 h4
  have h8 : 0 < (1 / (2 * (L : ℝ))) ^ 2 := by positivity
  have h9 := F.arccos_near (x' (L - 1 - t)) (by linarith) (by linarith)
  have h10 : 2 / (1 / (2 * (L : ℝ))) * |x' (L - 1 - t) - x (L - 1 - t)| ≤ 4 * L * e := by
    rw [show 2 / (1 / (2 * (L : ℝ))) = 4 * L by field_simp; norm_num]
    gcongr
  exact (abs_sub_le _ (Real.arccos (x' (L - 1 - t))) _).trans (by linarith)

/-- The error of the colatitudes times the band-limit. -/
theorem gl_table_small {L : ℤ} {e k : ℝ} (hL : 1 ≤ L) (hL1 : L ≤ 2 ^ 26) (hk : 1 ≤ k)
    (he : 16 * k * L * L * e ≤ 1) :
    L * (1 / 2 ^ 50 + 4 * L * e) ≤ 1 / (4 * k) + 1 / 2 ^ 24 ∧
      L * (1 / 2 ^ 50 + 4 * L * e) ≤ L * √L / 2 ^ 50 + 4 * L * L * e := by
  have hL' : (1 : ℝ) ≤ L := by exact_mod_cast hL
  have hL2 : (L : ℝ) ≤ 2 ^ 26 := by exact_mod_cast hL1
  constructor
  · have h1 : 4 * L * L * e ≤ 1 / (4 * k) := by
      rw [le_div_iff₀ (by linarith)]
      linarith
    have h2 : (L : ℝ) * (1 / 2 ^ 50) ≤ 1 / 2 ^ 24 := by norm_num at hL2 ⊢; linarith
    linarith
  · have h1 : (1 : ℝ) ≤ √L := by rw [Real.le_sqrt' (by norm_num)]; linarith
    have h2 : (L : ℝ) * 1 ≤ L * √L := by gcongr
    linarith

theorem gl_table_le {L : ℤ} {e k : ℝ} (hk : 1 ≤ k) (he : 16 * k * L * L * e ≤ 1) : 16 * L * L * e ≤ 1 := by
  rcases le_total 0 (16 * (L : ℝ) * L * e) with h | h
  · have : 16 * (L : ℝ) * L * e * 1 ≤ 16 * L * L * e * k := by gcongr
    linarith
  · linarith

end S2fft
