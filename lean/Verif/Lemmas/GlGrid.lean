import Verif.Lemmas.BaseInverseAll
import Verif.Lemmas.LegendreNodes

/-! # The Gauss–Legendre grid keeps away from the poles -/

namespace S2fft
open Spec

/-- The nodes keep away from the poles. -/
theorem gl_angle_away (N : ℕ) (x : ℤ → ℝ)
    (hmono : ∀ i j : ℤ, 0 ≤ i → i < j → j < N + 1 → x i < x j)
    (hroot : ∀ i : ℤ, 0 ≤ i → i < N + 1 → (Legendre.P (N + 1)).eval (x i) = 0)
    (t : ℤ) (h0 : 0 ≤ t) (h1 : t < N + 1) :
    3 * Real.pi / (4 * ((N : ℝ) + 3 / 2)) ≤ Real.arccos (x (N + 1 - 1 - t)) ∧
    Real.arccos (x (N + 1 - 1 - t)) ≤ Real.pi - 3 * Real.pi / (4 * ((N : ℝ) + 3 / 2)) := by
  have e : Real.arccos (x (N + 1 - 1 - t)) = glθ N x (t + 1) := by
    unfold glθ; congr 2; ring
  have hφ : glφ N 1 = 3 * Real.pi / (4 * ((N : ℝ) + 3 / 2)) := by
    unfold glφ
    have : (N : ℝ) + 3 / 2 ≠ 0 := by positivity
    push_cast
    field_simp
    norm_num
  have key : ∀ i, 1 ≤ i → i ≤ (N : ℤ) + 1 → glφ N 1 ≤ glθ N x i := by
    intro i a b
    have h := glδ_nonneg N x hmono hroot 1 le_rfl (by omega)
    rcases a.lt_or_eq with a | a
    · exact h.trans (glθ_mono N x hmono hroot 1 i le_rfl a b).le
    · rw [← a]; exact h
  rw [e, ← hφ]
  refine ⟨key _ (by omega) (by omega), ?_⟩
  have h2 := key (N + 2 - (t + 1)) (by omega) (by omega)
  rw [glθ_symm N x hmono hroot (t + 1) (by omega) (by omega)] at h2
  linarith

theorem gl_gridExact {nodes : ℤ → ℤ → ℝ} {L : ℤ} (nside : ℤ) (hL : 1 ≤ L) (hL2 : L ≤ 20000)
    (hmono : ∀ i j, 0 ≤ i → i < j → j < L → nodes L i < nodes L j)
    (hroot : ∀ i, 0 ≤ i → i < L → (Legendre.P L.toNat).eval (nodes L i) = 0) :
    GridExact nodes .gl L nside := by
  obtain ⟨N, rfl⟩ : ∃ N : ℕ, L = N + 1 := ⟨(L - 1).toNat, by omega⟩
  rw [show ((N : ℤ) + 1).toNat = N + 1 by omega] at hroot
  intro t a b
  simp only [Scheme.rings] at b
  have h := gl_angle_away N _ hmono hroot t a b
  simp only [Scheme.theta]
  have hN : (N : ℝ) ≤ 20000 := by exact_mod_cast (by omega : (N : ℤ) ≤ 20000)
  have hN0 : (0 : ℝ) ≤ N := by positivity
  have hpi := Real.pi_pos
  have hpi3 := Real.pi_gt_three
  have hpi4 := Real.pi_le_four
  have hk : (1e-4 : ℝ) ≤ 3 * Real.pi / (4 * ((N : ℝ) + 3 / 2)) := by
    rw [le_div_iff₀ (by positivity)]
    norm_num
    linarith
  right; right
  rw [abs_of_nonneg (by linarith), abs_of_nonpos (by linarith)]
  norm_num at hk ⊢
  rw [add_sub_cancel_right] at h
  constructor <;> linarith

end S2fft
