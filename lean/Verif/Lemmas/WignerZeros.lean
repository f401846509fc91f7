import Verif.Lemmas.WignerFourier
import Verif.Lemmas.SphereRule
import Mathlib.Algebra.Polynomial.Roots

/-! # Zeros of the `d`-functions -/

namespace S2fft
open Spec Real

theorem wignerd_not_zero {l m n : ℤ} (hm : |m| ≤ l) (hn : |n| ≤ l) : ∃ θ, wignerd l m n θ ≠ 0 := by
  by_contra h
  push_neg at h
  have h0 : 0 ≤ l := le_trans (abs_nonneg _) hm
  have := (thetaRule_dh (L := l + 1) (by omega)).ortho (l := l) (l' := l) (by omega) (by omega) hm hn
  simp only [h, if_true] at this
  simp only [Complex.ofReal_zero, mul_zero, Finset.sum_const_zero] at this
  have hl : (2 * (l : ℂ) + 1) ≠ 0 := by
    have : (0 : ℝ) < 2 * l + 1 := by
      have : (0 : ℝ) ≤ l := by exact_mod_cast h0
      linarith
    exact_mod_cast this.ne'
  exact div_ne_zero two_ne_zero hl this.symm

/-- The polynomial of a `d`-function. -/
noncomputable def wigPoly (l m n : ℤ) : Polynomial ℂ := ∑ k ∈ Finset.Ico (-l) (l + 1),
  Polynomial.C ((wignerd l k m (π / 2) : ℂ) * wignerd l k n (π / 2)) * Polynomial.X ^ (k + l).toNat

theorem wigPoly_eval {l m n : ℤ} (β : ℝ) :
    (wignerd l m n β : ℂ) * cis (l * β) = Complex.I ^ (n - m) * (wigPoly l m n).eval (cis β) := by
  rw [wignerd_fourier, wigPoly, Polynomial.eval_finset_sum, mul_assoc, Finset.sum_mul]
  congr 1
  apply Finset.sum_congr rfl
  intro k hk
  rw [Finset.mem_Ico] at hk
  rw [Polynomial.eval_mul, Polynomial.eval_C, Polynomial.eval_pow, Polynomial.eval_X, mul_assoc]
  congr 1
  unfold cis
  rw [← Complex.exp_add, ← Complex.exp_nat_mul]
  congr 1
  have : (((k + l).toNat : ℕ) : ℂ) = k + l := by
    have h : (((k + l).toNat : ℕ) : ℤ) = k + l := Int.toNat_of_nonneg (by omega)
    exact_mod_cast congrArg (Int.cast : ℤ → ℂ) h
  rw [this]; push_cast; ring

/-- A `d`-function has finitely many zeros between the poles. -/
theorem wignerd_zeros_finite {l m n : ℤ} (hm : |m| ≤ l) (hn : |n| ≤ l) :
    {θ : ℝ | 0 < θ ∧ θ < π ∧ wignerd l m n θ = 0}.Finite := by
  have hp : wigPoly l m n ≠ 0 := by
    obtain ⟨θ, h⟩ := wignerd_not_zero hm hn
    intro h0
    have := wigPoly_eval (l := l) (m := m) (n := n) θ
    rw [h0, Polynomial.eval_zero, mul_zero] at this
    rcases mul_eq_zero.1 this with h1 | h1
    · exact h (by exact_mod_cast h1)
    · exact Complex.exp_ne_zero _ h1
  apply Set.Finite.of_finite_image (f := cis)
  · apply (wigPoly l m n).roots.toFinset.finite_toSet.subset
    rintro _ ⟨θ, ⟨-, -, h⟩, rfl⟩
    rw [Finset.mem_coe, Multiset.mem_toFinset, Polynomial.mem_roots hp]
    have := wigPoly_eval (l := l) (m := m) (n := n) θ
    rw [h, Complex.ofReal_zero, zero_mul] at this
    rcases mul_eq_zero.1 this.symm with h1 | h1
    · exact absurd h1 (zpow_ne_zero _ Complex.I_ne_zero)
    · exact h1
  · rintro x ⟨x0, x1, -⟩ y ⟨y0, y1, -⟩ h
    apply Real.injOn_cos ⟨x0.le, x1.le⟩ ⟨y0.le, y1.le⟩
    have := congrArg Complex.re h
    rwa [cis, cis, Complex.exp_ofReal_mul_I_re, Complex.exp_ofReal_mul_I_re] at this

end S2fft
