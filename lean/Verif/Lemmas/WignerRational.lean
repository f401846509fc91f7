import Verif.Lemmas.PmRegular
import Verif.Lemmas.ExpTranscendental
import Mathlib.RingTheory.Algebraic.Integral
import Mathlib.Algebra.Polynomial.Lifts
/-! # The `d`-functions do not vanish at rational angles, other than zero

Every angle a computer stores is rational, so that the recursion of Price and McEwen never divides
by zero on a grid of stored angles. -/
open Polynomial
namespace S2fft
open Spec Real

theorem isAlgebraic_sqrt {x : ℝ} (h0 : 0 ≤ x) (hx : IsAlgebraic ℤ x) : IsAlgebraic ℤ (√x) :=
  IsAlgebraic.of_pow (n := 2) (by norm_num) (by rwa [Real.sq_sqrt h0])

theorem fact_algebraic (z : ℤ) : IsAlgebraic ℤ (fact z) := isAlgebraic_natCast _

/-- The values at a right angle are algebraic. -/
theorem wignerd_half_pi_algebraic (l m n : ℤ) : IsAlgebraic ℤ (wignerd l m n (π / 2)) := by
  have h4 : π / 2 / 2 = π / 4 := by ring
  have h2 : IsAlgebraic ℤ (√2 / 2) := by
    rw [div_eq_mul_inv]
    exact (isAlgebraic_sqrt (by norm_num) (isAlgebraic_natCast 2)).mul (isAlgebraic_natCast 2).inv
  unfold wignerd
  split_ifs
  · refine (Subalgebra.algebraicClosure ℤ ℝ).sum_mem fun s _ => show IsAlgebraic ℤ _ from ?_
    rw [h4, Real.cos_pi_div_four, Real.sin_pi_div_four, div_eq_mul_inv]
    refine ((((IsAlgebraic.pow (isAlgebraic_one.neg) _).mul (isAlgebraic_sqrt ?_ ?_)).mul ?_).mul
      (h2.pow _)).mul (h2.pow _)
    · unfold fact; positivity
    · exact (((fact_algebraic _).mul (fact_algebraic _)).mul (fact_algebraic _)).mul (fact_algebraic _)
    · exact ((((fact_algebraic _).mul (fact_algebraic _)).mul (fact_algebraic _)).mul
        (fact_algebraic _)).inv
  · exact isAlgebraic_zero

theorem ofReal_algebraic {x : ℝ} (h : IsAlgebraic ℤ x) : IsAlgebraic ℤ (x : ℂ) := by
  obtain ⟨p, hp, h⟩ := h
  refine ⟨p, hp, ?_⟩
  have := aeval_algebraMap_apply ℂ x p
  rw [h, map_zero] at this
  exact this

theorem wigPoly_ne_zero {l m n : ℤ} (hm : |m| ≤ l) (hn : |n| ≤ l) : wigPoly l m n ≠ 0 := by
  obtain ⟨θ, h⟩ := wignerd_not_zero hm hn
  intro h0
  have := wigPoly_eval (l := l) (m := m) (n := n) θ
  rw [h0, Polynomial.eval_zero, mul_zero] at this
  rcases mul_eq_zero.1 this with h1 | h1
  · exact h (by exact_mod_cast h1)
  · exact Complex.exp_ne_zero _ h1

/-- A `d`-function does not vanish at a rational angle other than zero. -/
theorem wignerd_rat_ne_zero {l m n : ℤ} (hm : |m| ≤ l) (hn : |n| ≤ l) {q : ℚ} (hq : q ≠ 0) :
    wignerd l m n q ≠ 0 := by
  intro h
  have hroot : (wigPoly l m n).eval (cis q) = 0 := by
    have := wigPoly_eval (l := l) (m := m) (n := n) q
    rw [h, Complex.ofReal_zero, zero_mul] at this
    rcases mul_eq_zero.1 this.symm with h1 | h1
    · exact absurd h1 (zpow_ne_zero _ Complex.I_ne_zero)
    · exact h1
  have hl : wigPoly l m n ∈ lifts (algebraMap (Subalgebra.algebraicClosure ℤ ℂ) ℂ) := by
    unfold wigPoly
    refine Subsemiring.sum_mem _ fun k _ => Subsemiring.mul_mem _ ?_ ?_
    · exact (C_mem_lifts (algebraMap (Subalgebra.algebraicClosure ℤ ℂ) ℂ)
        ⟨_, (ofReal_algebraic (wignerd_half_pi_algebraic l k m)).mul
          (ofReal_algebraic (wignerd_half_pi_algebraic l k n))⟩)
    · exact X_pow_mem_lifts _ _
  obtain ⟨p, hp⟩ := (mem_lifts _).1 hl
  have ht := (exp_rat_I_transcendental hq).subalgebraAlgebraicClosure
  rw [transcendental_iff] at ht
  have := ht p (by rw [aeval_def, eval₂_eq_eval_map, hp]; exact_mod_cast hroot)
  rw [this, Polynomial.map_zero] at hp
  exact wigPoly_ne_zero hm hn hp.symm

/-- The recursion of Price and McEwen does not divide by zero at a rational angle. -/
theorem pmRegular_rat (L spin : ℤ) {q : ℚ} (h0 : 0 < (q : ℝ)) (h1 : (q : ℝ) < π) :
    PmRegular L spin q :=
  ⟨h0, h1, fun el k a _ _ d => wignerd_rat_ne_zero d.le (by rwa [abs_neg])
    (by rintro rfl; simp at h0)⟩

end S2fft
