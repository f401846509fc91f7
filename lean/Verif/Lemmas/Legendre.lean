import Mathlib.Tactic
import Verif.Spec.Legendre
import Mathlib.Algebra.Polynomial.Derivative
import Mathlib.Algebra.Polynomial.Roots
import Mathlib.LinearAlgebra.Lagrange
import Mathlib.Analysis.SpecialFunctions.Integrals.Basic
import Mathlib.Analysis.Calculus.Deriv.Polynomial

/-!
# Legendre polynomials and Gauss–Legendre quadrature

Everything needed to know that the rule with the roots of `P_L` as nodes and
`2 / ((1 - x²) P_L'(x)²)` as weights is exact on polynomials of degree `< 2 L`.
-/

namespace S2fft.Legendre
open Polynomial

theorem rec (n : ℕ) : C ((n : ℝ) + 2) * P (n + 2)
    = C (2 * (n : ℝ) + 3) * X * P (n + 1) - C ((n : ℝ) + 1) * P n := by
  have h : ((n : ℝ) + 2) ≠ 0 := by positivity
  rw [P, ← mul_assoc, ← C_mul, mul_one_div_cancel h, C_1, one_mul]

theorem rec_one (n : ℕ) : C ((n : ℝ) + 1) * P (n + 1)
    = C (2 * (n : ℝ) + 1) * X * P n - C (n : ℝ) * P (n - 1) := by
  cases n with
  | zero => simp [P]
  | succ n =>
    have := rec n
    simp only [Nat.add_sub_cancel]
    push_cast
    rw [show (n : ℝ) + 1 + 1 = n + 2 by ring, show 2 * ((n : ℝ) + 1) + 1 = 2 * n + 3 by ring]
    exact this

private theorem AB (n : ℕ) :
    derivative (P (n + 1)) = X * derivative (P n) + C ((n : ℝ) + 1) * P n ∧
    X * derivative (P (n + 1)) = derivative (P n) + C ((n : ℝ) + 1) * P (n + 1) := by
  induction n with
  | zero => simp [P]
  | succ n ih =>
    obtain ⟨a, b⟩ := ih
    have hn : C ((n : ℝ) + 2) ≠ 0 := by
      rw [Ne, C_eq_zero]; positivity
    have r := rec n
    have r' := congrArg derivative r
    simp only [derivative_mul, derivative_sub, derivative_C, derivative_X, zero_mul, zero_add,
      mul_one] at r'
    have c2 : C ((n : ℝ) + 2) = C (n : ℝ) + 2 := by rw [C_add]; rfl
    have c3 : C (2 * (n : ℝ) + 3) = 2 * C (n : ℝ) + 3 := by rw [C_add, C_mul]; rfl
    have c1 : C ((n : ℝ) + 1) = C (n : ℝ) + 1 := by rw [C_add]; rfl
    have c4 : C (((n + 1 : ℕ) : ℝ) + 1) = C (n : ℝ) + 2 := by
      push_cast; rw [show (n : ℝ) + 1 + 1 = n + 2 by ring, c2]
    rw [c1] at a b
    rw [c2, c3, c1] at r r'
    rw [c2] at hn
    rw [c4]
    have A : derivative (P (n + 1 + 1)) = X * derivative (P (n + 1)) + (C (n : ℝ) + 2) * P (n + 1) := by
      apply mul_left_cancel₀ hn
      linear_combination r' + (C (n : ℝ) + 1) * b
    refine ⟨A, ?_⟩
    linear_combination X * A - r - a + X * b

/-- `(x² - 1) P_{n+1}' = (n+1) (x P_{n+1} - P_n)`. -/
theorem deriv_rel (n : ℕ) : (X ^ 2 - 1) * derivative (P (n + 1))
    = C ((n : ℝ) + 1) * (X * P (n + 1) - P n) := by
  obtain ⟨a, b⟩ := AB n
  linear_combination X * b - a

/-- The Legendre equation. -/
theorem ode (n : ℕ) : derivative ((X ^ 2 - 1) * derivative (P n)) = C ((n : ℝ) * (n + 1)) * P n := by
  cases n with
  | zero => simp [P]
  | succ n =>
    obtain ⟨_, b⟩ := AB n
    rw [deriv_rel]
    simp only [derivative_mul, derivative_sub, derivative_C, derivative_X, zero_mul, zero_add,
      one_mul]
    have c1 : C ((n : ℝ) + 1) = C (n : ℝ) + 1 := by rw [C_add]; rfl
    have c4 : C (((n + 1 : ℕ) : ℝ) * ((n + 1 : ℕ) + 1)) = (C (n : ℝ) + 1) * (C (n : ℝ) + 2) := by
      push_cast
      rw [C_mul, show (n : ℝ) + 1 + 1 = n + 2 by ring, c1, show C ((n : ℝ) + 2) = C (n : ℝ) + 2 by
        rw [C_add]; rfl]
    rw [c1] at b
    rw [c4, c1]
    linear_combination (C (n : ℝ) + 1) * b

/-- Integral over `[-1, 1]`. -/
noncomputable def J (p : ℝ[X]) : ℝ := ∫ x in (-1 : ℝ)..1, p.eval x

theorem J_add (p q : ℝ[X]) : J (p + q) = J p + J q := by
  unfold J
  simp only [eval_add]
  exact intervalIntegral.integral_add (p.continuous.intervalIntegrable _ _)
    (q.continuous.intervalIntegrable _ _)

theorem J_C_mul (a : ℝ) (p : ℝ[X]) : J (C a * p) = a * J p := by
  unfold J
  simp only [eval_mul, eval_C]
  exact intervalIntegral.integral_const_mul _ _

theorem J_neg (p : ℝ[X]) : J (-p) = - J p := by
  have := J_C_mul (-1) p
  simpa using this

theorem J_sub (p q : ℝ[X]) : J (p - q) = J p - J q := by
  rw [sub_eq_add_neg, J_add, J_neg, sub_eq_add_neg]

theorem J_sum {ι : Type*} (s : Finset ι) (f : ι → ℝ[X]) : J (∑ i ∈ s, f i) = ∑ i ∈ s, J (f i) := by
  classical
  induction s using Finset.induction_on with
  | empty => simp [J]
  | insert a s ha ih => rw [Finset.sum_insert ha, Finset.sum_insert ha, J_add, ih]

theorem J_derivative (p : ℝ[X]) : J (derivative p) = p.eval 1 - p.eval (-1) := by
  unfold J
  exact intervalIntegral.integral_eq_sub_of_hasDerivAt (fun x _ => p.hasDerivAt x)
    (p.derivative.continuous.intervalIntegrable _ _)

theorem orth_P {n m : ℕ} (h : n ≠ m) : J (P n * P m) = 0 := by
  have h1 : derivative ((X ^ 2 - 1) * derivative (P n) * P m - (X ^ 2 - 1) * derivative (P m) * P n)
      = C ((n : ℝ) * (n + 1) - m * (m + 1)) * (P n * P m) := by
    rw [derivative_sub, derivative_mul, derivative_mul (f := (X ^ 2 - 1) * derivative (P m)), ode,
      ode, C_sub]
    ring
  have h2 := J_derivative
    ((X ^ 2 - 1) * derivative (P n) * P m - (X ^ 2 - 1) * derivative (P m) * P n)
  rw [h1, J_C_mul] at h2
  simp at h2
  rcases h2 with h2 | h2
  · exfalso
    have : ((n : ℝ) - m) * (n + m + 1) = 0 := by linarith
    rcases mul_eq_zero.1 this with h3 | h3
    · exact h (by exact_mod_cast sub_eq_zero.1 h3)
    · have : (0 : ℝ) < n + m + 1 := by positivity
      linarith
  · exact h2

/-- Leading coefficient. -/
noncomputable def lead : ℕ → ℝ
  | 0 => 1
  | n + 1 => (2 * (n : ℝ) + 1) / (n + 1) * lead n

theorem lead_ne_zero (n : ℕ) : lead n ≠ 0 := by
  induction n with
  | zero => simp [lead]
  | succ n ih => rw [lead]; exact mul_ne_zero (by positivity) ih

theorem P_degree (n : ℕ) : (P n).natDegree ≤ n ∧ (P n).coeff n = lead n := by
  induction n using Nat.strong_induction_on with
  | _ n ih =>
    match n with
    | 0 => simp [P, lead]
    | 1 => simp [P, lead]
    | n + 2 =>
      obtain ⟨d1, l1⟩ := ih (n + 1) (by omega)
      obtain ⟨d0, _⟩ := ih n (by omega)
      rw [P]
      constructor
      · refine (natDegree_C_mul_le _ _).trans ((natDegree_sub_le _ _).trans (max_le ?_ ?_))
        · rw [mul_assoc]
          refine (natDegree_C_mul_le _ _).trans (natDegree_mul_le.trans ?_)
          have := natDegree_X_le (R := ℝ)
          omega
        · exact (natDegree_C_mul_le _ _).trans (by omega)
      · rw [coeff_C_mul, coeff_sub, mul_assoc, coeff_C_mul, coeff_C_mul, coeff_X_mul, l1,
          coeff_eq_zero_of_natDegree_lt (show (P n).natDegree < n + 2 by omega), show lead (n + 2) =
            (2 * ((n + 1 : ℕ) : ℝ) + 1) / (((n + 1 : ℕ) : ℝ) + 1) * lead (n + 1) from rfl]
        push_cast
        rw [show (n : ℝ) + 1 + 1 = n + 2 by ring]
        ring

theorem P_natDegree (n : ℕ) : (P n).natDegree = n :=
  le_antisymm (P_degree n).1 (le_natDegree_of_ne_zero (by rw [(P_degree n).2]; exact lead_ne_zero n))

theorem P_ne_zero (n : ℕ) : P n ≠ 0 := by
  intro h
  have := (P_degree n).2
  rw [h, coeff_zero] at this
  exact lead_ne_zero n this.symm

/-- `P_n` is orthogonal to every polynomial of lower degree. -/
theorem orth (n : ℕ) (d : ℕ) (p : ℝ[X]) (hd : d ≤ n) (hp : p.degree < d) : J (P n * p) = 0 := by
  induction d generalizing p with
  | zero =>
    have : p = 0 := by
      rw [← degree_eq_bot]
      exact Nat.WithBot.lt_zero_iff.1 (by exact_mod_cast hp)
    subst this
    simp [J]
  | succ d ih =>
    set a := p.coeff d / lead d
    have h1 : p = C a * P d + (p - C a * P d) := by ring
    have h2 : (p - C a * P d).degree < d := by
      rw [degree_lt_iff_coeff_zero]
      intro k hk
      rw [coeff_sub, coeff_C_mul]
      rcases eq_or_lt_of_le hk with rfl | hk
      · rw [(P_degree d).2, div_mul_cancel₀ _ (lead_ne_zero d), sub_self]
      · rw [coeff_eq_zero_of_natDegree_lt (show (P d).natDegree < k by rw [P_natDegree]; exact hk),
          (degree_lt_iff_coeff_zero p (d + 1)).1 (by exact_mod_cast hp) k hk]
        ring
    rw [h1, mul_add, J_add, ih _ (by omega) h2, mul_left_comm, J_C_mul,
      orth_P (show n ≠ d by omega)]
    ring

theorem norm (n : ℕ) : J (P n * P n) = 2 / (2 * n + 1) := by
  induction n with
  | zero => simp [P, J]; norm_num
  | succ n ih =>
    have h1 : J (C ((n : ℝ) + 1) * P (n + 1) * P (n + 1))
        = (2 * n + 1) * J (X * P n * P (n + 1)) := by
      rw [rec_one, sub_mul, J_sub, mul_assoc (C (n : ℝ)), J_C_mul]
      have : J (P (n - 1) * P (n + 1)) = 0 := orth_P (by omega)
      rw [this, mul_assoc (C (2 * (n : ℝ) + 1)), mul_assoc (C (2 * (n : ℝ) + 1)), J_C_mul]
      ring
    have h2 : J (C (((n + 1 : ℕ) : ℝ) + 1) * P (n + 1 + 1) * P n) = 0 := by
      rw [mul_assoc, J_C_mul, orth_P (by omega), mul_zero]
    rw [rec_one (n + 1), sub_mul, J_sub, mul_assoc (C ((n + 1 : ℕ) : ℝ)), J_C_mul,
      Nat.add_sub_cancel, ih, mul_assoc (C _), mul_assoc (C _), J_C_mul,
      show X * P (n + 1) * P n = X * P n * P (n + 1) by ring] at h2
    rw [mul_assoc, J_C_mul] at h1
    push_cast at h2 ⊢
    have e1 : (n : ℝ) + 1 ≠ 0 := by positivity
    have e2 : 2 * (n : ℝ) + 1 ≠ 0 := by positivity
    have e3 : 2 * ((n : ℝ) + 1) + 1 ≠ 0 := by positivity
    have h3 : J (X * P n * P (n + 1)) = (n + 1) * (2 / (2 * n + 1)) / (2 * (n + 1) + 1) := by
      field_simp
      field_simp at h2
      linarith
    rw [h3] at h1
    apply mul_left_cancel₀ e1
    rw [h1]
    field_simp

/-! ## Gauss–Legendre -/

variable {ι : Type*} [DecidableEq ι]

/-- Exactness with the interpolatory weights. -/
theorem gauss_interp (n : ℕ) (s : Finset ι) (x : ι → ℝ) (hx : Set.InjOn x s) (hs : s.card = n)
    (hr : ∀ i ∈ s, (P n).eval (x i) = 0) (p : ℝ[X]) (hp : p.degree < (2 * n : ℕ)) :
    J p = ∑ i ∈ s, J (Lagrange.basis s x i) * p.eval (x i) := by
  have h0 := EuclideanDomain.div_add_mod p (P n)
  have hdeg : (p % P n).degree < n := by
    have := degree_mod_lt p (P_ne_zero n)
    rwa [degree_eq_natDegree (P_ne_zero n), P_natDegree] at this
  have hq : (p / P n).degree < n := by
    by_cases h : (P n).degree ≤ p.degree
    · have h1 := degree_add_div (P_ne_zero n) h
      rw [degree_eq_natDegree (P_ne_zero n), P_natDegree] at h1
      by_contra h2
      rw [not_lt] at h2
      have : (n : WithBot ℕ) + n ≤ p.degree := by rw [← h1]; exact add_le_add le_rfl h2
      have h3 := lt_of_le_of_lt this hp
      rw [two_mul] at h3
      push_cast at h3
      exact lt_irrefl _ h3
    · rw [not_le] at h
      rw [(Polynomial.div_eq_zero_iff (P_ne_zero n)).2 h]
      simp
  have h1 : J p = J (p % P n) := by
    conv_lhs => rw [← h0]
    rw [J_add, orth n n _ le_rfl hq, zero_add]
  have h2 : ∀ i ∈ s, p.eval (x i) = (p % P n).eval (x i) := by
    intro i hi
    conv_lhs => rw [← h0]
    rw [eval_add, eval_mul, hr i hi, zero_mul, zero_add]
  have h3 : p % P n = Lagrange.interpolate s x fun i => (p % P n).eval (x i) :=
    Lagrange.eq_interpolate hx (by rw [hs]; exact hdeg)
  rw [h1, Finset.sum_congr rfl fun i hi => by rw [h2 i hi]]
  conv_lhs => rw [h3]
  rw [Lagrange.interpolate_apply, J_sum]
  apply Finset.sum_congr rfl; intro i _
  rw [J_C_mul, mul_comm]

/-- The interpolatory weights have the closed form used by the code. -/
theorem gauss_weight (n : ℕ) (s : Finset ι) (x : ι → ℝ) (hx : Set.InjOn x s)
    (hs : s.card = n + 1) (hr : ∀ i ∈ s, (P (n + 1)).eval (x i) = 0) (i : ι) (hi : i ∈ s) :
    (1 - x i ^ 2) ≠ 0 ∧ (derivative (P (n + 1))).eval (x i) ≠ 0 ∧
    J (Lagrange.basis s x i)
      = 2 / ((1 - x i ^ 2) * (derivative (P (n + 1))).eval (x i) ^ 2) := by
  obtain ⟨f, hf⟩ := dvd_iff_isRoot.2 (hr i hi)
  have hfi : f.eval (x i) = (derivative (P (n + 1))).eval (x i) := by
    rw [hf]; simp [derivative_mul]
  have hfj : ∀ j ∈ s, j ≠ i → f.eval (x j) = 0 := by
    intro j hj hji
    have := hr j hj
    rw [hf, eval_mul] at this
    rcases mul_eq_zero.1 this with h | h
    · exfalso
      simp at h
      exact hji (hx hj hi (by linarith))
    · exact h
  have hf0 : f ≠ 0 := by
    rintro rfl
    rw [mul_zero] at hf
    exact P_ne_zero _ hf
  have hfd : f.natDegree = n := by
    have := P_natDegree (n + 1)
    rw [hf, natDegree_mul (X_sub_C_ne_zero _) hf0, natDegree_X_sub_C] at this
    omega
  have hfl : f.coeff n = lead (n + 1) := by
    have h1 := (P_degree (n + 1)).2
    have h2 : (P (n + 1)).leadingCoeff = f.leadingCoeff := by
      rw [hf, leadingCoeff_mul, leadingCoeff_X_sub_C, one_mul]
    rw [leadingCoeff, P_natDegree, h1, leadingCoeff, hfd] at h2
    exact h2.symm
  have hJ : J (P n * f) = 2 / (n + 1) := by
    set a := f.coeff n / lead n with ha
    have h1 : f = C a * P n + (f - C a * P n) := by ring
    have h2 : (f - C a * P n).degree < n := by
      rw [degree_lt_iff_coeff_zero]
      intro k hk
      rw [coeff_sub, coeff_C_mul]
      rcases eq_or_lt_of_le hk with rfl | hk
      · rw [(P_degree n).2, div_mul_cancel₀ _ (lead_ne_zero n), sub_self]
      · rw [coeff_eq_zero_of_natDegree_lt (show (P n).natDegree < k by rw [P_natDegree]; exact hk),
          coeff_eq_zero_of_natDegree_lt (show f.natDegree < k by omega)]
        ring
    rw [h1, mul_add, J_add, orth n n _ le_rfl h2, mul_left_comm, J_C_mul, norm, ha, hfl, lead]
    have := lead_ne_zero n
    have e2 : 2 * (n : ℝ) + 1 ≠ 0 := by positivity
    have e1 : (n : ℝ) + 1 ≠ 0 := by positivity
    field_simp
    ring
  have hg := gauss_interp (n + 1) s x hx hs hr (P n * f) (by
    refine lt_of_le_of_lt degree_le_natDegree ?_
    have : (P n * f).natDegree ≤ n + n := by
      refine natDegree_mul_le.trans ?_
      rw [P_natDegree, hfd]
    exact_mod_cast lt_of_le_of_lt this (by omega))
  rw [Finset.sum_eq_single i] at hg
  · rw [hJ, eval_mul, hfi] at hg
    have hrel := congrArg (eval (x i)) (deriv_rel n)
    simp only [eval_mul, eval_sub, eval_pow, eval_X, eval_one, eval_C, hr i hi, mul_zero,
      zero_sub] at hrel
    set d := (derivative (P (n + 1))).eval (x i) with hd
    set v := (P n).eval (x i) with hv
    have e1 : (n : ℝ) + 1 ≠ 0 := by positivity
    have hprod : J (Lagrange.basis s x i) * (v * d) ≠ 0 := by
      rw [← hg]; positivity
    have hvd : v * d ≠ 0 := right_ne_zero_of_mul hprod
    have hv0 : v ≠ 0 := left_ne_zero_of_mul hvd
    have hd0 : d ≠ 0 := right_ne_zero_of_mul hvd
    have h4 : (1 - x i ^ 2) * d = (n + 1) * v := by linarith
    have h5 : (1 - x i ^ 2) ≠ 0 := by
      intro h
      rw [h, zero_mul] at h4
      exact mul_ne_zero e1 hv0 h4.symm
    refine ⟨h5, hd0, ?_⟩
    rw [show (1 - x i ^ 2) * d ^ 2 = (n + 1) * (v * d) by
      linear_combination d * h4]
    field_simp
    field_simp at hg
    linarith
  · intro j hj hji
    rw [eval_mul, hfj j hj hji]; ring
  · intro h; exact absurd hi h

/-- Gauss–Legendre quadrature is exact on polynomials of degree `< 2 n`. -/
theorem gauss (n : ℕ) (s : Finset ι) (x : ι → ℝ) (hx : Set.InjOn x s)
    (hs : s.card = n + 1) (hr : ∀ i ∈ s, (P (n + 1)).eval (x i) = 0) (p : ℝ[X])
    (hp : p.degree < (2 * (n + 1) : ℕ)) :
    ∫ t in (-1 : ℝ)..1, p.eval t
      = ∑ i ∈ s, 2 / ((1 - x i ^ 2) * (derivative (P (n + 1))).eval (x i) ^ 2) * p.eval (x i) := by
  change J p = _
  rw [gauss_interp (n + 1) s x hx hs hr p hp]
  apply Finset.sum_congr rfl; intro i hi
  rw [(gauss_weight n s x hx hs hr i hi).2.2]

end S2fft.Legendre
