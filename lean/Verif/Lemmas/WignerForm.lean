import Verif.Spec.Wigner
import Verif.Lemmas.QForm
import Mathlib.Analysis.Calculus.Deriv.Mul
import Mathlib.Analysis.SpecialFunctions.Trigonometric.Deriv

/-! # Normalised binary forms and the Wigner-d functions -/

namespace S2fft
open Spec

theorem fact_pos (z : ℤ) : 0 < fact z := by
  unfold fact; exact_mod_cast Nat.factorial_pos _

theorem fact_succ (z : ℤ) (h : 0 ≤ z) : fact (z + 1) = (z + 1) * fact z := by
  obtain ⟨n, rfl⟩ := Int.eq_ofNat_of_zero_le h
  unfold fact
  rw [show ((n : ℤ) + 1).toNat = n + 1 by omega, Int.toNat_natCast, Nat.factorial_succ]
  push_cast; ring

theorem fact_pred (z : ℤ) (h : 1 ≤ z) : fact z = z * fact (z - 1) := by
  have := fact_succ (z - 1) (by omega)
  rw [show z - 1 + 1 = z by ring] at this
  rw [this]; push_cast; ring

/-- `√(k! (j-k)!)`. -/
noncomputable def nrm (j k : ℤ) : ℝ := Real.sqrt (fact k * fact (j - k))

theorem nrm_pos (j k : ℤ) : 0 < nrm j k :=
  Real.sqrt_pos.mpr (mul_pos (fact_pos _) (fact_pos _))

theorem nrm_ne (j k : ℤ) : nrm j k ≠ 0 := (nrm_pos j k).ne'

theorem nrm_sq (j k : ℤ) : nrm j k ^ 2 = fact k * fact (j - k) :=
  Real.sq_sqrt (mul_pos (fact_pos _) (fact_pos _)).le

theorem nrm_reflect (j k : ℤ) : nrm j (j - k) = nrm j k := by
  unfold nrm; rw [show j - (j - k) = k by ring, mul_comm]

/-- Raising the degree keeping the index. -/
theorem nrm_top (j k : ℤ) (h : k < j) : nrm j k = Real.sqrt ((j : ℝ) - k) * nrm (j - 1) k := by
  unfold nrm
  have h0 : (0 : ℝ) ≤ (j : ℝ) - k := by exact_mod_cast (by omega : (0 : ℤ) ≤ j - k)
  rw [← Real.sqrt_mul h0, fact_pred (j - k) (by omega), show j - 1 - k = j - k - 1 by ring]
  congr 1; push_cast; ring

/-- Raising both. -/
theorem nrm_both (j k : ℤ) (h : 1 ≤ k) : nrm j k = Real.sqrt (k : ℝ) * nrm (j - 1) (k - 1) := by
  unfold nrm
  have h0 : (0 : ℝ) ≤ (k : ℝ) := by exact_mod_cast (by omega : (0 : ℤ) ≤ k)
  rw [← Real.sqrt_mul h0, fact_pred k h, show j - 1 - (k - 1) = j - k by ring]
  congr 1; ring

/-- Neighbouring indices in the same degree. -/
theorem nrm_step (j k : ℤ) (h : 0 ≤ k) (h' : k < j) :
    Real.sqrt ((j : ℝ) - k) * nrm j (k + 1) = Real.sqrt ((k : ℝ) + 1) * nrm j k := by
  rw [nrm_both j (k + 1) (by omega), nrm_top j k h', show k + 1 - 1 = k by ring]
  push_cast; ring

section
variable {K : Type*} [Field K] [Algebra ℝ K]

/-- Normalised coefficient of degree `j` with row `k` and column `i`, for the matrix
`(p q; r t)`; zero outside `0..j`. -/
noncomputable def U (p q r t : K) (j k i : ℤ) : K :=
  if 0 ≤ k ∧ k ≤ j ∧ 0 ≤ i ∧ i ≤ j then
    algebraMap ℝ K (nrm j k / nrm j i) * qf p q r t i.toNat (j - i).toNat k else 0

theorem U_of (p q r t : K) (j k i : ℤ) (hi : 0 ≤ i) (hij : i ≤ j) :
    U p q r t j k i = algebraMap ℝ K (nrm j k / nrm j i) * qf p q r t i.toNat (j - i).toNat k := by
  unfold U
  split_ifs with h
  · rfl
  · by_cases hk : 0 ≤ k
    · rw [qf_of_gt _ _ _ _ _ _ _ (by omega), mul_zero]
    · rw [qf_of_neg _ _ _ _ _ _ _ (by omega), mul_zero]

theorem U_eq_zero (p q r t : K) (j k i : ℤ) (h : ¬ (0 ≤ k ∧ k ≤ j ∧ 0 ≤ i ∧ i ≤ j)) :
    U p q r t j k i = 0 := by
  unfold U; rw [if_neg h]

theorem qf_of_U (p q r t : K) (j k i : ℤ) (hi : 0 ≤ i) (hij : i ≤ j) :
    qf p q r t i.toNat (j - i).toNat k = algebraMap ℝ K (nrm j i / nrm j k) * U p q r t j k i := by
  rw [U_of p q r t j k i hi hij, ← mul_assoc, ← map_mul,
    show nrm j i / nrm j k * (nrm j k / nrm j i) = 1 by
      field_simp [nrm_ne], map_one, one_mul]

/-- Group law. -/
theorem U_mul (p q r t p' q' r' t' : K) (j k a : ℤ) (ha : 0 ≤ a) (haj : a ≤ j) :
    ∑ i ∈ Finset.Ico 0 (j + 1), U p q r t j i a * U p' q' r' t' j k i
      = U (p * p' + q * r') (p * q' + q * t') (r * p' + t * r') (r * q' + t * t') j k a := by
  rw [U_of _ _ _ _ _ _ _ ha haj, ← qf_comp, show a.toNat + (j - a).toNat = j.toNat by omega,
    sum_Ico_eq_range, Finset.mul_sum]
  rw [show (j + 1).toNat = j.toNat + 1 by omega]
  apply Finset.sum_congr rfl
  intro i hi
  rw [Finset.mem_range] at hi
  rw [U_of _ _ _ _ _ _ _ ha haj, U_of _ _ _ _ _ k i (by omega) (by omega),
    Int.toNat_natCast, show (j - (i : ℤ)).toNat = j.toNat - i by omega]
  rw [show nrm j k / nrm j a = nrm j i / nrm j a * (nrm j k / nrm j i) by
    field_simp [nrm_ne], map_mul]
  ring

/-- Half step: degree `j` from degree `j - 1`. -/
theorem U_half (p q r t : K) (j k i : ℤ) (hj : 1 ≤ j) (hk : 0 ≤ k) (hkj : k ≤ j) (hi : 0 ≤ i)
    (hij : i ≤ j) :
    (j : K) * U p q r t j k i
      = algebraMap ℝ K (√(i : ℝ) * √(k : ℝ)) * p * U p q r t (j - 1) (k - 1) (i - 1)
        + algebraMap ℝ K (√(i : ℝ) * √((j : ℝ) - k)) * q * U p q r t (j - 1) k (i - 1)
        + algebraMap ℝ K (√((j : ℝ) - i) * √(k : ℝ)) * r * U p q r t (j - 1) (k - 1) i
        + algebraMap ℝ K (√((j : ℝ) - i) * √((j : ℝ) - k)) * t * U p q r t (j - 1) k i := by
  have hh := qf_half p q r t i.toNat (j - i).toNat k
  have c1 : ((i.toNat : ℕ) : K) = algebraMap ℝ K i := by
    rw [map_intCast, ← Int.cast_natCast, Int.toNat_of_nonneg hi]
  have c2 : (((j - i).toNat : ℕ) : K) = algebraMap ℝ K (j - i) := by
    rw [map_sub, map_intCast, map_intCast, ← Int.cast_natCast, Int.toNat_of_nonneg (by omega)]
    push_cast; ring
  rw [c1, c2, ← map_add, show ((i : ℝ) + (j - i)) = j by ring, map_intCast] at hh
  rw [U_of _ _ _ _ _ _ _ hi hij, mul_left_comm, hh]
  have hi0 : (0 : ℝ) ≤ i := by exact_mod_cast hi
  have hk0 : (0 : ℝ) ≤ k := by exact_mod_cast hk
  have hji0 : (0 : ℝ) ≤ (j : ℝ) - i := by exact_mod_cast (by omega : (0 : ℤ) ≤ j - i)
  have hjk0 : (0 : ℝ) ≤ (j : ℝ) - k := by exact_mod_cast (by omega : (0 : ℤ) ≤ j - k)
  have T1 : algebraMap ℝ K (nrm j k / nrm j i) * (algebraMap ℝ K i *
      (p * qf p q r t (i.toNat - 1) (j - i).toNat (k - 1)))
      = algebraMap ℝ K (√(i : ℝ) * √(k : ℝ)) * p * U p q r t (j - 1) (k - 1) (i - 1) := by
    by_cases h : i = 0
    · subst h; simp
    · rw [U_of _ _ _ _ _ _ _ (by omega) (by omega), show i.toNat - 1 = (i - 1).toNat by omega,
        show (j - 1 - (i - 1)) = j - i by ring]
      by_cases h' : k = 0
      · subst h'; rw [qf_of_neg _ _ _ _ _ _ _ (by omega)]; ring
      · have e : nrm j k / nrm j i * i
            = √(i : ℝ) * √(k : ℝ) * (nrm (j - 1) (k - 1) / nrm (j - 1) (i - 1)) := by
          rw [nrm_both j k (by omega), nrm_both j i (by omega)]
          have hs : √(i : ℝ) ≠ 0 := by
            rw [Real.sqrt_ne_zero hi0]; exact_mod_cast h
          have := nrm_ne (j - 1) (i - 1)
          field_simp
          rw [Real.sq_sqrt hi0]
        calc _ = algebraMap ℝ K (nrm j k / nrm j i * i) *
              (p * qf p q r t (i - 1).toNat (j - i).toNat (k - 1)) := by rw [map_mul]; ring
          _ = _ := by rw [e, map_mul _ (√(i : ℝ) * √(k : ℝ))]; ring
  have T2 : algebraMap ℝ K (nrm j k / nrm j i) * (algebraMap ℝ K i *
      (q * qf p q r t (i.toNat - 1) (j - i).toNat k))
      = algebraMap ℝ K (√(i : ℝ) * √((j : ℝ) - k)) * q * U p q r t (j - 1) k (i - 1) := by
    by_cases h : i = 0
    · subst h; simp
    · rw [U_of _ _ _ _ _ _ _ (by omega) (by omega), show i.toNat - 1 = (i - 1).toNat by omega,
        show (j - 1 - (i - 1)) = j - i by ring]
      by_cases h' : k = j
      · subst h'; rw [qf_of_gt _ _ _ _ _ _ _ (by omega)]; ring
      · have e : nrm j k / nrm j i * i
            = √(i : ℝ) * √((j : ℝ) - k) * (nrm (j - 1) k / nrm (j - 1) (i - 1)) := by
          rw [nrm_top j k (by omega), nrm_both j i (by omega)]
          have hs : √(i : ℝ) ≠ 0 := by
            rw [Real.sqrt_ne_zero hi0]; exact_mod_cast h
          have := nrm_ne (j - 1) (i - 1)
          field_simp
          rw [Real.sq_sqrt hi0]
        calc _ = algebraMap ℝ K (nrm j k / nrm j i * i) *
              (q * qf p q r t (i - 1).toNat (j - i).toNat k) := by rw [map_mul]; ring
          _ = _ := by rw [e, map_mul _ (√(i : ℝ) * √((j : ℝ) - k))]; ring
  have T3 : algebraMap ℝ K (nrm j k / nrm j i) * (algebraMap ℝ K (j - i) *
      (r * qf p q r t i.toNat ((j - i).toNat - 1) (k - 1)))
      = algebraMap ℝ K (√((j : ℝ) - i) * √(k : ℝ)) * r * U p q r t (j - 1) (k - 1) i := by
    by_cases h : i = j
    · subst h; simp
    · rw [U_of _ _ _ _ _ _ _ (by omega) (by omega),
        show (j - i).toNat - 1 = (j - 1 - i).toNat by omega]
      by_cases h' : k = 0
      · subst h'; rw [qf_of_neg _ _ _ _ _ _ _ (by omega)]; ring
      · have e : nrm j k / nrm j i * (j - i)
            = √((j : ℝ) - i) * √(k : ℝ) * (nrm (j - 1) (k - 1) / nrm (j - 1) i) := by
          rw [nrm_both j k (by omega), nrm_top j i (by omega)]
          have hs : √((j : ℝ) - i) ≠ 0 := by
            rw [Real.sqrt_ne_zero hji0]; exact_mod_cast (by omega : j - i ≠ 0)
          have := nrm_ne (j - 1) i
          field_simp
          rw [Real.sq_sqrt hji0]
        calc _ = algebraMap ℝ K (nrm j k / nrm j i * (j - i)) *
              (r * qf p q r t i.toNat (j - 1 - i).toNat (k - 1)) := by rw [map_mul]; ring
          _ = _ := by rw [e, map_mul _ (√((j : ℝ) - i) * √(k : ℝ))]; ring
  have T4 : algebraMap ℝ K (nrm j k / nrm j i) * (algebraMap ℝ K (j - i) *
      (t * qf p q r t i.toNat ((j - i).toNat - 1) k))
      = algebraMap ℝ K (√((j : ℝ) - i) * √((j : ℝ) - k)) * t * U p q r t (j - 1) k i := by
    by_cases h : i = j
    · subst h; simp
    · rw [U_of _ _ _ _ _ _ _ (by omega) (by omega),
        show (j - i).toNat - 1 = (j - 1 - i).toNat by omega]
      by_cases h' : k = j
      · subst h'; rw [qf_of_gt _ _ _ _ _ _ _ (by omega)]; ring
      · have e : nrm j k / nrm j i * (j - i)
            = √((j : ℝ) - i) * √((j : ℝ) - k) * (nrm (j - 1) k / nrm (j - 1) i) := by
          rw [nrm_top j k (by omega), nrm_top j i (by omega)]
          have hs : √((j : ℝ) - i) ≠ 0 := by
            rw [Real.sqrt_ne_zero hji0]; exact_mod_cast (by omega : j - i ≠ 0)
          have := nrm_ne (j - 1) i
          field_simp
          rw [Real.sq_sqrt hji0]
        calc _ = algebraMap ℝ K (nrm j k / nrm j i * (j - i)) *
              (t * qf p q r t i.toNat (j - 1 - i).toNat k) := by rw [map_mul]; ring
          _ = _ := by rw [e, map_mul _ (√((j : ℝ) - i) * √((j : ℝ) - k))]; ring
  rw [← T1, ← T2, ← T3, ← T4]
  ring

/-- Transposition. -/
theorem U_transpose [CharZero K] (p q r t : K) (j k i : ℤ) : U p q r t j k i = U p r q t j i k := by
  by_cases hr : 0 ≤ k ∧ k ≤ j ∧ 0 ≤ i ∧ i ≤ j
  · obtain ⟨n, rfl⟩ := Int.eq_ofNat_of_zero_le (by omega : 0 ≤ j)
    induction n generalizing k i with
    | zero =>
      have hk : k = 0 := by push_cast at hr; omega
      have hi : i = 0 := by push_cast at hr; omega
      subst hk; subst hi
      rw [U_of _ _ _ _ _ _ _ le_rfl (by omega), U_of _ _ _ _ _ _ _ le_rfl (by omega)]; simp
    | succ n ih =>
      push_cast at hr ⊢
      have ih' : ∀ k i, U p q r t n k i = U p r q t n i k := by
        intro k i
        by_cases h : 0 ≤ k ∧ k ≤ (n : ℤ) ∧ 0 ≤ i ∧ i ≤ (n : ℤ)
        · exact ih k i h
        · rw [U_eq_zero _ _ _ _ _ _ _ h, U_eq_zero _ _ _ _ _ _ _ (by omega)]
      have h1 := U_half p q r t (n + 1) k i (by omega) hr.1 hr.2.1 hr.2.2.1 hr.2.2.2
      have h2 := U_half p r q t (n + 1) i k (by omega) hr.2.2.1 hr.2.2.2 hr.1 hr.2.1
      have hne : (((n : ℤ) + 1 : ℤ) : K) ≠ 0 := by
        push_cast; exact Nat.cast_add_one_ne_zero n
      apply mul_left_cancel₀ hne
      rw [h1, h2, show (n : ℤ) + 1 - 1 = n by ring]
      simp only [ih', map_mul]
      ring
  · rw [U_eq_zero _ _ _ _ _ _ _ hr, U_eq_zero _ _ _ _ _ _ _ (by tauto)]

/-- Three-term recursion along a column. -/
theorem U_three (p q r t : K) (j k i : ℤ) (hk : 0 ≤ k) (hkj : k ≤ j) (hi : 0 ≤ i) (hij : i ≤ j) :
    q * t * algebraMap ℝ K (√((k : ℝ) + 1) * √((j : ℝ) - k)) * U p q r t j (k + 1) i
      = ((i : K) * p * t + ((j : K) - i) * q * r - (p * t + q * r) * k) * U p q r t j k i
        + p * r * algebraMap ℝ K (√(k : ℝ) * √((j : ℝ) - k + 1)) * U p q r t j (k - 1) i := by
  have hh := qf_three p q r t i.toNat (j - i).toNat k
  have c1 : ((i.toNat : ℕ) : K) = i := by
    rw [← Int.cast_natCast, Int.toNat_of_nonneg hi]
  have c2 : (((j - i).toNat : ℕ) : K) = j - i := by
    rw [← Int.cast_natCast, Int.toNat_of_nonneg (by omega)]; push_cast; ring
  rw [c1, c2] at hh
  have hk0 : (0 : ℝ) ≤ k := by exact_mod_cast hk
  have hjk0 : (0 : ℝ) ≤ (j : ℝ) - k := by exact_mod_cast (by omega : (0 : ℤ) ≤ j - k)
  have hc : algebraMap ℝ K (nrm j k / nrm j i) ≠ 0 := by
    rw [map_ne_zero]; exact div_ne_zero (nrm_ne _ _) (nrm_ne _ _)
  have A : algebraMap ℝ K (√((k : ℝ) + 1) * √((j : ℝ) - k)) * U p q r t j (k + 1) i
      = algebraMap ℝ K (nrm j k / nrm j i) * (((k + 1 : ℤ) : K) *
        qf p q r t i.toNat (j - i).toNat (k + 1)) := by
    by_cases h : k = j
    · subst h
      rw [qf_of_gt _ _ _ _ _ _ _ (by omega)]; simp
    · rw [U_of _ _ _ _ _ _ _ hi hij, ← mul_assoc, ← map_mul]
      have e : √((k : ℝ) + 1) * √((j : ℝ) - k) * (nrm j (k + 1) / nrm j i)
          = nrm j k / nrm j i * ((k + 1 : ℤ) : ℝ) := by
        have := nrm_step j k hk (by omega)
        rw [mul_div_assoc', mul_assoc, this, ← mul_assoc, Real.mul_self_sqrt (by linarith)]
        push_cast; ring
      rw [e, map_mul, map_intCast]; ring
  have B : algebraMap ℝ K (√(k : ℝ) * √((j : ℝ) - k + 1)) * U p q r t j (k - 1) i
      = algebraMap ℝ K (nrm j k / nrm j i) * (((j : K) - k + 1) *
        qf p q r t i.toNat (j - i).toNat (k - 1)) := by
    by_cases h : k = 0
    · subst h
      rw [qf_of_neg _ _ _ _ _ _ _ (by omega)]; simp
    · rw [U_of _ _ _ _ _ _ _ hi hij, ← mul_assoc, ← map_mul]
      have e : √(k : ℝ) * √((j : ℝ) - k + 1) * (nrm j (k - 1) / nrm j i)
          = nrm j k / nrm j i * (((j - k + 1 : ℤ) : ℝ)) := by
        have := nrm_step j (k - 1) (by omega) (by omega)
        rw [show k - 1 + 1 = k by ring] at this
        push_cast at this
        rw [show (k : ℝ) - 1 + 1 = k by ring, show (j : ℝ) - (k - 1) = j - k + 1 by ring] at this
        rw [mul_div_assoc', mul_comm (√(k : ℝ)), mul_assoc, ← this, ← mul_assoc,
          Real.mul_self_sqrt (by linarith)]
        push_cast; ring
      rw [e, map_mul, map_intCast]; push_cast; ring
  have C := U_of p q r t j k i hi hij
  calc _ = q * t * (algebraMap ℝ K (√((k : ℝ) + 1) * √((j : ℝ) - k)) * U p q r t j (k + 1) i) := by
          ring
    _ = ((i : K) * p * t + ((j : K) - i) * q * r - (p * t + q * r) * k) * U p q r t j k i
          + p * r * (algebraMap ℝ K (√(k : ℝ) * √((j : ℝ) - k + 1)) * U p q r t j (k - 1) i) := by
          rw [A, B, C]
          linear_combination algebraMap ℝ K (nrm j k / nrm j i) * hh
    _ = _ := by ring

/-- Scaling the rows of the matrix. -/
theorem U_smul (p q r t x y : K) (j k i : ℤ) (hi : 0 ≤ i) (hij : i ≤ j) :
    U (x * p) (x * q) (y * r) (y * t) j k i = x ^ i.toNat * y ^ (j - i).toNat * U p q r t j k i := by
  rw [U_of _ _ _ _ _ _ _ hi hij, U_of _ _ _ _ _ _ _ hi hij, qf_smul]; ring

theorem U_swap (p q r t : K) (j k i : ℤ) : U p q r t j k i = U r t p q j k (j - i) := by
  by_cases h : 0 ≤ i ∧ i ≤ j
  · rw [U_of _ _ _ _ _ _ _ h.1 h.2, U_of _ _ _ _ _ _ _ (by omega) (by omega), qf_swap,
      nrm_reflect, show j - (j - i) = i by ring]
  · rw [U_eq_zero _ _ _ _ _ _ _ (by omega), U_eq_zero _ _ _ _ _ _ _ (by omega)]

theorem U_reverse (p q r t : K) (j k i : ℤ) : U p q r t j k i = U q p t r j (j - k) i := by
  by_cases h : 0 ≤ i ∧ i ≤ j
  · rw [U_of _ _ _ _ _ _ _ h.1 h.2, U_of _ _ _ _ _ _ _ h.1 h.2, nrm_reflect, ← qf_reverse,
      show ((i.toNat : ℤ) + (j - i).toNat - k) = j - k by omega]
  · rw [U_eq_zero _ _ _ _ _ _ _ (by omega), U_eq_zero _ _ _ _ _ _ _ (by omega)]

theorem U_diag (p t : K) (j k i : ℤ) :
    U p 0 0 t j k i = if 0 ≤ i ∧ i ≤ j ∧ k = i then p ^ i.toNat * t ^ (j - i).toNat else 0 := by
  by_cases h : 0 ≤ i ∧ i ≤ j
  · rw [U_of _ _ _ _ _ _ _ h.1 h.2, qf_diag, Int.toNat_of_nonneg h.1]
    by_cases hk : k = i
    · subst hk; rw [if_pos rfl, if_pos ⟨h.1, h.2, rfl⟩, div_self (nrm_ne _ _), map_one, one_mul]
    · rw [if_neg hk, if_neg (by tauto), mul_zero]
  · rw [U_eq_zero _ _ _ _ _ _ _ (by omega), if_neg (by tauto)]

end

/-- Real coefficients seen in `ℂ`. -/
theorem U_ofReal (p q r t : ℝ) (j k i : ℤ) :
    ((U p q r t j k i : ℝ) : ℂ) = U (p : ℂ) q r t j k i := by
  unfold U
  split_ifs with h
  · have := qf_map p q r t Complex.ofRealHom i.toNat (j - i).toNat k
    simp only [Complex.ofRealHom_eq_coe] at this
    rw [← this]
    simp
  · simp

/-! ## The Wigner-d functions -/

theorem wignerd_eq_U (l m n : ℤ) (β : ℝ) :
    wignerd l m n β = U (Real.cos (β / 2)) (Real.sin (β / 2)) (-Real.sin (β / 2))
      (Real.cos (β / 2)) (2 * l) (l + m) (l + n) := by
  unfold wignerd U
  generalize Real.cos (β / 2) = c
  generalize Real.sin (β / 2) = s
  by_cases h : |m| ≤ l ∧ |n| ≤ l
  · rw [if_pos h]
    rw [abs_le, abs_le] at h
    rw [if_pos (by omega), qf_explicit]
    simp only [Algebra.algebraMap_self, RingHom.id_apply]
    rw [Finset.mul_sum, show 2 * l - (l + n) = l - n by ring]
    -- restrict the longer sum
    have hsub : (Finset.Icc (max 0 (n - m)) (min (l + n) (l - m))) ⊆ Finset.Ico 0 (l + n + 1) := by
      intro x; simp only [Finset.mem_Icc, Finset.mem_Ico]; omega
    have hsum : ∀ f : ℕ → ℝ, ∑ x ∈ Finset.range ((l + n).toNat + 1), f x
        = ∑ x ∈ Finset.Ico (0 : ℤ) (l + n + 1), f x.toNat := by
      intro f
      rw [sum_Ico_eq_range, show (l + n + 1).toNat = (l + n).toNat + 1 by omega]
      simp
    rw [hsum]
    refine Eq.trans ?_ (Finset.sum_subset hsub ?_)
    · apply Finset.sum_congr rfl
      intro x hx
      rw [Finset.mem_Icc] at hx
      have hx0 : 0 ≤ x := by omega
      obtain ⟨y, rfl⟩ := Int.eq_ofNat_of_zero_le hx0
      rw [Int.toNat_natCast, qf_pow, if_pos (by omega),
        show (l + m - (((l + n).toNat : ℤ) - (y : ℤ))).toNat = (m - n + y).toNat by omega,
        show (l - n).toNat - (m - n + y).toNat = (l - m - y).toNat by omega,
        show (2 * l + n - m - 2 * (y : ℤ)).toNat = ((l + n).toNat - y) + (l - m - y).toNat by omega,
        show (m - n + 2 * (y : ℤ)).toNat = y + (m - n + y).toNat by omega, pow_add, pow_add,
        neg_pow s]
      have e1 : (((l + n).toNat.choose y : ℕ) : ℝ) = fact (l + n) / (fact y * fact (l + n - y)) := by
        unfold fact
        rw [Nat.cast_choose ℝ (by omega), Int.toNat_natCast,
          show (l + n - (y : ℤ)).toNat = (l + n).toNat - y by omega]
      have e2 : (((l - n).toNat.choose (m - n + y).toNat : ℕ) : ℝ)
          = fact (l - n) / (fact (m - n + y) * fact (l - m - y)) := by
        unfold fact
        rw [Nat.cast_choose ℝ (by omega),
          show (l - n).toNat - (m - n + y).toNat = (l - m - (y : ℤ)).toNat by omega]
      have e3 : Real.sqrt (fact (l + m) * fact (l - m) * fact (l + n) * fact (l - n))
          = nrm (2 * l) (l + m) / nrm (2 * l) (l + n) * (fact (l + n) * fact (l - n)) := by
        rw [show fact (l + n) * fact (l - n) = nrm (2 * l) (l + n) ^ 2 by
          rw [nrm_sq, show 2 * l - (l + n) = l - n by ring]]
        have : Real.sqrt (fact (l + m) * fact (l - m) * fact (l + n) * fact (l - n))
            = nrm (2 * l) (l + m) * nrm (2 * l) (l + n) := by
          unfold nrm
          rw [← Real.sqrt_mul (mul_pos (fact_pos _) (fact_pos _)).le,
            show 2 * l - (l + m) = l - m by ring, show 2 * l - (l + n) = l - n by ring]
          congr 1; ring
        rw [this]
        have := nrm_ne (2 * l) (l + n)
        field_simp
      rw [e1, e2, e3]
      have h1 := (fact_pos (l + n - y)).ne'
      have h2 := (fact_pos (y : ℤ)).ne'
      have h3 := (fact_pos (m - n + y)).ne'
      have h4 := (fact_pos (l - m - y)).ne'
      field_simp
    · intro x hx hx'
      rw [Finset.mem_Ico] at hx
      rw [Finset.mem_Icc] at hx'
      rw [qf_pow, if_neg (by omega)]; ring
  · rw [if_neg h, if_neg]
    rw [abs_le, abs_le] at h
    omega

end S2fft
