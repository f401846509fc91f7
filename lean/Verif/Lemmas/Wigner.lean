import Verif.Lemmas.Risbo

/-! # Identities of the Wigner-d functions -/

namespace S2fft
open Spec

theorem negOne_congr {a b : ℤ} (h : Even (a - b)) : (-1 : ℝ) ^ a = (-1) ^ b := by
  obtain ⟨k, hk⟩ := h
  rw [show a = b + 2 * k by omega, zpow_add₀ (by norm_num), zpow_mul]
  norm_num

theorem negOne_toNat {a : ℤ} (h : 0 ≤ a) : (-1 : ℝ) ^ a.toNat = (-1) ^ a := by
  rw [← zpow_natCast, Int.toNat_of_nonneg h]

theorem negOne_mul (a b : ℤ) : (-1 : ℝ) ^ a * (-1) ^ b = (-1) ^ (a + b) :=
  (zpow_add₀ (by norm_num) a b).symm

theorem negOne_self (a : ℤ) : (-1 : ℝ) ^ a * (-1) ^ a = 1 := by
  rw [negOne_mul, negOne_congr (b := 0) (by rw [sub_zero]; exact ⟨a, rfl⟩), zpow_zero]

theorem negOne_neg (a : ℤ) : (-1 : ℝ) ^ (-a) = (-1) ^ a := negOne_congr ⟨-a, by ring⟩

/-- `x → -x`. -/
theorem U_negx (p q r t : ℝ) (j k i : ℤ) :
    U (-p) q (-r) t j k i = (-1) ^ k * U p q r t j k i := by
  unfold U
  split_ifs
  · have := qf_scale p q r t (-1 : ℝˣ) i.toNat (j - i).toNat k
    simp only [Units.val_neg, Units.val_one, neg_mul, one_mul] at this
    rw [this, Units.val_zpow_eq_zpow_val]
    simp only [Units.val_neg, Units.val_one]
    ring
  · ring

theorem U_rot_neg (c s : ℝ) (j k i : ℤ) :
    U c (-s) s c j k i = (-1) ^ (k + i) * U c s (-s) c j k i := by
  by_cases h : 0 ≤ i ∧ i ≤ j
  · have h1 := U_smul (-c) s s c (-1) 1 j k i h.1 h.2
    simp only [neg_mul, one_mul, neg_neg, one_pow, mul_one] at h1
    rw [h1, negOne_toNat h.1, show s = -(-s) by ring, U_negx, neg_neg, ← mul_assoc, negOne_mul,
      add_comm]
  · rw [U_eq_zero _ _ _ _ _ _ _ (by omega), U_eq_zero _ _ _ _ _ _ _ (by omega), mul_zero]

/-- `d_{mn}(-β) = (-1)^(m+n) d_{mn}(β)`. -/
theorem wignerd_neg (l m n : ℤ) (β : ℝ) :
    wignerd l m n (-β) = (-1) ^ (m + n) * wignerd l m n β := by
  rw [wignerd_eq_U, wignerd_eq_U, neg_div, Real.cos_neg, Real.sin_neg, neg_neg, U_rot_neg]
  congr 1
  exact negOne_congr ⟨l, by ring⟩

/-- `d_{mn}(β) = (-1)^(m+n) d_{nm}(β)`. -/
theorem wignerd_transpose (l m n : ℤ) (β : ℝ) :
    wignerd l m n β = (-1) ^ (m + n) * wignerd l n m β := by
  rw [wignerd_eq_U, wignerd_eq_U, U_transpose, U_rot_neg]
  congr 1
  exact negOne_congr ⟨l, by ring⟩

/-- `d_{mn}(-β) = d_{nm}(β)`. -/
theorem wignerd_neg_transpose (l m n : ℤ) (β : ℝ) : wignerd l m n (-β) = wignerd l n m β := by
  rw [wignerd_neg, wignerd_transpose, ← mul_assoc, negOne_self, one_mul]

/-- `d_{-m,-n}(β) = (-1)^(m+n) d_{mn}(β)`. -/
theorem wignerd_neg_neg (l m n : ℤ) (β : ℝ) :
    wignerd l (-m) (-n) β = (-1) ^ (m + n) * wignerd l m n β := by
  rw [wignerd_eq_U, wignerd_eq_U, U_swap, U_reverse, U_rot_neg,
    show 2 * l - (l + -m) = l + m by ring, show 2 * l - (l + -n) = l + n by ring]
  congr 1
  exact negOne_congr ⟨l, by ring⟩

/-- `d_{mn}(π-β) = (-1)^(l+n) d_{-m,n}(β)`. -/
theorem wignerd_pi_sub (l m n : ℤ) (β : ℝ) :
    wignerd l m n (Real.pi - β) = (-1) ^ (l + n) * wignerd l (-m) n β := by
  rw [wignerd_eq_U, wignerd_eq_U, show (Real.pi - β) / 2 = Real.pi / 2 - β / 2 by ring,
    Real.cos_pi_div_two_sub, Real.sin_pi_div_two_sub]
  generalize Real.cos (β / 2) = c
  generalize Real.sin (β / 2) = s
  by_cases h : 0 ≤ l + n ∧ l + n ≤ 2 * l
  · rw [U_reverse, show 2 * l - (l + m) = l + -m by ring]
    have h1 := U_smul c s (-s) c 1 (-1) (2 * l) (l + -m) (l + n) h.1 h.2
    simp only [one_mul, neg_mul, neg_neg, one_pow] at h1
    rw [h1, negOne_toNat (by omega)]
    congr 1
    exact negOne_congr ⟨-n, by ring⟩
  · rw [U_eq_zero _ _ _ _ _ _ _ (by omega), U_eq_zero _ _ _ _ _ _ _ (by omega), mul_zero]

/-- At `β = 0` the plane is the identity. -/
theorem wignerd_at_zero (l m n : ℤ) :
    wignerd l m n 0 = if |m| ≤ l ∧ m = n then 1 else 0 := by
  rw [wignerd_eq_U, zero_div, Real.cos_zero, Real.sin_zero, neg_zero, U_diag]
  simp only [abs_le, one_pow, mul_one]
  congr 1
  exact propext (by omega)

/-- At `β = π` it is an anti-diagonal of signs. -/
theorem wignerd_at_pi (l m n : ℤ) :
    wignerd l m n Real.pi = if |m| ≤ l ∧ m = -n then (-1) ^ (l + n) else 0 := by
  have := wignerd_pi_sub l m n 0
  rw [sub_zero, wignerd_at_zero, abs_neg] at this
  rw [this, mul_ite, mul_one, mul_zero]
  congr 1
  exact propext (by omega)

theorem wignerd_add_two_pi (l m n : ℤ) (β : ℝ) :
    wignerd l m n (β + 2 * Real.pi) = wignerd l m n β := by
  rw [wignerd_eq_U, wignerd_eq_U, show (β + 2 * Real.pi) / 2 = β / 2 + Real.pi by ring,
    Real.cos_add_pi, Real.sin_add_pi]
  by_cases h : 0 ≤ l + n ∧ l + n ≤ 2 * l
  · have h1 := U_smul (Real.cos (β / 2)) (Real.sin (β / 2)) (-Real.sin (β / 2)) (Real.cos (β / 2))
      (-1) (-1) (2 * l) (l + m) (l + n) h.1 h.2
    simp only [one_mul, neg_mul] at h1
    rw [h1, negOne_toNat h.1, negOne_toNat (by omega), negOne_mul,
      negOne_congr (b := 0) ⟨l, by ring⟩, zpow_zero, one_mul]
  · rw [U_eq_zero _ _ _ _ _ _ _ (by omega), U_eq_zero _ _ _ _ _ _ _ (by omega)]

/-- Composition of rotations. -/
theorem wignerd_mul (l m n : ℤ) (β₁ β₂ : ℝ) :
    ∑ k ∈ Finset.Ico (-l) (l + 1), wignerd l m k β₁ * wignerd l k n β₂
      = wignerd l m n (β₁ + β₂) := by
  by_cases h : 0 ≤ l + n ∧ l + n ≤ 2 * l
  · have := U_mul (Real.cos (β₂ / 2)) (Real.sin (β₂ / 2)) (-Real.sin (β₂ / 2)) (Real.cos (β₂ / 2))
      (Real.cos (β₁ / 2)) (Real.sin (β₁ / 2)) (-Real.sin (β₁ / 2)) (Real.cos (β₁ / 2))
      (2 * l) (l + m) (l + n) h.1 h.2
    rw [wignerd_eq_U, show (β₁ + β₂) / 2 = β₁ / 2 + β₂ / 2 by ring, Real.cos_add, Real.sin_add]
    rw [show Real.cos (β₂ / 2) * Real.cos (β₁ / 2) + Real.sin (β₂ / 2) * -Real.sin (β₁ / 2)
        = Real.cos (β₁ / 2) * Real.cos (β₂ / 2) - Real.sin (β₁ / 2) * Real.sin (β₂ / 2) by ring,
      show Real.cos (β₂ / 2) * Real.sin (β₁ / 2) + Real.sin (β₂ / 2) * Real.cos (β₁ / 2)
        = Real.sin (β₁ / 2) * Real.cos (β₂ / 2) + Real.cos (β₁ / 2) * Real.sin (β₂ / 2) by ring,
      show -Real.sin (β₂ / 2) * Real.cos (β₁ / 2) + Real.cos (β₂ / 2) * -Real.sin (β₁ / 2)
        = -(Real.sin (β₁ / 2) * Real.cos (β₂ / 2) + Real.cos (β₁ / 2) * Real.sin (β₂ / 2)) by ring,
      show -Real.sin (β₂ / 2) * Real.sin (β₁ / 2) + Real.cos (β₂ / 2) * Real.cos (β₁ / 2)
        = Real.cos (β₁ / 2) * Real.cos (β₂ / 2) - Real.sin (β₁ / 2) * Real.sin (β₂ / 2) by ring]
      at this
    rw [← this]
    have hsh := sum_Ico_shift (-l) (l + 1) l (fun i => U (Real.cos (β₂ / 2)) (Real.sin (β₂ / 2))
      (-Real.sin (β₂ / 2)) (Real.cos (β₂ / 2)) (2 * l) i (l + n) *
        U (Real.cos (β₁ / 2)) (Real.sin (β₁ / 2)) (-Real.sin (β₁ / 2)) (Real.cos (β₁ / 2)) (2 * l)
          (l + m) i)
    rw [show -l + l = 0 by ring, show l + 1 + l = 2 * l + 1 by ring] at hsh
    rw [hsh]
    apply Finset.sum_congr rfl
    intro k _
    rw [wignerd_eq_U, wignerd_eq_U, add_comm k l, mul_comm]
  · have : l < |n| := by rw [lt_abs]; omega
    rw [wignerd_outside _ _ _ _ (Or.inr this)]
    apply Finset.sum_eq_zero
    intro k _
    rw [wignerd_outside l k n _ (Or.inr this), mul_zero]

/-- Rows are orthonormal. -/
theorem wignerd_orthonormal (l m n : ℤ) (β : ℝ) :
    ∑ k ∈ Finset.Ico (-l) (l + 1), wignerd l m k β * wignerd l n k β
      = if |m| ≤ l ∧ m = n then 1 else 0 := by
  have := wignerd_mul l m n β (-β)
  rw [add_neg_cancel, wignerd_at_zero] at this
  rw [← this]
  apply Finset.sum_congr rfl
  intro k _
  rw [wignerd_neg_transpose]

/-- Columns are orthonormal. -/
theorem wignerd_orthonormal' (l m n : ℤ) (β : ℝ) :
    ∑ k ∈ Finset.Ico (-l) (l + 1), wignerd l k m β * wignerd l k n β
      = if |m| ≤ l ∧ m = n then 1 else 0 := by
  have := wignerd_mul l m n (-β) β
  rw [neg_add_cancel, wignerd_at_zero] at this
  rw [← this]
  apply Finset.sum_congr rfl
  intro k _
  rw [wignerd_neg_transpose]

/-- `√((l+m)(l-m+1))`. -/
noncomputable def ladder (l m : ℤ) : ℝ := √((l : ℝ) + m) * √((l : ℝ) - m + 1)

theorem ladder_sq (l m : ℤ) (h1 : -l ≤ m) (h2 : m ≤ l + 1) :
    ladder l m ^ 2 = ((l : ℝ) + m) * (l - m + 1) := by
  have a : (0 : ℝ) ≤ (l : ℝ) + m := by exact_mod_cast (by omega : (0 : ℤ) ≤ l + m)
  have b : (0 : ℝ) ≤ (l : ℝ) - m + 1 := by exact_mod_cast (by omega : (0 : ℤ) ≤ l - m + 1)
  unfold ladder
  rw [mul_pow, Real.sq_sqrt a, Real.sq_sqrt b]

theorem ladder_pos (l m : ℤ) (h1 : -l < m) (h2 : m ≤ l) : 0 < ladder l m := by
  have a : (0 : ℝ) < (l : ℝ) + m := by exact_mod_cast (by omega : (0 : ℤ) < l + m)
  have b : (0 : ℝ) < (l : ℝ) - m + 1 := by exact_mod_cast (by omega : (0 : ℤ) < l - m + 1)
  exact mul_pos (Real.sqrt_pos.mpr a) (Real.sqrt_pos.mpr b)

theorem ladder_neg (l m : ℤ) : ladder l (-m) = ladder l (m + 1) := by
  unfold ladder
  push_cast
  rw [mul_comm]
  congr 2 <;> ring

theorem ladder_top (l : ℤ) : ladder l (l + 1) = 0 := by
  unfold ladder; push_cast
  rw [show (l : ℝ) - (l + 1) + 1 = 0 by ring, Real.sqrt_zero, mul_zero]

theorem ladder_bot (l : ℤ) : ladder l (-l) = 0 := by
  rw [ladder_neg, ladder_top]

/-- Three-term recursion in the first index. -/
theorem wignerd_three (l m n : ℤ) (β : ℝ) (hm : |m| ≤ l) (hn : |n| ≤ l) :
    ((n : ℝ) - m * Real.cos β) * wignerd l m n β
      = Real.sin β / 2 * (ladder l (m + 1) * wignerd l (m + 1) n β
          + ladder l m * wignerd l (m - 1) n β) := by
  rw [abs_le] at hm hn
  have hs : Real.sin β = 2 * Real.sin (β / 2) * Real.cos (β / 2) := by
    rw [← Real.sin_two_mul]; ring_nf
  have hc : Real.cos β = Real.cos (β / 2) ^ 2 - Real.sin (β / 2) ^ 2 := by
    rw [← Real.cos_two_mul']; ring_nf
  have h1 : Real.cos (β / 2) ^ 2 + Real.sin (β / 2) ^ 2 = 1 := Real.cos_sq_add_sin_sq _
  have := U_three (Real.cos (β / 2)) (Real.sin (β / 2)) (-Real.sin (β / 2)) (Real.cos (β / 2))
    (2 * l) (l + m) (l + n) (by omega) (by omega) (by omega) (by omega)
  simp only [Algebra.algebraMap_self, RingHom.id_apply] at this
  rw [wignerd_eq_U, wignerd_eq_U, wignerd_eq_U, hs, hc, show l + (m + 1) = l + m + 1 by ring,
    show l + (m - 1) = l + m - 1 by ring]
  unfold ladder
  push_cast at this ⊢
  rw [show (l : ℝ) + (m + 1) = l + m + 1 by ring, show (l : ℝ) - (m + 1) + 1 = 2 * l - (l + m) by ring,
    show (l : ℝ) - m + 1 = 2 * l - (l + m) + 1 by ring]
  set x3 := U (Real.cos (β / 2)) (Real.sin (β / 2)) (-Real.sin (β / 2)) (Real.cos (β / 2))
    (2 * l) (l + m) (l + n)
  linear_combination (-1 : ℝ) * this + (-(n : ℝ) * x3) * h1

/-- Three-term recursion in the second index. -/
theorem wignerd_three' (l m n : ℤ) (β : ℝ) (hm : |m| ≤ l) (hn : |n| ≤ l) :
    ((m : ℝ) - n * Real.cos β) * wignerd l m n β
      = -(Real.sin β / 2) * (ladder l (n + 1) * wignerd l m (n + 1) β
          + ladder l n * wignerd l m (n - 1) β) := by
  have := wignerd_three l n m β hn hm
  rw [wignerd_transpose l m n, wignerd_transpose l m (n + 1), wignerd_transpose l m (n - 1),
    show (-1 : ℝ) ^ (m + (n + 1)) = -(-1) ^ (m + n) by
      rw [← add_assoc, zpow_add_one₀ (by norm_num)]; ring,
    show (-1 : ℝ) ^ (m + (n - 1)) = -(-1) ^ (m + n) by
      rw [show m + n = m + (n - 1) + 1 by ring, zpow_add_one₀ (by norm_num)]; ring]
  linear_combination (-1 : ℝ) ^ (m + n) * this

/-! ## Derivative -/

theorem hasDerivAt_qf (a b : ℕ) (i : ℤ) (β : ℝ) :
    HasDerivAt (fun β => qf (Real.cos (β / 2)) (Real.sin (β / 2)) (-Real.sin (β / 2))
        (Real.cos (β / 2)) a b i)
      ((a * qf (Real.cos (β / 2)) (Real.sin (β / 2)) (-Real.sin (β / 2)) (Real.cos (β / 2))
          (a - 1) (b + 1) i
        - b * qf (Real.cos (β / 2)) (Real.sin (β / 2)) (-Real.sin (β / 2)) (Real.cos (β / 2))
          (a + 1) (b - 1) i) / 2) β := by
  have hcos : HasDerivAt (fun β : ℝ => Real.cos (β / 2)) (-Real.sin (β / 2) * (1 / 2)) β :=
    (Real.hasDerivAt_cos _).comp β ((hasDerivAt_id β).div_const 2)
  have hsin : HasDerivAt (fun β : ℝ => Real.sin (β / 2)) (Real.cos (β / 2) * (1 / 2)) β :=
    (Real.hasDerivAt_sin _).comp β ((hasDerivAt_id β).div_const 2)
  induction a generalizing i with
  | zero =>
    induction b generalizing i with
    | zero => simpa using hasDerivAt_const β _
    | succ b ih =>
      have e : (fun β : ℝ => qf (Real.cos (β / 2)) (Real.sin (β / 2)) (-Real.sin (β / 2))
          (Real.cos (β / 2)) 0 (b + 1) i) = fun β => -Real.sin (β / 2) * qf (Real.cos (β / 2))
          (Real.sin (β / 2)) (-Real.sin (β / 2)) (Real.cos (β / 2)) 0 b (i - 1) + Real.cos (β / 2) *
          qf (Real.cos (β / 2)) (Real.sin (β / 2)) (-Real.sin (β / 2)) (Real.cos (β / 2)) 0 b i := by
        funext β; rw [qf_succ_right]
      rw [e]
      refine ((hsin.fun_neg.mul (ih (i - 1))).add (hcos.mul (ih i))).congr_deriv ?_
      generalize Real.cos (β / 2) = c
      generalize Real.sin (β / 2) = s
      simp only [Nat.cast_zero, zero_mul, zero_sub, Nat.zero_add, Nat.add_sub_cancel, zero_add]
      have hb : (b : ℝ) * (qf c s (-s) c 1 b i)
          = b * (-s * qf c s (-s) c 1 (b - 1) (i - 1) + c * qf c s (-s) c 1 (b - 1) i) := by
        rcases b with _ | b
        · simp
        · rw [Nat.add_sub_cancel, qf_succ_right]
      have h1 : qf c s (-s) c 1 b i = c * qf c s (-s) c 0 b (i - 1) + s * qf c s (-s) c 0 b i :=
        qf_succ_left _ _ _ _ 0 b i
      push_cast
      linear_combination (1 / 2 : ℝ) * hb + (1 / 2 : ℝ) * h1
  | succ a ih =>
    have e : (fun β : ℝ => qf (Real.cos (β / 2)) (Real.sin (β / 2)) (-Real.sin (β / 2))
        (Real.cos (β / 2)) (a + 1) b i) = fun β => Real.cos (β / 2) * qf (Real.cos (β / 2))
        (Real.sin (β / 2)) (-Real.sin (β / 2)) (Real.cos (β / 2)) a b (i - 1) + Real.sin (β / 2) *
        qf (Real.cos (β / 2)) (Real.sin (β / 2)) (-Real.sin (β / 2)) (Real.cos (β / 2)) a b i := by
      funext β; rw [qf_succ_left]
    rw [e]
    refine ((hcos.mul (ih (i - 1))).add (hsin.mul (ih i))).congr_deriv ?_
    generalize Real.cos (β / 2) = c
    generalize Real.sin (β / 2) = s
    rw [Nat.add_sub_cancel]
    have h1 : qf c s (-s) c a (b + 1) i = -s * qf c s (-s) c a b (i - 1) + c * qf c s (-s) c a b i :=
      qf_succ_right _ _ _ _ a b i
    have h2 : (a : ℝ) * qf c s (-s) c a (b + 1) i = a * (c * qf c s (-s) c (a - 1) (b + 1) (i - 1)
        + s * qf c s (-s) c (a - 1) (b + 1) i) := by
      rcases a with _ | a
      · simp
      · rw [Nat.add_sub_cancel, qf_succ_left]
    have h3 : qf c s (-s) c (a + 1 + 1) (b - 1) i = c * qf c s (-s) c (a + 1) (b - 1) (i - 1)
        + s * qf c s (-s) c (a + 1) (b - 1) i := qf_succ_left _ _ _ _ (a + 1) (b - 1) i
    push_cast
    linear_combination (-1 / 2 : ℝ) * h1 - (1 / 2 : ℝ) * h2 + (b / 2 : ℝ) * h3

theorem hasDerivAt_wignerd (l m n : ℤ) (β : ℝ) :
    HasDerivAt (wignerd l m n)
      ((ladder l n * wignerd l m (n - 1) β - ladder l (n + 1) * wignerd l m (n + 1) β) / 2) β := by
  by_cases hn : |n| ≤ l
  · rw [abs_le] at hn
    have e : wignerd l m n = fun β => nrm (2 * l) (l + m) / nrm (2 * l) (l + n) *
        qf (Real.cos (β / 2)) (Real.sin (β / 2)) (-Real.sin (β / 2)) (Real.cos (β / 2))
          (l + n).toNat (l - n).toNat (l + m) := by
      funext β
      rw [wignerd_eq_U, U_of _ _ _ _ _ _ _ (by omega) (by omega),
        show 2 * l - (l + n) = l - n by ring]
      rfl
    rw [e]
    refine ((hasDerivAt_qf (l + n).toNat (l - n).toNat (l + m) β).const_mul _).congr_deriv ?_
    have c1 : ((l + n).toNat : ℝ) = l + n := by
      have : (((l + n).toNat : ℤ) : ℝ) = ((l + n : ℤ) : ℝ) := by rw [Int.toNat_of_nonneg (by omega)]
      push_cast at this; exact this
    have c2 : ((l - n).toNat : ℝ) = l - n := by
      have : (((l - n).toNat : ℤ) : ℝ) = ((l - n : ℤ) : ℝ) := by rw [Int.toNat_of_nonneg (by omega)]
      push_cast at this; exact this
    have r1 : (0 : ℝ) ≤ (l : ℝ) + n := by exact_mod_cast (by omega : (0 : ℤ) ≤ l + n)
    have r2 : (0 : ℝ) ≤ (l : ℝ) - n := by exact_mod_cast (by omega : (0 : ℤ) ≤ l - n)
    rw [c1, c2]
    have A : nrm (2 * l) (l + m) / nrm (2 * l) (l + n) * ((l + n) *
        qf (Real.cos (β / 2)) (Real.sin (β / 2)) (-Real.sin (β / 2)) (Real.cos (β / 2))
          ((l + n).toNat - 1) ((l - n).toNat + 1) (l + m))
        = ladder l n * wignerd l m (n - 1) β := by
      by_cases h : n = -l
      · subst h
        rw [ladder_bot]; push_cast; rw [show (l : ℝ) + -l = 0 by ring]; ring
      · rw [wignerd_eq_U, U_of _ _ _ _ _ _ _ (by omega) (by omega),
          show (l + (n - 1)).toNat = (l + n).toNat - 1 by omega,
          show (2 * l - (l + (n - 1))).toNat = (l - n).toNat + 1 by omega]
        have hs := nrm_step (2 * l) (l + n - 1) (by omega) (by omega)
        rw [show l + n - 1 + 1 = l + n by ring] at hs
        push_cast at hs
        rw [show 2 * (l : ℝ) - (l + n - 1) = l - n + 1 by ring,
          show (l : ℝ) + n - 1 + 1 = l + n by ring] at hs
        have h1 := nrm_ne (2 * l) (l + n)
        have h2 := nrm_ne (2 * l) (l + n - 1)
        rw [show l + (n - 1) = l + n - 1 by ring]
        unfold ladder
        have h3 : ((l : ℝ) + n) / nrm (2 * l) (l + n)
            = √((l : ℝ) + n) * √((l : ℝ) - n + 1) / nrm (2 * l) (l + n - 1) := by
          rw [div_eq_div_iff h1 h2, mul_assoc, hs, ← mul_assoc, Real.mul_self_sqrt r1]
        calc _ = nrm (2 * l) (l + m) * (((l : ℝ) + n) / nrm (2 * l) (l + n)) * _ := by
              rw [← mul_assoc, div_mul_eq_mul_div, mul_div_assoc]
          _ = _ := by
              rw [h3]
              try simp only [Algebra.algebraMap_self, RingHom.id_apply]
              ring
    have B : nrm (2 * l) (l + m) / nrm (2 * l) (l + n) * ((l - n) *
        qf (Real.cos (β / 2)) (Real.sin (β / 2)) (-Real.sin (β / 2)) (Real.cos (β / 2))
          ((l + n).toNat + 1) ((l - n).toNat - 1) (l + m))
        = ladder l (n + 1) * wignerd l m (n + 1) β := by
      by_cases h : n = l
      · subst h
        rw [ladder_top, sub_self]; ring
      · rw [wignerd_eq_U, U_of _ _ _ _ _ _ _ (by omega) (by omega),
          show (l + (n + 1)).toNat = (l + n).toNat + 1 by omega,
          show (2 * l - (l + (n + 1))).toNat = (l - n).toNat - 1 by omega]
        simp only [Algebra.algebraMap_self, RingHom.id_apply]
        have hs := nrm_step (2 * l) (l + n) (by omega) (by omega)
        push_cast at hs
        rw [show 2 * (l : ℝ) - (l + n) = l - n by ring] at hs
        have h1 := nrm_ne (2 * l) (l + n)
        have h2 := nrm_ne (2 * l) (l + n + 1)
        rw [show l + (n + 1) = l + n + 1 by ring]
        unfold ladder
        push_cast
        rw [show (l : ℝ) - (n + 1) + 1 = l - n by ring, show (l : ℝ) + (n + 1) = l + n + 1 by ring]
        have h3 : ((l : ℝ) - n) / nrm (2 * l) (l + n)
            = √((l : ℝ) + n + 1) * √((l : ℝ) - n) / nrm (2 * l) (l + n + 1) := by
          rw [div_eq_div_iff h1 h2, mul_right_comm, ← hs, mul_right_comm, Real.mul_self_sqrt r2]
        calc _ = nrm (2 * l) (l + m) * (((l : ℝ) - n) / nrm (2 * l) (l + n)) * _ := by
              rw [← mul_assoc, div_mul_eq_mul_div, mul_div_assoc]
          _ = _ := by
              rw [h3]
              try simp only [Algebra.algebraMap_self, RingHom.id_apply]
              ring
    rw [← A, ← B]; ring
  · have hz : wignerd l m n = fun _ => 0 := by
      funext β; exact wignerd_outside _ _ _ _ (Or.inr (by omega))
    rw [hz]
    refine (hasDerivAt_const β (0 : ℝ)).congr_deriv ?_
    have A : ladder l n * wignerd l m (n - 1) β = 0 := by
      by_cases h : |n - 1| ≤ l
      · have : n = l + 1 := by
          rw [abs_le] at h hn; omega
        rw [this, ladder_top, zero_mul]
      · rw [wignerd_outside _ _ _ _ (Or.inr (by omega)), mul_zero]
    have B : ladder l (n + 1) * wignerd l m (n + 1) β = 0 := by
      by_cases h : |n + 1| ≤ l
      · have : n + 1 = -l := by
          rw [abs_le] at h hn; omega
        rw [this, ladder_bot, zero_mul]
      · rw [wignerd_outside _ _ _ _ (Or.inr (by omega)), mul_zero]
    rw [A, B]; ring

/-! ## Extreme rows -/

theorem qf_top {R : Type*} [CommRing R] (p q r t : R) (a b : ℕ) :
    qf p q r t a b (a + b) = p ^ a * r ^ b := by
  induction a with
  | zero =>
    induction b with
    | zero => simp
    | succ b ih =>
      rw [qf_succ_right, qf_of_gt p q r t 0 b ((0 : ℕ) + (b + 1 : ℕ)) (by push_cast; omega)]
      push_cast at ih ⊢
      rw [show (0 : ℤ) + ((b : ℤ) + 1) - 1 = 0 + b by ring, ih]; ring
  | succ a ih =>
    rw [qf_succ_left, qf_of_gt p q r t a b ((a + 1 : ℕ) + b) (by push_cast; omega)]
    push_cast at ih ⊢
    rw [show (a : ℤ) + 1 + (b : ℤ) - 1 = a + b by ring, ih]; ring

/-- The row `m = l`. -/
theorem wignerd_top (l n : ℤ) (β : ℝ) (hn : |n| ≤ l) :
    wignerd l l n β = nrm (2 * l) (2 * l) / nrm (2 * l) (l + n) *
      (Real.cos (β / 2) ^ (l + n).toNat * (-Real.sin (β / 2)) ^ (l - n).toNat) := by
  rw [abs_le] at hn
  rw [wignerd_eq_U, U_of _ _ _ _ _ _ _ (by omega) (by omega), show 2 * l - (l + n) = l - n by ring,
    show l + l = ((l + n).toNat : ℤ) + (l - n).toNat by omega, qf_top,
    show ((l + n).toNat : ℤ) + (l - n).toNat = 2 * l by omega]
  rfl

theorem continuous_wignerd (l m n : ℤ) : Continuous (wignerd l m n) :=
  continuous_iff_continuousAt.mpr fun β => (hasDerivAt_wignerd l m n β).continuousAt

end S2fft
