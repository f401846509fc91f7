import Verif.Lemmas.ResamplingEnergy
import Mathlib.Algebra.Order.Chebyshev
import Mathlib.Algebra.Order.BigOperators.Ring.Finset
/-! # Roots of sums of squares -/
namespace S2fft
open Spec

/-- Root of the sum of squares of `n` numbers. -/
noncomputable def rr (n : ℤ) (a : ℤ → ℝ) : ℝ := √(∑ j ∈ Finset.Ico 0 n, a j ^ 2)

theorem rr_nonneg (n : ℤ) (a : ℤ → ℝ) : 0 ≤ rr n a := Real.sqrt_nonneg _

theorem rr_sq (n : ℤ) (a : ℤ → ℝ) : rr n a ^ 2 = ∑ j ∈ Finset.Ico 0 n, a j ^ 2 :=
  Real.sq_sqrt (Finset.sum_nonneg fun _ _ => sq_nonneg _)

theorem rr_energy (n : ℤ) (x : ℤ → ℂ) : rr n (fun j => ‖x j‖) = √(energy n x) := rfl

theorem rr_le_rr {n : ℤ} {a b : ℤ → ℝ} (h : ∀ j, 0 ≤ j → j < n → |a j| ≤ b j) : rr n a ≤ rr n b := by
  refine Real.sqrt_le_sqrt (Finset.sum_le_sum fun j hj => ?_)
  rw [Finset.mem_Ico] at hj
  have := h j hj.1 hj.2
  rw [← sq_abs (a j)]
  exact pow_le_pow_left₀ (abs_nonneg _) this 2

theorem rr_congr {n : ℤ} {a b : ℤ → ℝ} (h : ∀ j, 0 ≤ j → j < n → a j = b j) : rr n a = rr n b := by
  unfold rr
  congr 1
  refine Finset.sum_congr rfl fun j hj => ?_
  rw [Finset.mem_Ico] at hj
  rw [h j hj.1 hj.2]

/-- Minkowski's inequality. -/
theorem rr_add (n : ℤ) (a b : ℤ → ℝ) : rr n (fun j => a j + b j) ≤ rr n a + rr n b := by
  refine Real.sqrt_le_iff.2 ⟨add_nonneg (rr_nonneg _ _) (rr_nonneg _ _), ?_⟩
  have h : ∑ j ∈ Finset.Ico 0 n, a j * b j ≤ rr n a * rr n b := by
    refine Real.le_sqrt_of_sq_le ?_ |>.trans (le_of_eq (Real.sqrt_mul (Finset.sum_nonneg fun _ _ =>
      sq_nonneg _) _))
    exact Finset.sum_mul_sq_le_sq_mul_sq _ _ _
  have e : ∑ j ∈ Finset.Ico 0 n, (a j + b j) ^ 2 = ∑ j ∈ Finset.Ico 0 n, a j ^ 2
      + 2 * (∑ j ∈ Finset.Ico 0 n, a j * b j) + ∑ j ∈ Finset.Ico 0 n, b j ^ 2 := by
    rw [Finset.mul_sum, ← Finset.sum_add_distrib, ← Finset.sum_add_distrib]
    exact Finset.sum_congr rfl fun j _ => by ring
  rw [e, ← rr_sq, ← rr_sq]
  nlinarith

theorem rr_mul (n : ℤ) {p : ℝ} (hp : 0 ≤ p) (a : ℤ → ℝ) : rr n (fun j => p * a j) = p * rr n a := by
  unfold rr
  rw [← Real.sqrt_sq hp, ← Real.sqrt_mul (sq_nonneg p), Finset.mul_sum, Real.sqrt_sq hp]
  congr 1
  exact Finset.sum_congr rfl fun j _ => by ring

theorem rr_const {n : ℤ} (hn : 0 ≤ n) {r : ℝ} (hr : 0 ≤ r) : rr n (fun _ => r) = √n * r := by
  unfold rr
  rw [Finset.sum_const, Int.card_Ico, nsmul_eq_mul, sub_zero]
  have : ((n.toNat : ℕ) : ℝ) = n := by
    exact_mod_cast congrArg (Int.cast : ℤ → ℝ) (Int.toNat_of_nonneg hn)
  rw [this, Real.sqrt_mul (by exact_mod_cast hn), Real.sqrt_sq hr]

/-- A bound term by term. -/
theorem rr_bound {n : ℤ} (hn : 0 ≤ n) {e b c : ℤ → ℝ} {p q r : ℝ} (hp : 0 ≤ p) (hq : 0 ≤ q) (hr : 0 ≤ r)
    (h : ∀ j, 0 ≤ j → j < n → |e j| ≤ p * b j + q * c j + r) :
    rr n e ≤ p * rr n b + q * rr n c + √n * r := by
  refine (rr_le_rr h).trans ((rr_add _ _ _).trans ?_)
  rw [rr_const hn hr]
  refine add_le_add ((rr_add _ _ _).trans (le_of_eq ?_)) le_rfl
  rw [rr_mul n hp, rr_mul n hq]

/-- Cauchy and Schwarz. -/
theorem sum_le_rr {n : ℤ} (hn : 0 ≤ n) (a : ℤ → ℝ) : ∑ j ∈ Finset.Ico 0 n, a j ≤ √n * rr n a := by
  unfold rr
  rw [← Real.sqrt_mul (by exact_mod_cast hn)]
  refine Real.le_sqrt_of_sq_le (sq_sum_le_card_mul_sum_sq.trans (le_of_eq ?_))
  rw [Int.card_Ico, sub_zero]
  congr 1
  exact_mod_cast congrArg (Int.cast : ℤ → ℝ) (Int.toNat_of_nonneg hn)

theorem rr_mono {n k : ℤ} (h : n ≤ k) (a : ℤ → ℝ) : rr n a ≤ rr k a :=
  Real.sqrt_le_sqrt (Finset.sum_le_sum_of_subset_of_nonneg (Finset.Ico_subset_Ico_right h)
    fun _ _ _ => sq_nonneg _)

theorem rr_fftshift {n : ℤ} (hn : 0 < n) (a : ℤ → ℝ) : rr n (fftshift n a) = rr n a := by
  unfold rr
  congr 1
  exact sum_Ico_emod hn (-(n / 2)) (fun i => a i ^ 2)

theorem rr_ifftshift {n : ℤ} (hn : 0 < n) (a : ℤ → ℝ) : rr n (ifftshift n a) = rr n a := by
  unfold rr
  congr 1
  exact sum_Ico_emod hn (n / 2) (fun i => a i ^ 2)

theorem rr_pad {n k a : ℤ} (ha : 0 ≤ a) (h : n + a ≤ k) (x : ℤ → ℝ) :
    rr k (fun j => if a ≤ j ∧ j < n + a then x (j - a) else 0) = rr n x := by
  unfold rr
  congr 1
  rw [← Finset.sum_subset (Finset.Ico_subset_Ico ha h : Finset.Ico a (n + a) ⊆ Finset.Ico 0 k)]
  · have := Finset.sum_Ico_add' (fun j => (if a ≤ j ∧ j < n + a then x (j - a) else 0) ^ 2) 0 n a
    rw [zero_add] at this
    rw [← this]
    refine Finset.sum_congr rfl fun j hj => ?_
    rw [Finset.mem_Ico] at hj
    rw [if_pos (by omega), add_sub_cancel_right]
  · intro j _ hj
    rw [Finset.mem_Ico] at hj
    beta_reduce
    rw [if_neg hj]; simp

theorem rr_fft {n : ℤ} (hn : 0 < n) (x : ℤ → ℂ) :
    rr n (fun k => ‖fft n x k‖) = √n * rr n (fun j => ‖x j‖) := by
  rw [rr_energy, rr_energy, energy_fft hn, Real.sqrt_mul (by exact_mod_cast hn.le)]

theorem rr_ifft_fwd {n : ℤ} (hn : 0 < n) (x : ℤ → ℂ) :
    rr n (fun k => ‖ifft_fwd n x k‖) = √n * rr n (fun j => ‖x j‖) := by
  rw [rr_energy, rr_energy, energy_ifft_fwd hn, Real.sqrt_mul (by exact_mod_cast hn.le)]

/-- Root of the sum of squares of an array. -/
noncomputable def rr2 (r c : ℤ) (f : ℤ → ℤ → ℝ) : ℝ := rr r (fun t => rr c (f t))

theorem rr2_nonneg (r c : ℤ) (f : ℤ → ℤ → ℝ) : 0 ≤ rr2 r c f := rr_nonneg _ _

theorem rr2_eq (r c : ℤ) (f : ℤ → ℤ → ℝ) :
    rr2 r c f = √(∑ t ∈ Finset.Ico 0 r, ∑ p ∈ Finset.Ico 0 c, f t p ^ 2) := by
  unfold rr2
  conv_lhs => unfold rr
  congr 1
  exact Finset.sum_congr rfl fun t _ => rr_sq _ _

theorem rr2_comm (r c : ℤ) (f : ℤ → ℤ → ℝ) : rr2 r c f = rr2 c r (fun p t => f t p) := by
  rw [rr2_eq, rr2_eq, Finset.sum_comm]

theorem rr2_mono {r r' : ℤ} (h : r ≤ r') (c : ℤ) (f : ℤ → ℤ → ℝ) : rr2 r c f ≤ rr2 r' c f :=
  rr_mono h _

theorem rr2_energy (r c : ℤ) (f : ℤ → ℤ → ℂ) : rr2 r c (fun t p => ‖f t p‖) = √(energy2 r c f) := by
  rw [rr2_eq]; rfl

theorem rr2_congr {r c : ℤ} {f g : ℤ → ℤ → ℝ}
    (h : ∀ t p, 0 ≤ t → t < r → 0 ≤ p → p < c → f t p = g t p) : rr2 r c f = rr2 r c g :=
  rr_congr fun t t0 t1 => rr_congr fun p p0 p1 => h t p t0 t1 p0 p1

theorem rr2_add (r c : ℤ) (f g : ℤ → ℤ → ℝ) :
    rr2 r c (fun t p => f t p + g t p) ≤ rr2 r c f + rr2 r c g := by
  unfold rr2
  refine le_trans (rr_le_rr fun t _ _ => ?_) (rr_add _ _ _)
  rw [abs_of_nonneg (rr_nonneg _ _)]
  exact rr_add _ _ _

theorem rr2_le_rr2 {r c : ℤ} {f g : ℤ → ℤ → ℝ}
    (h : ∀ t p, 0 ≤ t → t < r → 0 ≤ p → p < c → |f t p| ≤ g t p) : rr2 r c f ≤ rr2 r c g := by
  unfold rr2
  refine rr_le_rr fun t t0 t1 => ?_
  rw [abs_of_nonneg (rr_nonneg _ _)]
  exact rr_le_rr fun p p0 p1 => h t p t0 t1 p0 p1

/-- Rows doubled by reflection. -/
theorem rr_reflect {n k : ℤ} (hn : 0 ≤ n) (hk : 0 ≤ k) {e b : ℤ → ℝ}
    (h1 : ∀ t, 0 ≤ t → t < n → |e t| ≤ b t) (a : ℤ) (ha : k ≤ a + 1) (han : a < n)
    (h2 : ∀ t, n ≤ t → t < n + k → |e t| ≤ b (a - (t - n))) :
    rr (n + k) e ≤ √2 * rr n b := by
  unfold rr
  rw [← Real.sqrt_mul (by norm_num)]
  refine Real.sqrt_le_sqrt ?_
  rw [← Finset.Ico_union_Ico_eq_Ico hn (by omega : n ≤ n + k),
    Finset.sum_union (Finset.Ico_disjoint_Ico_consecutive _ _ _), two_mul]
  refine add_le_add (Finset.sum_le_sum fun t ht => ?_) ?_
  · rw [Finset.mem_Ico] at ht
    rw [← sq_abs (e t)]
    exact pow_le_pow_left₀ (abs_nonneg _) (h1 t ht.1 ht.2) 2
  · refine le_trans (Finset.sum_le_sum (g := fun t => b (a - (t - n)) ^ 2) fun t ht => ?_) ?_
    · rw [Finset.mem_Ico] at ht
      rw [← sq_abs (e t)]
      exact pow_le_pow_left₀ (abs_nonneg _) (h2 t ht.1 ht.2) 2
    · have : ∑ t ∈ Finset.Ico n (n + k), b (a - (t - n)) ^ 2
          = ∑ t ∈ Finset.Ico (a + 1 - k) (a + 1), b t ^ 2 := by
        refine Finset.sum_nbij' (fun t => a - (t - n)) (fun t => a - t + n) ?_ ?_ ?_ ?_ ?_
        · intro t ht; rw [Finset.mem_Ico] at ht ⊢; omega
        · intro t ht; rw [Finset.mem_Ico] at ht ⊢; omega
        · intro t _; ring
        · intro t _; ring
        · intro t _; rfl
      rw [this]
      exact Finset.sum_le_sum_of_subset_of_nonneg (Finset.Ico_subset_Ico (by omega) (by omega))
        fun _ _ _ => sq_nonneg _

end S2fft
