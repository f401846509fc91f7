import Verif.Py.Basic
import Verif.Lemmas.Dft
import Mathlib.Tactic

/-! # Coefficients of `(p x + q)^a (r x + t)^b`

The Wigner-d functions are, up to normalisation, the coefficients of the binary form
`(c x + s)^a (c - s x)^b`. Everything needed about them follows from the two recursions in the
exponents. Indices are integers; coefficients outside `[0, a+b]` vanish. -/

namespace S2fft

section
variable {R : Type*} [CommRing R] (p q r t : R)

/-- Coefficient of `x^i` in `(p x + q)^a (r x + t)^b`. -/
def qf : ℕ → ℕ → ℤ → R
  | 0, 0, i => if i = 0 then 1 else 0
  | 0, b + 1, i => r * qf 0 b (i - 1) + t * qf 0 b i
  | a + 1, b, i => p * qf a b (i - 1) + q * qf a b i

@[simp] theorem qf_zero (i : ℤ) : qf p q r t 0 0 i = if i = 0 then 1 else 0 := by
  rw [qf]

theorem qf_succ_left (a b : ℕ) (i : ℤ) :
    qf p q r t (a + 1) b i = p * qf p q r t a b (i - 1) + q * qf p q r t a b i := by
  rw [qf]

theorem qf_succ_right (a b : ℕ) (i : ℤ) :
    qf p q r t a (b + 1) i = r * qf p q r t a b (i - 1) + t * qf p q r t a b i := by
  induction a generalizing i with
  | zero => rw [qf]
  | succ a ih => rw [qf_succ_left, ih, ih, qf_succ_left, qf_succ_left]; ring

theorem qf_of_neg (a b : ℕ) (i : ℤ) (h : i < 0) : qf p q r t a b i = 0 := by
  induction a generalizing i with
  | zero =>
    induction b generalizing i with
    | zero => simp; omega
    | succ b ih => rw [qf_succ_right, ih _ (by omega), ih _ h]; ring
  | succ a ih => rw [qf_succ_left, ih _ (by omega), ih _ h]; ring

theorem qf_of_gt (a b : ℕ) (i : ℤ) (h : (a : ℤ) + b < i) : qf p q r t a b i = 0 := by
  induction a generalizing i with
  | zero =>
    induction b generalizing i with
    | zero => simp at h ⊢; omega
    | succ b ih =>
      push_cast at h ih
      rw [qf_succ_right, ih _ (by omega), ih _ (by omega)]; ring
  | succ a ih =>
    push_cast at h
    rw [qf_succ_left, ih _ (by omega), ih _ (by omega)]; ring

/-- Evaluating the homogenised form. -/
theorem qf_hom {A : Type*} [CommRing A] [Algebra R A] (u v : A) (a b : ℕ) :
    ∑ i ∈ Finset.range (a + b + 1), algebraMap R A (qf p q r t a b i) * u ^ i * v ^ (a + b - i)
      = (algebraMap R A p * u + algebraMap R A q * v) ^ a *
        (algebraMap R A r * u + algebraMap R A t * v) ^ b := by
  have step : ∀ (n : ℕ) (x y : R) (f g : ℤ → R), (∀ i, i < 0 → f i = 0) →
      (∀ i, (n : ℤ) < i → f i = 0) → (∀ i, g i = x * f (i - 1) + y * f i) →
      ∑ i ∈ Finset.range (n + 1 + 1), algebraMap R A (g i) * u ^ i * v ^ (n + 1 - i)
        = (algebraMap R A x * u + algebraMap R A y * v) *
          ∑ i ∈ Finset.range (n + 1), algebraMap R A (f i) * u ^ i * v ^ (n - i) := by
    intro n x y f g h0 h1 hg
    have e1 : ∑ i ∈ Finset.range (n + 1 + 1), algebraMap R A (x * f ((i : ℤ) - 1)) * u ^ i
        * v ^ (n + 1 - i) = algebraMap R A x * u *
          ∑ i ∈ Finset.range (n + 1), algebraMap R A (f i) * u ^ i * v ^ (n - i) := by
      rw [Finset.sum_range_succ', Finset.mul_sum, h0 (((0 : ℕ) : ℤ) - 1) (by simp)]
      simp only [mul_zero, map_zero, zero_mul, add_zero]
      apply Finset.sum_congr rfl; intro i _
      rw [show ((i + 1 : ℕ) : ℤ) - 1 = i by push_cast; ring, map_mul,
        show n + 1 - (i + 1) = n - i by omega, pow_succ]
      ring
    have e2 : ∑ i ∈ Finset.range (n + 1 + 1), algebraMap R A (y * f (i : ℤ)) * u ^ i
        * v ^ (n + 1 - i) = algebraMap R A y * v *
          ∑ i ∈ Finset.range (n + 1), algebraMap R A (f i) * u ^ i * v ^ (n - i) := by
      rw [Finset.sum_range_succ, h1 ((n + 1 : ℕ) : ℤ) (by push_cast; omega), Finset.mul_sum]
      simp only [mul_zero, map_zero, zero_mul, add_zero]
      apply Finset.sum_congr rfl; intro i hi
      rw [Finset.mem_range] at hi
      rw [map_mul, show n + 1 - i = (n - i) + 1 by omega, pow_succ]
      ring
    rw [add_mul, ← e1, ← e2, ← Finset.sum_add_distrib]
    apply Finset.sum_congr rfl; intro i _
    rw [hg, map_add]; ring
  induction a with
  | zero =>
    induction b with
    | zero => simp
    | succ b ih =>
      simp only [Nat.zero_add, pow_zero, one_mul] at ih ⊢
      rw [step b r t (qf p q r t 0 b) _ (fun i h => qf_of_neg p q r t 0 b i h)
        (fun i h => qf_of_gt p q r t 0 b i (by simpa using h))
        (fun i => qf_succ_right p q r t 0 b i), ih, pow_succ]
      ring
  | succ a ih =>
    rw [show a + 1 + b = (a + b) + 1 by omega,
      step (a + b) p q (qf p q r t a b) _ (fun i h => qf_of_neg p q r t a b i h)
        (fun i h => qf_of_gt p q r t a b i (by push_cast at h; exact h))
        (fun i => qf_succ_left p q r t a b i), ih, pow_succ]
    ring

/-- Bilinear combination of forms with the same total degree. -/
theorem qf_comp (p' q' r' t' : R) (a b : ℕ) (k : ℤ) :
    ∑ i ∈ Finset.range (a + b + 1), qf p q r t a b i * qf p' q' r' t' i (a + b - i) k
      = qf (p * p' + q * r') (p * q' + q * t') (r * p' + t * r') (r * q' + t * t') a b k := by
  have step : ∀ (n : ℕ) (x y : R) (f g : ℤ → R) (k : ℤ), (∀ i, i < 0 → f i = 0) →
      (∀ i, (n : ℤ) < i → f i = 0) → (∀ i, g i = x * f (i - 1) + y * f i) →
      ∑ i ∈ Finset.range (n + 1 + 1), g i * qf p' q' r' t' i (n + 1 - i) k
        = (x * p' + y * r') * ∑ i ∈ Finset.range (n + 1), f i * qf p' q' r' t' i (n - i) (k - 1)
          + (x * q' + y * t') * ∑ i ∈ Finset.range (n + 1), f i * qf p' q' r' t' i (n - i) k := by
    intro n x y f g k h0 h1 hg
    have e1 : ∑ i ∈ Finset.range (n + 1 + 1), x * f ((i : ℤ) - 1) * qf p' q' r' t' i (n + 1 - i) k
        = x * (p' * ∑ i ∈ Finset.range (n + 1), f i * qf p' q' r' t' i (n - i) (k - 1)
          + q' * ∑ i ∈ Finset.range (n + 1), f i * qf p' q' r' t' i (n - i) k) := by
      rw [Finset.sum_range_succ', h0 (((0 : ℕ) : ℤ) - 1) (by simp)]
      simp only [mul_zero, zero_mul, add_zero, Finset.mul_sum, ← Finset.sum_add_distrib]
      apply Finset.sum_congr rfl; intro i _
      rw [show ((i + 1 : ℕ) : ℤ) - 1 = i by push_cast; ring,
        show n + 1 - (i + 1) = n - i by omega, qf_succ_left]
      ring
    have e2 : ∑ i ∈ Finset.range (n + 1 + 1), y * f (i : ℤ) * qf p' q' r' t' i (n + 1 - i) k
        = y * (r' * ∑ i ∈ Finset.range (n + 1), f i * qf p' q' r' t' i (n - i) (k - 1)
          + t' * ∑ i ∈ Finset.range (n + 1), f i * qf p' q' r' t' i (n - i) k) := by
      rw [Finset.sum_range_succ, h1 ((n + 1 : ℕ) : ℤ) (by push_cast; omega)]
      simp only [mul_zero, zero_mul, add_zero, Finset.mul_sum, ← Finset.sum_add_distrib]
      apply Finset.sum_congr rfl; intro i hi
      rw [Finset.mem_range] at hi
      rw [show n + 1 - i = (n - i) + 1 by omega, qf_succ_right]
      ring
    have : ∀ i : ℕ, g i * qf p' q' r' t' i (n + 1 - i) k
        = x * f ((i : ℤ) - 1) * qf p' q' r' t' i (n + 1 - i) k
          + y * f (i : ℤ) * qf p' q' r' t' i (n + 1 - i) k := by
      intro i; rw [hg]; ring
    simp only [this]
    rw [Finset.sum_add_distrib, e1, e2]
    ring
  induction a generalizing k with
  | zero =>
    induction b generalizing k with
    | zero => simp
    | succ b ih =>
      simp only [Nat.zero_add] at ih ⊢
      rw [step b r t (qf p q r t 0 b) _ k (fun i h => qf_of_neg p q r t 0 b i h)
        (fun i h => qf_of_gt p q r t 0 b i (by simpa using h))
        (fun i => qf_succ_right p q r t 0 b i), ih, ih, qf_succ_right]
  | succ a ih =>
    rw [show a + 1 + b = (a + b) + 1 by omega,
      step (a + b) p q (qf p q r t a b) _ k (fun i h => qf_of_neg p q r t a b i h)
        (fun i h => qf_of_gt p q r t a b i (by push_cast at h; exact h))
        (fun i => qf_succ_left p q r t a b i), ih, ih, qf_succ_left]

/-- Half-step recursion in the degree. -/
theorem qf_half (a b : ℕ) (i : ℤ) :
    ((a : R) + b) * qf p q r t a b i
      = a * (p * qf p q r t (a - 1) b (i - 1) + q * qf p q r t (a - 1) b i)
        + b * (r * qf p q r t a (b - 1) (i - 1) + t * qf p q r t a (b - 1) i) := by
  have h1 : (a : R) * qf p q r t a b i
      = a * (p * qf p q r t (a - 1) b (i - 1) + q * qf p q r t (a - 1) b i) := by
    rcases a with _ | a
    · simp
    · rw [Nat.add_sub_cancel, qf_succ_left]
  have h2 : (b : R) * qf p q r t a b i
      = b * (r * qf p q r t a (b - 1) (i - 1) + t * qf p q r t a (b - 1) i) := by
    rcases b with _ | b
    · simp
    · rw [Nat.add_sub_cancel, qf_succ_right]
  rw [add_mul, h1, h2]

/-- Three-term recursion in the index. -/
theorem qf_three (a b : ℕ) (i : ℤ) :
    q * t * (i + 1 : ℤ) * qf p q r t a b (i + 1)
      = (a * p * t + b * q * r - (p * t + q * r) * i) * qf p q r t a b i
        + p * r * ((a : R) + b - i + 1) * qf p q r t a b (i - 1) := by
  induction a generalizing i with
  | zero =>
    have hb : ∀ i : ℤ, t * ((i + 1 : ℤ) : R) * qf p q r t 0 b (i + 1)
        = (b - i) * r * qf p q r t 0 b i := by
      induction b with
      | zero =>
        intro i
        by_cases h : i = 0
        · subst h; simp
        · by_cases h' : i = -1
          · subst h'; simp
          · simp [h, show i + 1 ≠ 0 by omega]
      | succ b ih =>
        intro i
        rw [qf_succ_right, qf_succ_right]
        have h1 := ih i
        have h2 := ih (i - 1)
        rw [show i + 1 - 1 = i by ring]
        rw [show i - 1 + 1 = i by ring] at h2
        push_cast at h1 h2 ⊢
        linear_combination t * h1 + r * h2
    have h1 := hb i
    have h2 := hb (i - 1)
    rw [show i - 1 + 1 = i by ring] at h2
    push_cast at h1 h2 ⊢
    linear_combination q * h1 + p * h2
  | succ a ih =>
    rw [qf_succ_left, qf_succ_left, qf_succ_left]
    have h1 := ih i
    have h2 := ih (i - 1)
    rw [show i + 1 - 1 = i by ring]
    rw [show i - 1 + 1 = i by ring] at h2
    push_cast at h1 h2 ⊢
    linear_combination q * h1 + p * h2

/-- Scaling the two linear factors. -/
theorem qf_smul (x y : R) (a b : ℕ) (i : ℤ) :
    qf (x * p) (x * q) (y * r) (y * t) a b i = x ^ a * y ^ b * qf p q r t a b i := by
  induction a generalizing i with
  | zero =>
    induction b generalizing i with
    | zero => simp
    | succ b ih => rw [qf_succ_right, qf_succ_right, ih, ih]; ring
  | succ a ih => rw [qf_succ_left, qf_succ_left, ih, ih]; ring

/-- Swapping the two factors. -/
theorem qf_swap (a b : ℕ) (i : ℤ) : qf p q r t a b i = qf r t p q b a i := by
  induction a generalizing i with
  | zero =>
    induction b generalizing i with
    | zero => simp
    | succ b ih => rw [qf_succ_right, qf_succ_left, ih, ih]
  | succ a ih => rw [qf_succ_left, qf_succ_right, ih, ih]

/-- Reversing the coefficients. -/
theorem qf_reverse (a b : ℕ) (i : ℤ) :
    qf p q r t a b (a + b - i) = qf q p t r a b i := by
  induction a generalizing i with
  | zero =>
    induction b generalizing i with
    | zero => simp
    | succ b ih =>
      rw [qf_succ_right, qf_succ_right, ← ih, ← ih]
      push_cast; ring_nf
  | succ a ih =>
    rw [qf_succ_left, qf_succ_left, ← ih, ← ih]
    push_cast; ring_nf

/-- `x → u x`. -/
theorem qf_scale (u : Rˣ) (a b : ℕ) (i : ℤ) :
    qf (u * p) q (u * r) t a b i = ((u ^ i : Rˣ) : R) * qf p q r t a b i := by
  have hz : ∀ i : ℤ, ((u ^ i : Rˣ) : R) = u * ((u ^ (i - 1) : Rˣ) : R) := by
    intro i
    rw [← Units.val_mul, ← zpow_one_add]; congr 2; ring
  induction a generalizing i with
  | zero =>
    induction b generalizing i with
    | zero =>
      by_cases h : i = 0
      · subst h; simp
      · simp [h]
    | succ b ih =>
      rw [qf_succ_right, qf_succ_right, ih, ih]; conv_rhs => rw [mul_add]
      rw [hz i]; ring
  | succ a ih =>
    rw [qf_succ_left, qf_succ_left, ih, ih]; conv_rhs => rw [mul_add]
    rw [hz i]; ring

theorem qf_map {S : Type*} [CommRing S] (φ : R →+* S) (a b : ℕ) (i : ℤ) :
    φ (qf p q r t a b i) = qf (φ p) (φ q) (φ r) (φ t) a b i := by
  induction a generalizing i with
  | zero =>
    induction b generalizing i with
    | zero => simp only [qf_zero]; split_ifs <;> simp
    | succ b ih => rw [qf_succ_right, qf_succ_right, map_add, map_mul, map_mul, ih, ih]
  | succ a ih => rw [qf_succ_left, qf_succ_left, map_add, map_mul, map_mul, ih, ih]

/-- A diagonal form. -/
theorem qf_diag (a b : ℕ) (i : ℤ) :
    qf p 0 0 t a b i = if i = a then p ^ a * t ^ b else 0 := by
  induction a generalizing i with
  | zero =>
    induction b generalizing i with
    | zero => simp
    | succ b ih =>
      rw [qf_succ_right, ih, ih, zero_mul, zero_add]
      split_ifs
      · ring
      · ring
  | succ a ih =>
    rw [qf_succ_left, ih, ih, zero_mul, add_zero]
    push_cast
    by_cases h : i = a + 1
    · rw [if_pos (by omega), if_pos h]; ring
    · rw [if_neg (by omega), if_neg h, mul_zero]

end

/-! ## Explicit formula -/

/-- Coefficient of `x^i` in `(r x + t)^b`. -/
theorem qf_pow {R : Type*} [CommRing R] (p q r t : R) (b : ℕ) (i : ℤ) :
    qf p q r t 0 b i = if 0 ≤ i ∧ i ≤ b then (b.choose i.toNat : R) * r ^ i.toNat * t ^ (b - i.toNat)
      else 0 := by
  induction b generalizing i with
  | zero =>
    by_cases h : i = 0
    · subst h; simp
    · rw [qf_zero, if_neg h, if_neg (by push_cast; omega)]
  | succ b ih =>
    rw [qf_succ_right, ih, ih]
    push_cast
    by_cases h0 : 0 ≤ i
    · obtain ⟨n, rfl⟩ := Int.eq_ofNat_of_zero_le h0
      rcases n with _ | n
      · rw [if_neg (by omega), if_pos (by omega), if_pos (by omega)]
        simp [pow_succ]; ring
      · rw [show ((n + 1 : ℕ) : ℤ) - 1 = n by push_cast; ring]
        simp only [Int.toNat_natCast]
        rcases lt_trichotomy n b with h | h | h
        · rw [if_pos (by omega), if_pos (by push_cast; omega), if_pos (by push_cast; omega),
            Nat.choose_succ_succ, show b - n = (b - (n + 1)) + 1 by omega,
            show b + 1 - (n + 1) = (b - (n + 1)) + 1 by omega]
          push_cast; ring
        · subst h
          rw [if_pos (by omega), if_neg (by push_cast; omega), if_pos (by push_cast; omega)]
          simp [pow_succ]; ring
        · rw [if_neg (by omega), if_neg (by push_cast; omega), if_neg (by push_cast; omega)]
          ring
    · rw [if_neg (by omega), if_neg (by omega), if_neg (by omega)]; ring

/-- Binomial expansion of the first factor. -/
theorem qf_explicit {R : Type*} [CommRing R] (p q r t : R) (a b : ℕ) (i : ℤ) :
    qf p q r t a b i = ∑ s ∈ Finset.range (a + 1),
      (a.choose s : R) * p ^ (a - s) * q ^ s * qf p q r t 0 b (i - (a - s : ℤ)) := by
  induction a generalizing i with
  | zero => simp
  | succ a ih =>
    rw [qf_succ_left, ih, ih, Finset.mul_sum, Finset.mul_sum]
    conv_rhs => rw [Finset.sum_range_succ']
    have e1 : ∑ s ∈ Finset.range (a + 1), p * ((a.choose s : R) * p ^ (a - s) * q ^ s *
          qf p q r t 0 b (i - 1 - (a - s : ℤ)))
        = p ^ (a + 1) * qf p q r t 0 b (i - (a + 1 : ℤ)) +
          ∑ s ∈ Finset.range (a + 1), (a.choose (s + 1) : R) * p ^ (a - s) * q ^ (s + 1) *
          qf p q r t 0 b (i - (a - s : ℤ)) := by
      rw [Finset.sum_range_succ', Finset.sum_range_succ, Nat.choose_succ_self]
      simp only [Nat.choose_zero_right, Nat.cast_one, Nat.cast_zero, pow_zero, Nat.sub_zero,
        mul_one, zero_mul, add_zero, one_mul, sub_zero]
      rw [add_comm]
      congr 1
      · rw [← mul_assoc, ← pow_succ']; congr 2; ring
      · apply Finset.sum_congr rfl; intro s hs
        rw [Finset.mem_range] at hs
        rw [show a - s = (a - (s + 1)) + 1 by omega, pow_succ p]
        rw [show i - 1 - ((a : ℤ) - ((s + 1 : ℕ) : ℤ)) = i - (a - s) by push_cast; ring]
        ring
    rw [e1]
    simp only [Nat.choose_succ_succ, Nat.choose_zero_right, Nat.cast_one, Nat.cast_zero, pow_zero,
      Nat.sub_zero, mul_one, one_mul, sub_zero, Nat.cast_add, Nat.add_sub_add_right]
    rw [add_assoc, add_comm, ← Finset.sum_add_distrib]
    congr 1
    apply Finset.sum_congr rfl; intro s _
    rw [show i - ((a : ℤ) + 1 - ((s : ℤ) + 1)) = i - (a - s) by ring, pow_succ]
    ring

end S2fft
