import Mathlib.NumberTheory.Transcendental.Lindemann.AnalyticalPart
import Mathlib.RingTheory.Algebraic.Basic
import Mathlib.Analysis.SpecialFunctions.Trigonometric.Basic
import Mathlib.Topology.Algebra.Order.Floor
import Mathlib.Tactic
/-! `exp (i q)` is transcendental for every rational `q ≠ 0` (Hermite and Lindemann), from the
analytic part of the theorem of Lindemann and Weierstrass in Mathlib. -/
open Finset Polynomial Complex
open scoped Nat
namespace S2fft

/-- A real part of an integer polynomial at an imaginary rational, times a power of the
denominator, is an integer. -/
theorem re_aeval_imag (g : ℤ[X]) (j N D : ℤ) (hD : D ≠ 0) {M : ℕ} (hM : g.natDegree ≤ M) :
    ∃ z : ℤ, (D : ℝ) ^ M * (aeval ((j * (N / D : ℝ) : ℝ) * I : ℂ) g).re = z := by
  have hD' : (D : ℝ) ≠ 0 := by exact_mod_cast hD
  have hI : ∀ k : ℕ, ∃ w : ℤ, (I ^ k).re = w := by
    intro k
    have : k = 4 * (k / 4) + k % 4 := by omega
    rw [this, pow_add, pow_mul, I_pow_four, one_pow, one_mul]
    have h4 : k % 4 < 4 := by omega
    interval_cases k % 4
    · exact ⟨1, by simp⟩
    · exact ⟨0, by simp⟩
    · exact ⟨-1, by simp⟩
    · exact ⟨0, by simp [I_pow_three]⟩
  choose w hw using hI
  refine ⟨∑ k ∈ range (M + 1), g.coeff k * (D ^ (M - k) * (j * N) ^ k * w k), ?_⟩
  rw [aeval_eq_sum_range' (lt_of_le_of_lt hM (Nat.lt_succ_self M)), Complex.re_sum, mul_sum,
    Int.cast_sum]
  refine sum_congr rfl fun k hk => ?_
  have hk' : k ≤ M := by have := mem_range.mp hk; omega
  rw [mul_pow, ← ofReal_pow, zsmul_eq_mul, ← mul_assoc, ← ofReal_intCast, ← ofReal_mul,
    re_ofReal_mul, hw]
  push_cast
  have e : (D : ℝ) ^ M = D ^ (M - k) * D ^ k := by rw [← pow_add]; congr 1; omega
  rw [e, mul_div_assoc', div_pow]
  field_simp

/-- Cosines of multiples of a rational angle: a linear relation with integer coefficients has no
constant term. -/
theorem cos_relation {q : ℚ} (hq : q ≠ 0) (n : ℕ) (a : ℕ → ℤ) (h0 : a 0 ≠ 0) :
    ∑ j ∈ range (n + 1), (a j : ℝ) * Real.cos (j * q) ≠ 0 := by
  intro hsum
  set N : ℤ := q.num with hN
  set D : ℤ := (q.den : ℤ) with hDdef
  have hD : D ≠ 0 := by simp [hDdef]
  have hN0 : N ≠ 0 := by simpa [hN] using hq
  have hqr : (q : ℝ) = N / D := by
    rw [hN, hDdef]; exact_mod_cast (Rat.num_div_den q).symm
  set f : ℤ[X] := ∏ j ∈ Icc 1 n, (C (D ^ 2) * X ^ 2 + C (((j : ℤ) * N) ^ 2)) with hf
  have hf0 : f.eval 0 ≠ 0 := by
    rw [hf, eval_prod, prod_ne_zero_iff]
    intro j hj
    have : j ≠ 0 := by have := (mem_Icc.mp hj).1; omega
    simp [this, hN0]
  have hfne : f ≠ 0 := fun h => hf0 (by rw [h]; simp)
  have hdeg : f.natDegree ≤ 2 * n := by
    rw [hf]
    refine (natDegree_prod_le _ _).trans ?_
    refine (sum_le_card_nsmul _ _ 2 fun j _ => ?_).trans (by simp [mul_comm])
    compute_degree
  have hroot : ∀ j ∈ Icc 1 n, ((j * (N / D : ℝ) : ℝ) * I : ℂ) ∈ f.aroots ℂ := by
    intro j hj
    rw [mem_aroots]
    refine ⟨hfne, ?_⟩
    rw [hf, map_prod]
    refine prod_eq_zero hj ?_
    have hDc : (D : ℂ) ≠ 0 := by exact_mod_cast hD
    simp only [map_add, map_mul, aeval_C, map_pow, aeval_X]
    push_cast
    rw [mul_pow, I_sq]
    simp only [algebraMap_int_eq, Int.coe_castRingHom]
    field_simp
    ring
  obtain ⟨c, hc⟩ := LindemannWeierstrass.exp_polynomial_approx f hf0
  set A : ℝ := ∑ j ∈ Icc 1 n, |(a j : ℝ)| with hA
  -- the bound tends to zero
  have hlim : Filter.Tendsto (fun p : ℕ =>
      A * (|c| * |(D : ℝ)| ^ (2 * n)) * ((|c| * |(D : ℝ)| ^ (2 * n)) ^ p / (p ! : ℝ)))
      Filter.atTop (nhds 0) := by
    have := (FloorSemiring.tendsto_pow_div_factorial_atTop (|c| * |(D : ℝ)| ^ (2 * n))).const_mul
      (A * (|c| * |(D : ℝ)| ^ (2 * n)))
    simpa using this
  obtain ⟨p0, hp0⟩ := Filter.eventually_atTop.mp (hlim.eventually_lt_const (zero_lt_one))
  obtain ⟨p, hpge, hp⟩ := Nat.exists_infinite_primes
    (p0 + (eval 0 f).natAbs + (a 0).natAbs + D.natAbs + 2)
  obtain ⟨m, hm, gp, hgdeg, hb⟩ := hc p (by omega) hp
  have hM : gp.natDegree ≤ 2 * n * p := by
    refine hgdeg.trans ((Nat.sub_le _ _).trans ?_)
    rw [mul_comm]; exact Nat.mul_le_mul_right _ hdeg
  choose z hz using fun j : ℕ => re_aeval_imag gp (j : ℤ) N D hD hM
  have hterm : ∀ j ∈ Icc 1 n, |(m : ℝ) * Real.cos (j * q) - p * (aeval ((j * (N / D : ℝ) : ℝ) * I : ℂ) gp).re| ≤
      |c| ^ p / ((p - 1)! : ℝ) := by
    intro j hj
    have h1 := hb (hroot j hj)
    have h2 := (abs_re_le_norm _).trans h1
    rw [zsmul_eq_mul, nsmul_eq_mul, sub_re, ← ofReal_intCast, ← ofReal_natCast, re_ofReal_mul,
      re_ofReal_mul, exp_ofReal_mul_I_re, ← hqr] at h2
    rw [← hqr]
    refine h2.trans (div_le_div_of_nonneg_right ((le_abs_self _).trans (by rw [abs_pow])) (by positivity))
  -- the integer
  set T : ℤ := m * D ^ (2 * n * p) * a 0 + p * ∑ j ∈ Icc 1 n, a j * z j with hT
  have hTne : T ≠ 0 := by
    intro h
    have hd : (p : ℤ) ∣ m * D ^ (2 * n * p) * a 0 := by
      have : m * D ^ (2 * n * p) * a 0 = p * (-∑ j ∈ Icc 1 n, a j * z j) := by
        rw [hT] at h; linarith
      exact ⟨_, this⟩
    have hpp : Prime (p : ℤ) := Nat.prime_iff_prime_int.mp hp
    have hsmall : ∀ x : ℤ, x ≠ 0 → x.natAbs < p → ¬ (p : ℤ) ∣ x := fun x hx hlt hdv => by
      have := Int.natAbs_dvd_natAbs.mpr hdv
      rw [Int.natAbs_natCast] at this
      exact absurd (Nat.le_of_dvd (Int.natAbs_pos.mpr hx) this) (by omega)
    rcases hpp.dvd_or_dvd hd with hd | hd
    · rcases hpp.dvd_or_dvd hd with hd | hd
      · exact hm hd
      · exact hsmall D hD (by omega) (hpp.dvd_of_dvd_pow hd)
    · exact hsmall (a 0) h0 (by omega) hd
  have hT1 : (1 : ℝ) ≤ |(T : ℝ)| := by
    rw [← Int.cast_abs]; exact_mod_cast Int.one_le_abs hTne
  have hsplit : (a 0 : ℝ) + ∑ j ∈ Icc 1 n, (a j : ℝ) * Real.cos (j * q) = 0 := by
    rw [← hsum, sum_range_succ', add_comm]
    congr 1
    · rw [← Finset.Ico_add_one_right_eq_Icc, Finset.sum_Ico_eq_sum_range]
      exact sum_congr rfl fun j _ => by rw [add_comm 1 j]
    · simp
  have hTe : (T : ℝ) = -((D : ℝ) ^ (2 * n * p) * ∑ j ∈ Icc 1 n, (a j : ℝ) *
      ((m : ℝ) * Real.cos (j * q) - p * (aeval ((j * (N / D : ℝ) : ℝ) * I : ℂ) gp).re)) := by
    have e1 : (D : ℝ) ^ (2 * n * p) * ∑ j ∈ Icc 1 n, (a j : ℝ) *
        ((m : ℝ) * Real.cos (j * q) - p * (aeval ((j * (N / D : ℝ) : ℝ) * I : ℂ) gp).re) =
        m * D ^ (2 * n * p) * ∑ j ∈ Icc 1 n, (a j : ℝ) * Real.cos (j * q) -
          p * ∑ j ∈ Icc 1 n, (a j : ℝ) * z j := by
      rw [mul_sum, mul_sum, mul_sum, ← sum_sub_distrib]
      refine sum_congr rfl fun j _ => ?_
      rw [← hz j]
      push_cast
      ring
    rw [e1, show (∑ j ∈ Icc 1 n, (a j : ℝ) * Real.cos (j * q)) = -(a 0 : ℝ) by linarith, hT]
    push_cast
    ring
  have hTb : |(T : ℝ)| ≤ |(D : ℝ)| ^ (2 * n * p) * (A * (|c| ^ p / ((p - 1)! : ℝ))) := by
    rw [hTe, abs_neg, abs_mul, abs_pow, hA, sum_mul]
    refine mul_le_mul_of_nonneg_left ((abs_sum_le_sum_abs _ _).trans (sum_le_sum fun j hj => ?_))
      (by positivity)
    rw [abs_mul]
    exact mul_le_mul_of_nonneg_left (hterm j hj) (abs_nonneg _)
  have hlast := hp0 (p - 1) (by omega)
  have e : A * (|c| * |(D : ℝ)| ^ (2 * n)) * ((|c| * |(D : ℝ)| ^ (2 * n)) ^ (p - 1) / ((p - 1)! : ℝ)) =
      |(D : ℝ)| ^ (2 * n * p) * (A * (|c| ^ p / ((p - 1)! : ℝ))) := by
    have hps : p = (p - 1) + 1 := by omega
    generalize p - 1 = r at hps ⊢
    subst hps
    rw [mul_pow, ← pow_mul, show 2 * n * (r + 1) = 2 * n * r + 2 * n by ring, pow_add, pow_succ]
    ring
  rw [e] at hlast
  linarith

/-- Hermite and Lindemann, for an imaginary rational exponent. -/
theorem exp_rat_I_transcendental {q : ℚ} (hq : q ≠ 0) :
    Transcendental ℤ (Complex.exp ((q : ℝ) * I)) := by
  rw [transcendental_iff]
  intro P hP
  by_contra hne
  set n := P.natDegree with hn
  set S := range (n + 1) with hS
  have hsq : ∑ k ∈ S, ∑ l ∈ S, (P.coeff k : ℝ) * P.coeff l *
      Real.cos (((k : ℤ) - (l : ℤ)).natAbs * q) = 0 := by
    have h1 : ∑ k ∈ S, (P.coeff k : ℂ) * Complex.exp ((k * q : ℝ) * I) = 0 := by
      rw [aeval_eq_sum_range] at hP
      rw [← hP]
      refine sum_congr rfl fun k _ => ?_
      rw [zsmul_eq_mul, ← Complex.exp_nat_mul]
      congr 2
      push_cast; ring
    have h2 : ∑ l ∈ S, (P.coeff l : ℂ) * Complex.exp (-((l * q : ℝ) * I)) = 0 := by
      have := congrArg (starRingEnd ℂ) h1
      rw [map_sum, map_zero] at this
      rw [← this]
      refine sum_congr rfl fun l _ => ?_
      rw [map_mul, ← Complex.exp_conj, map_mul, conj_ofReal, conj_I, map_intCast, mul_neg]
    have h3 : ∑ k ∈ S, ∑ l ∈ S, ((P.coeff k : ℂ) * Complex.exp ((k * q : ℝ) * I)) *
        ((P.coeff l : ℂ) * Complex.exp (-((l * q : ℝ) * I))) = 0 := by
      rw [← sum_mul_sum, h1, zero_mul]
    have h4 := congrArg Complex.re h3
    rw [Complex.re_sum, zero_re] at h4
    rw [← h4]
    refine sum_congr rfl fun k _ => ?_
    rw [Complex.re_sum]
    refine sum_congr rfl fun l _ => ?_
    rw [show (P.coeff k : ℂ) * Complex.exp ((k * q : ℝ) * I) *
        ((P.coeff l : ℂ) * Complex.exp (-((l * q : ℝ) * I))) =
        ((P.coeff k * P.coeff l : ℝ) : ℂ) * Complex.exp ((((k : ℝ) - l) * q : ℝ) * I) by
      rw [mul_mul_mul_comm, ← Complex.exp_add]
      push_cast
      congr 2
      ring, re_ofReal_mul, exp_ofReal_mul_I_re]
    congr 1
    rw [← Real.cos_abs (((k : ℝ) - l) * q), abs_mul, ← Real.cos_abs (_ * (q : ℝ)), abs_mul]
    congr 2
    rw [← Int.cast_natCast (R := ℝ), Int.natCast_natAbs, Int.cast_abs, abs_abs]
    push_cast
    rfl
  set a : ℕ → ℤ := fun j => ∑ x ∈ (S ×ˢ S).filter (fun x => ((x.1 : ℤ) - (x.2 : ℤ)).natAbs = j),
    P.coeff x.1 * P.coeff x.2 with ha
  have ha0 : a 0 ≠ 0 := by
    have : a 0 = ∑ k ∈ S, P.coeff k ^ 2 := by
      rw [ha]
      refine sum_nbij' (fun x => x.1) (fun k => (k, k)) ?_ ?_ ?_ ?_ ?_
      · intro x hx
        exact (mem_product.mp (mem_filter.mp hx).1).1
      · intro k hk
        simp [hk]
      · rintro ⟨x, y⟩ hx
        have := (mem_filter.mp hx).2
        simp only [Int.natAbs_eq_zero] at this
        ext <;> simp; omega
      · intro k _; rfl
      · rintro ⟨x, y⟩ hx
        have := (mem_filter.mp hx).2
        simp only [Int.natAbs_eq_zero] at this
        have : x = y := by omega
        subst this; ring
    rw [this]
    refine ne_of_gt (lt_of_lt_of_le ?_ (single_le_sum (f := fun k => P.coeff k ^ 2)
      (fun k _ => sq_nonneg _) (mem_range.mpr (Nat.lt_succ_self n) : n ∈ S)))
    have : P.coeff n ≠ 0 := by rw [hn, coeff_natDegree]; exact leadingCoeff_ne_zero.mpr hne
    positivity
  refine cos_relation hq n a ha0 ?_
  rw [← hsq, ← sum_product', ← sum_fiberwise_of_maps_to (s := S ×ˢ S) (t := range (n + 1))
    (g := fun x => ((x.1 : ℤ) - (x.2 : ℤ)).natAbs)]
  · refine sum_congr rfl fun j _ => ?_
    rw [ha]
    push_cast
    rw [sum_mul]
    refine sum_congr rfl fun x hx => ?_
    rw [(mem_filter.mp hx).2]
  · intro x hx
    have h1 := mem_range.mp (mem_product.mp hx).1
    have h2 := mem_range.mp (mem_product.mp hx).2
    simp only [mem_range]
    omega

end S2fft
