import Verif.Lemmas.Legendre
import Verif.Lemmas.Quadrature
import Mathlib.Analysis.SpecialFunctions.Trigonometric.Chebyshev.Basic
import Mathlib.RingTheory.Polynomial.Chebyshev

/-! # The Gauss–Legendre weights of the code -/

namespace S2fft
open Spec Polynomial

/-- `∫_0^π p(cos θ) sin θ dθ = ∫_{-1}^1 p`. -/
theorem integral_cos_sub (p : ℝ[X]) :
    ∫ θ in (0 : ℝ)..Real.pi, p.eval (Real.cos θ) * Real.sin θ = ∫ x in (-1 : ℝ)..1, p.eval x := by
  have h := intervalIntegral.integral_comp_mul_deriv (a := 0) (b := Real.pi) (f := Real.cos)
    (f' := fun θ => -Real.sin θ) (g := fun x => p.eval x)
    (fun x _ => Real.hasDerivAt_cos x) (by fun_prop) p.continuous
  rw [Real.cos_zero, Real.cos_pi, intervalIntegral.integral_symm (-1) 1] at h
  have h2 : ∫ θ in (0 : ℝ)..Real.pi, ((fun x => p.eval x) ∘ Real.cos) θ * -Real.sin θ
      = - ∫ θ in (0 : ℝ)..Real.pi, p.eval (Real.cos θ) * Real.sin θ := by
    rw [← intervalIntegral.integral_neg]
    congr 1; ext θ; simp
  linarith

/-- An even trigonometric polynomial is a Chebyshev sum in `cos θ`. -/
theorem trigPoly_even {K : ℤ} {c : ℤ → ℂ} (hc : ∀ k, c (-k) = c k) (θ : ℝ) :
    trigPoly K c θ = ∑ k ∈ Finset.Ioo (-K) K,
      c k * (((Chebyshev.T ℝ k).eval (Real.cos θ) : ℝ) : ℂ) := by
  have h1 : trigPoly K c θ = ∑ k ∈ Finset.Ioo (-K) K, c k * cis (-(k * θ)) := by
    unfold trigPoly
    rw [← sum_Ioo_neg]
    apply Finset.sum_congr rfl; intro k _
    rw [hc]; congr 2; push_cast; ring
  have h2 : trigPoly K c θ
      = ∑ k ∈ Finset.Ioo (-K) K, (c k * cis (k * θ) + c k * cis (-(k * θ))) / 2 := by
    rw [← Finset.sum_div, Finset.sum_add_distrib, ← h1]
    change _ = (trigPoly K c θ + trigPoly K c θ) / 2
    ring
  rw [h2]
  apply Finset.sum_congr rfl; intro k _
  rw [← mul_add, cos_cis, Chebyshev.T_real_cos]
  push_cast; ring

/-- Gauss–Legendre rule for even trigonometric polynomials of degree `< 2 L`. -/
theorem gauss_trig (n : ℕ) (x θ : ℤ → ℝ) (hθ : ∀ t : ℤ, 0 ≤ t → t < n + 1 → Real.cos (θ t) = x t)
    (hx : ∀ s t : ℤ, 0 ≤ s → s < n + 1 → 0 ≤ t → t < n + 1 → x s = x t → s = t)
    (hr : ∀ t : ℤ, 0 ≤ t → t < n + 1 → (Legendre.P (n + 1)).eval (x t) = 0)
    (c : ℤ → ℂ) (hc : ∀ k, c (-k) = c k) :
    ∑ t ∈ Finset.Ico (0 : ℤ) (n + 1), ((2 / ((1 - x t ^ 2) *
        (derivative (Legendre.P (n + 1))).eval (x t) ^ 2) : ℝ) : ℂ) *
        trigPoly (2 * (n + 1)) c (θ t)
      = ∫ θ in (0 : ℝ)..Real.pi, trigPoly (2 * (n + 1)) c θ * (Real.sin θ : ℂ) := by
  have hcard : (Finset.Ico (0 : ℤ) (n + 1)).card = n + 1 := by simp
  have hg := fun p hp => Legendre.gauss n (Finset.Ico (0 : ℤ) (n + 1)) x (by
      intro s hs t ht h
      simp only [Finset.coe_Ico, Set.mem_Ico] at hs ht
      exact hx s t hs.1 hs.2 ht.1 ht.2 h) hcard (by
      intro t ht
      rw [Finset.mem_Ico] at ht
      exact hr t ht.1 ht.2) p hp
  simp only [trigPoly_even hc, Finset.sum_mul]
  rw [intervalIntegral.integral_finset_sum]
  · simp only [Finset.mul_sum]
    rw [Finset.sum_comm]
    apply Finset.sum_congr rfl; intro k hk
    rw [Finset.mem_Ioo] at hk
    have h1 := hg (Chebyshev.T ℝ k) (by
      rw [Chebyshev.degree_T]
      exact_mod_cast (show k.natAbs < 2 * (n + 1) by omega))
    rw [← integral_cos_sub] at h1
    have h2 : ∫ θ in (0 : ℝ)..Real.pi, c k * (((Chebyshev.T ℝ k).eval (Real.cos θ) : ℝ) : ℂ) *
        (Real.sin θ : ℂ) = c k * ((∫ θ in (0 : ℝ)..Real.pi, (Chebyshev.T ℝ k).eval (Real.cos θ) *
          Real.sin θ : ℝ) : ℂ) := by
      simp only [mul_assoc]
      rw [intervalIntegral.integral_const_mul, ← intervalIntegral.integral_ofReal]
      congr 2; ext θ; push_cast; ring
    rw [h2, h1, Complex.ofReal_sum, Finset.mul_sum]
    apply Finset.sum_congr rfl; intro t ht
    rw [Finset.mem_Ico] at ht
    rw [hθ t ht.1 ht.2, Complex.ofReal_mul]
    ring
  · intro k _
    apply Continuous.intervalIntegrable
    have := (Chebyshev.T ℝ k).continuous
    fun_prop

theorem gl_p_eq (n : ℕ) (z : ℝ) :
    gl_p (n + 1) z = ((Legendre.P (n + 1)).eval z, (Legendre.P n).eval z) := by
  unfold gl_p
  have := forRange_ind (lo := 1) (hi := (n : ℤ) + 1 + 1) (by omega) (fun (j : ℤ) (p : ℝ × ℝ) =>
    (((2 * (j : ℝ) - 1) * z * p.1 - ((j : ℝ) - 1) * p.2) / j, p.1)) (1, 0)
    (fun j p => p.1 = (Legendre.P (j - 1).toNat).eval z ∧
      (1 < j → p.2 = (Legendre.P ((j - 1).toNat - 1)).eval z)) (by simp [Legendre.P]) (by
      rintro j ⟨p1, p2⟩ hj _ ⟨h1, h2⟩
      obtain ⟨k, rfl⟩ : ∃ k : ℕ, j = k + 1 := ⟨(j - 1).toNat, by omega⟩
      simp only [add_sub_cancel_right, Int.toNat_natCast] at h1 h2 ⊢
      rw [show ((k : ℤ) + 1).toNat = k + 1 by omega, Nat.add_sub_cancel]
      refine ⟨?_, fun _ => h1⟩
      have e : (k : ℝ) + 1 ≠ 0 := by positivity
      have r := congrArg (eval z) (Legendre.rec_one k)
      simp only [eval_mul, eval_sub, eval_C, eval_X] at r
      push_cast
      rw [div_eq_iff e, mul_comm (eval z _) ((k : ℝ) + 1), r, h1]
      rcases Nat.eq_zero_or_pos k with rfl | hk
      · simp; left; ring
      · rw [h2 (by omega)]; ring)
  simp only [add_sub_cancel_right] at this
  rw [show ((n : ℤ) + 1).toNat = n + 1 by omega, Nat.add_sub_cancel] at this
  exact Prod.ext this.1 (this.2 (by omega))

theorem gl_pp_eq (n : ℕ) (z : ℝ) (hz : 1 - z ^ 2 ≠ 0) :
    gl_pp (n + 1) z = (derivative (Legendre.P (n + 1))).eval z := by
  have r := congrArg (eval z) (Legendre.deriv_rel n)
  simp only [eval_mul, eval_sub, eval_C, eval_X, eval_pow, eval_one] at r
  have hz' : z * z - 1 ≠ 0 := by
    intro h; apply hz; linarith
  rw [gl_pp, gl_p_eq, div_eq_iff hz']
  push_cast
  linarith

/-- The array of weights: the value computed for node `i` is stored at `i - 1` and `L - i`. -/
theorem quad_weights_gl_get {L : ℤ} (hL : 1 ≤ L) (n : ℕ) (t : ℤ) (h0 : 0 ≤ t) (h1 : t < L) :
    quad_weights_gl L n t =
      2 / ((1 - gl_z L (min (t + 1) (L - t)) n ^ 2) *
        gl_pp L (gl_z L (min (t + 1) (L - t)) (n - 1)) ^ 2) * 2 * Real.pi / (2 * (L : ℝ) - 1) := by
  unfold quad_weights_gl
  simp only
  congr 3
  set v : ℤ → ℝ := fun i => 2 * (0.5 * (1 - -1)) / ((1 - gl_z L i n ^ 2) *
    gl_pp L (gl_z L i (n - 1)) * gl_pp L (gl_z L i (n - 1))) with hv
  have hvt : ∀ i, v i = 2 / ((1 - gl_z L i n ^ 2) * gl_pp L (gl_z L i (n - 1)) ^ 2) := by
    intro i; rw [hv]; simp only; rw [mul_assoc, ← sq (gl_pp _ _)]; norm_num
  have first : ∀ j, 0 ≤ j → j < gl_m L → forRange 1 (gl_m L + 1)
      (fun i w => set1 w (i - 1) (v i)) (0 : ℤ → ℝ) j = v (j + 1) := by
    intro j a b
    refine forRange_write _ _ _ _ (fun g : ℤ → ℝ => g j) (j + 1) _ (by omega) (by omega) ?_ ?_
    · intro s; simp [set1]
    · intro i s _ _ h; exact set1_ne _ _ (by omega)
  rw [← hvt]
  have hm : gl_m L = (L + 1) / 2 := rfl
  by_cases h : t < L - gl_m L
  · refine (forRange_frame _ _ _ _ (fun g : ℤ → ℝ => g t) ?_).trans ?_
    · intro i s _ _; exact set1_ne _ _ (by omega)
    · rw [first t h0 (by omega), min_eq_left (by omega)]
  · refine (forRange_write _ _ _ _ (fun g : ℤ → ℝ => g t) (L - t) (v (L - t)) (by omega) (by omega)
      ?_ ?_).trans ?_
    · intro s
      rw [first (L - t - 1) (by omega) (by omega)]
      simp only [set1]
      rw [if_pos (by ring), sub_add_cancel]
    · intro i s _ _ h; exact set1_ne _ _ (by omega)
    · congr 1
      rcases lt_or_ge (t + 1) (L - t) with h2 | h2
      · omega
      · rw [min_eq_right h2]

theorem legendre_parity (n : ℕ) (x : ℝ) :
    (Legendre.P n).eval (-x) = (-1) ^ n * (Legendre.P n).eval x := by
  induction n using Nat.strong_induction_on with
  | _ n ih =>
    match n with
    | 0 => simp [Legendre.P]
    | 1 => simp [Legendre.P]
    | n + 2 =>
      have h1 := ih (n + 1) (by omega)
      have h0 := ih n (by omega)
      simp only [Legendre.P, eval_mul, eval_sub, eval_C, eval_X, h1, h0]
      ring

theorem legendre_comp_neg (n : ℕ) : (Legendre.P n).comp (-X) = C ((-1) ^ n) * Legendre.P n := by
  apply Polynomial.funext
  intro x
  rw [eval_comp, eval_neg, eval_X, legendre_parity, eval_mul, eval_C]

theorem legendre_deriv_sq (n : ℕ) (x : ℝ) :
    (derivative (Legendre.P n)).eval (-x) ^ 2 = (derivative (Legendre.P n)).eval x ^ 2 := by
  have h := congrArg (fun p => (derivative p).eval x) (legendre_comp_neg n)
  simp only [derivative_comp, derivative_neg, derivative_X, eval_mul, eval_neg, eval_one, eval_comp,
    eval_X, derivative_mul, derivative_C, zero_mul, zero_add, eval_C] at h
  have h2 : ((-1 : ℝ) ^ n) ^ 2 = 1 := by rw [← pow_mul, mul_comm, pow_mul]; simp
  calc (derivative (Legendre.P n)).eval (-x) ^ 2
      = (-1 * (derivative (Legendre.P n)).eval (-x)) ^ 2 := by ring
    _ = ((-1 : ℝ) ^ n) ^ 2 * (derivative (Legendre.P n)).eval x ^ 2 := by rw [h]; ring
    _ = _ := by rw [h2, one_mul]

theorem legendre_mono (n : ℕ) (x : ℝ) (hx : 1 ≤ x) :
    1 ≤ (Legendre.P n).eval x ∧ (Legendre.P n).eval x ≤ (Legendre.P (n + 1)).eval x := by
  induction n with
  | zero => simp [Legendre.P, hx]
  | succ n ih =>
    obtain ⟨a, b⟩ := ih
    refine ⟨a.trans b, ?_⟩
    have r := congrArg (eval x) (Legendre.rec n)
    simp only [eval_mul, eval_sub, eval_C, eval_X] at r
    have hn : (0 : ℝ) < n + 2 := by positivity
    have hn0 : (0 : ℝ) ≤ n := by positivity
    have h1 : (2 * (n : ℝ) + 3) * 1 * (Legendre.P (n + 1)).eval x
        ≤ (2 * (n : ℝ) + 3) * x * (Legendre.P (n + 1)).eval x := by
      apply mul_le_mul_of_nonneg_right _ (by linarith)
      apply mul_le_mul_of_nonneg_left hx (by positivity)
    have h2 : ((n : ℝ) + 1) * (Legendre.P n).eval x ≤ (n + 1) * (Legendre.P (n + 1)).eval x :=
      mul_le_mul_of_nonneg_left b (by positivity)
    nlinarith

/-- Roots of Legendre polynomials lie in `(-1, 1)`. -/
theorem legendre_root_abs (n : ℕ) (x : ℝ) (h : (Legendre.P n).eval x = 0) : -1 < x ∧ x < 1 := by
  constructor
  · by_contra hx
    have h1 := legendre_mono n (-x) (by linarith)
    rw [legendre_parity, h] at h1
    linarith [h1.1]
  · by_contra hx
    have h1 := legendre_mono n x (by linarith)
    linarith [h1.1]

/-- The increasing enumeration of the roots is antisymmetric. -/
theorem legendre_nodes_symm (n : ℕ) (x : ℤ → ℝ)
    (hmono : ∀ i j : ℤ, 0 ≤ i → i < j → j < n + 1 → x i < x j)
    (hroot : ∀ i : ℤ, 0 ≤ i → i < n + 1 → (Legendre.P (n + 1)).eval (x i) = 0)
    (i : ℤ) (h0 : 0 ≤ i) (h1 : i < n + 1) : x (n - i) = - x i := by
  let f : Fin (n + 1) → ℝ := fun k => x (k : ℕ)
  let g : Fin (n + 1) → ℝ := fun k => - x (n - (k : ℕ))
  have hf : StrictMono f := by
    intro a b hab
    exact hmono _ _ (by omega) (by exact_mod_cast hab) (by have := b.2; omega)
  have hg : StrictMono g := by
    intro a b hab
    have hab' : (a : ℕ) < (b : ℕ) := hab
    have := hmono (n - (b : ℕ)) (n - (a : ℕ)) (by have := b.2; omega) (by omega)
      (by have := a.2; omega)
    simp only [g]; linarith
  have hsub : ∀ h : Fin (n + 1) → ℝ, StrictMono h → (∀ k, (Legendre.P (n + 1)).eval (h k) = 0) →
      Set.range h = ((Legendre.P (n + 1)).roots.toFinset : Set ℝ) := by
    intro h hh hr
    have e : (Finset.univ.image h) = (Legendre.P (n + 1)).roots.toFinset := by
      apply Finset.eq_of_subset_of_card_le
      · intro y hy
        rw [Finset.mem_image] at hy
        obtain ⟨k, _, rfl⟩ := hy
        rw [Multiset.mem_toFinset, mem_roots (Legendre.P_ne_zero _)]
        exact hr k
      · rw [Finset.card_image_of_injective _ hh.injective, Finset.card_univ, Fintype.card_fin]
        refine (Multiset.toFinset_card_le _).trans ((card_roots' _).trans ?_)
        rw [Legendre.P_natDegree]
    rw [← e]; simp
  have hfr := hsub f hf (fun k => hroot _ (by omega) (by have := k.2; omega))
  have hgr := hsub g hg (fun k => by
    simp only [g]
    rw [legendre_parity, hroot _ (by have := k.2; omega) (by omega), mul_zero])
  have hfg : f = g := (hf.range_inj hg).1 (hfr.trans hgr.symm)
  have := congrFun hfg ⟨i.toNat, by omega⟩
  simp only [f, g] at this
  rw [show ((i.toNat : ℕ) : ℤ) = i by omega] at this
  linarith

theorem gl_first_pass {L : ℤ} (hL : 1 ≤ L) : gl_continue L 0 := by
  refine ⟨1, le_rfl, by unfold gl_m; omega, ?_⟩
  simp only [gl_z, gl_z1]
  have h := Real.cos_le_one (Real.pi * (((1 : ℤ) : ℝ) - 0.25) / ((L : ℝ) + 0.5))
  rw [abs_sub_comm, abs_of_nonneg (by linarith)]
  have : (1e-14 : ℝ) < 1 := by norm_num
  linarith

section nodes
variable (N : ℕ) (x : ℤ → ℝ) (hmono : ∀ i j : ℤ, 0 ≤ i → i < j → j < N + 1 → x i < x j)
  (hroot : ∀ i : ℤ, 0 ≤ i → i < N + 1 → (Legendre.P (N + 1)).eval (x i) = 0)
include hmono hroot

omit hroot in
theorem nodes_inj (s t : ℤ) (a : 0 ≤ s) (b : s < N + 1) (c : 0 ≤ t) (d : t < N + 1)
    (h : x s = x t) : s = t := by
  by_contra hne
  rcases lt_or_gt_of_ne hne with h1 | h1
  · exact absurd h (hmono _ _ (by omega) (by omega) (by omega)).ne
  · exact absurd h (hmono _ _ (by omega) (by omega) (by omega)).ne'

theorem gl_node_ne (i : ℤ) (a : 0 ≤ i) (b : i < N + 1) :
    1 - x i ^ 2 ≠ 0 ∧ (derivative (Legendre.P (N + 1))).eval (x i) ≠ 0 := by
  have := Legendre.gauss_weight N (Finset.Ico (0 : ℤ) (N + 1)) x (by
      intro s hs t ht h
      simp only [Finset.coe_Ico, Set.mem_Ico] at hs ht
      exact nodes_inj N x hmono s t hs.1 hs.2 ht.1 ht.2 h) (by simp) (by
      intro t ht; rw [Finset.mem_Ico] at ht; exact hroot t ht.1 ht.2) i (by simp; omega)
  exact ⟨this.1, this.2.1⟩

/-- Storing each weight at both mirror indices is right. -/
theorem gl_weight_fold (t : ℤ) (a : 0 ≤ t) (b : t < N + 1) :
    2 / ((1 - x (N + 1 - min (t + 1) (N + 1 - t)) ^ 2) *
      (derivative (Legendre.P (N + 1))).eval (x (N + 1 - min (t + 1) (N + 1 - t))) ^ 2)
    = 2 / ((1 - x (N + 1 - 1 - t) ^ 2) *
      (derivative (Legendre.P (N + 1))).eval (x (N + 1 - 1 - t)) ^ 2) := by
  rcases le_total (t + 1) ((N : ℤ) + 1 - t) with h | h
  · rw [min_eq_left h, show (N : ℤ) + 1 - (t + 1) = N + 1 - 1 - t by ring]
  · rw [min_eq_right h, show (N : ℤ) + 1 - (N + 1 - t) = t by ring,
      show (N : ℤ) + 1 - 1 - t = N - t by ring, legendre_nodes_symm N x hmono hroot t a b,
      legendre_deriv_sq, neg_sq]

/-- The exact Gauss–Legendre rule on the sphere. -/
theorem gl_exact_sum (F : ℤ → ℤ → ℂ) (hF : ∀ k, F 0 (-k) = F 0 k) :
    ∑ t ∈ Finset.Ico (0 : ℤ) (N + 1), ∑ p ∈ Finset.Ico 0 (2 * ((N : ℤ) + 1) - 1),
        ((2 / ((1 - x (N + 1 - 1 - t) ^ 2) *
          (derivative (Legendre.P (N + 1))).eval (x (N + 1 - 1 - t)) ^ 2)
          * 2 * Real.pi / ((2 * (N + 1) - 1 : ℤ) : ℝ) : ℝ) : ℂ) *
        sphSignal (2 * (N + 1)) (2 * (N + 1) - 1) F (Real.arccos (x (N + 1 - 1 - t)))
          (2 * p * Real.pi / ((2 * (N + 1) - 1 : ℤ) : ℝ))
      = sphIntegral (sphSignal (2 * (N + 1)) (2 * (N + 1) - 1) F) := by
  have habs : ∀ i : ℤ, 0 ≤ i → i < (N : ℤ) + 1 → -1 ≤ x i ∧ x i ≤ 1 := by
    intro i a b
    have := legendre_root_abs _ _ (hroot i a b)
    exact ⟨this.1.le, this.2.le⟩
  exact sphere_rule (K := 2 * (N + 1)) (M := 2 * (N + 1) - 1) (n := 2 * (N + 1) - 1)
    (nt := N + 1) (by omega)
    (by omega) F (fun t => 2 / ((1 - x (N + 1 - 1 - t) ^ 2) *
        (derivative (Legendre.P (N + 1))).eval (x (N + 1 - 1 - t)) ^ 2))
    (fun t => Real.arccos (x (N + 1 - 1 - t)))
    (gauss_trig N (fun t => x (N + 1 - 1 - t)) _
      (fun t a b => Real.cos_arccos (habs _ (by omega) (by omega)).1
        (habs _ (by omega) (by omega)).2)
      (fun s t a b c d h => by
        have := nodes_inj N x hmono _ _ (by omega) (by omega) (by omega) (by omega) h
        omega)
      (fun t a b => hroot _ (by omega) (by omega)) (F 0) hF)

end nodes

end S2fft
