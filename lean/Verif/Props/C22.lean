import Verif.Lemmas.GaussLegendre
import Verif.Lemmas.GlNewton
import Verif.Lemmas.LegendreExist
import Verif.Spec.Healpix
import Verif.Lemmas.Healpix

/-! # C22: the quadrature weights are exact -/

namespace S2fft
open Spec

/-- `mw_weights(m)` is `∫_0^π sin θ e^{imθ} dθ`. -/
theorem C22_mw_weights (m : ℤ) :
    mw_weights m = ∫ θ in (0 : ℝ)..Real.pi, (Real.sin θ : ℂ) * Complex.exp (Complex.I * m * θ) := by
  rw [mw_weights_eq]
  congr 1; ext θ
  rw [mul_comm, cis]; congr 2; push_cast; ring

/-- The MW weights integrate every band-limited spin signal over the sphere exactly. -/
theorem C22_mw (gl lg : ℤ → ℤ → ℝ) (L spin : ℤ) (hL : 1 ≤ L) (nside : Option ℤ) (F : ℤ → ℤ → ℂ)
    (hF : PoleParity spin F) :
    ∃ w θ φ, quad_weights gl (some L) sMW spin nside = .ok (L, w) ∧
      thetas lg (some L) sMW nside = .ok (L, θ) ∧
      phis_equiang L sMW = .ok (2 * L - 1, φ) ∧
      ∑ t ∈ Finset.Ico 0 L, ∑ p ∈ Finset.Ico 0 (2 * L - 1),
          (w t : ℂ) * sphSignal L L F (θ t) (φ p) = sphIntegral (sphSignal L L F) := by
  refine ⟨_, _, _, rfl, rfl, rfl, ?_⟩
  have h := sphere_rule (K := L) (M := L) (n := 2 * L - 1) (nt := L) hL (by omega) F
    (quad_weights_mw_theta_only L spin) (fun t => (2 * (t : ℝ) + 1) * Real.pi / (2 * (L : ℝ) - 1))
    (quad_mw_exact hL spin (F 0) (by intro k; simpa using hF 0 k))
  push_cast at h
  rw [← h]
  apply Finset.sum_congr rfl; intro t _
  apply Finset.sum_congr rfl; intro p _
  simp only [quad_weights_mw]
  push_cast
  rfl

/-- The MWSS weights integrate every band-limited spin signal over the sphere exactly. -/
theorem C22_mwss (gl lg : ℤ → ℤ → ℝ) (L spin : ℤ) (hL : 1 ≤ L) (nside : Option ℤ)
    (F : ℤ → ℤ → ℂ) (hF : PoleParity spin F) :
    ∃ w θ φ, quad_weights gl (some L) sMWSS spin nside = .ok (L + 1, w) ∧
      thetas lg (some L) sMWSS nside = .ok (L + 1, θ) ∧
      phis_equiang L sMWSS = .ok (2 * L, φ) ∧
      ∑ t ∈ Finset.Ico 0 (L + 1), ∑ p ∈ Finset.Ico 0 (2 * L),
          (w t : ℂ) * sphSignal L L F (θ t) (φ p) = sphIntegral (sphSignal L L F) := by
  refine ⟨_, _, _, rfl, rfl, rfl, ?_⟩
  have h := sphere_rule (K := L) (M := L) (n := 2 * L) (nt := L + 1) hL (by omega) F
    (quad_weights_mwss_theta_only L spin) (fun t => 2 * (t : ℝ) * Real.pi / (2 * (L : ℝ)))
    (quad_mwss_exact hL spin (F 0) (by intro k; simpa using hF 0 k))
  push_cast at h
  rw [← h]
  apply Finset.sum_congr rfl; intro t _
  apply Finset.sum_congr rfl; intro p _
  simp only [quad_weights_mwss]
  push_cast
  rfl

/-- The DH weights integrate signals of twice the band-limit in `θ` (products of two band-limited
signals) exactly. -/
theorem C22_dh (gl lg : ℤ → ℤ → ℝ) (L spin : ℤ) (hL : 1 ≤ L) (nside : Option ℤ) (F : ℤ → ℤ → ℂ)
    (hF : PoleParity 0 F) :
    ∃ w θ φ, quad_weights gl (some L) sDH spin nside = .ok (2 * L, w) ∧
      thetas lg (some L) sDH nside = .ok (2 * L, θ) ∧
      phis_equiang L sDH = .ok (2 * L - 1, φ) ∧
      ∑ t ∈ Finset.Ico 0 (2 * L), ∑ p ∈ Finset.Ico 0 (2 * L - 1),
          (w t : ℂ) * sphSignal (2 * L) (2 * L - 1) F (θ t) (φ p)
        = sphIntegral (sphSignal (2 * L) (2 * L - 1) F) := by
  refine ⟨_, _, _, rfl, rfl, rfl, ?_⟩
  have h := sphere_rule (K := 2 * L) (M := 2 * L - 1) (n := 2 * L - 1) (nt := 2 * L) (by omega)
    (by omega) F (fun t => quad_weight_dh_theta_only ((2 * t + 1) * Real.pi / (4 * L)) L)
    (fun t => (2 * (t : ℝ) + 1) * Real.pi / (4 * (L : ℝ)))
    (quad_dh_exact hL (F 0) (by intro k; simpa using hF 0 k))
  push_cast at h
  rw [← h]
  apply Finset.sum_congr rfl; intro t _
  apply Finset.sum_congr rfl; intro p _
  simp only [quad_weights_dh]
  push_cast
  rfl

/-- The MWSS weights *used by the transforms*: twice the resolution in `θ`, exact for products of
two band-limited signals. -/
theorem C22_transform_mwss (gl lg : ℤ → ℤ → ℝ) (L nside : ℤ) (hL : 1 ≤ L) (F : ℤ → ℤ → ℂ)
    (hF : PoleParity 0 F) :
    ∃ w θ φ, quad_weights_transform gl L sMWSS nside = .ok (2 * L + 1, w) ∧
      thetas lg (some (2 * L)) sMWSS none = .ok (2 * L + 1, θ) ∧
      phis_equiang L sMWSS = .ok (2 * L, φ) ∧
      ∑ t ∈ Finset.Ico 0 (2 * L + 1), ∑ p ∈ Finset.Ico 0 (2 * L),
          (w t : ℂ) * sphSignal (2 * L) (2 * L) F (θ t) (φ p)
        = sphIntegral (sphSignal (2 * L) (2 * L) F) := by
  refine ⟨_, _, _, rfl, rfl, rfl, ?_⟩
  have h := sphere_rule (K := 2 * L) (M := 2 * L) (n := 2 * L) (nt := 2 * L + 1) (by omega)
    (by omega) F (quad_weights_mwss_theta_only (2 * L) 0)
    (fun t => 2 * (t : ℝ) * Real.pi / (2 * ((2 * L : ℤ) : ℝ)))
    (quad_mwss_exact (by omega) 0 (F 0) (by intro k; simpa using hF 0 k))
  rw [← h]
  apply Finset.sum_congr rfl; intro t _
  apply Finset.sum_congr rfl; intro p _
  refine congrArg₂ _ ?_ (congrArg₂ _ rfl ?_)
  · push_cast; rfl
  · change 2 * (p : ℝ) * Real.pi / (2 * (L : ℝ)) = _
    push_cast; rfl

/-- For the other schemes the transform weights are the plain weights. -/
theorem C22_transform_other (gl : ℤ → ℤ → ℝ) (L spin nside : ℤ) (s : PyStr)
    (hs : lower s = sDH ∨ lower s = sGL ∨ lower s = sHP) :
    quad_weights_transform gl L s nside = quad_weights gl (some L) s spin (some nside) := by
  have a1 : ¬ sDH = sMWSS := by decide
  have a2 : ¬ sDH = sHP := by decide
  have a3 : ¬ sDH = sMW := by decide
  have b1 : ¬ sGL = sMWSS := by decide
  have b2 : ¬ sGL = sHP := by decide
  have b3 : ¬ sGL = sMW := by decide
  have b4 : ¬ sGL = sDH := by decide
  have c1 : ¬ sHP = sMWSS := by decide
  have c2 : ¬ sHP = sDH := by decide
  have c3 : ¬ sHP = sGL := by decide
  unfold quad_weights_transform quad_weights
  rcases hs with h | h | h <;> simp [h, a1, a2, a3, b1, b2, b3, b4, c1, c2, c3]

/-- The HEALPix weights of all pixels add up to the area of the sphere. -/
theorem C22_healpix_area (gl : ℤ → ℤ → ℝ) (nside : ℤ) (hn : 1 ≤ nside) (L : Option ℤ)
    (spin : ℤ) :
    ∃ w, quad_weights gl L sHP spin (some nside) = .ok (4 * nside - 1, w) ∧
      ∑ t ∈ Finset.Ico 0 (4 * nside - 1), ∑ _p ∈ Finset.Ico 0 (ringSize nside t), w t
        = 4 * Real.pi := by
  refine ⟨_, rfl, ?_⟩
  have h : ∀ t ∈ Finset.Ico 0 (4 * nside - 1),
      ∑ _p ∈ Finset.Ico 0 (ringSize nside t), quad_weights_hp nside t
        = (ringSize nside t : ℝ) * (4 * Real.pi / ((12 * nside ^ 2 : ℤ) : ℝ)) := by
    intro t ht
    rw [Finset.mem_Ico] at ht
    have h0 : 0 ≤ ringSize nside t := by unfold ringSize; omega
    rw [Finset.sum_const, Int.card_Ico, sub_zero, nsmul_eq_mul]
    congr 1
    exact_mod_cast Int.toNat_of_nonneg h0
  rw [Finset.sum_congr rfl h, ← Finset.sum_mul]
  have hs : ∑ t ∈ Finset.Ico 0 (4 * nside - 1), (ringSize nside t : ℝ)
      = ((12 * nside ^ 2 : ℤ) : ℝ) := by
    have := ringStart_total nside hn
    unfold ringStart at this
    exact_mod_cast this
  rw [hs]
  have : ((12 * nside ^ 2 : ℤ) : ℝ) ≠ 0 := by
    have : 0 < nside ^ 2 := by positivity
    exact_mod_cast (by omega : (12 * nside ^ 2 : ℤ) ≠ 0)
  field_simp

/-- The weights add up to the area of the sphere: the constant signal `1` is band-limited. -/
theorem C22_area (gl lg : ℤ → ℤ → ℝ) (L : ℤ) (hL : 1 ≤ L) (s : PyStr)
    (hs : s = sMW ∨ s = sMWSS ∨ s = sDH) :
    ∃ nt np w φ, quad_weights gl (some L) s 0 none = .ok (nt, w) ∧
      phis_equiang L s = .ok (np, φ) ∧
      ∑ t ∈ Finset.Ico 0 nt, ∑ _p ∈ Finset.Ico 0 np, w t = 4 * Real.pi := by
  have hF : PoleParity 0 (fun m k => if m = 0 ∧ k = 0 then (1 : ℂ) else 0) := by
    intro m k
    by_cases h : m = 0 ∧ k = 0
    · simp [h]
    · simp [h]
  have hsig : ∀ K M : ℤ, 1 ≤ K → 1 ≤ M → ∀ θ φ,
      sphSignal K M (fun m k => if m = 0 ∧ k = 0 then (1 : ℂ) else 0) θ φ = 1 := by
    intro K M hK hM θ φ
    unfold sphSignal trigPoly
    rw [Finset.sum_eq_single 0, Finset.sum_eq_single 0]
    · simp
    · intro k _ hk; simp [hk]
    · intro h; simp at h; omega
    · intro m _ hm; simp [hm]
    · intro h; simp at h; omega
  have hint : ∀ K M : ℤ, 1 ≤ K → 1 ≤ M →
      sphIntegral (sphSignal K M (fun m k => if m = 0 ∧ k = 0 then (1 : ℂ) else 0))
        = 4 * Real.pi := by
    intro K M hK hM
    unfold sphIntegral
    simp only [hsig K M hK hM, mul_one, intervalIntegral.integral_const]
    rw [intervalIntegral.integral_const_mul, intervalIntegral.integral_ofReal, integral_sin]
    simp; ring
  rcases hs with rfl | rfl | rfl
  · obtain ⟨w, θ, φ, h1, -, h3, h4⟩ := C22_mw gl lg L 0 hL none _ hF
    refine ⟨_, _, w, φ, h1, h3, ?_⟩
    simp only [hsig _ _ hL hL, hint _ _ hL hL, mul_one] at h4
    exact_mod_cast h4
  · obtain ⟨w, θ, φ, h1, -, h3, h4⟩ := C22_mwss gl lg L 0 hL none _ hF
    refine ⟨_, _, w, φ, h1, h3, ?_⟩
    simp only [hsig _ _ hL hL, hint _ _ hL hL, mul_one] at h4
    exact_mod_cast h4
  · obtain ⟨w, θ, φ, h1, -, h3, h4⟩ := C22_dh gl lg L 0 hL none _ hF
    refine ⟨_, _, w, φ, h1, h3, ?_⟩
    simp only [hsig _ _ (by omega : 1 ≤ 2 * L) (by omega : 1 ≤ 2 * L - 1),
      hint _ _ (by omega : 1 ≤ 2 * L) (by omega : 1 ≤ 2 * L - 1), mul_one] at h4
    exact_mod_cast h4

/-- A non-constant signal of spin 1 satisfying the pole condition. -/
example : PoleParity 1 (fun m k => if m = 0 then (k : ℂ) else if m = 1 then 1 else 0) := by
  intro m k
  by_cases h : m = 0
  · subst h; simp
  · by_cases h1 : m = 1
    · subst h1; norm_num
    · simp [h, h1]

/-- Unknown sampling schemes are rejected. -/
theorem C22_reject (gl : ℤ → ℤ → ℝ) (L : Option ℤ) (nside : Option ℤ) (spin : ℤ) (s : PyStr)
    (h : lower s ≠ sMW ∧ lower s ≠ sMWSS ∧ lower s ≠ sDH ∧ lower s ≠ sGL ∧ lower s ≠ sHP) :
    quad_weights gl L s spin nside = .error .valueError := by
  obtain ⟨h1, h2, h3, h4, h5⟩ := h
  unfold quad_weights
  simp [h1, h2, h3, h4, h5]

/-- The Newton iteration of `quad_weights_gl` ends for every `L`. -/
theorem C22_gl_ends (L : ℤ) (hL : 1 ≤ L) : ∃ n, gl_exits L n := by
  obtain ⟨N, rfl⟩ : ∃ N : ℕ, L = N + 1 := ⟨(L - 1).toNat, by omega⟩
  obtain ⟨x, h1, h2⟩ := legendre_roots_exist N
  exact gl_exits_exists N x h1 h2

/-- Its starting values lead to the right nodes: the iterates for the `i`-th node decrease to the
`i`-th largest zero of the Legendre polynomial, and when the loop ends they are within `2e-14`. -/
theorem C22_gl_nodes (L : ℤ) (hL : 1 ≤ L) (x : ℤ → ℝ)
    (hmono : ∀ i j, 0 ≤ i → i < j → j < L → x i < x j)
    (hroot : ∀ i, 0 ≤ i → i < L → (Legendre.P L.toNat).eval (x i) = 0)
    (i : ℤ) (h1 : 1 ≤ i) (h2 : i ≤ (L + 1) / 2) :
    (∀ n, x (L - i) ≤ gl_z L i (n + 1) ∧ gl_z L i (n + 1) ≤ gl_z L i n) ∧
    Filter.Tendsto (gl_z L i) Filter.atTop (nhds (x (L - i))) ∧
    ∀ n, gl_exits L n → |gl_z L i n - x (L - i)| ≤ 2e-14 := by
  obtain ⟨N, rfl⟩ : ∃ N : ℕ, L = N + 1 := ⟨(L - 1).toNat, by omega⟩
  rw [show ((N : ℤ) + 1).toNat = N + 1 by omega] at hroot
  have hr := gl_newton N x hmono hroot i h1 h2
  refine ⟨fun n => ⟨hr.ge _, hr.anti (Nat.le_succ n)⟩, hr.lim, fun n hn => ?_⟩
  obtain ⟨k, rfl⟩ : ∃ k, n = k + 1 := by
    rcases n with _ | k
    · exact absurd (gl_first_pass (by omega)) hn.1
    · exact ⟨k, rfl⟩
  have hstep : |gl_z (N + 1) i (k + 1) - gl_z (N + 1) i k| ≤ 1e-14 := by
    by_contra hc
    push Not at hc
    exact hn.1 ⟨i, h1, h2, hc⟩
  have a1 := hr.ge (k + 1)
  have a2 := hr.anti (Nat.le_succ k)
  have a3 := hr.anti (Nat.zero_le k)
  have a4 := hr.error k
  have a5 := hr.start
  have a6 := hr.nonneg
  have a7 := hr.lt_one
  rw [abs_sub_comm, abs_of_nonneg (by linarith)] at hstep
  rw [abs_of_nonneg (by linarith)]
  set X := x (N + 1 - i)
  have hB : 1 - gl_z (N + 1) i 0 ^ 2 ≤ 1 - gl_z (N + 1) i k ^ 2 := by nlinarith
  have hB0 : 0 < 1 - gl_z (N + 1) i 0 ^ 2 := by nlinarith
  have h3 : (gl_z (N + 1) i k - gl_z (N + 1) i (k + 1)) * (1 - X ^ 2)
      ≤ 1e-14 * (1.24 ^ 2 * (1 - gl_z (N + 1) i k ^ 2)) := by
    apply mul_le_mul hstep (a5.trans (mul_le_mul_of_nonneg_left hB (by norm_num))) _ (by norm_num)
    nlinarith
  have h4 : (gl_z (N + 1) i k - X) * (1 - gl_z (N + 1) i k ^ 2)
      ≤ (1e-14 * 1.24 ^ 2) * (1 - gl_z (N + 1) i k ^ 2) := by linarith
  have h5 := le_of_mul_le_mul_right h4 (by linarith)
  norm_num at h5 ⊢
  linarith

/-- Gauss–Legendre. The samples of `leggauss` are those of an exact table (zeros of the Legendre
polynomial in increasing order); the weights are those the code computes. Signals of twice the
band-limit are integrated up to the tolerance of the Newton iteration: at most
`3e-14 (L + 1/2)²` times the area of the sphere times a bound for the samples. -/
theorem C22_gl (lg : ℤ → ℤ → ℝ) (L spin : ℤ) (hL : 1 ≤ L) (nside : Option ℤ) (n : ℕ)
    (hn : gl_exits L n)
    (hmono : ∀ i j, 0 ≤ i → i < j → j < L → lg L i < lg L j)
    (hroot : ∀ i, 0 ≤ i → i < L → (Legendre.P L.toNat).eval (lg L i) = 0)
    (F : ℤ → ℤ → ℂ) (hF : PoleParity 0 F) :
    ∃ w θ φ, quad_weights (fun L => quad_weights_gl L n) (some L) sGL spin nside = .ok (L, w) ∧
      thetas lg (some L) sGL nside = .ok (L, θ) ∧
      phis_equiang L sGL = .ok (2 * L - 1, φ) ∧
      ∀ B : ℝ, (∀ t p, 0 ≤ t → t < L → 0 ≤ p → p < 2 * L - 1 →
          ‖sphSignal (2 * L) (2 * L - 1) F (θ t) (φ p)‖ ≤ B) →
        ‖∑ t ∈ Finset.Ico 0 L, ∑ p ∈ Finset.Ico 0 (2 * L - 1),
          (w t : ℂ) * sphSignal (2 * L) (2 * L - 1) F (θ t) (φ p)
          - sphIntegral (sphSignal (2 * L) (2 * L - 1) F)‖
        ≤ 3e-14 * ((L : ℝ) + 1 / 2) ^ 2 * (4 * Real.pi * B) := by
  refine ⟨_, _, _, rfl, rfl, rfl, ?_⟩
  intro B hB
  obtain ⟨N, rfl⟩ : ∃ N : ℕ, L = N + 1 := ⟨(L - 1).toNat, by omega⟩
  rw [show ((N : ℤ) + 1).toNat = N + 1 by omega] at hroot
  set W : ℤ → ℝ := fun t => 2 / ((1 - lg (N + 1) (N + 1 - 1 - t) ^ 2) *
      (Polynomial.derivative (Legendre.P (N + 1))).eval (lg (N + 1) (N + 1 - 1 - t)) ^ 2)
      * (2 * Real.pi / (2 * (((N : ℤ) + 1 : ℤ) : ℝ) - 1)) with hW
  have hN : (0 : ℝ) ≤ N := by positivity
  have hW0 : ∀ t, 0 ≤ t → t < (N : ℤ) + 1 → 0 ≤ W t := by
    intro t a b
    have := legendre_root_abs _ _ (hroot (N + 1 - 1 - t) (by omega) (by omega))
    have h1 : 0 < 1 - lg (N + 1) (N + 1 - 1 - t) ^ 2 := by nlinarith
    have h2 : (0 : ℝ) < 2 * (((N : ℤ) + 1 : ℤ) : ℝ) - 1 := by push_cast; linarith
    have := Real.pi_pos
    rw [hW]; positivity
  have hWe : ∀ t, 2 / ((1 - lg (N + 1) (N + 1 - 1 - t) ^ 2) *
      (Polynomial.derivative (Legendre.P (N + 1))).eval (lg (N + 1) (N + 1 - 1 - t)) ^ 2)
      * 2 * Real.pi / ((2 * (N + 1) - 1 : ℤ) : ℝ) = W t := by
    intro t; rw [hW]; push_cast; ring
  have hsum := fun F hF => gl_exact_sum N (lg (N + 1)) hmono hroot F hF
  simp only [hWe] at hsum
  -- the weights of the exact rule add up to the area
  have harea : ∑ t ∈ Finset.Ico (0 : ℤ) (N + 1), ∑ p ∈ Finset.Ico 0 (2 * ((N : ℤ) + 1) - 1), W t
      = 4 * Real.pi := by
    have h := hsum (fun m k => if m = 0 ∧ k = 0 then (1 : ℂ) else 0) (by intro k; simp)
    have hone : ∀ θ φ, sphSignal (2 * ((N : ℤ) + 1)) (2 * (N + 1) - 1)
        (fun m k => if m = 0 ∧ k = 0 then (1 : ℂ) else 0) θ φ = 1 := by
      intro θ φ
      unfold sphSignal trigPoly
      rw [Finset.sum_eq_single 0, Finset.sum_eq_single 0]
      · simp
      · intro k _ hk; simp [hk]
      · intro h; exact absurd (Finset.mem_Ioo.2 (by omega)) h
      · intro m _ hm; simp [hm]
      · intro h; exact absurd (Finset.mem_Ioo.2 (by omega)) h
    have hint : sphIntegral (sphSignal (2 * ((N : ℤ) + 1)) (2 * (N + 1) - 1)
        (fun m k => if m = 0 ∧ k = 0 then (1 : ℂ) else 0)) = 4 * Real.pi := by
      unfold sphIntegral
      simp only [hone, mul_one, intervalIntegral.integral_const]
      rw [intervalIntegral.integral_const_mul, intervalIntegral.integral_ofReal, integral_sin]
      simp; ring
    rw [hint] at h
    simp only [hone, mul_one] at h
    exact_mod_cast h
  rw [← hsum F (by intro k; simpa using hF 0 k), ← Finset.sum_sub_distrib]
  have hν : (((N : ℤ) + 1 : ℤ) : ℝ) + 1 / 2 = (N : ℝ) + 3 / 2 := by push_cast; ring
  have hB' : 3e-14 * ((((N : ℤ) + 1 : ℤ) : ℝ) + 1 / 2) ^ 2 * (4 * Real.pi * B)
      = ∑ t ∈ Finset.Ico (0 : ℤ) (N + 1), ∑ p ∈ Finset.Ico 0 (2 * ((N : ℤ) + 1) - 1),
        3e-14 * ((N : ℝ) + 3 / 2) ^ 2 * W t * B := by
    rw [← harea, hν, Finset.sum_mul, Finset.mul_sum]
    apply Finset.sum_congr rfl; intro t _
    rw [Finset.sum_mul, Finset.mul_sum]
    apply Finset.sum_congr rfl; intro p _
    ring
  rw [hB']
  refine (norm_sum_le _ _).trans (Finset.sum_le_sum fun t ht => ?_)
  rw [Finset.mem_Ico] at ht
  rw [← Finset.sum_sub_distrib]
  refine (norm_sum_le _ _).trans (Finset.sum_le_sum fun p hp => ?_)
  rw [Finset.mem_Ico] at hp
  have hwt := gl_code_weight N (lg (N + 1)) hmono hroot n hn t ht.1 ht.2
  have hs := hB t p ht.1 ht.2 hp.1 hp.2
  have hφ : (2 * (p : ℝ) * Real.pi / ((2 * (N + 1) - 1 : ℤ) : ℝ))
      = 2 * (p : ℝ) * Real.pi / (2 * (((N : ℤ) + 1 : ℤ) : ℝ) - 1) := by push_cast; ring
  rw [hφ]
  change ‖sphSignal (2 * ((N : ℤ) + 1)) (2 * (N + 1) - 1) F (Real.arccos (lg (N + 1) (N + 1 - 1 - t)))
    (2 * (p : ℝ) * Real.pi / (2 * (((N : ℤ) + 1 : ℤ) : ℝ) - 1))‖ ≤ B at hs
  change ‖((quad_weights_gl (N + 1) n t : ℝ) : ℂ) *
    sphSignal (2 * ((N : ℤ) + 1)) (2 * (N + 1) - 1) F (Real.arccos (lg (N + 1) (N + 1 - 1 - t)))
      (2 * (p : ℝ) * Real.pi / (2 * (((N : ℤ) + 1 : ℤ) : ℝ) - 1)) - ((W t : ℝ) : ℂ) * _‖ ≤ _
  rw [← sub_mul, norm_mul, ← Complex.ofReal_sub, Complex.norm_real, Real.norm_eq_abs]
  exact mul_le_mul hwt hs (norm_nonneg _) (by have := hW0 t ht.1 ht.2; positivity)

/-- The hypotheses are met for every `L`: the zeros exist, all of them real, and the loop ends. -/
theorem C22_gl_tables_exist : ∃ lg : ℤ → ℤ → ℝ, ∀ L, 1 ≤ L →
    (∀ i j, 0 ≤ i → i < j → j < L → lg L i < lg L j) ∧
    (∀ i, 0 ≤ i → i < L → (Legendre.P L.toNat).eval (lg L i) = 0) ∧ ∃ n, gl_exits L n := by
  choose x hx using legendre_roots_exist
  refine ⟨fun L => x (L - 1).toNat, fun L hL => ?_⟩
  obtain ⟨N, rfl⟩ : ∃ N : ℕ, L = N + 1 := ⟨(L - 1).toNat, by omega⟩
  have e : ((N : ℤ) + 1 - 1).toNat = N := by omega
  beta_reduce
  rw [e, show ((N : ℤ) + 1).toNat = N + 1 by omega]
  exact ⟨(hx N).1, (hx N).2, C22_gl_ends _ hL⟩

/-- Gauss–Legendre, in the limit of the Newton iteration: the weights converge to the exact
Gauss–Legendre weights, so the quadrature sums converge to the integral. -/
theorem C22_gl_limit (lg : ℤ → ℤ → ℝ) (L : ℤ) (hL : 1 ≤ L)
    (hmono : ∀ i j, 0 ≤ i → i < j → j < L → lg L i < lg L j)
    (hroot : ∀ i, 0 ≤ i → i < L → (Legendre.P L.toNat).eval (lg L i) = 0)
    (F : ℤ → ℤ → ℂ) (hF : PoleParity 0 F) :
    Filter.Tendsto (fun n => ∑ t ∈ Finset.Ico 0 L, ∑ p ∈ Finset.Ico 0 (2 * L - 1),
        (quad_weights_gl L n t : ℂ) * sphSignal (2 * L) (2 * L - 1) F
          (Real.arccos (lg L (L - 1 - t))) (2 * p * Real.pi / (2 * L - 1)))
      Filter.atTop (nhds (sphIntegral (sphSignal (2 * L) (2 * L - 1) F))) := by
  obtain ⟨N, rfl⟩ : ∃ N : ℕ, L = N + 1 := ⟨(L - 1).toNat, by omega⟩
  rw [show ((N : ℤ) + 1).toNat = N + 1 by omega] at hroot
  rw [← gl_exact_sum N (lg (N + 1)) hmono hroot F (by intro k; simpa using hF 0 k)]
  apply tendsto_finset_sum; intro t ht
  apply tendsto_finset_sum; intro p _
  rw [Finset.mem_Ico] at ht
  rw [show (2 * (p : ℝ) * Real.pi / (2 * (((N : ℤ) + 1 : ℤ) : ℝ) - 1))
    = 2 * (p : ℝ) * Real.pi / ((2 * (N + 1) - 1 : ℤ) : ℝ) by push_cast; ring]
  apply Filter.Tendsto.mul_const
  apply (Complex.continuous_ofReal.tendsto _).comp
  have hnz : ∀ i, 0 ≤ i → i < (N : ℤ) + 1 → 1 - lg (N + 1) i ^ 2 ≠ 0 :=
    fun i a b => (gl_node_ne N (lg (N + 1)) hmono hroot i a b).1
  set i : ℤ := min (t + 1) (N + 1 - t) with hi
  have hi1 : 1 ≤ i := by omega
  have hi2 : i ≤ (N + 1 + 1) / 2 := by omega
  have hz := (gl_newton N (lg (N + 1)) hmono hroot i hi1 hi2).lim
  have hz' : Filter.Tendsto (fun n => gl_z (N + 1) i (n - 1)) Filter.atTop
      (nhds (lg (N + 1) (N + 1 - i))) := hz.comp (Filter.tendsto_sub_atTop_nat 1)
  have hne := gl_node_ne N (lg (N + 1)) hmono hroot (N + 1 - i) (by omega) (by omega)
  have hpp : Filter.Tendsto (fun n => gl_pp (N + 1) (gl_z (N + 1) i (n - 1))) Filter.atTop
      (nhds ((Polynomial.derivative (Legendre.P (N + 1))).eval (lg (N + 1) (N + 1 - i)))) := by
    rw [← gl_pp_eq N _ hne.1]
    have : ContinuousAt (gl_pp (N + 1)) (lg (N + 1) (N + 1 - i)) := by
      have e : gl_pp (N + 1) = fun z => (((N : ℤ) + 1 : ℤ) : ℝ) *
          (z * (Legendre.P (N + 1)).eval z - (Legendre.P N).eval z) / (z * z - 1) := by
        ext z; rw [gl_pp, gl_p_eq]
      rw [e]
      have c1 := (Legendre.P (N + 1)).continuous
      have c2 := (Legendre.P N).continuous
      apply ContinuousAt.div
      · fun_prop
      · fun_prop
      · intro h; apply hne.1; linarith
    exact this.tendsto.comp hz'
  have hlim := Filter.Tendsto.div (tendsto_const_nhds (x := (2 : ℝ)))
    (((hz.pow 2).const_sub 1).mul (hpp.pow 2)) (mul_ne_zero hne.1 (pow_ne_zero 2 hne.2))
  have e1 : ∀ n, quad_weights_gl (N + 1) n t = 2 / ((1 - gl_z (N + 1) i n ^ 2) *
      gl_pp (N + 1) (gl_z (N + 1) i (n - 1)) ^ 2) * (2 * Real.pi / (2 * (((N : ℤ) + 1 : ℤ) : ℝ) - 1)) := by
    intro n
    rw [quad_weights_gl_get (by omega) n t ht.1 ht.2]; ring
  simp only [Function.comp_def, e1]
  have e2 := gl_weight_fold N (lg (N + 1)) hmono hroot t ht.1 ht.2
  rw [← hi] at e2
  rw [show ((2 * (N + 1) - 1 : ℤ) : ℝ) = 2 * (((N : ℤ) + 1 : ℤ) : ℝ) - 1 by push_cast; ring,
    ← e2, mul_assoc (2 / _) 2 Real.pi, mul_div_assoc (2 / _)]
  exact hlim.mul_const _

end S2fft
