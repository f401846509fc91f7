import Verif.Lemmas.Legendre
import Verif.Lemmas.GaussLegendre
import Mathlib.Analysis.SpecialFunctions.Sqrt
import Mathlib.Analysis.SpecialFunctions.Trigonometric.Deriv
import Mathlib.Analysis.Calculus.Deriv.MeanValue

/-!
# Comparison of oscillating functions, and the distances between Legendre nodes
-/

namespace S2fft

open Set

section sturm
variable {u u1 q : ℝ → ℝ} {a b : ℝ}

/-- The Wronskian of `u` and a sine of frequency `M`. -/
theorem wronskian_deriv (M : ℝ) {θ : ℝ} (hu : HasDerivAt u (u1 θ) θ)
    (hu1 : HasDerivAt u1 (-(q θ) * u θ) θ) :
    HasDerivAt (fun θ => u θ * (M * Real.cos (M * (θ - a))) - u1 θ * Real.sin (M * (θ - a)))
      ((q θ - M ^ 2) * (u θ * Real.sin (M * (θ - a)))) θ := by
  have hl : HasDerivAt (fun θ => M * (θ - a)) M θ := by
    simpa using ((hasDerivAt_id θ).sub_const a).const_mul M
  have h := (hu.mul ((hl.cos).const_mul M)).sub (hu1.mul hl.sin)
  refine h.congr_deriv ?_
  ring

/-- Where the frequency of `u` is at least `N`, zeros are at most `π / N` apart. -/
theorem sturm_gap_le {N : ℝ} (hN : 0 < N) (hu : ∀ θ ∈ Icc a b, HasDerivAt u (u1 θ) θ)
    (hu1 : ∀ θ ∈ Icc a b, HasDerivAt u1 (-(q θ) * u θ) θ) (hq : ∀ θ ∈ Icc a b, N ^ 2 ≤ q θ)
    (ha : u a = 0) (hpos : ∀ θ ∈ Ioo a b, 0 < u θ) : b - a ≤ Real.pi / N := by
  by_contra hlt
  push Not at hlt
  have hpi : 0 < Real.pi / N := div_pos Real.pi_pos hN
  set c := a + Real.pi / N with hc
  have hac : a < c := by linarith
  have hcb : c < b := by linarith
  set W := fun θ => u θ * (N * Real.cos (N * (θ - a))) - u1 θ * Real.sin (N * (θ - a)) with hW
  have hsub : ∀ θ ∈ Icc a c, θ ∈ Icc a b := fun θ h => ⟨h.1, h.2.trans hcb.le⟩
  have hd : ∀ θ ∈ Icc a c, HasDerivAt W ((q θ - N ^ 2) * (u θ * Real.sin (N * (θ - a)))) θ :=
    fun θ h => wronskian_deriv N (hu θ (hsub θ h)) (hu1 θ (hsub θ h))
  have hmono : MonotoneOn W (Icc a c) := by
    apply monotoneOn_of_deriv_nonneg (convex_Icc a c)
    · exact fun θ h => (hd θ h).continuousAt.continuousWithinAt
    · intro θ h
      rw [interior_Icc] at h
      exact (hd θ ⟨h.1.le, h.2.le⟩).differentiableAt.differentiableWithinAt
    · intro θ h
      rw [interior_Icc] at h
      rw [(hd θ ⟨h.1.le, h.2.le⟩).deriv]
      have h1 := hq θ ⟨h.1.le, (h.2.trans hcb).le⟩
      have h2 := hpos θ ⟨h.1, h.2.trans hcb⟩
      have h3 : 0 ≤ Real.sin (N * (θ - a)) := by
        apply Real.sin_nonneg_of_nonneg_of_le_pi
        · exact mul_nonneg hN.le (by linarith [h.1])
        · have : N * (θ - a) ≤ N * (Real.pi / N) := mul_le_mul_of_nonneg_left (by linarith [h.2]) hN.le
          rwa [mul_div_cancel₀ _ hN.ne'] at this
      exact mul_nonneg (by linarith) (mul_nonneg h2.le h3)
  have h := hmono ⟨le_rfl, hac.le⟩ ⟨hac.le, le_rfl⟩ hac.le
  have e : N * (c - a) = Real.pi := by rw [hc]; field_simp; ring
  simp only [hW, sub_self, mul_zero, Real.cos_zero, Real.sin_zero, e, Real.cos_pi, Real.sin_pi, ha,
    zero_mul, sub_zero] at h
  have := hpos c ⟨hac, hcb⟩
  nlinarith

/-- Where the frequency of `u` is at most `M`, zeros are at least `π / M` apart. -/
theorem sturm_gap_ge {M : ℝ} (hM : 0 < M) (hab : a < b) (hu : ∀ θ ∈ Icc a b, HasDerivAt u (u1 θ) θ)
    (hu1 : ∀ θ ∈ Icc a b, HasDerivAt u1 (-(q θ) * u θ) θ) (hq : ∀ θ ∈ Icc a b, q θ ≤ M ^ 2)
    (ha : u a = 0) (hb : u b = 0) (hb1 : u1 b ≠ 0) (hpos : ∀ θ ∈ Ioo a b, 0 < u θ) :
    Real.pi / M ≤ b - a := by
  by_contra hlt
  push Not at hlt
  have hMb : M * (b - a) < Real.pi := by
    have := mul_lt_mul_of_pos_left hlt hM
    rwa [mul_div_cancel₀ _ hM.ne'] at this
  set W := fun θ => u θ * (M * Real.cos (M * (θ - a))) - u1 θ * Real.sin (M * (θ - a)) with hW
  have hd : ∀ θ ∈ Icc a b, HasDerivAt W ((q θ - M ^ 2) * (u θ * Real.sin (M * (θ - a)))) θ :=
    fun θ h => wronskian_deriv M (hu θ h) (hu1 θ h)
  have hanti : AntitoneOn W (Icc a b) := by
    apply antitoneOn_of_deriv_nonpos (convex_Icc a b)
    · exact fun θ h => (hd θ h).continuousAt.continuousWithinAt
    · intro θ h
      rw [interior_Icc] at h
      exact (hd θ ⟨h.1.le, h.2.le⟩).differentiableAt.differentiableWithinAt
    · intro θ h
      rw [interior_Icc] at h
      rw [(hd θ ⟨h.1.le, h.2.le⟩).deriv]
      have h1 := hq θ ⟨h.1.le, h.2.le⟩
      have h2 := hpos θ h
      have h3 : 0 ≤ Real.sin (M * (θ - a)) := by
        apply Real.sin_nonneg_of_nonneg_of_le_pi
        · exact mul_nonneg hM.le (by linarith [h.1])
        · have : M * (θ - a) ≤ M * (b - a) := mul_le_mul_of_nonneg_left (by linarith [h.2]) hM.le
          linarith
      exact mul_nonpos_of_nonpos_of_nonneg (by linarith) (mul_nonneg h2.le h3)
  have h := hanti ⟨le_rfl, hab.le⟩ ⟨hab.le, le_rfl⟩ hab.le
  have hs : 0 < Real.sin (M * (b - a)) :=
    Real.sin_pos_of_pos_of_lt_pi (mul_pos hM (by linarith)) hMb
  simp only [hW, sub_self, mul_zero, Real.cos_zero, Real.sin_zero, ha, hb, zero_mul, zero_sub] at h
  have hb1' : 0 ≤ u1 b := by
    by_contra hneg
    push Not at hneg
    nlinarith
  -- but `u` comes down to `b`
  have hle : u1 b ≤ 0 := by
    have hder := hu b ⟨hab.le, le_rfl⟩
    have ht := (hasDerivAt_iff_tendsto_slope.1 hder).mono_left
      (nhdsWithin_mono b (s := Iio b) (fun x hx => ne_of_lt hx))
    refine le_of_tendsto ht ?_
    filter_upwards [Ioo_mem_nhdsLT hab] with θ h
    rw [slope_def_field, hb, sub_zero]
    exact div_nonpos_of_nonneg_of_nonpos (hpos θ h).le (by linarith [h.2])
  exact hb1 (le_antisymm hle hb1')

end sturm

/-! ## The Legendre polynomial in the angle -/

section legendre
open Polynomial
variable (n : ℕ)

/-- `√(sin θ) P_n(cos θ)`. -/
noncomputable def legU (θ : ℝ) : ℝ := √(Real.sin θ) * (Legendre.P n).eval (Real.cos θ)

/-- Its derivative. -/
noncomputable def legU1 (θ : ℝ) : ℝ :=
  Real.cos θ / (2 * √(Real.sin θ)) * (Legendre.P n).eval (Real.cos θ)
    - √(Real.sin θ) * (Real.sin θ * (derivative (Legendre.P n)).eval (Real.cos θ))

/-- The square of its frequency. -/
noncomputable def legQ (θ : ℝ) : ℝ := ((n : ℝ) + 1 / 2) ^ 2 + 1 / (4 * Real.sin θ ^ 2)

/-- Legendre's equation at a point. -/
theorem legendre_ode (x : ℝ) : (x ^ 2 - 1) * (derivative (derivative (Legendre.P n))).eval x
    + 2 * x * (derivative (Legendre.P n)).eval x = n * (n + 1) * (Legendre.P n).eval x := by
  have h := congrArg (eval x) (Legendre.ode n)
  simp only [derivative_mul, derivative_sub, derivative_X_pow, derivative_one, eval_add, eval_mul,
    eval_sub, eval_pow, eval_X, eval_one, eval_C, Nat.cast_ofNat, sub_zero, map_ofNat, eval_ofNat] at h
  rw [show (x ^ (2 - 1) : ℝ) = x by norm_num] at h
  linarith [h]

theorem eval_cos_deriv (p : ℝ[X]) (θ : ℝ) :
    HasDerivAt (fun θ => p.eval (Real.cos θ)) ((derivative p).eval (Real.cos θ) * -Real.sin θ) θ :=
  (p.hasDerivAt (Real.cos θ)).comp θ (Real.hasDerivAt_cos θ)

theorem legU_deriv {θ : ℝ} (h : 0 < Real.sin θ) : HasDerivAt (legU n) (legU1 n θ) θ := by
  have h1 := (Real.hasDerivAt_sin θ).sqrt h.ne'
  have h2 := eval_cos_deriv (Legendre.P n) θ
  refine (h1.mul h2).congr_deriv ?_
  unfold legU1
  ring

theorem legU1_deriv {θ : ℝ} (h : 0 < Real.sin θ) :
    HasDerivAt (legU1 n) (-(legQ n θ) * legU n θ) θ := by
  have h1 := (Real.hasDerivAt_sin θ).sqrt h.ne'
  have h2 := eval_cos_deriv (Legendre.P n) θ
  have h3 := eval_cos_deriv (derivative (Legendre.P n)) θ
  have hs : √(Real.sin θ) ≠ 0 := (Real.sqrt_pos.2 h).ne'
  have h4 := ((Real.hasDerivAt_cos θ).div (h1.const_mul 2) (mul_ne_zero two_ne_zero hs)).mul h2
  have h5 := h1.mul ((Real.hasDerivAt_sin θ).mul h3)
  refine (h4.sub h5).congr_deriv ?_
  simp only [Pi.div_apply, Pi.mul_apply]
  have hode := legendre_ode n (Real.cos θ)
  have e : Real.cos θ ^ 2 = 1 - Real.sin θ ^ 2 := by
    have := Real.sin_sq_add_cos_sq θ; linarith
  unfold legQ legU
  set s := √(Real.sin θ) with hsdef
  have hss : Real.sin θ = s ^ 2 := (Real.sq_sqrt h.le).symm
  rw [hss] at e ⊢
  set c := Real.cos θ
  set p0 := (Legendre.P n).eval c
  set p1 := (derivative (Legendre.P n)).eval c
  set p2 := (derivative (derivative (Legendre.P n))).eval c
  have hode' : -s ^ 4 * p2 + 2 * c * p1 = n * (n + 1) * p0 := by
    have : c ^ 2 - 1 = -s ^ 4 := by rw [e]; ring
    rw [← this]; exact hode
  refine mul_left_cancel₀ (show 4 * s ^ 3 ≠ 0 by positivity) ?_
  field_simp
  linear_combination (-16 * s ^ 4) * hode' - 4 * p0 * e

theorem sin_pos_of_mem {a b θ : ℝ} (ha : 0 < a) (hb : b < Real.pi) (h : θ ∈ Icc a b) :
    0 < Real.sin θ := Real.sin_pos_of_pos_of_lt_pi (by linarith [h.1]) (by linarith [h.2])

theorem legU_eq_zero {θ : ℝ} (h : 0 < Real.sin θ) :
    legU n θ = 0 ↔ (Legendre.P n).eval (Real.cos θ) = 0 := by
  unfold legU
  rw [mul_eq_zero, or_iff_right (Real.sqrt_pos.2 h).ne']

/-- Without a zero the sign is constant. -/
theorem legU_sign {a b : ℝ} (ha : 0 < a) (hb : b < Real.pi)
    (hz : ∀ θ ∈ Ioo a b, (Legendre.P n).eval (Real.cos θ) ≠ 0) :
    (∀ θ ∈ Ioo a b, 0 < legU n θ) ∨ ∀ θ ∈ Ioo a b, legU n θ < 0 := by
  have hne : ∀ θ ∈ Ioo a b, legU n θ ≠ 0 := fun θ h => by
    rw [Ne, legU_eq_zero n (sin_pos_of_mem ha hb ⟨h.1.le, h.2.le⟩)]; exact hz θ h
  by_contra hc
  push Not at hc
  obtain ⟨⟨s, hs, hs'⟩, t, ht, ht'⟩ := hc
  have hsub : uIcc s t ⊆ Ioo a b := fun θ h => by
    rw [uIcc, mem_Icc] at h
    exact ⟨lt_of_lt_of_le (lt_min hs.1 ht.1) h.1, lt_of_le_of_lt h.2 (max_lt hs.2 ht.2)⟩
  have hcont : ContinuousOn (legU n) (uIcc s t) := fun θ h => by
    have := hsub h
    exact (legU_deriv n (sin_pos_of_mem ha hb ⟨this.1.le, this.2.le⟩)).continuousAt.continuousWithinAt
  have := intermediate_value_uIcc hcont
  obtain ⟨θ, h1, h2⟩ := this (show (0 : ℝ) ∈ uIcc (legU n s) (legU n t) by
    rw [mem_uIcc]; left; exact ⟨hs', ht'⟩)
  exact hne θ (hsub h1) h2

theorem legQ_ge (θ : ℝ) : ((n : ℝ) + 1 / 2) ^ 2 ≤ legQ n θ := by
  unfold legQ
  have : 0 ≤ 1 / (4 * Real.sin θ ^ 2) := by positivity
  linarith

/-- After a zero of `P_n(cos θ)` there is another one within `π / (n + 1/2)`. -/
theorem legendre_gap_le {a b : ℝ} (ha : 0 < a) (hb : b < Real.pi)
    (hroot : (Legendre.P n).eval (Real.cos a) = 0)
    (hab : a < b)
    (hz : ∀ θ ∈ Ioo a b, (Legendre.P n).eval (Real.cos θ) ≠ 0) :
    b - a ≤ Real.pi / ((n : ℝ) + 1 / 2) := by
  have hd := fun θ (h : θ ∈ Icc a b) => legU_deriv n (sin_pos_of_mem ha hb h)
  have hd1 := fun θ (h : θ ∈ Icc a b) => legU1_deriv n (sin_pos_of_mem ha hb h)
  have ha0 := (legU_eq_zero n (sin_pos_of_mem ha hb ⟨le_rfl, hab.le⟩)).2 hroot
  rcases legU_sign n ha hb hz with h | h
  · exact sturm_gap_le (by positivity) hd hd1 (fun θ _ => legQ_ge n θ) ha0 h
  · refine sturm_gap_le (u := fun θ => -legU n θ) (u1 := fun θ => -legU1 n θ) (q := legQ n)
      (by positivity) (fun θ h => (hd θ h).neg) (fun θ h => ?_) (fun θ _ => legQ_ge n θ)
      (by simp [ha0]) (fun θ hθ => by have := h θ hθ; linarith)
    exact (hd1 θ h).neg.congr_deriv (by ring)

/-- Zeros of `P_n(cos θ)` are not too close. -/
theorem legendre_gap_ge {a b : ℝ} (ha : 0 < a) (ha2 : a ≤ Real.pi / 2) (hb : b ≤ Real.pi - a)
    (hab : a < b) (hra : (Legendre.P n).eval (Real.cos a) = 0)
    (hrb : (Legendre.P n).eval (Real.cos b) = 0)
    (hrb1 : (derivative (Legendre.P n)).eval (Real.cos b) ≠ 0)
    (hz : ∀ θ ∈ Ioo a b, (Legendre.P n).eval (Real.cos θ) ≠ 0) :
    Real.pi / √(((n : ℝ) + 1 / 2) ^ 2 + 1 / (4 * Real.sin a ^ 2)) ≤ b - a := by
  have hbpi : b < Real.pi := by linarith
  have hd := fun θ (h : θ ∈ Icc a b) => legU_deriv n (sin_pos_of_mem ha hbpi h)
  have hd1 := fun θ (h : θ ∈ Icc a b) => legU1_deriv n (sin_pos_of_mem ha hbpi h)
  have ha0 := (legU_eq_zero n (sin_pos_of_mem ha hbpi ⟨le_rfl, hab.le⟩)).2 hra
  have hsb := sin_pos_of_mem ha hbpi ⟨hab.le, le_rfl⟩
  have hb0 := (legU_eq_zero n hsb).2 hrb
  have hb1 : legU1 n b ≠ 0 := by
    unfold legU1
    rw [hrb, mul_zero, zero_sub]
    exact neg_ne_zero.2 (mul_ne_zero (Real.sqrt_pos.2 hsb).ne' (mul_ne_zero hsb.ne' hrb1))
  have hsa : 0 < Real.sin a := sin_pos_of_mem ha hbpi ⟨le_rfl, hab.le⟩
  have hM : 0 < ((n : ℝ) + 1 / 2) ^ 2 + 1 / (4 * Real.sin a ^ 2) := by positivity
  have hq : ∀ θ ∈ Icc a b,
      legQ n θ ≤ √(((n : ℝ) + 1 / 2) ^ 2 + 1 / (4 * Real.sin a ^ 2)) ^ 2 := by
    intro θ h
    rw [Real.sq_sqrt hM.le]
    unfold legQ
    have hs : Real.sin a ≤ Real.sin θ := by
      rcases le_total θ (Real.pi / 2) with h2 | h2
      · exact Real.sin_le_sin_of_le_of_le_pi_div_two (by linarith) h2 h.1
      · rw [← Real.sin_pi_sub θ]
        exact Real.sin_le_sin_of_le_of_le_pi_div_two (by linarith) (by linarith) (by linarith [h.2])
    have : 1 / (4 * Real.sin θ ^ 2) ≤ 1 / (4 * Real.sin a ^ 2) := by
      apply one_div_le_one_div_of_le (by positivity)
      have := pow_le_pow_left₀ hsa.le hs 2
      linarith
    linarith
  rcases legU_sign n ha hbpi hz with h | h
  · exact sturm_gap_ge (Real.sqrt_pos.2 hM) hab hd hd1 hq ha0 hb0 hb1 h
  · refine sturm_gap_ge (u := fun θ => -legU n θ) (u1 := fun θ => -legU1 n θ) (q := legQ n)
      (Real.sqrt_pos.2 hM) hab (fun θ h => (hd θ h).neg) (fun θ h => ?_) hq
      (by simp [ha0]) (by simp [hb0]) (neg_ne_zero.2 hb1)
      (fun θ hθ => by have := h θ hθ; linarith)
    exact (hd1 θ h).neg.congr_deriv (by ring)

end legendre

end S2fft
