import Verif.Model.Rotation
import Verif.Spec.Rotation
import Verif.Spec.Harmonic
import Verif.Lemmas.RoundTrip
import Verif.Props.C12

/-! # Rotation: values of the loops, and the action on harmonic expansions -/

namespace S2fft
open Spec

/-- Coefficient `(l, m)` of the expansion rotated by the Euler angles. -/
noncomputable def rotCoef (α β γ : ℝ) (c : ℤ → ℤ → ℂ) (l m : ℤ) : ℂ :=
  ∑ n ∈ Finset.Ico (-l) (l + 1), cis (-(m * α)) * wignerd l m n β * cis (-(n * γ)) * c l n

theorem risboJax_all (β : ℝ) (L : ℤ) (el : ℤ) (h0 : 0 ≤ el) (dl : ℤ → ℤ → ℝ)
    (h : ∀ m n : ℤ, dl (m + L - 1) (n + L - 1) = wignerd (el - 1) m n β) (m n : ℤ) :
    risboFullJax dl β L el (m + L - 1) (n + L - 1) = wignerd el m n β := by
  by_cases h' : |m| ≤ el ∧ |n| ≤ el
  · exact C12_jax_step dl β L el h0 (fun m n _ _ => h m n) m n h'.1 h'.2
  · rw [risboFullJax_eq _ _ _ _ h0]
    by_cases h1 : el ≤ 1
    · rw [if_pos (Or.inr h1), risboStep_frame _ _ _ _ h0 m n (by omega), h,
        wignerd_outside _ _ _ _ (by omega), wignerd_outside _ _ _ _ (by omega)]
    · rw [if_neg (by omega), h, wignerd_outside _ _ _ _ (by omega),
        wignerd_outside _ _ _ _ (by omega), zero_div]

theorem expArray_at (L : ℤ) (x : ℝ) (m : ℤ) : expArray L x (m + L - 1) = cis (-(m * x)) := by
  unfold expArray
  rw [show -L + 1 + (m + L - 1) = m by ring]

theorem rotateDegree_eq {plane : ℤ → ℤ → ℝ} {L el : ℤ} {α β γ : ℝ} (h1 : el < L)
    (hp : ∀ m n : ℤ, plane (m + L - 1) (n + L - 1) = wignerd el m n β) (flm : ℤ → ℤ → ℂ) (m : ℤ) :
    rotateDegree plane (expArray L α) (expArray L γ) flm L el m
      = rotCoef α β γ (fun l n => flm l (n + L - 1)) el m := by
  unfold rotateDegree rotCoef
  simp only [min_eq_left (show el ≤ L - 1 by omega)]
  apply Finset.sum_congr rfl
  intro n _
  rw [hp, expArray_at, expArray_at]; ring

theorem rotCoef_outside {α β γ : ℝ} {c : ℤ → ℤ → ℂ} {l m : ℤ} (h : l < |m|) :
    rotCoef α β γ c l m = 0 := by
  unfold rotCoef
  apply Finset.sum_eq_zero
  intro n _
  rw [wignerd_outside _ _ _ _ (Or.inl h)]; simp

theorem addOrders_at (a : ℤ → ℤ → ℂ) (el L : ℤ) (v : ℤ → ℂ) (hv : ∀ m, el < |m| → v m = 0)
    (l m : ℤ) : addOrders a el L v l (m + L - 1)
      = a l (m + L - 1) + if l = el then v m else 0 := by
  unfold addOrders
  rw [show m + L - 1 - (L - 1) = m by ring]
  by_cases h : l = el
  · rw [if_pos h]
    by_cases hm : |m| ≤ el
    · rw [abs_le] at hm
      rw [if_pos ⟨h, by omega, by omega⟩]
    · rw [hv m (by omega), add_zero, if_neg]
      rintro ⟨_, h1, h2⟩
      apply hm; rw [abs_le]; omega
  · rw [if_neg (by tauto), if_neg h, add_zero]

theorem rotateFlms_none (flm : ℤ → ℤ → ℂ) (L : ℤ) (α β γ : ℝ) (l m : ℤ) (h0 : 0 ≤ l) (h1 : l < L) :
    rotateFlms flm L (α, β, γ) none l (m + L - 1)
      = rotCoef α β γ (fun l n => flm l (n + L - 1)) l m := by
  unfold rotateFlms
  simp only
  have := forRange_ind (by omega : (0 : ℤ) ≤ L)
    (fun el (s : (ℤ → ℤ → ℝ) × (ℤ → ℤ → ℂ)) =>
      (risboFullJax s.1 β L el, addOrders s.2 el L
        (rotateDegree (risboFullJax s.1 β L el) (expArray L α) (expArray L γ) flm L el)))
    (fun _ _ => 0, fun _ _ => 0)
    (fun el s => (∀ m n : ℤ, s.1 (m + L - 1) (n + L - 1) = wignerd (el - 1) m n β) ∧
      s.2 l (m + L - 1) = if l < el then rotCoef α β γ (fun l n => flm l (n + L - 1)) l m else 0)
    ⟨fun m n => by
        rw [wignerd_outside]
        have := abs_nonneg m
        omega, by rw [if_neg (by omega)]⟩
    (by
      rintro el ⟨d, o⟩ a b ⟨hd, ho⟩
      simp only at hd ho ⊢
      have hp := risboJax_all β L el a d hd
      refine ⟨fun m n => by rw [show el + 1 - 1 = el by ring]; exact hp m n, ?_⟩
      rw [addOrders_at _ _ _ _ (fun m hm => by
        rw [rotateDegree_eq b hp]; exact rotCoef_outside hm), ho, rotateDegree_eq b hp]
      rcases lt_trichotomy l el with h | h | h
      · rw [if_pos h, if_neg (by omega), if_pos (by omega), add_zero]
      · subst h
        rw [if_neg (by omega), if_pos rfl, if_pos (by omega), zero_add]
      · rw [if_neg (by omega), if_neg (by omega), if_neg (by omega), add_zero])
  rw [this.2, if_pos h1]

theorem generateRotateDls_at (L : ℤ) (β : ℝ) (l m n : ℤ) (h0 : 0 ≤ l) (h1 : l < L) :
    generateRotateDls L β l (m + L - 1) (n + L - 1) = wignerd l m n β := by
  unfold generateRotateDls
  have := forRange_ind (by omega : (0 : ℤ) ≤ L)
    (fun el (s : (ℤ → ℤ → ℝ) × (ℤ → ℤ → ℤ → ℝ)) =>
      (risboFullJax s.1 β L el, fun p x y => if p = el then s.2 p x y + risboFullJax s.1 β L el x y
        else s.2 p x y))
    (fun _ _ => 0, fun _ _ _ => 0)
    (fun el s => (∀ m n : ℤ, s.1 (m + L - 1) (n + L - 1) = wignerd (el - 1) m n β) ∧
      s.2 l (m + L - 1) (n + L - 1) = if l < el then wignerd l m n β else 0)
    ⟨fun m n => by
        rw [wignerd_outside]
        have := abs_nonneg m
        omega, by rw [if_neg (by omega)]⟩
    (by
      rintro el ⟨d, o⟩ a b ⟨hd, ho⟩
      simp only at hd ho ⊢
      have hp := risboJax_all β L el a d hd
      refine ⟨fun m n => by rw [show el + 1 - 1 = el by ring]; exact hp m n, ?_⟩
      rw [ho]
      rcases lt_trichotomy l el with h | h | h
      · rw [if_neg (by omega), if_pos h, if_pos (by omega)]
      · subst h
        rw [if_pos rfl, if_neg (by omega), if_pos (by omega), zero_add, hp]
      · rw [if_neg (by omega), if_neg (by omega), if_neg (by omega)])
  rw [this.2, if_pos h1]

theorem rotateFlms_some (flm : ℤ → ℤ → ℂ) (L : ℤ) (α β γ : ℝ) (dls : ℤ → ℤ → ℤ → ℝ)
    (hd : ∀ l m n : ℤ, 0 ≤ l → l < L → dls l (m + L - 1) (n + L - 1) = wignerd l m n β) (β' : ℝ)
    (l m : ℤ) (h0 : 0 ≤ l) (h1 : l < L) :
    rotateFlms flm L (α, β', γ) (some dls) l (m + L - 1)
      = rotCoef α β γ (fun l n => flm l (n + L - 1)) l m := by
  unfold rotateFlms
  simp only
  refine (forRange_ind (by omega : (0 : ℤ) ≤ L)
    (fun el out => addOrders out el L
      (rotateDegree (dls el) (expArray L α) (expArray L γ) flm L el)) (fun _ _ => 0)
    (fun el s =>
      s l (m + L - 1) = if l < el then rotCoef α β γ (fun l n => flm l (n + L - 1)) l m else 0)
    (by rw [if_neg (by omega)]) ?_).trans (if_pos h1)
  intro el o a b ho
  have hp := fun m n => hd el m n a b
  rw [addOrders_at _ _ _ _ (fun m hm => by
    rw [rotateDegree_eq b hp]; exact rotCoef_outside hm), ho, rotateDegree_eq b hp]
  rcases lt_trichotomy l el with h | h | h
  · rw [if_pos h, if_neg (by omega), if_pos (by omega), add_zero]
  · subst h
    rw [if_neg (by omega), if_pos rfl, if_pos (by omega), zero_add]
  · rw [if_neg (by omega), if_neg (by omega), if_neg (by omega), add_zero]

/-! ## Spin-0 harmonics as powers of a quadratic form -/

theorem qf_quad {R : Type*} [CommRing R] (p q r t p' q' r' t' : R) (h1 : p * r = p' * r')
    (h2 : p * t + q * r = p' * t' + q' * r') (h3 : q * t = q' * t') (a : ℕ) (i : ℤ) :
    qf p q r t a a i = qf p' q' r' t' a a i := by
  induction a generalizing i with
  | zero => simp
  | succ a ih =>
    rw [qf_succ_left, qf_succ_right, qf_succ_right, qf_succ_left, qf_succ_right, qf_succ_right,
      ← ih, ← ih, ← ih]
    linear_combination qf p q r t a a (i - 1 - 1) * h1 + qf p q r t a a (i - 1) * h2
      + qf p q r t a a i * h3

theorem U_quad (p q r t p' q' r' t' : ℂ) (h1 : p * r = p' * r')
    (h2 : p * t + q * r = p' * t' + q' * r') (h3 : q * t = q' * t') (l k : ℤ) (hl : 0 ≤ l) :
    U p q r t (2 * l) k l = U p' q' r' t' (2 * l) k l := by
  rw [U_of _ _ _ _ _ _ _ hl (by omega), U_of _ _ _ _ _ _ _ hl (by omega),
    show 2 * l - l = l by ring, qf_quad p q r t p' q' r' t' h1 h2 h3]

/-- `d^l_{m0}(θ) e^{imφ}`. -/
noncomputable def harm (l m : ℤ) (θ φ : ℝ) : ℂ := wignerd l m 0 θ * cis (m * φ)

theorem harm_form (l m : ℤ) (θ φ : ℝ) (hl : 0 ≤ l) :
    harm l m θ φ = U (cis (φ / 2) * Real.cos (θ / 2)) (cis (-(φ / 2)) * Real.sin (θ / 2))
      (-(cis (φ / 2) * Real.sin (θ / 2))) (cis (-(φ / 2)) * Real.cos (θ / 2)) (2 * l) (l + m) l := by
  unfold harm
  rw [wignerd_eq_U, U_ofReal, add_zero, U_of _ _ _ _ _ _ _ hl (by omega),
    U_of _ _ _ _ _ _ _ hl (by omega), show 2 * l - l = l by ring]
  have hw := cis_mul_neg (φ / 2)
  have e1 : cis (φ / 2) = cis (-(φ / 2)) * cis φ := by
    rw [← cis_add]; congr 1; ring
  have s1 := qf_smul (cis φ * (Real.cos (θ / 2) : ℂ)) (Real.sin (θ / 2) : ℂ)
    (cis φ * (-Real.sin (θ / 2) : ℂ)) (Real.cos (θ / 2) : ℂ) (cis (-(φ / 2))) (cis (-(φ / 2)))
    l.toNat l.toNat (l + m)
  have hu : cis φ ≠ 0 := Complex.exp_ne_zero _
  have s2 := qf_scale (Real.cos (θ / 2) : ℂ) (Real.sin (θ / 2) : ℂ) (-Real.sin (θ / 2) : ℂ)
    (Real.cos (θ / 2) : ℂ) (Units.mk0 _ hu) l.toNat l.toNat (l + m)
  rw [Units.val_mk0] at s2
  rw [s2] at s1
  rw [e1, show cis (-(φ / 2)) * cis φ * (Real.cos (θ / 2) : ℂ)
      = cis (-(φ / 2)) * (cis φ * Real.cos (θ / 2)) by ring,
    show -(cis (-(φ / 2)) * cis φ * (Real.sin (θ / 2) : ℂ))
      = cis (-(φ / 2)) * (cis φ * -Real.sin (θ / 2)) by ring, s1]
  have key : cis (-(φ / 2)) ^ l.toNat * cis (-(φ / 2)) ^ l.toNat
      * ((Units.mk0 (cis φ) hu ^ (l + m) : ℂˣ) : ℂ) = cis (m * φ) := by
    rw [Units.val_zpow_eq_zpow_val, Units.val_mk0, ← mul_pow, ← cis_add]
    rw [← zpow_natCast, Int.toNat_of_nonneg hl]
    rw [show -(φ / 2) + -(φ / 2) = -φ by ring]
    have h1 : ∀ (x : ℝ) (k : ℤ), cis x ^ k = cis (k * x) := by
      intro x k; rw [cis_int_mul]
    rw [h1, h1, ← cis_add]
    congr 1; push_cast; ring
  rw [← key]
  push_cast
  ring

private theorem quad_rot {w v w' v' c s C S cb sb x y x' y' : ℂ} (hwv : w * v = 1)
    (hwv' : w' * v' = 1) (hw : w * w = x + y * Complex.I) (hv : v * v = x - y * Complex.I)
    (hw' : w' * w' = x' + y' * Complex.I) (hv' : v' * v' = x' - y' * Complex.I)
    (hb : cb ^ 2 + sb ^ 2 = 1)
    (hx : 2 * S * C * x' = 2 * s * c * x * (cb ^ 2 - sb ^ 2) - (c ^ 2 - s ^ 2) * (2 * sb * cb))
    (hy : 2 * S * C * y' = 2 * s * c * y)
    (hz : C ^ 2 - S ^ 2 = 2 * s * c * x * (2 * sb * cb) + (c ^ 2 - s ^ 2) * (cb ^ 2 - sb ^ 2)) :
    (w * c * cb + v * s * sb) * (-(w * s) * cb + v * c * sb) = (w' * C) * (-(w' * S)) ∧
    (w * c * cb + v * s * sb) * (-(w * s) * -sb + v * c * cb)
        + (w * c * -sb + v * s * cb) * (-(w * s) * cb + v * c * sb)
      = (w' * C) * (v' * C) + (v' * S) * (-(w' * S)) ∧
    (w * c * -sb + v * s * cb) * (-(w * s) * -sb + v * c * cb) = (v' * S) * (v' * C) := by
  refine ⟨?_, ?_, ?_⟩
  · linear_combination -c * s * cb ^ 2 * hw + s * c * sb ^ 2 * hv + (c ^ 2 - s ^ 2) * cb * sb * hwv
      + C * S * hw' + hx / 2 + Complex.I / 2 * hy - c * s * y * Complex.I * hb
  · linear_combination 2 * c * s * cb * sb * hw + 2 * s * c * cb * sb * hv
      + (c ^ 2 - s ^ 2) * (cb ^ 2 - sb ^ 2) * hwv - (C ^ 2 - S ^ 2) * hwv' - hz
  · linear_combination -c * s * sb ^ 2 * hw + s * c * cb ^ 2 * hv - (c ^ 2 - s ^ 2) * cb * sb * hwv
      - C * S * hv' - hx / 2 + Complex.I / 2 * hy - c * s * y * Complex.I * hb

/-- Rotation about the y-axis. -/
theorem harm_rotY (l n : ℤ) (β θ φ θ' φ' : ℝ) (hl : 0 ≤ l)
    (hx : Real.sin θ' * Real.cos φ' = Real.sin θ * Real.cos φ * Real.cos β - Real.cos θ * Real.sin β)
    (hy : Real.sin θ' * Real.sin φ' = Real.sin θ * Real.sin φ)
    (hz : Real.cos θ' = Real.sin θ * Real.cos φ * Real.sin β + Real.cos θ * Real.cos β) :
    ∑ m ∈ Finset.Ico (-l) (l + 1), (wignerd l m n β : ℂ) * harm l m θ φ = harm l n θ' φ' := by
  have hmul := U_mul (cis (φ / 2) * Real.cos (θ / 2)) (cis (-(φ / 2)) * Real.sin (θ / 2))
      (-(cis (φ / 2) * Real.sin (θ / 2))) (cis (-(φ / 2)) * Real.cos (θ / 2))
      (Real.cos (-β / 2) : ℂ) (Real.sin (-β / 2) : ℂ) ((-Real.sin (-β / 2) : ℝ) : ℂ)
      (Real.cos (-β / 2) : ℂ) (2 * l) (l + n) l hl (by omega)
  have hsum : ∑ m ∈ Finset.Ico (-l) (l + 1), (wignerd l m n β : ℂ) * harm l m θ φ
      = ∑ i ∈ Finset.Ico 0 (2 * l + 1), U (cis (φ / 2) * Real.cos (θ / 2))
          (cis (-(φ / 2)) * Real.sin (θ / 2)) (-(cis (φ / 2) * Real.sin (θ / 2)))
          (cis (-(φ / 2)) * Real.cos (θ / 2)) (2 * l) i l
        * U (Real.cos (-β / 2) : ℂ) (Real.sin (-β / 2) : ℂ) ((-Real.sin (-β / 2) : ℝ) : ℂ)
          (Real.cos (-β / 2) : ℂ) (2 * l) (l + n) i := by
    have := sum_Ico_shift (-l) (l + 1) l (fun i => U (cis (φ / 2) * Real.cos (θ / 2))
          (cis (-(φ / 2)) * Real.sin (θ / 2)) (-(cis (φ / 2) * Real.sin (θ / 2)))
          (cis (-(φ / 2)) * Real.cos (θ / 2)) (2 * l) i l
        * U (Real.cos (-β / 2) : ℂ) (Real.sin (-β / 2) : ℂ) ((-Real.sin (-β / 2) : ℝ) : ℂ)
          (Real.cos (-β / 2) : ℂ) (2 * l) (l + n) i)
    rw [show -l + l = 0 by ring, show l + 1 + l = 2 * l + 1 by ring] at this
    rw [this]
    apply Finset.sum_congr rfl
    intro m _
    rw [← wignerd_neg_transpose, wignerd_eq_U, harm_form _ _ _ _ hl, U_ofReal, add_comm m l, mul_comm]
  rw [hsum, hmul, harm_form _ _ _ _ hl]
  have c1 : (Real.cos (-β / 2) : ℂ) = Real.cos (β / 2) := by rw [neg_div, Real.cos_neg]
  have c2 : (Real.sin (-β / 2) : ℂ) = -Real.sin (β / 2) := by rw [neg_div, Real.sin_neg]; push_cast; rfl
  have half : ∀ x : ℝ, Real.sin x = 2 * Real.sin (x / 2) * Real.cos (x / 2) ∧
      Real.cos x = Real.cos (x / 2) ^ 2 - Real.sin (x / 2) ^ 2 ∧
      Real.cos (x / 2) ^ 2 + Real.sin (x / 2) ^ 2 = 1 := by
    intro x
    refine ⟨?_, ?_, Real.cos_sq_add_sin_sq _⟩
    · rw [← Real.sin_two_mul]; congr 1; ring
    · rw [← Real.cos_two_mul']; congr 1; ring
  obtain ⟨a1, a2, a3⟩ := half θ
  obtain ⟨b1, b2, b3⟩ := half β
  obtain ⟨d1, d2, d3⟩ := half θ'
  have w1 := cis_mul_neg (φ / 2)
  have w2 := cis_mul_neg (φ' / 2)
  have ww : ∀ x : ℝ, cis (x / 2) * cis (x / 2) = (Real.cos x : ℂ) + Real.sin x * Complex.I := by
    intro x; rw [← cis_add, add_halves, cis_eq]; push_cast; rfl
  have ww' : ∀ x : ℝ, cis (-(x / 2)) * cis (-(x / 2))
      = (Real.cos x : ℂ) - Real.sin x * Complex.I := by
    intro x
    rw [← cis_add, ← neg_add, add_halves, cis_eq, ← Complex.ofReal_cos, ← Complex.ofReal_sin,
      Real.cos_neg, Real.sin_neg]
    push_cast; ring
  rw [a1, a2, b1, b2, d1] at hx
  rw [a1, d1] at hy
  rw [a1, a2, b1, b2, d2] at hz
  have hx' : 2 * (Real.sin (θ' / 2) : ℂ) * Real.cos (θ' / 2) * Real.cos φ'
      = 2 * Real.sin (θ / 2) * Real.cos (θ / 2) * Real.cos φ
          * ((Real.cos (β / 2)) ^ 2 - (Real.sin (β / 2)) ^ 2)
        - ((Real.cos (θ / 2)) ^ 2 - (Real.sin (θ / 2)) ^ 2)
          * (2 * Real.sin (β / 2) * Real.cos (β / 2)) := by exact_mod_cast hx
  have hy' : 2 * (Real.sin (θ' / 2) : ℂ) * Real.cos (θ' / 2) * Real.sin φ'
      = 2 * Real.sin (θ / 2) * Real.cos (θ / 2) * Real.sin φ := by exact_mod_cast hy
  have hz' : (Real.cos (θ' / 2) : ℂ) ^ 2 - (Real.sin (θ' / 2)) ^ 2
      = 2 * Real.sin (θ / 2) * Real.cos (θ / 2) * Real.cos φ
          * (2 * Real.sin (β / 2) * Real.cos (β / 2))
        + ((Real.cos (θ / 2)) ^ 2 - (Real.sin (θ / 2)) ^ 2)
          * ((Real.cos (β / 2)) ^ 2 - (Real.sin (β / 2)) ^ 2) := by exact_mod_cast hz
  have b3' : (Real.cos (β / 2) : ℂ) ^ 2 + (Real.sin (β / 2)) ^ 2 = 1 := by exact_mod_cast b3
  have c3 : ((-Real.sin (-β / 2) : ℝ) : ℂ) = Real.sin (β / 2) := by
    rw [neg_div, Real.sin_neg, neg_neg]
  rw [c1, c2, c3]
  obtain ⟨q1, q2, q3⟩ := quad_rot w1 w2 (ww φ) (ww' φ) (ww φ') (ww' φ') b3' hx' hy' hz'
  exact U_quad _ _ _ _ _ _ _ _ q1 q2 q3 l _ hl

theorem sYlm_harm (l m : ℤ) (θ φ : ℝ) :
    sYlm 0 l m θ φ = (√((2 * (l : ℝ) + 1) / (4 * Real.pi)) : ℝ) * harm l m θ φ := by
  unfold sYlm harm
  rw [neg_zero, zpow_zero]; push_cast; ring

theorem harm_shift (l m : ℤ) (θ φ a : ℝ) :
    harm l m θ (φ + a) = cis (m * a) * harm l m θ φ := by
  unfold harm
  rw [mul_add, cis_add]; ring

/-- The action of `R(α, β, γ)` on one degree. -/
theorem harm_euler (l n : ℤ) (α β γ θ φ θ' φ' : ℝ) (hl : 0 ≤ l)
    (h : direction θ φ = (euler α β γ).mulVec (direction θ' φ')) :
    ∑ m ∈ Finset.Ico (-l) (l + 1), cis (-(m * α)) * wignerd l m n β * cis (-(n * γ)) * harm l m θ φ
      = harm l n θ' φ' := by
  have h0 := congrFun h 0
  have h1 := congrFun h 1
  have h2 := congrFun h 2
  simp [direction, euler, rotZ, rotY, Matrix.mulVec, Matrix.mul_apply, Fin.sum_univ_three,
    Matrix.vecHead, Matrix.vecTail, dotProduct] at h0 h1 h2
  have sα := Real.sin_sq_add_cos_sq α
  have sβ := Real.sin_sq_add_cos_sq β
  have key := harm_rotY l n β θ (φ + -α) θ' (φ' + γ) hl
    (by
      simp only [Real.cos_add, Real.cos_neg, Real.sin_neg]
      linear_combination -(Real.cos α * Real.cos β) * h0 - Real.sin α * Real.cos β * h1
        + Real.sin β * h2 - (Real.cos β ^ 2 * (Real.sin θ' * Real.cos φ' * Real.cos γ
          - Real.sin θ' * Real.sin φ' * Real.sin γ) + Real.cos β * Real.sin β * Real.cos θ') * sα
        - (Real.sin θ' * Real.cos φ' * Real.cos γ - Real.sin θ' * Real.sin φ' * Real.sin γ) * sβ)
    (by
      simp only [Real.sin_add, Real.cos_neg, Real.sin_neg]
      linear_combination Real.sin α * h0 - Real.cos α * h1 - (Real.sin θ' * Real.sin φ' * Real.cos γ
        + Real.sin θ' * Real.cos φ' * Real.sin γ) * sα)
    (by
      simp only [Real.cos_add, Real.cos_neg, Real.sin_neg]
      linear_combination -(Real.cos α * Real.sin β) * h0 - Real.sin α * Real.sin β * h1
        - Real.cos β * h2 - (Real.cos θ' * Real.sin β ^ 2 + Real.sin β * Real.cos β
          * (Real.sin θ' * Real.cos φ' * Real.cos γ - Real.sin θ' * Real.sin φ' * Real.sin γ)) * sα
        - Real.cos θ' * sβ)
  rw [harm_shift l n θ' φ' γ] at key
  have e : harm l n θ' φ' = cis (-(n * γ)) * (cis (n * γ) * harm l n θ' φ') := by
    rw [← mul_assoc, mul_comm (cis (-(n * γ))), cis_mul_neg, one_mul]
  rw [e, ← key, Finset.mul_sum]
  apply Finset.sum_congr rfl
  intro m _
  rw [harm_shift, mul_neg]; ring

/-- The rotated coefficients are those of the rotated signal. -/
theorem harmonicSum_euler (L : ℤ) (c : ℤ → ℤ → ℂ) (α β γ θ φ θ' φ' : ℝ)
    (h : direction θ φ = (euler α β γ).mulVec (direction θ' φ')) :
    harmonicSum 0 L 0 (rotCoef α β γ c) θ φ = harmonicSum 0 L 0 c θ' φ' := by
  unfold harmonicSum
  apply Finset.sum_congr rfl
  intro l hl
  rw [Finset.mem_Ico] at hl
  unfold rotCoef
  simp only [Finset.sum_mul]
  rw [Finset.sum_comm]
  apply Finset.sum_congr rfl
  intro n _
  rw [sYlm_harm, ← harm_euler l n α β γ θ φ θ' φ' hl.1 h, Finset.mul_sum, Finset.mul_sum]
  apply Finset.sum_congr rfl
  intro m _
  rw [sYlm_harm]; ring

/-- A harmonic expansion determines its coefficients. -/
theorem harmonicSum_inj {lo L s : ℤ} {c c' : ℤ → ℤ → ℂ}
    (h : ∀ θ φ, harmonicSum lo L s c θ φ = harmonicSum lo L s c' θ φ) {l m : ℤ} (h0 : lo ≤ l)
    (h1 : l < L) (hs : |s| ≤ l) (hm : |m| ≤ l) : c l m = c' l m := by
  have hl0 : 0 ≤ l := le_trans (abs_nonneg _) hs
  have hL : 1 ≤ L := by omega
  have hmL : -L < m ∧ m < L := by rw [abs_le] at hm; omega
  have hn0 : ((2 * L - 1 : ℤ) : ℂ) ≠ 0 := by exact_mod_cast (by omega : 2 * L - 1 ≠ 0)
  have e1 : ∀ θ, trigPoly L (harmF lo L s c m) θ = trigPoly L (harmF lo L s c' m) θ := by
    intro θ
    have a := ring_fourier hL (le_refl (2 * L - 1)) (K := L) (harmF lo L s c) θ hmL.1 hmL.2
    have b := ring_fourier hL (le_refl (2 * L - 1)) (K := L) (harmF lo L s c') θ hmL.1 hmL.2
    simp only [← harmonicSum_sph] at a b
    simp only [h] at a
    exact mul_left_cancel₀ hn0 (a.symm.trans b)
  have hq := thetaRule_mwss (L := 2 * L) (by omega)
  have pick : ∀ c : ℤ → ℤ → ℂ, ∑ t ∈ Finset.Ico 0 (2 * L + 1),
      (quad_weights_mwss_theta_only (2 * L) 0 t : ℂ) * wignerd l m (-s) (t * Real.pi / (2 * L : ℤ))
        * trigPoly L (harmF lo L s c m) (t * Real.pi / (2 * L : ℤ))
      = c l m * ((-1) ^ s * (√((2 * (l : ℝ) + 1) / (4 * Real.pi)) : ℝ)) * (2 / (2 * (l : ℂ) + 1)) := by
    intro c
    have step : ∑ t ∈ Finset.Ico 0 (2 * L + 1),
      (quad_weights_mwss_theta_only (2 * L) 0 t : ℂ) * wignerd l m (-s) (t * Real.pi / (2 * L : ℤ))
        * trigPoly L (harmF lo L s c m) (t * Real.pi / (2 * L : ℤ))
      = ∑ l' ∈ Finset.Ico lo L, c l' m * ((-1) ^ s * (√((2 * (l' : ℝ) + 1) / (4 * Real.pi)) : ℝ))
        * ∑ t ∈ Finset.Ico 0 (2 * L + 1), (quad_weights_mwss_theta_only (2 * L) 0 t : ℂ) *
          (wignerd l m (-s) (t * Real.pi / (2 * L : ℤ)) * wignerd l' m (-s) (t * Real.pi / (2 * L : ℤ)))
        := by
      simp only [trigPoly_harmF, Finset.mul_sum]
      rw [Finset.sum_comm]
      apply Finset.sum_congr rfl
      intro l' _
      apply Finset.sum_congr rfl
      intro t _
      ring
    rw [step, Finset.sum_eq_single l]
    · rw [hq.ortho h1 h1 hm (by rwa [abs_neg]), if_pos rfl]
    · intro l' hl' hne
      rw [Finset.mem_Ico] at hl'
      rw [hq.ortho h1 hl'.2 hm (by rwa [abs_neg]), if_neg (Ne.symm hne), mul_zero]
    · intro h
      rw [Finset.mem_Ico] at h
      omega
  have := (pick c).symm.trans ((Finset.sum_congr rfl fun t _ => by rw [e1]).trans (pick c'))
  have hpos : (0 : ℝ) < 2 * (l : ℝ) + 1 := by
    have : (0 : ℝ) ≤ l := by exact_mod_cast hl0
    linarith
  have hpi := Real.pi_pos
  have n1 : (2 / (2 * (l : ℂ) + 1)) ≠ 0 :=
    div_ne_zero two_ne_zero (by exact_mod_cast hpos.ne')
  have n2 : ((-1 : ℂ) ^ s * (√((2 * (l : ℝ) + 1) / (4 * Real.pi)) : ℝ)) ≠ 0 := by
    refine mul_ne_zero (zpow_ne_zero _ (by norm_num)) ?_
    have : 0 < √((2 * (l : ℝ) + 1) / (4 * Real.pi)) := Real.sqrt_pos.mpr (by positivity)
    exact_mod_cast this.ne'
  exact mul_right_cancel₀ n2 (mul_right_cancel₀ n1 this)

end S2fft
