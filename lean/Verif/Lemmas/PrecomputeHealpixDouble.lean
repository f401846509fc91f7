import Verif.Model.PrecomputeHealpixDouble
import Verif.Lemmas.PrecomputeDouble
import Verif.Lemmas.GridDouble

/-! # The precomputed kernel of the HEALPix grid in double precision -/

namespace S2fft
open Spec

/-- The Risbo branch on HEALPix. -/
theorem kernelRisboF_near_hp (F : FftLib) {L spin nt : ℤ} {θ θ' : ℤ → ℝ} {E τ : ℝ}
    {reality : Bool} (hL : 1 ≤ L)
    (hL1 : L ≤ 2 ^ 26) (hE : Covers L E) (hθ4 : ∀ t, 0 ≤ t → t < nt → |θ' t| ≤ 4)
    (hθ : ∀ t, 0 ≤ t → t < nt → |θ' t - θ t| ≤ τ) (hτ : L * τ ≤ 1 / 4) (hs : |spin| < L) :
    ∃ K, kernelRisboF F L spin sHP nt θ' reality = .ok K ∧
      KernelNearF K L spin nt reality θ (2 * E + L * τ) := by
  obtain ⟨K, e, h⟩ := kernelRisboF_near_gl F (s := sGL) (spin := spin) (reality := reality) rfl hL hL1 hE hθ4
    hθ hτ hs
  refine ⟨K, ?_, h⟩
  rw [← e]
  unfold kernelRisboF
  rw [pyIndex_spin hs]
  simp only [bind, Except.bind, pure, Except.pure]
  rw [if_neg (show ¬ (lower sHP = sMW ∨ lower sHP = sMWSS ∨ lower sHP = sDH) by decide),
    if_neg (show ¬ (lower sGL = sMW ∨ lower sGL = sMWSS ∨ lower sGL = sDH) by decide),
    if_pos (show lower sHP = sHP ∨ lower sHP = sGL by decide),
    if_pos (show lower sGL = sHP ∨ lower sGL = sGL by decide)]

/-- A phase, with an error that grows with the order. -/
theorem expIF_order (F : DoubleLib) {m L : ℤ} {θ' θ : ℝ} (hL1 : L ≤ 2 ^ 26) (hm : |m| < L)
    (hθ0 : 0 ≤ θ) (hθ1 : θ ≤ 1) (hθ : |θ' - θ| ≤ θ / 2 ^ 51) :
    ‖expIF F m θ' - cis (m * θ)‖ ≤ L / 2 ^ 48 := by
  have hL : 1 ≤ L := by have := abs_nonneg m; omega
  have hL' : (1 : ℝ) ≤ L := by exact_mod_cast hL
  have hmL : |(m : ℝ)| ≤ L := by
    have : |m| ≤ L := hm.le
    exact_mod_cast this
  unfold expIF
  rw [fl_int F.nearest (by omega)]
  have h1 : |m * θ' - m * θ| ≤ L / 2 ^ 51 := by
    rw [← mul_sub, abs_mul]
    calc |(m : ℝ)| * |θ' - θ| ≤ L * (θ / 2 ^ 51) := by gcongr
      _ ≤ L * (1 / 2 ^ 51) := by gcongr
      _ = L / 2 ^ 51 := by ring
  have h2 := fl_step F.nearest h1 (B := 2 * L) (by
    rw [abs_mul, abs_of_nonneg hθ0]
    have : |(m : ℝ)| * θ ≤ L * 1 := by gcongr
    norm_num at this ⊢; linarith) (by norm_num; linarith)
  generalize F.fl (m * θ') = x at h2
  have hc := le_trans (Real.abs_cos_sub_cos_le x (m * θ)) h2
  have hs := le_trans (Real.abs_sin_sub_sin_le x (m * θ)) h2
  have c1 := abs_add_le (F.cos x - Real.cos x) (Real.cos x - Real.cos (m * θ))
  have s1 := abs_add_le (F.sin x - Real.sin x) (Real.sin x - Real.sin (m * θ))
  rw [sub_add_sub_cancel] at c1 s1
  have c2 := F.cos_near x
  have s2 := F.sin_near x
  refine le_trans (Complex.norm_le_abs_re_add_abs_im _) ?_
  rw [Complex.sub_re, Complex.sub_im, cis_re, cis_im]
  norm_num at hc hs c2 s2 ⊢
  linarith

/-- The azimuth of the first pixel of a ring. -/
theorem hp_first_phi (L : ℤ) {n t : ℤ} (h0 : 0 ≤ t) (h1 : t < 4 * n - 1) :
    0 ≤ Scheme.healpix.phi L n t 0 ∧ Scheme.healpix.phi L n t 0 ≤ 1 := by
  have hn : (4 : ℝ) ≤ ringSize n t := by
    have : 4 ≤ ringSize n t := by unfold ringSize; omega
    exact_mod_cast this
  have hsh : 0 ≤ Scheme.healpix.shift n t ∧ Scheme.healpix.shift n t ≤ 1 / 2 := by
    simp only [Scheme.shift]; split_ifs <;> norm_num
  have hpi := Real.pi_pos
  have hpi4 := Real.pi_le_four
  simp only [Scheme.phi, Scheme.ringLen]
  constructor
  · exact div_nonneg (mul_nonneg (by linarith) (by simpa using hsh.1)) (by linarith)
  · rw [div_le_one (by linarith)]
    push_cast
    nlinarith [hsh.1, hsh.2]

/-- A real entry times a phase. -/
theorem phase_entry (F : FftLib) {x a A ε η ζ : ℝ} {P p : ℂ} (hA : 0 ≤ A) (ha : |a| ≤ A)
    (hx : |x - a| ≤ A * ε + ζ) (hP : ‖P - p‖ ≤ η) (hp : ‖p‖ = 1) (hε : ε ≤ 1 / 2) (hη : η ≤ 1 / 8)
    (hζ : 0 ≤ ζ) :
    ‖F.mul x P - a * p‖ ≤ A * (ε + 2 * η + 2 / 2 ^ 50) + 2 * ζ + 1 / 2 ^ 1000 := by
  have hη0 : 0 ≤ η := (norm_nonneg _).trans hP
  have h1 := F.mul_near x P
  rw [Complex.norm_real, Real.norm_eq_abs] at h1
  have h2 : |x| ≤ 3 / 2 * A + ζ := by
    have := abs_sub_abs_le_abs_sub x a
    have : A * ε ≤ A * (1 / 2) := mul_le_mul_of_nonneg_left hε hA
    linarith
  have h3 : ‖P‖ ≤ 9 / 8 := by
    have := norm_sub_norm_le P p
    linarith
  have e : F.mul x P - a * p = (F.mul x P - x * P) + (x * (P - p) + (x - a : ℝ) * p) := by
    push_cast; ring
  rw [e]
  refine (norm_add_le _ _).trans ((add_le_add h1 ((norm_add_le _ _).trans (le_refl _))).trans ?_)
  rw [norm_mul, norm_mul, Complex.norm_real, Complex.norm_real, Real.norm_eq_abs, Real.norm_eq_abs, hp, mul_one]
  have h4 : |x| * ‖P‖ ≤ (3 / 2 * A + ζ) * (9 / 8) :=
    mul_le_mul h2 h3 (norm_nonneg _) (by linarith)
  have h5 : |x| * ‖P - p‖ ≤ (3 / 2 * A + ζ) * η := mul_le_mul h2 hP (norm_nonneg _) (by linarith)
  have h6 : ζ * η ≤ ζ * (1 / 8) := mul_le_mul_of_nonneg_left hη hζ
  have h7 : 0 ≤ A * η := mul_nonneg hA hη0
  have h8 : |x| * ‖P‖ / 2 ^ 50 ≤ 2 * A / 2 ^ 50 + ζ / 2 := by
    have : |x| * ‖P‖ ≤ 2 * A + 9 / 8 * ζ := by linarith
    norm_num; linarith
  generalize (1 / 2 ^ 1000 : ℝ) = u at *
  linarith

end S2fft
