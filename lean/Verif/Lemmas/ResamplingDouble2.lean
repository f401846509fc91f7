import Verif.Lemmas.ResamplingDouble
/-! # The error of the resampling in double precision: the steps -/
namespace S2fft
open Spec

/-- From rows to the array. -/
theorem rr2_lift {r c c' : ℤ} (hr : 0 ≤ r) {g d a : ℤ → ℤ → ℝ} {κ ρ : ℝ} (hκ : 0 ≤ κ) (hρ : 0 ≤ ρ)
    (h : ∀ t, 0 ≤ t → t < r → rr c' (g t) ≤ κ * (rr c (d t) + ρ * (rr c (a t) + rr c (d t) + tn))) :
    rr2 r c' g ≤ κ * (rr2 r c d + ρ * (rr2 r c a + rr2 r c d + √r * tn)) := by
  have htn := tn_pos
  refine (rr_bound hr (b := fun t => rr c (d t)) (c := fun t => rr c (a t)) (p := κ * (1 + ρ))
    (q := κ * ρ) (r := κ * ρ * tn) (by positivity) (by positivity) (by positivity)
    fun t t0 t1 => ?_).trans (le_of_eq ?_)
  · rw [abs_of_nonneg (rr_nonneg _ _)]
    refine (h t t0 t1).trans (le_of_eq ?_)
    ring
  · unfold rr2; ring

/-- The exact periodic extension. -/
noncomputable def extE (L : ℤ) (f : ℤ → ℤ → ℂ) (spin : ℤ) (t : ℤ) : ℤ → ℂ :=
  ifft (2 * L - 1) (ifftshift (2 * L - 1)
    (extensionRows L L (2 * L - 1) 0 (fun _ => f) (fun _ => spin) 0 t))

/-- The extension, with any way to scale. -/
noncomputable def extG (F : FftLib) (S : ℤ → ℤ → ℂ → ℂ) (L : ℤ) (f : ℤ → ℤ → ℂ) (spin t p : ℤ) : ℂ :=
  S t p (F.ifft (2 * L - 1) (ifftshift (2 * L - 1) (extensionRowsF F L f spin t)) p)

theorem extF_row (F : FftLib) {L : ℤ} (hL : 1 ≤ L) (hL1 : L ≤ 2 ^ 26) {S : ℤ → ℤ → ℂ → ℂ}
    (hS : ∀ t p, ScaleNear (2 * L - 1) (S t p)) (f f' : ℤ → ℤ → ℂ) (spin : ℤ)
    {t u : ℤ} (hu : (t < L ∧ u = t) ∨ (L ≤ t ∧ t < 2 * L - 1 ∧ u = L - 2 - (t - L))) :
    rr (2 * L - 1) (fun p => ‖extE L f spin t p‖) = rr (2 * L - 1) (fun p => ‖f u p‖) ∧
    rr (2 * L - 1) (fun p => ‖extG F S L f' spin t p - extE L f spin t p‖)
      ≤ rr (2 * L - 1) (fun p => ‖f' u p - f u p‖) + 9 * ftErr (2 * L - 1)
        * (rr (2 * L - 1) (fun p => ‖f u p‖) + rr (2 * L - 1) (fun p => ‖f' u p - f u p‖) + tn) := by
  refine extF_step F (by omega) (by omega) (hS t) (f u) (f' u) _ _ fun j j0 j1 => ?_
  rcases hu with ⟨h1, rfl⟩ | ⟨h1, h2, rfl⟩
  · unfold extensionRows extensionRowsF
    simp only [add_zero]
    rw [if_neg (by omega), if_neg (by omega), if_neg (by omega), if_neg (by omega), if_neg (by omega),
      if_neg (by omega)]
    simp only [h1, if_true]
    exact ⟨trivial, trivial⟩
  · unfold extensionRows extensionRowsF
    simp only [add_zero]
    rw [if_pos (by omega), if_pos (by omega), if_pos (by omega), if_pos (by omega), if_pos (by omega),
      if_pos (by omega)]
    simp only [show L - 1 - 1 - (t - L) < L by omega, show L - 2 - (t - L) < L by omega, if_true, sub_zero]
    rw [show L - 1 - 1 - (t - L) = L - 2 - (t - L) by ring, ← sub_mul, ← sub_mul]
    simp only [norm_mul, norm_pow, norm_neg, norm_one, one_pow, mul_one]
    exact ⟨trivial, trivial⟩

theorem extF_near (F : FftLib) {L : ℤ} (hL : 1 ≤ L) (hL1 : L ≤ 2 ^ 26) {S : ℤ → ℤ → ℂ → ℂ}
    (hS : ∀ t p, ScaleNear (2 * L - 1) (S t p)) (f f' : ℤ → ℤ → ℂ) (spin : ℤ) :
    rr2 (2 * L - 1) (2 * L - 1) (fun t p => ‖extE L f spin t p‖)
      ≤ √2 * rr2 L (2 * L - 1) (fun t p => ‖f t p‖) ∧
    rr2 (2 * L - 1) (2 * L - 1) (fun t p => ‖extG F S L f' spin t p - extE L f spin t p‖)
      ≤ √2 * (rr2 L (2 * L - 1) (fun t p => ‖f' t p - f t p‖) + 9 * ftErr (2 * L - 1)
        * (rr2 L (2 * L - 1) (fun t p => ‖f t p‖) + rr2 L (2 * L - 1) (fun t p => ‖f' t p - f t p‖)
          + √L * tn)) := by
  have hu0 := ftErr_nonneg (n := 2 * L - 1) (by omega)
  constructor
  · have := rr_reflect (n := L) (k := L - 1) (e := fun t => rr (2 * L - 1) (fun p => ‖extE L f spin t p‖))
      (b := fun t => rr (2 * L - 1) (fun p => ‖f t p‖)) (by omega) (by omega) (fun t t0 t1 => by
        rw [abs_of_nonneg (rr_nonneg _ _)]
        exact (extF_row F hL hL1 hS f f' spin (Or.inl ⟨t1, rfl⟩)).1.le) (L - 2) (by omega) (by omega)
      (fun t t0 t1 => by
        rw [abs_of_nonneg (rr_nonneg _ _)]
        exact (extF_row F hL hL1 hS f f' spin (Or.inr ⟨t0, by omega, rfl⟩)).1.le)
    rwa [show L + (L - 1) = 2 * L - 1 by ring] at this
  · have := rr_reflect (n := L) (k := L - 1)
      (e := fun t => rr (2 * L - 1) (fun p => ‖extG F S L f' spin t p - extE L f spin t p‖))
      (b := fun t => rr (2 * L - 1) (fun p => ‖f' t p - f t p‖) + 9 * ftErr (2 * L - 1)
        * (rr (2 * L - 1) (fun p => ‖f t p‖) + rr (2 * L - 1) (fun p => ‖f' t p - f t p‖) + tn))
      (by omega) (by omega) (fun t t0 t1 => by
        rw [abs_of_nonneg (rr_nonneg _ _)]
        exact (extF_row F hL hL1 hS f f' spin (Or.inl ⟨t1, rfl⟩)).2) (L - 2) (by omega) (by omega)
      (fun t t0 t1 => by
        rw [abs_of_nonneg (rr_nonneg _ _)]
        exact (extF_row F hL hL1 hS f f' spin (Or.inr ⟨t0, by omega, rfl⟩)).2)
    rw [show L + (L - 1) = 2 * L - 1 by ring] at this
    refine this.trans (mul_le_mul_of_nonneg_left ?_ (Real.sqrt_nonneg _))
    have htn := tn_pos
    refine (rr_bound (by omega) (b := fun t => rr (2 * L - 1) (fun p => ‖f' t p - f t p‖))
      (c := fun t => rr (2 * L - 1) (fun p => ‖f t p‖)) (p := 1 + 9 * ftErr (2 * L - 1))
      (q := 9 * ftErr (2 * L - 1)) (r := 9 * ftErr (2 * L - 1) * tn) (by positivity) (by positivity)
      (by positivity) fun t t0 t1 => ?_).trans (le_of_eq ?_)
    · rw [abs_of_nonneg]
      · exact le_of_eq (by ring)
      · have h1 := rr_nonneg (2 * L - 1) (fun p => ‖f t p‖)
        have h2 := rr_nonneg (2 * L - 1) (fun p => ‖f' t p - f t p‖)
        positivity
    · unfold rr2; ring

/-- Sine and cosine of a rounded angle. -/
theorem phase_near (F : DoubleLib) {x y : ℝ} (h : |x - y| ≤ 15 / 2 ^ 53) :
    ‖(⟨F.cos x, F.sin x⟩ : ℂ) - cis y‖ ≤ 6 / 2 ^ 50 := by
  have hc := le_trans (Real.abs_cos_sub_cos_le x y) h
  have hs := le_trans (Real.abs_sin_sub_sin_le x y) h
  have hc' := (abs_sub_le (F.cos x) (Real.cos x) (Real.cos y)).trans (add_le_add (F.cos_near x) hc)
  have hs' := (abs_sub_le (F.sin x) (Real.sin x) (Real.sin y)).trans (add_le_add (F.sin_near x) hs)
  refine le_trans (Complex.norm_le_abs_re_add_abs_im _) ?_
  rw [Complex.sub_re, Complex.sub_im, cis_re, cis_im]
  norm_num at hc' hs' ⊢
  linarith

/-- The phases of the shift of the grid. -/
theorem mwssPhaseF_near (F : FftLib) {L m : ℤ} (hL : 1 ≤ L) (hL1 : L ≤ 2 ^ 26) (hm : |m| < L) :
    ‖mwssPhaseF F L m - cis (-((m : ℝ) * Real.pi / (2 * L - 1)))‖ ≤ 6 / 2 ^ 50 := by
  have hL' : (1 : ℝ) ≤ L := by exact_mod_cast hL
  have hL2 : (L : ℝ) ≤ 2 ^ 26 := by exact_mod_cast hL1
  have hm1 : 2 * |(m : ℝ)| ≤ 2 * L - 1 := by
    rw [← Int.cast_abs]
    exact_mod_cast (by omega : 2 * |m| ≤ 2 * L - 1)
  have hpi := Real.pi_le_four
  have hpi0 := Real.pi_pos
  unfold mwssPhaseF
  push_cast
  obtain ⟨R, hR⟩ : ∃ R : ℝ, R = 2 * L - 1 := ⟨_, rfl⟩
  rw [← hR] at hm1 ⊢
  have hR1 : 1 ≤ R := by linarith
  have hR2 : R ≤ 2 ^ 27 := by norm_num at hL2 ⊢; linarith
  have h0 := fl_near F.nearest (x := Real.pi) (B := 4) (by rw [abs_of_pos hpi0]; exact hpi)
  have hA : |(-(m : ℝ)) * Real.pi| ≤ 2 * R := by
    rw [abs_mul, abs_neg, abs_of_pos hpi0]
    nlinarith [abs_nonneg (m : ℝ)]
  have h1 : |-(m : ℝ) * F.fl Real.pi - -(m : ℝ) * Real.pi| ≤ 2 * R / 2 ^ 53 := by
    rw [← mul_sub, abs_mul, abs_neg]
    calc |(m : ℝ)| * |F.fl Real.pi - Real.pi| ≤ (R / 2) * (4 / 2 ^ 53) := by
          gcongr; linarith
      _ = 2 * R / 2 ^ 53 := by ring
  have h2 := fl_step F.nearest h1 (B := 3 * R) (by norm_num; norm_num at hA; linarith)
    (by norm_num; linarith)
  have h3 := fl_near F.nearest (x := 1 / R) (B := 1 / R) (by rw [abs_of_pos (by positivity)])
    (by rw [div_le_div_iff₀ (by positivity) (by positivity)]; norm_num at hR2 ⊢; linarith)
  generalize F.fl (-(m : ℝ) * F.fl Real.pi) = p at h2 ⊢
  generalize F.fl (1 / R) = q at h3 ⊢
  generalize hA' : -(m : ℝ) * Real.pi = A at hA h2
  have hq : |q| ≤ 2 / R := by
    have := abs_sub_abs_le_abs_sub q (1 / R)
    rw [abs_of_pos (by positivity : 0 < 1 / R)] at this
    have h4 : 1 / R / 2 ^ 53 ≤ 1 / R * (1 / 2 ^ 53) := le_of_eq (by ring)
    have h5 : 0 < 1 / R := by positivity
    have : |q| ≤ 1 / R + 1 / R / 2 ^ 53 := by linarith
    refine this.trans ?_
    rw [show 2 / R = 1 / R + 1 / R by ring]
    exact add_le_add le_rfl (div_le_self h5.le (by norm_num))
  have h4 : |p * q - A * (1 / R)| ≤ 12 / 2 ^ 53 := by
    rw [show p * q - A * (1 / R) = (p - A) * q + A * (q - 1 / R) by ring]
    refine (abs_add_le _ _).trans ?_
    rw [abs_mul, abs_mul]
    calc |p - A| * |q| + |A| * |q - 1 / R|
        ≤ (2 * R / 2 ^ 53 + 3 * R / 2 ^ 53) * (2 / R) + 2 * R * (1 / R / 2 ^ 53) := by gcongr
      _ = 12 / 2 ^ 53 := by field_simp; norm_num
  have hA2 : |A * (1 / R)| ≤ 2 := by
    rw [abs_mul, abs_of_pos (by positivity : 0 < 1 / R)]
    calc |A| * (1 / R) ≤ 2 * R * (1 / R) := by gcongr
      _ = 2 := by field_simp
  have h5 := fl_step F.nearest h4 (B := 3) (by norm_num; norm_num at hA2; linarith)
  rw [show -((m : ℝ) * Real.pi / R) = A * (1 / R) by rw [← hA']; ring]
  generalize F.fl (p * q) = x at h5 ⊢
  generalize A * (1 / R) = y at h5 ⊢
  exact phase_near F.toDoubleLib (h5.trans (by norm_num))

/-- The factor `√(n' / n)`. -/
theorem sqrt_ratio {n n' : ℤ} (hn : 0 < n) (h : n' ≤ 2 * n) : √(n' : ℝ) / √n ≤ √2 := by
  have hn' : (0 : ℝ) < n := by exact_mod_cast hn
  rw [div_le_iff₀ (Real.sqrt_pos.2 hn'), ← Real.sqrt_mul (by norm_num)]
  exact Real.sqrt_le_sqrt (by exact_mod_cast h)

/-- The exact change of the colatitudes. -/
noncomputable def thetaE (L : ℤ) (e : ℤ → ℤ → ℂ) (t p : ℤ) : ℂ :=
  ifft_fwd (2 * L) (ifftshift (2 * L) (mwssThetaRows (fun _ => e) L 0 p)) t

/-- The change of the colatitudes, from the extended signal. -/
noncomputable def thetaF (F : FftLib) (c : ℤ → ℂ) (L : ℤ) (e : ℤ → ℤ → ℂ) (t p : ℤ) : ℂ :=
  F.ifft (2 * L) (ifftshift (2 * L) (fun j => if 1 ≤ j then
    F.mul (fftshift (2 * L - 1) (fftFwdF F (2 * L - 1) (fun t => e t p)) (j - 1))
      (c (-(L - 1) + (j - 1))) else 0)) t

theorem thetaF_near (F : FftLib) {L : ℤ} (hL : 1 ≤ L) (hL1 : L ≤ 2 ^ 26) {ph : ℤ → ℂ}
    (hph : ∀ m, |m| < L → ‖ph m - cis (-((m : ℝ) * Real.pi / (2 * L - 1)))‖ ≤ 6 / 2 ^ 50) (e e' : ℤ → ℤ → ℂ) :
    rr2 (2 * L) (2 * L - 1) (fun t p => ‖thetaE L e t p‖)
      ≤ √2 * rr2 (2 * L - 1) (2 * L - 1) (fun t p => ‖e t p‖) ∧
    rr2 (2 * L) (2 * L - 1) (fun t p => ‖thetaF F ph L e' t p - thetaE L e t p‖)
      ≤ √2 * (rr2 (2 * L - 1) (2 * L - 1) (fun t p => ‖e' t p - e t p‖)
        + (9 * ftErr (2 * L) + 16 / 2 ^ 50) * (rr2 (2 * L - 1) (2 * L - 1) (fun t p => ‖e t p‖)
          + rr2 (2 * L - 1) (2 * L - 1) (fun t p => ‖e' t p - e t p‖) + √(2 * L - 1 : ℤ) * tn)) := by
  have hu0 := ftErr_nonneg (n := 2 * L) (by omega)
  have hk := sqrt_ratio (n := 2 * L - 1) (n' := 2 * L) (by omega) (by omega)
  have col : ∀ p, _ := fun p => interpF_step F (n := 2 * L - 1) (n' := 2 * L) (s := 1) (by omega) (by omega)
    (by omega) (by omega) (fun t => e t p) (fun t => e' t p) (mwssThetaRows (fun _ => e) L 0 p)
    (fun j => if 1 ≤ j then
      F.mul (fftshift (2 * L - 1) (fftFwdF F (2 * L - 1) (fun t => e' t p)) (j - 1))
        (ph (-(L - 1) + (j - 1))) else 0) (ν := 8 / 2 ^ 50) (by positivity) (by norm_num)
    (fun j j0 j1 => by
      unfold mwssThetaRows
      simp only [if_pos j0]
      set q := fftshift (2 * L - 1) (fft_fwd (2 * L - 1) (fun t => e t p)) (j - 1)
      set q' := fftshift (2 * L - 1) (fftFwdF F (2 * L - 1) (fun t => e' t p)) (j - 1)
      have hph := hph (-(L - 1) + (j - 1)) (abs_lt.2 ⟨by omega, by omega⟩)
      set c := cis (-(((-(L - 1) + (j - 1) : ℤ) : ℝ) * Real.pi / (2 * (L : ℝ) - 1))) with hc
      set c' := ph (-(L - 1) + (j - 1))
      have hc1 : ‖c‖ = 1 := by rw [hc]; exact norm_cis _
      refine ⟨by rw [norm_mul, hc1, mul_one], ?_⟩
      have h1 := F.mul_near q' c'
      have hc2 : ‖c'‖ ≤ 2 := by
        have := norm_le_norm_add_norm_sub' c' c
        norm_num at hph
        linarith
      have h2 : ‖q' * c' - q * c‖ ≤ ‖q'‖ * (6 / 2 ^ 50) + ‖q' - q‖ := by
        rw [show q' * c' - q * c = q' * (c' - c) + (q' - q) * c by ring]
        refine (norm_add_le _ _).trans ?_
        rw [norm_mul, norm_mul, hc1, mul_one]
        gcongr
      have h3 : ‖q'‖ * ‖c'‖ / 2 ^ 50 ≤ ‖q'‖ * 2 / 2 ^ 50 := by gcongr
      have h4 := norm_sub_le_norm_sub_add_norm_sub (F.mul q' c') (q' * c') (q * c)
      linarith)
    (fun j hj j0 j1 => by
      unfold mwssThetaRows
      have : ¬ 1 ≤ j := by omega
      simp only [if_neg this]
      exact ⟨trivial, trivial⟩)
  rw [rr2_comm _ _ (fun t p => ‖thetaE L e t p‖), rr2_comm _ _ (fun t p => ‖e t p‖),
    rr2_comm _ _ (fun t p => ‖thetaF F ph L e' t p - thetaE L e t p‖),
    rr2_comm _ _ (fun t p => ‖e' t p - e t p‖)]
  constructor
  · unfold rr2
    rw [← rr_mul _ (Real.sqrt_nonneg _)]
    refine rr_le_rr fun p p0 p1 => ?_
    rw [abs_of_nonneg (rr_nonneg _ _)]
    refine (le_of_eq (col p).1).trans (mul_le_mul_of_nonneg_right hk (rr_nonneg _ _))
  · refine rr2_lift (by omega) (Real.sqrt_nonneg _) (by positivity) fun p p0 p1 => ?_
    refine (col p).2.trans ?_
    have h1 := rr_nonneg (2 * L - 1) (fun t => ‖e t p‖)
    have h2 := rr_nonneg (2 * L - 1) (fun t => ‖e' t p - e t p‖)
    have htn := tn_pos
    refine (le_of_eq ?_).trans (mul_le_mul_of_nonneg_right hk (by positivity))
    ring

theorem phiF_near (F : FftLib) {L : ℤ} (hL : 1 ≤ L) (hL1 : L ≤ 2 ^ 26) (g g' : ℤ → ℤ → ℂ) :
    rr2 (L + 1) (2 * L) (fun t p => ‖mw_to_mwss_phi (fun _ => g) L 0 t p‖)
      ≤ √2 * rr2 (L + 1) (2 * L - 1) (fun t p => ‖g t p‖) ∧
    rr2 (L + 1) (2 * L) (fun t p => ‖mwssPhiF F L g' t p - mw_to_mwss_phi (fun _ => g) L 0 t p‖)
      ≤ √2 * (rr2 (L + 1) (2 * L - 1) (fun t p => ‖g' t p - g t p‖)
        + 9 * ftErr (2 * L) * (rr2 (L + 1) (2 * L - 1) (fun t p => ‖g t p‖)
          + rr2 (L + 1) (2 * L - 1) (fun t p => ‖g' t p - g t p‖) + √(L + 1 : ℤ) * tn)) := by
  have hu0 := ftErr_nonneg (n := 2 * L) (by omega)
  have hk := sqrt_ratio (n := 2 * L - 1) (n' := 2 * L) (by omega) (by omega)
  have row : ∀ t, _ := fun t => interpF_step F (n := 2 * L - 1) (n' := 2 * L) (s := 1) (by omega) (by omega)
    (by omega) (by omega) (g t) (g' t)
    (fun j => if 1 ≤ j then fftshift (2 * L - 1) (fft_fwd (2 * L - 1) (g t)) (j - 1) else 0)
    (fun j => if 1 ≤ j then fftshift (2 * L - 1) (fftFwdF F (2 * L - 1) (g' t)) (j - 1) else 0)
    (ν := 0) le_rfl (by norm_num) (fun j j0 j1 => by
      simp only [if_pos j0]
      refine ⟨trivial, ?_⟩
      rw [zero_mul, add_zero]
      exact le_add_of_nonneg_right (by positivity))
    (fun j hj j0 j1 => by
      have : ¬ 1 ≤ j := by omega
      simp only [if_neg this]
      exact ⟨trivial, trivial⟩)
  constructor
  · unfold rr2
    rw [← rr_mul _ (Real.sqrt_nonneg _)]
    refine rr_le_rr fun t t0 t1 => ?_
    rw [abs_of_nonneg (rr_nonneg _ _)]
    exact (le_of_eq (row t).1).trans (mul_le_mul_of_nonneg_right hk (rr_nonneg _ _))
  · refine rr2_lift (by omega) (Real.sqrt_nonneg _) (by positivity) fun t t0 t1 => ?_
    refine (row t).2.trans ?_
    have h1 := rr_nonneg (2 * L - 1) (fun p => ‖g t p‖)
    have h2 := rr_nonneg (2 * L - 1) (fun p => ‖g' t p - g t p‖)
    have htn := tn_pos
    rw [mul_zero, add_zero]
    exact mul_le_mul_of_nonneg_right hk (by positivity)

/-- The exact extension of MWSS. -/
noncomputable def extMwssE (L : ℤ) (f : ℤ → ℤ → ℂ) (spin : ℤ) : ℤ → ℤ → ℂ :=
  periodic_extension_spatial_mwss (fun _ => f) L (fun _ => spin) 0

theorem extMwss_near {L : ℤ} (hL : 1 ≤ L) (f f' : ℤ → ℤ → ℂ) (spin : ℤ) :
    rr2 (2 * L) (2 * L) (fun t p => ‖extMwssE L f spin t p‖)
      ≤ √2 * rr2 (L + 1) (2 * L) (fun t p => ‖f t p‖) ∧
    rr2 (2 * L) (2 * L) (fun t p => ‖extensionMwssF L f' spin t p - extMwssE L f spin t p‖)
      ≤ √2 * rr2 (L + 1) (2 * L) (fun t p => ‖f' t p - f t p‖) := by
  constructor
  · have := rr_reflect (n := L + 1) (k := L - 1)
      (e := fun t => rr (2 * L) (fun p => ‖extMwssE L f spin t p‖))
      (b := fun t => rr (2 * L) (fun p => ‖f t p‖)) (by omega) (by omega) (fun t t0 t1 => by
        rw [abs_of_nonneg (rr_nonneg _ _)]
        refine le_of_eq (rr_congr fun p _ _ => ?_)
        unfold extMwssE periodic_extension_spatial_mwss
        rw [if_pos t1]) (L - 1) (by omega) (by omega) (fun t t0 t1 => by
        rw [abs_of_nonneg (rr_nonneg _ _), ← rr_fftshift (by omega) (fun p => ‖f _ p‖)]
        refine le_of_eq (rr_congr fun p _ _ => ?_)
        unfold extMwssE periodic_extension_spatial_mwss
        rw [if_neg (by omega), norm_mul, norm_pow, norm_neg, norm_one, one_pow, one_mul]; rfl)
    rwa [show L + 1 + (L - 1) = 2 * L by ring] at this
  · have := rr_reflect (n := L + 1) (k := L - 1)
      (e := fun t => rr (2 * L) (fun p => ‖extensionMwssF L f' spin t p - extMwssE L f spin t p‖))
      (b := fun t => rr (2 * L) (fun p => ‖f' t p - f t p‖)) (by omega) (by omega) (fun t t0 t1 => by
        rw [abs_of_nonneg (rr_nonneg _ _)]
        refine le_of_eq (rr_congr fun p _ _ => ?_)
        unfold extMwssE periodic_extension_spatial_mwss extensionMwssF
        rw [if_pos t1, if_pos t1]) (L - 1) (by omega) (by omega) (fun t t0 t1 => by
        rw [abs_of_nonneg (rr_nonneg _ _), ← rr_fftshift (by omega) (fun p => ‖f' _ p - f _ p‖)]
        refine le_of_eq (rr_congr fun p _ _ => ?_)
        unfold extMwssE periodic_extension_spatial_mwss extensionMwssF
        rw [if_neg (by omega), if_neg (by omega), ← mul_sub, norm_mul, norm_pow, norm_neg, norm_one,
          one_pow, one_mul]; rfl)
    rwa [show L + 1 + (L - 1) = 2 * L by ring] at this

/-- Interpolation to twice the number of colatitudes. -/
noncomputable def upE (L : ℤ) (e : ℤ → ℤ → ℂ) : ℤ → ℤ → ℂ := upsample_by_two_mwss_ext (fun _ => e) L 0

noncomputable def upF (F : FftLib) (L : ℤ) (e : ℤ → ℤ → ℂ) (t p : ℤ) : ℂ :=
  F.ifft (2 * (2 * L)) (ifftshift (2 * (2 * L)) (fun j => if L ≤ j ∧ j < 2 * L + L then
    fftshift (2 * L) (fftFwdF F (2 * L) (fun t => e t p)) (j - L) else 0)) t

theorem upF_near (F : FftLib) {L : ℤ} (hL : 1 ≤ L) (hL1 : L ≤ 2 ^ 26) (e e' : ℤ → ℤ → ℂ) :
    rr2 (2 * (2 * L)) (2 * L) (fun t p => ‖upE L e t p‖)
      ≤ √2 * rr2 (2 * L) (2 * L) (fun t p => ‖e t p‖) ∧
    rr2 (2 * (2 * L)) (2 * L) (fun t p => ‖upF F L e' t p - upE L e t p‖)
      ≤ √2 * (rr2 (2 * L) (2 * L) (fun t p => ‖e' t p - e t p‖)
        + 9 * ftErr (2 * (2 * L)) * (rr2 (2 * L) (2 * L) (fun t p => ‖e t p‖)
          + rr2 (2 * L) (2 * L) (fun t p => ‖e' t p - e t p‖) + √(2 * L : ℤ) * tn)) := by
  have hu0 := ftErr_nonneg (n := 2 * (2 * L)) (by omega)
  have hk := sqrt_ratio (n := 2 * L) (n' := 2 * (2 * L)) (by omega) (by omega)
  have col : ∀ p, _ := fun p => interpF_step F (n := 2 * L) (n' := 2 * (2 * L)) (s := L) (by omega) (by omega)
    (by omega) (by omega) (fun t => e t p) (fun t => e' t p)
    (fun j => if L ≤ j ∧ j < 2 * L + L then
      fftshift (2 * L) (fft_fwd (2 * L) (fun t => e t p)) (j - L) else 0)
    (fun j => if L ≤ j ∧ j < 2 * L + L then
      fftshift (2 * L) (fftFwdF F (2 * L) (fun t => e' t p)) (j - L) else 0)
    (ν := 0) le_rfl (by norm_num) (fun j j0 j1 => by
      simp only [if_pos (And.intro j0 j1)]
      refine ⟨trivial, ?_⟩
      rw [zero_mul, add_zero]
      exact le_add_of_nonneg_right (by positivity))
    (fun j hj j0 j1 => by
      simp only [if_neg hj]
      exact ⟨trivial, trivial⟩)
  rw [rr2_comm _ _ (fun t p => ‖upE L e t p‖), rr2_comm _ _ (fun t p => ‖e t p‖),
    rr2_comm _ _ (fun t p => ‖upF F L e' t p - upE L e t p‖),
    rr2_comm _ _ (fun t p => ‖e' t p - e t p‖)]
  constructor
  · unfold rr2
    rw [← rr_mul _ (Real.sqrt_nonneg _)]
    refine rr_le_rr fun p p0 p1 => ?_
    rw [abs_of_nonneg (rr_nonneg _ _)]
    exact (le_of_eq (col p).1).trans (mul_le_mul_of_nonneg_right hk (rr_nonneg _ _))
  · refine rr2_lift (by omega) (Real.sqrt_nonneg _) (by positivity) fun p p0 p1 => ?_
    refine (col p).2.trans ?_
    have h1 := rr_nonneg (2 * L) (fun t => ‖e t p‖)
    have h2 := rr_nonneg (2 * L) (fun t => ‖e' t p - e t p‖)
    have htn := tn_pos
    rw [mul_zero, add_zero]
    exact mul_le_mul_of_nonneg_right hk (by positivity)

/-- One more step of the chain. -/
theorem chain_step {s ρ A A' D D' T' A0 T P : ℝ} (h1 : A' ≤ √2 * A)
    (h2 : D' ≤ √2 * (D + ρ * (A + D + T'))) (hρ : 0 ≤ ρ) (hA : A ≤ s * A0) (hT : T' ≤ s * T)
    (hD : D ≤ s * (P - (A0 + T))) :
    A' ≤ √2 * s * A0 ∧ D' ≤ √2 * s * ((1 + ρ) * P - (A0 + T)) := by
  constructor
  · refine h1.trans ?_
    rw [mul_assoc]
    exact mul_le_mul_of_nonneg_left hA (Real.sqrt_nonneg _)
  · refine h2.trans ?_
    rw [mul_assoc]
    refine mul_le_mul_of_nonneg_left ?_ (Real.sqrt_nonneg _)
    have h3 := mul_le_mul_of_nonneg_left (add_le_add (add_le_add hA hD) hT) hρ
    have e : s * (P - (A0 + T)) + ρ * (s * A0 + s * (P - (A0 + T)) + s * T)
      = s * ((1 + ρ) * P - (A0 + T)) := by ring
    linarith

theorem chain_exact {s A A' D D' A0 P : ℝ} (h1 : A' ≤ √2 * A) (h2 : D' ≤ √2 * D) (hA : A ≤ s * A0)
    (hD : D ≤ s * P) : A' ≤ √2 * s * A0 ∧ D' ≤ √2 * s * P := by
  constructor
  · refine h1.trans ?_
    rw [mul_assoc]
    exact mul_le_mul_of_nonneg_left hA (Real.sqrt_nonneg _)
  · refine h2.trans ?_
    rw [mul_assoc]
    exact mul_le_mul_of_nonneg_left hD (Real.sqrt_nonneg _)

/-- The relative error of a step. -/
noncomputable def rhoF (L : ℤ) : ℝ := 9 * ftErr (2 * (2 * L)) + 16 / 2 ^ 50

theorem mwInner_near (F : FftLib) {L : ℤ} (hL : 1 ≤ L) (hL1 : L ≤ 2 ^ 26) {S : ℤ → ℤ → ℂ → ℂ}
    (hS : ∀ t p, ScaleNear (2 * L - 1) (S t p)) {ph : ℤ → ℂ}
    (hph : ∀ m, |m| < L → ‖ph m - cis (-((m : ℝ) * Real.pi / (2 * L - 1)))‖ ≤ 6 / 2 ^ 50) (f f' : ℤ → ℤ → ℂ) (spin : ℤ)
    {A0 D0 : ℝ} (hA : rr2 L (2 * L - 1) (fun t p => ‖f t p‖) ≤ A0)
    (hD : rr2 L (2 * L - 1) (fun t p => ‖f' t p - f t p‖) ≤ D0) :
    rr2 (2 * L + 1) (2 * L) (fun t p => ‖upsampleF F L (mwssPhiF F L (thetaF F ph L (extG F S L f' spin))) spin t p
        - innerSignal .mw L spin f t p‖)
      ≤ √2 ^ 5 * ((1 + rhoF L) ^ 4 * (D0 + (A0 + √(2 * L : ℤ) * tn)) - (A0 + √(2 * L : ℤ) * tn)) := by
  have htn := tn_pos
  have hu := ftErr_nonneg (n := 2 * (2 * L)) (by omega)
  have hρ : 0 ≤ rhoF L := by unfold rhoF; positivity
  have hs2 : 1 ≤ √2 := Real.one_le_sqrt.2 (by norm_num)
  obtain ⟨T, hT⟩ : ∃ T, T = √(2 * L : ℤ) * tn := ⟨_, rfl⟩
  have hT0 : 0 ≤ T := by rw [hT]; positivity
  have tt : ∀ n s, n ≤ 2 * L → 1 ≤ s → √(n : ℤ) * tn ≤ s * T := fun n s hn hs => by
    have : √(n : ℤ) * tn ≤ T := by
      rw [hT]
      exact mul_le_mul_of_nonneg_right (Real.sqrt_le_sqrt (by exact_mod_cast hn)) htn.le
    exact this.trans (le_mul_of_one_le_left hT0 hs)
  have s2 := one_le_mul_of_one_le_of_one_le hs2 hs2
  have s3 := one_le_mul_of_one_le_of_one_le hs2 s2
  have s4 := one_le_mul_of_one_le_of_one_le hs2 s3
  have ρs : ∀ n, 1 ≤ n → n ≤ 2 * (2 * L) → 9 * ftErr n ≤ rhoF L := fun n n0 hn => by
    have := ftErr_mono n0 hn
    unfold rhoF
    linarith [show (0 : ℝ) ≤ 16 / 2 ^ 50 by positivity]
  rw [← hT]
  -- the extension
  obtain ⟨a1, d1⟩ := extF_near F hL hL1 hS f f' spin
  have st1 := chain_step (s := 1) (ρ := rhoF L) (A0 := A0) (T := T) (P := D0 + (A0 + T))
    (T' := √L * tn) a1 (d1.trans (by
      gcongr
      · have h1 := rr2_nonneg L (2 * L - 1) (fun t p => ‖f t p‖)
        have h2 := rr2_nonneg L (2 * L - 1) (fun t p => ‖f' t p - f t p‖)
        positivity
      · exact ρs _ (by omega) (by omega))) hρ (by rw [one_mul]; exact hA) (tt L 1 (by omega) le_rfl)
    (by rw [one_mul]; linarith)
  rw [mul_one] at st1
  -- the colatitudes
  obtain ⟨a2, d2⟩ := thetaF_near F hL hL1 hph (extE L f spin) (extG F S L f' spin)
  have st2 := chain_step (s := √2) (ρ := rhoF L) (A0 := A0) (T := T)
    a2 (d2.trans (by
      have h1 := rr2_nonneg (2 * L - 1) (2 * L - 1) (fun t p => ‖extE L f spin t p‖)
      have h2 := rr2_nonneg (2 * L - 1) (2 * L - 1)
        (fun t p => ‖extG F S L f' spin t p - extE L f spin t p‖)
      have h3 : 9 * ftErr (2 * L) + 16 / 2 ^ 50 ≤ rhoF L := by
        have := ftErr_mono (n := 2 * L) (k := 2 * (2 * L)) (by omega) (by omega)
        unfold rhoF
        linarith
      gcongr)) hρ st1.1 (tt (2 * L - 1) (√2) (by omega) hs2) st1.2
  -- the longitudes
  obtain ⟨a3, d3⟩ := phiF_near F hL hL1 (thetaE L (extE L f spin)) (thetaF F ph L (extG F S L f' spin))
  have st3 := chain_step (s := √2 * √2) (ρ := rhoF L) (A0 := A0) (T := T)
    a3 (d3.trans (by
      have h1 := rr2_nonneg (L + 1) (2 * L - 1) (fun t p => ‖thetaE L (extE L f spin) t p‖)
      have h2 := rr2_nonneg (L + 1) (2 * L - 1)
        (fun t p => ‖thetaF F ph L (extG F S L f' spin) t p - thetaE L (extE L f spin) t p‖)
      have h3 := ρs (2 * L) (by omega) (by omega)
      gcongr)) hρ ((rr2_mono (by omega) _ _).trans st2.1) (tt (L + 1) _ (by omega) s2)
    ((rr2_mono (by omega) _ _).trans st2.2)
  -- the extension of the rows
  obtain ⟨a4, d4⟩ := extMwss_near hL (mw_to_mwss_phi (fun _ => thetaE L (extE L f spin)) L 0)
    (mwssPhiF F L (thetaF F ph L (extG F S L f' spin))) spin
  have st4 := chain_exact a4 d4 st3.1 st3.2
  -- the interpolation
  obtain ⟨a5, d5⟩ := upF_near F hL hL1 (extMwssE L (mw_to_mwss_phi (fun _ => thetaE L (extE L f spin)) L 0) spin)
    (extensionMwssF L (mwssPhiF F L (thetaF F ph L (extG F S L f' spin))) spin)
  have st5 := chain_step (s := √2 * (√2 * (√2 * √2))) (ρ := rhoF L) (A0 := A0) (T := T)
    a5 (d5.trans (by
      gcongr
      · exact add_nonneg (add_nonneg (rr2_nonneg _ _ _) (rr2_nonneg _ _ _)) (by positivity)
      · exact ρs _ (by omega) le_rfl)) hρ st4.1 (tt (2 * L) _ le_rfl s4) st4.2
  refine ((rr2_mono (by omega) _ _).trans st5.2).trans (le_of_eq ?_)
  ring

theorem mwssInner_near (F : FftLib) {L : ℤ} (hL : 1 ≤ L) (hL1 : L ≤ 2 ^ 26) (f f' : ℤ → ℤ → ℂ) (spin : ℤ)
    {A0 D0 : ℝ} (hA : rr2 (L + 1) (2 * L) (fun t p => ‖f t p‖) ≤ A0)
    (hD : rr2 (L + 1) (2 * L) (fun t p => ‖f' t p - f t p‖) ≤ D0) :
    rr2 (2 * L + 1) (2 * L) (fun t p => ‖upsampleF F L f' spin t p - innerSignal .mwss L spin f t p‖)
      ≤ √2 ^ 2 * ((1 + rhoF L) * (D0 + (A0 + √(2 * L : ℤ) * tn)) - (A0 + √(2 * L : ℤ) * tn)) := by
  have htn := tn_pos
  have hu := ftErr_nonneg (n := 2 * (2 * L)) (by omega)
  have hρ : 0 ≤ rhoF L := by unfold rhoF; positivity
  have hs2 : 1 ≤ √2 := Real.one_le_sqrt.2 (by norm_num)
  obtain ⟨T, hT⟩ : ∃ T, T = √(2 * L : ℤ) * tn := ⟨_, rfl⟩
  have hT0 : 0 ≤ T := by rw [hT]; positivity
  rw [← hT]
  obtain ⟨a4, d4⟩ := extMwss_near hL f f' spin
  have st4 := chain_exact (s := 1) (A0 := A0) (P := D0 + (A0 + T) - (A0 + T)) a4 d4
    (by rw [one_mul]; exact hA) (by rw [one_mul]; linarith)
  obtain ⟨a5, d5⟩ := upF_near F hL hL1 (extMwssE L f spin) (extensionMwssF L f' spin)
  have st5 := chain_step (s := √2 * 1) (ρ := rhoF L) (A0 := A0) (T := T)
    a5 (d5.trans (by
      gcongr
      · exact add_nonneg (add_nonneg (rr2_nonneg _ _ _) (rr2_nonneg _ _ _)) (by positivity)
      · unfold rhoF; linarith [show (0 : ℝ) ≤ 16 / 2 ^ 50 by positivity])) hρ st4.1
    (by rw [← hT, mul_one]; exact le_mul_of_one_le_left hT0 hs2) st4.2
  refine ((rr2_mono (by omega) _ _).trans st5.2).trans (le_of_eq ?_)
  ring

end S2fft
