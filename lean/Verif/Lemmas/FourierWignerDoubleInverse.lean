import Verif.Lemmas.FourierWignerDouble
import Verif.Lemmas.PrecomputeDoubleForward

/-! # The inverse Fourier-Wigner transform in double precision: the transforms over the angles -/

namespace S2fft
open Spec

/-! ## Phases -/

theorem expIF_abs (F : DoubleLib) {m : ℤ} {θ' θ : ℝ} (hm : |m| ≤ 2 ^ 53) (_hθ0 : 0 ≤ θ)
    (hmθ : |(m : ℝ)| * θ ≤ 4) (hθ : |θ' - θ| ≤ θ / 2 ^ 51) :
    ‖expIF F m θ' - cis (m * θ)‖ ≤ 8 / 2 ^ 50 := by
  unfold expIF
  rw [fl_int F.nearest hm]
  have h1 : |m * θ' - m * θ| ≤ 4 / 2 ^ 51 := by
    rw [← mul_sub, abs_mul]
    calc |(m : ℝ)| * |θ' - θ| ≤ |(m : ℝ)| * (θ / 2 ^ 51) := by gcongr
      _ = |(m : ℝ)| * θ / 2 ^ 51 := by ring
      _ ≤ 4 / 2 ^ 51 := by gcongr
  have h2 := fl_step F.nearest h1 (B := 5) (by
    rw [abs_mul, abs_of_nonneg _hθ0]
    norm_num; linarith)
  generalize F.fl (m * θ') = x at h2
  have hc := le_trans (Real.abs_cos_sub_cos_le x (m * θ)) h2
  have hs := le_trans (Real.abs_sin_sub_sin_le x (m * θ)) h2
  have hc' : |F.cos x - Real.cos (m * θ)| ≤ 4 / 2 ^ 50 := by
    have e : F.cos x - Real.cos (m * θ) = (F.cos x - Real.cos x) + (Real.cos x - Real.cos (m * θ)) := by
      ring
    rw [e]
    refine le_trans (abs_add_le _ _) (le_trans (add_le_add (F.cos_near x) hc) ?_)
    norm_num
  have hs' : |F.sin x - Real.sin (m * θ)| ≤ 4 / 2 ^ 50 := by
    have e : F.sin x - Real.sin (m * θ) = (F.sin x - Real.sin x) + (Real.sin x - Real.sin (m * θ)) := by
      ring
    rw [e]
    refine le_trans (abs_add_le _ _) (le_trans (add_le_add (F.sin_near x) hs) ?_)
    norm_num
  refine le_trans (Complex.norm_le_abs_re_add_abs_im _) ?_
  rw [Complex.sub_re, Complex.sub_im, cis_re, cis_im]
  norm_num at hc' hs' ⊢
  linarith

theorem fwTheta0F_near (F : DoubleLib) {L : ℤ} (hL : 1 ≤ L) (hL1 : L ≤ 2 ^ 26) (s : PyStr) :
    0 ≤ fwTheta0 L s ∧ L * fwTheta0 L s ≤ 4 ∧
      |fwTheta0F F L s - fwTheta0 L s| ≤ fwTheta0 L s / 2 ^ 51 := by
  have hL' : (1 : ℝ) ≤ L := by exact_mod_cast hL
  have hpi := Real.pi_pos
  have hpi4 := Real.pi_le_four
  unfold fwTheta0F fwTheta0
  split_ifs
  · simp
  · refine ⟨div_nonneg hpi.le (by linarith), ?_, ?_⟩
    · rw [← mul_div_assoc, div_le_iff₀ (by linarith)]
      nlinarith
    · have hpf := flPi_pos F
      have h := ratioF_rel F (a := 1) (b := 2 * L - 1) (by norm_num) (by norm_num) (by omega) (by omega)
      rw [fl_int F.nearest (k := 2 * L - 1) (by rw [abs_of_nonneg (by omega)]; omega)]
      have e : F.fl (((1 : ℤ) : ℝ) * F.fl Real.pi) = F.fl Real.pi := by
        rw [Int.cast_one, one_mul]
        have h2 := (F.nearest (F.fl Real.pi)).2 _ (F.nearest Real.pi).1
        rw [sub_self, abs_zero] at h2
        linarith [abs_nonpos_iff.1 h2]
      rw [e] at h
      push_cast at h ⊢
      rw [one_mul] at h
      exact h

/-- One product by a phase known up to `D`. -/
theorem phase_step (F : FftLib) {x y X Y : ℂ} {e D : ℝ} (hx : ‖x - X‖ ≤ e) (hy : ‖y - Y‖ ≤ D)
    (hY : ‖Y‖ = 1) (hD : 1 / 2 ^ 50 ≤ D) (hD1 : D ≤ 1 / 2 ^ 20) :
    ‖F.mul x y - X * Y‖ ≤ e * (1 + 1 / 2 ^ 18) + 3 * D * ‖X‖ + 1 / 2 ^ 1000 := by
  have he : 0 ≤ e := le_trans (norm_nonneg _) hx
  have h := mul_stepF F hx hy hY
  refine h.trans ?_
  generalize (1 : ℝ) / 2 ^ 1000 = u
  have hX := norm_nonneg X
  generalize ‖X‖ = T at *
  have hD0 : 0 ≤ D := le_trans (by positivity) hD
  have a1 : (T + e) * (1 + D) / 2 ^ 50 ≤ (T + e) * 2 * D := by
    rw [div_eq_mul_one_div]
    refine mul_le_mul (mul_le_mul_of_nonneg_left ?_ (by linarith)) hD (by positivity) (by positivity)
    norm_num at hD1; linarith
  have a2 : e * D ≤ e * (1 / 2 ^ 20) := by gcongr
  have e1 : (T + e) * 2 * D = 2 * (D * T) + 2 * (e * D) := by ring
  have e2 : e * (1 + D) = e + e * D := by ring
  rw [e1] at a1
  rw [e2, show 3 * D * T = 3 * (D * T) by ring, mul_comm T D]
  norm_num at *
  linarith

theorem fwPhasedF_near (F : FftLib) {L : ℤ} (hL : 1 ≤ L) (hL1 : L ≤ 2 ^ 26) (s : PyStr) {m n a : ℤ}
    (hm : |m| ≤ L) (hn : |n| ≤ L) (ha : |a| ≤ L) {x X : ℂ} {e : ℝ} (hx : ‖x - X‖ ≤ e) :
    ‖fwPhasedF F L s m n a x - X * Complex.I ^ (-m) * Complex.I ^ n * cis (a * fwTheta0 L s)‖
      ≤ 17 / 16 * e + 80 * L / 2 ^ 50 * ‖X‖ + 4 * (1 / 2 ^ 1000) := by
  have he : 0 ≤ e := le_trans (norm_nonneg _) hx
  have hL' : (1 : ℝ) ≤ L := by exact_mod_cast hL
  have hL2 : (L : ℝ) ≤ 2 ^ 26 := by exact_mod_cast hL1
  obtain ⟨t0, t1, t2⟩ := fwTheta0F_near F.toDoubleLib hL hL1 s
  obtain ⟨D, hD⟩ : ∃ D : ℝ, D = 8 * L / 2 ^ 50 := ⟨_, rfl⟩
  have d1 : 1 / 2 ^ 50 ≤ D := by
    rw [hD]; exact div_le_div_of_nonneg_right (by linarith) (by norm_num)
  have d2 : D ≤ 1 / 2 ^ 20 := by
    rw [hD, div_le_div_iff₀ (by norm_num) (by norm_num)]; norm_num at hL2 ⊢; linarith
  have hip : ∀ k : ℤ, |k| ≤ L → ‖F.ipow k - Complex.I ^ k‖ ≤ D := fun k hk => by
    refine (F.ipow_near k).trans ?_
    rw [hD]
    refine div_le_div_of_nonneg_right ?_ (by norm_num)
    have : |(k : ℝ)| ≤ L := by exact_mod_cast hk
    linarith
  have haR : |(a : ℝ)| ≤ L := by exact_mod_cast ha
  have hex : ‖expIF F.toDoubleLib a (fwTheta0F F.toDoubleLib L s) - cis (a * fwTheta0 L s)‖ ≤ D := by
    refine (expIF_abs F.toDoubleLib (by omega) t0 ?_ t2).trans ?_
    · exact (mul_le_mul_of_nonneg_right haR t0).trans t1
    · rw [hD]
      exact div_le_div_of_nonneg_right (by linarith) (by norm_num)
  unfold fwPhasedF
  have s1 := phase_step F hx (hip (-m) (by rwa [abs_neg])) (norm_I_zpow _) d1 d2
  have s2 := phase_step F s1 (hip n hn) (norm_I_zpow _) d1 d2
  have s3 := phase_step F s2 hex (norm_cis _) d1 d2
  refine s3.trans ?_
  have n1 : ‖X * Complex.I ^ (-m)‖ = ‖X‖ := by rw [norm_mul, norm_I_zpow, mul_one]
  have n2 : ‖X * Complex.I ^ (-m) * Complex.I ^ n‖ = ‖X‖ := by rw [norm_mul, norm_I_zpow, mul_one, n1]
  rw [n1, n2]
  have hX := norm_nonneg X
  have hu : (0 : ℝ) ≤ 1 / 2 ^ 1000 := by positivity
  generalize (1 : ℝ) / 2 ^ 1000 = u at *
  have e1 : 80 * (L : ℝ) / 2 ^ 50 * ‖X‖ = 10 * (D * ‖X‖) := by rw [hD]; ring
  have h0 : 0 ≤ D * ‖X‖ := mul_nonneg (le_trans (by positivity) d1) hX
  rw [e1, show 3 * D * ‖X‖ = 3 * (D * ‖X‖) by ring]
  generalize D * ‖X‖ = Z at *
  norm_num
  linarith

/-! ## The transform over `β` -/

theorem fwCoef_weight (L : ℤ) (c : ℤ → ℤ → ℤ → ℂ) (n a m : ℤ) :
    fwCoef L c n a m = ∑ l ∈ Finset.Ico 0 L, c n l m * (degreeWeight l : ℂ)
      * (wignerd l a m (Real.pi / 2) : ℂ) * (wignerd l a n (Real.pi / 2) : ℂ) := by
  unfold fwCoef degreeWeight
  refine Finset.sum_congr rfl fun l _ => ?_
  push_cast; rfl

/-- Sums over the degrees and the frequencies in `β`. -/
theorem sum_plane_le {L : ℤ} (c : ℤ → ℤ → ℤ → ℂ) (n m : ℤ) {f : ℤ → ℤ → ℝ} {K : ℝ}
    (h : ∀ l, 0 ≤ l → l < L → ∑ a ∈ Finset.Ioo (-L) L, f l a ≤ K) :
    ∑ a ∈ Finset.Ioo (-L) L, ∑ l ∈ Finset.Ico 0 L, degreeWeight l * ‖c n l m‖ * f l a
      ≤ K * planeSize c L n m := by
  rw [Finset.sum_comm]
  unfold planeSize
  rw [Finset.mul_sum]
  refine Finset.sum_le_sum fun l hl => ?_
  rw [Finset.mem_Ico] at hl
  rw [← Finset.mul_sum, mul_comm K]
  exact mul_le_mul_of_nonneg_left (h l hl.1 hl.2)
    (mul_nonneg (degreeWeight_nonneg hl.1) (norm_nonneg _))

theorem fwBetaF_near (F : FftLib) {σ : Scheme} (hσ : σ.Resampled) (nodes : ℤ → ℤ → ℝ) {s : PyStr}
    (hs : lower s = σ.name) {L n m t : ℤ} (hL : 1 ≤ L) (hL1 : L ≤ 2 ^ 26) {E : ℝ} (hE : Covers L E)
    {c : ℤ → ℤ → ℤ → ℂ} {Δ : ℤ → ℤ → ℤ → ℝ}
    (hΔ : ∀ l, 0 ≤ l → l < L → HoldsNear (Δ l) L l (Real.pi / 2)) (hm : |m| < L) (hn : |n| < L)
    (t0 : 0 ≤ t) (t1 : t < σ.rings L 0) {x : ℤ → ℂ} (hx0 : σ.off = 1 → x 0 = 0)
    (hx : ∀ a, -L < a → ‖x (a + L - 1 + σ.off)
          - ∑ l ∈ Finset.Ico 0 L, c n l m * (degreeWeight l : ℂ) * (Δ l (a + L - 1) (m + L - 1) : ℂ)
              * (Δ l (a + L - 1) (n + L - 1) : ℂ)‖
          ≤ 12 * L / 2 ^ 50 * (∑ l ∈ Finset.Ico 0 L, fwTau Δ c L n m a l)
            + 36 * (1 / 2 ^ 1000) * (L + planeSize c L n m)) :
    ‖F.ifft (2 * L - 1 + σ.off) (ifftshift (2 * L - 1 + σ.off)
        (fun a => fwPhasedF F L s m n (-L + 1 - σ.off + a) (x a))) t
        - wigRing L c n (σ.theta nodes L 0 t) m‖
      ≤ 6 * E * planeSize c L n m + 200 * L ^ 2 / 2 ^ 1000 := by
  have hL' : (1 : ℝ) ≤ L := by exact_mod_cast hL
  have hL2 : (L : ℝ) ≤ 2 ^ 26 := by exact_mod_cast hL1
  obtain ⟨hE1, hE2, hE3⟩ := hE
  have ho := off_cases σ
  have hP := planeSize_nonneg c L n m
  have hh : σ ≠ .healpix := by rcases hσ with rfl | rfl <;> simp
  have hv : σ.Valid L 0 := ⟨hL, fun h => absurd h hh⟩
  -- sizes of the coefficients and of their errors
  obtain ⟨P, hPe⟩ : ∃ P, P = planeSize c L n m := ⟨_, rfl⟩
  obtain ⟨sz, hsz⟩ : ∃ sz : ℤ → ℝ, sz = fun a => ∑ l ∈ Finset.Ico 0 L, degreeWeight l * ‖c n l m‖
    * |wignerd l a m (Real.pi / 2) * wignerd l a n (Real.pi / 2)| := ⟨_, rfl⟩
  obtain ⟨er, her⟩ : ∃ er : ℤ → ℝ, er = fun a => ∑ l ∈ Finset.Ico 0 L, degreeWeight l * ‖c n l m‖
    * |Δ l (a + L - 1) (m + L - 1) * Δ l (a + L - 1) (n + L - 1)
      - wignerd l a m (Real.pi / 2) * wignerd l a n (Real.pi / 2)| := ⟨_, rfl⟩
  obtain ⟨ta, hta⟩ : ∃ ta : ℤ → ℝ, ta = fun a => ∑ l ∈ Finset.Ico 0 L, fwTau Δ c L n m a l := ⟨_, rfl⟩
  have hw : ∀ l ∈ Finset.Ico 0 L, 0 ≤ degreeWeight l * ‖c n l m‖ := fun l hl =>
    mul_nonneg (degreeWeight_nonneg (Finset.mem_Ico.1 hl).1) (norm_nonneg _)
  have sz0 : ∀ a, 0 ≤ sz a := fun a => by
    rw [hsz]; exact Finset.sum_nonneg fun l hl => mul_nonneg (hw l hl) (abs_nonneg _)
  have er0 : ∀ a, 0 ≤ er a := fun a => by
    rw [her]; exact Finset.sum_nonneg fun l hl => mul_nonneg (hw l hl) (abs_nonneg _)
  have ta0 : ∀ a, 0 ≤ ta a := fun a => by
    rw [hta]; exact Finset.sum_nonneg fun l hl => mul_nonneg (hw l hl) (abs_nonneg _)
  have ssz : ∑ a ∈ Finset.Ioo (-L) L, sz a ≤ 1 * P := by
    rw [hsz, hPe]
    exact sum_plane_le c n m fun l l0 l1 =>
      ((hΔ l l0 l1).full_products l0 l1 (hE1 l l0 l1) hE3 m n).2.2
  have ser : ∑ a ∈ Finset.Ioo (-L) L, er a ≤ 33 / 16 * E * P := by
    rw [her, hPe]
    exact sum_plane_le c n m fun l l0 l1 =>
      ((hΔ l l0 l1).full_products l0 l1 (hE1 l l0 l1) hE3 m n).1
  have sta : ∑ a ∈ Finset.Ioo (-L) L, ta a ≤ 5 / 4 * P := by
    rw [hta, hPe]
    exact sum_plane_le c n m fun l l0 l1 =>
      ((hΔ l l0 l1).full_products l0 l1 (hE1 l l0 l1) hE3 m n).2.1
  have hcoef : ∀ a, ‖fwCoef L c n a m‖ ≤ sz a := fun a => by
    rw [fwCoef_weight, hsz]
    refine (norm_sum_le _ _).trans (Finset.sum_le_sum fun l hl => ?_)
    have h0 := degreeWeight_nonneg (Finset.mem_Ico.1 hl).1
    rw [mul_assoc, norm_mul, norm_mul, ← Complex.ofReal_mul, Complex.norm_real, Complex.norm_real,
      Real.norm_eq_abs, Real.norm_eq_abs, abs_of_nonneg h0, mul_comm ‖c n l m‖]
  have hdiff : ∀ a, ‖∑ l ∈ Finset.Ico 0 L, c n l m * (degreeWeight l : ℂ)
        * (Δ l (a + L - 1) (m + L - 1) : ℂ) * (Δ l (a + L - 1) (n + L - 1) : ℂ)
      - fwCoef L c n a m‖ ≤ er a := fun a => by
    rw [fwCoef_weight, her, ← Finset.sum_sub_distrib]
    refine (norm_sum_le _ _).trans (Finset.sum_le_sum fun l hl => ?_)
    have h0 := degreeWeight_nonneg (Finset.mem_Ico.1 hl).1
    rw [mul_assoc (c n l m * (degreeWeight l : ℂ)), mul_assoc (c n l m * (degreeWeight l : ℂ)), ← mul_sub,
      norm_mul, norm_mul, ← Complex.ofReal_mul, ← Complex.ofReal_mul, ← Complex.ofReal_sub,
      Complex.norm_real, Complex.norm_real, Real.norm_eq_abs, Real.norm_eq_abs, abs_of_nonneg h0,
      mul_comm ‖c n l m‖]
  -- the error of each coefficient, before and after the phases
  obtain ⟨u, hu⟩ : ∃ u : ℝ, u = 1 / 2 ^ 1000 := ⟨_, rfl⟩
  have hu0 : 0 ≤ u := by rw [hu]; positivity
  have hus : u ≤ 1 / 2 ^ 100 := by
    rw [hu]
    exact one_div_le_one_div_of_le (by positivity) (pow_le_pow_right₀ (by norm_num) (by norm_num))
  rw [← hPe, ← hu] at hx
  obtain ⟨e, he⟩ : ∃ e : ℤ → ℝ, e = fun a => 17 / 16 * (er a + (12 * L / 2 ^ 50 * ta a
    + 36 * u * (L + P))) + 80 * L / 2 ^ 50 * sz a := ⟨_, rfl⟩
  have e0 : ∀ a, 0 ≤ e a := fun a => by
    rw [he]
    have := er0 a
    have := ta0 a
    have := sz0 a
    have hP' : 0 ≤ P := by rw [hPe]; exact hP
    positivity
  have hXa : ∀ a, -L < a → ‖x (a + L - 1 + σ.off) - fwCoef L c n a m‖
      ≤ er a + (12 * L / 2 ^ 50 * ta a + 36 * u * (L + P)) := fun a ha => by
    have h1 := hx a ha
    have h2 := hdiff a
    have h3 : ∑ l ∈ Finset.Ico 0 L, fwTau Δ c L n m a l = ta a := by rw [hta]
    rw [h3] at h1
    refine (norm_sub_le_norm_sub_add_norm_sub _ (∑ l ∈ Finset.Ico 0 L, c n l m * (degreeWeight l : ℂ)
        * (Δ l (a + L - 1) (m + L - 1) : ℂ) * (Δ l (a + L - 1) (n + L - 1) : ℂ)) _).trans ?_
    rw [add_comm]
    exact add_le_add h2 h1
  have hz : ∀ a, |a| < L → ‖fwPhasedF F L s m n a (x (a + L - 1 + σ.off))
      - fwCoef L c n a m * Complex.I ^ (-m) * Complex.I ^ n * cis (a * fwTheta0 L s)‖
      ≤ e a + 4 * u := fun a ha => by
    refine (fwPhasedF_near F hL hL1 s hm.le hn.le ha.le (hXa a (abs_lt.1 ha).1)).trans ?_
    rw [he, hu]
    refine add_le_add (add_le_add le_rfl ?_) le_rfl
    exact mul_le_mul_of_nonneg_left (hcoef a) (by positivity)
  -- the sum of the errors
  have hcard : ((Finset.Ioo (-L) L).card : ℝ) ≤ 2 * L := by
    rw [Int.card_Ioo]
    have : ((L - -L - 1).toNat : ℤ) ≤ 2 * L := by omega
    exact_mod_cast this
  have hP' : 0 ≤ P := by rw [hPe]; exact hP
  have hse : ∑ a ∈ Finset.Ioo (-L) L, e a ≤ 17 / 16 * (33 / 16 * E * P + (12 * L / 2 ^ 50 * (5 / 4 * P)
      + 2 * L * (36 * u * (L + P)))) + 80 * L / 2 ^ 50 * (1 * P) := by
    have hsum : ∑ a ∈ Finset.Ioo (-L) L, e a = 17 / 16 * (∑ a ∈ Finset.Ioo (-L) L, er a
        + (12 * L / 2 ^ 50 * ∑ a ∈ Finset.Ioo (-L) L, ta a
          + ((Finset.Ioo (-L) L).card : ℝ) * (36 * u * (L + P))))
        + 80 * L / 2 ^ 50 * ∑ a ∈ Finset.Ioo (-L) L, sz a := by
      rw [he]
      simp only [Finset.sum_add_distrib, ← Finset.mul_sum, Finset.sum_const, nsmul_eq_mul]
      ring
    rw [hsum]
    have b1 : ((Finset.Ioo (-L) L).card : ℝ) * (36 * u * (L + P)) ≤ 2 * L * (36 * u * (L + P)) :=
      mul_le_mul_of_nonneg_right hcard (by positivity)
    have b2 : 12 * (L : ℝ) / 2 ^ 50 * ∑ a ∈ Finset.Ioo (-L) L, ta a ≤ 12 * L / 2 ^ 50 * (5 / 4 * P) :=
      mul_le_mul_of_nonneg_left sta (by positivity)
    have b3 : 80 * (L : ℝ) / 2 ^ 50 * ∑ a ∈ Finset.Ioo (-L) L, sz a ≤ 80 * L / 2 ^ 50 * (1 * P) :=
      mul_le_mul_of_nonneg_left ssz (by positivity)
    exact add_le_add (mul_le_mul_of_nonneg_left (add_le_add ser (add_le_add b2 b1)) (by norm_num)) b3
  -- the transform
  have hp : σ.Has L 0 0 t := by
    refine ⟨le_rfl, by rcases hσ with rfl | rfl <;> simp [Scheme.rings] <;> omega, t0, ?_⟩
    rcases hσ with rfl | rfl <;> simp [Scheme.rings, Scheme.ringLen] at t1 ⊢ <;> omega
  obtain ⟨η, hη⟩ : ∃ η : ℝ, η = 64 * L / 2 ^ 50 := ⟨_, rfl⟩
  have η0 : 0 < η := by rw [hη]; positivity
  have η1 : η ≤ 1 / 4 := by
    rw [hη, div_le_div_iff₀ (by norm_num) (by norm_num)]; norm_num at hL2 ⊢; linarith
  have ηE : η ≤ E := by
    refine le_trans (le_of_eq ?_) hE2
    rw [hη]; ring
  have main := ifftF_ringU F hh hv hL1 (u := 4 * u) (by linarith) η1
    (D := fun a => fwPhasedF F L s m n (-L + 1 - σ.off + a) (x a))
    (g := fun a => fwCoef L c n a m * Complex.I ^ (-m) * Complex.I ^ n * cis (a * fwTheta0 L s))
    (S := fun a => sz a + e a / η) (fun a => add_nonneg (sz0 a) (div_nonneg (e0 a) η0.le))
    (fun h => by
      beta_reduce
      rw [hx0 h]
      have := fwPhasedF_near F hL hL1 s hm.le hn.le (a := -L + 1 - σ.off + 0) (by rw [abs_le]; omega)
        (x := 0) (X := 0) (e := 0) (by simp)
      simp only [zero_mul, sub_zero, norm_zero, mul_zero, zero_add] at this
      rw [hu]; exact this)
    (fun a ha => by
      beta_reduce
      rw [show -L + 1 - σ.off + (a + L - 1 + σ.off) = a by ring]
      refine (hz a ha).trans ?_
      rw [mul_add, mul_div_cancel₀ _ η0.ne']
      have := mul_nonneg η0.le (sz0 a)
      linarith)
    (fun a => by
      rw [norm_mul, norm_mul, norm_mul, norm_I_zpow, norm_I_zpow, norm_cis, mul_one, mul_one, mul_one]
      have := hcoef a
      have := div_nonneg (e0 a) η0.le
      linarith) hp
  have esyn : synth L false (fun a => fwCoef L c n a m * Complex.I ^ (-m) * Complex.I ^ n
      * cis (a * fwTheta0 L s)) (σ.phi L 0 0 t) = wigRing L c n (σ.theta nodes L 0 t) m := by
    rw [wigRing_fourier]
    unfold synth
    rw [if_neg (by simp)]
    refine Finset.sum_congr rfl fun a _ => ?_
    rw [← fw_theta nodes hσ hs hL, fw_phi hσ L a 0 t]
    ring
  rw [esyn] at main
  refine main.trans ?_
  rw [Finset.sum_add_distrib, ← Finset.sum_div]
  have hS0 : 0 ≤ ∑ a ∈ Finset.Ioo (-L) L, e a := Finset.sum_nonneg fun a _ => e0 a
  have hS1 : 0 ≤ ∑ a ∈ Finset.Ioo (-L) L, sz a := Finset.sum_nonneg fun a _ => sz0 a
  generalize ∑ a ∈ Finset.Ioo (-L) L, e a = Se at *
  generalize ∑ a ∈ Finset.Ioo (-L) L, sz a = Ss at *
  have q1 : (η + 4 * L / 2 ^ 50) * (Ss + Se / η) = (η + 4 * L / 2 ^ 50) * Ss + 17 / 16 * Se := by
    have : 4 * (L : ℝ) / 2 ^ 50 = η / 16 := by rw [hη]; ring
    rw [this]
    field_simp
    ring
  rw [q1, ← hPe]
  have q2 : (η + 4 * L / 2 ^ 50) * Ss ≤ 17 / 16 * (E * P) := by
    have : η + 4 * (L : ℝ) / 2 ^ 50 = 17 / 16 * η := by rw [hη]; ring
    rw [this]
    have a1 : η * Ss ≤ E * P := mul_le_mul ηE (by linarith) hS1 (by linarith)
    linarith
  have hQ : (L : ℝ) / 2 ^ 50 * P ≤ 1 / 64 * (E * P) := by
    have : (L : ℝ) / 2 ^ 50 ≤ 1 / 64 * E := by
      have : (L : ℝ) / 2 ^ 50 = 1 / 64 * (L / 2 ^ 44) := by ring
      linarith
    calc (L : ℝ) / 2 ^ 50 * P ≤ 1 / 64 * E * P := mul_le_mul_of_nonneg_right this hP'
      _ = _ := by ring
  have hU : u * L * P ≤ 1 / 1000 * (E * P) := by
    have : u * L ≤ 1 / 1000 * E := by
      have a1 : u * L ≤ 1 / 2 ^ 100 * L := mul_le_mul_of_nonneg_right hus (by linarith)
      have a2 : 1 / 2 ^ 100 * (L : ℝ) = 1 / 2 ^ 56 * (L / 2 ^ 44) := by ring
      have a3 : (0 : ℝ) ≤ L / 2 ^ 44 := by positivity
      rw [a2] at a1
      generalize (L : ℝ) / 2 ^ 44 = y at *
      norm_num at a1
      linarith
    calc u * L * P ≤ 1 / 1000 * E * P := mul_le_mul_of_nonneg_right this hP'
      _ = _ := by ring
  have hV : u * L ≤ u * L ^ 2 := by
    refine mul_le_mul_of_nonneg_left ?_ hu0
    nlinarith
  have hV0 : 0 ≤ u * (L : ℝ) ^ 2 := by positivity
  have hQ0 : 0 ≤ E * P := mul_nonneg (le_trans (by positivity) hE2) hP'
  have r1 : 17 / 16 * (33 / 16 * E * P + (12 * L / 2 ^ 50 * (5 / 4 * P) + 2 * L * (36 * u * (L + P))))
      + 80 * L / 2 ^ 50 * (1 * P) = 17 / 16 * (33 / 16 * (E * P) + (15 * (L / 2 ^ 50 * P)
        + 72 * (u * L ^ 2) + 72 * (u * L * P))) + 80 * (L / 2 ^ 50 * P) := by ring
  rw [r1] at hse
  have r2 : 6 * (L : ℝ) * (4 * u) + 2 * L / 2 ^ 1000 = 26 * (u * L) := by rw [hu]; ring
  have r3 : 200 * (L : ℝ) ^ 2 / 2 ^ 1000 = 200 * (u * L ^ 2) := by rw [hu]; ring
  rw [r2, r3, show 6 * E * P = 6 * (E * P) by ring]
  clear hu hus hx hz
  generalize E * P = Q at *
  generalize (L : ℝ) / 2 ^ 50 * P = R at *
  generalize u * (L : ℝ) * P = T at *
  generalize u * (L : ℝ) ^ 2 = V at *
  generalize u * (L : ℝ) = V1 at *
  linarith

/-! ## The transforms over `α` and `γ` -/

/-- Underflow in four sums. -/
theorem tiny_four {L x : ℝ} (hL : 0 ≤ L) (hL1 : L ≤ 2 ^ 26) (hx : x ≤ 2 ^ 20 * L ^ 4) :
    x / 2 ^ 1000 ≤ 1 / 2 ^ 850 := by
  have h1 : x ≤ 2 ^ 124 := by
    refine le_trans hx ?_
    have : 2 ^ 20 * L ^ 4 ≤ 2 ^ 20 * (2 ^ 26) ^ 4 := by gcongr
    refine le_trans this (by norm_num)
  rw [div_le_div_iff₀ (by positivity) (by positivity), one_mul]
  calc x * 2 ^ 850 ≤ 2 ^ 124 * 2 ^ 850 := by gcongr
    _ = 2 ^ 974 := by rw [← pow_add]
    _ ≤ 2 ^ 1000 := by gcongr <;> norm_num

theorem fwAnglesF_near (F : FftLib) {σ : Scheme} (hh : σ ≠ .healpix) {L N : ℤ}
    (hv : σ.Valid L 0) (hL1 : L ≤ 2 ^ 26) (h1 : 1 ≤ N) (hN : N ≤ L) (flmn : ℤ → ℤ → ℤ → ℂ)
    {reality : Bool} (hre : RealPlane flmn L N reality) {θ : ℝ} {ε : ℝ} (hε : ε ≤ 1 / 5)
    {c : ℤ → ℤ → ℤ → ℂ} (hc : c = fun n l m => flmn (N - 1 + n) l (m + L - 1)) {Y : ℤ → ℤ → ℂ}
    (hY0 : σ.off = 1 → ∀ k, 0 ≤ k → k < nDim N reality → ‖Y k 0‖ ≤ 200 * L ^ 2 / 2 ^ 1000)
    (hY : ∀ n m, nFirst N reality ≤ n → n < N → |m| < L →
      ‖Y (n - nFirst N reality) (m + L - 1 + σ.off) - wigRing L c n θ m‖
        ≤ ε * planeSize c L n m + 200 * L ^ 2 / 2 ^ 1000) {g t p : ℤ} (g0 : 0 ≤ g) (g1 : g < 2 * N - 1)
    (hp : σ.Has L 0 t p) :
    ‖(if reality then (F.irfft N (fun k => F.ifft (2 * L - 1 + σ.off)
          (ifftshift (2 * L - 1 + σ.off) (Y k)) p) (2 * N - 1) g : ℂ)
        else F.ifft (2 * N - 1) (ifftshift (2 * N - 1) (fun k => F.ifft (2 * L - 1 + σ.off)
          (ifftshift (2 * L - 1 + σ.off) (Y k)) p)) g)
        - wignerSum 0 L N (wignerCoeffs flmn L N reality) (σ.phi L 0 t p) θ (gammaAt N g)‖
      ≤ (ε + L / 2 ^ 46) * so3CoeffSize L N reality flmn + 1 / 2 ^ 850 := by
  have hL := hv.1
  have hL' : (1 : ℝ) ≤ L := by exact_mod_cast hL
  have hL2 : (L : ℝ) ≤ 2 ^ 26 := by exact_mod_cast hL1
  have hN' : (1 : ℝ) ≤ N := by exact_mod_cast h1
  have hNL : (N : ℝ) ≤ L := by exact_mod_cast hN
  have hη : ∀ x : ℝ, x ≤ 8 → ε + x * L / 2 ^ 50 ≤ 1 / 4 := fun x hx => by
    have : x * (L : ℝ) / 2 ^ 50 ≤ 1 / 20 := by
      rw [div_le_div_iff₀ (by norm_num) (by norm_num)]
      have : x * (L : ℝ) ≤ 8 * L := by gcongr
      norm_num at hL2 ⊢
      linarith
    linarith
  have hS0 : 0 ≤ so3CoeffSize L N reality flmn :=
    Finset.sum_nonneg fun n _ => Finset.sum_nonneg fun l hl => Finset.sum_nonneg fun m _ =>
      mul_nonneg (degreeWeight_nonneg (Finset.mem_Ico.1 hl).1) (norm_nonneg _)
  have hfin : ∀ {x T : ℝ}, x ≤ 16 → T ≤ 2 ^ 20 * (L : ℝ) ^ 4 → (ε + x * L / 2 ^ 50)
      * so3CoeffSize L N reality flmn + T / 2 ^ 1000
      ≤ (ε + L / 2 ^ 46) * so3CoeffSize L N reality flmn + 1 / 2 ^ 850 := fun {x T} hx hT => by
    refine add_le_add (mul_le_mul_of_nonneg_right (add_le_add le_rfl ?_) hS0)
      (tiny_four (by linarith) hL2 hT)
    rw [div_le_div_iff₀ (by norm_num) (by norm_num)]
    have : x * (L : ℝ) ≤ 16 * L := by gcongr
    norm_num
    linarith
  have p1 : (N : ℝ) * L * L ^ 2 ≤ L ^ 4 := by
    calc (N : ℝ) * L * L ^ 2 ≤ (L : ℝ) * L * L ^ 2 := by gcongr
      _ = (L : ℝ) ^ 4 := by ring
  have p2 : (N : ℝ) * L ≤ L ^ 4 := by
    calc (N : ℝ) * L ≤ (L : ℝ) * L * 1 := by rw [mul_one]; gcongr
      _ ≤ (L : ℝ) * L * L ^ 2 := by gcongr; nlinarith
      _ = (L : ℝ) ^ 4 := by ring
  have p3 : (N : ℝ) ≤ L ^ 4 := by
    refine le_trans ?_ p2
    nlinarith
  obtain ⟨gv, gh, gp⟩ := gl_gamma h1 g0 g1
  have e0 : Scheme.gl.off = 0 := rfl
  obtain ⟨D, hD⟩ : ∃ D : ℤ → ℂ, D = fun k => F.ifft (2 * L - 1 + σ.off)
    (ifftshift (2 * L - 1 + σ.off) (Y k)) p := ⟨_, rfl⟩
  have inner : ∀ n, nFirst N reality ≤ n → n < N → ‖D (n - nFirst N reality)
      - synth L false (fun m => wigRing L c n θ m) (σ.phi L 0 t p)‖
      ≤ (ε + 4 * L / 2 ^ 50) * (∑ m ∈ Finset.Ioo (-L) L, planeSize c L n m)
        + (1200 * L * L ^ 2 / 2 ^ 1000 + 2 * L / 2 ^ 1000) := fun n n0 n1 => by
    have hns := nStart_eq N reality
    have := ifftF_ringU F hh hv hL1 (u := 200 * L ^ 2 / 2 ^ 1000) (by positivity)
      (η := ε) (by linarith) (D := Y (n - nFirst N reality))
      (g := fun m => wigRing L c n θ m) (S := fun m => planeSize c L n m)
      (fun m => planeSize_nonneg c L n m)
      (fun h => hY0 h _ (by omega) (by rw [nDim_eq]; omega))
      (fun m hm => hY n m n0 n1 hm) (fun m => wigRing_le L c n θ m) hp
    rw [hD]
    refine this.trans (add_le_add le_rfl (le_of_eq ?_))
    ring
  have hSn : ∀ n, 0 ≤ ∑ m ∈ Finset.Ioo (-L) L, planeSize c L n m := fun n =>
    Finset.sum_nonneg fun m _ => planeSize_nonneg c L n m
  rw [← hD]
  cases reality with
  | false =>
    rw [if_neg (by simp)]
    simp only [nFirst_false] at inner
    have outer := ifftF_ringU F (σ := .gl) (L := N) (n := 0) (by rintro ⟨⟩) gv (by omega)
      (u := 1200 * L * L ^ 2 / 2 ^ 1000 + 2 * L / 2 ^ 1000) (by positivity) (hη 4 (by norm_num))
      (D := D) (g := fun n => synth L false (fun m => wigRing L c n θ m) (σ.phi L 0 t p))
      (S := fun n => ∑ m ∈ Finset.Ioo (-L) L, planeSize c L n m) hSn (by rw [e0]; intro h; omega)
      (fun n hn => by
        have hn' := abs_lt.1 hn
        have := inner n (by omega) hn'.2
        rw [e0, show n + N - 1 + 0 = n - (-N + 1) by ring]
        exact this)
      (fun n => (norm_synth_le _ _ _).trans (Finset.sum_le_sum fun m _ => wigRing_le L c n θ m)) gh
    rw [e0, add_zero, gp] at outer
    have e1 : synth N false (fun n => synth L false (fun m => wigRing L c n θ m) (σ.phi L 0 t p))
        (gammaAt N g) = wignerSum 0 L N (wignerCoeffs flmn L N false) (σ.phi L 0 t p) θ
          (gammaAt N g) := by
      rw [wignerSum_planes]
      simp only [wigPlane_ring]
      unfold wignerCoeffs
      rw [if_neg (by simp), ← hc]
      have syn : ∀ (K : ℤ) (G : ℤ → ℂ) (φ : ℝ), synth K false G φ
          = ∑ m ∈ Finset.Ioo (-K) K, G m * cis (m * φ) := fun K G φ => by
        unfold synth; rw [if_neg (by simp)]
      rw [syn N]
    have e2 : ∑ n ∈ Finset.Ioo (-N) N, ∑ m ∈ Finset.Ioo (-L) L, planeSize c L n m
        = so3CoeffSize L N false flmn := by
      unfold so3CoeffSize planeSize
      rw [hc]
      refine Finset.sum_congr rfl fun n _ => ?_
      rw [Finset.sum_comm]
      rfl
    rw [e1, e2] at outer
    refine outer.trans (le_trans (add_le_add (mul_le_mul_of_nonneg_right (c := ε + 8 * L / 2 ^ 50) ?_
      hS0) (le_of_eq ?_)) (hfin (x := 8) (T := 7200 * (N * L * L ^ 2) + 12 * (N * L) + 2 * N)
        (by norm_num) ?_))
    · norm_num; linarith
    · ring
    · norm_num; linarith
  | true =>
    rw [if_pos rfl]
    simp only [nFirst_true, sub_zero] at inner
    have hpl : ∀ n, 0 ≤ n → n < N → synth L false (fun m => wigRing L c n θ m) (σ.phi L 0 t p)
        = wigPlane 0 L (wignerCoeffs flmn L N true) n θ (σ.phi L 0 t p) := fun n n0 n1 => by
      rw [← wigPlane_coeffs hre (fun _ => n0), wigPlane_ring, ← hc]
    have hreal := wignerCoeffs_real hre.origin
    have outer := irfftF_ringU F (σ := .gl) (L := N) (n := 0) (by rintro ⟨⟩) gv (by omega)
      (u := 1200 * L * L ^ 2 / 2 ^ 1000 + 2 * L / 2 ^ 1000) (by positivity) (hη 4 (by norm_num))
      (D := D) (g := fun n => synth L false (fun m => wigRing L c n θ m) (σ.phi L 0 t p))
      (S := fun n => ∑ m ∈ Finset.Ioo (-L) L, planeSize c L n m) hSn
      (fun k k0 k1 => inner k k0 k1)
      (fun n => (norm_synth_le _ _ _).trans (Finset.sum_le_sum fun m _ => wigRing_le L c n θ m))
      (by
        beta_reduce
        rw [hpl 0 le_rfl (by omega), ← Complex.conj_eq_iff_im]
        have := wigPlane_conj hreal 0 θ (σ.phi L 0 t p)
        rw [neg_zero] at this
        exact this.symm) gh
    rw [e0, add_zero, gp] at outer
    have e1 : synth N true (fun n => synth L false (fun m => wigRing L c n θ m) (σ.phi L 0 t p))
        (gammaAt N g) = wignerSum 0 L N (wignerCoeffs flmn L N true) (σ.phi L 0 t p) θ
          (gammaAt N g) := by
      rw [wignerSum_planes, sum_Ioo_split h1]
      have syn : ∀ (G : ℤ → ℂ) (φ : ℝ), synth N true G φ = G 0 + ∑ m ∈ Finset.Ico 1 N,
          (G m * cis (m * φ) + (starRingEnd ℂ) (G m * cis (m * φ))) := fun G φ => by
        unfold synth; rw [if_pos rfl]
      rw [syn]
      beta_reduce
      rw [hpl 0 le_rfl (by omega)]
      congr 1
      · simp
      · refine Finset.sum_congr rfl fun n hn => ?_
        rw [Finset.mem_Ico] at hn
        rw [hpl n (by omega) hn.2, wigPlane_conj hreal, map_mul, conj_cis]
        push_cast
        rw [neg_mul]
    have e2 : ∑ m ∈ Finset.Ioo (-L) L, planeSize c L 0 m + ∑ n ∈ Finset.Ico 1 N,
        (∑ m ∈ Finset.Ioo (-L) L, planeSize c L n m + ∑ m ∈ Finset.Ioo (-L) L, planeSize c L n m)
        = so3CoeffSize L N true flmn := by
      have e3 : ∀ n, ∑ l ∈ Finset.Ico 0 L, ∑ m ∈ Finset.Ioo (-L) L, (2 * (l : ℝ) + 1) / (8 * Real.pi ^ 2)
          * ‖flmn (N - 1 + n) l (m + L - 1)‖ = ∑ m ∈ Finset.Ioo (-L) L, planeSize c L n m := fun n => by
        unfold planeSize
        rw [Finset.sum_comm, hc]
        rfl
      unfold so3CoeffSize
      simp only [if_true, e3]
      rw [sum_Ioo_split h1]
      simp only [abs_zero, abs_neg]
      congr 1
      refine Finset.sum_congr rfl fun n hn => ?_
      rw [Finset.mem_Ico] at hn
      rw [abs_of_nonneg (by omega)]
    rw [e1, e2] at outer
    refine outer.trans (le_trans (add_le_add (mul_le_mul_of_nonneg_right (c := ε + 12 * L / 2 ^ 50) ?_
      hS0) (le_of_eq ?_)) (hfin (x := 12) (T := 4800 * (N * L * L ^ 2) + 8 * (N * L) + 2 * N)
        (by norm_num) ?_))
    · norm_num; linarith
    · ring
    · norm_num; linarith

theorem fourierWignerInverseF_near (F : XlaLib) (pair : Fin 3) (nodes : ℤ → ℤ → ℝ) (method : PyStr)
    {σ : Scheme} (hσ : σ.Resampled) {s : PyStr} (hs : lower s = σ.name) {L N : ℤ} (h1 : 1 ≤ N)
    (hN : N ≤ L) (hL1 : L ≤ 2 ^ 26) {E : ℝ} (hE : Covers L E) (hE3 : E ≤ 1 / 30) (flmn : ℤ → ℤ → ℤ → ℂ)
    {precomps : Option FwTables} (hP : ∀ P, precomps = some P → FwTablesNear P L) {reality : Bool}
    (hre : RealPlane flmn L N reality) :
    ∃ out, fourierWignerInverseF F pair method (.d3 (2 * N - 1) L (2 * L - 1) flmn) L N precomps reality s
        = .ok out ∧ out.shape = (2 * N - 1) :: σ.shape L 0 ∧
      (reality = true → ∀ g t p, (out.get3 g t p).im = 0) ∧
      ∀ g t p, 0 ≤ g → g < 2 * N - 1 → σ.Has L 0 t p → ‖out.get3 g t p
        - wignerSum 0 L N (wignerCoeffs flmn L N reality) (σ.phi L 0 t p) (σ.theta nodes L 0 t)
            (gammaAt N g)‖
        ≤ (6 * E + L / 2 ^ 46) * so3CoeffSize L N reality flmn + 1 / 2 ^ 850 := by
  have hL : 1 ≤ L := h1.trans hN
  have hL' : (1 : ℝ) ≤ L := by exact_mod_cast hL
  have hb := nFirst_bounds h1 reality
  have hns := nStart_eq N reality
  have ho := off_cases σ
  have hh : σ ≠ .healpix := by rcases hσ with rfl | rfl <;> simp
  have hv : σ.Valid L 0 := ⟨hL, fun h => absurd h hh⟩
  obtain ⟨c, hc⟩ : ∃ c : ℤ → ℤ → ℤ → ℂ, c = fun n l m => flmn (N - 1 + n) l (m + L - 1) := ⟨_, rfl⟩
  obtain ⟨x, Δ, e, hΔ, hx0, hx⟩ := fwSpectrumF_near F pair method (off := σ.off) h1 hN hL1 hE flmn hP
    reality hc
  have e : fwSpectrumF F pair method (Nd.d3 (2 * N - 1) L (2 * L - 1) flmn).get3 L N σ.off precomps reality
    = .ok x := e
  obtain ⟨Y, hY⟩ : ∃ Y : ℤ → ℤ → ℤ → ℂ, Y = fun k t j => F.ifft (2 * L - 1 + σ.off)
    (ifftshift (2 * L - 1 + σ.off) (fun a => fwPhasedF F.toFftLib L s (-L + 1 - σ.off + j)
      (nFirst N reality + k) (-L + 1 - σ.off + a) (x a j k))) t := ⟨_, rfl⟩
  refine ⟨.d3 (2 * N - 1) (σ.rings L 0) (2 * L - 1 + σ.off) (fun g t p =>
    if reality then (F.irfft N (fun k => F.ifft (2 * L - 1 + σ.off)
          (ifftshift (2 * L - 1 + σ.off) (Y k t)) p) (2 * N - 1) g : ℂ)
        else F.ifft (2 * N - 1) (ifftshift (2 * N - 1) (fun k => F.ifft (2 * L - 1 + σ.off)
          (ifftshift (2 * L - 1 + σ.off) (Y k t)) p)) g), ?_, by rw [fw_shape hσ]; rfl, ?_, ?_⟩
  · unfold fourierWignerInverseF
    rw [if_neg (not_not.2 (fw_supported hσ hs)), if_neg (by simp [Nd.shape]), fw_off hσ hs,
      fw_size hσ hs, fw_ntheta hσ hs]
    simp only [bind, Except.bind]
    rw [e]
    simp only
    rw [hY]
    cases reality <;> rfl
  · rintro rfl g t p
    simp [Nd.get3]
  · intro g t p g0 g1 hp
    simp only [Nd.get3]
    have hrl : t < 2 * L - 1 + σ.off := by
      have := hp.2.1
      rcases hσ with rfl | rfl <;> simp [Scheme.rings, Scheme.off] at this ⊢ <;> omega
    refine fwAnglesF_near F.toFftLib hh hv hL1 h1 hN flmn hre (by linarith) hc (Y := fun k => Y k t)
      (fun h k k0 k1 => ?_) (fun n m n0 n1 hm => ?_) g0 g1 hp
    · have hp0 : σ.Has L 0 0 t := ⟨le_rfl, by have := hp.1; have := hp.2.1; omega, hp.1, by
        rw [ringLen_equi hh]; exact hrl⟩
      have hzero : ∀ a, |-L + 1 - σ.off + a| ≤ L → ‖fwPhasedF F.toFftLib L s (-L + 1 - σ.off + 0)
          (nFirst N reality + k) (-L + 1 - σ.off + a) (x a 0 k)‖ ≤ 4 * (1 / 2 ^ 1000) := fun a ha => by
        rw [hx0 a 0 k (Or.inr (by omega))]
        rw [nDim_eq] at k1
        have := fwPhasedF_near F.toFftLib hL hL1 s (m := -L + 1 - σ.off + 0)
          (n := nFirst N reality + k) (by rw [abs_le]; omega) (by rw [abs_le]; omega) ha
          (x := 0) (X := 0) (e := 0) (by simp)
        simpa using this
      have := ifftF_ringU F.toFftLib hh hv hL1 (u := 4 * (1 / 2 ^ 1000)) (by positivity) (η := 0)
        (by norm_num) (D := fun a => fwPhasedF F.toFftLib L s (-L + 1 - σ.off + 0)
          (nFirst N reality + k) (-L + 1 - σ.off + a) (x a 0 k)) (g := fun _ => 0) (S := fun _ => 0)
        (fun _ => le_rfl) (fun _ => ?_) (fun m hm => ?_) (fun _ => by simp) hp0
      · rw [hY]
        have es : synth L false (fun _ => 0) (σ.phi L 0 0 t) = 0 := by
          unfold synth; simp
        rw [es, sub_zero] at this
        refine this.trans ?_
        rw [Finset.sum_const_zero, mul_zero, zero_add]
        have : (L : ℝ) ≤ L ^ 2 := by nlinarith
        rw [show 6 * (L : ℝ) * (4 * (1 / 2 ^ 1000)) + 2 * L / 2 ^ 1000 = 26 * L / 2 ^ 1000 by ring]
        refine div_le_div_of_nonneg_right ?_ (by positivity)
        linarith
      · exact hzero 0 (by rw [abs_le]; omega)
      · rw [sub_zero, zero_mul, zero_add]
        have := abs_lt.1 hm
        exact hzero _ (by rw [abs_le]; omega)
    · have hm' := abs_lt.1 hm
      have := fwBetaF_near F.toFftLib hσ nodes hs (n := n) (m := m) (t := t) hL hL1 hE hΔ hm
        (by rw [abs_lt]; omega) hp.1 hp.2.1
        (x := fun a => x a (m + L - 1 + σ.off) (n - nFirst N reality))
        (fun h => hx0 0 _ _ (Or.inl (by omega))) (fun a ha => hx a m n ha hm'.1 n0 n1)
      rw [hY]
      beta_reduce
      rw [show -L + 1 - σ.off + (m + L - 1 + σ.off) = m by ring,
        show nFirst N reality + (n - nFirst N reality) = n by ring]
      exact this

end S2fft
