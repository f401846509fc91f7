import Verif.Lemmas.FourierWignerDoubleContract

/-! # The forward Fourier-Wigner transform in double precision: the result -/

namespace S2fft
open Spec

theorem fwExtend_near {σ : Scheme} (hσ : σ.Resampled) {L : ℤ} (N : ℤ) (reality : Bool)
    {x x' : ℤ → ℤ → ℤ → ℂ} {k j : ℤ} {A δ : ℝ}
    (hA : ∀ t, 0 ≤ t → t < σ.rings L 0 → ‖x k t j‖ ≤ A)
    (h : ∀ t, 0 ≤ t → t < σ.rings L 0 → ‖x' k t j - x k t j‖ ≤ δ) {t : ℤ} (t0 : 0 ≤ t)
    (t1 : t < 2 * L - 1 + σ.off) :
    ‖fwExtend x L N (σ.rings L 0) reality k t j‖ ≤ A ∧
    ‖fwExtend x' L N (σ.rings L 0) reality k t j - fwExtend x L N (σ.rings L 0) reality k t j‖ ≤ δ := by
  have hr := fw_rings hσ L
  have ho := off_cases σ
  unfold fwExtend
  simp only
  split_ifs with hc
  · exact ⟨hA t t0 hc, h t t0 hc⟩
  · rw [← sub_mul, ← sub_mul, norm_mul, norm_mul, norm_mul, norm_mul, norm_neg_one_zpow, norm_neg_one_zpow,
      mul_one, mul_one, mul_one, mul_one]
    exact ⟨hA _ (by omega) (by omega), h _ (by omega) (by omega)⟩

/-- The last product. -/
theorem factor_step (F : FftLib) {x X : ℂ} {e T : ℝ} (hx : ‖x - X‖ ≤ e) (hT : ‖X‖ ≤ T) :
    ‖F.mul x ((fwFactorF F.toDoubleLib : ℝ) : ℂ) - X * (2 * (Real.pi : ℂ)) ^ 2‖
      ≤ (2 * Real.pi) ^ 2 * (65 / 64 * e) + 1 / 2 ^ 44 * T + 1 / 2 ^ 1000 := by
  have hf := fwFactorF_near F.toDoubleLib
  have hm := F.mul_near x ((fwFactorF F.toDoubleLib : ℝ) : ℂ)
  have he : 0 ≤ e := (norm_nonneg _).trans hx
  have hT0 : 0 ≤ T := (norm_nonneg _).trans hT
  rw [Complex.norm_real, Real.norm_eq_abs] at hm
  have hpi := Real.pi_gt_three
  have hpi1 := Real.pi_lt_d2
  have e1 : (2 * (Real.pi : ℂ)) ^ 2 = (((2 * Real.pi) ^ 2 : ℝ) : ℂ) := by push_cast; ring
  rw [e1]
  have hQ : (2 * Real.pi) ^ 2 ≤ 40 := by norm_num at hpi1; nlinarith
  have hQ1 : 1 ≤ (2 * Real.pi) ^ 2 := by nlinarith
  generalize (2 * Real.pi) ^ 2 = Q at *
  generalize fwFactorF F.toDoubleLib = w at *
  have hw : |w| ≤ 41 := by
    have := abs_sub_abs_le_abs_sub w Q
    rw [abs_of_pos (by linarith : 0 < Q)] at this
    norm_num at hf
    linarith
  have hxn : ‖x‖ ≤ T + e := by
    have := norm_le_norm_add_norm_sub' x X
    linarith
  have e2 : F.mul x (w : ℂ) - X * (Q : ℂ) = (F.mul x (w : ℂ) - x * w) + (x * ((w - Q : ℝ) : ℂ) + (x - X) * Q) := by
    push_cast; ring
  rw [e2]
  refine (norm_add_le _ _).trans ((add_le_add hm (norm_add_le _ _)).trans ?_)
  rw [norm_mul, norm_mul, Complex.norm_real, Complex.norm_real, Real.norm_eq_abs, Real.norm_eq_abs,
    abs_of_pos (by linarith : 0 < Q)]
  have k1 : ‖x‖ * |w| / 2 ^ 50 ≤ (T + e) * 41 / 2 ^ 50 := by gcongr
  have k2 : ‖x‖ * |w - Q| ≤ (T + e) * (20 / 2 ^ 50) := by gcongr
  have k3 : ‖x - X‖ * Q ≤ e * Q := by gcongr
  have k4 : e * (61 / 2 ^ 50) ≤ e * (1 / 64 * Q) := by
    refine mul_le_mul_of_nonneg_left ?_ he
    norm_num
    linarith
  have k5 : (T + e) * 41 / 2 ^ 50 + (T + e) * (20 / 2 ^ 50) = 61 / 2 ^ 50 * T + e * (61 / 2 ^ 50) := by ring
  have k6 : (61 : ℝ) / 2 ^ 50 * T ≤ 1 / 2 ^ 44 * T :=
    mul_le_mul_of_nonneg_right (by norm_num) hT0
  linarith

/-- Both phases. -/
theorem phases_step (F : FftLib) {L m n : ℤ} {E : ℝ} (hL : 1 ≤ L) (hL1 : L ≤ 2 ^ 26)
    (hE : (L : ℝ) / 2 ^ 44 ≤ E) (hm : |m| < L) (hn : |n| < L) {y Y : ℂ} {e T : ℝ} (hy : ‖y - Y‖ ≤ e)
    (hT : ‖Y‖ ≤ T) :
    ‖F.mul (F.mul y (F.ipow m)) (F.ipow (-n)) - Y * Complex.I ^ m * Complex.I ^ (-n)‖
      ≤ 65 / 64 * e + 1 / 8 * (E * T) + 3 / 2 ^ 1000 := by
  have he : 0 ≤ e := (norm_nonneg _).trans hy
  have hT0 : 0 ≤ T := (norm_nonneg _).trans hT
  have hL' : (1 : ℝ) ≤ L := by exact_mod_cast hL
  have hL2 : (L : ℝ) ≤ 2 ^ 26 := by exact_mod_cast hL1
  have hI : ∀ k : ℤ, ‖Complex.I ^ k‖ = 1 := fun k => by rw [norm_zpow, Complex.norm_I, one_zpow]
  have hD : ∀ k : ℤ, |k| < L → ‖F.ipow k - Complex.I ^ k‖ ≤ (L : ℝ) / 2 ^ 50 := fun k hk => by
    refine (F.ipow_near k).trans (div_le_div_of_nonneg_right ?_ (by norm_num))
    rw [← Int.cast_abs]
    exact_mod_cast (by omega : |k| + 1 ≤ L)
  have d1 : (1 : ℝ) / 2 ^ 50 ≤ L / 2 ^ 50 := div_le_div_of_nonneg_right hL' (by norm_num)
  have d2 : (L : ℝ) / 2 ^ 50 ≤ 1 / 2 ^ 20 := by
    rw [div_le_div_iff₀ (by norm_num) (by norm_num)]; norm_num at hL2 ⊢; linarith
  have s1 := phase_step F hy (hD m hm) (hI m) d1 d2
  have s2 := phase_step F s1 (hD (-n) (by rw [abs_neg]; exact hn)) (hI (-n)) d1 d2
  refine s2.trans ?_
  rw [norm_mul, hI, mul_one]
  have hDE : (L : ℝ) / 2 ^ 50 ≤ 1 / 64 * E := by
    have : (L : ℝ) / 2 ^ 50 = 1 / 64 * (L / 2 ^ 44) := by ring
    linarith
  have k1 : 3 * ((L : ℝ) / 2 ^ 50) * ‖Y‖ ≤ 3 / 64 * (E * T) := by
    calc 3 * ((L : ℝ) / 2 ^ 50) * ‖Y‖ ≤ 3 * (1 / 64 * E) * T := by
          refine mul_le_mul (by linarith) hT (norm_nonneg _) ?_
          have : 0 ≤ (L : ℝ) / 2 ^ 50 := by positivity
          linarith
      _ = 3 / 64 * (E * T) := by ring
  have hET : 0 ≤ E * T := mul_nonneg (le_trans (by positivity) hE) hT0
  rw [show (3 : ℝ) / 2 ^ 1000 = 3 * (1 / 2 ^ 1000) by ring]
  have hu : (0 : ℝ) ≤ 1 / 2 ^ 1000 := by positivity
  generalize (1 : ℝ) / 2 ^ 1000 = u at *
  generalize 3 * ((L : ℝ) / 2 ^ 50) * ‖Y‖ = R at *
  norm_num
  linarith

theorem fourierWignerForwardF_near (F : XlaLib) (pair : Fin 3) (nodes : ℤ → ℤ → ℝ) (method : PyStr)
    {σ : Scheme} (hσ : σ.Resampled) {s : PyStr} (hs : lower s = σ.name) {L N : ℤ} (h1 : 1 ≤ N) (hN : N ≤ L)
    (hL1 : L ≤ 2 ^ 26) (hL : σ = .mwss → 2 ≤ L) (c : ℤ → ℤ → ℤ → ℂ) (f : Nd ℂ) {M η : ℝ}
    (hsh : f.shape = (2 * N - 1) :: σ.shape L 0)
    (hM : ∀ g t p, 0 ≤ g → g < 2 * N - 1 → σ.Has L 0 t p → ‖f.get3 g t p‖ ≤ M)
    (hf : ∀ g t p, 0 ≤ g → g < 2 * N - 1 → σ.Has L 0 t p → ‖f.get3 g t p
      - wignerSum 0 L N c (σ.phi L 0 t p) (σ.theta nodes L 0 t) (gammaAt N g)‖ ≤ η)
    {precomps : Option FwTables} (hP : ∀ P, precomps = some P → FwTablesNear P L)
    (hQ : ∀ p, 0 ≤ p → p < 4 * L - 3 →
      ‖fwQuadsOfF F.toFftLib precomps L p - fwQuads L p‖ ≤ 64 * L / 2 ^ 50) {reality : Bool}
    (hre : reality = true → RealWigner c 0 L) :
    ∃ g, fourierWignerForwardF F pair method f L N precomps reality s
        = .ok (.d3 (2 * N - 1) L (2 * L - 1) g) ∧
      ∀ n l m, -N < n → n < N → 0 ≤ l → l < L → -L < m → m < L →
        ‖g (N - 1 + n) l (m + L - 1) - (if |n| ≤ l ∧ |m| ≤ l then c n l m else 0)‖
          ≤ (2 * Real.pi) ^ 2 * (24 * η + 112 * (L * √L / 2 ^ 44 * M) + 9 * tn) := by
  have hL0 : 1 ≤ L := by omega
  have hE := covers_sqrt hL0 hL1
  obtain ⟨s1, s2, s3⟩ := sizeE hL0 hL1
  have ho := off_cases σ
  have hb := nFirst_bounds h1 reality
  have hr := fw_rings hσ L
  have hh : σ ≠ .healpix := by rcases hσ with rfl | rfl <;> decide
  have hlen : ∀ t, σ.ringLen L 0 t = 2 * L - 1 + σ.off := fun t => by
    rcases hσ with rfl | rfl <;> simp [Scheme.ringLen, Scheme.off]
  have hoff : σ.off = 1 → 2 ≤ L := fun h => by
    rcases hσ with rfl | rfl
    · exact absurd h (by simp [Scheme.off])
    · exact hL rfl
  have hhas : ∀ t p, 0 ≤ t → t < σ.rings L 0 → 0 ≤ p → p < 2 * L - 1 + σ.off → σ.Has L 0 t p :=
    fun t p t0 t1 p0 p1 => ⟨t0, t1, p0, by rw [hlen]; exact p1⟩
  have hh0 : σ.Has L 0 0 0 := hhas 0 0 le_rfl (by omega) le_rfl (by omega)
  have hM0 : 0 ≤ M := le_trans (norm_nonneg _) (hM 0 0 0 le_rfl (by omega) hh0)
  have hη : 0 ≤ η := le_trans (norm_nonneg _) (hf 0 0 0 le_rfl (by omega) hh0)
  have hlpad : (if lower s = sMWSS then L - 2 else L - 1) = L - 1 - σ.off := by
    rw [hs]; rcases hσ with rfl | rfl
    · rw [if_neg (by decide)]; simp [Scheme.off]
    · rw [if_pos (show Scheme.mwss.name = sMWSS from rfl)]; simp only [Scheme.off]; ring
  have hmw : (decide (lower s = sMW)) = true → σ.off = 0 := fun h => by
    have h := of_decide_eq_true h
    rw [hs] at h
    rcases hσ with rfl | rfl
    · rfl
    · exact absurd h (by decide)
  -- the exact signal
  obtain ⟨f0, hf0⟩ : ∃ f0 : ℤ → ℤ → ℤ → ℂ, f0 = fun g t p =>
    wignerSum 0 L N c (σ.phi L 0 t p) (σ.theta nodes L 0 t) (gammaAt N g) := ⟨_, rfl⟩
  have hA : ∀ g t p, 0 ≤ g → g < 2 * N - 1 → σ.Has L 0 t p → ‖f0 g t p‖ ≤ M + η := fun g t p g0 g1 hp => by
    have := norm_le_norm_add_norm_sub (f.get3 g t p) (f0 g t p)
    have h2 := hf g t p g0 g1 hp
    rw [hf0] at this ⊢
    linarith [hM g t p g0 g1 hp]
  obtain ⟨R', hR'⟩ : ∃ R', R' = fwRingsF F.toFftLib method f.get3 N (2 * L - 1 + σ.off) σ.off reality :=
    ⟨_, rfl⟩
  obtain ⟨R, hR⟩ : ∃ R, R = fwRings f0 N (2 * L - 1 + σ.off) σ.off reality := ⟨_, rfl⟩
  have hRn : ∀ k t j, 0 ≤ t → t < σ.rings L 0 → ‖R k t j‖ ≤ M + η := fun k t j t0 t1 => by
    rw [hR]
    exact fwRings_norm_le hL0 h1 ho f0 reality t
      (fun g p g0 g1 p0 p1 => hA g t p g0 g1 (hhas t p t0 t1 p0 p1)) k j
  have hRd : ∀ n t m, nFirst N reality ≤ n → n < N → 0 ≤ t → t < σ.rings L 0 →
      ‖R' (n - nFirst N reality) t (m + L - 1) - R (n - nFirst N reality) t (m + L - 1)‖
        ≤ η + (24 * L / 2 ^ 50 * M + 8 / 2 ^ 1000) := fun n t m n0 n1 t0 t1 => by
    rw [hR, hR']
    refine fwRingsF_near F.toFftLib method hL0 h1 hN hL1 ho f0 f.get3 reality t
      (fun g p g0 g1 p0 p1 => ?_) (fun g p g0 g1 p0 p1 => hM g t p g0 g1 (hhas t p t0 t1 p0 p1)) n0 n1
    rw [hf0]
    exact hf g t p g0 g1 (hhas t p t0 t1 p0 p1)
  have hRv : ∀ n t m, nFirst N reality ≤ n → n < N → 0 ≤ t → t < σ.rings L 0 → -L < m → m < L →
      R (n - nFirst N reality) t (m + L - 1) = wigRing L c n (σ.theta nodes L 0 t) m :=
    fun n t m n0 n1 t0 t1 m0 m1 => by
      rw [hR]
      refine fwRings_values hL0 h1 ho c f0 reality hre _ (fun p => σ.phi L 0 t p)
        (fun m p => fw_phi hσ L m t p) t (fun g p g0 g1 p0 p1 => ?_) n0 n1 m0 m1
      rw [hf0]
  unfold fourierWignerForwardF
  rw [if_neg (not_not.2 (fw_supported hσ hs)), fw_ntheta hσ hs, fw_size hσ hs,
    if_neg (by rw [hsh, fw_shape hσ]; simp)]
  simp only [hlpad, fw_off hσ hs]
  rw [if_neg (by omega), show σ.rings L 0 + (L - 1) = 2 * L - 1 + σ.off by omega, ← hR']
  set x' : ℤ → ℤ → ℤ → ℂ := fun k a j => fwConvolveF F method (fun t => fwExtend R' L N (σ.rings L 0)
    reality k t j) (fwQuadsOfF F.toFftLib precomps L) L (2 * L - 1 + σ.off) (L - 1 - σ.off)
    (lower s = sMW) a with hx'
  obtain ⟨x, hx⟩ : ∃ x : ℤ → ℤ → ℤ → ℂ, x = fun k a j => fwConvolve (fun t => fwExtend R L N (σ.rings L 0)
    reality k t j) (fwQuads L) L (2 * L - 1 + σ.off) (L - 1 - σ.off) (lower s = sMW) a := ⟨_, rfl⟩
  have hxv : ∀ n a m, nFirst N reality ≤ n → n < N → -L < a → a < L → -L < m → m < L →
      x (n - nFirst N reality) (a + L - 1) (m + L - 1) = ∑ b ∈ Finset.Ioo (-L) L,
        (fwCoef L c n b m * Complex.I ^ (-m) * Complex.I ^ n) * mw_weights (b - a) := by
    intro n a m n0 n1 a0 a1 m0 m1
    rw [hx]
    beta_reduce
    refine fwConvolve_values nodes hσ hs hL0 _ _ (fun t t0 t1 => ?_) a0 a1
    rw [← wigRing_fourier]
    exact fwExtend_values nodes hσ hL0 c reality _ (fun t t0 t1 => hRv n t m n0 n1 t0 t1 m0 m1) t0 t1
  have hcv : ∀ n a m, nFirst N reality ≤ n → n < N → -L < a → a < L → -L < m → m < L →
      ‖x (n - nFirst N reality) (a + L - 1) (m + L - 1)‖ ≤ 8 * (M + η) ∧
      ‖x' (n - nFirst N reality) (a + L - 1) (m + L - 1) - x (n - nFirst N reality) (a + L - 1) (m + L - 1)‖
        ≤ 12 * (η + (24 * L / 2 ^ 50 * M + 8 / 2 ^ 1000)) + 50 * (L * √L / 2 ^ 44) * (M + η + tn) := by
    intro n a m n0 n1 a0 a1 m0 m1
    have hx2 : ∀ t, 0 ≤ t → t < 2 * L - 1 + σ.off → _ := fun t t0 t1 => fwExtend_near hσ N reality
      (x := R) (x' := R') (k := n - nFirst N reality) (j := m + L - 1)
      (fun t t0 t1 => hRn _ t _ t0 t1) (fun t t0 t1 => hRd n t m n0 n1 t0 t1) t0 t1
    have := fwConvolveF_near F method hL0 hL1 ho hoff hmw (fun t t0 t1 => (hx2 t t0 t1).1)
      (fun t t0 t1 => (hx2 t t0 t1).2) hQ (a := a + L - 1) (by omega) (by omega)
    rw [hx, hx']
    exact this
  obtain ⟨y, ey, hy⟩ := fwContractF_near F pair method h1 hN hL1 hE hP reality
    (fun n a m n0 n1 a0 a1 m0 m1 => (hcv n a m n0 n1 a0 a1 m0 m1).1)
    (fun n a m n0 n1 a0 a1 m0 m1 => (hcv n a m n0 n1 a0 a1 m0 m1).2)
  have hyv : ∀ n l m, nFirst N reality ≤ n → n < N → 0 ≤ l → l < L → -L < m → m < L →
      ‖(if |n| ≤ l ∧ |m| ≤ l then c n l m / (2 * (Real.pi : ℂ)) ^ 2 else 0)‖ ≤ 8 * (M + η) ∧
      ‖F.mul (F.mul (y (n - nFirst N reality) l (m + L - 1)) (F.ipow m)) (F.ipow (-n))
        - (if |n| ≤ l ∧ |m| ≤ l then c n l m / (2 * (Real.pi : ℂ)) ^ 2 else 0)‖
        ≤ 23 * η + 109 * (L * √L / 2 ^ 44 * M) + 8 * tn := by
    intro n l m n0 n1 l0 l1 m0 m1
    obtain ⟨y1, y2⟩ := hy n l m n0 n1 l0 l1 m0 m1
    have hv := fw_contract l0 l1 c
      (fun b => fwCoef L c n b m * Complex.I ^ (-m) * Complex.I ^ n)
      (fun β => wigRing_fourier L c n m β) (m := m) (n := n)
    have hsum : ∑ a ∈ Finset.Ioo (-L) L, (∑ b ∈ Finset.Ioo (-L) L,
          fwCoef L c n b m * Complex.I ^ (-m) * Complex.I ^ n * mw_weights (b - a))
          * wignerd l a m (Real.pi / 2) * wignerd l a n (Real.pi / 2)
        = ∑ a ∈ Finset.Ioo (-L) L, x (n - nFirst N reality) (a + L - 1) (m + L - 1)
          * wignerd l a m (Real.pi / 2) * wignerd l a n (Real.pi / 2) := by
      refine Finset.sum_congr rfl fun a ha => ?_
      rw [Finset.mem_Ioo] at ha
      rw [hxv n a m n0 n1 ha.1 ha.2 m0 m1]
    rw [hsum] at hv
    rw [← hv]
    constructor
    · rw [norm_mul, norm_mul, norm_zpow, norm_zpow, Complex.norm_I, one_zpow, one_zpow, mul_one, mul_one]
      exact y1
    · refine (phases_step F.toFftLib hL0 hL1 s3 (abs_lt.2 ⟨m0, m1⟩)
        (abs_lt.2 ⟨by omega, by omega⟩) y2 y1).trans ?_
      have hc : 24 * (L : ℝ) / 2 ^ 50 * M ≤ 3 / 8 * (L * √L / 2 ^ 44 * M) := by
        have : 24 * (L : ℝ) / 2 ^ 50 * M = 3 / 8 * (L / 2 ^ 44 * M) := by ring
        rw [this]
        have := mul_le_mul_of_nonneg_right s3 hM0
        linarith
      have htn := tn_pos
      have ht : 256 * (1 / 2 ^ 1000 : ℝ) ≤ 1 / 64 * tn := by
        rw [tiny_tn]
        have e : 256 * (tn / 2 ^ 100) = 256 / 2 ^ 100 * tn := by ring
        rw [e]
        refine mul_le_mul_of_nonneg_right ?_ htn.le
        norm_num
      have hu : (0 : ℝ) ≤ 1 / 2 ^ 1000 := by positivity
      rw [show (3 : ℝ) / 2 ^ 1000 = 3 * (1 / 2 ^ 1000) by ring,
        show (8 : ℝ) / 2 ^ 1000 = 8 * (1 / 2 ^ 1000) by ring]
      generalize (1 : ℝ) / 2 ^ 1000 = u at *
      generalize 24 * (L : ℝ) / 2 ^ 50 * M = W at *
      generalize (L : ℝ) * √L / 2 ^ 44 = E at *
      have k1 : E * η ≤ 1 / 32 * η := mul_le_mul_of_nonneg_right s2 hη
      have k2 : E * tn ≤ 1 / 32 * tn := mul_le_mul_of_nonneg_right s2 htn.le
      have k3 : 0 ≤ E * M := mul_nonneg s1 hM0
      have e1 : 50 * E * (M + η + tn) = 50 * (E * M) + 50 * (E * η) + 50 * (E * tn) := by ring
      have e2 : E * (8 * (M + η)) = 8 * (E * M) + 8 * (E * η) := by ring
      rw [e1, e2]
      linarith
  have hpi : (2 * (Real.pi : ℂ)) ^ 2 ≠ 0 := by
    have : (Real.pi : ℂ) ≠ 0 := by exact_mod_cast Real.pi_ne_zero
    exact pow_ne_zero 2 (mul_ne_zero two_ne_zero this)
  have hfin : ∀ {w : ℂ} {n l m : ℤ},
      ‖(if |n| ≤ l ∧ |m| ≤ l then c n l m / (2 * (Real.pi : ℂ)) ^ 2 else 0)‖ ≤ 8 * (M + η) →
      ‖w - (if |n| ≤ l ∧ |m| ≤ l then c n l m / (2 * (Real.pi : ℂ)) ^ 2 else 0)‖
        ≤ 23 * η + 109 * (L * √L / 2 ^ 44 * M) + 8 * tn →
      ‖F.mul w ((fwFactorF F.toDoubleLib : ℝ) : ℂ) - (if |n| ≤ l ∧ |m| ≤ l then c n l m else 0)‖
        ≤ (2 * Real.pi) ^ 2 * (24 * η + 112 * (L * √L / 2 ^ 44 * M) + 9 * tn) := by
    intro w n l m a1 a2
    have h := factor_step F.toFftLib a2 a1
    have e : (if |n| ≤ l ∧ |m| ≤ l then c n l m / (2 * (Real.pi : ℂ)) ^ 2 else 0) * (2 * (Real.pi : ℂ)) ^ 2
        = if |n| ≤ l ∧ |m| ≤ l then c n l m else 0 := by
      split_ifs
      · field_simp
      · simp
    rw [e] at h
    refine h.trans ?_
    have hq : 36 ≤ (2 * Real.pi) ^ 2 := by nlinarith [Real.pi_gt_three]
    generalize (2 * Real.pi) ^ 2 = Q at *
    have hE1 : 1 / 2 ^ 44 ≤ (L : ℝ) * √L / 2 ^ 44 := hE.pos hL0
    have htn := tn_pos
    have ht : (1 / 2 ^ 1000 : ℝ) ≤ 1 / 64 * tn := by
      rw [tiny_tn]
      have e : tn / 2 ^ 100 = 1 / 2 ^ 100 * tn := by ring
      rw [e]
      refine mul_le_mul_of_nonneg_right ?_ htn.le
      norm_num
    generalize (1 : ℝ) / 2 ^ 1000 = u at *
    generalize (L : ℝ) * √L / 2 ^ 44 = E at *
    have k3 : 0 ≤ E * M := mul_nonneg s1 hM0
    have k4 : 1 / 2 ^ 44 * (8 * (M + η)) ≤ 8 * (E * M) + 1 / 4 * η := by
      have b1 := mul_le_mul_of_nonneg_right hE1 hM0
      have b2 := mul_le_mul_of_nonneg_right (hE1.trans s2) hη
      generalize (1 : ℝ) / 2 ^ 44 = ζ at *
      have b3 : ζ * (8 * (M + η)) = 8 * (ζ * M) + 8 * (ζ * η) := by ring
      linarith
    have k5 : 8 * (E * M) + 1 / 4 * η + 1 / 64 * tn ≤ Q * (1 / 4 * (E * M) + 1 / 128 * η + 1 / 128 * tn) := by
      have b : 0 ≤ 1 / 4 * (E * M) + 1 / 128 * η + 1 / 128 * tn := by linarith
      have := mul_le_mul_of_nonneg_right hq b
      linarith
    have k6 : Q * (65 / 64 * (23 * η + 109 * (E * M) + 8 * tn)) + Q * (1 / 4 * (E * M) + 1 / 128 * η + 1 / 128 * tn)
        ≤ Q * (24 * η + 112 * (E * M) + 9 * tn) := by
      rw [← mul_add]
      refine mul_le_mul_of_nonneg_left ?_ (by linarith)
      linarith
    linarith
  simp only [bind, Except.bind]
  rw [ey]
  refine ⟨_, rfl, fun n l m n0 n1 l0 l1 m0 m1 => ?_⟩
  cases reality
  · rw [if_neg Bool.false_ne_true, show N - 1 + n = n - nFirst N false by rw [nFirst_false]; ring,
      show -L + 1 + (m + L - 1) = m by ring,
      show nFirst N false + (n - nFirst N false) = n by ring]
    have := hyv n l m (by rw [nFirst_false]; omega) n1 l0 l1 m0 m1
    exact hfin this.1 this.2
  · rw [if_pos rfl]
    rw [nFirst_true] at hyv ⊢
    by_cases hn : n < 0
    · rw [if_pos (by omega), show (1 + (N - 2 - (N - 1 + n))) = -n - 0 by ring,
        show 2 * L - 2 - (m + L - 1) = -m + L - 1 by ring,
        show -L + 1 + (-m + L - 1) = -m by ring, show (0 : ℤ) + (-n - 0) = -n by ring,
        show -L + 1 + (m + L - 1) = m by ring, show -N + 1 + (N - 1 + n) = n by ring,
        neg_one_zpow_abs, neg_one_zpow_abs]
      obtain ⟨a1, a2⟩ := hyv (-n) l (-m) (by omega) (by omega) l0 l1 (by omega) (by omega)
      rw [abs_neg, abs_neg] at a1 a2
      have e : (if |n| ≤ l ∧ |m| ≤ l then c n l m / (2 * (Real.pi : ℂ)) ^ 2 else 0)
          = (starRingEnd ℂ) (if |n| ≤ l ∧ |m| ≤ l then c (-n) l (-m) / (2 * (Real.pi : ℂ)) ^ 2 else 0)
            * (-1) ^ m * (-1) ^ n := by
        split_ifs with h
        · have := hre rfl (-n) l (-m) l0 l1 (by rw [abs_neg]; exact h.2)
          rw [neg_neg, neg_neg, show -m + -n = -(m + n) by ring, neg_one_zpow_neg,
            zpow_add₀ (by norm_num)] at this
          rw [this, map_div₀, map_pow, map_mul, Complex.conj_ofReal, map_ofNat]
          field_simp
        · simp
      refine hfin ?_ ?_
      · rw [e, norm_mul, norm_mul, norm_neg_one_zpow, norm_neg_one_zpow, mul_one, mul_one, RCLike.norm_conj]
        exact a1
      · rw [e, ← sub_mul, ← sub_mul, norm_mul, norm_mul, norm_neg_one_zpow, norm_neg_one_zpow, mul_one,
          mul_one, ← map_sub, RCLike.norm_conj]
        exact a2
    · rw [if_neg (by omega), show N - 1 + n - (N - 1) = n - 0 by ring,
        show -L + 1 + (m + L - 1) = m by ring, show (0 : ℤ) + (n - 0) = n by ring]
      have := hyv n l m (by omega) n1 l0 l1 m0 m1
      exact hfin this.1 this.2

end S2fft
