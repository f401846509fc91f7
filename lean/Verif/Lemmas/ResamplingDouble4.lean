import Verif.Lemmas.ResamplingDouble3
/-! # The coefficients from MW and MWSS samples in double precision -/
namespace S2fft
open Spec

/-- The Fourier sums of a ring of `2 L` samples. -/
theorem fftF_ring (F : FftLib) {L : ℤ} (hL : 1 ≤ L) {u u' : ℤ → ℤ → ℂ} {reality : Bool} {t m : ℤ}
    (hre : reality = true → ∀ p, 0 ≤ p → p < 2 * L → (u t p).im = 0)
    (m1 : m < L) (hm : reality = true → 0 ≤ m) :
    ‖ringSum .mwss L 0 u t m‖ ≤ ∑ p ∈ Finset.Ico 0 (2 * L), ‖u t p‖ ∧
    ‖precomputeFftF F u' sMWSS (2 * L) reality t (m + L - 1 - mStart L reality)
        - ringSum .mwss L 0 u t m‖
      ≤ ∑ p ∈ Finset.Ico 0 (2 * L), ‖u' t p - u t p‖
        + 2 * L / 2 ^ 50 * (∑ p ∈ Finset.Ico 0 (2 * L), ‖u t p‖
          + ∑ p ∈ Finset.Ico 0 (2 * L), ‖u' t p - u t p‖ + tn) := by
  have hL' : (1 : ℝ) ≤ L := by exact_mod_cast hL
  have htn := tn_pos
  have hsum : fft (2 * L) (u t) m = ringSum .mwss L 0 u t m := by
    unfold fft ringSum
    rw [show Scheme.mwss.ringLen L 0 t = 2 * L from rfl]
    refine Finset.sum_congr rfl fun p _ => ?_
    rw [phi_equi (by decide)]
    rw [show Scheme.mwss.ringLen L 0 t = 2 * L from rfl]
    show u t p * _ = u t p * _
    congr 2; ring
  have hnorm : ∀ (x : ℤ → ℂ) k, ‖fft (2 * L) x k‖ ≤ ∑ p ∈ Finset.Ico 0 (2 * L), ‖x p‖ := fun x k => by
    unfold fft
    refine (norm_sum_le _ _).trans (le_of_eq (Finset.sum_congr rfl fun p _ => ?_))
    rw [norm_mul, norm_cis, mul_one]
  have htiny : ((2 * L : ℤ) : ℝ) / 2 ^ 1000 ≤ 2 * L / 2 ^ 50 * tn := by
    have : ((2 * L : ℤ) : ℝ) / 2 ^ 1000 = 2 * L * (tn / 2 ^ 100) := by
      rw [← tiny_tn]; push_cast; ring
    rw [this]
    have h1 : tn / 2 ^ 100 ≤ tn / 2 ^ 50 :=
      div_le_div_of_nonneg_left htn.le (by positivity) (by norm_num)
    calc 2 * (L : ℝ) * (tn / 2 ^ 100) ≤ 2 * L * (tn / 2 ^ 50) := by gcongr
      _ = _ := by ring
  -- one transform, of `v'` near `v`
  have one : ∀ (y : ℂ) (v v' : ℤ → ℂ), ‖y - fft (2 * L) v' m‖
        ≤ ((2 * L : ℤ) : ℝ) / 2 ^ 50 * (∑ p ∈ Finset.Ico 0 (2 * L), ‖v' p‖) + ((2 * L : ℤ) : ℝ) / 2 ^ 1000 →
      (∀ p, 0 ≤ p → p < 2 * L → ‖v' p - v p‖ ≤ ‖u' t p - u t p‖ ∧ v p = u t p) →
      ‖y - fft (2 * L) (u t) m‖ ≤ ∑ p ∈ Finset.Ico 0 (2 * L), ‖u' t p - u t p‖
        + 2 * L / 2 ^ 50 * (∑ p ∈ Finset.Ico 0 (2 * L), ‖u t p‖
          + ∑ p ∈ Finset.Ico 0 (2 * L), ‖u' t p - u t p‖ + tn) := by
    intro y v v' h1 h2
    have e1 : fft (2 * L) (u t) m = fft (2 * L) v m := by
      unfold fft
      refine Finset.sum_congr rfl fun p hp => ?_
      rw [Finset.mem_Ico] at hp
      rw [(h2 p hp.1 hp.2).2]
    have h3 : ‖fft (2 * L) v' m - fft (2 * L) v m‖ ≤ ∑ p ∈ Finset.Ico 0 (2 * L), ‖u' t p - u t p‖ := by
      rw [← fft_sub_at]
      refine (hnorm _ _).trans (Finset.sum_le_sum fun p hp => ?_)
      rw [Finset.mem_Ico] at hp
      exact (h2 p hp.1 hp.2).1
    have h4 : ∑ p ∈ Finset.Ico 0 (2 * L), ‖v' p‖ ≤ ∑ p ∈ Finset.Ico 0 (2 * L), ‖u t p‖
        + ∑ p ∈ Finset.Ico 0 (2 * L), ‖u' t p - u t p‖ := by
      rw [← Finset.sum_add_distrib]
      refine Finset.sum_le_sum fun p hp => ?_
      rw [Finset.mem_Ico] at hp
      have := norm_add_le (v p) (v' p - v p)
      rw [add_sub_cancel] at this
      have h5 := h2 p hp.1 hp.2
      rw [h5.2] at this
      have h6 := h5.1
      rw [h5.2] at h6
      linarith
    rw [e1]
    refine (norm_sub_le_norm_sub_add_norm_sub _ _ _).trans ((add_le_add h1 h3).trans ?_)
    have h5 : ((2 * L : ℤ) : ℝ) / 2 ^ 50 * (∑ p ∈ Finset.Ico 0 (2 * L), ‖v' p‖)
        ≤ 2 * L / 2 ^ 50 * (∑ p ∈ Finset.Ico 0 (2 * L), ‖u t p‖
        + ∑ p ∈ Finset.Ico 0 (2 * L), ‖u' t p - u t p‖) := by
      push_cast
      gcongr
    rw [mul_add _ (_ + _) tn]
    linarith
  refine ⟨by rw [← hsum]; exact hnorm _ _, ?_⟩
  rw [← hsum]
  unfold precomputeFftF
  cases reality with
  | true =>
    have hm' := hm rfl
    rw [if_pos rfl, mStart_true, show m + L - 1 - (L - 1) = m by ring]
    refine one _ (u t) (fun p => ((u' t p).re : ℂ)) ?_ fun p p0 p1 => ⟨?_, rfl⟩
    · have h := F.rfft_near (2 * L) (fun p => (u' t p).re) m hm' (by omega) (by omega)
      refine le_trans (le_of_eq ?_) (h.trans (le_of_eq ?_))
      · rfl
      · congr 2
        refine Finset.sum_congr rfl fun p _ => ?_
        rw [Complex.norm_real, Real.norm_eq_abs]
    · have h1 : u t p = ((u t p).re : ℂ) := (ofReal_re_of_im (hre rfl p p0 p1)).symm
      rw [h1, ← Complex.ofReal_sub, Complex.norm_real, Real.norm_eq_abs, ← h1, ← Complex.sub_re]
      exact Complex.abs_re_le_norm _
  | false =>
    rw [if_neg (by simp), mStart_false]
    refine one _ (u t) (u' t) ?_ fun p p0 p1 => ⟨le_rfl, rfl⟩
    have h := F.fft_near (2 * L) (u' t) (m % (2 * L)) (Int.emod_nonneg _ (by omega))
      (Int.emod_lt_of_pos _ (by omega))
    rw [fft_periodic (by omega)] at h
    have e : mOffset sMWSS + (m + L - 1 - 0) - (2 * L) / 2 = m := by
      rw [show mOffset sMWSS = 1 by decide]; omega
    unfold fftshift
    rw [e]
    exact h

/-- From the orders that are computed to all. -/
theorem precomputeFlmF_plain (F : FftLib) {L spin nt : ℤ} {reality : Bool} {θ w : ℤ → ℝ} {B : ℝ}
    {K : ℤ → ℤ → ℤ → ℝ} (hr : reality = true → spin = 0) {A ftm : ℤ → ℤ → ℂ} {el : ℤ}
    (h : ∀ m, -L < m → m < L → (reality = true → 0 ≤ m) →
      ‖F.dot nt (fun t => (K t el (m + L - 1 - mStart L reality) : ℂ))
          (fun t => ftm t (m + L - 1 - mStart L reality))
        - ∑ t ∈ Finset.Ico 0 nt, ((elfactor el * wignerd el m (-spin) (θ t) * w t : ℝ) : ℂ) * A t m‖ ≤ B)
    {m : ℤ} (m0 : -L < m) (m1 : m < L) :
    ‖precomputeFlmF F ftm K L nt reality spin el (m + L - 1) - symm reality (fAt A spin nt θ w el) m‖
      ≤ B := by
  have plain : ∀ m, -L < m → m < L → (reality = true → 0 ≤ m) →
      ‖(if mStart L reality ≤ m + L - 1 then F.dot nt
        (fun t => (K t el (m + L - 1 - mStart L reality) : ℂ))
        (fun t => ftm t (m + L - 1 - mStart L reality)) else 0) * (-1) ^ spin
        - fAt A spin nt θ w el m‖ ≤ B := by
    intro m m0 m1 hm
    have hle : mStart L reality ≤ m + L - 1 := by
      cases reality with
      | true => have := hm rfl; rw [mStart_true]; omega
      | false => rw [mStart_false]; omega
    rw [if_pos hle]
    have ef : fAt A spin nt θ w el m = (∑ t ∈ Finset.Ico 0 nt,
        ((elfactor el * wignerd el m (-spin) (θ t) * w t : ℝ) : ℂ) * A t m) * (-1) ^ spin := by
      unfold fAt
      rw [Finset.sum_mul]
      refine Finset.sum_congr rfl fun t _ => ?_
      push_cast; ring
    rw [ef, ← sub_mul, norm_mul, norm_neg_one_zpow, mul_one]
    exact h m m0 m1 hm
  unfold precomputeFlmF
  simp only
  by_cases hm : reality = true → 0 ≤ m
  · rw [show symm reality (fAt A spin nt θ w el) m = fAt A spin nt θ w el m by
      unfold symm; rw [if_neg (by intro h; have := hm h.1; omega)]]
    refine le_trans (le_of_eq ?_) (plain m m0 m1 hm)
    congr 3
    by_cases h1 : reality = true
    · have := hm h1
      subst h1
      rw [if_pos rfl]
      rw [if_neg (c := 0 ≤ m + L - 1 ∧ _) (by rw [mStart_true]; omega)]
    · rw [if_neg h1]
  · have hre' : reality = true := by by_contra h; exact hm (fun h' => absurd h' h)
    have hm0 : m < 0 := by by_contra h; exact hm (fun _ => by omega)
    subst hre'
    have hsp := hr rfl
    subst hsp
    have pl := plain (-m) (by omega) (by omega) (fun _ => by omega)
    unfold symm
    rw [if_pos rfl, if_pos (c := true = true ∧ m < 0) ⟨rfl, hm0⟩]
    rw [if_pos (c := 0 ≤ m + L - 1 ∧ _) (by rw [mStart_true]; omega),
      show mStart L true + 1 + (L - 2 - (m + L - 1)) = -m + L - 1 by rw [mStart_true]; ring,
      show L - 2 - (m + L - 1) + 1 = -m by ring]
    have e2 : ((-1 : ℂ)) ^ ((-m) % 2).toNat = (-1) ^ m := by
      have e2 : ((-1 : ℂ)) ^ m = (-1) ^ (-m) := by rw [zpow_neg, ← inv_zpow]; norm_num
      rw [e2]
      rcases Int.emod_two_eq_zero_or_one (-m) with h | h
      · rw [h, (Int.even_iff.2 h).neg_one_zpow]; rfl
      · rw [h, (Int.odd_iff.2 h).neg_one_zpow]; simp
    rw [e2]
    simp only [zpow_zero, mul_one] at pl ⊢
    rw [← mul_sub, norm_mul, norm_neg_one_zpow, one_mul, ← map_sub, RCLike.norm_conj]
    exact pl

/-- The arithmetic of the constants. -/
theorem coeff_const {e E X η L κ α S D D1 nt : ℝ} (he : 0 ≤ e) (hL : 1 ≤ L) (hE : L / 2 ^ 44 ≤ E)
    (hE1 : E ≤ 1 / 32) (hX : 0 ≤ X) (hη : 0 ≤ η) (hnt0 : 0 ≤ nt) (hnt : nt ≤ 3 * L)
    (hκ : κ = e * ((6 * E + 1 / 2 ^ 52) * (12 / L ^ 2) + 2 * (1 / 2 ^ 43 / L)))
    (hα : α = e * (12 / L ^ 2) + κ) (hS : S = 24 * L ^ 2 * X)
    (hD1 : D1 = 36 * L ^ 2 * (η + 7 * E * (η + X)))
    (hD : D = D1 + 2 * L / 2 ^ 50 * (S + D1 + 3 * L ^ 2 * X)) :
    κ * S + α * D + nt / 2 ^ 50 * (α * (S + D)) ≤ e * (5700 * E * X + 661 * η) := by
  have hL0 : L ≠ 0 := by linarith
  have hE2 : 1 / 2 ^ 44 ≤ E := le_trans (by gcongr) hE
  -- everything in units of `L ^ 2`
  have k1 : κ * L ^ 2 = e * (12 * (6 * E + 1 / 2 ^ 52) + 4 * (L / 2 ^ 44)) := by
    have h1 : 12 / L ^ 2 * L ^ 2 = 12 := by field_simp
    have h2 : 1 / 2 ^ 43 / L * L ^ 2 = 2 * (L / 2 ^ 44) := by field_simp
    rw [hκ]
    linear_combination e * (6 * E + 1 / 2 ^ 52) * h1 + 2 * e * h2
  have k2 : κ * L ^ 2 ≤ e * (77 * E) := by
    rw [k1]; refine mul_le_mul_of_nonneg_left ?_ he
    norm_num at hE2 hE ⊢; linarith
  have a1 : α * L ^ 2 ≤ e * 15 := by
    have : α * L ^ 2 = e * 12 + κ * L ^ 2 := by rw [hα]; field_simp
    rw [this]
    have : e * (77 * E) ≤ e * (77 * (1 / 32)) := by gcongr
    linarith
  have hLE : 2 * L / 2 ^ 50 ≤ E / 32 := by
    rw [show 2 * L / 2 ^ 50 = L / 2 ^ 44 / 32 by ring]; linarith
  have hL50 : 0 ≤ 2 * L / 2 ^ 50 := by positivity
  obtain ⟨d1, hd1⟩ : ∃ d1, d1 = 36 * (η + 7 * E * (η + X)) := ⟨_, rfl⟩
  obtain ⟨d, hd⟩ : ∃ d, d = d1 + 2 * L / 2 ^ 50 * (27 * X + d1) := ⟨_, rfl⟩
  have eD : D = L ^ 2 * d := by rw [hD, hS, hd, hD1, hd1]; ring
  have hEX : 0 ≤ E * X := by positivity
  have hEη : E * η ≤ 1 / 32 * η := by gcongr
  have hEη0 : 0 ≤ E * η := by positivity
  have hEX1 : E * X ≤ 1 / 32 * X := by gcongr
  have hd10 : 0 ≤ d1 := by rw [hd1]; positivity
  have hd0 : 0 ≤ d := by rw [hd]; positivity
  have b1 : d ≤ 1025 / 1024 * d1 + 27 / 32 * (E * X) := by
    have : 2 * L / 2 ^ 50 * (27 * X + d1) ≤ E / 32 * (27 * X + d1) := by gcongr
    have h2 : E * d1 ≤ 1 / 32 * d1 := by gcongr
    rw [hd]; nlinarith
  have hd1' : d1 = 36 * η + 252 * (E * η) + 252 * (E * X) := by rw [hd1]; ring
  have t1 : κ * S ≤ e * (1848 * (E * X)) := by
    have : κ * S = κ * L ^ 2 * (24 * X) := by rw [hS]; ring
    rw [this]
    refine (mul_le_mul_of_nonneg_right k2 (by positivity)).trans (le_of_eq (by ring))
  have t2 : α * D ≤ e * (15 * d) := by
    have : α * D = α * L ^ 2 * d := by rw [eD]; ring
    rw [this]
    refine (mul_le_mul_of_nonneg_right a1 hd0).trans (le_of_eq (by ring))
  have t3 : nt / 2 ^ 50 * (α * (S + D)) ≤ e * (E * (3 / 64 * (15 * (24 * X + d)))) := by
    have h1 : α * (S + D) = α * L ^ 2 * (24 * X + d) := by rw [eD, hS]; ring
    have h2 : α * (S + D) ≤ e * 15 * (24 * X + d) := by
      rw [h1]; exact mul_le_mul_of_nonneg_right a1 (by positivity)
    have h3 : nt / 2 ^ 50 ≤ 3 / 64 * E := by
      have : nt / 2 ^ 50 ≤ 3 * L / 2 ^ 50 := by gcongr
      rw [show 3 * L / 2 ^ 50 = 3 / 64 * (L / 2 ^ 44) by ring] at this
      linarith
    calc nt / 2 ^ 50 * (α * (S + D)) ≤ nt / 2 ^ 50 * (e * 15 * (24 * X + d)) :=
          mul_le_mul_of_nonneg_left h2 (by positivity)
      _ ≤ 3 / 64 * E * (e * 15 * (24 * X + d)) := mul_le_mul_of_nonneg_right h3 (by positivity)
      _ = _ := by ring
  have t4 : E * (3 / 64 * (15 * (24 * X + d))) ≤ 23 * (E * X) + η := by
    have h1 : d ≤ 44 * η + 8 * X := by linarith
    calc E * (3 / 64 * (15 * (24 * X + d))) ≤ E * (3 / 64 * (15 * (24 * X + (44 * η + 8 * X)))) := by
          gcongr
      _ = 3 / 64 * 15 * 32 * (E * X) + 3 / 64 * 15 * 44 * (E * η) := by ring
      _ ≤ _ := by linarith
  have t5 : 1848 * (E * X) + 15 * d + (23 * (E * X) + η) ≤ 5700 * E * X + 661 * η := by
    rw [mul_assoc 5700]; linarith
  calc κ * S + α * D + nt / 2 ^ 50 * (α * (S + D))
      ≤ e * (1848 * (E * X)) + e * (15 * d) + e * (23 * (E * X) + η) :=
        add_le_add (add_le_add t1 t2) (t3.trans (mul_le_mul_of_nonneg_left t4 he))
    _ = e * (1848 * (E * X) + 15 * d + (23 * (E * X) + η)) := by ring
    _ ≤ _ := mul_le_mul_of_nonneg_left t5 he


/-- One coefficient. -/
theorem resampled_coeff (F : FftLib) (G : GlTables) {σ : Scheme} (hσ : σ.Resampled) {L spin : ℤ}
    (hL : 1 ≤ L) (hL1 : L ≤ 2 ^ 26) {R : (ℤ → ℤ → ℂ) → ℤ → ℤ → ℤ → ℂ} (hR : ResampleNear σ L R)
    {w' : ℤ → ℝ} (hw' : WeightNear σ L w') {reality : Bool} {K : ℤ → ℤ → ℤ → ℝ} {θ : ℤ → ℝ}
    (hK : KernelNearF K L spin (2 * L + 1) reality θ (6 * (L * √L / 2 ^ 44)))
    {f g : ℤ → ℤ → ℂ} {M η : ℝ} (hM : 0 ≤ M) (hη : 0 ≤ η)
    (hg : ∀ t p, σ.Has L 0 t p → ‖g t p‖ ≤ M) (hf : ∀ t p, σ.Has L 0 t p → ‖f t p - g t p‖ ≤ η)
    (hre : reality = true → ∀ t p, 0 ≤ t → t < 2 * L + 1 → 0 ≤ p → p < 2 * L →
      (innerSignal σ L spin g t p).im = 0)
    {el m : ℤ} (e0 : 0 ≤ el) (e1 : el < L) (m0 : -L < m) (m1 : m < L) (hm : reality = true → 0 ≤ m) :
    ‖F.dot (2 * L + 1) (fun t => ((F.fl (K t el (m + L - 1 - mStart L reality)
          * w' t) : ℝ) : ℂ))
        (fun t => precomputeFftF F (R f spin) sMWSS (2 * L) reality t
          (m + L - 1 - mStart L reality))
      - ∑ t ∈ Finset.Ico 0 (2 * L + 1), ((elfactor el * wignerd el m (-spin) (θ t)
          * innerWeight G σ L 0 t : ℝ) : ℂ) * ringSum .mwss L 0 (innerSignal σ L spin g) t m‖
      ≤ elfactor el * (5700 * (L * √L / 2 ^ 44) * (M + tn) + 661 * η) + 3 * L / 2 ^ 1000 := by
  have hL' : (1 : ℝ) ≤ L := by exact_mod_cast hL
  have hL2 : (L : ℝ) ≤ 2 ^ 26 := by exact_mod_cast hL1
  have htn := tn_pos
  obtain ⟨s1, s2, s3⟩ := sizeE hL hL1
  have he := elfactor_ge e0
  have he0 := elfactor_nonneg el
  have hres := hR f g spin 0 hM hη hg hf
  have hen := innerSignal_energy hσ hL spin 0 hg
  have hsz : rr2 (2 * L + 1) (2 * L) (fun t p => ‖innerSignal σ L spin g t p‖) ≤ 8 * L * M := by
    rw [rr2_energy, Real.sqrt_le_left (by positivity)]
    refine hen.trans (le_of_eq (by ring))
  have hS := (sum2_le_rr2 hL (fun t p => ‖innerSignal σ L spin g t p‖)).trans
    (mul_le_mul_of_nonneg_left hsz (by positivity))
  have hD := (sum2_le_rr2 hL (fun t p => ‖R f spin t p - innerSignal σ L spin g t p‖)).trans
    (mul_le_mul_of_nonneg_left hres (by positivity))
  have ring' : ∀ t, 0 ≤ t → t < 2 * L + 1 → _ := fun t t0 t1 =>
    fftF_ring F hL (u := innerSignal σ L spin g) (u' := R f spin) (t := t) (m := m)
      (reality := reality) (fun h p p0 p1 => hre h t p t0 t1 p0 p1) m1 hm
  generalize innerSignal σ L spin g = u at *
  generalize R f spin = u' at *
  have hw : ∀ t, |innerWeight G σ L 0 t| ≤ 12 / L ^ 2 := fun t => by
    refine (innerWeight_resampled hσ hL 0 t).trans ?_
    rw [div_le_div_iff₀ (by positivity) (by positivity)]
    have h1 := Real.pi_lt_d2
    have h2 := Real.pi_pos
    have h3 : Real.pi * (Real.pi + 4) ≤ 24 := by norm_num at h1; nlinarith
    nlinarith [sq_nonneg (L : ℝ)]
  have hδ : (1 : ℝ) / 2 ^ 190 ≤ 1 / 2 ^ 43 / L := by
    rw [div_div, div_le_div_iff₀ (by positivity) (by positivity)]
    norm_num at hL2 ⊢; linarith
  have ka : ∀ t, 0 ≤ t → t < 2 * L + 1 → _ := fun t t0 t1 =>
    weightF_near' F.nearest he (hK t el m t0 t1 e0 e1 (abs_lt.2 ⟨m0, m1⟩))
      (wignerd_abs_le_one el m (-spin) (θ t)) (by linarith) (by linarith) (hw t)
      (hw' G 0 t0 t1) hδ
  obtain ⟨κ, hκ⟩ : ∃ κ, κ = elfactor el * ((6 * (L * √L / 2 ^ 44) + 1 / 2 ^ 52) * (12 / (L : ℝ) ^ 2)
    + 2 * (1 / 2 ^ 43 / L)) := ⟨_, rfl⟩
  rw [← hκ] at ka
  have hκ0 : 0 ≤ κ := by rw [hκ]; positivity
  have hd := dot_l1 F (nt := 2 * L + 1) (by omega)
    (a := fun t => ((elfactor el * wignerd el m (-spin) (θ t) * innerWeight G σ L 0 t : ℝ) : ℂ))
    (a' := fun t => ((F.fl (K t el (m + L - 1 - mStart L reality)
          * w' t) : ℝ) : ℂ))
    (b := fun t => ringSum .mwss L 0 u t m)
    (b' := fun t => precomputeFftF F u' sMWSS (2 * L) reality t (m + L - 1 - mStart L reality))
    (κ := κ) (α := elfactor el * (12 / (L : ℝ) ^ 2) + κ) (S := 24 * (L : ℝ) ^ 2 * (M + tn))
    (D := 36 * (L : ℝ) ^ 2 * (η + 7 * (L * √L / 2 ^ 44) * (η + (M + tn)))
      + 2 * L / 2 ^ 50 * (24 * (L : ℝ) ^ 2 * (M + tn)
        + 36 * (L : ℝ) ^ 2 * (η + 7 * (L * √L / 2 ^ 44) * (η + (M + tn))) + 3 * L ^ 2 * (M + tn)))
    hκ0 (by positivity)
    (fun t t0 t1 => by
      rw [← Complex.ofReal_sub, Complex.norm_real, Real.norm_eq_abs]; exact ka t t0 t1)
    (fun t t0 t1 => by
      rw [Complex.norm_real, Real.norm_eq_abs]
      have h1 := ka t t0 t1
      have h2 : |elfactor el * wignerd el m (-spin) (θ t) * innerWeight G σ L 0 t|
          ≤ elfactor el * (12 / (L : ℝ) ^ 2) := by
        rw [abs_mul, abs_mul, abs_of_nonneg he0]
        refine mul_le_mul ?_ (hw t) (abs_nonneg _) he0
        exact mul_le_of_le_one_right he0 (wignerd_abs_le_one el m (-spin) (θ t))
      have h3 := abs_sub_abs_le_abs_sub (F.fl (K t el (m + L - 1 - mStart L reality)
          * w' t)) (elfactor el * wignerd el m (-spin) (θ t) * innerWeight G σ L 0 t)
      linarith)
    (by
      refine (Finset.sum_le_sum fun t ht => ?_).trans (hS.trans ?_)
      · rw [Finset.mem_Ico] at ht
        exact (ring' t ht.1 ht.2).1
      · nlinarith [mul_nonneg (sq_nonneg (L : ℝ)) htn.le])
    (by
      refine (Finset.sum_le_sum (g := fun t => ∑ p ∈ Finset.Ico 0 (2 * L), ‖u' t p - u t p‖
          + 2 * L / 2 ^ 50 * (∑ p ∈ Finset.Ico 0 (2 * L), ‖u t p‖
          + ∑ p ∈ Finset.Ico 0 (2 * L), ‖u' t p - u t p‖ + tn)) fun t ht => ?_).trans ?_
      · rw [Finset.mem_Ico] at ht
        exact (ring' t ht.1 ht.2).2
      · rw [Finset.sum_add_distrib, ← Finset.mul_sum, Finset.sum_add_distrib, Finset.sum_add_distrib,
          Finset.sum_const, Int.card_Ico, nsmul_eq_mul]
        have hc : (((2 * L + 1 - 0).toNat : ℕ) : ℝ) ≤ 3 * L := by
          have : ((2 * L + 1 - 0).toNat : ℤ) ≤ 3 * L := by omega
          exact_mod_cast this
        have hD' : 3 * (L : ℝ) * (12 * L * (η + 7 * (L * √L / 2 ^ 44) * (η + (M + tn))))
          = 36 * (L : ℝ) ^ 2 * (η + 7 * (L * √L / 2 ^ 44) * (η + (M + tn))) := by ring
        rw [hD'] at hD
        refine add_le_add hD (mul_le_mul_of_nonneg_left (add_le_add (add_le_add (hS.trans ?_) hD) ?_)
          (by positivity))
        · nlinarith [mul_nonneg (sq_nonneg (L : ℝ)) htn.le]
        · refine (mul_le_mul_of_nonneg_right hc htn.le).trans ?_
          have h1 : (L : ℝ) * tn ≤ L ^ 2 * tn := mul_le_mul_of_nonneg_right (by nlinarith) htn.le
          nlinarith [mul_nonneg (sq_nonneg (L : ℝ)) hM])
  refine hd.trans (add_le_add (coeff_const (nt := ((2 * L + 1 : ℤ) : ℝ)) he0 hL' s3 s2 (by positivity)
    hη (by push_cast; positivity) (by push_cast; linarith) hκ rfl rfl rfl rfl) ?_)
  refine div_le_div_of_nonneg_right ?_ (by positivity)
  push_cast; linarith

end S2fft
