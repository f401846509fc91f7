import Verif.Lemmas.BaseInverse

/-! # Values of the inverse FFT methods -/

namespace S2fft
open Spec

theorem add2_row_ne {a : ℤ → ℤ → ℂ} {i j : ℤ} {v : ℂ} {x y : ℤ} (h : x ≠ i) :
    add2 a i j v x y = a x y := by
  rw [add2_apply, if_neg (by tauto), add_zero]

theorem add2_col_ne {a : ℤ → ℤ → ℂ} {i j : ℤ} {v : ℂ} {x y : ℤ} (h : y ≠ j) :
    add2 a i j v x y = a x y := by
  rw [add2_apply, if_neg (by tauto), add_zero]

theorem orderLoop2_apply (f : ℤ → ℤ → ℂ) (t lo el c m : ℤ) (b : Bool) (v : ℤ → ℂ)
    (hb : b = true → lo = 0) :
    forRange lo (el + 1) (fun m' f =>
      add2 (if b = true then (if m' ≠ 0 then add2 f t (-m' + c) ((starRingEnd ℂ) (v m')) else f)
        else f) t (m' + c) (v m')) f t (m + c)
      = f t (m + c) + if lo ≤ m ∧ m ≤ el then v m
          else if b = true ∧ m < 0 ∧ -m ≤ el then (starRingEnd ℂ) (v (-m)) else 0 := by
  by_cases hbt : b = true
  · have hlo := hb hbt
    subst hlo
    have hin : ∀ (m' : ℤ) (f : ℤ → ℤ → ℂ) (w : ℂ),
        (if m' ≠ 0 then add2 f t (-m' + c) w else f) t (m + c)
          = f t (m + c) + if m' ≠ 0 ∧ m = -m' then w else 0 := by
      intro m' f w
      by_cases h : m' ≠ 0
      · rw [if_pos h, add2_apply]
        congr 1
        exact if_congr (by omega) rfl rfl
      · rw [if_neg h, if_neg (by tauto), add_zero]
    have hbody : ∀ (m' : ℤ) (f : ℤ → ℤ → ℂ),
        add2 (if m' ≠ 0 then add2 f t (-m' + c) ((starRingEnd ℂ) (v m')) else f) t (m' + c) (v m')
          t (m + c) = f t (m + c) + ((if m' ≠ 0 ∧ m = -m' then (starRingEnd ℂ) (v m') else 0)
            + if m = m' then v m' else 0) := by
      intro m' f
      rw [add2_apply, hin, add_assoc]
      congr 2
      exact if_congr (by omega) rfl rfl
    simp only [hbt, if_true, true_and]
    split_ifs with h1 h2
    · refine forRange_pick _ _ _ _ (fun f : ℤ → ℤ → ℂ => f t (m + c)) m _ h1.1 (by omega) ?_ ?_
      · intro f
        rw [hbody, if_neg (by omega), if_pos rfl, zero_add]
      · intro i f _ _ hne
        rw [hbody, if_neg (by omega), if_neg (by omega), zero_add, add_zero]
    · refine forRange_pick _ _ _ _ (fun f : ℤ → ℤ → ℂ => f t (m + c)) (-m) _ (by omega) (by omega)
        ?_ ?_
      · intro f
        rw [hbody, if_pos (by omega), if_neg (by omega), add_zero]
      · intro i f _ _ hne
        rw [hbody, if_neg (by omega), if_neg (by omega), zero_add, add_zero]
    · rw [add_zero]
      refine forRange_frame _ _ _ _ (fun f : ℤ → ℤ → ℂ => f t (m + c)) ?_
      intro i f _ _
      rw [hbody, if_neg (by omega), if_neg (by omega), zero_add, add_zero]
  · simp only [hbt, Bool.false_eq_true, if_false, false_and]
    exact orderLoop_apply f t lo el c m v

theorem gEff_gVal (flm : ℤ → ℤ → ℂ) (L spin Ll : ℤ) (θ : ℝ) (reality : Bool) (m : ℤ) :
    gEff reality (gVal flm L spin Ll θ) m = ∑ el ∈ Finset.Ico (elStart Ll spin) L,
      gEff reality (fun m => (-1) ^ spin * elfactor el * wignerd el m (-spin) (snapAngle θ)
        * flm el (m + L - 1)) m := by
  unfold gEff gVal
  split_ifs
  · rw [map_sum]
  · rfl

theorem gVal_im {flm : ℤ → ℤ → ℂ} {L Ll : ℤ} (hre : ∀ el, Ll ≤ el → el < L → (flm el (L - 1)).im = 0)
    (θ : ℝ) : (gVal flm L 0 Ll θ 0).im = 0 := by
  unfold gVal
  rw [Complex.im_sum]
  apply Finset.sum_eq_zero
  intro el hel
  rw [Finset.mem_Ico] at hel
  have hb := elStart_bounds (L := L) hel.1
  have := hre el hb.2 hel.2
  rw [zpow_zero, one_mul, zero_add, ← Complex.ofReal_mul, Complex.im_ofReal_mul, this, mul_zero]

theorem gEff_nonneg {reality : Bool} {g : ℤ → ℂ} {m : ℤ} (h : 0 ≤ m) : gEff reality g m = g m := by
  unfold gEff; rw [if_neg (by omega)]

theorem gEff_neg {g : ℤ → ℂ} {m : ℤ} (h : m < 0) : gEff true g m = (starRingEnd ℂ) (g (-m)) := by
  unfold gEff; rw [if_pos ⟨rfl, h⟩]

theorem gEff_zero {reality : Bool} {g : ℤ → ℂ} {m : ℤ} (h1 : g m = 0) (h2 : g (-m) = 0) :
    gEff reality g m = 0 := by
  unfold gEff; split_ifs <;> simp [h1, h2]

theorem inverseFftFtm_values {σ : Scheme} {s : PyStr} (hs : lower s = σ.name)
    (ho : mOffset s = σ.off) {L nside spin Ll nt t m : ℤ} (hv : σ.Valid L nside) (flm : ℤ → ℤ → ℂ)
    (θ : ℤ → ℝ) (reality : Bool) (hr : reality = true → spin = 0) (ht0 : 0 ≤ t) (ht1 : t < nt)
    (hnt : nt = σ.rings L nside) (hθ0 : 0 ≤ θ t) (hθ1 : θ t ≤ Real.pi)
    (hm : reality = true → σ ≠ .healpix → 0 ≤ m) :
    inverseFftFtm flm L spin s nt θ nside reality Ll t (m + L - 1 + σ.off)
      = gEff reality (gVal flm L spin Ll (θ t)) m * cis (m * σ.phi L nside t 0) := by
  unfold inverseFftFtm
  simp only [ho]
  refine (forRange_pick _ _ _ _ (fun f : ℤ → ℤ → ℂ => f t (m + L - 1 + σ.off)) t _ ht0 ht1 ?_
    ?_).trans (zero_add _)
  · intro f
    rw [gEff_gVal, Finset.sum_mul]
    refine forRange_sum _ _ _ _ (fun f : ℤ → ℤ → ℂ => f t (m + L - 1 + σ.off)) _ ?_
    intro el f he0 he1
    have hb := elStart_bounds (L := L) he0
    have hsl := fun m hm => baseSlice_eq (θ t) el L spin reality hθ0 hθ1 hb.1 he1 hr m hm
    have hph : ∀ m : ℤ, (if lower s = sHP then
        cis (m * (if lower s = sHP then p2phi_ring t 0 nside else 0)) else 1 : ℂ)
        = cis (m * σ.phi L nside t 0) := by
      intro m
      split_ifs with h
      · rw [lower_hp_iff hs] at h
        subst h
        rw [p2phi_scheme (L := L) (hv.2 rfl) ht0 (by simp only [Scheme.rings] at hnt; omega)]
      · rw [lower_hp_iff hs] at h
        rw [phi_equi h]; simp
    simp only [hph]
    have := orderLoop2_apply f t (if reality then 0 else -el) el (L - 1 + σ.off) m
      (decide (reality = true ∧ lower s = sHP)) (fun m =>
      (-1) ^ spin * elfactor el * baseSlice (θ t) el L spin reality (m + L - 1) * flm el (m + L - 1)
        * cis (m * σ.phi L nside t 0)) (by
        intro h
        rw [decide_eq_true_iff] at h
        rw [if_pos h.1])
    simp only [← add_assoc, ← add_sub_assoc, decide_eq_true_iff] at this
    rw [this]
    congr 1
    by_cases hre : reality = true
    · simp only [hre, if_true, true_and]
      simp only [lower_hp_iff hs]
      by_cases hm0 : 0 ≤ m
      · rw [gEff_nonneg hm0]
        have h1 := hsl m (fun _ => hm0)
        rw [hre] at h1
        rw [h1]
        split_ifs with h h'
        · rfl
        · exact absurd h'.2.1 (by omega)
        · rw [wignerd_outside _ _ _ _ (Or.inl (by rw [lt_abs]; omega))]; simp
      · have hhp : σ = .healpix := by by_contra h; exact hm0 (hm hre h)
        rw [gEff_neg (by omega), if_neg (by omega)]
        have h1 := hsl (-m) (fun _ => by omega)
        rw [hre] at h1
        rw [h1]
        by_cases h : -m ≤ el
        · rw [if_pos ⟨hhp, by omega, h⟩, map_mul (starRingEnd ℂ) _ (cis _), conj_cis]
          congr 2; push_cast; ring
        · rw [if_neg (by tauto)]
          rw [wignerd_outside _ _ _ _ (Or.inl (by rw [lt_abs]; omega))]; simp
    · simp only [hre, Bool.false_eq_true, if_false, false_and]
      unfold gEff
      simp only [Bool.false_eq_true, false_and, if_false]
      have h1 := hsl m (fun h => absurd h hre)
      simp only [hre] at h1
      rw [h1]
      split_ifs with h
      · rfl
      · rw [wignerd_outside _ _ _ _ (Or.inl (by rw [lt_abs]; omega))]; simp
  · intro t' f _ _ hne
    refine forRange_frame _ _ _ _ (fun f : ℤ → ℤ → ℂ => f t (m + L - 1 + σ.off)) ?_
    intro el f _ _
    refine forRange_frame _ _ _ _ (fun f : ℤ → ℤ → ℂ => f t (m + L - 1 + σ.off)) ?_
    intro m' f _ _
    rw [add2_row_ne (by omega)]
    split_ifs <;> first | rfl | exact add2_row_ne (by omega)

theorem inverseFftFtm_zero {s : PyStr} (ho : mOffset s = 1) {L nside spin Ll nt t : ℤ}
    (flm : ℤ → ℤ → ℂ) (θ : ℤ → ℝ) (reality : Bool) :
    inverseFftFtm flm L spin s nt θ nside reality Ll t 0 = 0 := by
  unfold inverseFftFtm
  simp only [ho]
  refine (forRange_frame _ _ _ _ (fun f : ℤ → ℤ → ℂ => f t 0) ?_)
  intro t' f _ _
  refine (forRange_frame _ _ _ _ (fun f : ℤ → ℤ → ℂ => f t 0) ?_)
  intro el f he0 he1
  have hb := elStart_bounds (L := L) he0
  have := abs_nonneg spin
  refine (forRange_frame _ _ _ _ (fun f : ℤ → ℤ → ℂ => f t 0) ?_)
  intro m f hm0 hm1
  have : -el ≤ m := by split_ifs at hm0 <;> omega
  rw [add2_col_ne (by omega)]
  split_ifs <;> first | rfl | exact add2_col_ne (by omega)

theorem ftm_shape_scheme {σ : Scheme} {s : PyStr} (hs : lower s = σ.name) (L nside : ℤ) :
    ftm_shape L s (some nside) = .ok (σ.rings L nside, 2 * L - 1 + σ.off) := by
  cases σ with
  | healpix =>
    have := (C05_shapes_healpix L 1 nside s hs).2.2.1
    rw [this]; simp [Scheme.rings, Scheme.off]
  | mw =>
    rw [name_mw] at hs
    simp [ftm_shape, ntheta, hs, Scheme.rings, Scheme.off, show ¬ sMW = sMWSS by decide,
      show ¬ sMW = sHP by decide]
  | mwss =>
    rw [name_mwss] at hs
    simp [ftm_shape, ntheta, hs, Scheme.rings, Scheme.off, show ¬ sMWSS = sMW by decide,
      show ¬ sMWSS = sHP by decide, show ¬ sMWSS = sGL by decide]
  | dh =>
    rw [name_dh] at hs
    simp [ftm_shape, ntheta, hs, Scheme.rings, Scheme.off, show ¬ sDH = sMWSS by decide,
      show ¬ sDH = sHP by decide, show ¬ sDH = sMW by decide, show ¬ sDH = sGL by decide]
  | gl =>
    rw [name_gl] at hs
    simp [ftm_shape, ntheta, hs, Scheme.rings, Scheme.off, show ¬ sGL = sMWSS by decide,
      show ¬ sGL = sHP by decide]

theorem inverseSovFft_values (nodes : ℤ → ℤ → ℝ) {σ : Scheme} {s : PyStr} (hs : lower s = σ.name)
    (ho : mOffset s = σ.off) {L nside spin Ll : ℤ} (hv : σ.Valid L nside)
    (hhp : σ = .healpix → 2 * nside ≤ L) (flm : ℤ → ℤ → ℂ) (reality : Bool)
    (hr : reality = true → spin = 0)
    (hre : reality = true → ∀ el, Ll ≤ el → el < L → (flm el (L - 1)).im = 0) (θ : ℤ → ℝ)
    (hθ : ∀ t, 0 ≤ t → t < σ.rings L nside → θ t = σ.theta nodes L nside t) :
    InverseValues nodes σ flm L spin nside reality Ll
      (inverseSovFft flm L spin s (σ.rings L nside) θ nside reality Ll) := by
  unfold inverseSovFft
  rw [if_neg (by rw [lower_hp_iff hs]; rintro ⟨h1, h2⟩; exact h2 (hhp h1)), ftm_shape_scheme hs]
  refine inverseFft_values hs ho hv hhp reality _ (fun t => gVal flm L spin Ll
    (σ.theta nodes L nside t)) ?_ ?_ ?_
  · intro h t _ _
    rw [hr h]; exact gVal_im (hre h) _
  · intro t h _
    exact inverseFftFtm_zero (by rw [ho, h]) _ _ _
  · intro t m a b _ _ c
    have hth := theta_mem nodes σ hv a b
    rw [← hθ t a b] at hth ⊢
    exact inverseFftFtm_values hs ho hv flm θ reality hr a b rfl hth.1 hth.2 c

/-! ## The vectorised method -/

theorem addRow_apply (a : ℤ → ℤ → ℂ) (r lo hi : ℤ) (v : ℤ → ℂ) (x y : ℤ) :
    addRow a r lo hi v x y = a x y + if x = r ∧ lo ≤ y ∧ y < hi then v (y - lo) else 0 := by
  unfold addRow; split_ifs <;> simp

theorem addRow_in {a : ℤ → ℤ → ℂ} {r lo hi : ℤ} {v : ℤ → ℂ} {x y : ℤ} (h : x = r ∧ lo ≤ y ∧ y < hi) :
    addRow a r lo hi v x y = a x y + v (y - lo) := by
  unfold addRow; rw [if_pos h]

theorem addRow_out {a : ℤ → ℤ → ℂ} {r lo hi : ℤ} {v : ℤ → ℂ} {x y : ℤ}
    (h : ¬ (x = r ∧ lo ≤ y ∧ y < hi)) : addRow a r lo hi v x y = a x y := by
  unfold addRow; rw [if_neg h]

theorem inverseVecFtm_values {σ : Scheme} {s : PyStr} (hs : lower s = σ.name)
    (ho : mOffset s = σ.off) {L nside spin Ll nt t m : ℤ} (hv : σ.Valid L nside) (flm : ℤ → ℤ → ℂ)
    (θ : ℤ → ℝ) (reality : Bool) (hr : reality = true → spin = 0) (ht0 : 0 ≤ t) (ht1 : t < nt)
    (hnt : nt = σ.rings L nside) (hθ0 : 0 ≤ θ t) (hθ1 : θ t ≤ Real.pi) (hmL : -L < m) (hmL' : m < L)
    (hm : reality = true → σ ≠ .healpix → 0 ≤ m) :
    inverseVecFtm flm L spin s nt θ nside reality Ll t (m + L - 1 + σ.off)
      = gEff reality (gVal flm L spin Ll (θ t)) m * cis (m * σ.phi L nside t 0) := by
  unfold inverseVecFtm
  simp only [ho]
  have hph : ∀ j : ℤ, (if lower s = sHP then ring_phase_shift_hp L t nside false reality
        else fun _ => 1 : ℤ → ℂ) j
        = cis ((j - (if reality then 0 else L - 1) : ℤ) * σ.phi L nside t 0) := by
    intro j
    split_ifs with h h2 h3
    · rw [lower_hp_iff hs] at h
      subst h
      have hrg : t < 4 * nside - 1 := by simp only [Scheme.rings] at hnt; omega
      rw [← p2phi_scheme (L := L) (hv.2 rfl) ht0 hrg]
      unfold ring_phase_shift_hp
      simp only [h2, if_true, Bool.false_eq_true, if_false]
      congr 1; push_cast; ring
    · rw [lower_hp_iff hs] at h
      subst h
      have hrg : t < 4 * nside - 1 := by simp only [Scheme.rings] at hnt; omega
      rw [← p2phi_scheme (L := L) (hv.2 rfl) ht0 hrg]
      unfold ring_phase_shift_hp
      simp only [h2, if_true, Bool.false_eq_true, if_false]
      congr 1; push_cast; ring
    · rw [lower_hp_iff hs] at h
      rw [phi_equi h]; simp
    · rw [lower_hp_iff hs] at h
      rw [phi_equi h]; simp
  have key : forRange 0 nt (fun t ftm =>
      forRange (elStart Ll spin) L (fun el ftm =>
        addRow (if reality = true ∧ lower s = sHP then
            addRow ftm t σ.off (L - 1 + σ.off) (fun i => (starRingEnd ℂ)
              (elfactor el * baseSlice (θ t) el L spin reality ((if reality = true then L - 1 else 0) + (L - 1 - i))
                * flm el ((if reality = true then L - 1 else 0) + (L - 1 - i))
                * (if lower s = sHP then ring_phase_shift_hp L t nside false reality
                    else fun _ => 1 : ℤ → ℂ) (L - 1 - i)))
          else ftm) t ((if reality = true then L - 1 else 0) + σ.off) (2 * L - 1 + σ.off) (fun j =>
            elfactor el * baseSlice (θ t) el L spin reality ((if reality = true then L - 1 else 0) + j)
              * flm el ((if reality = true then L - 1 else 0) + j)
              * (if lower s = sHP then ring_phase_shift_hp L t nside false reality
                    else fun _ => 1 : ℤ → ℂ) j)) ftm) (fun _ _ => 0 : ℤ → ℤ → ℂ) t (m + L - 1 + σ.off)
      = ∑ el ∈ Finset.Ico (elStart Ll spin) L, gEff reality (fun m => elfactor el
          * wignerd el m (-spin) (snapAngle (θ t)) * flm el (m + L - 1)) m
          * cis (m * σ.phi L nside t 0) := by
    refine (forRange_pick _ _ _ _ (fun f : ℤ → ℤ → ℂ => f t (m + L - 1 + σ.off)) t _ ht0 ht1 ?_
      ?_).trans (zero_add _)
    · intro f
      refine forRange_sum _ _ _ _ (fun f : ℤ → ℤ → ℂ => f t (m + L - 1 + σ.off)) _ ?_
      intro el f he0 he1
      have hb := elStart_bounds (L := L) he0
      have hsl := fun m hm => baseSlice_eq (θ t) el L spin reality hθ0 hθ1 hb.1 he1 hr m hm
      simp only [hph]
      by_cases hre : reality = true
      · simp only [hre, if_true, true_and]
        by_cases hm0 : 0 ≤ m
        · rw [addRow_in (by omega)]
          have h1 := hsl m (fun _ => hm0)
          rw [hre] at h1
          have hfr : (if lower s = sHP then addRow f t σ.off (L - 1 + σ.off) (fun i => (starRingEnd ℂ)
              (elfactor el * baseSlice (θ t) el L spin true (L - 1 + (L - 1 - i))
                * flm el (L - 1 + (L - 1 - i)) * cis (((L - 1 - i) - 0 : ℤ) * σ.phi L nside t 0)))
                else f : ℤ → ℤ → ℂ) t (m + L - 1 + σ.off) = f t (m + L - 1 + σ.off) := by
            split_ifs
            · exact addRow_out (by omega)
            · rfl
          rw [hfr]
          rw [gEff_nonneg hm0, show L - 1 + (m + L - 1 + σ.off - (L - 1 + σ.off)) = m + L - 1 by ring,
            show m + L - 1 + σ.off - (L - 1 + σ.off) - 0 = m by ring, h1]
        · have hhp : σ = .healpix := by by_contra h; exact hm0 (hm hre h)
          have h1 := hsl (-m) (fun _ => by omega)
          rw [hre] at h1
          rw [addRow_out (by omega), if_pos ((lower_hp_iff hs).2 hhp), addRow_in (by omega)]
          rw [gEff_neg (by omega),
            show L - 1 + (L - 1 - (m + L - 1 + σ.off - σ.off)) = -m + L - 1 by ring,
            show L - 1 - (m + L - 1 + σ.off - σ.off) - 0 = -m by ring, h1,
            map_mul (starRingEnd ℂ) _ (cis _), conj_cis]
          congr 3; push_cast; ring
      · simp only [hre, Bool.false_eq_true, if_false, false_and]
        have h1 := hsl m (fun h => absurd h hre)
        simp only [hre] at h1
        rw [addRow_in (by omega)]
        unfold gEff
        simp only [Bool.false_eq_true, false_and, if_false]
        rw [show 0 + (m + L - 1 + σ.off - (0 + σ.off)) = m + L - 1 by ring,
          show m + L - 1 + σ.off - (0 + σ.off) - (L - 1) = m by ring, h1]
    · intro t' f _ _ hne
      refine forRange_frame _ _ _ _ (fun f : ℤ → ℤ → ℂ => f t (m + L - 1 + σ.off)) ?_
      intro el f _ _
      rw [addRow_out (by omega)]
      split_ifs <;> first | rfl | exact addRow_out (by omega)
  refine (congrArg (· * (-1 : ℂ) ^ spin) key).trans ?_
  rw [gEff_gVal, Finset.sum_mul, Finset.sum_mul]
  apply Finset.sum_congr rfl
  intro el _
  unfold gEff
  split_ifs with h
  · rw [hr h.1]; simp
  · ring

theorem inverseVecFtm_zero {s : PyStr} (ho : mOffset s = 1) {L nside spin Ll nt t : ℤ}
    (flm : ℤ → ℤ → ℂ) (θ : ℤ → ℝ) (reality : Bool) (hL : 1 ≤ L) :
    inverseVecFtm flm L spin s nt θ nside reality Ll t 0 = 0 := by
  unfold inverseVecFtm
  simp only [ho]
  refine mul_eq_zero_of_left ?_ _
  refine (forRange_frame _ _ _ _ (fun f : ℤ → ℤ → ℂ => f t 0) ?_)
  intro t' f _ _
  refine (forRange_frame _ _ _ _ (fun f : ℤ → ℤ → ℂ => f t 0) ?_)
  intro el f he0 he1
  rw [addRow_out (by split_ifs <;> omega)]
  split_ifs <;> first | rfl | exact addRow_out (by omega)

theorem inverseVec_values (nodes : ℤ → ℤ → ℝ) {σ : Scheme} {s : PyStr} (hs : lower s = σ.name)
    (ho : mOffset s = σ.off) {L nside spin Ll : ℤ} (hv : σ.Valid L nside)
    (hhp : σ = .healpix → 2 * nside ≤ L) (flm : ℤ → ℤ → ℂ) (reality : Bool)
    (hr : reality = true → spin = 0)
    (hre : reality = true → ∀ el, Ll ≤ el → el < L → (flm el (L - 1)).im = 0) (θ : ℤ → ℝ)
    (hθ : ∀ t, 0 ≤ t → t < σ.rings L nside → θ t = σ.theta nodes L nside t) :
    InverseValues nodes σ flm L spin nside reality Ll
      (inverseVec flm L spin s (σ.rings L nside) θ nside reality Ll) := by
  unfold inverseVec
  rw [ftm_shape_scheme hs]
  refine inverseFft_values hs ho hv hhp reality _ (fun t => gVal flm L spin Ll
    (σ.theta nodes L nside t)) ?_ ?_ ?_
  · intro h t _ _
    rw [hr h]; exact gVal_im (hre h) _
  · intro t h _
    exact inverseVecFtm_zero (by rw [ho, h]) _ _ _ hv.1
  · intro t m a b hm0 hm1 c
    have hth := theta_mem nodes σ hv a b
    rw [← hθ t a b] at hth ⊢
    exact inverseVecFtm_values hs ho hv flm θ reality hr a b rfl hth.1 hth.2 hm0 hm1 c

end S2fft
