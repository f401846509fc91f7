import Verif.Lemmas.BaseForward

/-! # Values of the forward methods that use FFTs -/

namespace S2fft
open Spec

/-- The samples of the rings handed to the method are real. -/
def RealRings (σ : Scheme) (L nside nt : ℤ) (f : ℤ → ℤ → ℂ) : Prop :=
  ∀ t p, 0 ≤ t → t < nt → 0 ≤ p → p < σ.ringLen L nside t →
    (f (σ.pos nside t p).1 (σ.pos nside t p).2).im = 0

theorem forwardFftM_values {nodes : ℤ → ℤ → ℝ} {σ : Scheme} {s : PyStr} (hs : lower s = σ.name)
    (ho : mOffset s = σ.off) {method : PyStr} (hmt : method ∈ [mNumpy, mJax, mTorch]) {L nside nt ncol : ℤ} {θ : ℤ → ℝ} (hv : σ.Valid L nside)
    (hhp : σ = .healpix → 2 * nside ≤ L ∧ (method ≠ mNumpy → 2 ≤ nside)) (hR : RingsOk nodes σ L nside nt θ)
    (hn : σ ≠ .healpix → ncol = σ.ringLen L nside 0) (f : ℤ → ℤ → ℂ)
    (reality : Bool) (hre : reality = true → RealRings σ L nside nt f) :
    ∃ ftm, forwardFftM method f L s ncol nside reality = .ok ftm ∧
      ∀ t m, 0 ≤ t → t < nt → -L < m → m < L → (reality = true → 0 ≤ m) →
        ftm t (m + L - 1 + σ.off) * cis (-(m * σ.phi L nside t 0)) = ringSum σ L nside f t m := by
  have hL := hv.1
  unfold forwardFftM
  by_cases hh : σ = .healpix
  · rw [if_pos ((lower_hp_iff hs).2 hh)]
    have hnt := (hR.hp hh).1
    subst hh
    obtain ⟨ftm, e, h⟩ : ∃ ftm, (do
        let r ← healpix_fft noCuda (f 0) L nside method reality
        pure r.1 : Except PyErr (ℤ → ℤ → ℂ)) = .ok ftm ∧
        ∀ t k, 0 ≤ t → t < 4 * nside - 1 → 0 ≤ k → k < 2 * L →
          ftm t k = rowVal nside L reality (f 0) t k := by
      unfold healpix_fft
      by_cases hmn : method = mNumpy
      · obtain ⟨ftm, e, h⟩ := healpix_fft_numpy_ok (hv.2 rfl) (hhp rfl).1 (f 0) reality
        exact ⟨ftm, by rw [if_pos hmn, e]; rfl, h⟩
      · obtain ⟨ftm, e, h⟩ := healpix_fft_jax_ok ((hhp rfl).2 hmn) (hhp rfl).1 (f 0) reality
        refine ⟨ftm, ?_, h⟩
        rw [if_neg hmn, if_pos (by
          simp only [List.mem_cons, List.not_mem_nil, or_false] at hmt; tauto), e]; rfl
    refine ⟨ftm, e, ?_⟩
    · intro t m t0 t1 m0 m1 hm
      rw [hnt] at t1
      rw [h t _ t0 t1 (by simp only [Scheme.off]; omega) (by simp only [Scheme.off]; omega)]
      have hA : rowVal nside L reality (f 0) t (m + L - 1 + Scheme.healpix.off)
          = ringAnal nside (f 0) t m := by
        unfold rowVal
        have hoff : m + L - 1 + Scheme.healpix.off = m + L := by simp only [Scheme.off]; ring
        rw [hoff, show m + L - L = m by ring]
        by_cases h1 : reality = true ∧ ringSize nside t = 2 * L
        · have := hm h1.1
          rw [if_pos h1, if_neg (by omega)]
          unfold ringAnal
          apply Finset.sum_congr rfl
          intro p hp
          rw [Finset.mem_Ico] at hp
          congr 1
          apply Complex.ext
          · simp
          · rw [Complex.ofReal_im]
            exact (hre h1.1 t p t0 (by omega) hp.1 hp.2).symm
        · rw [if_neg h1]
      rw [hA]
      unfold ringAnal ringSum
      rw [Finset.sum_mul]
      apply Finset.sum_congr rfl
      intro p _
      rw [mul_assoc, ← cis_add]
      congr 2
      unfold Scheme.phi
      simp only [Scheme.ringLen]
      push_cast; ring
  · rw [if_neg (by rw [lower_hp_iff hs]; exact hh)]
    have hn0 := hn hh
    rw [ringLen_equi hh] at hn0
    have hpos : 0 < ncol := by rcases off_cases σ with h | h <;> omega
    have hph : ∀ t, σ.phi L nside t 0 = 0 := by intro t; rw [phi_equi hh]; simp
    have hpt : ∀ t p, σ.pos nside t p = (t, p) := by
      intro t p; cases σ <;> first | rfl | exact absurd rfl hh
    have hsum : ∀ t m, fft ncol (f t) m = ringSum σ L nside f t m := by
      intro t m
      unfold fft ringSum
      rw [ringLen_equi hh, hn0]
      apply Finset.sum_congr rfl
      intro p _
      rw [hpt, phi_equi hh, ringLen_equi hh]
      congr 2; ring
    split_ifs with hr
    · refine ⟨_, rfl, ?_⟩
      intro t m t0 t1 m0 m1 hm
      have := hm hr
      rw [hph, mul_zero, neg_zero, cis_zero, mul_one, ← hsum]
      simp only [ho]
      rw [if_pos (by omega), show m + L - 1 + σ.off - (L - 1 + σ.off) = m by ring]
      unfold rfft fft
      apply Finset.sum_congr rfl
      intro p hp
      rw [Finset.mem_Ico] at hp
      congr 1
      have h := hre hr t p t0 t1 hp.1 (by rw [ringLen_equi hh]; omega)
      rw [hpt] at h
      apply Complex.ext
      · simp
      · rw [Complex.ofReal_im]; exact h.symm
    · refine ⟨_, rfl, ?_⟩
      intro t m t0 t1 m0 m1 hm
      rw [hph, mul_zero, neg_zero, cis_zero, mul_one, ← hsum]
      rw [fftshift_fft hpos]
      congr 1
      rcases off_cases σ with h | h <;> omega

theorem forwardFft_values {nodes : ℤ → ℤ → ℝ} {σ : Scheme} {s : PyStr} (hs : lower s = σ.name)
    (ho : mOffset s = σ.off) {L nside nt ncol : ℤ} {θ : ℤ → ℝ} (hv : σ.Valid L nside)
    (hhp : σ = .healpix → 2 * nside ≤ L) (hR : RingsOk nodes σ L nside nt θ)
    (hn : σ ≠ .healpix → ncol = σ.ringLen L nside 0) (f : ℤ → ℤ → ℂ)
    (reality : Bool) (hre : reality = true → RealRings σ L nside nt f) :
    ∃ ftm, forwardFft f L s ncol nside reality = .ok ftm ∧
      ∀ t m, 0 ≤ t → t < nt → -L < m → m < L → (reality = true → 0 ≤ m) →
        ftm t (m + L - 1 + σ.off) * cis (-(m * σ.phi L nside t 0)) = ringSum σ L nside f t m :=
  forwardFftM_values hs ho (by simp) hv (fun h => ⟨hhp h, fun h => absurd rfl h⟩) hR hn f reality hre

theorem forwardSovFft_values {nodes : ℤ → ℤ → ℝ} {σ : Scheme} {s : PyStr} (hs : lower s = σ.name)
    (ho : mOffset s = σ.off) {L nside nt spin Ll ncol : ℤ} {θ w : ℤ → ℝ} (hv : σ.Valid L nside)
    (hhp : σ = .healpix → 2 * nside ≤ L) (hR : RingsOk nodes σ L nside nt θ)
    (hn : σ ≠ .healpix → ncol = σ.ringLen L nside 0) (f : ℤ → ℤ → ℂ)
    (reality : Bool) (hre : reality = true → RealRings σ L nside nt f)
    (hr : reality = true → spin = 0) :
    ForwardValues (ringSum σ L nside f) L spin nt θ w reality Ll
      (forwardSovFft f L spin s ncol nt θ w nside reality Ll) := by
  obtain ⟨ftm, e, h⟩ := forwardFft_values hs ho hv hhp hR hn f reality hre
  unfold forwardSovFft
  rw [e]
  show ForwardValues _ _ _ _ _ _ _ _ (Except.ok _)
  rw [ho]
  apply forwardLoop_values (ringSum σ L nside f) _ θ w reality _ hr hR.range
  · intro t; split_ifs <;> simp
  · intro t m t0 t1 m0 m1 hm
    rw [← h t m t0 t1 m0 m1 hm]
    congr 1
    by_cases hh : σ = .healpix
    · rw [if_pos ((lower_hp_iff hs).2 hh), p2phi_scheme (L := L) (hv.2 hh) t0
        (by rw [← (hR.hp hh).1]; exact t1), hh]
    · rw [if_neg (by rw [lower_hp_iff hs]; exact hh), phi_equi hh]; simp

theorem forwardVec_values {nodes : ℤ → ℤ → ℝ} {σ : Scheme} {s : PyStr} (hs : lower s = σ.name)
    (ho : mOffset s = σ.off) {L nside nt spin Ll ncol : ℤ} {θ w : ℤ → ℝ} (hv : σ.Valid L nside)
    (hhp : σ = .healpix → 2 * nside ≤ L) (hR : RingsOk nodes σ L nside nt θ)
    (hn : σ ≠ .healpix → ncol = σ.ringLen L nside 0) (f₀ : ℤ → ℤ → ℂ)
    (reality : Bool) (hre : reality = true → RealRings σ L nside nt f₀)
    (hr : reality = true → spin = 0) :
    ForwardValues (ringSum σ L nside f₀) L spin nt θ w reality Ll
      (forwardVec f₀ L spin s ncol nt θ w nside reality Ll) := by
  obtain ⟨ftm, e, h⟩ := forwardFft_values hs ho hv hhp hR hn f₀ reality hre
  have hL := hv.1
  unfold forwardVec
  rw [e]
  simp only [ho]
  have hph : ∀ t j : ℤ, 0 ≤ t → t < nt → (if lower s = sHP then ring_phase_shift_hp L t nside true reality
        else fun _ => 1 : ℤ → ℂ) j
        = cis (-((j - (if reality then 0 else L - 1) : ℤ) * σ.phi L nside t 0)) := by
    intro t j t0 t1
    by_cases hh : σ = .healpix
    · rw [if_pos ((lower_hp_iff hs).2 hh), hh,
        ← p2phi_scheme (L := L) (hv.2 hh) t0 (by rw [← (hR.hp hh).1]; exact t1)]
      unfold ring_phase_shift_hp
      simp only [if_true]
      congr 1
      split_ifs <;> push_cast <;> ring
    · rw [if_neg (by rw [lower_hp_iff hs]; exact hh), phi_equi hh]; simp
  -- the accumulated row: orders `m ≥ 0` add up, the others mirror them
  set body : ℤ → ℤ → (ℤ → ℤ → ℂ) → ℤ → ℤ → ℂ := fun t el flm =>
      let flm := addRow flm el (if reality then L - 1 else 0) (2 * L - 1) (fun j =>
        w t * elfactor el * (baseSlice (θ t) el L spin reality ((if reality then L - 1 else 0) + j)
          * ftm t ((if reality then L - 1 else 0) + σ.off + j))
          * (if lower s = sHP then ring_phase_shift_hp L t nside true reality
              else fun _ => 1 : ℤ → ℂ) j)
      if reality then
        fun x i => if x = el ∧ 0 ≤ i ∧ i < (if reality then L - 1 else 0) then
          (-1) ^ (((if reality then L - 1 else 0) - i) % 2).toNat * (starRingEnd ℂ)
            (flm el ((if reality then L - 1 else 0) + 1 + ((if reality then L - 1 else 0) - 1 - i)))
          else flm x i
      else flm with hbody
  have hrow : ∀ t el f x y, x ≠ el → body t el f x y = f x y := by
    intro t el f x y hx
    rw [hbody]
    by_cases h1 : reality = true
    · simp only [h1, if_true]
      rw [if_neg (by tauto)]
      exact addRow_out (by tauto)
    · simp only [h1]
      simp only [Bool.false_eq_true, if_false]
      exact addRow_out (by tauto)
  have hadd : ∀ t el f m, 0 ≤ t → t < nt → elStart Ll spin ≤ el → el < L → -L < m → m < L →
      (reality = true → 0 ≤ m) →
      body t el f el (m + L - 1) = f el (m + L - 1) + w t * elfactor el
        * wignerd el m (-spin) (snapAngle (θ t)) * ringSum σ L nside f₀ t m := by
    intro t el f m t0 t1 e0 e1 m0 m1 hm
    have hb := elStart_bounds (L := L) e0
    have hsl := baseSlice_eq (θ t) el L spin reality (hR.range t t0 t1).1
      (hR.range t t0 t1).2 hb.1 e1 hr m hm
    rw [hbody]
    simp only [hph t _ t0 t1]
    by_cases h1 : reality = true
    · have := hm h1
      simp only [h1, if_true]
      rw [h1] at hsl
      rw [if_neg (by omega), addRow_in (by omega), ← h t m t0 t1 m0 m1 hm,
        show L - 1 + (m + L - 1 - (L - 1)) = m + L - 1 by ring,
        show m + L - 1 - (L - 1) - 0 = m by ring, hsl,
        show L - 1 + σ.off + (m + L - 1 - (L - 1)) = m + L - 1 + σ.off by ring]
      ring
    · simp only [h1]
      simp only [h1] at hsl
      simp only [Bool.false_eq_true, if_false]
      rw [addRow_in (by omega), ← h t m t0 t1 m0 m1 hm,
        show 0 + (m + L - 1 - 0) = m + L - 1 by ring,
        show m + L - 1 - 0 - (L - 1) = m by ring, hsl,
        show 0 + σ.off + (m + L - 1 - 0) = m + L - 1 + σ.off by ring]
      ring
  refine ⟨fun el j => forRange 0 nt (fun t f => forRange (elStart Ll spin) L
    (fun el f => body t el f) f) (fun _ _ => 0) el j * (-1) ^ spin, rfl, ?_, ?_⟩
  · have hpos : ∀ el m, elStart Ll spin ≤ el → el < L → -L < m → m < L → (reality = true → 0 ≤ m) →
        forRange 0 nt (fun t f => forRange (elStart Ll spin) L
          (fun el f => body t el f) f) (fun _ _ => 0) el (m + L - 1) * (-1) ^ spin
          = fVal (ringSum σ L nside f₀) spin nt θ w el m := by
      intro el m h0 h1 h2 h3 hm
      have hsum : forRange 0 nt (fun t f => forRange (elStart Ll spin) L
          (fun el f => body t el f) f) (fun _ _ => 0) el (m + L - 1)
          = ∑ t ∈ Finset.Ico 0 nt, w t * elfactor el
            * wignerd el m (-spin) (snapAngle (θ t)) * ringSum σ L nside f₀ t m := by
        refine (forRange_sum _ _ _ _ (fun f : ℤ → ℤ → ℂ => f el (m + L - 1)) _ ?_).trans
          (zero_add _)
        intro t f a b
        refine forRange_pick _ _ _ _ (fun f : ℤ → ℤ → ℂ => f el (m + L - 1)) el _ h0 h1 ?_ ?_
        · intro f
          exact hadd t el f m a b h0 h1 h2 h3 hm
        · intro i f _ _ hne
          exact hrow _ _ _ _ _ (Ne.symm hne)
      rw [hsum, Finset.sum_mul]
      unfold fVal
      apply Finset.sum_congr rfl
      intro t _
      ring
    intro el m h0 h1 h2 h3
    by_cases hm : reality = true → 0 ≤ m
    · refine (hpos el m h0 h1 h2 h3 hm).trans ?_
      unfold symm
      rw [if_neg (by intro h; have := hm h.1; omega)]
    · have hre' : reality = true := by by_contra h; exact hm (fun h' => absurd h' h)
      have hm0 : m < 0 := by by_contra h; exact hm (fun _ => by omega)
      unfold symm
      rw [if_pos ⟨hre', hm0⟩, ← hpos el (-m) h0 h1 (by omega) (by omega) (fun _ => by omega)]
      have hinv : ∀ (g : ℤ → ℤ → ℂ) (t el' : ℤ),
          g el (m + L - 1) = (-1) ^ m * (starRingEnd ℂ) (g el (-m + L - 1)) →
          body t el' g el (m + L - 1)
            = (-1) ^ m * (starRingEnd ℂ) (body t el' g el (-m + L - 1)) := by
        intro g t el' hg
        by_cases hx : el = el'
        · subst hx
          rw [hbody]
          simp only [hre', if_true]
          rw [if_pos (show True ∧ 0 ≤ m + L - 1 ∧ m + L - 1 < L - 1 from ⟨trivial, by omega, by omega⟩),
            if_neg (show ¬ (True ∧ 0 ≤ -m + L - 1 ∧ -m + L - 1 < L - 1) from fun h => by omega),
            show L - 1 + 1 + (L - 1 - 1 - (m + L - 1)) = -m + L - 1 by ring,
            show L - 1 - (m + L - 1) = -m by ring]
          congr 1
          have e2 : ((-1 : ℂ)) ^ m = (-1) ^ (-m) := by rw [zpow_neg, ← inv_zpow]; norm_num
          rw [e2]
          rcases Int.emod_two_eq_zero_or_one (-m) with h | h
          · rw [h, (Int.even_iff.2 h).neg_one_zpow]; rfl
          · rw [h, (Int.odd_iff.2 h).neg_one_zpow]; simp
        · rw [hrow _ _ _ _ _ hx, hrow _ _ _ _ _ hx, hg]
      have hall : ∀ g, g = forRange 0 nt (fun t f => forRange (elStart Ll spin) L
          (fun el f => body t el f) f) (fun _ _ => 0) →
          g el (m + L - 1) = (-1) ^ m * (starRingEnd ℂ) (g el (-m + L - 1)) := by
        rintro g rfl
        rcases le_total 0 nt with hle | hle
        · refine forRange_ind hle _ _ (fun _ (g : ℤ → ℤ → ℂ) =>
            g el (m + L - 1) = (-1) ^ m * (starRingEnd ℂ) (g el (-m + L - 1))) (by simp) ?_
          intro t g _ _ hg
          rcases le_total (elStart Ll spin) L with hl | hl
          · refine forRange_ind hl _ _ (fun _ (g : ℤ → ℤ → ℂ) =>
              g el (m + L - 1) = (-1) ^ m * (starRingEnd ℂ) (g el (-m + L - 1))) hg ?_
            intro el' g _ _ hg
            exact hinv g t el' hg
          · rw [forRange_of_le hl]; exact hg
        · rw [forRange_of_le hle]; simp
      refine (congrArg (· * (-1 : ℂ) ^ spin) (hall _ rfl)).trans ?_
      rw [hr hre']
      simp
  · intro el j hlt
    refine mul_eq_zero_of_left ?_ _
    refine forRange_frame _ _ _ _ (fun f : ℤ → ℤ → ℂ => f el j) ?_
    intro t f _ _
    refine forRange_frame _ _ _ _ (fun f : ℤ → ℤ → ℂ => f el j) ?_
    intro i f a _
    exact hrow _ _ _ _ _ (by omega)

end S2fft
