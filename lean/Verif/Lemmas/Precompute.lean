import Verif.Lemmas.Kernel
import Verif.Props.C20
import Verif.Props.C23

/-! # The precomputed-kernel transforms -/

namespace S2fft
open Spec

/-- The contents of a kernel: `d`-functions at the angles `α`, normalisation, weights `w` and the
azimuth of the first sample of each ring. -/
def KernelIs (K : ℤ → ℤ → ℤ → ℂ) (σ : Scheme) (L nside spin nt : ℤ) (reality forward : Bool)
    (α w : ℤ → ℝ) : Prop :=
  ∀ t el m, 0 ≤ t → t < nt → 0 ≤ el → el < L → -L < m → m < L → (reality = true → 0 ≤ m) →
    K t el (m + L - 1 - mStart L reality) = wignerd el m (-spin) (α t) * elfactor el * w t
      * cis ((if forward then -1 else 1) * (m * σ.phi L nside t 0))

theorem healpixPhaseShifts_at {L nside nt t j : ℤ} {forward : Bool} (t0 : 0 ≤ t) (t1 : t < nt) :
    healpixPhaseShifts L nside nt forward t j = ring_phase_shift_hp L t nside forward false j := by
  unfold healpixPhaseShifts
  refine forRange_write 0 nt _ _ (fun a : ℤ → ℤ → ℂ => a t j) t _ t0 t1 (fun a => ?_)
    (fun i a _ _ hne => ?_)
  · simp
  · simp [Ne.symm hne]

theorem kernelFold_is {G : GlTables} {σ : Scheme} {s : PyStr} (hs : lower s = σ.name)
    {L nside spin nt : ℤ} {reality forward : Bool} {α w : ℤ → ℝ}
    (hnt : σ = .healpix → nt = 4 * nside - 1 ∧ 1 ≤ nside)
    (hw : forward = true → ∃ n, quad_weights_transform G.weights L s nside = .ok (n, w))
    (hw' : forward = false → ∀ t, w t = 1)
    {dl : ℤ → ℤ → ℤ → ℝ} (hd : DlIs dl L spin nt reality α) :
    ∃ K, kernelFold G L s nt nside forward reality dl = .ok (.d3 nt L (mDim L reality) K) ∧
      KernelIs K σ L nside spin nt reality forward α w := by
  have key : ∀ D : ℤ → ℤ → ℤ → ℂ, (∀ t el m, 0 ≤ t → t < nt → 0 ≤ el → el < L → -L < m → m < L →
      (reality = true → 0 ≤ m) → D t el (m + L - 1 - mStart L reality)
        = wignerd el m (-spin) (α t) * elfactor el * w t) →
      KernelIs (if lower s = sHP then fun t el j => D t el j
        * healpixPhaseShifts L nside nt forward t (mStart L reality + j) else D)
        σ L nside spin nt reality forward α w := by
    intro D hD t el m t0 t1 e0 e1 m0 m1 hm
    by_cases hh : σ = .healpix
    · rw [if_pos ((lower_hp_iff hs).2 hh)]
      rw [hD t el m t0 t1 e0 e1 m0 m1 hm, healpixPhaseShifts_at t0 t1]
      unfold ring_phase_shift_hp
      simp only [Bool.false_eq_true, if_false]
      subst hh
      obtain ⟨h1, h2⟩ := hnt rfl
      rw [p2phi_scheme (L := L) h2 t0 (by omega), show -L + 1 + (mStart L reality
        + (m + L - 1 - mStart L reality)) = m by ring, mul_assoc (if forward = true then _ else _)]
    · rw [if_neg (by rw [lower_hp_iff hs]; exact hh), hD t el m t0 t1 e0 e1 m0 m1 hm, phi_equi hh]
      simp
  unfold kernelFold
  cases forward with
  | true =>
    obtain ⟨n, e⟩ := hw rfl
    simp only [if_true]
    rw [e]
    exact ⟨_, rfl, key _ (fun t el m t0 t1 e0 e1 m0 m1 hm => by
      simp only
      rw [hd t el m t0 t1 e0 e1 m0 m1 hm]
      push_cast; ring)⟩
  | false =>
    simp only [Bool.false_eq_true, if_false]
    exact ⟨_, rfl, key _ (fun t el m t0 t1 e0 e1 m0 m1 hm => by
      rw [hd t el m t0 t1 e0 e1 m0 m1 hm, hw' rfl t]
      push_cast; ring)⟩

/-! ## Inverse -/

theorem mStart_true (L : ℤ) : mStart L true = L - 1 := rfl
theorem mStart_false (L : ℤ) : mStart L false = 0 := rfl

theorem precomputeFtm_plain {σ : Scheme} {s : PyStr} (ho : mOffset s = σ.off)
    {L nside spin nt : ℤ} {reality : Bool} {α : ℤ → ℝ} {K : ℤ → ℤ → ℤ → ℂ}
    (hK : KernelIs K σ L nside spin nt reality false α (fun _ => 1)) (flm : ℤ → ℤ → ℂ) {t m : ℤ}
    (t0 : 0 ≤ t) (t1 : t < nt) (m0 : -L < m) (m1 : m < L) (hm : reality = true → 0 ≤ m) :
    (if mStart L reality + mOffset s ≤ m + L - 1 + σ.off then
      ∑ l ∈ Finset.Ico 0 L, K t l (m + L - 1 + σ.off - (mStart L reality + mOffset s))
        * flm l (mStart L reality + (m + L - 1 + σ.off - (mStart L reality + mOffset s))) else 0)
      * (-1) ^ spin = gAt flm L spin 0 (α t) m * cis (m * σ.phi L nside t 0) := by
  have hle : mStart L reality ≤ m + L - 1 := by
    cases reality with
    | true => have := hm rfl; rw [mStart_true]; omega
    | false => rw [mStart_false]; omega
  rw [ho, if_pos (by omega), gAt_zero, Finset.sum_mul, Finset.sum_mul]
  apply Finset.sum_congr rfl
  intro l hl
  rw [Finset.mem_Ico] at hl
  rw [show m + L - 1 + σ.off - (mStart L reality + σ.off) = m + L - 1 - mStart L reality by ring,
    hK t l m t0 t1 hl.1 hl.2 m0 m1 hm,
    show mStart L reality + (m + L - 1 - mStart L reality) = m + L - 1 by ring]
  simp only [Bool.false_eq_true, if_false, one_mul]
  push_cast; ring

theorem precomputeFtm_values {σ : Scheme} {s : PyStr} (hs : lower s = σ.name)
    (ho : mOffset s = σ.off) {L nside spin nt : ℤ} {reality : Bool} {α : ℤ → ℝ}
    {K : ℤ → ℤ → ℤ → ℂ}
    (hK : KernelIs K σ L nside spin nt reality false α (fun _ => 1)) (flm : ℤ → ℤ → ℂ) {t m : ℤ}
    (t0 : 0 ≤ t) (t1 : t < nt) (m0 : -L < m) (m1 : m < L)
    (hm : reality = true → σ ≠ .healpix → 0 ≤ m) :
    precomputeFtm flm K L s reality spin t (m + L - 1 + σ.off)
      = gEff reality (gAt flm L spin 0 (α t)) m * cis (m * σ.phi L nside t 0) := by
  unfold precomputeFtm
  simp only
  by_cases hc : lower s = sHP ∧ reality = true
  · rw [if_pos hc]
    obtain ⟨h1, rfl⟩ := hc
    have hh := (lower_hp_iff hs).1 h1
    by_cases hneg : m < 0
    · rw [if_pos (by rw [ho, mStart_true]; omega), gEff_neg hneg]
      have := precomputeFtm_plain ho hK flm (m := -m) t0 t1 (by omega) (by omega)
        (fun _ => by omega)
      rw [show mStart L true + mOffset s + 1 + (L - 2 - (m + L - 1 + σ.off - mOffset s))
        = -m + L - 1 + σ.off by rw [ho, mStart_true]; ring, this, map_mul, conj_cis]
      congr 2
      push_cast; ring
    · rw [if_neg (by rw [ho, mStart_true]; omega), gEff_nonneg (by omega)]
      exact precomputeFtm_plain ho hK flm t0 t1 m0 m1 (fun _ => by omega)
  · rw [if_neg hc]
    have hnn : reality = true → 0 ≤ m := fun h => hm h (fun h' => hc ⟨(lower_hp_iff hs).2 h', h⟩)
    have hg : gEff reality (gAt flm L spin 0 (α t)) m = gAt flm L spin 0 (α t) m := by
      cases reality with
      | true => exact gEff_nonneg (hnn rfl)
      | false => unfold gEff; simp
    rw [hg]
    exact precomputeFtm_plain ho hK flm t0 t1 m0 m1 hnn

theorem synth_real {L : ℤ} {g : ℤ → ℂ} (h : (g 0).im = 0) (φ : ℝ) : (synth L true g φ).im = 0 := by
  unfold synth
  simp only [if_true, Complex.add_im, Complex.im_sum, Complex.conj_im, h, zero_add]
  apply Finset.sum_eq_zero
  intro m _
  ring

theorem ftm_shape_valid {σ : Scheme} {s : PyStr} (hs : lower s = σ.name) {L : ℤ}
    {nside : Option ℤ} (hv : σ.Valid L (nside.getD 0)) :
    ftm_shape L s nside = .ok (σ.rings L (nside.getD 0), 2 * L - 1 + σ.off) := by
  cases nside with
  | some n => exact ftm_shape_scheme hs L n
  | none =>
    have hh : σ ≠ .healpix := by
      intro h
      have := hv.2 h
      simp at this
    show _ = Except.ok (σ.rings L 0, _)
    rw [← ftm_shape_scheme hs L 0]
    have : ¬ lower s = sHP := by rw [lower_hp_iff hs]; exact hh
    unfold ftm_shape ntheta
    simp [this]

theorem precomputeInverse_values {σ : Scheme} {s : PyStr} (hs : lower s = σ.name)
    (ho : mOffset s = σ.off) {method : PyStr} (hmt : method ∈ [mNumpy, mJax, mTorch])
    {L spin : ℤ} {nside : Option ℤ} (hv : σ.Valid L (nside.getD 0))
    (hhp : σ = .healpix → 2 * nside.getD 0 ≤ L) (flm : ℤ → ℤ → ℂ) (reality : Bool)
    (hr : reality = true → spin = 0)
    (hre : reality = true → ∀ el, 0 ≤ el → el < L → (flm el (L - 1)).im = 0)
    {α : ℤ → ℝ} {K : ℤ → ℤ → ℤ → ℂ}
    (hK : KernelIs K σ L (nside.getD 0) spin (σ.rings L (nside.getD 0)) reality false α
      (fun _ => 1)) :
    ∃ out, precomputeInverse (.d2 L (2 * L - 1) flm)
        (.d3 (σ.rings L (nside.getD 0)) L (mDim L reality) K) L s reality spin nside method
        = .ok out ∧
      out.shape = σ.shape L (nside.getD 0) ∧
      ∀ t p, σ.Has L (nside.getD 0) t p →
        out.get2 (σ.pos (nside.getD 0) t p).1 (σ.pos (nside.getD 0) t p).2
          = synth L reality (gAt flm L spin 0 (α t)) (σ.phi L (nside.getD 0) t p) := by
  have hg0 : reality = true → ∀ t, (gAt flm L spin 0 (α t) 0).im = 0 := by
    intro h t
    rw [hr h]; exact gAt_im (hre h) _
  obtain ⟨f, e1, hf⟩ := inverseFftM_values hs ho hmt hv hhp reality
    (precomputeFtm flm K L s reality spin) (fun t => gAt flm L spin 0 (α t))
    (fun h t _ _ => hg0 h t)
    (by
      intro t h1 h2 _
      unfold precomputeFtm
      simp only
      have hz : ¬ mStart L reality + mOffset s ≤ 0 := by
        have : 0 ≤ mStart L reality := by
          have := hv.1
          unfold mStart; split_ifs <;> omega
        rw [ho]; omega
      split_ifs
      · beta_reduce
        rw [if_neg (c := mOffset s ≤ 0 ∧ _) (by rw [ho]; omega), if_neg hz, zero_mul]
      · beta_reduce
        rw [if_neg hz, zero_mul])
    (fun t m t0 t1 m0 m1 hm => precomputeFtm_values hs ho hK flm t0 t1 m0 m1 hm)
  obtain ⟨out, e2, hsh, hg⟩ := packSignal_scheme hs hv (if method ≠ mNumpy ∧ reality = true then
    fun t p => ((f t p).re : ℂ) else f)
  refine ⟨out, ?_, hsh, fun t p h => ?_⟩
  · have e0 : ftm_shape L s nside
        = .ok (σ.rings L (nside.getD 0), 2 * L - 1 + σ.off) := ftm_shape_valid hs hv
    unfold precomputeInverse
    rw [e0]
    simp only [bind, Except.bind, Nd.shape, ne_eq, not_true_eq_false, if_false, Nd.get2]
    rw [e1, if_neg (by rw [ho]; unfold mStart mDim; split_ifs <;> omega)]
    exact e2
  · rw [hg t p h]
    split_ifs with hc
    · beta_reduce
      rw [hf t p h]
      have := synth_real (L := L) (hg0 hc.2 t) (σ.phi L (nside.getD 0) t p)
      rw [hc.2]
      exact ofReal_re_of_im this
    · exact hf t p h

/-! ## Forward -/

theorem precomputeResample_ok {σ : Scheme} {s : PyStr} (hs : lower s = σ.name) (method : PyStr)
    {L spin nside : ℤ} (hv : σ.Valid L nside) (f : Nd ℂ)
    (hf : f.shape = σ.shape L nside) :
    ∃ f', precomputeResample f L spin s method = .ok (f', innerName σ s) ∧
      f'.get2 = innerSignal σ L spin f.get2 ∧
      (σ ≠ .healpix → f'.shape = [innerRings σ L nside, σ.inner.ringLen L nside 0]) := by
  have hL := hv.1
  have hj1 := fun f => (C23_jax L hL (fun _ => spin) f).1
  have hj2 := fun f => (C23_jax L hL (fun _ => spin) f).2
  have e1 : ¬ sMWSS = sMW := by decide
  have up : ∀ f, (if method = mNumpy then upsample_by_two_mwss else upsample_by_two_mwss_jax) f L
      (fun _ => spin) = upsample_by_two_mwss f L (fun _ => spin) := by
    intro f; split_ifs
    · rfl
    · exact hj2 f
  have tw : ∀ f, (if method = mNumpy then mw_to_mwss else mw_to_mwss_jax) f L
      (fun _ => spin) = mw_to_mwss f L (fun _ => spin) := by
    intro f; split_ifs
    · rfl
    · exact hj1 f
  unfold precomputeResample
  simp only [up, tw]
  by_cases hR : σ.Resampled
  · unfold innerName innerRings
    simp only [if_pos hR]
    rcases hR with rfl | rfl
    · obtain ⟨v, rfl⟩ := Nd.eq_d2 (by simp only [Scheme.rings]; omega) hf
      rw [name_mw] at hs
      refine ⟨.d2 (2 * L + 1) (2 * L) (upsampleValues (fun _ => mwssValues (fun _ => v) L
        (fun _ => spin) 0) L (fun _ => spin) 0), ?_, rfl, fun _ => rfl⟩
      rw [if_pos hs, mw_to_mwss_d2]
      simp only [bind, Except.bind, pure, Except.pure]
      rw [if_pos (Or.inl hs), upsample_d2]
    · obtain ⟨v, rfl⟩ := Nd.eq_d2 (by simp only [Scheme.rings]; omega) hf
      rw [name_mwss] at hs
      refine ⟨.d2 (2 * L + 1) (2 * L) (upsampleValues (fun _ => v) L (fun _ => spin) 0), ?_, rfl,
        fun _ => rfl⟩
      rw [if_neg (by rw [hs]; exact e1)]
      simp only [bind, Except.bind, pure, Except.pure]
      rw [if_pos (Or.inr hs), upsample_d2]
  · refine ⟨f, ?_, ?_, ?_⟩
    · unfold innerName
      have a1 : ¬ lower s = sMW := by
        rw [hs]; revert hR; cases σ <;> decide
      have a2 : ¬ lower s = sMWSS := by
        rw [hs]; revert hR; cases σ <;> decide
      rw [if_neg a1, if_neg hR]
      simp only [bind, Except.bind, pure, Except.pure]
      rw [if_neg (by tauto)]
    · revert hR; cases σ <;> simp [Scheme.Resampled, innerSignal]
    · intro hh
      rw [hf]
      unfold innerRings
      rw [if_neg hR]
      revert hR hh; cases σ <;> simp [Scheme.Resampled, Scheme.inner, Scheme.shape]

/-- The Fourier coefficients of the precompute transforms are those of the base ones. -/
theorem precomputeFft_of {f : ℤ → ℤ → ℂ} {L : ℤ} {s : PyStr} {ncol nside : ℤ} {reality : Bool}
    {method : PyStr} {F : ℤ → ℤ → ℂ} (h : forwardFftM method f L s ncol nside reality = .ok F) :
    ∃ ftm, precomputeFft f L s ncol nside reality method = .ok ftm ∧
      ∀ t m, -L < m → (reality = true → 0 ≤ m) →
        ftm t (m + L - 1 - mStart L reality) = F t (m + L - 1 + mOffset s) := by
  unfold forwardFftM at h
  unfold precomputeFft
  simp only
  by_cases hh : lower s = sHP
  · rw [if_pos hh] at h ⊢
    cases e : healpix_fft noCuda (f 0) L nside method reality with
    | error x => rw [e] at h; exact absurd h (by simp [bind, Except.bind])
    | ok r =>
      rw [e] at h
      simp only [bind, Except.bind, pure, Except.pure, Except.ok.injEq] at h ⊢
      refine ⟨_, rfl, fun t m _ _ => ?_⟩
      rw [← h]
      cases reality with
      | true => simp only [if_true]; rw [mStart_true]; congr 1; ring
      | false =>
        simp only [Bool.false_eq_true, if_false]; rw [mStart_false]; congr 1; ring
  · rw [if_neg hh] at h ⊢
    cases reality with
    | true =>
      simp only [if_true, pure, Except.pure, Except.ok.injEq] at h ⊢
      refine ⟨_, rfl, fun t m _ hm => ?_⟩
      have : 0 ≤ m := by simpa using hm
      rw [← h]
      beta_reduce
      rw [if_pos (by omega), mStart_true]
      congr 1; ring
    | false =>
      simp only [Bool.false_eq_true, if_false, pure, Except.pure, Except.ok.injEq] at h ⊢
      refine ⟨_, rfl, fun t m _ hm => ?_⟩
      rw [← h, mStart_false]
      beta_reduce
      congr 1; ring

theorem precomputeFlm_values {σ : Scheme} {L nside spin nt : ℤ} {reality : Bool} {α w : ℤ → ℝ}
    {K : ℤ → ℤ → ℤ → ℂ} (hK : KernelIs K σ L nside spin nt reality true α w)
    (hr : reality = true → spin = 0) {ftm A : ℤ → ℤ → ℂ}
    (hA : ∀ t m, 0 ≤ t → t < nt → -L < m → m < L → (reality = true → 0 ≤ m) →
      ftm t (m + L - 1 - mStart L reality) * cis (-(m * σ.phi L nside t 0)) = A t m)
    {el m : ℤ} (e0 : 0 ≤ el) (e1 : el < L) (m0 : -L < m) (m1 : m < L) :
    precomputeFlm ftm K L nt reality spin el (m + L - 1)
      = symm reality (fAt A spin nt α w el) m := by
  have plain : ∀ m, -L < m → m < L → (reality = true → 0 ≤ m) →
      (if mStart L reality ≤ m + L - 1 then ∑ t ∈ Finset.Ico 0 nt,
        K t el (m + L - 1 - mStart L reality) * ftm t (m + L - 1 - mStart L reality) else 0)
        * (-1) ^ spin = fAt A spin nt α w el m := by
    intro m m0 m1 hm
    have hle : mStart L reality ≤ m + L - 1 := by
      cases reality with
      | true => have := hm rfl; rw [mStart_true]; omega
      | false => rw [mStart_false]; omega
    rw [if_pos hle, Finset.sum_mul]
    unfold fAt
    apply Finset.sum_congr rfl
    intro t ht
    rw [Finset.mem_Ico] at ht
    rw [hK t el m ht.1 ht.2 e0 e1 m0 m1 hm, ← hA t m ht.1 ht.2 m0 m1 hm]
    simp only [if_true, neg_one_mul]
    ring
  unfold precomputeFlm
  simp only
  by_cases hm : reality = true → 0 ≤ m
  · rw [show symm reality (fAt A spin nt α w el) m = fAt A spin nt α w el m by
      unfold symm; rw [if_neg (by intro h; have := hm h.1; omega)], ← plain m m0 m1 hm]
    congr 1
    by_cases h1 : reality = true
    · have := hm h1
      subst h1
      rw [if_pos rfl]
      beta_reduce
      rw [if_neg (c := 0 ≤ m + L - 1 ∧ _) (by rw [mStart_true]; omega)]
    · rw [if_neg h1]
  · have hre' : reality = true := by by_contra h; exact hm (fun h' => absurd h' h)
    have hm0 : m < 0 := by by_contra h; exact hm (fun _ => by omega)
    subst hre'
    have hsp := hr rfl
    subst hsp
    unfold symm
    rw [if_pos rfl, if_pos (c := true = true ∧ m < 0) ⟨rfl, hm0⟩,
      ← plain (-m) (by omega) (by omega) (fun _ => by omega)]
    beta_reduce
    rw [if_pos (c := 0 ≤ m + L - 1 ∧ _) (by rw [mStart_true]; omega),
      show mStart L true + 1 + (L - 2 - (m + L - 1)) = -m + L - 1 by rw [mStart_true]; ring,
      show L - 2 - (m + L - 1) + 1 = -m by ring]
    simp only [zpow_zero, mul_one]
    congr 1
    have e2 : ((-1 : ℂ)) ^ m = (-1) ^ (-m) := by rw [zpow_neg, ← inv_zpow]; norm_num
    rw [e2]
    rcases Int.emod_two_eq_zero_or_one (-m) with h | h
    · rw [h, (Int.even_iff.2 h).neg_one_zpow]; rfl
    · rw [h, (Int.odd_iff.2 h).neg_one_zpow]; simp

theorem innerRings_hp {σ : Scheme} (h : σ = .healpix) (L nside : ℤ) :
    innerRings σ L nside = 4 * nside - 1 := by
  subst h; unfold innerRings; rw [if_neg (by decide)]; rfl

theorem innerTheta_rings (nodes : ℤ → ℤ → ℝ) {σ : Scheme} {L nside : ℤ} (hv : σ.Valid L nside) :
    RingsOk nodes σ.inner L nside (innerRings σ L nside) (innerTheta nodes σ L nside) := by
  constructor
  · intro t a b
    exact innerTheta_mem _ _ hv a b
  · intro hh
    have hh' := inner_hp.1 hh
    subst hh'
    have : ¬ Scheme.healpix.Resampled := by decide
    refine ⟨by unfold innerRings; rw [if_neg this]; rfl, fun t a b => ?_⟩
    unfold innerTheta; rw [if_neg this]

theorem precomputeForward_values {σ : Scheme} {s : PyStr} (hs : lower s = σ.name)
    (ho : σ = .healpix → s = sHP) {method : PyStr} (hmt : method ∈ [mNumpy, mJax, mTorch])
    {L spin : ℤ} {nside : Option ℤ} (hv : σ.Valid L (nside.getD 0))
    (hhp : σ = .healpix → 2 * nside.getD 0 ≤ L ∧ (method ≠ mNumpy → 2 ≤ nside.getD 0))
    (f : Nd ℂ) (hf : f.shape = σ.shape L (nside.getD 0)) (reality : Bool)
    (hr : reality = true → spin = 0)
    (hre : reality = true → RealRings σ.inner L (nside.getD 0) (innerRings σ L (nside.getD 0))
      (innerSignal σ L spin f.get2))
    {α w : ℤ → ℝ} {K : ℤ → ℤ → ℤ → ℂ}
    (hK : KernelIs K σ.inner L (nside.getD 0) spin (innerRings σ L (nside.getD 0)) reality true α w) :
    ∃ flm, precomputeForward f (.d3 (innerRings σ L (nside.getD 0)) L (mDim L reality) K) L s
        reality spin nside method = .ok (.d2 L (2 * L - 1) flm) ∧
      ∀ el m, 0 ≤ el → el < L → -L < m → m < L → flm el (m + L - 1)
        = symm reality (fAt (ringSum σ.inner L (nside.getD 0) (innerSignal σ L spin f.get2)) spin
            (innerRings σ L (nside.getD 0)) α w el) m := by
  obtain ⟨f', e1, hf', hsh⟩ := precomputeResample_ok hs method (spin := spin) hv f hf
  have hn : σ.inner ≠ .healpix → f'.shape.getLast?.getD 0 = σ.inner.ringLen L (nside.getD 0) 0 := by
    intro h
    rw [hsh (fun h' => h (inner_hp.2 h'))]; rfl
  have hoff := mOffset_innerName hs ho
  obtain ⟨F, e2, hF⟩ := forwardFftM_values (nodes := fun _ _ => 0) (lower_innerName hs) hoff hmt
    (inner_valid hv) (fun h => hhp (inner_hp.1 h))
    (innerTheta_rings (fun _ _ => 0) hv) hn f'.get2 reality (by rw [hf']; exact hre)
  obtain ⟨ftm, e3, hftm⟩ := precomputeFft_of e2
  refine ⟨_, ?_, fun el m a b c d => precomputeFlm_values hK hr (A := ringSum σ.inner L
    (nside.getD 0) (innerSignal σ L spin f.get2)) (ftm := ftm) (fun t m t0 t1 m0 m1 hm => ?_)
      a b c d⟩
  · unfold precomputeForward
    rw [if_neg (by
      rintro ⟨h, rfl⟩
      have := (lower_hp_iff hs).1 h
      subst this
      exact absurd hv.2 (by simp)), e1]
    simp only [bind, Except.bind]
    rw [e3]
    simp only
    rw [if_neg (by simp), if_neg, if_neg]
    · rfl
    · rintro ⟨h1, h2⟩
      have hi := (lower_hp_iff (lower_innerName hs)).1 h1
      refine h2.elim (fun h => h (innerRings_hp (inner_hp.1 hi) _ _)) (fun h => h ?_)
      rw [hoff, hi]; rfl
    · rintro ⟨h1, h2⟩
      rw [hsh (fun h => h1 ((lower_hp_iff (lower_innerName hs)).2 (inner_hp.2 h)))] at h2
      exact h2 rfl
  · rw [hftm t m m0 hm, hoff, hF t m t0 t1 m0 m1 hm, hf']

/-! ## The kernel -/

/-- The scheme and rings of the angles of a kernel. -/
noncomputable def kScheme (σ : Scheme) (forward : Bool) : Scheme := if forward then σ.inner else σ
noncomputable def kRings (σ : Scheme) (L nside : ℤ) (forward : Bool) : ℤ :=
  if forward then innerRings σ L nside else σ.rings L nside
noncomputable def kTheta (nodes : ℤ → ℤ → ℝ) (σ : Scheme) (L nside : ℤ) (forward : Bool) : ℤ → ℝ :=
  if forward then innerTheta nodes σ L nside else σ.theta nodes L nside
noncomputable def kWeight (G : GlTables) (σ : Scheme) (L nside : ℤ) (forward : Bool) : ℤ → ℝ :=
  if forward then innerWeight G σ L nside else fun _ => 1
noncomputable def kName (σ : Scheme) (s : PyStr) (forward : Bool) : PyStr :=
  if forward then innerName σ s else s

theorem kName_lower {σ : Scheme} {s : PyStr} (hs : lower s = σ.name) (forward : Bool) :
    lower (kName σ s forward) = (kScheme σ forward).name := by
  cases forward
  · exact hs
  · exact lower_innerName hs

theorem kernelThetas_ok (G : GlTables) {σ : Scheme} {s : PyStr} (hs : lower s = σ.name)
    {L : ℤ} {nside : Option ℤ} (hv : σ.Valid L (nside.getD 0)) (forward : Bool) :
    ∃ θ, kernelThetas G L s nside forward
        = .ok (kName σ s forward, kRings σ L (nside.getD 0) forward, θ) ∧
      ∀ t, 0 ≤ t → t < kRings σ L (nside.getD 0) forward →
        θ t = kTheta G.nodes σ L (nside.getD 0) forward t := by
  obtain ⟨θ1, h1, h1'⟩ := thetas_scheme G.nodes hs hv
  cases forward with
  | false =>
    refine ⟨θ1, ?_, h1'⟩
    unfold kernelThetas
    rw [if_neg (by simp), h1]; rfl
  | true =>
    have hL := hv.1
    obtain ⟨θ2, h2, h2'⟩ := thetas_scheme G.nodes (lower_name .mwss) (L := 2 * L) (nside := none)
      ⟨by omega, fun h => nomatch h⟩
    rw [name_mwss] at h2
    have hiff : σ.Resampled ↔ (lower s = sMW ∨ lower s = sMWSS) := by
      rw [hs]; cases σ <;> decide
    by_cases hR : σ.Resampled
    · refine ⟨θ2, ?_, fun t a b => ?_⟩
      · unfold kernelThetas
        rw [if_pos ⟨rfl, hiff.1 hR⟩, h2]
        unfold kName kRings innerName innerRings
        simp only [if_true, if_pos hR]
        rfl
      · unfold kRings innerRings at b
        simp only [if_true, if_pos hR] at b
        rw [h2' t a (by simpa [Scheme.rings] using b)]
        unfold kTheta innerTheta
        simp only [if_true, if_pos hR]
        simp [Scheme.theta]
    · refine ⟨θ1, ?_, fun t a b => ?_⟩
      · unfold kernelThetas
        rw [if_neg (by rw [← hiff]; tauto), h1]
        unfold kName kRings innerName innerRings
        simp only [if_true, if_neg hR]
        rfl
      · unfold kRings innerRings at b
        simp only [if_true, if_neg hR] at b
        rw [h1' t a b]
        unfold kTheta innerTheta
        simp only [if_true, if_neg hR]

theorem kTheta_mem (nodes : ℤ → ℤ → ℝ) {σ : Scheme} {L nside : ℤ} (hv : σ.Valid L nside)
    {forward : Bool} {t : ℤ} (t0 : 0 ≤ t) (t1 : t < kRings σ L nside forward) :
    0 ≤ kTheta nodes σ L nside forward t ∧ kTheta nodes σ L nside forward t ≤ Real.pi := by
  cases forward
  · exact theta_mem nodes σ hv t0 t1
  · exact innerTheta_mem _ _ hv t0 t1

/-- The grids used with the Fourier form of the Risbo kernel are uniform. -/
theorem kTheta_uniform (nodes : ℤ → ℤ → ℝ) {σ : Scheme} {s : PyStr} (hs : lower s = σ.name)
    {L nside : ℤ} (hv : σ.Valid L nside) (forward : Bool) (hσ : σ ≠ .gl) (hσ' : σ ≠ .healpix) :
    UniformGrid L (kRings σ L nside forward)
      (kernelSamps (kName σ s forward) (kRings σ L nside forward))
      (kTheta nodes σ L nside forward) := by
  have hL := hv.1
  have hLr : (1 : ℝ) ≤ L := by exact_mod_cast hL
  have e1 : ¬ sMWSS = sMW := by decide
  have e2 : ¬ sDH = sMW := by decide
  have e3 : ¬ sDH = sMWSS := by decide
  have hl := kName_lower hs forward
  unfold kernelSamps
  rw [hl]
  cases σ with
  | gl => exact absurd rfl hσ
  | healpix => exact absurd rfl hσ'
  | mw =>
    cases forward with
    | false =>
      show UniformGrid L L (if sMW = sMW then 2 * L - 1 else _) (Scheme.mw.theta nodes L nside)
      rw [if_pos rfl]
      refine ⟨by omega, by omega, fun t _ _ => ?_⟩
      simp only [Scheme.theta]
      push_cast
      have : (2 : ℝ) * L - 1 ≠ 0 := by linarith
      field_simp
      ring
    | true =>
      have hR : Scheme.mw.Resampled := by decide
      unfold kScheme kRings kTheta innerRings innerTheta
      simp only [if_true, if_pos hR]
      show UniformGrid L _ (if sMWSS = sMW then _ else if sMWSS = sMWSS then _ else _) _
      rw [if_neg e1, if_pos rfl]
      refine ⟨by omega, by omega, fun t _ _ => ?_⟩
      push_cast
      have : (L : ℝ) ≠ 0 := by linarith
      rw [show 2 * (2 * (L : ℝ) + 1) - 2 = 4 * L by ring]
      field_simp
      ring
  | mwss =>
    cases forward with
    | false =>
      show UniformGrid L (L + 1) (if sMWSS = sMW then _ else if sMWSS = sMWSS then 2 * (L + 1) - 2 else _)
        (Scheme.mwss.theta nodes L nside)
      rw [if_neg e1, if_pos rfl]
      refine ⟨by omega, by omega, fun t _ _ => ?_⟩
      simp only [Scheme.theta]
      push_cast
      have : (L : ℝ) ≠ 0 := by linarith
      rw [show 2 * ((L : ℝ) + 1) - 2 = 2 * L by ring]
      field_simp
      ring
    | true =>
      have hR : Scheme.mwss.Resampled := by decide
      unfold kScheme kRings kTheta innerRings innerTheta
      simp only [if_true, if_pos hR]
      show UniformGrid L _ (if sMWSS = sMW then _ else if sMWSS = sMWSS then _ else _) _
      rw [if_neg e1, if_pos rfl]
      refine ⟨by omega, by omega, fun t _ _ => ?_⟩
      push_cast
      have : (L : ℝ) ≠ 0 := by linarith
      rw [show 2 * (2 * (L : ℝ) + 1) - 2 = 4 * L by ring]
      field_simp
      ring
  | dh =>
    have hR : ¬ Scheme.dh.Resampled := by decide
    have h1 : kScheme .dh forward = .dh := by cases forward <;> rfl
    have h2 : kRings .dh L nside forward = 2 * L := by
      cases forward
      · rfl
      · unfold kRings innerRings; simp only [if_true, if_neg hR]; rfl
    have h3 : kTheta nodes .dh L nside forward = Scheme.dh.theta nodes L nside := by
      cases forward
      · rfl
      · unfold kTheta innerTheta; simp only [if_true, if_neg hR]
    rw [h1, h2, h3]
    show UniformGrid L _ (if sDH = sMW then _ else if sDH = sMWSS then _ else _) _
    rw [if_neg e2, if_neg e3]
    refine ⟨by omega, by omega, fun t _ _ => ?_⟩
    simp only [Scheme.theta]
    push_cast
    have : (L : ℝ) ≠ 0 := by linarith
    field_simp
    ring

/-- The choice between the two recursions. -/
def Risbo (spin : ℤ) (recursion : PyStr) : Prop :=
  recursion = rRisbo ∨ (recursion = rAuto ∧ 6 < |spin|)

instance (spin : ℤ) (recursion : PyStr) : Decidable (Risbo spin recursion) := by
  unfold Risbo; infer_instance

theorem chooseRecursion_ok {spin : ℤ} {recursion : PyStr} (h : recursion ∈ [rAuto, rPm, rRisbo])
    (hp : recursion = rPm → |spin| ≤ 6) :
    chooseRecursion spin recursion = .ok (if Risbo spin recursion then rRisbo else rPm) := by
  have l1 : lower rAuto = rAuto := rfl
  have l2 : lower rPm = rPm := rfl
  have l3 : lower rRisbo = rRisbo := rfl
  have n1 : ¬ rAuto = rPm := by decide
  have n2 : ¬ rRisbo = rPm := by decide
  have n3 : ¬ rPm = rAuto := by decide
  have n4 : ¬ rRisbo = rAuto := by decide
  have n5 : ¬ rAuto = rRisbo := by decide
  have n6 : ¬ rPm = rRisbo := by decide
  unfold chooseRecursion Risbo pmMaxStableSpin
  simp only [List.mem_cons, List.not_mem_nil, or_false] at h
  rcases h with rfl | rfl | rfl
  · simp only [l1, n1, n5, false_and, if_false, if_true, true_and, false_or]
  · have := hp rfl
    simp only [l2, n3, n6, false_and, if_false, true_and, false_or]
    rw [if_neg (by omega)]
  · simp only [l3, n2, n4, false_and, if_false, true_or, if_true]

/-- The angles at which a kernel is evaluated: those of the slices of the base transforms with the
Price–McEwen choice, which in NumPy is the recursion of Turok and Bunn. -/
noncomputable def kAngle (nodes : ℤ → ℤ → ℝ) (σ : Scheme) (L nside spin : ℤ) (forward : Bool)
    (recursion : PyStr) (t : ℤ) : ℝ :=
  if Risbo spin recursion then kTheta nodes σ L nside forward t
  else snapAngle (kTheta nodes σ L nside forward t)

theorem DlIs.congr {dl : ℤ → ℤ → ℤ → ℝ} {L spin nt : ℤ} {reality : Bool} {α β : ℤ → ℝ}
    (h : DlIs dl L spin nt reality α) (e : ∀ t, 0 ≤ t → t < nt → α t = β t) :
    DlIs dl L spin nt reality β := by
  intro t el m t0 t1 e0 e1 m0 m1 hm
  rw [h t el m t0 t1 e0 e1 m0 m1 hm, e t t0 t1]

theorem DlUpTo.congr {dl : ℤ → ℤ → ℤ → ℝ} {L spin nt hi : ℤ} {reality : Bool} {α β : ℤ → ℝ}
    (h : DlUpTo dl L spin nt reality α hi) (e : ∀ t, 0 ≤ t → t < nt → α t = β t) :
    DlUpTo dl L spin nt reality β hi := by
  intro t el m t0 t1 e0 e1 m0 m1 hm
  rw [h t el m t0 t1 e0 e1 m0 m1 hm, e t t0 t1]

theorem UniformGrid.congr {L nt n : ℤ} {θ θ' : ℤ → ℝ} (h : UniformGrid L nt n θ) (hn : 0 < nt)
    (e : ∀ t, 0 ≤ t → t < nt → θ' t = θ t) : UniformGrid L nt n θ' :=
  ⟨h.1, h.2.1, fun t t0 t1 => by rw [e t t0 t1, e 0 le_rfl hn]; exact h.2.2 t t0 t1⟩

theorem pyIndex_spin {L spin : ℤ} (h : |spin| < L) :
    pyIndex (2 * L - 1) (L - 1 - spin) = .ok (L - 1 - spin) := by
  rw [abs_lt] at h
  unfold pyIndex
  rw [if_pos (by omega)]

theorem jaxGet_spin {L spin : ℤ} (h : |spin| < L) :
    jaxGet (2 * L - 1) (L - 1 - spin) = L - 1 - spin := by
  rw [abs_lt] at h
  unfold jaxGet
  simp only
  rw [if_neg (by omega), if_neg (by omega), if_neg (by omega)]

theorem kRings_pos {σ : Scheme} {L nside : ℤ} (hv : σ.Valid L nside) (forward : Bool) :
    0 < kRings σ L nside forward := by
  have h1 : 0 < σ.rings L nside := by
    have := hv.1
    have h2 := hv.2
    cases σ <;> simp only [Scheme.rings] <;> try omega
    have := h2 rfl
    omega
  cases forward
  · exact h1
  · show 0 < innerRings σ L nside
    unfold innerRings
    split_ifs
    · have := hv.1; omega
    · exact h1

theorem kernelRisbo_ok (nodes : ℤ → ℤ → ℝ) {σ : Scheme} {s : PyStr} (hs : lower s = σ.name)
    {L nside spin : ℤ} (hv : σ.Valid L nside) (forward reality : Bool) (hsp : |spin| < L)
    {θ : ℤ → ℝ} (hθ : ∀ t, 0 ≤ t → t < kRings σ L nside forward →
      θ t = kTheta nodes σ L nside forward t) :
    (∃ dl, kernelRisbo L spin (kName σ s forward) (kRings σ L nside forward) θ reality = .ok dl ∧
      DlIs dl L spin (kRings σ L nside forward) reality (kTheta nodes σ L nside forward)) ∧
    DlIs (kernelRisboJax L spin (kName σ s forward) (kRings σ L nside forward) θ reality) L spin
      (kRings σ L nside forward) reality (kTheta nodes σ L nside forward) := by
  have hL := hv.1
  have hl := kName_lower hs forward
  have fin : ∀ dl : ℤ → ℤ → ℤ → ℝ, DlUpTo dl L spin (kRings σ L nside forward) reality θ L →
      DlIs (fun t el j => dl t el j * elfactor el) L spin (kRings σ L nside forward) reality
        (kTheta nodes σ L nside forward) := by
    intro dl h t el m t0 t1 e0 e1 m0 m1 hm
    beta_reduce
    rw [h t el m t0 t1 e0 e1 m0 m1 hm, hθ t t0 t1]
  by_cases hg : σ = .gl ∨ σ = .healpix
  · have hk : kScheme σ forward = σ := by rcases hg with rfl | rfl <;> cases forward <;> rfl
    rw [hk] at hl
    have c1 : lower (kName σ s forward) = sHP ∨ lower (kName σ s forward) = sGL := by
      rw [hl]; rcases hg with rfl | rfl <;> decide
    have c2 : ¬ (lower (kName σ s forward) = sMW ∨ lower (kName σ s forward) = sMWSS
        ∨ lower (kName σ s forward) = sDH) := by
      rw [hl]; rcases hg with rfl | rfl <;> decide
    constructor
    · unfold kernelRisbo
      rw [pyIndex_spin hsp]
      simp only [bind, Except.bind, pure, Except.pure]
      rw [if_pos c1, if_neg c2]
      exact ⟨_, rfl, fin _ (kernelRisboDirect_is (by omega))⟩
    · unfold kernelRisboJax
      simp only
      rw [jaxGet_spin hsp, if_pos c1]
      exact fin _ (kernelRisboDirectJax_is (by omega))
  · have hun := (kTheta_uniform nodes hs hv forward (by tauto) (by tauto)).congr
      (kRings_pos hv forward) hθ
    have c1 : ¬ (lower (kName σ s forward) = sHP ∨ lower (kName σ s forward) = sGL) := by
      rw [hl]; revert hg; cases σ <;> cases forward <;> decide
    have c2 : (lower (kName σ s forward) = sMW ∨ lower (kName σ s forward) = sMWSS
        ∨ lower (kName σ s forward) = sDH) := by
      rw [hl]; revert hg; cases σ <;> cases forward <;> decide
    constructor
    · obtain ⟨dl, e, h⟩ := kernelRisboFourier_is (reality := reality) hL hun hsp
      unfold kernelRisbo
      rw [pyIndex_spin hsp]
      simp only [bind, Except.bind, pure, Except.pure]
      rw [if_pos c2, e]
      exact ⟨_, rfl, fin _ h⟩
    · unfold kernelRisboJax
      simp only
      rw [jaxGet_spin hsp, if_neg c1, if_pos c2]
      exact fin _ (kernelRisboFourierJax_is hL hun hsp)

theorem kernelFold_scheme (G : GlTables) {σ : Scheme} {s : PyStr} (hs : lower s = σ.name)
    {L nside spin : ℤ} (hv : σ.Valid L nside) (forward reality : Bool) {α : ℤ → ℝ}
    {dl : ℤ → ℤ → ℤ → ℝ} (hd : DlIs dl L spin (kRings σ L nside forward) reality α) :
    ∃ K, kernelFold G L (kName σ s forward) (kRings σ L nside forward) nside forward reality dl
        = .ok (.d3 (kRings σ L nside forward) L (mDim L reality) K) ∧
      KernelIs K (kScheme σ forward) L nside spin (kRings σ L nside forward) reality forward α
        (kWeight G σ L nside forward) := by
  refine kernelFold_is (kName_lower hs forward) ?_ ?_ ?_ hd
  · intro h
    have hh : σ = .healpix := by
      cases forward
      · exact h
      · exact inner_hp.1 h
    refine ⟨?_, hv.2 hh⟩
    cases forward
    · subst hh; rfl
    · exact innerRings_hp hh _ _
  · rintro rfl
    exact ⟨_, innerWeight_ok G hs⟩
  · rintro rfl t; rfl

theorem spinSphericalKernel_ok (G : GlTables) {σ : Scheme} {s : PyStr} (hs : lower s = σ.name)
    {L spin : ℤ} {nside : Option ℤ} (hv : σ.Valid L (nside.getD 0)) (reality forward : Bool)
    {recursion : PyStr} (hrec : recursion ∈ [rAuto, rPm, rRisbo])
    (hp : recursion = rPm → |spin| ≤ 6) (hR : Risbo spin recursion → |spin| < L) :
    ∃ K, spinSphericalKernel G L spin reality s nside forward recursion
        = .ok (.d3 (kRings σ L (nside.getD 0) forward) L (mDim L (effReality reality spin)) K) ∧
      KernelIs K (kScheme σ forward) L (nside.getD 0) spin (kRings σ L (nside.getD 0) forward)
        (effReality reality spin) forward
        (kAngle G.nodes σ L (nside.getD 0) spin forward recursion)
        (kWeight G σ L (nside.getD 0) forward) := by
  obtain ⟨θ, e, hθ⟩ := kernelThetas_ok G hs hv forward
  have l2 : lower rPm = rPm := rfl
  have l3 : lower rRisbo = rRisbo := rfl
  have n2 : ¬ rRisbo = rPm := by decide
  obtain ⟨dl, e1, hd⟩ : ∃ dl, kernelDl L spin (kName σ s forward)
      (kRings σ L (nside.getD 0) forward) θ (effReality reality spin)
      (if Risbo spin recursion then rRisbo else rPm) = .ok dl ∧
      DlIs dl L spin (kRings σ L (nside.getD 0) forward) (effReality reality spin)
        (kAngle G.nodes σ L (nside.getD 0) spin forward recursion) := by
    unfold kAngle kernelDl
    by_cases h : Risbo spin recursion
    · simp only [if_pos h, l3, if_neg n2, if_true]
      exact (kernelRisbo_ok G.nodes hs hv forward _ (hR h) hθ).1
    · simp only [if_neg h, l2, if_true]
      refine ⟨_, rfl, (kernelTurok_is effReality_spin (fun t t0 t1 => ?_)).congr
        (fun t t0 t1 => by rw [hθ t t0 t1])⟩
      rw [hθ t t0 t1]
      exact kTheta_mem G.nodes hv t0 t1
  obtain ⟨K, e2, hK⟩ := kernelFold_scheme G hs hv forward (effReality reality spin) hd
  refine ⟨K, ?_, hK⟩
  unfold spinSphericalKernel
  rw [chooseRecursion_ok hrec hp, e]
  show (do
    let dl ← kernelDl L spin (kName σ s forward) (kRings σ L (nside.getD 0) forward) θ
      (effReality reality spin) (if Risbo spin recursion then rRisbo else rPm)
    kernelFold G L (kName σ s forward) (kRings σ L (nside.getD 0) forward) (nside.getD 0) forward
      (effReality reality spin) dl) = _
  rw [e1]
  exact e2

end S2fft
