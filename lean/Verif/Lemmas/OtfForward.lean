import Verif.Lemmas.OtfInverse

/-! # Values of the on-the-fly forward transforms -/

namespace S2fft
open Spec

section
variable {σ : Scheme} {s : PyStr} {L spin lo : ℤ} {nside : Option ℤ}

theorem inner_width (σ : Scheme) (L nside : ℤ) (h : σ.inner ≠ .healpix) :
    σ.inner.ringLen L nside 0 = 2 * L - 1 + σ.inner.off := by
  revert h
  cases σ <;> simp [Scheme.inner, Scheme.ringLen, Scheme.off]

theorem otfKernelThetas_ok (G : Machine) (hs : lower s = σ.name) (hv : σ.Valid L (nside.getD 0)) :
    ∃ θ, otfKernelThetas G L s nside true = .ok (innerRings σ L (nside.getD 0), θ) ∧
      ∀ t, 0 ≤ t → t < innerRings σ L (nside.getD 0) → θ t = G.inner σ L (nside.getD 0) t := by
  obtain ⟨θ, e1, hθ⟩ := kernelThetas_ok G.toGlTables hs hv true
  unfold otfKernelThetas
  rw [e1]
  exact ⟨_, rfl, fun t t0 t1 => by rw [hθ t t0 t1]; rfl⟩

/-- The poles are stored exactly. -/
def Machine.Poles (G : Machine) : Prop := G.rnd 0 = 0 ∧ G.rnd Real.pi = Real.pi

/-- The Fourier coefficients handed to the latitudinal steps. -/
theorem otfFourier_values (G : Machine) (hs : lower s = σ.name) (ho : σ = .healpix → s = sHP)
    {method : PyStr} (hmt : method ∈ [mNumpy, mJax, mTorch]) (hv : σ.Valid L (nside.getD 0))
    (hhp : σ = .healpix → 2 * nside.getD 0 ≤ L ∧ (method ≠ mNumpy → 2 ≤ nside.getD 0))
    (f : Nd ℂ) (hf : f.shape = σ.shape L (nside.getD 0)) (reality : Bool)
    (hre : reality = true → RealRings σ.inner L (nside.getD 0) (innerRings σ L (nside.getD 0))
      (innerSignal σ L spin f.get2)) :
    ∃ ftm θ, otfFourier G f L spin nside s reality method
        = .ok (ftm, innerName σ s, innerRings σ L (nside.getD 0), θ, 2 * L - 1 + σ.inner.off) ∧
      (∀ t, 0 ≤ t → t < innerRings σ L (nside.getD 0) →
        θ t = G.inner σ L (nside.getD 0) t) ∧
      ∀ t m, 0 ≤ t → t < innerRings σ L (nside.getD 0) → -L < m → m < L →
        (reality = true → 0 ≤ m) → ftm t (m + L - 1 + σ.inner.off)
          = ringSum σ.inner L (nside.getD 0) (innerSignal σ L spin f.get2) t m
            * innerWeight G.toGlTables σ L (nside.getD 0) t := by
  obtain ⟨f', e1, hf', hsh⟩ := precomputeResample_ok hs method (spin := spin) hv f hf
  obtain ⟨θ, e2, hθ⟩ := otfKernelThetas_ok G hs hv
  have hn : σ.inner ≠ .healpix → f'.shape.getLast?.getD 0 = σ.inner.ringLen L (nside.getD 0) 0 := by
    intro h
    rw [hsh (fun h' => h (inner_hp.2 h'))]; rfl
  have hoff := mOffset_innerName hs ho
  obtain ⟨ftm, e3, hF⟩ := forwardFftM_values (nodes := fun _ _ => 0) (lower_innerName hs) hoff hmt
    (inner_valid hv) (fun h => hhp (inner_hp.1 h)) (innerTheta_rings (fun _ _ => 0) hv)
    (ncol := if lower (innerName σ s) = sHP then 2 * L else f'.shape.getLast?.getD 0)
    (fun h => by rw [if_neg (by rw [lower_hp_iff (lower_innerName hs)]; exact h)]; exact hn h)
    f'.get2 reality (by rw [hf']; exact hre)
  have hw : (if lower (innerName σ s) = sHP then 2 * L else f'.shape.getLast?.getD 0)
      = 2 * L - 1 + σ.inner.off := by
    split_ifs with h
    · rw [(lower_hp_iff (lower_innerName hs)).1 h]; simp [Scheme.off]
    · have h' := mt (lower_hp_iff (lower_innerName hs)).2 h
      rw [hn h', inner_width _ _ _ h']
  refine ⟨if lower (innerName σ s) = sHP then otfPhases (fun t k => ftm t k
      * innerWeight G.toGlTables σ L (nside.getD 0) t) L (nside.getD 0) (mOffset (innerName σ s)) true reality
    else fun t k => ftm t k * innerWeight G.toGlTables σ L (nside.getD 0) t, θ, ?_, hθ,
    fun t m t0 t1 m0 m1 hm => ?_⟩
  · unfold otfFourier
    rw [e1, e2]
    simp only [bind, Except.bind, kName, if_true]
    rw [innerWeight_ok G.toGlTables hs, e3, hw]
    simp only []
    rw [if_neg]
    · rfl
    · rintro ⟨h1, h2⟩
      have hi := (lower_hp_iff (lower_innerName hs)).1 h1
      exact h2 (by rw [hoff, hi]; rfl)
  · have h := hF t m t0 t1 m0 m1 hm
    rw [hf'] at h
    split_ifs with hc
    · have hi := (lower_hp_iff (lower_innerName hs)).1 hc
      have hσ := inner_hp.1 hi
      have t1' : t < 4 * nside.getD 0 - 1 := by rwa [innerRings_hp hσ] at t1
      rw [hoff, otfPhases_eq (hv.2 hσ) _ _ _ t0 t1' m0 hm, ← h, hi]
      simp only [if_true, neg_one_mul]
      ring
    · have hi := mt (lower_hp_iff (lower_innerName hs)).2 hc
      rw [← h, phi_equi hi]
      simp [cis_zero]

/-- The sum over the rings when the pole rings are added by hand. -/
theorem analysePoles_eq {P : PmPre} {θ : ℤ → ℝ} {nt off : ℤ} (hsp : |spin| < L) (h0 : 0 ≤ lo)
    (hlo : lo < L - 1 ∨ L = 1) (hl : lo < L) (hnt : 2 ≤ nt) (hP : PmFits P L spin (nt - 2)
      (fun t => θ (t + 1))) (z0 : θ 0 = 0) (z1 : θ (nt - 1) = Real.pi)
    (hr : ∀ t, 0 < t → t < nt - 1 → PmRegular L spin (θ t)) (ftm : ℤ → ℤ → ℂ) (reality : Bool)
    {el m : ℤ} (hel0 : lo ≤ el) (hel : el < L) (hs : |spin| ≤ el) (m0 : -L < m) (m1 : m < L)
    (hm : reality = true → 0 ≤ m) :
    addNorth (addSouth (otfAnalyse P (fun t k => ftm (t + 1) k) (fun t => θ (t + 1)) L spin (nt - 2)
        off (2 * L - 1 + off) reality lo) spin lo (L - 1 + spin) (ftm (nt - 1) (L - 1 + spin + off)))
      lo (L - 1 - spin) (ftm 0 (L - 1 - spin + off)) el (m + L - 1)
      = ∑ t ∈ Finset.Ico 0 nt, (wignerd el m (-spin) (θ t) : ℂ) * ftm t (m + L - 1 + off) := by
  rw [show nt = nt - 2 + 1 + 1 by ring, sum_Ico_bot (by omega),
    show (nt - 2 + 1 + 1 : ℤ) = (nt - 2 + 1) + 1 from rfl, sum_Ico_shift,
    sum_Ico_succ_top' (by omega), show nt - 2 + 1 + 1 - 2 = nt - 2 by ring,
    show nt - 2 + 1 + 1 - 1 = nt - 1 by ring, show nt - 2 + 1 = nt - 1 by ring, z0, z1,
    wignerd_at_zero, wignerd_at_pi]
  have key := otfAnalyse_eq hP hlo h0 hl (fun t k => ftm (t + 1) k) reality (off := off)
    (fun t t0 t1 => hr _ (by omega) (by omega)) hel0 hel hs m0 m1 hm
  rw [← key]
  unfold addNorth addSouth
  have c1 : (lo ≤ el ∧ m + L - 1 = L - 1 - spin) ↔ (|m| ≤ el ∧ m = -spin) := by
    constructor
    · rintro ⟨_, h⟩
      have : m = -spin := by omega
      exact ⟨by rw [this, abs_neg]; exact hs, this⟩
    · rintro ⟨_, h⟩; exact ⟨hel0, by omega⟩
  have c2 : (lo ≤ el ∧ m + L - 1 = L - 1 + spin) ↔ (|m| ≤ el ∧ m = - -spin) := by
    constructor
    · rintro ⟨_, h⟩
      have : m = spin := by omega
      exact ⟨by rw [this]; exact hs, by omega⟩
    · rintro ⟨_, h⟩; exact ⟨hel0, by omega⟩
  simp only [c1, c2, negOne_absC]
  by_cases a : |m| ≤ el ∧ m = -spin <;> by_cases b : |m| ≤ el ∧ m = - -spin
  · rw [if_pos a, if_pos b, if_pos a, if_pos b, show L - 1 - spin + off = m + L - 1 + off by omega,
      show L - 1 + spin + off = m + L - 1 + off by omega, sub_eq_add_neg]
    push_cast; ring
  · rw [if_pos a, if_neg b, if_pos a, if_neg b, show L - 1 - spin + off = m + L - 1 + off by omega]
    push_cast; ring
  · rw [if_neg a, if_pos b, if_neg a, if_pos b, show L - 1 + spin + off = m + L - 1 + off by omega,
      sub_eq_add_neg]
    push_cast; ring
  · rw [if_neg a, if_neg b, if_neg a, if_neg b]
    push_cast; ring

/-- Normalisation, symmetry and sign. -/
theorem otfFinish_eq {flm A : ℤ → ℤ → ℂ} {nt : ℤ} {θ w : ℤ → ℝ} {reality : Bool} {el m : ℤ}
    (hel : lo ≤ el) (h : ∀ m, -L < m → m < L → (reality = true → 0 ≤ m) → flm el (m + L - 1)
      = ∑ t ∈ Finset.Ico 0 nt, (wignerd el m (-spin) (θ t) : ℂ) * (A t m * w t))
    (m0 : -L < m) (m1 : m < L) :
    (if reality = true then otfMirror (otfNormalise flm lo) L else otfNormalise flm lo) el
      (m + L - 1) * (-1) ^ spin = symm reality (fAt A spin nt θ w el) m := by
  have plain : ∀ m, -L < m → m < L → (reality = true → 0 ≤ m) →
      otfNormalise flm lo el (m + L - 1) * (-1) ^ spin = fAt A spin nt θ w el m := by
    intro m m0 m1 hm
    unfold otfNormalise
    rw [if_pos hel, h m m0 m1 hm, Finset.sum_mul, Finset.sum_mul]
    unfold fAt
    apply Finset.sum_congr rfl
    intro t _
    ring
  by_cases hneg : reality = true ∧ m < 0
  · rw [if_pos hneg.1]
    unfold otfMirror symm
    rw [if_pos (by omega), if_pos hneg, ← plain (-m) (by omega) (by omega) (fun _ => by omega),
      show L - 1 + 1 + (L - 2 - (m + L - 1)) = -m + L - 1 by ring,
      show L - 2 - (m + L - 1) + 1 = -m by ring, map_mul]
    have e2 : ((-1 : ℂ)) ^ m = (-1) ^ (-m) := by rw [zpow_neg, ← inv_zpow]; norm_num
    have e3 : (starRingEnd ℂ) ((-1 : ℂ) ^ spin) = (-1) ^ spin := by
      rw [map_zpow₀, map_neg, map_one]
    rw [e2, e3]
    rcases Int.emod_two_eq_zero_or_one (-m) with h | h
    · rw [h, (Int.even_iff.2 h).neg_one_zpow]; simp
    · rw [h, (Int.odd_iff.2 h).neg_one_zpow]; simp
  · have hnn : reality = true → 0 ≤ m := fun h => by
      by_contra h'; exact hneg ⟨h, by omega⟩
    have e : symm reality (fAt A spin nt θ w el) m = fAt A spin nt θ w el m := if_neg hneg
    rw [e, ← plain m m0 m1 hnn]
    split_ifs with hr
    · unfold otfMirror
      rw [if_neg (by have := hnn hr; omega)]
    · rfl

/-- The angles of the rings handled by the recursion. -/
def otfBeta (σ : Scheme) (θ : ℤ → ℝ) : ℤ → ℝ := if σ.inner = .mwss then fun t => θ (t + 1) else θ
def otfRingCount (σ : Scheme) (L nside : ℤ) : ℤ :=
  if σ.inner = .mwss then innerRings σ L nside - 2 else innerRings σ L nside

theorem inner_not_mw (σ : Scheme) : σ.inner ≠ .mw := by cases σ <;> decide

theorem innerTheta_poles (nodes : ℤ → ℤ → ℝ) {ns : ℤ} (hL : 1 ≤ L) (h : σ.inner = .mwss) :
    2 ≤ innerRings σ L ns ∧ innerTheta nodes σ L ns 0 = 0 ∧
      innerTheta nodes σ L ns (innerRings σ L ns - 1) = Real.pi := by
  have hR : σ.Resampled := by revert h; cases σ <;> decide
  have hLr : (L : ℝ) ≠ 0 := by exact_mod_cast (by omega : L ≠ 0)
  unfold innerRings innerTheta
  rw [if_pos hR, if_pos hR, if_pos hR]
  refine ⟨by omega, by simp, ?_⟩
  push_cast
  field_simp; ring

theorem machine_poles {G : Machine} {ns : ℤ} (hL : 1 ≤ L) (hp : σ.inner = .mwss → G.Poles)
    (h : σ.inner = .mwss) :
    2 ≤ innerRings σ L ns ∧ G.inner σ L ns 0 = 0 ∧
      G.inner σ L ns (innerRings σ L ns - 1) = Real.pi := by
  obtain ⟨a, b, c⟩ := innerTheta_poles G.nodes (ns := ns) hL h
  unfold Machine.inner
  rw [b, c]
  exact ⟨a, (hp h).1, (hp h).2⟩

theorem otfBeta_inner (G : Machine) (σ : Scheme) (L ns : ℤ) :
    otfBeta σ.inner (G.inner σ.inner L ns) = otfBeta σ (G.inner σ L ns) := by
  have : innerTheta G.nodes σ.inner L ns = innerTheta G.nodes σ L ns := by
    funext t
    cases σ <;> simp [innerTheta, Scheme.inner, Scheme.Resampled]
  have : G.inner σ.inner L ns = G.inner σ L ns := by
    funext t; unfold Machine.inner; rw [this]
  rw [this]
  unfold otfBeta
  cases σ <;> simp [Scheme.inner]

theorem otfRingCount_inner (σ : Scheme) (L ns : ℤ) :
    otfRingCount σ.inner L ns = otfRingCount σ L ns := by
  cases σ <;> simp [otfRingCount, Scheme.inner, innerRings, Scheme.Resampled]

/-- The angles of the coefficients of the forward transforms. -/
theorem pmAngles_forward (G : Machine) (hs : lower s = σ.name) (hv : σ.Valid L (nside.getD 0)) :
    ∃ β, pmAngles G L s nside true = .ok β ∧
      ∀ t, 0 ≤ t → t < otfRingCount σ L (nside.getD 0) →
        β t = otfBeta σ (G.inner σ L (nside.getD 0)) t := by
  obtain ⟨θ, e, hθ⟩ := otfKernelThetas_ok G hs hv
  unfold pmAngles
  rw [e]
  have hi : (lower s = sMW ∨ lower s = sMWSS) ↔ σ.inner = .mwss := by
    rw [hs]; cases σ <;> decide
  simp only [bind, Except.bind, pure, Except.pure, true_and, hi]
  refine ⟨_, rfl, fun t t0 t1 => ?_⟩
  unfold otfRingCount at t1
  unfold otfBeta
  split_ifs with h
  · rw [if_pos h] at t1; exact hθ _ (by omega) (by omega)
  · rw [if_neg h] at t1; exact hθ _ t0 t1

/-- The angles of the coefficients of the inverse transforms. -/
theorem pmAngles_inverse (G : Machine) (hs : lower s = σ.name) (hv : σ.Valid L (nside.getD 0)) :
    ∃ β, pmAngles G L s nside false = .ok β ∧
      ∀ t, 0 ≤ t → t < σ.rings L (nside.getD 0) → β t = G.theta σ L (nside.getD 0) t := by
  obtain ⟨θ, e, hθ⟩ := kernelThetas_ok G.toGlTables hs hv false
  unfold pmAngles otfKernelThetas
  rw [e]
  exact ⟨fun t => G.rnd (θ t), rfl, fun t t0 t1 => by beta_reduce; rw [hθ t t0 t1]; rfl⟩

/-- The latitudinal step of the NumPy forward transform. -/
theorem forwardPolesNumpy_eq (G : Machine) (hs : lower s = σ.name) (ho : σ = .healpix → s = sHP)
    (hv : σ.Valid L (nside.getD 0)) (hL : 2 ≤ L) (hsp : |spin| < L) (h0 : 0 ≤ lo) (hlo : lo < L - 1)
    (ftm : ℤ → ℤ → ℂ) {θ : ℤ → ℝ}
    (hθ : ∀ t, 0 ≤ t → t < innerRings σ L (nside.getD 0) →
      θ t = G.inner σ L (nside.getD 0) t) (reality : Bool) {precomps : Option PmPre}
    (hP : ∀ P, precomps = some P → PmFits P L spin (otfRingCount σ L (nside.getD 0))
      (otfBeta σ (G.inner σ L (nside.getD 0))))
    (hp : σ.inner = .mwss → G.Poles)
    (hr : ∀ t, 0 ≤ t → t < otfRingCount σ L (nside.getD 0) →
      PmRegular L spin (otfBeta σ (G.inner σ L (nside.getD 0)) t)) :
    ∃ flm, forwardPolesNumpy G ftm θ (innerRings σ L (nside.getD 0)) L spin
        (2 * L - 1 + σ.inner.off) nside (innerName σ s) reality precomps lo = .ok flm ∧
      ∀ el m, lo ≤ el → el < L → |spin| ≤ el → -L < m → m < L → (reality = true → 0 ≤ m) →
        flm el (m + L - 1) = ∑ t ∈ Finset.Ico 0 (innerRings σ L (nside.getD 0)),
          (wignerd el m (-spin) (G.inner σ L (nside.getD 0) t) : ℂ)
            * ftm t (m + L - 1 + σ.inner.off) := by
  have hsp' := abs_lt.1 hsp
  have hoff := mOffset_innerName hs ho
  have hb := off_nonneg σ.inner
  have hfits : ∀ P, PmFits P L spin (otfRingCount σ L (nside.getD 0))
      (otfBeta σ (G.inner σ L (nside.getD 0))) →
      PmFits P L spin (otfRingCount σ L (nside.getD 0)) (otfBeta σ θ) := by
    rintro P ⟨a, b⟩
    refine ⟨a, fun i t el t0 t1 h1 h2 h3 => ?_⟩
    have : otfBeta σ θ t = otfBeta σ (G.inner σ L (nside.getD 0)) t := by
      unfold otfRingCount at t1
      unfold otfBeta
      split_ifs with h
      · rw [if_pos h] at t1; exact hθ _ (by omega) (by omega)
      · rw [if_neg h] at t1; exact hθ _ t0 t1
    rw [this] at h3 ⊢
    exact b i t el t0 t1 h1 h2 h3
  obtain ⟨P, eP, hP'⟩ : ∃ P, otfPrecomps G precomps L spin (innerName σ s) nside true = .ok P ∧
      PmFits P L spin (otfRingCount σ L (nside.getD 0)) (otfBeta σ θ) := by
    unfold otfPrecomps
    cases precomps with
    | none =>
      obtain ⟨β, e, hβ⟩ := pmAngles_forward G (lower_innerName hs) (inner_valid hv)
      rw [otfBeta_inner, otfRingCount_inner] at hβ
      refine ⟨generatePrecomputes L spin β, ?_, hfits _ ((pmFits_numpy _ _ _ _).congr hβ)⟩
      unfold precomputesNumpy
      rw [e]
      simp only [bind, Except.bind, pure, Except.pure, if_neg (show ¬ L < |spin| by omega)]
    | some P => exact ⟨P, rfl, hfits P (hP P rfl)⟩
  have hsum : ∀ el m, ∑ t ∈ Finset.Ico 0 (innerRings σ L (nside.getD 0)),
      (wignerd el m (-spin) (G.inner σ L (nside.getD 0) t) : ℂ)
            * ftm t (m + L - 1 + σ.inner.off)
      = ∑ t ∈ Finset.Ico 0 (innerRings σ L (nside.getD 0)),
        (wignerd el m (-spin) (θ t) : ℂ) * ftm t (m + L - 1 + σ.inner.off) := by
    intro el m
    apply Finset.sum_congr rfl
    intro t ht
    rw [Finset.mem_Ico] at ht
    rw [hθ t ht.1 ht.2]
  simp only [hsum]
  unfold forwardPolesNumpy
  simp only [lower_mwss_iff (lower_innerName hs)]
  rw [hoff]
  simp only [otfBeta, otfRingCount] at hP' eP hr
  by_cases h : σ.inner = .mwss
  · simp only [if_pos h] at hP' eP hr ⊢
    obtain ⟨z2, z0, z1⟩ := machine_poles (G := G) (ns := nside.getD 0) hv.1 hp h
    refine ⟨_, ?_, fun el m a b c d e f => analysePoles_eq hsp h0 (Or.inl hlo) (by omega) z2 hP'
      (by rw [hθ 0 le_rfl (by omega), z0]) (by rw [hθ _ (by omega) (by omega), z1])
      (fun t t0 t1 => ?_) ftm reality a b c d e f⟩
    · unfold forwardLatitudinalStep
      rw [eP]
      simp only [bind, Except.bind, if_neg (show ¬ L = 1 by omega), pure, Except.pure]
      rw [pyIndex_ok (i := L - 1 + spin + σ.inner.off) (by omega) (by omega),
        pyIndex_ok (i := L - 1 + spin) (by omega) (by omega),
        pyIndex_ok (i := L - 1 - spin + σ.inner.off) (by omega) (by omega),
        pyIndex_ok (i := L - 1 - spin) (by omega) (by omega), hoff]
    · have := hr (t - 1) (by omega) (by omega)
      rw [show t - 1 + 1 = t by ring] at this
      rwa [hθ t (by omega) (by omega)]
  · simp only [if_neg h] at hP' eP hr ⊢
    refine ⟨_, ?_, fun el m a b c d e f => otfAnalyse_eq hP' (Or.inl hlo) h0 (by omega) ftm reality
      (fun t t0 t1 => by rw [hθ t t0 t1]; exact hr t t0 t1) a b c d e f⟩
    unfold forwardLatitudinalStep
    rw [eP]
    simp only [bind, Except.bind, if_neg (show ¬ L = 1 by omega), pure, Except.pure]
    rw [hoff]

/-- The latitudinal step of the JAX forward transform. -/
theorem forwardStepJax_eq (G : Machine) (hs : lower s = σ.name) (ho : σ = .healpix → s = sHP)
    (hv : σ.Valid L (nside.getD 0)) (hsp : |spin| < L) (h0 : 0 ≤ lo) (hlo : lo < L - 1 ∨ L = 1)
    (hl : lo < L) (ftm : ℤ → ℤ → ℂ) {θ : ℤ → ℝ}
    (hθ : ∀ t, 0 ≤ t → t < innerRings σ L (nside.getD 0) →
      θ t = G.inner σ L (nside.getD 0) t) (reality : Bool) {precomps : Option PmPre}
    (hP : ∀ P, precomps = some P → PmFits P L spin (otfRingCount σ L (nside.getD 0))
      (otfBeta σ (G.inner σ L (nside.getD 0))))
    (hp : σ.inner = .mwss → G.Poles)
    (hr : ∀ t, 0 ≤ t → t < otfRingCount σ L (nside.getD 0) →
      PmRegular L spin (otfBeta σ (G.inner σ L (nside.getD 0)) t)) :
    (∀ el m, lo ≤ el → el < L → |spin| ≤ el → -L < m → m < L → (reality = true → 0 ≤ m) →
      forwardLatitudinalStepJax ftm θ (innerRings σ L (nside.getD 0)) L spin
        (2 * L - 1 + σ.inner.off) (innerName σ s) reality precomps lo el (m + L - 1)
      = ∑ t ∈ Finset.Ico 0 (innerRings σ L (nside.getD 0)),
          (wignerd el m (-spin) (G.inner σ L (nside.getD 0) t) : ℂ)
            * ftm t (m + L - 1 + σ.inner.off)) ∧
    ∀ el k, 0 ≤ el → el < lo →
      forwardLatitudinalStepJax ftm θ (innerRings σ L (nside.getD 0)) L spin
        (2 * L - 1 + σ.inner.off) (innerName σ s) reality precomps lo el k = 0 := by
  have hsp' := abs_lt.1 hsp
  have hoff := mOffset_innerName hs ho
  have hb := off_nonneg σ.inner
  obtain ⟨P, eP, hP'⟩ : ∃ P, precomps.getD (generatePrecomputesJax L spin (otfBeta σ θ)) = P ∧
      PmFits P L spin (otfRingCount σ L (nside.getD 0)) (otfBeta σ θ) := by
    cases precomps with
    | none => exact ⟨_, rfl, pmFits_jax _ _ _ _⟩
    | some P => refine ⟨P, rfl, (hP P rfl).1, fun i t el t0 t1 h1 h2 h3 => ?_⟩
                have : otfBeta σ θ t = otfBeta σ (G.inner σ L (nside.getD 0)) t := by
                  unfold otfRingCount at t1
                  unfold otfBeta
                  split_ifs with h
                  · rw [if_pos h] at t1; exact hθ _ (by omega) (by omega)
                  · rw [if_neg h] at t1; exact hθ _ t0 t1
                rw [this] at h3 ⊢
                exact (hP P rfl).2 i t el t0 t1 h1 h2 h3
  have hsum : ∀ el m, ∑ t ∈ Finset.Ico 0 (innerRings σ L (nside.getD 0)),
      (wignerd el m (-spin) (G.inner σ L (nside.getD 0) t) : ℂ)
            * ftm t (m + L - 1 + σ.inner.off)
      = ∑ t ∈ Finset.Ico 0 (innerRings σ L (nside.getD 0)),
        (wignerd el m (-spin) (θ t) : ℂ) * ftm t (m + L - 1 + σ.inner.off) := by
    intro el m
    apply Finset.sum_congr rfl
    intro t ht
    rw [Finset.mem_Ico] at ht
    rw [hθ t ht.1 ht.2]
  simp only [hsum]
  unfold forwardLatitudinalStepJax
  have e1 : jaxSet (2 * L - 1) (L - 1 + spin) = L - 1 + spin := if_neg (by omega)
  have e2 : jaxSet (2 * L - 1) (L - 1 - spin) = L - 1 - spin := if_neg (by omega)
  have e3 : jaxGet (2 * L - 1 + σ.inner.off) (L - 1 + spin + σ.inner.off)
      = L - 1 + spin + σ.inner.off := jaxGet_ok (by omega) (by omega)
  have e4 : jaxGet (2 * L - 1 + σ.inner.off) (L - 1 - spin + σ.inner.off)
      = L - 1 - spin + σ.inner.off := jaxGet_ok (by omega) (by omega)
  simp only [lower_mwss_iff (lower_innerName hs), lower_mw_iff (lower_innerName hs),
    mOffset_scheme (lower_innerName hs), hoff, inner_not_mw, false_or, if_false, e1, e2, e3, e4]
  simp only [otfBeta, otfRingCount] at hP' eP hr
  by_cases h : σ.inner = .mwss
  · simp only [if_pos h] at hP' eP hr ⊢
    rw [eP]
    obtain ⟨z2, z0, z1⟩ := machine_poles (G := G) (ns := nside.getD 0) hv.1 hp h
    refine ⟨fun el m a b c d e f => analysePoles_eq hsp h0 hlo hl z2 hP'
      (by rw [hθ 0 le_rfl (by omega), z0]) (by rw [hθ _ (by omega) (by omega), z1])
      (fun t t0 t1 => ?_) ftm reality a b c d e f, fun el k a b => ?_⟩
    · have := hr (t - 1) (by omega) (by omega)
      rw [show t - 1 + 1 = t by ring] at this
      rwa [hθ t (by omega) (by omega)]
    · unfold addNorth addSouth
      rw [if_neg (by omega), if_neg (by omega)]
      exact otfAnalyse_below hlo h0 hl _ _ a b
  · simp only [if_neg h, add_zero] at hP' eP hr ⊢
    rw [eP]
    exact ⟨fun el m a b c d e f => otfAnalyse_eq hP' hlo h0 hl ftm reality
      (fun t t0 t1 => by rw [hθ t t0 t1]; exact hr t t0 t1) a b c d e f,
      fun el k a b => otfAnalyse_below hlo h0 hl _ _ a b⟩

theorem otfForwardNumpy_values (G : Machine) (hs : lower s = σ.name) (ho : σ = .healpix → s = sHP)
    (hv : σ.Valid L (nside.getD 0)) (hhp : σ = .healpix → 2 * nside.getD 0 ≤ L) (hL : 2 ≤ L)
    (hsp : |spin| < L) (h0 : 0 ≤ lo) (hlo : lo < L - 1)
    (f : Nd ℂ) (hf : f.shape = σ.shape L (nside.getD 0)) (reality : Bool)
    (hre : reality = true → RealRings σ.inner L (nside.getD 0) (innerRings σ L (nside.getD 0))
      (innerSignal σ L spin f.get2)) {precomps : Option PmPre}
    (hP : ∀ P, precomps = some P → PmFits P L spin (otfRingCount σ L (nside.getD 0))
      (otfBeta σ (G.inner σ L (nside.getD 0))))
    (hp : σ.inner = .mwss → G.Poles)
    (hr : ∀ t, 0 ≤ t → t < otfRingCount σ L (nside.getD 0) →
      PmRegular L spin (otfBeta σ (G.inner σ L (nside.getD 0)) t)) :
    ∃ flm, otfForwardNumpy G f L spin nside s reality precomps lo = .ok (.d2 L (2 * L - 1) flm) ∧
      ∀ el m, 0 ≤ el → el < L → -L < m → m < L → flm el (m + L - 1)
        = if el < max |spin| lo then 0 else symm reality (fAt (ringSum σ.inner L (nside.getD 0)
            (innerSignal σ L spin f.get2)) spin (innerRings σ L (nside.getD 0))
            (G.inner σ L (nside.getD 0)) (innerWeight G.toGlTables σ L (nside.getD 0)) el) m := by
  obtain ⟨ftm, θ, e1, hθ, hA⟩ := otfFourier_values G hs ho (method := mNumpy) (by simp) hv
    (fun h => ⟨hhp h, fun h' => absurd rfl h'⟩) f hf reality hre
  obtain ⟨flm, e2, hflm⟩ := forwardPolesNumpy_eq G hs ho hv hL hsp h0 hlo ftm hθ reality hP hp hr
  refine ⟨fun l k => (if l < max |spin| lo then 0 else (if reality = true then
    otfMirror (otfNormalise flm lo) L else otfNormalise flm lo) l k) * (-1) ^ spin, ?_, fun el m a b c d => ?_⟩
  · unfold otfForwardNumpy
    rw [requireLower_ok h0, e1]
    simp only [bind, Except.bind]
    rw [e2]
    rfl
  · beta_reduce
    by_cases h : el < max |spin| lo
    · rw [if_pos h, if_pos h, zero_mul]
    · rw [if_neg h, if_neg h]
      have h' := max_le_iff.1 (not_lt.1 h)
      refine otfFinish_eq h'.2 (fun m m0 m1 hm => ?_) c d
      rw [hflm el m h'.2 b h'.1 m0 m1 hm]
      apply Finset.sum_congr rfl
      intro t ht
      rw [Finset.mem_Ico] at ht
      rw [hA t m ht.1 ht.2 m0 m1 hm]

theorem otfForwardJax_values (G : Machine) (hs : lower s = σ.name) (ho : σ = .healpix → s = sHP)
    (hv : σ.Valid L (nside.getD 0)) (hhp : σ = .healpix → 2 * nside.getD 0 ≤ L ∧ 2 ≤ nside.getD 0)
    (hsp : |spin| < L) (h0 : 0 ≤ lo) (hlo : lo < L - 1 ∨ L = 1) (hl : lo < L)
    (f : Nd ℂ) (hf : f.shape = σ.shape L (nside.getD 0)) (reality : Bool)
    (hre : reality = true → RealRings σ.inner L (nside.getD 0) (innerRings σ L (nside.getD 0))
      (innerSignal σ L spin f.get2)) {precomps : Option PmPre}
    (hP : ∀ P, precomps = some P → PmFits P L spin (otfRingCount σ L (nside.getD 0))
      (otfBeta σ (G.inner σ L (nside.getD 0))))
    (hp : σ.inner = .mwss → G.Poles)
    (hr : ∀ t, 0 ≤ t → t < otfRingCount σ L (nside.getD 0) →
      PmRegular L spin (otfBeta σ (G.inner σ L (nside.getD 0)) t)) :
    ∃ flm, otfForwardJax G f L spin nside s reality precomps lo = .ok (.d2 L (2 * L - 1) flm) ∧
      ∀ el m, 0 ≤ el → el < L → -L < m → m < L → flm el (m + L - 1)
        = if el < max |spin| lo then 0 else symm reality (fAt (ringSum σ.inner L (nside.getD 0)
            (innerSignal σ L spin f.get2)) spin (innerRings σ L (nside.getD 0))
            (G.inner σ L (nside.getD 0)) (innerWeight G.toGlTables σ L (nside.getD 0)) el) m := by
  obtain ⟨ftm, θ, e1, hθ, hA⟩ := otfFourier_values G hs ho (method := mJax) (by simp) hv
    (fun h => ⟨(hhp h).1, fun _ => (hhp h).2⟩) f hf reality hre
  obtain ⟨hflm, hz⟩ := forwardStepJax_eq G hs ho hv hsp h0 hlo hl ftm hθ reality hP hp hr
  refine ⟨fun l k => (if l < |spin| then 0 else (if reality = true then otfMirror (otfNormalise
      (forwardLatitudinalStepJax ftm θ (innerRings σ L (nside.getD 0)) L spin
        (2 * L - 1 + σ.inner.off) (innerName σ s) reality precomps lo) lo) L
    else otfNormalise (forwardLatitudinalStepJax ftm θ (innerRings σ L (nside.getD 0)) L spin
      (2 * L - 1 + σ.inner.off) (innerName σ s) reality precomps lo) lo) l k) * (-1) ^ |spin|, ?_, fun el m a b c d => ?_⟩
  · unfold otfForwardJax
    rw [requireLower_ok h0, e1]
    rfl
  · beta_reduce
    rw [negOne_absC]
    by_cases h : el < max |spin| lo
    · rw [if_pos h]
      by_cases h1 : el < |spin|
      · rw [if_pos h1, zero_mul]
      · rw [if_neg h1]
        have h2 : el < lo := by
          rcases lt_max_iff.1 h with h | h
          · exact absurd h h1
          · exact h
        have hn : ∀ k, otfNormalise (forwardLatitudinalStepJax ftm θ (innerRings σ L (nside.getD 0))
            L spin (2 * L - 1 + σ.inner.off) (innerName σ s) reality precomps lo) lo el k = 0 := by
          intro k
          unfold otfNormalise
          rw [if_neg (by omega), hz el k a h2]
        split_ifs
        · unfold otfMirror
          split_ifs
          · rw [hn]; simp
          · rw [hn, zero_mul]
        · rw [hn, zero_mul]
    · rw [if_neg h]
      have h' := max_le_iff.1 (not_lt.1 h)
      rw [if_neg (by omega)]
      refine otfFinish_eq h'.2 (fun m m0 m1 hm => ?_) c d
      rw [hflm el m h'.2 b h'.1 m0 m1 hm]
      apply Finset.sum_congr rfl
      intro t ht
      rw [Finset.mem_Ico] at ht
      rw [hA t m ht.1 ht.2 m0 m1 hm]

end

end S2fft
