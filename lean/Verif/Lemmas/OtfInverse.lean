import Verif.Lemmas.OtfRings

/-! # Values of the on-the-fly inverse transforms -/

namespace S2fft
open Spec

theorem otfPhases_eq {L nside off : ℤ} (hn : 1 ≤ nside) (ftm : ℤ → ℤ → ℂ) (forward reality : Bool)
    {t m : ℤ} (t0 : 0 ≤ t) (t1 : t < 4 * nside - 1) (m0 : -L < m) (hm : reality = true → 0 ≤ m) :
    otfPhases ftm L nside off forward reality t (m + L - 1 + off)
      = ftm t (m + L - 1 + off) * cis ((if forward then -1 else 1)
          * (m * Scheme.healpix.phi L nside t 0)) := by
  unfold otfPhases
  have hle : mStart L reality + off ≤ m + L - 1 + off := by
    cases reality with
    | true => have := hm rfl; rw [mStart_true]; omega
    | false => rw [mStart_false]; omega
  rw [if_pos hle]
  congr 1
  unfold ring_phase_shifts_hp
  simp only
  rw [p2phi_rings_eq hn t0 t1, p2phi_scheme (L := L) hn t0 t1]
  congr 1
  have : ((if reality = true then 0 else -L + 1) + (m + L - 1 + off - (mStart L reality + off)))
      = m := by
    cases reality with
    | true => rw [mStart_true]; simp
    | false => rw [mStart_false]; simp
  rw [this]; ring

/-- The Fourier coefficients from the ring values, as `inverse_numpy` and `inverse_jax` make them. -/
noncomputable def otfChain (σ : Scheme) (ftm : ℤ → ℤ → ℂ) (L nside spin : ℤ)
    (reality complete : Bool) : ℤ → ℤ → ℂ :=
  let ftm := if σ = .healpix then otfPhases ftm L nside σ.off false reality else ftm
  let ftm : ℤ → ℤ → ℂ := fun t k => ftm t k * (-1) ^ spin
  if complete then otfComplete ftm L σ.off else ftm

theorem otfChain_eq {σ : Scheme} {ftm : ℤ → ℤ → ℂ} {g : ℤ → ℂ} {L nside spin : ℤ}
    (hv : σ.Valid L nside) {reality complete : Bool} (hc : complete = true → reality = true) {t : ℤ}
    (t0 : 0 ≤ t) (t1 : t < σ.rings L nside)
    (hg : ∀ m, -L < m → m < L → (reality = true → 0 ≤ m) →
      ftm t (m + L - 1 + σ.off) * (-1) ^ spin = g m) {m : ℤ} (m0 : -L < m) (m1 : m < L)
    (hm : reality = true → complete = false → 0 ≤ m) :
    otfChain σ ftm L nside spin reality complete t (m + L - 1 + σ.off)
      = gEff reality g m * cis (m * σ.phi L nside t 0) := by
  have plain : ∀ m, -L < m → m < L → (reality = true → 0 ≤ m) →
      (if σ = .healpix then otfPhases ftm L nside σ.off false reality else ftm) t
        (m + L - 1 + σ.off) * (-1) ^ spin = g m * cis (m * σ.phi L nside t 0) := by
    intro m m0 m1 hm
    rw [← hg m m0 m1 hm]
    split_ifs with h
    · subst h
      rw [otfPhases_eq (hv.2 rfl) _ _ _ t0 t1 m0 hm]
      simp only [Bool.false_eq_true, if_false, one_mul]
      ring
    · rw [phi_equi h]; simp [cis_zero]
  unfold otfChain
  by_cases hneg : reality = true ∧ m < 0
  · have hcc : complete = true := by
      by_contra h
      have := hm hneg.1 (by simpa using h)
      omega
    rw [if_pos hcc, hneg.1, gEff_neg hneg.2]
    unfold otfComplete
    rw [if_pos (by omega), show L - 1 + σ.off + 1 + (L - 2 - (m + L - 1 + σ.off - σ.off))
      = -m + L - 1 + σ.off by ring]
    have := plain (-m) (by omega) (by omega) (fun _ => by omega)
    rw [hneg.1] at this
    beta_reduce
    rw [this, map_mul, conj_cis]
    congr 2
    push_cast; ring
  · have hnn : reality = true → 0 ≤ m := fun h => by
      by_contra h'; exact hneg ⟨h, by omega⟩
    have e : gEff reality g m = g m := by unfold gEff; rw [if_neg hneg]
    rw [e, ← plain m m0 m1 hnn]
    generalize (if σ = .healpix then otfPhases ftm L nside σ.off false reality else ftm) = F
    split_ifs with h
    · unfold otfComplete
      rw [if_neg (by have := hnn (hc h); omega)]
    · rfl

theorem otfChain_nyquist {σ : Scheme} (ho : σ.off = 1) {ftm : ℤ → ℤ → ℂ} {L nside spin t : ℤ}
    (hL : 1 ≤ L) {reality complete : Bool} (h : ftm t 0 = 0) :
    otfChain σ ftm L nside spin reality complete t 0 = 0 := by
  have e : (if σ = .healpix then otfPhases ftm L nside σ.off false reality else ftm) t 0 = 0 := by
    split_ifs
    · unfold otfPhases
      have : 0 ≤ mStart L reality := by unfold mStart; split_ifs <;> omega
      rw [if_neg (by omega), h]
    · exact h
  unfold otfChain
  revert e
  generalize (if σ = .healpix then otfPhases ftm L nside σ.off false reality else ftm) = F
  intro e
  split_ifs
  · unfold otfComplete
    rw [if_neg (by omega)]
    beta_reduce; rw [e, zero_mul]
  · beta_reduce; rw [e, zero_mul]

theorem poleRings_nyquist {σ : Scheme} (ho : σ.off = 1) {ftm flm : ℤ → ℤ → ℂ}
    {L spin lo nt t : ℤ} (hsp : |spin| < L) (h : ftm t 0 = 0) :
    poleRings σ ftm flm L spin lo nt t 0 = 0 := by
  rw [abs_lt] at hsp
  unfold poleRings
  have e : (if σ = .mw ∨ σ = .mwss then southPole ftm flm L spin lo nt (L - 1 + spin)
      (L - 1 + spin + σ.off) else ftm) t 0 = 0 := by
    split_ifs
    · unfold southPole
      split_ifs
      · omega
      · rfl
      · exact h
    · exact h
  revert e
  generalize (if σ = .mw ∨ σ = .mwss then southPole ftm flm L spin lo nt (L - 1 + spin)
      (L - 1 + spin + σ.off) else ftm) = F
  intro e
  split_ifs
  · unfold northPole
    split_ifs
    · omega
    · rfl
    · exact e
  · exact e

section
variable {σ : Scheme} {s : PyStr} {L spin lo : ℤ} {nside : Option ℤ}

/-- The ring values of both inverse transforms. -/
theorem otfRings_eq {θ : ℤ → ℝ} (hv : σ.Valid L (nside.getD 0)) (hsp : |spin| < L)
    (h0 : 0 ≤ lo) (hlo : lo < L - 1 ∨ L = 1) (hl : lo < L) (flm : ℤ → ℤ → ℂ) (reality : Bool)
    (hf : ∀ el k, lo ≤ el → el < L → el < |spin| → 0 ≤ k → k < 2 * L - 1 → flm el k = 0) {P : PmPre}
    (hP : PmFits P L spin (σ.rings L (nside.getD 0)) θ) {t m : ℤ} (t0 : 0 ≤ t)
    (t1 : t < σ.rings L (nside.getD 0))
    (hr : RingOk σ L spin (σ.rings L (nside.getD 0)) θ t) (m0 : -L < m) (m1 : m < L)
    (hm : reality = true → 0 ≤ m) :
    poleRings σ (otfSynth P (otfNormalise flm lo) θ L spin σ.off (2 * L - 1 + σ.off) reality lo)
      (otfNormalise flm lo) L spin lo (σ.rings L (nside.getD 0)) t (m + L - 1 + σ.off)
      * (-1) ^ spin = gAt flm L spin lo (θ t) m := by
  have hf' : ∀ el k, lo ≤ el → el < L → el < |spin| → 0 ≤ k → k < 2 * L - 1 → otfNormalise flm lo el k = 0 := by
    intro el k a b c d e
    unfold otfNormalise
    rw [if_pos a, hf el k a b c d e, zero_mul]
  rw [← normalised_gAt h0, poleRings_eq (reality := reality) hsp h0 (by
      rintro rfl; have := hv.1; simp only [Scheme.rings]; omega) hf' hr
    (fun hreg => otfSynth_eq hP hlo h0 hl _ hf' reality t0 t1 hreg m0 m1 hm)]

/-- The stored angles of a grid. -/
noncomputable def Machine.theta (G : Machine) (σ : Scheme) (L nside t : ℤ) : ℝ :=
  G.rnd (σ.theta G.nodes L nside t)

/-- The stored angles of the rings of a forward transform. -/
noncomputable def Machine.inner (G : Machine) (σ : Scheme) (L nside t : ℤ) : ℝ :=
  G.rnd (innerTheta G.nodes σ L nside t)

theorem otfThetas_scheme (G : Machine) (hs : lower s = σ.name) (hv : σ.Valid L (nside.getD 0)) :
    ∃ θ, otfThetas G L s nside = .ok (σ.rings L (nside.getD 0), θ) ∧
      ∀ t, 0 ≤ t → t < σ.rings L (nside.getD 0) → θ t = G.theta σ L (nside.getD 0) t := by
  obtain ⟨θ, e1, hθ⟩ := thetas_scheme G.nodes hs hv
  unfold otfThetas
  rw [e1]
  exact ⟨_, rfl, fun t t0 t1 => by rw [hθ t t0 t1]; rfl⟩

/-- The values of `inverse_numpy`, from those of the latitudinal step. -/
theorem otfInverseNumpy_of (G : Machine) (hs : lower s = σ.name) (ho : mOffset s = σ.off)
    (hv : σ.Valid L (nside.getD 0)) (hhp : σ = .healpix → 2 * nside.getD 0 ≤ L) (hL : 2 ≤ L)
    (hsp : |spin| < L) (h0 : 0 ≤ lo) (flm : ℤ → ℤ → ℂ) (reality : Bool)
    {g : ℤ → ℤ → ℂ} (hre : reality = true → ∀ t, (g t 0).im = 0) {precomps : Option PmPre}
    (hP : ∀ θ P, (∀ t, 0 ≤ t → t < σ.rings L (nside.getD 0) → θ t = G.theta σ L (nside.getD 0) t) →
      precomps.getD (generatePrecomputes L spin θ) = P → ∀ t m, 0 ≤ t → t < σ.rings L (nside.getD 0) →
      -L < m → m < L → (reality = true → 0 ≤ m) →
      poleRings σ (otfSynth P (otfNormalise flm lo) θ L spin σ.off (2 * L - 1 + σ.off) reality lo)
        (otfNormalise flm lo) L spin lo (σ.rings L (nside.getD 0)) t (m + L - 1 + σ.off)
        * (-1) ^ spin = g t m) :
    ∃ out, otfInverseNumpy G (.d2 L (2 * L - 1) flm) L spin nside s reality precomps lo = .ok out ∧
      out.shape = σ.shape L (nside.getD 0) ∧
      ∀ t p, σ.Has L (nside.getD 0) t p →
        out.get2 (σ.pos (nside.getD 0) t p).1 (σ.pos (nside.getD 0) t p).2
          = synth L reality (g t) (σ.phi L (nside.getD 0) t p) := by
  obtain ⟨θ, e1, hθ⟩ := otfThetas_scheme G hs hv
  obtain ⟨P, eP, hP'⟩ : ∃ P, otfPrecomps G precomps L spin s nside false = .ok P ∧
      precomps.getD (generatePrecomputes L spin θ) = P := by
    unfold otfPrecomps
    cases precomps with
    | none =>
      refine ⟨_, ?_, rfl⟩
      have : otfKernelThetas G L s nside false = otfThetas G L s nside := by
        unfold otfKernelThetas kernelThetas otfThetas
        rw [if_neg (by simp)]
        cases thetas G.nodes (some L) s nside <;> rfl
      unfold precomputesNumpy pmAngles
      rw [this, e1]
      simp only [bind, Except.bind, pure, Except.pure, if_neg (show ¬ L < |spin| by omega)]
      rw [if_neg (by simp)]
      rfl
    | some P => exact ⟨P, rfl, rfl⟩
  set F : ℤ → ℤ → ℂ := poleRings σ (otfSynth P (otfNormalise flm lo) θ L spin σ.off
    (2 * L - 1 + σ.off) reality lo) (otfNormalise flm lo) L spin lo (σ.rings L (nside.getD 0))
    with hF
  have ho' : mOffset (lower s) = σ.off := by rw [hs]; exact mOffset_name σ
  have hs' : lower (lower s) = σ.name := by rw [hs]; exact lower_name σ
  obtain ⟨f, e3, hfv⟩ := inverseFftM_values hs' ho' (method := mNumpy) (by simp) hv hhp reality
    (otfChain σ F L (nside.getD 0) spin reality (decide (σ = .healpix ∧ reality = true)))
    g (fun h t _ _ => hre h t)
    (fun t h1 _ _ => by
      refine otfChain_nyquist h1 hv.1 (poleRings_nyquist h1 hsp ?_)
      have := otfSynth_nyquist (P := P) (β := θ) (spin := spin) (lo := lo) (otfNormalise flm lo)
        reality (t := t) hL
      rw [h1, show 2 * L - 1 + 1 = 2 * L by ring]
      exact this)
    (fun t m t0 t1 m0 m1 hm => otfChain_eq hv (by simp) t0 t1 (fun m m0 m1 hm =>
      hP θ P hθ hP' t m t0 t1 m0 m1 hm) m0 m1 (fun h h' => hm h (by
          intro hh; simp [hh, h] at h')))
  obtain ⟨out, e4, hsh, hg⟩ := packSignal_scheme hs hv f
  refine ⟨out, ?_, hsh, fun t p h => ?_⟩
  · unfold otfInverseNumpy
    rw [requireLower_ok h0, e1]
    simp only [bind, Except.bind, Nd.shape, ne_eq, not_true_eq_false, if_false, Nd.get2]
    unfold inverseLatitudinalStep
    rw [ftm_shape_valid hs hv, eP]
    simp only [bind, Except.bind, if_neg (show ¬ L = 1 by omega), pure, Except.pure]
    rw [ho, inversePolesNumpy_eq hs _ _ _ _ hsp]
    simp only
    have e5 : (if lower s = sHP ∧ reality = true then otfComplete (fun t k => (if lower s = sHP then
        otfPhases F L (nside.getD 0) (mOffsetLower s) false reality else F) t k * (-1) ^ spin) L
        (mOffsetLower s) else fun t k => (if lower s = sHP then
        otfPhases F L (nside.getD 0) (mOffsetLower s) false reality else F) t k * (-1) ^ spin)
        = otfChain σ F L (nside.getD 0) spin reality (decide (σ = .healpix ∧ reality = true)) := by
      unfold otfChain
      simp only [mOffset_scheme hs, lower_hp_iff hs, decide_eq_true_eq]
    rw [e5, e3]
    exact e4
  · rw [hg t p h, hfv t p h]

theorem otfInverseNumpy_values (G : Machine) (hs : lower s = σ.name) (ho : mOffset s = σ.off)
    (hv : σ.Valid L (nside.getD 0)) (hhp : σ = .healpix → 2 * nside.getD 0 ≤ L) (hL : 2 ≤ L)
    (hsp : |spin| < L) (h0 : 0 ≤ lo) (hlo : lo < L - 1) (flm : ℤ → ℤ → ℂ) (reality : Bool)
    (hf : ∀ el k, lo ≤ el → el < L → el < |spin| → 0 ≤ k → k < 2 * L - 1 → flm el k = 0)
    (hrs : reality = true → spin = 0)
    (hre : reality = true → ∀ el, lo ≤ el → el < L → (flm el (L - 1)).im = 0)
    {precomps : Option PmPre}
    (hP : ∀ P, precomps = some P → PmFits P L spin (σ.rings L (nside.getD 0))
      (G.theta σ L (nside.getD 0)))
    (hr : ∀ t, 0 ≤ t → t < σ.rings L (nside.getD 0) →
      RingOk σ L spin (σ.rings L (nside.getD 0)) (G.theta σ L (nside.getD 0)) t) :
    ∃ out, otfInverseNumpy G (.d2 L (2 * L - 1) flm) L spin nside s reality precomps lo = .ok out ∧
      out.shape = σ.shape L (nside.getD 0) ∧
      ∀ t p, σ.Has L (nside.getD 0) t p →
        out.get2 (σ.pos (nside.getD 0) t p).1 (σ.pos (nside.getD 0) t p).2
          = synth L reality (gAt flm L spin lo (G.theta σ L (nside.getD 0) t))
              (σ.phi L (nside.getD 0) t p) := by
  refine otfInverseNumpy_of G hs ho hv hhp hL hsp h0 flm reality
    (g := fun t => gAt flm L spin lo (G.theta σ L (nside.getD 0) t))
    (fun h t => by have := hrs h; subst this; exact gAt_im (hre h) _) ?_
  intro θ P hθ eP t m t0 t1 m0 m1 hm
  have hP' : PmFits P L spin (σ.rings L (nside.getD 0)) θ := by
    cases precomps with
    | none => rw [← eP]; exact pmFits_numpy _ _ _ _
    | some Q =>
      obtain rfl : Q = P := eP
      exact (hP Q rfl).congr fun t t0 t1 => (hθ t t0 t1).symm
  rw [← hθ t t0 t1]
  exact otfRings_eq hv hsp h0 (Or.inl hlo) (by omega) flm reality hf hP' t0 t1 (by
    have := hr t t0 t1
    unfold RingOk at this ⊢
    rwa [hθ t t0 t1]) m0 m1 hm

/-- A conjugated forward transform is an inverse one. -/
theorem conj_fft_conj (n : ℤ) (a : ℤ → ℂ) :
    (fun p => (starRingEnd ℂ) (fft n (fun k => (starRingEnd ℂ) (a k)) p)) = ifft_fwd n a := by
  funext p
  unfold fft ifft_fwd
  rw [map_sum]
  apply Finset.sum_congr rfl
  intro k _
  rw [map_mul, Complex.conj_conj, conj_cis, neg_neg]

theorem otfSynthesisJax_of {ftm f : ℤ → ℤ → ℂ} {ncol ns : ℤ} {reality : Bool}
    (h : inverseFftM mJax ftm L s ncol ns false = .ok f) :
    otfSynthesisJax ftm L s ncol ns reality
      = .ok (if ¬ lower s = sHP ∧ reality = true then fun t p => ((f t p).re : ℂ) else f) := by
  unfold inverseFftM at h
  unfold otfSynthesisJax
  by_cases hh : lower s = sHP
  · rw [if_pos hh] at h ⊢
    rw [if_neg (by tauto)]
    exact h
  · rw [if_neg hh] at h ⊢
    simp only [Bool.false_eq_true, if_false, pure, Except.pure, Except.ok.injEq] at h ⊢
    subst h
    have e : (fun t p => (starRingEnd ℂ) (fft ncol (fun k => (starRingEnd ℂ)
        (ifftshift ncol (ftm t) k)) p)) = fun t => ifft_fwd ncol (ifftshift ncol (ftm t)) := by
      funext t
      exact conj_fft_conj ncol _
    simp only [hh, not_false_eq_true, true_and]
    rw [show (fun t p => (((ifft_fwd ncol (ifftshift ncol (ftm t)) p).re : ℝ) : ℂ))
      = fun t p => ((((fun t => ifft_fwd ncol (ifftshift ncol (ftm t))) : ℤ → ℤ → ℂ) t p).re : ℂ)
      from rfl, ← e]

/-- The values of `inverse_jax`, from those of the latitudinal step. -/
theorem otfInverseJax_of (G : Machine) (hs : lower s = σ.name) (ho : mOffset s = σ.off)
    (hv : σ.Valid L (nside.getD 0)) (hhp : σ = .healpix → 2 * nside.getD 0 ≤ L)
    (hsp : |spin| < L) (h0 : 0 ≤ lo) (flm : ℤ → ℤ → ℂ) (reality : Bool)
    {g : ℤ → ℤ → ℂ} (hre : reality = true → ∀ t, (g t 0).im = 0) {precomps : Option PmPre}
    (hP : ∀ θ P, (∀ t, 0 ≤ t → t < σ.rings L (nside.getD 0) → θ t = G.theta σ L (nside.getD 0) t) →
      precomps.getD (generatePrecomputesJax L spin θ) = P → ∀ t m, 0 ≤ t →
      t < σ.rings L (nside.getD 0) → -L < m → m < L → (reality = true → 0 ≤ m) →
      poleRings σ (otfSynth P (otfNormalise flm lo) θ L spin σ.off (2 * L - 1 + σ.off) reality lo)
        (otfNormalise flm lo) L spin lo (σ.rings L (nside.getD 0)) t (m + L - 1 + σ.off)
        * (-1) ^ spin = g t m) :
    ∃ out, otfInverseJax G (.d2 L (2 * L - 1) flm) L spin nside s reality precomps lo = .ok out ∧
      out.shape = σ.shape L (nside.getD 0) ∧
      ∀ t p, σ.Has L (nside.getD 0) t p →
        out.get2 (σ.pos (nside.getD 0) t p).1 (σ.pos (nside.getD 0) t p).2
          = synth L reality (g t) (σ.phi L (nside.getD 0) t p) := by
  obtain ⟨θ, e1, hθ⟩ := otfThetas_scheme G hs hv
  obtain ⟨P, eP⟩ : ∃ P, precomps.getD (generatePrecomputesJax L spin θ) = P := ⟨_, rfl⟩
  set F : ℤ → ℤ → ℂ := poleRings σ (otfSynth P (otfNormalise flm lo) θ L spin σ.off
    (2 * L - 1 + σ.off) reality lo) (otfNormalise flm lo) L spin lo (σ.rings L (nside.getD 0))
    with hF
  have hny : ∀ t, σ.off = 1 → (σ ≠ .healpix → 0 ≤ t ∧ t < σ.rings L (nside.getD 0)) →
      F t 0 = 0 := by
    intro t h1 ht
    by_cases h2 : 2 ≤ L
    · refine poleRings_nyquist h1 hsp ?_
      have := otfSynth_nyquist (P := P) (β := θ) (spin := spin) (lo := lo) (otfNormalise flm lo)
        reality (t := t) h2
      rw [h1, show 2 * L - 1 + 1 = 2 * L by ring]
      exact this
    · have h3 : L = 1 := by have := hv.1; omega
      have h4 : σ = .mwss := by
        have := hv.2
        revert h1 hhp this
        cases σ <;> simp [Scheme.off]
        omega
      subst h4
      have h5 := ht (by simp)
      simp only [Scheme.rings] at h5
      rw [abs_lt] at hsp
      rw [hF]
      unfold poleRings northPole southPole
      simp only [if_true, or_true]
      by_cases h6 : t = 0
      · rw [if_pos h6, if_neg (by rw [h1]; omega)]
      · rw [if_neg h6, if_pos (by simp only [Scheme.rings]; omega), if_neg (by rw [h1]; omega)]
  have hrow : ∀ t m, 0 ≤ t → t < σ.rings L (nside.getD 0) → -L < m → m < L →
      otfChain σ F L (nside.getD 0) spin reality reality t (m + L - 1 + σ.off)
        = gEff reality (g t) m * cis (m * σ.phi L (nside.getD 0) t 0) := by
    intro t m t0 t1 m0 m1
    exact otfChain_eq hv (fun h => h) t0 t1 (fun m m0 m1 hm => hP θ P hθ eP t m t0 t1 m0 m1 hm) m0 m1
      (fun h h' => by rw [h] at h'; cases h')
  obtain ⟨f, e3, hfv⟩ := inverseFftM_values hs ho (method := mJax) (by simp) hv hhp false
    (otfChain σ F L (nside.getD 0) spin reality reality)
    (fun t => gEff reality (g t))
    (fun h => by cases h)
    (fun t h1 _ ht => otfChain_nyquist h1 hv.1 (hny t h1 ht))
    (fun t m t0 t1 m0 m1 _ => by
      rw [hrow t m t0 t1 m0 m1]
      unfold gEff; simp)
  have hfv' : ∀ t p, σ.Has L (nside.getD 0) t p →
      f (σ.pos (nside.getD 0) t p).1 (σ.pos (nside.getD 0) t p).2
        = synth L reality (g t) (σ.phi L (nside.getD 0) t p) := by
    intro t p h
    rw [hfv t p h, synth_eq hv.1, synth_eq hv.1]
    apply Finset.sum_congr rfl
    intro m _
    unfold gEff; simp
  obtain ⟨out, e4, hsh, hg⟩ := packSignal_scheme hs hv
    (if ¬ lower s = sHP ∧ reality = true then fun t p => ((f t p).re : ℂ) else f)
  refine ⟨out, ?_, hsh, fun t p h => ?_⟩
  · unfold otfInverseJax
    rw [requireLower_ok h0, e1]
    simp only [bind, Except.bind, Nd.shape, ne_eq, not_true_eq_false, if_false, Nd.get2]
    rw [inversePolesJax_eq hs ho _ _ _ _ hsp, eP]
    have e5 : (if reality = true then otfComplete (fun t k => (if lower s = sHP then
        otfPhases F L (nside.getD 0) (mOffsetLower s) false reality else F) t k * (-1) ^ |spin|) L
        (mOffsetLower s) else fun t k => (if lower s = sHP then
        otfPhases F L (nside.getD 0) (mOffsetLower s) false reality else F) t k * (-1) ^ |spin|)
        = otfChain σ F L (nside.getD 0) spin reality reality := by
      unfold otfChain
      simp only [mOffset_scheme hs, lower_hp_iff hs, negOne_absC]
    rw [e5, mOffset_scheme hs, otfSynthesisJax_of e3]
    exact e4
  · rw [hg t p h]
    split_ifs with hc
    · beta_reduce
      rw [hfv' t p h, hc.2]
      exact ofReal_re_of_im (synth_real (hre hc.2 t) _)
    · exact hfv' t p h

theorem otfInverseJax_values (G : Machine) (hs : lower s = σ.name) (ho : mOffset s = σ.off)
    (hv : σ.Valid L (nside.getD 0)) (hhp : σ = .healpix → 2 * nside.getD 0 ≤ L)
    (hsp : |spin| < L) (h0 : 0 ≤ lo) (hlo : lo < L - 1 ∨ L = 1) (hl : lo < L) (flm : ℤ → ℤ → ℂ)
    (reality : Bool) (hf : ∀ el k, lo ≤ el → el < L → el < |spin| → 0 ≤ k → k < 2 * L - 1 → flm el k = 0)
    (hrs : reality = true → spin = 0)
    (hre : reality = true → ∀ el, lo ≤ el → el < L → (flm el (L - 1)).im = 0)
    {precomps : Option PmPre}
    (hP : ∀ P, precomps = some P → PmFits P L spin (σ.rings L (nside.getD 0))
      (G.theta σ L (nside.getD 0)))
    (hr : ∀ t, 0 ≤ t → t < σ.rings L (nside.getD 0) →
      RingOk σ L spin (σ.rings L (nside.getD 0)) (G.theta σ L (nside.getD 0)) t) :
    ∃ out, otfInverseJax G (.d2 L (2 * L - 1) flm) L spin nside s reality precomps lo = .ok out ∧
      out.shape = σ.shape L (nside.getD 0) ∧
      ∀ t p, σ.Has L (nside.getD 0) t p →
        out.get2 (σ.pos (nside.getD 0) t p).1 (σ.pos (nside.getD 0) t p).2
          = synth L reality (gAt flm L spin lo (G.theta σ L (nside.getD 0) t))
              (σ.phi L (nside.getD 0) t p) := by
  refine otfInverseJax_of G hs ho hv hhp hsp h0 flm reality
    (g := fun t => gAt flm L spin lo (G.theta σ L (nside.getD 0) t))
    (fun h t => by have := hrs h; subst this; exact gAt_im (hre h) _) ?_
  intro θ P hθ eP t m t0 t1 m0 m1 hm
  have hP' : PmFits P L spin (σ.rings L (nside.getD 0)) θ := by
    cases precomps with
    | none => rw [← eP]; exact pmFits_jax _ _ _ _
    | some Q =>
      obtain rfl : Q = P := eP
      exact (hP Q rfl).congr fun t t0 t1 => (hθ t t0 t1).symm
  rw [← hθ t t0 t1]
  exact otfRings_eq hv hsp h0 hlo hl flm reality hf hP' t0 t1 (by
    have := hr t t0 t1
    unfold RingOk at this ⊢
    rwa [hθ t t0 t1]) m0 m1 hm

end

end S2fft
