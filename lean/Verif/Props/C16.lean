import Verif.Lemmas.OtfForward
import Verif.Lemmas.PmRegular

/-!
# C16: the on-the-fly recursion gives the sums over `d`-functions

The recursion divides by the values of the `d`-functions of lower rows. The theorems are about angles
at which none of those vanishes (`PmRegular`); for each band-limit and spin these are all angles
between the poles but finitely many (`C27_regular`), and the steps tend to the sums at the others
(`C16_limit`). The poles themselves are set by the transforms.
-/

namespace S2fft
open Spec Topology

/-- The `precomps` argument: absent, or made by one of the generators for the same problem. -/
def PrecompsArg (G : Machine) (L spin : ℤ) (s : PyStr) (nside : Option ℤ) (forward : Bool)
    (precomps : Option PmPre) : Prop :=
  precomps = none ∨ ∃ P, (precomputesNumpy G L spin s nside forward = .ok P ∨
    precomputesJax G L spin s nside forward = .ok P) ∧ precomps = some P

theorem precomps_fits {P : PmPre} {L spin nt : ℤ} {G : Machine} {s : PyStr} {nside : Option ℤ}
    {forward : Bool} {β θ : ℤ → ℝ} (e : pmAngles G L s nside forward = .ok β)
    (hβ : ∀ t, 0 ≤ t → t < nt → β t = θ t)
    (h : precomputesNumpy G L spin s nside forward = .ok P ∨
      precomputesJax G L spin s nside forward = .ok P) : PmFits P L spin nt θ := by
  rcases h with h | h
  · unfold precomputesNumpy at h
    rw [e] at h
    simp only [bind, Except.bind, pure, Except.pure] at h
    split_ifs at h
    injection h with h
    subst h
    exact (pmFits_numpy _ _ _ _).congr hβ
  · unfold precomputesJax at h
    rw [e] at h
    simp only [bind, Except.bind, pure, Except.pure] at h
    injection h with h
    subst h
    exact (pmFits_jax _ _ _ _).congr hβ

theorem precompsArg_inverse {G : Machine} {σ : Scheme} {s : PyStr} (hs : lower s = σ.name)
    {L spin : ℤ} {nside : Option ℤ} (hv : σ.Valid L (nside.getD 0)) {precomps : Option PmPre}
    (h : PrecompsArg G L spin s nside false precomps) :
    ∀ P, precomps = some P → PmFits P L spin (σ.rings L (nside.getD 0))
      (G.theta σ L (nside.getD 0)) := by
  rintro P rfl
  rcases h with h | ⟨Q, h, h'⟩
  · cases h
  · injection h' with h'
    subst h'
    obtain ⟨β, e, hβ⟩ := pmAngles_inverse G hs hv
    exact precomps_fits e hβ h

theorem precompsArg_forward {G : Machine} {σ : Scheme} {s : PyStr} (hs : lower s = σ.name)
    {L spin : ℤ} {nside : Option ℤ} (hv : σ.Valid L (nside.getD 0)) {precomps : Option PmPre}
    (h : PrecompsArg G L spin s nside true precomps) :
    ∀ P, precomps = some P → PmFits P L spin (otfRingCount σ L (nside.getD 0))
      (otfBeta σ (G.inner σ L (nside.getD 0))) := by
  rintro P rfl
  rcases h with h | ⟨Q, h, h'⟩
  · cases h
  · injection h' with h'
    subst h'
    obtain ⟨β, e, hβ⟩ := pmAngles_forward G hs hv
    exact precomps_fits e hβ h

/-- The inverse step: column `m` of ring `t` is the sum over the degrees. Columns start at `m_offset`.
With the reality flag only the columns of non-negative order are made. -/
theorem C16_inverse_partial (G : Machine) (σ : Scheme) (L spin : ℤ) (nside : Option ℤ)
    (hv : σ.Valid L (nside.getD 0)) (hL : 2 ≤ L) (hsp : |spin| < L) (lo : ℤ) (h0 : 0 ≤ lo)
    (hlo : lo < L - 1) (flm : ℤ → ℤ → ℂ)
    (hf : ∀ el k, lo ≤ el → el < |spin| → flm el k = 0) (reality : Bool)
    (precomps : Option PmPre) (hP : PrecompsArg G L spin σ.name nside false precomps) :
    ∃ ftm, inverseLatitudinalStep G flm (G.theta σ L (nside.getD 0)) L spin nside σ.name reality
        precomps lo = .ok ftm ∧
      ∀ t m, 0 ≤ t → t < σ.rings L (nside.getD 0) → -L < m → m < L → (reality = true → 0 ≤ m) →
        PmRegular L spin (G.theta σ L (nside.getD 0) t) →
        ftm t (m + L - 1 + σ.off) = ∑ el ∈ Finset.Ico lo L,
          (wignerd el m (-spin) (G.theta σ L (nside.getD 0) t) : ℂ) * flm el (m + L - 1) := by
  obtain ⟨P, eP, hP'⟩ : ∃ P, otfPrecomps G precomps L spin σ.name nside false = .ok P ∧
      PmFits P L spin (σ.rings L (nside.getD 0)) (G.theta σ L (nside.getD 0)) := by
    cases precomps with
    | some P => exact ⟨P, rfl, precompsArg_inverse (lower_name σ) hv hP P rfl⟩
    | none =>
      obtain ⟨β, e, hβ⟩ := pmAngles_inverse G (lower_name σ) hv
      refine ⟨generatePrecomputes L spin β, ?_, (pmFits_numpy _ _ _ _).congr hβ⟩
      show precomputesNumpy G L spin σ.name nside false = _
      unfold precomputesNumpy
      rw [e]
      simp only [bind, Except.bind, pure, Except.pure, if_neg (show ¬ L < |spin| by omega)]
  unfold inverseLatitudinalStep
  rw [ftm_shape_valid (lower_name σ) hv, eP]
  simp only [bind, Except.bind, pure, Except.pure, if_neg (show ¬ L = 1 by omega), mOffset_name]
  exact ⟨_, rfl, fun t m t0 t1 m0 m1 hm hr => otfSynth_eq hP' (Or.inl hlo) h0 (by omega) flm
    (fun el k a _ b _ _ => hf el k a b) reality t0 t1 hr m0 m1 hm⟩

/-- The rings at the poles, which `inverse_numpy` sets after the step, are those sums too. -/
theorem C16_inverse_poles (σ : Scheme) (L spin : ℤ) (hL : 1 ≤ L) (hsp : |spin| < L) (lo : ℤ)
    (h0 : 0 ≤ lo) (flm ftm : ℤ → ℤ → ℂ) (hf : ∀ el k, lo ≤ el → el < |spin| → flm el k = 0) :
    ∃ out, inversePolesNumpy ftm flm L spin lo (σ.rings L 0) (2 * L - 1 + σ.off) σ.name = .ok out ∧
      (σ = .mw ∨ σ = .mwss → ∀ m, -L < m → m < L →
        out (σ.rings L 0 - 1) (m + L - 1 + σ.off) = ∑ el ∈ Finset.Ico lo L,
          (wignerd el m (-spin) Real.pi : ℂ) * flm el (m + L - 1)) ∧
      (σ = .mwss → ∀ m, -L < m → m < L → out 0 (m + L - 1 + σ.off) = ∑ el ∈ Finset.Ico lo L,
          (wignerd el m (-spin) 0 : ℂ) * flm el (m + L - 1)) ∧
      ∀ t, ¬ PoleRing σ (σ.rings L 0) t → out t = ftm t := by
  rw [inversePolesNumpy_eq (lower_name σ) _ _ _ _ hsp]
  have hn : σ = .mwss → 1 < σ.rings L 0 := by rintro rfl; simp only [Scheme.rings]; omega
  refine ⟨_, rfl, fun h m m0 m1 => ?_, fun h m m0 m1 => ?_, fun t ht => ?_⟩
  · have := poleRings_eq (σ := σ) (ftm := ftm) (flm := flm) (reality := false) hsp h0 hn
      (fun el k a _ b _ _ => hf el k a b) (θ := fun _ => Real.pi) (t := σ.rings L 0 - 1) (m := m)
      (Or.inr (Or.inl ⟨h, rfl, rfl⟩)) (fun hh => absurd hh.2.1 (lt_irrefl _))
    exact this
  · have := poleRings_eq (σ := σ) (ftm := ftm) (flm := flm) (reality := false) hsp h0 hn
      (fun el k a _ b _ _ => hf el k a b) (θ := fun _ => 0) (t := 0) (m := m)
      (Or.inl ⟨h, rfl, rfl⟩) (fun hh => absurd hh.1 (lt_irrefl _))
    exact this
  · funext k
    unfold PoleRing at ht
    push Not at ht
    unfold poleRings northPole southPole
    by_cases h1 : σ = .mwss
    · simp only [h1, or_true, if_true]
      rw [if_neg (ht.1 h1), if_neg (by have := ht.2 (Or.inr h1); rwa [h1] at this)]
    · rw [if_neg h1]
      by_cases h2 : σ = .mw
      · simp only [h2, true_or, if_true]
        rw [if_neg (by have := ht.2 (Or.inl h2); rwa [h2] at this)]
      · rw [if_neg (by tauto)]

/-- The forward step, with the pole rings added as `forward_numpy` does: row `el` of column `m` is the
sum over all rings. The rings of MW and MWSS are those of the resampled grid. -/
theorem C16_forward_partial (G : Machine) (σ : Scheme) (L spin : ℤ) (nside : Option ℤ)
    (hv : σ.Valid L (nside.getD 0)) (hL : 2 ≤ L) (hsp : |spin| < L) (lo : ℤ) (h0 : 0 ≤ lo)
    (hlo : lo < L - 1) (ftm : ℤ → ℤ → ℂ) (reality : Bool) (precomps : Option PmPre)
    (hP : PrecompsArg G L spin σ.name nside true precomps) (hp : σ.inner = .mwss → G.Poles)
    (hr : ∀ t, 0 ≤ t → t < otfRingCount σ L (nside.getD 0) →
      PmRegular L spin (otfBeta σ (G.inner σ L (nside.getD 0)) t)) :
    ∃ flm, forwardPolesNumpy G ftm (G.inner σ L (nside.getD 0)) (innerRings σ L (nside.getD 0)) L
        spin (2 * L - 1 + σ.inner.off) nside σ.inner.name reality precomps lo = .ok flm ∧
      ∀ el m, lo ≤ el → el < L → |spin| ≤ el → -L < m → m < L → (reality = true → 0 ≤ m) →
        flm el (m + L - 1) = ∑ t ∈ Finset.Ico 0 (innerRings σ L (nside.getD 0)),
          (wignerd el m (-spin) (G.inner σ L (nside.getD 0) t) : ℂ)
            * ftm t (m + L - 1 + σ.inner.off) := by
  have hn : innerName σ σ.name = σ.inner.name := by cases σ <;> rfl
  have := forwardPolesNumpy_eq G (lower_name σ) (by rintro rfl; rfl) hv hL hsp h0 hlo ftm
    (fun t _ _ => rfl) reality (precompsArg_forward (lower_name σ) hv hP) hp hr
  rwa [hn] at this

/-- Where the recursion divides by zero the step has the sum over `d`-functions as its limit: as the
angle `β` of the rings tends to `θ`, the columns tend to the sums at `θ`. Here `θ` is any angle between
the poles. -/
theorem C16_inverse_limit (G : Machine) (σ : Scheme) (L spin : ℤ) (nside : Option ℤ)
    (hv : σ.Valid L (nside.getD 0)) (hL : 2 ≤ L) (hsp : |spin| < L) (lo : ℤ) (h0 : 0 ≤ lo)
    (hlo : lo < L - 1) (flm : ℤ → ℤ → ℂ)
    (hf : ∀ el k, lo ≤ el → el < |spin| → flm el k = 0) (reality : Bool)
    (θ : ℝ) (hθ : 0 < θ) (hθ' : θ < Real.pi) :
    ∃ F : ℝ → ℤ → ℤ → ℂ,
      (∀ β, inverseLatitudinalStep G flm (fun _ => β) L spin nside σ.name reality
        (some (generatePrecomputes L spin (fun _ => β))) lo = .ok (F β)) ∧
      ∀ t m, 0 ≤ t → -L < m → m < L → (reality = true → 0 ≤ m) →
        Filter.Tendsto (fun β => F β t (m + L - 1 + σ.off)) (𝓝[≠] θ)
          (𝓝 (∑ el ∈ Finset.Ico lo L, (wignerd el m (-spin) θ : ℂ) * flm el (m + L - 1))) := by
  refine ⟨fun β => otfSynth (generatePrecomputes L spin (fun _ => β)) flm (fun _ => β) L spin σ.off
    (2 * L - 1 + σ.off) reality lo, fun β => ?_, fun t m t0 m0 m1 hm => ?_⟩
  · unfold inverseLatitudinalStep
    rw [ftm_shape_valid (lower_name σ) hv]
    simp only [bind, Except.bind, otfPrecomps, pure, Except.pure, if_neg (show ¬ L = 1 by omega),
      mOffset_name]
  · have hc : Continuous (fun β : ℝ => ∑ el ∈ Finset.Ico lo L,
        (wignerd el m (-spin) β : ℂ) * flm el (m + L - 1)) :=
      continuous_finset_sum _ fun el _ =>
        (Complex.continuous_ofReal.comp (continuous_wignerd el m (-spin))).mul continuous_const
    refine ((hc.tendsto θ).mono_left nhdsWithin_le_nhds).congr' ?_
    filter_upwards [pmRegular_eventually L spin hθ hθ'] with β hβ
    have := otfSynth_eq (P := generatePrecomputes L spin (fun _ => β)) (β := fun _ => β)
      (nt := t + 1) (pmFits_numpy L spin (t + 1) (fun _ => β)) (Or.inl hlo) h0 (by omega) flm
      (fun el k a _ b _ _ => hf el k a b) reality (off := σ.off) t0 (by omega) hβ m0 m1 hm
    exact this.symm

/-- The same for the forward step: as the angles `β t` of the rings tend to `θ t`. -/
theorem C16_forward_limit (G : Machine) (σ : Scheme) (L spin nt : ℤ) (nside : Option ℤ)
    (hL : 2 ≤ L) (lo : ℤ) (h0 : 0 ≤ lo) (hlo : lo < L - 1) (ftm : ℤ → ℤ → ℂ) (reality : Bool)
    (θ : ℤ → ℝ) {ι : Type*} {l : Filter ι} (β : ι → ℤ → ℝ)
    (hβ : ∀ t, 0 ≤ t → t < nt → Filter.Tendsto (fun i => β i t) l (𝓝 (θ t)))
    (hr : ∀ᶠ i in l, ∀ t, 0 ≤ t → t < nt → PmRegular L spin (β i t)) :
    ∃ F : ι → ℤ → ℤ → ℂ,
      (∀ i, forwardLatitudinalStep G ftm (β i) nt L spin (2 * L - 1 + σ.off) nside σ.name reality
        (some (generatePrecomputes L spin (β i))) lo = .ok (F i)) ∧
      ∀ el m, lo ≤ el → el < L → |spin| ≤ el → -L < m → m < L → (reality = true → 0 ≤ m) →
        Filter.Tendsto (fun i => F i el (m + L - 1)) l
          (𝓝 (∑ t ∈ Finset.Ico 0 nt, (wignerd el m (-spin) (θ t) : ℂ)
            * ftm t (m + L - 1 + σ.off))) := by
  refine ⟨fun i => otfAnalyse (generatePrecomputes L spin (β i)) ftm (β i) L spin nt σ.off
    (2 * L - 1 + σ.off) reality lo, fun i => ?_, fun el m e0 e1 e2 m0 m1 hm => ?_⟩
  · unfold forwardLatitudinalStep
    simp only [bind, Except.bind, otfPrecomps, pure, Except.pure, if_neg (show ¬ L = 1 by omega),
      mOffset_name]
  · have hc : Filter.Tendsto (fun i => ∑ t ∈ Finset.Ico 0 nt, (wignerd el m (-spin) (β i t) : ℂ)
        * ftm t (m + L - 1 + σ.off)) l (𝓝 (∑ t ∈ Finset.Ico 0 nt, (wignerd el m (-spin) (θ t) : ℂ)
        * ftm t (m + L - 1 + σ.off))) := by
      refine tendsto_finset_sum _ fun t ht => ?_
      rw [Finset.mem_Ico] at ht
      have := ((Complex.continuous_ofReal.comp (continuous_wignerd el m (-spin))).tendsto
        (θ t)).comp (hβ t ht.1 ht.2)
      exact this.mul_const _
    refine hc.congr' ?_
    filter_upwards [hr] with i hi
    have := otfAnalyse_eq (P := generatePrecomputes L spin (β i)) (β := β i)
      (pmFits_numpy L spin nt (β i)) (Or.inl hlo) h0 (by omega) ftm reality (off := σ.off) hi e0 e1
      e2 m0 m1 hm
    exact this.symm

/-- Every angle between the poles is a limit of regular ones. -/
example (L spin : ℤ) (θ : ℝ) (h0 : 0 < θ) (h1 : θ < Real.pi) :
    (∀ᶠ β in 𝓝[≠] θ, PmRegular L spin β) ∧ (𝓝[≠] θ).NeBot :=
  ⟨pmRegular_eventually L spin h0 h1, inferInstance⟩

/-- For `L = 2` every angle between the poles is regular, and the stored angles of a Driscoll–Healy grid
are such angles. -/
example : ∀ t : ℤ, 0 ≤ t → t < 4 →
    PmRegular 2 1 ((Machine.mk ⟨fun _ _ => 0, fun _ _ => 0⟩ id).theta .dh 2 0 t) := by
  intro t t0 t1
  have hpi := Real.pi_pos
  have h0' : (0 : ℝ) ≤ t := by exact_mod_cast t0
  have h1' : (t : ℝ) + 1 ≤ 4 := by exact_mod_cast (by omega : t + 1 ≤ 4)
  simp only [Machine.theta, Scheme.theta, id]
  refine ⟨by positivity, ?_, fun el k a b c d => absurd c (by omega)⟩
  push_cast
  rw [div_lt_iff₀ (by norm_num)]
  nlinarith

/-! ## Where the steps are wrong -/

/-- The property fails for `L_lower = L - 1`: in the column of order `L - 2` the inverse step counts
the coefficient of degree `L - 2`, below `L_lower`, with the `d`-function of degree `L - 1`. -/
theorem C16_lower_leak (G : Machine) (σ : Scheme) (L spin : ℤ) (nside : Option ℤ)
    (hv : σ.Valid L (nside.getD 0)) (hL : 2 ≤ L) (hsp : |spin| < L) (flm : ℤ → ℤ → ℂ)
    (reality : Bool) :
    ∃ ftm, inverseLatitudinalStep G flm (G.theta σ L (nside.getD 0)) L spin nside σ.name reality
        none (L - 1) = .ok ftm ∧
      ∀ t, 0 ≤ t → t < σ.rings L (nside.getD 0) →
        PmRegular L spin (G.theta σ L (nside.getD 0) t) →
        ftm t (L - 2 + L - 1 + σ.off) = (wignerd (L - 1) (L - 2) (-spin)
          (G.theta σ L (nside.getD 0) t) : ℂ) * (flm (L - 2) (2 * L - 3) + flm (L - 1) (2 * L - 3)) := by
  obtain ⟨β, e, hβ⟩ := pmAngles_inverse G (lower_name σ) hv
  have eP : otfPrecomps G none L spin σ.name nside false
      = .ok (generatePrecomputes L spin β) := by
    show precomputesNumpy G L spin σ.name nside false = _
    unfold precomputesNumpy
    rw [e]
    simp only [bind, Except.bind, pure, Except.pure, if_neg (show ¬ L < |spin| by omega)]
  unfold inverseLatitudinalStep
  rw [ftm_shape_valid (lower_name σ) hv, eP]
  simp only [bind, Except.bind, pure, Except.pure, if_neg (show ¬ L = 1 by omega), mOffset_name]
  exact ⟨_, rfl, fun t t0 t1 hr => otfSynth_leak ((pmFits_numpy _ _ _ _).congr hβ) hL flm reality
    t0 t1 hr hsp⟩

/-- For `L = 1` the NumPy steps raise. -/
theorem C16_one (G : Machine) (σ : Scheme) (nside : Option ℤ) (hv : σ.Valid 1 (nside.getD 0))
    (a : ℤ → ℤ → ℂ) (β : ℤ → ℝ) (nt width : ℤ) (reality : Bool) (P : PmPre) (lo : ℤ) :
    inverseLatitudinalStep G a β 1 0 nside σ.name reality (some P) lo = .error .indexError ∧
      forwardLatitudinalStep G a β nt 1 0 width nside σ.name reality (some P) lo
        = .error .indexError := by
  unfold inverseLatitudinalStep forwardLatitudinalStep
  rw [ftm_shape_valid (lower_name σ) hv]
  exact ⟨rfl, rfl⟩

end S2fft
