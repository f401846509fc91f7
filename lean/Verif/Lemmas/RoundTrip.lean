import Verif.Lemmas.SphereRule
import Verif.Props.C21

/-! # The forward transform of a harmonic expansion -/

namespace S2fft
open Spec

theorem fVal_exact {A : ℤ → ℤ → ℂ} {lo L spin nt : ℤ} {θ w q : ℤ → ℝ} {c : ℤ → ℤ → ℂ} {n : ℝ}
    (hn : n ≠ 0) (hA : ∀ t m, 0 ≤ t → t < nt → -L < m → m < L →
      A t m = n * trigPoly L (harmF lo L spin c m) (θ t))
    (hw : ∀ t, 0 ≤ t → t < nt → w t = q t * (2 * Real.pi / n)) (hq : ThetaRule (2 * L) nt θ q)
    (hex : ∀ t, 0 ≤ t → t < nt → snapAngle (θ t) = θ t) {el m : ℤ} (h0 : 0 ≤ el) (h1 : lo ≤ el)
    (h2 : |spin| ≤ el) (h3 : el < L) (hm0 : -L < m) (hm1 : m < L) :
    fVal A spin nt θ w el m = if |m| ≤ el then c el m else 0 := by
  have hs : ((-1 : ℂ)) ^ spin * (-1) ^ spin = 1 := by
    rw [← zpow_add₀ (by norm_num), show spin + spin = 2 * spin by ring, zpow_mul]; norm_num
  have hnc : (n : ℂ) ≠ 0 := by exact_mod_cast hn
  by_cases hm : |m| ≤ el
  · rw [if_pos hm]
    have step : fVal A spin nt θ w el m = ∑ l ∈ Finset.Ico lo L, c l m * (2 * Real.pi * elfactor el
        * √((2 * (l : ℝ) + 1) / (4 * Real.pi)) : ℝ) * ∑ t ∈ Finset.Ico 0 nt,
          (q t : ℂ) * (wignerd el m (-spin) (θ t) * wignerd l m (-spin) (θ t)) := by
      simp only [Finset.mul_sum]
      rw [Finset.sum_comm]
      unfold fVal
      apply Finset.sum_congr rfl
      intro t ht
      rw [Finset.mem_Ico] at ht
      rw [hA t m ht.1 ht.2 hm0 hm1, hw t ht.1 ht.2, hex t ht.1 ht.2, trigPoly_harmF,
        Finset.mul_sum, Finset.mul_sum]
      apply Finset.sum_congr rfl
      intro l _
      have e : (2 * Real.pi / n : ℂ) * n = 2 * Real.pi := by field_simp
      push_cast
      generalize (-1 : ℂ) ^ spin = s at hs
      linear_combination (q t * elfactor el * wignerd el m (-spin) (θ t) * c l m
        * (√((2 * (l : ℝ) + 1) / (4 * Real.pi)) : ℝ) * wignerd l m (-spin) (θ t) : ℂ)
        * (s * s * e + 2 * Real.pi * hs)
    rw [step, Finset.sum_eq_single el]
    · rw [hq.ortho h3 h3 hm (by rwa [abs_neg]), if_pos rfl]
      have hpos : (0 : ℝ) < 2 * (el : ℝ) + 1 := by
        have : (0 : ℝ) ≤ el := by exact_mod_cast h0
        linarith
      have hpi := Real.pi_pos
      have e : 2 * Real.pi * elfactor el * √((2 * (el : ℝ) + 1) / (4 * Real.pi))
          = (2 * (el : ℝ) + 1) / 2 := by
        unfold elfactor
        rw [mul_assoc, Real.mul_self_sqrt (by positivity)]
        field_simp; norm_num
      rw [e]
      have : (2 * (el : ℂ) + 1) ≠ 0 := by exact_mod_cast hpos.ne'
      push_cast
      field_simp
    · intro l hl hne
      rw [Finset.mem_Ico] at hl
      rw [hq.ortho h3 hl.2 hm (by rwa [abs_neg]), if_neg (Ne.symm hne), mul_zero]
    · intro h
      rw [Finset.mem_Ico] at h
      omega
  · rw [if_neg hm]
    unfold fVal
    apply Finset.sum_eq_zero
    intro t _
    rw [wignerd_outside _ _ _ _ (Or.inl (by omega))]; simp

/-- The schemes with a sampling theorem; for `gl` with exact tables. -/
def SamplingTheorem (G : GlTables) (σ : Scheme) (L : ℤ) : Prop :=
  σ ≠ .healpix ∧ (σ = .gl → GlExact G.nodes G.weights L)

/-- No ring handed to the forward methods lies in the pole windows. -/
def InnerExact (nodes : ℤ → ℤ → ℝ) (σ : Scheme) (L nside : ℤ) : Prop :=
  ∀ t, 0 ≤ t → t < innerRings σ L nside → ExactAngle (innerTheta nodes σ L nside t)

/-- `θ`-weights of the rule used by the forward transform. -/
theorem inner_rule (G : GlTables) {σ : Scheme} {L nside : ℤ} (hL : 1 ≤ L)
    (hσ : SamplingTheorem G σ L) :
    ∃ (q : ℤ → ℝ) (n : ℤ), 2 * L - 1 ≤ n ∧ (∀ t, σ.inner.ringLen L nside t = n) ∧
      (∀ t, 0 ≤ t → t < innerRings σ L nside →
        innerWeight G σ L nside t = q t * (2 * Real.pi / (n : ℝ))) ∧
      ThetaRule (2 * L) (innerRings σ L nside) (innerTheta G.nodes σ L nside) q := by
  have hLr : (1 : ℝ) ≤ L := by exact_mod_cast hL
  have key : ThetaRule (2 * L) (2 * L + 1) (fun t => t * Real.pi / (2 * L))
      (quad_weights_mwss_theta_only (2 * L) 0) := by
    have := thetaRule_mwss (L := 2 * L) (by omega)
    push_cast at this
    exact this
  cases σ with
  | mw =>
    refine ⟨quad_weights_mwss_theta_only (2 * L) 0, 2 * L, by omega, fun t => rfl, ?_, key⟩
    intro t _ _
    simp only [innerWeight]; push_cast; ring
  | mwss =>
    refine ⟨quad_weights_mwss_theta_only (2 * L) 0, 2 * L, by omega, fun t => rfl, ?_, key⟩
    intro t _ _
    simp only [innerWeight]; push_cast; ring
  | dh =>
    refine ⟨fun t => quad_weight_dh_theta_only ((2 * t + 1) * Real.pi / (4 * L)) L, 2 * L - 1,
      by omega, fun t => rfl, ?_, thetaRule_dh hL⟩
    intro t _ _
    simp only [innerWeight, quad_weights_dh]; push_cast; ring
  | gl =>
    refine ⟨fun t => G.weights L t * (2 * (L : ℝ) - 1) / (2 * Real.pi), 2 * L - 1, by omega,
      fun t => rfl, ?_, thetaRule_gl hL (hσ.2 rfl)⟩
    intro t _ _
    simp only [innerWeight]
    have hpi := Real.pi_ne_zero
    have : (2 * (L : ℝ) - 1) ≠ 0 := by linarith
    push_cast
    field_simp
  | healpix => exact absurd rfl hσ.1

theorem shift_zero {σ : Scheme} (h : σ ≠ .healpix) (nside t : ℤ) : σ.shift nside t = 0 := by
  cases σ <;> first | rfl | exact absurd rfl h

theorem pos_plain {σ : Scheme} (h : σ ≠ .healpix) (nside t p : ℤ) : σ.pos nside t p = (t, p) := by
  cases σ <;> first | rfl | exact absurd rfl h

/-- The samples handed to the methods are those of the band-limited signal. -/
theorem inner_samples {nodes : ℤ → ℤ → ℝ} {σ : Scheme} {L nside spin : ℤ} (hL : 1 ≤ L)
    (hσ : σ ≠ .healpix) {F : ℤ → ℤ → ℂ} (hF : PoleParity spin F) {f : ℤ → ℤ → ℂ}
    (hf : SamplesOf nodes σ L nside f (sphSignal L L F)) {t p : ℤ} (t0 : 0 ≤ t)
    (t1 : t < innerRings σ L nside) (p0 : 0 ≤ p) (p1 : p < σ.inner.ringLen L nside t) :
    innerSignal σ L spin f t p
      = sphSignal L L F (innerTheta nodes σ L nside t) (σ.inner.phi L nside t p) := by
  by_cases hR : σ.Resampled
  · refine innerSignal_sph hR hL nodes hF hf t p p0 ?_
    rcases hR with rfl | rfl <;> exact p1
  · unfold innerRings at t1
    rw [if_neg hR] at t1
    have hin : σ.inner = σ := by
      revert hR; cases σ <;> simp [Scheme.Resampled, Scheme.inner]
    rw [hin] at p1 ⊢
    have := hf t p ⟨t0, t1, p0, p1⟩
    rw [pos_plain hσ] at this
    unfold innerTheta
    rw [if_neg hR, ← this]
    revert hR; cases σ <;> simp [Scheme.Resampled, innerSignal]

theorem ringSum_harm {nodes : ℤ → ℤ → ℝ} {σ : Scheme} {L nside spin lo : ℤ} (hL : 1 ≤ L)
    (hσ : σ ≠ .healpix) {c : ℤ → ℤ → ℂ} {f : ℤ → ℤ → ℂ}
    (hf : SamplesOf nodes σ L nside f (harmonicSum lo L spin c)) {n : ℤ} (hn : 2 * L - 1 ≤ n)
    (hlen : ∀ t, σ.inner.ringLen L nside t = n) {t m : ℤ} (t0 : 0 ≤ t)
    (t1 : t < innerRings σ L nside) (m0 : -L < m) (m1 : m < L) :
    ringSum σ.inner L nside (innerSignal σ L spin f) t m
      = n * trigPoly L (harmF lo L spin c m) (innerTheta nodes σ L nside t) := by
  have hf' : SamplesOf nodes σ L nside f (sphSignal L L (harmF lo L spin c)) := by
    intro t p h; rw [hf t p h, harmonicSum_sph]
  have hσ' : σ.inner ≠ .healpix := fun h => hσ (inner_hp.1 h)
  rw [← ring_fourier hL hn (harmF lo L spin c) _ m0 m1]
  unfold ringSum
  rw [hlen]
  apply Finset.sum_congr rfl
  intro p hp
  rw [Finset.mem_Ico] at hp
  rw [pos_plain hσ', inner_samples hL hσ (harmF_parity lo L spin c) hf' t0 t1 hp.1
    (by rw [hlen]; exact hp.2)]
  have : σ.inner.phi L nside t p = 2 * Real.pi * p / n := by
    unfold Scheme.phi
    rw [shift_zero hσ', add_zero, hlen]
  rw [this]

end S2fft
