import Verif.Spec.Grid
import Verif.Lemmas.Healpix
import Verif.Model.Base
import Verif.Props.C05
import Verif.Props.C07

/-! # The grids computed by the code are those of the specification -/

namespace S2fft
open Spec

theorem name_mw : Scheme.mw.name = sMW := rfl
theorem name_mwss : Scheme.mwss.name = sMWSS := rfl
theorem name_dh : Scheme.dh.name = sDH := rfl
theorem name_gl : Scheme.gl.name = sGL := rfl
theorem name_hp : Scheme.healpix.name = sHP := rfl

/-- The offset of the Fourier columns. -/
def Spec.Scheme.off : Scheme → ℤ
  | .mwss => 1
  | .healpix => 1
  | _ => 0

theorem mOffset_name (σ : Scheme) : mOffset σ.name = σ.off := by
  cases σ <;> decide

theorem lower_name (σ : Scheme) : lower σ.name = σ.name := by
  cases σ <;> decide

theorem lower_hp_iff {s : PyStr} {σ : Scheme} (h : lower s = σ.name) :
    lower s = sHP ↔ σ = .healpix := by
  rw [h]; cases σ <;> decide

theorem healpixZ_eq {n t : ℤ} (hn : 1 ≤ n) (h0 : 0 ≤ t) (h1 : t < 4 * n - 1) :
    Scheme.healpixZ n t = ringZ n t := by
  unfold Scheme.healpixZ
  split_ifs with a b
  · rw [ringZ_north h0 a]
  · rw [ringZ_mid (by omega) b]
  · rw [ringZ_south hn h1 (by omega)]; push_cast; ring

theorem theta_mem (nodes : ℤ → ℤ → ℝ) (σ : Scheme) {L nside t : ℤ} (hv : σ.Valid L nside)
    (h0 : 0 ≤ t) (h1 : t < σ.rings L nside) :
    0 ≤ σ.theta nodes L nside t ∧ σ.theta nodes L nside t ≤ Real.pi := by
  have hpi := Real.pi_pos
  have hL : (1 : ℝ) ≤ L := by exact_mod_cast hv.1
  have h0' : (0 : ℝ) ≤ t := by exact_mod_cast h0
  cases σ with
  | mw =>
    have h1' : (t : ℝ) + 1 ≤ L := by exact_mod_cast h1
    simp only [Scheme.theta]
    refine ⟨div_nonneg (by positivity) (by linarith), ?_⟩
    rw [div_le_iff₀ (by linarith)]; nlinarith
  | mwss =>
    have h1' : (t : ℝ) ≤ L := by
      simp only [Scheme.rings] at h1
      exact_mod_cast (by omega : t ≤ L)
    simp only [Scheme.theta]
    refine ⟨by positivity, ?_⟩
    rw [div_le_iff₀ (by linarith)]; nlinarith
  | dh =>
    have h1' : (t : ℝ) + 1 ≤ 2 * L := by exact_mod_cast h1
    simp only [Scheme.theta]
    refine ⟨by positivity, ?_⟩
    rw [div_le_iff₀ (by linarith)]; nlinarith
  | gl => exact ⟨Real.arccos_nonneg _, Real.arccos_le_pi _⟩
  | healpix => exact ⟨Real.arccos_nonneg _, Real.arccos_le_pi _⟩

theorem thetas_scheme (nodes : ℤ → ℤ → ℝ) {σ : Scheme} {s : PyStr} (hs : lower s = σ.name)
    {L : ℤ} {nside : Option ℤ} (hv : σ.Valid L (nside.getD 0)) :
    ∃ θ, thetas nodes (some L) s nside = .ok (σ.rings L (nside.getD 0), θ) ∧
      ∀ t, 0 ≤ t → t < σ.rings L (nside.getD 0) → θ t = σ.theta nodes L (nside.getD 0) t := by
  have hL : (L : ℝ) ≠ 0 := by have := hv.1; exact_mod_cast (by omega : L ≠ 0)
  cases σ with
  | mw =>
    rw [name_mw] at hs
    have h1 : ¬ sMW = sGL := by decide
    have h2 : ¬ sMW = sHP := by decide
    refine ⟨fun t => (2 * (t : ℝ) + 1) * Real.pi / (2 * (L : ℝ) - 1), ?_, fun t _ _ => ?_⟩
    · simp only [thetas, hs, h1, h2, ntheta, t2theta, if_true, if_false, true_or]
      rfl
    · simp only [Scheme.theta]
  | mwss =>
    rw [name_mwss] at hs
    have h1 : ¬ sMWSS = sGL := by decide
    have h2 : ¬ sMWSS = sHP := by decide
    have h3 : ¬ sMWSS = sMW := by decide
    refine ⟨fun t => 2 * (t : ℝ) * Real.pi / (2 * (L : ℝ)), ?_, fun t _ _ => ?_⟩
    · simp only [thetas, hs, h1, h2, h3, ntheta, t2theta, if_true, if_false, or_false]
      rfl
    · simp only [Scheme.theta]
      field_simp
  | dh =>
    rw [name_dh] at hs
    have h1 : ¬ sDH = sGL := by decide
    have h2 : ¬ sDH = sHP := by decide
    have h3 : ¬ sDH = sMW := by decide
    have h4 : ¬ sDH = sMWSS := by decide
    refine ⟨fun t => (2 * (t : ℝ) + 1) * Real.pi / (4 * (L : ℝ)), ?_, fun t _ _ => ?_⟩
    · simp only [thetas, hs, h1, h2, h3, h4, ntheta, t2theta, if_true, if_false, or_false]
      rfl
    · simp only [Scheme.theta]
  | gl =>
    rw [name_gl] at hs
    refine ⟨fun t => Real.arccos (nodes L (L - 1 - t)), ?_, fun t _ _ => ?_⟩
    · simp only [thetas, hs, if_true]
      rfl
    · simp only [Scheme.theta]
  | healpix =>
    rw [name_hp] at hs
    have h1 : ¬ sHP = sGL := by decide
    have hn := hv.2 rfl
    cases nside with
    | none => simp at hn
    | some n =>
      simp only [Option.getD_some] at hn ⊢
      refine ⟨fun t => t2theta_healpix t n, ?_, fun t h0 h1 => ?_⟩
      · simp only [thetas, hs, h1, ntheta, t2theta, if_true, if_false]
        rfl
      · simp only [Scheme.rings] at h1
        simp only [Scheme.theta]
        rw [t2theta_healpix_eq h1, healpixZ_eq hn h0 h1]

theorem ringLen_pos {σ : Scheme} {L nside t : ℤ} (hv : σ.Valid L nside) (h0 : 0 ≤ t)
    (h1 : t < σ.rings L nside) : 0 < σ.ringLen L nside t := by
  have := hv.1
  cases σ with
  | healpix =>
    have := hv.2 rfl
    simp only [Scheme.ringLen, Scheme.rings] at *
    unfold ringSize
    have := lt_min (show 0 < t + 1 by omega)
      (lt_min (show 0 < nside by omega) (show 0 < 4 * nside - 1 - t by omega))
    omega
  | _ => simp only [Scheme.ringLen]; omega

theorem p2phi_scheme {L nside t p : ℤ} (hn : 1 ≤ nside) (h0 : 0 ≤ t) (h1 : t < 4 * nside - 1) :
    p2phi_ring t p nside = Scheme.healpix.phi L nside t p := by
  have hn' : (nside : ℝ) ≠ 0 := by exact_mod_cast (by omega : nside ≠ 0)
  unfold p2phi_ring Scheme.phi
  simp only [Scheme.shift, Scheme.ringLen]
  split_ifs with a b c d e f
  · omega
  · rw [ringSize_mid (by omega) (by omega), show (t - nside + 2) % 2 = 1 by omega]
    push_cast; field_simp; norm_num; ring
  · rw [ringSize_mid (by omega) (by omega), show (t - nside + 2) % 2 = 0 by omega]
    push_cast; field_simp; norm_num; ring
  · rw [ringSize_south (by omega) (by omega)]
    have hn2 : (4 * (nside : ℝ) - 1 - t) ≠ 0 := by
      have : 4 * nside - 1 - t ≠ 0 := by omega
      exact_mod_cast this
    rw [show 4 * (nside : ℝ) - t - 1 = 4 * (nside : ℝ) - 1 - t by ring]
    push_cast; field_simp; norm_num
  · omega
  · omega
  · rw [ringSize_north (by omega) h0]
    have hn2 : (t : ℝ) + 1 ≠ 0 := by
      have : t + 1 ≠ 0 := by omega
      exact_mod_cast this
    push_cast; field_simp; norm_num; ring
  · omega
  · omega

theorem phisAt_scheme {σ : Scheme} {s : PyStr} (hs : lower s = σ.name) {L nside t : ℤ}
    (hv : σ.Valid L nside) (h0 : 0 ≤ t) (h1 : t < σ.rings L nside) :
    ∃ φ, phisAt L s nside t = .ok (σ.ringLen L nside t, φ) ∧
      ∀ p, φ p = σ.phi L nside t p := by
  by_cases hhp : σ = .healpix
  · subst hhp
    have hn := hv.2 rfl
    refine ⟨fun p => p2phi_ring t p nside, ?_, fun p => p2phi_scheme hn h0 h1⟩
    unfold phisAt phis_ring
    rw [if_pos (by rw [hs]; rfl), nphi_ring_ok h0 h1]
    rfl
  · obtain ⟨n, φ, e1, -, e2, e3, -⟩ := C05_phis L hv.1 s (by
      rw [hs]; revert hhp; cases σ <;> decide)
    refine ⟨φ, ?_, fun p => ?_⟩
    · unfold phisAt
      rw [if_neg (by rw [lower_hp_iff hs]; exact hhp), e1, e2, hs]
      revert hhp; cases σ <;> simp [Scheme.ringLen, Scheme.name, sMWSS]
    · rw [e3, Scheme.phi, e2, hs]
      revert hhp; cases σ <;> simp [Scheme.ringLen, Scheme.name, sMWSS, Scheme.shift]

theorem entryAt_scheme (nodes : ℤ → ℤ → ℝ) {σ : Scheme} {s : PyStr} (hs : lower s = σ.name)
    {L nside t p : ℤ} (hv : σ.Valid L nside) (hh : σ.Has L nside t p) :
    entryAt s nside t p (σ.theta nodes L nside t) (σ.phi L nside t p) = σ.pos nside t p := by
  obtain ⟨h0, h1, h2, h3⟩ := hh
  by_cases hhp : σ = .healpix
  · subst hhp
    have hn := hv.2 rfl
    unfold entryAt
    rw [if_pos (by rw [hs]; rfl), ← p2phi_scheme hn h0 h1]
    simp only [Scheme.theta, Scheme.pos]
    rw [healpixZ_eq hn h0 h1, ← t2theta_healpix_eq h1, C07_pixel_centres nside t p hn h0 h1 h2 h3]
  · unfold entryAt
    rw [if_neg (by rw [lower_hp_iff hs]; exact hhp)]
    revert hhp; cases σ <;> simp [Scheme.pos]

theorem ringStart_le_ringStart {n t u : ℤ} (h0 : 0 ≤ t) (h : t < u) (hu : u < 4 * n - 1) (hn : 1 ≤ n) :
    ringStart n t + ringSize n t ≤ ringStart n u := by
  rw [← ringStart_succ n t h0]
  unfold ringStart
  apply Finset.sum_le_sum_of_subset_of_nonneg
  · intro x; simp only [Finset.mem_Ico]; omega
  · intro x hx _
    simp only [Finset.mem_Ico] at hx
    exact (ringLen_pos (σ := .healpix) (L := 1) ⟨le_rfl, fun _ => hn⟩ hx.1
      (by simp only [Scheme.rings]; omega)).le

theorem pos_inj {σ : Scheme} {L nside t p u q : ℤ} (hv : σ.Valid L nside) (h1 : σ.Has L nside t p)
    (h2 : σ.Has L nside u q) (h : σ.pos nside t p = σ.pos nside u q) : t = u ∧ p = q := by
  by_cases hhp : σ = .healpix
  · subst hhp
    have hn := hv.2 rfl
    simp only [Scheme.pos, Prod.mk.injEq, true_and] at h
    obtain ⟨a1, a2, a3, a4⟩ := h1
    obtain ⟨b1, b2, b3, b4⟩ := h2
    simp only [Scheme.ringLen, Scheme.rings] at a2 a4 b2 b4
    rcases lt_trichotomy t u with c | c | c
    · have := ringStart_le_ringStart a1 c b2 hn; omega
    · subst c; exact ⟨rfl, by omega⟩
    · have := ringStart_le_ringStart b1 c a2 hn; omega
  · revert h hhp; cases σ <;> simp [Scheme.pos]

end S2fft
