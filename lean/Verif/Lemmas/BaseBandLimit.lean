import Verif.Lemmas.BaseLower
import Verif.Props.C23

/-! # Band-limited signals in the forward transform -/

namespace S2fft
open Spec

/-- `f` holds the samples of `g` on the grid. -/
def SamplesOf (nodes : ℤ → ℤ → ℝ) (σ : Scheme) (L nside : ℤ) (f : ℤ → ℤ → ℂ) (g : ℝ → ℝ → ℂ) :
    Prop :=
  ∀ t p, σ.Has L nside t p →
    f (σ.pos nside t p).1 (σ.pos nside t p).2 = g (σ.theta nodes L nside t) (σ.phi L nside t p)

theorem upsample_sph {L nside spin : ℤ} (hL : 1 ≤ L) (nodes : ℤ → ℤ → ℝ) {F : ℤ → ℤ → ℂ}
    (hF : PoleParity spin F) {f : ℤ → ℤ → ℂ}
    (hf : ∀ t p, 0 ≤ t → t < L + 1 → 0 ≤ p → p < 2 * L →
      f t p = sphSignal L L F (t * Real.pi / L) (p * Real.pi / L)) (t p : ℤ) (p0 : 0 ≤ p)
    (p1 : p < 2 * L) :
    innerSignal .mwss L spin f t p
      = sphSignal L L F (innerTheta nodes .mwss L nside t) (Scheme.mwss.phi L nside t p) := by
  have hLr : (L : ℝ) ≠ 0 := by exact_mod_cast (by omega : L ≠ 0)
  have e : ∀ x : ℝ, 2 * x * Real.pi / (2 * (L : ℝ)) = x * Real.pi / L := by
    intro x; field_simp
  obtain ⟨g, θ', h1, h2, h3⟩ := C23_upsample_2d nodes L hL spin F hF f
    (fun t : ℤ => 2 * (t : ℝ) * Real.pi / (2 * (L : ℝ)))
    (fun p : ℤ => 2 * (p : ℝ) * Real.pi / (2 * (L : ℝ))) rfl rfl (by
      intro t p a b c d
      rw [hf t p a b c d, e, e])
  rw [upsample_d2] at h1
  injection h1 with h1
  injection h1 with _ _ h1
  have hθ : θ' t = innerTheta nodes .mwss L nside t := by
    unfold innerTheta
    rw [if_pos (by decide)]
    have h2' : thetas nodes (some (2 * L)) sMWSS none
      = .ok (2 * L + 1, fun t : ℤ => 2 * (t : ℝ) * Real.pi / (2 * ((2 * L : ℤ) : ℝ))) := rfl
    rw [h2'] at h2
    injection h2 with h2
    injection h2 with _ h2
    rw [← h2]
    push_cast
    field_simp
  have hφ : 2 * (p : ℝ) * Real.pi / (2 * (L : ℝ)) = Scheme.mwss.phi L nside t p := by
    simp only [Scheme.phi, Scheme.shift, Scheme.ringLen]
    push_cast; ring
  show upsampleValues (fun _ => f) L (fun _ => spin) 0 t p = _
  rw [h1, h3 t p p0 p1, hθ, hφ]

/-- The resampled signal is the same band-limited signal on the finer grid. -/
theorem innerSignal_sph {σ : Scheme} (hσ : σ.Resampled) {L nside spin : ℤ} (hL : 1 ≤ L)
    (nodes : ℤ → ℤ → ℝ) {F : ℤ → ℤ → ℂ} (hF : PoleParity spin F) {f : ℤ → ℤ → ℂ}
    (hf : SamplesOf nodes σ L nside f (sphSignal L L F)) (t p : ℤ) (p0 : 0 ≤ p) (p1 : p < 2 * L) :
    innerSignal σ L spin f t p
      = sphSignal L L F (innerTheta nodes σ L nside t) (σ.inner.phi L nside t p) := by
  have hLr : (L : ℝ) ≠ 0 := by exact_mod_cast (by omega : L ≠ 0)
  have e : ∀ x : ℝ, 2 * x * Real.pi / (2 * (L : ℝ)) = x * Real.pi / L := by
    intro x; field_simp
  rcases hσ with rfl | rfl
  · obtain ⟨g, θ', φ', h1, h2, h3, h4⟩ := C23_mw_to_mwss_2d nodes L hL spin F hF f
      (fun t : ℤ => (2 * (t : ℝ) + 1) * Real.pi / (2 * (L : ℝ) - 1))
      (fun p : ℤ => 2 * (p : ℝ) * Real.pi / (2 * (L : ℝ) - 1)) rfl rfl (by
        intro t p a b c d
        have := hf t p ⟨a, b, c, d⟩
        simp only [Scheme.pos, Scheme.theta, Scheme.phi, Scheme.shift, Scheme.ringLen] at this
        rw [this]
        congr 1
        push_cast; ring)
    rw [mw_to_mwss_d2] at h1
    injection h1 with h1
    injection h1 with _ _ h1
    have h2' : thetas nodes (some L) sMWSS none
      = .ok (L + 1, fun t : ℤ => 2 * (t : ℝ) * Real.pi / (2 * (L : ℝ))) := rfl
    rw [h2'] at h2
    injection h2 with h2
    injection h2 with _ h2
    have h3' : phis_equiang L sMWSS
      = .ok (2 * L, fun p : ℤ => 2 * (p : ℝ) * Real.pi / (2 * (L : ℝ))) := rfl
    rw [h3'] at h3
    injection h3 with h3
    injection h3 with _ h3
    have := upsample_sph (nside := nside) hL nodes hF (f := g) (by
      intro t p _ _ _ _
      rw [h4 t p, ← h2, ← h3]
      simp only [e]) t p p0 p1
    have e2 : innerTheta nodes .mw L nside t = innerTheta nodes .mwss L nside t := by
      unfold innerTheta; rw [if_pos (by decide), if_pos (by decide)]
    rw [e2]
    show upsampleValues (fun _ => mwssValues (fun _ => f) L (fun _ => spin) 0) L
      (fun _ => spin) 0 t p = _
    rw [h1]
    exact this
  · apply upsample_sph hL nodes hF _ t p p0 p1
    intro t p a b c d
    have := hf t p ⟨a, b, c, d⟩
    simp only [Scheme.pos, Scheme.theta, Scheme.phi, Scheme.shift, Scheme.ringLen] at this
    rw [this]
    congr 1
    push_cast; field_simp; ring

end S2fft
