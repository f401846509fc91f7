import Verif.Lemmas.Gradient
import Verif.Lemmas.OtfForward

/-!
# C33: the hand-written reverse rules are adjoints

Here the rules of `inverse_jax`, `forward_jax` and of the PyTorch wrapper; those of the SSHT and HEALPy
backends are in `C33Backend`. The rules of `inverse_jax` and `forward_jax` are about the step between
harmonic and Fourier coefficients, which is linear over the complex numbers, and they are proved to be
its transposes, `∑ B(g) x = ∑ g A(x)`, which is more than `IsVjp` asks for (`C33_transpose_vjp`). The
band-limit is at least two.
-/

namespace S2fft
open Spec

/-- The `precomps` argument: absent, or made by the JAX generator for the same problem. -/
def JaxPrecompsArg (G : Machine) (L spin : ℤ) (s : PyStr) (nside : Option ℤ) (forward : Bool)
    (precomps : Option PmPre) : Prop :=
  precomps = none ∨ ∃ P, precomputesJax G L spin s nside forward = .ok P ∧ precomps = some P

/-- Transposes are reverse rules. -/
theorem C33_transpose_vjp {r c r' c' : ℤ} {A B : (ℤ → ℤ → ℂ) → ℤ → ℤ → ℂ}
    (h : ∀ x g, dot2 r c (B g) x = dot2 r' c' g (A x)) : IsVjp r c r' c' A B :=
  fun x g => by rw [h]

theorem rings_two (σ : Scheme) {L ns : ℤ} (hv : σ.Valid L ns) (hL : 2 ≤ L) : 2 ≤ σ.rings L ns := by
  cases σ
  case healpix =>
    have : 1 ≤ ns := hv.2 rfl
    show 2 ≤ 4 * ns - 1
    omega
  all_goals
    simp only [Scheme.rings]
    omega

theorem innerRings_two (σ : Scheme) {L ns : ℤ} (hv : σ.Valid L ns) (hL : 2 ≤ L) :
    2 ≤ innerRings σ L ns := by
  unfold innerRings
  split_ifs
  · omega
  · exact rings_two σ hv hL

theorem inverseStep_precomps {G : Machine} {σ : Scheme} {L spin nt : ℤ} {nside : Option ℤ}
    {θ : ℤ → ℝ} (e : otfThetas G L σ.name nside = .ok (nt, θ)) {precomps : Option PmPre}
    (hP : JaxPrecompsArg G L spin σ.name nside false precomps) (F : ℤ → ℤ → ℂ) (reality : Bool)
    (lo : ℤ) :
    inverseLatitudinalStepJax F θ nt L spin σ.name reality precomps lo
      = inverseLatitudinalStepJax F θ nt L spin σ.name reality none lo := by
  rcases hP with rfl | ⟨P, h, rfl⟩
  · rfl
  · have : P = generatePrecomputesJax L spin θ := by
      unfold otfThetas at e
      unfold precomputesJax pmAngles otfKernelThetas kernelThetas at h
      simp only [Bool.false_eq_true, false_and, if_false] at h
      cases ht : thetas G.nodes (some L) σ.name nside with
      | error x => rw [ht] at e; cases e
      | ok v =>
        obtain ⟨n, t⟩ := v
        rw [ht] at e h
        simp only [bind, Except.bind, pure, Except.pure] at e h
        injection e with e
        injection h with h
        injection e with e1 e2
        rw [← h, ← e2]
    subst this
    rfl

theorem forwardStep_precomps {G : Machine} {σ : Scheme} {L spin nt : ℤ} {nside : Option ℤ}
    {θ : ℤ → ℝ} (e : otfKernelThetas G L σ.name nside true = .ok (nt, θ)) {precomps : Option PmPre}
    (hP : JaxPrecompsArg G L spin σ.name nside true precomps) (g : ℤ → ℤ → ℂ) (width : ℤ)
    (reality : Bool) (lo : ℤ) :
    forwardLatitudinalStepJax g θ nt L spin width σ.inner.name reality precomps lo
      = forwardLatitudinalStepJax g θ nt L spin width σ.inner.name reality none lo := by
  rcases hP with rfl | ⟨P, h, rfl⟩
  · rfl
  · have hP : P = generatePrecomputesJax L spin
        (fun t => θ (t + if lower σ.inner.name = sMWSS then 1 else 0)) := by
      unfold precomputesJax pmAngles at h
      rw [e] at h
      simp only [bind, Except.bind, pure, Except.pure] at h
      injection h with h
      rw [← h]
      have hi : (lower σ.name = sMW ∨ lower σ.name = sMWSS) ↔ lower σ.inner.name = sMWSS := by
        clear e h
        cases σ <;> decide
      by_cases hc : lower σ.inner.name = sMWSS
      · rw [if_pos ⟨trivial, hi.2 hc⟩, if_pos hc]
      · rw [if_neg (fun h => hc (hi.1 h.2)), if_neg hc]
        simp only [add_zero]
    subst hP
    rfl

/-- `inverse_jax`: the rule `f_bwd` is the transpose of the step `flm_to_ftm`, from harmonic
coefficients `(L, 2L - 1)` to Fourier coefficients of the rings, at the angles of the grid. -/
theorem C33_inverse_rule (G : Machine) (σ : Scheme) (L spin : ℤ) (nside : Option ℤ)
    (hv : σ.Valid L (nside.getD 0)) (hL : 2 ≤ L) (hsp : |spin| < L) (lo : ℤ) (h0 : 0 ≤ lo)
    (reality : Bool) (precomps : Option PmPre)
    (hP : JaxPrecompsArg G L spin σ.name nside false precomps) :
    ∃ θ, otfThetas G L σ.name nside = .ok (σ.rings L (nside.getD 0), θ) ∧
      ∀ x g, dot2 L (2 * L - 1)
          (inverseJaxRule g θ (σ.rings L (nside.getD 0)) L spin (2 * L - 1 + σ.off) σ.name reality lo) x
        = dot2 (σ.rings L (nside.getD 0)) (2 * L - 1 + σ.off) g
          (inverseLatitudinalStepJax x θ (σ.rings L (nside.getD 0)) L spin σ.name reality precomps
            lo) := by
  obtain ⟨θ, e, -⟩ := otfThetas_scheme G (lower_name σ) hv
  refine ⟨θ, e, fun x g => ?_⟩
  rw [inverseStep_precomps e hP]
  exact (latitudinal_dual σ g x θ hL hsp h0 (rings_two σ hv hL) reality).symm

/-- `forward_jax`: the rule `f_bwd` is the transpose of the step `ftm_to_flm`, from the Fourier
coefficients of the rings — those of the resampled grid for MW and MWSS — to harmonic coefficients. -/
theorem C33_forward_rule (G : Machine) (σ : Scheme) (L spin : ℤ) (nside : Option ℤ)
    (hv : σ.Valid L (nside.getD 0)) (hL : 2 ≤ L) (hsp : |spin| < L) (lo : ℤ) (h0 : 0 ≤ lo)
    (reality : Bool) (precomps : Option PmPre)
    (hP : JaxPrecompsArg G L spin σ.name nside true precomps) :
    ∃ θ, otfKernelThetas G L σ.name nside true = .ok (innerRings σ L (nside.getD 0), θ) ∧
      ∀ x g, dot2 (innerRings σ L (nside.getD 0)) (2 * L - 1 + σ.inner.off)
          (forwardJaxRule g θ (innerRings σ L (nside.getD 0)) L spin σ.inner.name reality lo) x
        = dot2 L (2 * L - 1) g
          (forwardLatitudinalStepJax x θ (innerRings σ L (nside.getD 0)) L spin
            (2 * L - 1 + σ.inner.off) σ.inner.name reality precomps lo) := by
  obtain ⟨θ, e, -⟩ := otfKernelThetas_ok G (lower_name σ) hv
  refine ⟨θ, e, fun x g => ?_⟩
  rw [forwardStep_precomps e hP, dot2_comm, dot2_comm L]
  exact latitudinal_dual σ.inner x g θ hL hsp h0 (innerRings_two σ hv hL) reality

/-- Reverse rules compose, so that the rules above and right ones for the other steps give a right
rule for the transforms. -/
theorem C33_chain {r c r' c' r'' c'' : ℤ} {A B A' B' : (ℤ → ℤ → ℂ) → ℤ → ℤ → ℂ}
    (h : IsVjp r c r' c' A B) (h' : IsVjp r' c' r'' c'' A' B') :
    IsVjp r c r'' c'' (fun x => A' (A x)) (fun g => B (B' g)) :=
  fun x g => by rw [h, h']

theorem dot2_conj (r c : ℤ) (a b : ℤ → ℤ → ℂ) :
    dot2 r c (conj2 a) (conj2 b) = (starRingEnd ℂ) (dot2 r c a b) := by
  unfold dot2 conj2
  simp only [map_sum, map_mul]

/-- The PyTorch wrapper: its `backward` is right, in PyTorch's convention, exactly when the reverse
rule of JAX that it calls is, in that of JAX. -/
theorem C33_torch {r c r' c' : ℤ} (A vjp : (ℤ → ℤ → ℂ) → ℤ → ℤ → ℂ) :
    IsTorchBackward r c r' c' A (torchBackward vjp) ↔ IsVjp r c r' c' A vjp := by
  have hc : ∀ a, conj2 (conj2 a) = a := fun a => by
    funext i j; exact Complex.conj_conj _
  have ht : ∀ g, conj2 (torchBackward vjp g) = vjp (conj2 g) := fun g => by
    funext i j; exact Complex.conj_conj _
  unfold IsTorchBackward IsVjp
  constructor
  · intro h x g
    have := h x (conj2 g)
    rwa [ht, hc] at this
  · intro h x g
    rw [ht]
    exact h x (conj2 g)

/-- The PyTorch form of a complex-linear step: `backward` is the Hermitian adjoint. -/
theorem C33_torch_adjoint {r c r' c' : ℤ} (A B : (ℤ → ℤ → ℂ) → ℤ → ℤ → ℂ)
    (h : ∀ x g, dot2 r c (B g) x = dot2 r' c' g (A x)) (x g : ℤ → ℤ → ℂ) :
    dot2 r c (conj2 (torchBackward B g)) x = dot2 r' c' (conj2 g) (A x) := by
  have ht : conj2 (torchBackward B g) = B (conj2 g) := by
    funext i j; exact Complex.conj_conj _
  rw [ht, h]

/-! ## The hypotheses are met -/

example (G : Machine) (reality : Bool) :
    ∃ θ, otfThetas G 3 Scheme.mwss.name none = .ok (4, θ) ∧
      ∀ x g, dot2 3 5 (inverseJaxRule g θ 4 3 (-2) 6 Scheme.mwss.name reality 1) x
        = dot2 4 6 g (inverseLatitudinalStepJax x θ 4 3 (-2) Scheme.mwss.name reality none 1) :=
  C33_inverse_rule G .mwss 3 (-2) none ⟨by decide, nofun⟩ (by decide) (by decide) 1 (by decide) reality none
    (Or.inl rfl)

example (G : Machine) : ∃ θ, otfKernelThetas G 4 Scheme.healpix.name (some 2) true = .ok (7, θ) ∧
      ∀ x g, dot2 7 8 (forwardJaxRule g θ 7 4 1 Scheme.healpix.name false 0) x
        = dot2 4 7 g (forwardLatitudinalStepJax x θ 7 4 1 8 Scheme.healpix.name false none 0) :=
  C33_forward_rule G .healpix 4 1 (some 2) ⟨by decide, fun _ => by decide⟩ (by decide) (by decide) 0 (by decide) false none
    (Or.inl rfl)

end S2fft
