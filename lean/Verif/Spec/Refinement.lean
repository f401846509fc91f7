import Verif.Spec.Energy
import Verif.Model.Base

/-!
# Iterative refinement

How good a round trip is, and what refining towards the nearest synthesized signal means.
-/

namespace S2fft.Spec

/-- Synthesis followed by analysis changes coefficients of the degrees `lo ≤ l < L` by at most a
fraction `δ`, in the mean square. -/
def RoundTripWithin (L lo : ℤ) (δ : ℝ) (bwd fwd : Nd ℂ → Except PyErr (Nd ℂ)) : Prop :=
  ∀ (c : ℤ → ℤ → ℂ) (F : Nd ℂ) (g : ℤ → ℤ → ℂ), (∀ l k, l < lo → c l k = 0) →
    bwd (.d2 L (2 * L - 1) c) = .ok F → fwd F = .ok (.d2 L (2 * L - 1) g) →
    coeffEnergy lo L (fun l m => c l (m + L - 1) - g l (m + L - 1))
      ≤ δ ^ 2 * coeffEnergy lo L fun l m => c l (m + L - 1)

/-- No synthesized signal is nearer the samples `f` than `F`, and only coefficients that agree with `c`
on the degrees `lo ≤ l < L` give one as near. -/
def Nearest (σ : Scheme) (L nside : ℤ) (w : ℤ → ℝ) (lo : ℤ) (bwd : Nd ℂ → Except PyErr (Nd ℂ))
    (f F : Nd ℂ) (c : ℤ → ℤ → ℂ) : Prop :=
  ∀ (c' : ℤ → ℤ → ℂ) (F' : Nd ℂ), (∀ l k, l < lo → c' l k = 0) →
    bwd (.d2 L (2 * L - 1) c') = .ok F' →
    sampleEnergy σ L nside w (f.get2 - F.get2) ≤ sampleEnergy σ L nside w (f.get2 - F'.get2) ∧
    (sampleEnergy σ L nside w (f.get2 - F'.get2) ≤ sampleEnergy σ L nside w (f.get2 - F.get2) →
      ∀ l m, lo ≤ l → l < L → |m| ≤ l → c' l (m + L - 1) = c l (m + L - 1))

/-- There are coefficients `c` whose synthesis is the nearest to the samples, and `run n`, the analysis
with `n` refinements, returns coefficients within the fraction `δ ^ (n + 1)` of them, whose own
synthesis is correspondingly near the samples. -/
def Refines (σ : Scheme) (L nside : ℤ) (w : ℤ → ℝ) (lo : ℤ) (δ : ℝ)
    (bwd : Nd ℂ → Except PyErr (Nd ℂ)) (f : Nd ℂ) (run : ℤ → Except PyErr (Nd ℂ)) : Prop :=
  ∃ (c : ℤ → ℤ → ℂ) (F : Nd ℂ), (∀ l k, l < lo → c l k = 0) ∧
    bwd (.d2 L (2 * L - 1) c) = .ok F ∧ Nearest σ L nside w lo bwd f F c ∧
    ∀ n : ℕ, ∃ (g : ℤ → ℤ → ℂ) (F' : Nd ℂ), run n = .ok (.d2 L (2 * L - 1) g) ∧
      bwd (.d2 L (2 * L - 1) g) = .ok F' ∧
      coeffEnergy lo L (fun l m => c l (m + L - 1) - g l (m + L - 1))
        ≤ δ ^ (2 * (n + 1)) * coeffEnergy lo L (fun l m => c l (m + L - 1)) ∧
      sampleEnergy σ L nside w (f.get2 - F'.get2)
        ≤ sampleEnergy σ L nside w (f.get2 - F.get2)
          + 2 * δ ^ (2 * (n + 1)) * coeffEnergy lo L fun l m => c l (m + L - 1)

end S2fft.Spec
