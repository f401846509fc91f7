import Verif.Spec.Rotation
import Verif.Spec.Harmonic

/-!
# Rotated signals and the size of a degree

Coefficient `(l, m)` of an array of shape `(L, 2L-1)` is stored at `[l, m + L - 1]`.
-/

namespace S2fft.Spec

/-- The square root of the power in degree `l`. -/
noncomputable def degreeNorm (L : ℤ) (f : ℤ → ℤ → ℂ) (l : ℤ) : ℝ :=
  √(∑ m ∈ Finset.Ico (-l) (l + 1), ‖f l (m + L - 1)‖ ^ 2)

/-- `g` stores the signal stored in `f`, turned by the rotation with the Euler angles `(α, β, γ)`: its
value in the direction `R v` is the value of the signal `f` in the direction `v`. -/
def IsRotated (L : ℤ) (α β γ : ℝ) (f g : ℤ → ℤ → ℂ) : Prop :=
  ∀ θ φ θ' φ' : ℝ, direction θ φ = (euler α β γ).mulVec (direction θ' φ') →
    harmonicSum 0 L 0 (fun l m => g l (m + L - 1)) θ φ
      = harmonicSum 0 L 0 (fun l m => f l (m + L - 1)) θ' φ'

end S2fft.Spec
