import Verif.Py.Basic
import Mathlib.Analysis.Complex.Basic

/-!
# Reverse-mode derivatives of linear maps

A linear map is its own derivative. A reverse rule takes a cotangent of the output to one of the
input. For complex arrays, in JAX a cotangent `g` of `y` stands for the real functional
`dy ↦ Re (∑ g dy)`; in PyTorch for `dy ↦ Re (∑ conj(g) dy)`. The reverse rule of `A` is right when the
functional of the cotangent it returns is that of `g` composed with `A`.
-/

namespace S2fft.Spec

/-- `∑ a * b` over an array of shape `(n,)`. -/
noncomputable def dot1 (n : ℤ) (a b : ℤ → ℂ) : ℂ := ∑ i ∈ Finset.Ico 0 n, a i * b i

/-- `∑ a * b` over arrays of shape `(r, c)`. -/
noncomputable def dot2 (r c : ℤ) (a b : ℤ → ℤ → ℂ) : ℂ :=
  ∑ i ∈ Finset.Ico 0 r, ∑ j ∈ Finset.Ico 0 c, a i j * b i j

/-- JAX: `B` is the reverse rule of `A`, which takes arrays of shape `(r, c)` to arrays of shape
`(r', c')`. -/
def IsVjp (r c r' c' : ℤ) (A B : (ℤ → ℤ → ℂ) → ℤ → ℤ → ℂ) : Prop :=
  ∀ x g, (dot2 r c (B g) x).re = (dot2 r' c' g (A x)).re

/-- The conjugate of an array. -/
noncomputable def conj2 (a : ℤ → ℤ → ℂ) : ℤ → ℤ → ℂ := fun i j => (starRingEnd ℂ) (a i j)

/-- PyTorch: `B` is the reverse rule of `A`. -/
def IsTorchBackward (r c r' c' : ℤ) (A B : (ℤ → ℤ → ℂ) → ℤ → ℤ → ℂ) : Prop :=
  ∀ x g, (dot2 r c (conj2 (B g)) x).re = (dot2 r' c' (conj2 g) (A x)).re

end S2fft.Spec
