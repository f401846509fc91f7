import Verif.Model.Spherical

/-!
# Hand-written reverse rules

Models the `custom_vjp` rules of `s2fft/transforms/spherical.py` and the reverse rule of
`s2fft/utils/torch_wrapper.py`.
-/

namespace S2fft

/-- `f_bwd` of `inverse_jax` (spherical.py 309-322), the rule of the latitudinal step: `gtm` is the
cotangent, of shape `(nt, width)`; the coefficients of the recursion are made anew. -/
noncomputable def inverseJaxRule (gtm : ℤ → ℤ → ℂ) (θ : ℤ → ℝ) (nt L spin width : ℤ)
    (sampling : PyStr) (reality : Bool) (lo : ℤ) : ℤ → ℤ → ℂ :=
  forwardLatitudinalStepJax gtm θ nt L spin width sampling reality none lo

/-- `f_bwd` of `forward_jax` (spherical.py 714-727). -/
noncomputable def forwardJaxRule (glm : ℤ → ℤ → ℂ) (θ : ℤ → ℝ) (nt L spin : ℤ) (sampling : PyStr)
    (reality : Bool) (lo : ℤ) : ℤ → ℤ → ℂ :=
  inverseLatitudinalStepJax glm θ nt L spin sampling reality none lo

/-- `WrappedJaxFunction.backward` (torch_wrapper.py 225-236) for one differentiable argument and one
result: `vjp` is the reverse rule that `jax.vjp` returned. The conversions between tensors and arrays
do not change values. -/
noncomputable def torchBackward (vjp : (ℤ → ℤ → ℂ) → ℤ → ℤ → ℂ) (g : ℤ → ℤ → ℂ) : ℤ → ℤ → ℂ :=
  let g : ℤ → ℤ → ℂ := fun i j => (starRingEnd ℂ) (g i j)
  let r := vjp g
  fun i j => (starRingEnd ℂ) (r i j)

end S2fft
