import Mathlib.Analysis.SpecialFunctions.Trigonometric.Basic
import Mathlib.LinearAlgebra.Matrix.Notation

/-!
# Rotations of three-dimensional space

`R(α, β, γ) = R_z(α) R_y(β) R_z(γ)`, the Euler angles in the zyz convention, and the unit vector in
the direction `(θ, φ)`.
-/

namespace S2fft.Spec

/-- Rotation about the z-axis. -/
noncomputable def rotZ (a : ℝ) : Matrix (Fin 3) (Fin 3) ℝ :=
  !![Real.cos a, -Real.sin a, 0; Real.sin a, Real.cos a, 0; 0, 0, 1]

/-- Rotation about the y-axis. -/
noncomputable def rotY (b : ℝ) : Matrix (Fin 3) (Fin 3) ℝ :=
  !![Real.cos b, 0, Real.sin b; 0, 1, 0; -Real.sin b, 0, Real.cos b]

/-- Rotation with the Euler angles `(α, β, γ)`. -/
noncomputable def euler (α β γ : ℝ) : Matrix (Fin 3) (Fin 3) ℝ := rotZ α * rotY β * rotZ γ

/-- The unit vector with colatitude `θ` and longitude `φ`. -/
noncomputable def direction (θ φ : ℝ) : Fin 3 → ℝ :=
  ![Real.sin θ * Real.cos φ, Real.sin θ * Real.sin φ, Real.cos θ]

end S2fft.Spec
