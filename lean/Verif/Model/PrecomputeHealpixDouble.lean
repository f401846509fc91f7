import Verif.Model.PrecomputeDouble

/-! # The precomputed kernel of the HEALPix grid in double precision -/

namespace S2fft
open Spec

/-- `ring_phase_shift_hp` (s2_samples.py 412-443) without the reality flag, as `healpix_phase_shifts`
(construct.py 675-696) calls it. The factors `sign * 1j` and the integers are exact. -/
noncomputable def ringPhaseShiftHpF (F : DoubleLib) (L t nside : ℤ) (forward : Bool) (j : ℤ) : ℂ :=
  expIF F ((if forward then -1 else 1) * (-L + 1 + j)) (p2phi_ringF F t 0 nside)

/-- `spin_spherical_kernel` (construct.py 16-161) for HEALPix, with the Risbo recursion. `w` is the array of
quadrature weights that `quad_weights_transform` returns. -/
noncomputable def spinSphericalKernelHpF (F : FftLib) (w : ℤ → ℝ) (L spin nside : ℤ) (reality forward : Bool) :
    Except PyErr (Nd ℂ) := do
  let reality := if reality = true ∧ spin ≠ 0 then false else reality
  let (nt, θ) ← thetasF F.toDoubleLib (fun _ _ => 0) (some L) sHP (some nside)
  let dl ← kernelRisboF F L spin sHP nt θ reality
  let dl : ℤ → ℤ → ℤ → ℝ := if forward then fun t el j => F.fl (dl t el j * w t) else dl
  pure (.d3 nt L (mDim L reality) (fun t el j => F.mul (dl t el j)
    (ringPhaseShiftHpF F.toDoubleLib L t nside forward (mStart L reality + j))))

end S2fft
