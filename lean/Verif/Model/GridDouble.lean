import Verif.Model.Double

/-!
# The sample angles in double precision

The angles of `s2_samples.py` with a rounding wherever the code does an operation on floats. The
HEALPix formulas for one ring or pixel are in `Model/Double.lean`.
-/

namespace S2fft
open Spec

/-- s2_samples.py:229-281 `t2theta`. The index is a float (line 224). -/
noncomputable def t2thetaF (F : DoubleLib) (t : ℤ) (L : Option ℤ) (sampling : PyStr)
    (nside : Option ℤ) : Except PyErr ℝ :=
  let pi := F.fl Real.pi
  if lower sampling = sHP then
    match nside with
    | none => .error .valueError
    | some nside => .ok (t2theta_healpixF F t nside)
  else
    match L with
    | none => .error .valueError
    | some L =>
      if lower sampling = sMW then
        .ok (F.fl (F.fl (F.fl (F.fl (2 * F.fl t) + 1) * pi) / F.fl ((2 * L - 1 : ℤ) : ℝ)))
      else if lower sampling = sMWSS then
        .ok (F.fl (F.fl (F.fl (2 * F.fl t) * pi) / F.fl ((2 * L : ℤ) : ℝ)))
      else if lower sampling = sDH then
        .ok (F.fl (F.fl (F.fl (F.fl (2 * F.fl t) + 1) * pi) / F.fl ((4 * L : ℤ) : ℝ)))
      else .error .valueError

/-- s2_samples.py:203-226 `thetas`; `leggauss` are the stored nodes. -/
noncomputable def thetasF (F : DoubleLib) (leggauss : ℤ → ℤ → ℝ) (L : Option ℤ) (sampling : PyStr)
    (nside : Option ℤ) : Except PyErr (ℤ × (ℤ → ℝ)) :=
  if lower sampling = sGL then
    match L with
    | none => .error .typeError
    | some L => .ok (L, fun t => F.arccos (leggauss L (L - 1 - t)))
  else do
    let n ← ntheta L sampling nside
    let _ ← t2thetaF F 0 L sampling nside
    pure (n, fun t => match t2thetaF F t L sampling nside with
      | .ok θ => θ
      | .error _ => 0)

/-- s2_samples.py:311-326 `phis_ring`. -/
noncomputable def phis_ringF (F : DoubleLib) (t nside : ℤ) : Except PyErr (ℤ × (ℤ → ℝ)) := do
  let n ← nphi_ring t nside
  pure (n, fun p => p2phi_ringF F t p nside)

/-- s2_samples.py:375-409 `p2phi_equiang`. The index is an integer (line 371). -/
noncomputable def p2phi_equiangF (F : DoubleLib) (L p : ℤ) (sampling : PyStr) : Except PyErr ℝ :=
  let pi := F.fl Real.pi
  let num := F.fl (F.fl ((2 * p : ℤ) : ℝ) * pi)
  if lower sampling = sMW ∨ lower sampling = sGL then .ok (F.fl (num / F.fl ((2 * L - 1 : ℤ) : ℝ)))
  else if lower sampling = sMWSS then .ok (F.fl (num / F.fl ((2 * L : ℤ) : ℝ)))
  else if lower sampling = sDH then .ok (F.fl (num / F.fl ((2 * L - 1 : ℤ) : ℝ)))
  else if lower sampling = sHP then .error .valueError
  else .error .valueError

/-- s2_samples.py:356-372 `phis_equiang`. -/
noncomputable def phis_equiangF (F : DoubleLib) (L : ℤ) (sampling : PyStr) :
    Except PyErr (ℤ × (ℤ → ℝ)) := do
  let n ← nphi_equiang L sampling
  pure (n, fun p => match p2phi_equiangF F L p sampling with
    | .ok φ => φ
    | .error _ => 0)

/-- `np.isclose(a, b, atol=atol)`; the tolerance is computed in doubles too. -/
def iscloseF (F : DoubleLib) (a b atol : ℝ) : Prop :=
  |F.fl (a - b)| ≤ F.fl (F.fl atol + F.fl (F.fl 1e-5 * |b|))

end S2fft
