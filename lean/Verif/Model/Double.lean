import Verif.Model.Samples
import Verif.Spec.Double

/-!
# Functions of `s2_samples.py` in double precision

The same functions as in `Model/Samples.lean`, with a rounding wherever the code does an operation on
floats. Operations on Python integers are exact; an integer that meets a float is converted, which
rounds.
-/

namespace S2fft
open Spec

/-- s2_samples.py:516-534 `ind2elm`. The results are floats. -/
noncomputable def ind2elmF (F : DoubleLib) (ind : ℤ) : ℝ × ℝ :=
  let el : ℝ := (⌊F.fl (Real.sqrt (F.fl ind))⌋ : ℝ)
  (el, F.fl (F.fl (F.fl ind - F.fl (el ^ 2)) - el))

/-- s2_samples.py:284-308 `_t2theta_healpix`. The ring index is a float (line 224). -/
noncomputable def t2theta_healpixF (F : DoubleLib) (t nside : ℤ) : ℝ :=
  F.arccos
    (if t < nside - 1 then
      F.fl (1 - F.fl (F.fl (F.fl ((t : ℝ) + 1) ^ 2) / F.fl ((3 * nside ^ 2 : ℤ) : ℝ)))
     else if t ≥ nside - 1 ∧ t ≤ 3 * nside - 1 then
      F.fl (F.fl (4 / 3) - F.fl (F.fl (2 * F.fl ((t : ℝ) + 1)) / F.fl ((3 * nside : ℤ) : ℝ)))
     else if t > 3 * nside - 1 ∧ t ≤ 4 * nside - 2 then
      F.fl (F.fl (F.fl (F.fl (F.fl ((4 * nside - 1 : ℤ) : ℝ) - t) ^ 2) /
        F.fl ((3 * nside ^ 2 : ℤ) : ℝ)) - 1)
     else 0)

/-- s2_samples.py:329-353 `p2phi_ring`. The pixel index is a float (line 324). -/
noncomputable def p2phi_ringF (F : DoubleLib) (t p nside : ℤ) : ℝ :=
  let pi := F.fl Real.pi
  if t + 1 ≥ nside ∧ t + 1 ≤ 3 * nside then
    let shift := F.fl (1 / 2 * (((t - nside + 2) % 2 : ℤ) : ℝ))
    F.fl (F.fl (pi / F.fl ((2 * nside : ℤ) : ℝ)) * F.fl ((p : ℝ) + shift))
  else if t + 1 > 3 * nside then
    F.fl (F.fl (pi / F.fl ((2 * (4 * nside - t - 1) : ℤ) : ℝ)) * F.fl ((p : ℝ) + 1 / 2))
  else
    F.fl (F.fl (pi / F.fl ((2 * (t + 1) : ℤ) : ℝ)) * F.fl ((p : ℝ) + 1 / 2))

/-- s2_samples.py:571-622 `_hp_zphi2pix`. -/
noncomputable def hp_zphi2pixF (F : DoubleLib) (nside : ℤ) (z phi : ℝ) : ℤ :=
  let tt : ℝ := F.fl (F.fl (2 * phi) / F.fl Real.pi)
  let za : ℝ := |z|
  let n : ℝ := F.fl nside
  let nl2 : ℤ := 2 * nside
  let nl4 : ℤ := 4 * nside
  let ncap : ℤ := nl2 * (nside - 1)
  let npix : ℤ := 12 * nside ^ 2
  let ipix1 : ℤ :=
    if za < F.fl (2 / 3) then
      let jp := pyInt (F.fl (n * F.fl (F.fl (1 / 2 + tt) - F.fl (3 / 4 * z))))
      let jm := pyInt (F.fl (n * F.fl (F.fl (1 / 2 + tt) + F.fl (3 / 4 * z))))
      let ir := nside + 1 + jp - jm
      let kshift : ℤ := if ir % 2 = 0 then 1 else 0
      let ip := pyInt (F.fl (((jp + jm - nside + kshift + 1 : ℤ) : ℝ) / 2)) + 1
      ncap + nl4 * (ir - 1) + ip
    else
      let tp : ℝ := F.fl (tt - F.fl (pyInt tt : ℝ))
      let tmp : ℝ := F.fl (Real.sqrt (F.fl (3 * F.fl (1 - za))))
      let jp := pyInt (F.fl (F.fl (n * tp) * tmp))
      let jm := pyInt (F.fl (F.fl (n * F.fl (1 - tp)) * tmp))
      let ir := jp + jm + 1
      let ip0 := pyInt (F.fl (tt * F.fl (ir : ℝ))) + 1
      let ip := if ip0 > 4 * ir then ip0 - 4 * ir else ip0
      if z ≤ 0 then npix - 2 * ir * (ir + 1) + ip else 2 * ir * (ir - 1) + ip
  ipix1 - 1

/-- s2_samples.py:551-568 `hp_ang2pix`. -/
noncomputable def hp_ang2pixF (F : DoubleLib) (nside : ℤ) (theta phi : ℝ) : ℤ :=
  hp_zphi2pixF F nside (F.cos theta) phi

/-- s2_samples.py:840, 891 `int(L * (L + 1) / 2)`: the length of a list in healpy's order. -/
noncomputable def hpCountF (F : DoubleLib) (L : ℤ) : ℤ :=
  pyInt (F.fl (((L * (L + 1) : ℤ) : ℝ) / 2))

/-- `int(a / b)` for Python integers: the number of rings or degrees per device
(otf_recursions.py:382, 839) and the number of computed nodes (quadrature.py:141,
quadrature_jax.py:143). -/
noncomputable def intDivF (F : DoubleLib) (a b : ℤ) : ℤ := pyInt (F.fl ((a : ℝ) / b))

end S2fft
