import Verif.Model.Risbo
import Verif.Py.Fft

/-!
# Rotation of harmonic coefficients

Models `s2fft/utils/rotation.py`. Array positions are integers; every index used is inside the
arrays for `flm` of shape `(L, 2L-1)` and planes of shape `(2L-1, 2L-1)`.
-/

namespace S2fft

/-- `__exp_array(L, x)` (rotation.py 70-73): `exp(-1j * arange(-L + 1, L) * x)`. -/
noncomputable def expArray (L : ℤ) (x : ℝ) : ℤ → ℂ := fun i => cis (-((-L + 1 + i : ℤ) * x))

/-- `flm_rotated.at[el, L - 1 + m].add(v)` for `m = arange(-el, el + 1)` (rotation.py 54-66); the
positions are distinct. -/
noncomputable def addOrders (a : ℤ → ℤ → ℂ) (el L : ℤ) (v : ℤ → ℂ) : ℤ → ℤ → ℂ :=
  fun x y => if x = el ∧ (L - 1 - el ≤ y ∧ y < L + el) then a x y + v (y - (L - 1)) else a x y

/-- The two `einsum`s (rotation.py 55-65): entry `m` of the rotated degree `el`, given the plane
that is indexed `[m + L - 1, n + L - 1]`. -/
noncomputable def rotateDegree (plane : ℤ → ℤ → ℝ) (alpha gamma : ℤ → ℂ) (flm : ℤ → ℤ → ℂ)
    (L el m : ℤ) : ℂ :=
  let n_max := min el (L - 1)
  ∑ n ∈ Finset.Ico (-n_max) (n_max + 1),
    ((plane (m + L - 1) (n + L - 1) : ℂ) * alpha (m + L - 1))
      * (gamma (n + L - 1) * flm el (n + L - 1))

/-- `rotate_flms` (rotation.py 10-67). `dls` is the optional `dl_array`. -/
noncomputable def rotateFlms (flm : ℤ → ℤ → ℂ) (L : ℤ) (rotation : ℝ × ℝ × ℝ)
    (dls : Option (ℤ → ℤ → ℤ → ℝ)) : ℤ → ℤ → ℂ :=
  let alpha := expArray L rotation.1
  let gamma := expArray L rotation.2.2
  let beta := rotation.2.1
  match dls with
  | none =>
    (forRange 0 L (fun el (s : (ℤ → ℤ → ℝ) × (ℤ → ℤ → ℂ)) =>
      let dl := risboFullJax s.1 beta L el
      (dl, addOrders s.2 el L (rotateDegree dl alpha gamma flm L el)))
      (fun _ _ => 0, fun _ _ => 0)).2
  | some dl =>
    forRange 0 L (fun el out =>
      addOrders out el L (rotateDegree (dl el) alpha gamma flm L el)) (fun _ _ => 0)

/-- `generate_rotate_dls` (rotation.py 76-96). -/
noncomputable def generateRotateDls (L : ℤ) (beta : ℝ) : ℤ → ℤ → ℤ → ℝ :=
  (forRange 0 L (fun el (s : (ℤ → ℤ → ℝ) × (ℤ → ℤ → ℤ → ℝ)) =>
    let dlIter := risboFullJax s.1 beta L el
    (dlIter, fun p x y => if p = el then s.2 p x y + dlIter x y else s.2 p x y))
    (fun _ _ => 0, fun _ _ _ => 0)).2

end S2fft
