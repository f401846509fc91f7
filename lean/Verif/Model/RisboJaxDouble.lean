import Verif.Model.RisboDouble
import Verif.Model.Rotation
import Verif.Spec.XlaDouble

/-!
# The JAX Risbo recursion and rotation in double precision

The functions of `Model/Risbo.lean` that model `s2fft/recursions/risbo_jax.py`, and those of
`Model/Rotation.lean`, in 64-bit mode, with a rounding wherever the code does an operation on floats.
Both files are compiled with `jax.jit`, see `Spec/XlaDouble.lean`. Changes of sign are exact, and so is
adding a number to an entry that holds zero.
-/

namespace S2fft
open Spec

/-! ## `risbo_jax.compute_full` -/

/-- `einsum("i,k->ki", a, b) * d` at one position (risbo_jax.py 71-80, 98-115). -/
noncomputable def prefJ (F : XlaLib) (a b d : ℝ) : ℝ := F.fl (F.fl (a * b) * d)

/-- `a.at[r0:r1, c0:c1].add(P * c)`. -/
noncomputable def addBlockJ (F : XlaLib) (site : List ℤ) (a : ℤ → ℤ → ℝ) (r0 r1 c0 c1 : ℤ)
    (P : ℤ → ℤ → ℝ) (c : ℝ) : ℤ → ℤ → ℝ :=
  fun x y => if (r0 ≤ x ∧ x < r1) ∧ (c0 ≤ y ∧ y < c1) then
    F.mulAdd (x :: y :: site) (a x y) (P (x - r0) (y - c0)) c else a x y

/-- First pass (risbo_jax.py 55-83); `dd` is indexed `[k, i]`. -/
noncomputable def risboFirstJ (F : XlaLib) (dl : ℤ → ℤ → ℝ) (coshb sinhb : ℝ) (L el : ℤ) :
    ℤ → ℤ → ℝ :=
  let j := 2 * el - 1
  let dlj := fun k i => dl (k - (el - 1) + L - 1) (i - (el - 1) + L - 1)
  let sqrt_jmk := fun k => sqrtF F.toDoubleLib (j - k)
  let sqrt_kp1 := fun k => sqrtF F.toDoubleLib (k + 1)
  let dd := addBlockJ F [el, 1, 1] (fun _ _ => 0) 0 j 0 j
    (fun k i => prefJ F (sqrt_jmk i) (sqrt_jmk k) (dlj k i)) coshb
  let dd := addBlockJ F [el, 1, 2] dd 0 j 1 (j + 1)
    (fun k i => prefJ F (-sqrt_kp1 i) (sqrt_jmk k) (dlj k i)) sinhb
  let dd := addBlockJ F [el, 1, 3] dd 1 (j + 1) 0 j
    (fun k i => prefJ F (sqrt_jmk i) (sqrt_kp1 k) (dlj k i)) sinhb
  addBlockJ F [el, 1, 4] dd 1 (j + 1) 1 (j + 1)
    (fun k i => prefJ F (sqrt_kp1 i) (sqrt_kp1 k) (dlj k i)) coshb

/-- Second pass (risbo_jax.py 89-118). -/
noncomputable def risboSecondJ (F : XlaLib) (dl dd : ℤ → ℤ → ℝ) (coshb sinhb : ℝ) (L el : ℤ) :
    ℤ → ℤ → ℝ :=
  let j := 2 * el
  let sqrt_jmk := fun k => sqrtF F.toDoubleLib (j - k)
  let sqrt_kp1 := fun k => sqrtF F.toDoubleLib (k + 1)
  let dl := addBlockJ F [el, 2, 1] dl (-el + L - 1) (el + L - 1) (-el + L - 1) (el + L - 1)
    (fun k i => prefJ F (sqrt_jmk i) (sqrt_jmk k) (dd k i)) coshb
  let dl := addBlockJ F [el, 2, 2] dl (-el + L - 1) (el + L - 1) (L - el) (L + el)
    (fun k i => prefJ F (-sqrt_kp1 i) (sqrt_jmk k) (dd k i)) sinhb
  let dl := addBlockJ F [el, 2, 3] dl (L - el) (L + el) (-el + L - 1) (el + L - 1)
    (fun k i => prefJ F (sqrt_jmk i) (sqrt_kp1 k) (dd k i)) sinhb
  addBlockJ F [el, 2, 4] dl (L - el) (L + el) (L - el) (L + el)
    (fun k i => prefJ F (sqrt_kp1 i) (sqrt_kp1 k) (dd k i)) coshb

/-- Explicit plane for `el == 1` (risbo_jax.py 33-52). -/
noncomputable def risboOneJ (F : XlaLib) (dl : ℤ → ℤ → ℝ) (beta : ℝ) (L : ℤ) : ℤ → ℤ → ℝ :=
  let cosb := F.cos beta
  let sinb := F.sin beta
  let coshb := F.cos (F.fl (beta / 2))
  let sinhb := F.sin (F.fl (beta / 2))
  let sqrt2 := F.fl (Real.sqrt 2)
  let dl := set2 dl (L - 2) (L - 2) (F.fl (coshb ^ 2))
  let dl := set2 dl (L - 2) (L - 1) (F.quot [1, 42] sinb sqrt2)
  let dl := set2 dl (L - 2) L (F.fl (sinhb ^ 2))
  let dl := set2 dl (L - 1) (L - 2) (F.quot [1, 45] (-sinb) sqrt2)
  let dl := set2 dl (L - 1) (L - 1) cosb
  let dl := set2 dl (L - 1) L (F.quot [1, 47] sinb sqrt2)
  let dl := set2 dl L (L - 2) (F.fl (sinhb ^ 2))
  let dl := set2 dl L (L - 1) (F.quot [1, 50] (-sinb) sqrt2)
  set2 dl L L (F.fl (coshb ^ 2))

/-- `risbo_jax.compute_full` (risbo_jax.py 8-119); no argument checks. The Python integer on line 117 is
converted to a double. -/
noncomputable def risboFullJ (F : XlaLib) (dl : ℤ → ℤ → ℝ) (beta : ℝ) (L el : ℤ) : ℤ → ℤ → ℝ :=
  if el = 0 then set2 dl (el + L - 1) (el + L - 1) 1
  else if el = 1 then risboOneJ F dl beta L
  else
    let coshb := -F.cos (F.fl (beta / 2))
    let sinhb := F.sin (F.fl (beta / 2))
    let dd := risboFirstJ F dl coshb sinhb L el
    let dl := risboSecondJ F (risboClearJax dl L el) dd coshb sinhb L el
    fun x y => F.quot [x, y, el, 117] (dl x y) (F.fl ((2 * el) * (2 * el - 1) : ℤ))

/-! ## `rotation.py` -/

/-- `__exp_array(L, x)` (rotation.py 70-73): the argument of the exponential is purely imaginary. -/
noncomputable def expArrayF (F : FftLib) (L : ℤ) (x : ℝ) : ℤ → ℂ := fun i =>
  let y := F.fl (-((-L + 1 + i : ℤ) : ℝ) * x)
  ⟨F.cos y, F.sin y⟩

/-- The two `einsum`s (rotation.py 55-65): entry `m` of the rotated degree `el`. -/
noncomputable def rotateDegreeF (F : FftLib) (plane : ℤ → ℤ → ℝ) (alpha gamma : ℤ → ℂ)
    (flm : ℤ → ℤ → ℂ) (L el m : ℤ) : ℂ :=
  let n_max := min el (L - 1)
  F.dot (2 * n_max + 1)
    (fun i => F.mul (plane (m + L - 1) (i - n_max + L - 1) : ℂ) (alpha (m + L - 1)))
    (fun i => F.mul (gamma (i - n_max + L - 1)) (flm el (i - n_max + L - 1)))

/-- `rotate_flms` (rotation.py 10-67). `dls` is the optional `dl_array`. -/
noncomputable def rotateFlmsF (F : XlaLib) (flm : ℤ → ℤ → ℂ) (L : ℤ) (rotation : ℝ × ℝ × ℝ)
    (dls : Option (ℤ → ℤ → ℤ → ℝ)) : ℤ → ℤ → ℂ :=
  let alpha := expArrayF F.toFftLib L rotation.1
  let gamma := expArrayF F.toFftLib L rotation.2.2
  let beta := rotation.2.1
  match dls with
  | none =>
    (forRange 0 L (fun el (s : (ℤ → ℤ → ℝ) × (ℤ → ℤ → ℂ)) =>
      let dl := risboFullJ F s.1 beta L el
      (dl, addOrders s.2 el L (rotateDegreeF F.toFftLib dl alpha gamma flm L el)))
      (fun _ _ => 0, fun _ _ => 0)).2
  | some dl =>
    forRange 0 L (fun el out =>
      addOrders out el L (rotateDegreeF F.toFftLib (dl el) alpha gamma flm L el)) (fun _ _ => 0)

/-- `generate_rotate_dls` (rotation.py 76-96). -/
noncomputable def generateRotateDlsF (F : XlaLib) (L : ℤ) (beta : ℝ) : ℤ → ℤ → ℤ → ℝ :=
  (forRange 0 L (fun el (s : (ℤ → ℤ → ℝ) × (ℤ → ℤ → ℤ → ℝ)) =>
    let dlIter := risboFullJ F s.1 beta L el
    (dlIter, fun p x y => if p = el then s.2 p x y + dlIter x y else s.2 p x y))
    (fun _ _ => 0, fun _ _ _ => 0)).2

end S2fft
