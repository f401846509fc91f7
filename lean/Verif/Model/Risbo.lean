import Verif.Py.Basic
import Mathlib.Analysis.SpecialFunctions.Trigonometric.Basic
import Mathlib.Analysis.SpecialFunctions.Sqrt

/-!
# Risbo recursion for Wigner-d planes

Models `s2fft/recursions/risbo.py` and `s2fft/recursions/risbo_jax.py`. Floating point numbers are
modelled by real numbers. Planes are functions of the two array positions; every index used is
inside the plane because `0 ≤ el < L` is asserted (NumPy) or assumed (vectorised and JAX variants).
-/

namespace S2fft

/-- `risbo._arg_checks` (risbo.py 106-120): band-limit, shape and angle. -/
noncomputable def risboArgChecks (rows cols : ℤ) (beta : ℝ) (L el : ℤ) : Except PyErr Unit :=
  if ¬ (0 ≤ el ∧ el < L) then .error .assertionError
  else if ¬ (rows = cols ∧ cols = 2 * L - 1) then .error .assertionError
  else if ¬ (0 ≤ beta ∧ beta ≤ Real.pi) then .error .assertionError
  else .ok ()

/-- The explicit plane for `el = 1` (risbo.py 31-51). -/
noncomputable def risboOne (dl : ℤ → ℤ → ℝ) (beta : ℝ) (L : ℤ) : ℤ → ℤ → ℝ :=
  let cosb := Real.cos beta
  let sinb := Real.sin beta
  let coshb := Real.cos (beta / 2)
  let sinhb := Real.sin (beta / 2)
  let sqrt2 := Real.sqrt 2
  let dl := set2 dl (-1 + L - 1) (-1 + L - 1) (coshb ^ 2)
  let dl := set2 dl (-1 + L - 1) (0 + L - 1) (sinb / sqrt2)
  let dl := set2 dl (-1 + L - 1) (1 + L - 1) (sinhb ^ 2)
  let dl := set2 dl (0 + L - 1) (-1 + L - 1) (-sinb / sqrt2)
  let dl := set2 dl (0 + L - 1) (0 + L - 1) cosb
  let dl := set2 dl (0 + L - 1) (1 + L - 1) (sinb / sqrt2)
  let dl := set2 dl (1 + L - 1) (-1 + L - 1) (sinhb ^ 2)
  let dl := set2 dl (1 + L - 1) (0 + L - 1) (-sinb / sqrt2)
  set2 dl (1 + L - 1) (1 + L - 1) (coshb ^ 2)

/-- First half-step, from degree `el - 1` to `el - 1/2` (risbo.py 57-76). `dd` is indexed
`[i, k]`. -/
noncomputable def risboFirst (dl : ℤ → ℤ → ℝ) (coshb sinhb : ℝ) (L el : ℤ) : ℤ → ℤ → ℝ :=
  let j := 2 * el - 1
  forRange 0 j (fun k dd =>
    let sqrt_jmk := Real.sqrt (j - k)
    let sqrt_kp1 := Real.sqrt (k + 1)
    forRange 0 j (fun i dd =>
      let sqrt_jmi := Real.sqrt (j - i)
      let sqrt_ip1 := Real.sqrt (i + 1)
      let dlj := dl (k - (el - 1) + L - 1) (i - (el - 1) + L - 1) / j
      let dd := add2 dd i k (sqrt_jmi * sqrt_jmk * dlj * coshb)
      let dd := add2 dd (i + 1) k (-(sqrt_ip1 * sqrt_jmk * dlj * sinhb))
      let dd := add2 dd i (k + 1) (sqrt_jmi * sqrt_kp1 * dlj * sinhb)
      add2 dd (i + 1) (k + 1) (sqrt_ip1 * sqrt_kp1 * dlj * coshb)) dd) (fun _ _ => 0)

/-- `dl[-el + L - 1 : el + 1 + L - 1, -el + L - 1 : el + 1 + L - 1] = 0.0` (risbo.py 81). -/
noncomputable def risboClear (dl : ℤ → ℤ → ℝ) (L el : ℤ) : ℤ → ℤ → ℝ :=
  fun x y => if (-el + L - 1 ≤ x ∧ x < el + 1 + L - 1) ∧ (-el + L - 1 ≤ y ∧ y < el + 1 + L - 1)
    then 0 else dl x y

/-- Second half-step, from `el - 1/2` to `el`, accumulated into `dl` (risbo.py 82-104). -/
noncomputable def risboSecond (dl dd : ℤ → ℤ → ℝ) (coshb sinhb : ℝ) (L el : ℤ) : ℤ → ℤ → ℝ :=
  let j := 2 * el
  forRange 0 j (fun k dl =>
    let sqrt_jmk := Real.sqrt (j - k)
    let sqrt_kp1 := Real.sqrt (k + 1)
    forRange 0 j (fun i dl =>
      let sqrt_jmi := Real.sqrt (j - i)
      let sqrt_ip1 := Real.sqrt (i + 1)
      let ddj := dd i k / j
      let dl := add2 dl (k - el + L - 1) (i - el + L - 1) (sqrt_jmi * sqrt_jmk * ddj * coshb)
      let dl := add2 dl (k - el + L - 1) (i + 1 - el + L - 1)
        (-(sqrt_ip1 * sqrt_jmk * ddj * sinhb))
      let dl := add2 dl (k + 1 - el + L - 1) (i - el + L - 1) (sqrt_jmi * sqrt_kp1 * ddj * sinhb)
      add2 dl (k + 1 - el + L - 1) (i + 1 - el + L - 1) (sqrt_ip1 * sqrt_kp1 * ddj * coshb)) dl) dl

/-- The body of `risbo.compute_full` after its argument checks (risbo.py 27-103). -/
noncomputable def risboStep (dl : ℤ → ℤ → ℝ) (beta : ℝ) (L el : ℤ) : ℤ → ℤ → ℝ :=
  if el = 0 then set2 dl (0 + L - 1) (0 + L - 1) 1
  else if el = 1 then risboOne dl beta L
  else
    let coshb := -Real.cos (beta / 2)
    let sinhb := Real.sin (beta / 2)
    let dd := risboFirst dl coshb sinhb L el
    risboSecond (risboClear dl L el) dd coshb sinhb L el

/-- `risbo.compute_full` (risbo.py 4-103). -/
noncomputable def risboFull (rows cols : ℤ) (dl : ℤ → ℤ → ℝ) (beta : ℝ) (L el : ℤ) :
    Except PyErr (ℤ → ℤ → ℝ) := do
  risboArgChecks rows cols beta L el
  pure (risboStep dl beta L el)

/-! ## All angles at once (risbo.py 123-229) -/

/-- `a[:, i, k] = v`, with `v` one value per leading position. -/
def setAll {α : Type*} (a : ℤ → ℤ → ℤ → α) (i k : ℤ) (v : ℤ → α) : ℤ → ℤ → ℤ → α :=
  fun b x y => if x = i ∧ y = k then v b else a b x y

/-- `a[:, i, k] += v`. -/
def addAll {α : Type*} [Add α] (a : ℤ → ℤ → ℤ → α) (i k : ℤ) (v : ℤ → α) : ℤ → ℤ → ℤ → α :=
  setAll a i k (fun b => a b i k + v b)

/-- `el == 1` branch of `compute_full_vectorised` (risbo.py 159-178). -/
noncomputable def risboOneVec (dl : ℤ → ℤ → ℤ → ℝ) (beta : ℤ → ℝ) (L : ℤ) : ℤ → ℤ → ℤ → ℝ :=
  let cosb := fun b => Real.cos (beta b)
  let sinb := fun b => Real.sin (beta b)
  let coshb := fun b => Real.cos (beta b / 2)
  let sinhb := fun b => Real.sin (beta b / 2)
  let sqrt2 := Real.sqrt 2
  let dl := setAll dl (-1 + L - 1) (-1 + L - 1) (fun b => coshb b ^ 2)
  let dl := setAll dl (-1 + L - 1) (0 + L - 1) (fun b => sinb b / sqrt2)
  let dl := setAll dl (-1 + L - 1) (1 + L - 1) (fun b => sinhb b ^ 2)
  let dl := setAll dl (0 + L - 1) (-1 + L - 1) (fun b => -sinb b / sqrt2)
  let dl := setAll dl (0 + L - 1) (0 + L - 1) cosb
  let dl := setAll dl (0 + L - 1) (1 + L - 1) (fun b => sinb b / sqrt2)
  let dl := setAll dl (1 + L - 1) (-1 + L - 1) (fun b => sinhb b ^ 2)
  let dl := setAll dl (1 + L - 1) (0 + L - 1) (fun b => -sinb b / sqrt2)
  setAll dl (1 + L - 1) (1 + L - 1) (fun b => coshb b ^ 2)

/-- First half-step for all angles (risbo.py 184-203). -/
noncomputable def risboFirstVec (dl : ℤ → ℤ → ℤ → ℝ) (coshb sinhb : ℤ → ℝ) (L el : ℤ) :
    ℤ → ℤ → ℤ → ℝ :=
  let j := 2 * el - 1
  forRange 0 j (fun k dd =>
    let sqrt_jmk := Real.sqrt (j - k)
    let sqrt_kp1 := Real.sqrt (k + 1)
    forRange 0 j (fun i dd =>
      let sqrt_jmi := Real.sqrt (j - i)
      let sqrt_ip1 := Real.sqrt (i + 1)
      let dlj := fun b => dl b (k - (el - 1) + L - 1) (i - (el - 1) + L - 1) / j
      let dd := addAll dd i k (fun b => sqrt_jmi * sqrt_jmk * dlj b * coshb b)
      let dd := addAll dd (i + 1) k (fun b => -(sqrt_ip1 * sqrt_jmk * dlj b * sinhb b))
      let dd := addAll dd i (k + 1) (fun b => sqrt_jmi * sqrt_kp1 * dlj b * sinhb b)
      addAll dd (i + 1) (k + 1) (fun b => sqrt_ip1 * sqrt_kp1 * dlj b * coshb b)) dd)
    (fun _ _ _ => 0)

/-- Second half-step for all angles (risbo.py 208-227). -/
noncomputable def risboSecondVec (dl dd : ℤ → ℤ → ℤ → ℝ) (coshb sinhb : ℤ → ℝ) (L el : ℤ) :
    ℤ → ℤ → ℤ → ℝ :=
  let j := 2 * el
  forRange 0 j (fun k dl =>
    let sqrt_jmk := Real.sqrt (j - k)
    let sqrt_kp1 := Real.sqrt (k + 1)
    forRange 0 j (fun i dl =>
      let sqrt_jmi := Real.sqrt (j - i)
      let sqrt_ip1 := Real.sqrt (i + 1)
      let ddj := fun b => dd b i k / j
      let dl := addAll dl (k - el + L - 1) (i - el + L - 1)
        (fun b => sqrt_jmi * sqrt_jmk * ddj b * coshb b)
      let dl := addAll dl (k - el + L - 1) (i + 1 - el + L - 1)
        (fun b => -(sqrt_ip1 * sqrt_jmk * ddj b * sinhb b))
      let dl := addAll dl (k + 1 - el + L - 1) (i - el + L - 1)
        (fun b => sqrt_jmi * sqrt_kp1 * ddj b * sinhb b)
      addAll dl (k + 1 - el + L - 1) (i + 1 - el + L - 1)
        (fun b => sqrt_ip1 * sqrt_kp1 * ddj b * coshb b)) dl) dl

/-- `risbo.compute_full_vectorised` (risbo.py 123-229); no argument checks. -/
noncomputable def risboFullVec (dl : ℤ → ℤ → ℤ → ℝ) (beta : ℤ → ℝ) (L el : ℤ) : ℤ → ℤ → ℤ → ℝ :=
  if el = 0 then setAll dl (0 + L - 1) (0 + L - 1) (fun _ => 1)
  else if el = 1 then risboOneVec dl beta L
  else
    let coshb := fun b => -Real.cos (beta b / 2)
    let sinhb := fun b => Real.sin (beta b / 2)
    let dd := risboFirstVec dl coshb sinhb L el
    let dl := fun b => risboClear (dl b) L el
    risboSecondVec dl dd coshb sinhb L el

/-! ## JAX (risbo_jax.py) -/

/-- `a.at[r0:r1, c0:c1].add(M)`. -/
def addBlock (a : ℤ → ℤ → ℝ) (r0 r1 c0 c1 : ℤ) (M : ℤ → ℤ → ℝ) : ℤ → ℤ → ℝ :=
  fun x y => if (r0 ≤ x ∧ x < r1) ∧ (c0 ≤ y ∧ y < c1) then a x y + M (x - r0) (y - c0) else a x y

/-- First pass (risbo_jax.py 55-83); `dd` is indexed `[k, i]` here. -/
noncomputable def risboFirstJax (dl : ℤ → ℤ → ℝ) (coshb sinhb : ℝ) (L el : ℤ) : ℤ → ℤ → ℝ :=
  let j := 2 * el - 1
  let dlj := fun k i => dl (k - (el - 1) + L - 1) (i - (el - 1) + L - 1)
  let dd := addBlock (fun _ _ => 0) 0 j 0 j
    (fun k i => Real.sqrt (j - i) * Real.sqrt (j - k) * dlj k i * coshb)
  let dd := addBlock dd 0 j 1 (j + 1)
    (fun k i => -Real.sqrt (i + 1) * Real.sqrt (j - k) * dlj k i * sinhb)
  let dd := addBlock dd 1 (j + 1) 0 j
    (fun k i => Real.sqrt (j - i) * Real.sqrt (k + 1) * dlj k i * sinhb)
  addBlock dd 1 (j + 1) 1 (j + 1)
    (fun k i => Real.sqrt (i + 1) * Real.sqrt (k + 1) * dlj k i * coshb)

/-- Multiplication of the block by zero (risbo_jax.py 85-87). -/
noncomputable def risboClearJax (dl : ℤ → ℤ → ℝ) (L el : ℤ) : ℤ → ℤ → ℝ :=
  fun x y => if (-el + L - 1 ≤ x ∧ x < el + 1 + L - 1) ∧ (-el + L - 1 ≤ y ∧ y < el + 1 + L - 1)
    then dl x y * 0 else dl x y

/-- Second pass (risbo_jax.py 89-118). -/
noncomputable def risboSecondJax (dl dd : ℤ → ℤ → ℝ) (coshb sinhb : ℝ) (L el : ℤ) : ℤ → ℤ → ℝ :=
  let j := 2 * el
  let dl := addBlock dl (-el + L - 1) (el + L - 1) (-el + L - 1) (el + L - 1)
    (fun k i => Real.sqrt (j - i) * Real.sqrt (j - k) * dd k i * coshb)
  let dl := addBlock dl (-el + L - 1) (el + L - 1) (L - el) (L + el)
    (fun k i => -Real.sqrt (i + 1) * Real.sqrt (j - k) * dd k i * sinhb)
  let dl := addBlock dl (L - el) (L + el) (-el + L - 1) (el + L - 1)
    (fun k i => Real.sqrt (j - i) * Real.sqrt (k + 1) * dd k i * sinhb)
  addBlock dl (L - el) (L + el) (L - el) (L + el)
    (fun k i => Real.sqrt (i + 1) * Real.sqrt (k + 1) * dd k i * coshb)

/-- Explicit plane for `el == 1` (risbo_jax.py 33-51). -/
noncomputable def risboOneJax (dl : ℤ → ℤ → ℝ) (beta : ℝ) (L : ℤ) : ℤ → ℤ → ℝ :=
  let cosb := Real.cos beta
  let sinb := Real.sin beta
  let coshb := Real.cos (beta / 2)
  let sinhb := Real.sin (beta / 2)
  let sqrt2 := Real.sqrt 2
  let dl := set2 dl (L - 2) (L - 2) (coshb ^ 2)
  let dl := set2 dl (L - 2) (L - 1) (sinb / sqrt2)
  let dl := set2 dl (L - 2) L (sinhb ^ 2)
  let dl := set2 dl (L - 1) (L - 2) (-sinb / sqrt2)
  let dl := set2 dl (L - 1) (L - 1) cosb
  let dl := set2 dl (L - 1) L (sinb / sqrt2)
  let dl := set2 dl L (L - 2) (sinhb ^ 2)
  let dl := set2 dl L (L - 1) (-sinb / sqrt2)
  set2 dl L L (coshb ^ 2)

/-- `risbo_jax.compute_full` (risbo_jax.py 8-119); no argument checks. -/
noncomputable def risboFullJax (dl : ℤ → ℤ → ℝ) (beta : ℝ) (L el : ℤ) : ℤ → ℤ → ℝ :=
  if el = 0 then set2 dl (el + L - 1) (el + L - 1) 1
  else if el = 1 then risboOneJax dl beta L
  else
    let coshb := -Real.cos (beta / 2)
    let sinhb := Real.sin (beta / 2)
    let dd := risboFirstJax dl coshb sinhb L el
    let dl := risboSecondJax (risboClearJax dl L el) dd coshb sinhb L el
    fun x y => dl x y / ((2 * el) * (2 * el - 1) : ℤ)

end S2fft
