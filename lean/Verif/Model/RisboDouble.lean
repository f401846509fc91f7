import Verif.Model.Risbo
import Verif.Spec.Double

/-!
# The Risbo recursion in double precision

The functions of `Model/Risbo.lean` that model `s2fft/recursions/risbo.py`, with a rounding wherever
the code does an operation on floats. `x**2` is taken to be rounded to nearest. Changes of sign are
exact.
-/

namespace S2fft
open Spec

/-- `a[i, k] += v` for floats. -/
noncomputable def add2F (F : DoubleLib) (a : ℤ → ℤ → ℝ) (i k : ℤ) (v : ℝ) : ℤ → ℤ → ℝ :=
  set2 a i k (F.fl (a i k + v))

/-- `np.sqrt(n)` for a Python integer. -/
noncomputable def sqrtF (F : DoubleLib) (n : ℤ) : ℝ := F.fl (Real.sqrt (F.fl n))

/-- The products on lines 73-76 and 95-104 of risbo.py, from left to right. -/
noncomputable def prodF (F : DoubleLib) (a b d c : ℝ) : ℝ := F.fl (F.fl (F.fl (a * b) * d) * c)

/-- `_arg_checks` (risbo.py 106-120); `np.pi` is the double nearest to `π`. -/
noncomputable def risboArgChecksF (F : DoubleLib) (rows cols : ℤ) (beta : ℝ) (L el : ℤ) :
    Except PyErr Unit :=
  if ¬ (0 ≤ el ∧ el < L) then .error .assertionError
  else if ¬ (rows = cols ∧ cols = 2 * L - 1) then .error .assertionError
  else if ¬ (0 ≤ beta ∧ beta ≤ F.fl Real.pi) then .error .assertionError
  else .ok ()

/-- The plane for `el = 1` (risbo.py 32-51). -/
noncomputable def risboOneF (F : DoubleLib) (dl : ℤ → ℤ → ℝ) (beta : ℝ) (L : ℤ) : ℤ → ℤ → ℝ :=
  let cosb := F.cos beta
  let sinb := F.sin beta
  let coshb := F.cos (F.fl (beta / 2))
  let sinhb := F.sin (F.fl (beta / 2))
  let sqrt2 := F.fl (Real.sqrt 2)
  let dl := set2 dl (-1 + L - 1) (-1 + L - 1) (F.fl (coshb ^ 2))
  let dl := set2 dl (-1 + L - 1) (0 + L - 1) (F.fl (sinb / sqrt2))
  let dl := set2 dl (-1 + L - 1) (1 + L - 1) (F.fl (sinhb ^ 2))
  let dl := set2 dl (0 + L - 1) (-1 + L - 1) (F.fl (-sinb / sqrt2))
  let dl := set2 dl (0 + L - 1) (0 + L - 1) cosb
  let dl := set2 dl (0 + L - 1) (1 + L - 1) (F.fl (sinb / sqrt2))
  let dl := set2 dl (1 + L - 1) (-1 + L - 1) (F.fl (sinhb ^ 2))
  let dl := set2 dl (1 + L - 1) (0 + L - 1) (F.fl (-sinb / sqrt2))
  set2 dl (1 + L - 1) (1 + L - 1) (F.fl (coshb ^ 2))

/-- First half-step (risbo.py 57-76). -/
noncomputable def risboFirstF (F : DoubleLib) (dl : ℤ → ℤ → ℝ) (coshb sinhb : ℝ) (L el : ℤ) :
    ℤ → ℤ → ℝ :=
  let j := 2 * el - 1
  forRange 0 j (fun k dd =>
    let sqrt_jmk := sqrtF F (j - k)
    let sqrt_kp1 := sqrtF F (k + 1)
    forRange 0 j (fun i dd =>
      let sqrt_jmi := sqrtF F (j - i)
      let sqrt_ip1 := sqrtF F (i + 1)
      let dlj := F.fl (dl (k - (el - 1) + L - 1) (i - (el - 1) + L - 1) / F.fl j)
      let dd := add2F F dd i k (prodF F sqrt_jmi sqrt_jmk dlj coshb)
      let dd := add2F F dd (i + 1) k (-(prodF F sqrt_ip1 sqrt_jmk dlj sinhb))
      let dd := add2F F dd i (k + 1) (prodF F sqrt_jmi sqrt_kp1 dlj sinhb)
      add2F F dd (i + 1) (k + 1) (prodF F sqrt_ip1 sqrt_kp1 dlj coshb)) dd) (fun _ _ => 0)

/-- Second half-step (risbo.py 82-104). -/
noncomputable def risboSecondF (F : DoubleLib) (dl dd : ℤ → ℤ → ℝ) (coshb sinhb : ℝ) (L el : ℤ) :
    ℤ → ℤ → ℝ :=
  let j := 2 * el
  forRange 0 j (fun k dl =>
    let sqrt_jmk := sqrtF F (j - k)
    let sqrt_kp1 := sqrtF F (k + 1)
    forRange 0 j (fun i dl =>
      let sqrt_jmi := sqrtF F (j - i)
      let sqrt_ip1 := sqrtF F (i + 1)
      let ddj := F.fl (dd i k / F.fl j)
      let dl := add2F F dl (k - el + L - 1) (i - el + L - 1) (prodF F sqrt_jmi sqrt_jmk ddj coshb)
      let dl := add2F F dl (k - el + L - 1) (i + 1 - el + L - 1)
        (-(prodF F sqrt_ip1 sqrt_jmk ddj sinhb))
      let dl := add2F F dl (k + 1 - el + L - 1) (i - el + L - 1)
        (prodF F sqrt_jmi sqrt_kp1 ddj sinhb)
      add2F F dl (k + 1 - el + L - 1) (i + 1 - el + L - 1)
        (prodF F sqrt_ip1 sqrt_kp1 ddj coshb)) dl) dl

/-- The body of `risbo.compute_full` after its argument checks (risbo.py 27-103). -/
noncomputable def risboStepF (F : DoubleLib) (dl : ℤ → ℤ → ℝ) (beta : ℝ) (L el : ℤ) : ℤ → ℤ → ℝ :=
  if el = 0 then set2 dl (0 + L - 1) (0 + L - 1) 1
  else if el = 1 then risboOneF F dl beta L
  else
    let coshb := -F.cos (F.fl (beta / 2))
    let sinhb := F.sin (F.fl (beta / 2))
    let dd := risboFirstF F dl coshb sinhb L el
    risboSecondF F (risboClear dl L el) dd coshb sinhb L el

/-- `risbo.compute_full` (risbo.py 4-103). -/
noncomputable def risboFullF (F : DoubleLib) (rows cols : ℤ) (dl : ℤ → ℤ → ℝ) (beta : ℝ) (L el : ℤ) :
    Except PyErr (ℤ → ℤ → ℝ) := do
  risboArgChecksF F rows cols beta L el
  pure (risboStepF F dl beta L el)

/-! ## All angles at once (risbo.py 123-229) -/

/-- `a[:, i, k] += v` for floats. -/
noncomputable def addAllF (F : DoubleLib) (a : ℤ → ℤ → ℤ → ℝ) (i k : ℤ) (v : ℤ → ℝ) :
    ℤ → ℤ → ℤ → ℝ :=
  setAll a i k (fun b => F.fl (a b i k + v b))

/-- `el == 1` branch (risbo.py 159-178). -/
noncomputable def risboOneVecF (F : DoubleLib) (dl : ℤ → ℤ → ℤ → ℝ) (beta : ℤ → ℝ) (L : ℤ) :
    ℤ → ℤ → ℤ → ℝ :=
  let cosb := fun b => F.cos (beta b)
  let sinb := fun b => F.sin (beta b)
  let coshb := fun b => F.cos (F.fl (beta b / 2))
  let sinhb := fun b => F.sin (F.fl (beta b / 2))
  let sqrt2 := F.fl (Real.sqrt 2)
  let dl := setAll dl (-1 + L - 1) (-1 + L - 1) (fun b => F.fl (coshb b ^ 2))
  let dl := setAll dl (-1 + L - 1) (0 + L - 1) (fun b => F.fl (sinb b / sqrt2))
  let dl := setAll dl (-1 + L - 1) (1 + L - 1) (fun b => F.fl (sinhb b ^ 2))
  let dl := setAll dl (0 + L - 1) (-1 + L - 1) (fun b => F.fl (-sinb b / sqrt2))
  let dl := setAll dl (0 + L - 1) (0 + L - 1) cosb
  let dl := setAll dl (0 + L - 1) (1 + L - 1) (fun b => F.fl (sinb b / sqrt2))
  let dl := setAll dl (1 + L - 1) (-1 + L - 1) (fun b => F.fl (sinhb b ^ 2))
  let dl := setAll dl (1 + L - 1) (0 + L - 1) (fun b => F.fl (-sinb b / sqrt2))
  setAll dl (1 + L - 1) (1 + L - 1) (fun b => F.fl (coshb b ^ 2))

/-- First half-step for all angles (risbo.py 184-203). -/
noncomputable def risboFirstVecF (F : DoubleLib) (dl : ℤ → ℤ → ℤ → ℝ) (coshb sinhb : ℤ → ℝ)
    (L el : ℤ) : ℤ → ℤ → ℤ → ℝ :=
  let j := 2 * el - 1
  forRange 0 j (fun k dd =>
    let sqrt_jmk := sqrtF F (j - k)
    let sqrt_kp1 := sqrtF F (k + 1)
    forRange 0 j (fun i dd =>
      let sqrt_jmi := sqrtF F (j - i)
      let sqrt_ip1 := sqrtF F (i + 1)
      let dlj := fun b => F.fl (dl b (k - (el - 1) + L - 1) (i - (el - 1) + L - 1) / F.fl j)
      let dd := addAllF F dd i k (fun b => prodF F sqrt_jmi sqrt_jmk (dlj b) (coshb b))
      let dd := addAllF F dd (i + 1) k (fun b => -(prodF F sqrt_ip1 sqrt_jmk (dlj b) (sinhb b)))
      let dd := addAllF F dd i (k + 1) (fun b => prodF F sqrt_jmi sqrt_kp1 (dlj b) (sinhb b))
      addAllF F dd (i + 1) (k + 1) (fun b => prodF F sqrt_ip1 sqrt_kp1 (dlj b) (coshb b))) dd)
    (fun _ _ _ => 0)

/-- Second half-step for all angles (risbo.py 208-227). -/
noncomputable def risboSecondVecF (F : DoubleLib) (dl dd : ℤ → ℤ → ℤ → ℝ) (coshb sinhb : ℤ → ℝ)
    (L el : ℤ) : ℤ → ℤ → ℤ → ℝ :=
  let j := 2 * el
  forRange 0 j (fun k dl =>
    let sqrt_jmk := sqrtF F (j - k)
    let sqrt_kp1 := sqrtF F (k + 1)
    forRange 0 j (fun i dl =>
      let sqrt_jmi := sqrtF F (j - i)
      let sqrt_ip1 := sqrtF F (i + 1)
      let ddj := fun b => F.fl (dd b i k / F.fl j)
      let dl := addAllF F dl (k - el + L - 1) (i - el + L - 1)
        (fun b => prodF F sqrt_jmi sqrt_jmk (ddj b) (coshb b))
      let dl := addAllF F dl (k - el + L - 1) (i + 1 - el + L - 1)
        (fun b => -(prodF F sqrt_ip1 sqrt_jmk (ddj b) (sinhb b)))
      let dl := addAllF F dl (k + 1 - el + L - 1) (i - el + L - 1)
        (fun b => prodF F sqrt_jmi sqrt_kp1 (ddj b) (sinhb b))
      addAllF F dl (k + 1 - el + L - 1) (i + 1 - el + L - 1)
        (fun b => prodF F sqrt_ip1 sqrt_kp1 (ddj b) (coshb b))) dl) dl

/-- `risbo.compute_full_vectorised` (risbo.py 123-229). -/
noncomputable def risboFullVecF (F : DoubleLib) (dl : ℤ → ℤ → ℤ → ℝ) (beta : ℤ → ℝ) (L el : ℤ) :
    ℤ → ℤ → ℤ → ℝ :=
  if el = 0 then setAll dl (0 + L - 1) (0 + L - 1) (fun _ => 1)
  else if el = 1 then risboOneVecF F dl beta L
  else
    let coshb := fun b => -F.cos (F.fl (beta b / 2))
    let sinhb := fun b => F.sin (F.fl (beta b / 2))
    let dd := risboFirstVecF F dl coshb sinhb L el
    let dl := fun b => risboClear (dl b) L el
    risboSecondVecF F dl dd coshb sinhb L el

/-- The table of `fourier_wigner_kernel` (construct.py 626-632): the planes at `np.pi / 2`. The state
is the table and the plane in progress. -/
noncomputable def fwDeltasF (F : DoubleLib) (L : ℤ) : Except PyErr (ℤ → ℤ → ℤ → ℝ) := do
  let r ← forRangeM 0 L (fun el (st : (ℤ → ℤ → ℤ → ℝ) × (ℤ → ℤ → ℝ)) => do
    let d ← risboFullF F (2 * L - 1) (2 * L - 1) st.2 (F.fl (F.fl Real.pi / 2)) L el
    pure (fun x => if x = el then d else st.1 x, d)) (fun _ _ _ => 0, fun _ _ => 0)
  pure r.1

end S2fft
