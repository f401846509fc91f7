import Verif.Model.Turok

/-!
# Price & McEwen recursion

Models `s2fft/recursions/price_mcewen.py`. Arrays over degrees are functions of the degree `el`
itself (the source stores `el - L_lower`); arrays over angles are functions of the index `t`. Rows
counted from the end of an axis are given their position from the start. Where the source takes the
logarithm of a number that is not positive it has `-inf` and then `nan`; in JAX they are replaced by
zero, in NumPy they make terms that `nansum` leaves out. This concerns degrees `el < |spin|`; that the
poles, where `log 0` occurs too, are replaced afterwards is in `Model/Otf.lean`.
-/

namespace S2fft
open Real (cos sin tan log)

/-- `np.roll(a, s)[i]` for an array of length `n`. -/
def npRoll {α : Type*} (n s : ℤ) (a : ℤ → α) (i : ℤ) : α := a ((i - s) % n)

/-- `cpi` before it is rolled (price_mcewen.py 72, 87-89; JAX 181, 185-189). Row `L` stays zero. -/
noncomputable def pmCpi (L el k : ℤ) : ℝ :=
  if k = 0 then 2 / √(2 * el)
  else if 1 ≤ k ∧ k < L then 2 / √((k + 1) * (2 * el + 1 - (k + 1))) else 0

/-- `cp2` before it is rolled (price_mcewen.py 73, 90; JAX 182, 190). -/
noncomputable def pmCp2 (L el k : ℤ) : ℝ :=
  if 1 ≤ k ∧ k < L then pmCpi L el k / pmCpi L el (k - 1) else 0

/-- The coefficients of the recursion. -/
structure PmPre where
  /-- `lrenorm[i, t, el]` -/
  lr : ℤ → ℤ → ℤ → ℝ
  /-- `vsign[row, el]` -/
  vsign : ℤ → ℤ → ℝ
  /-- `cpi[k, el]` -/
  cpi : ℤ → ℤ → ℝ
  /-- `cp2[k, el]` -/
  cp2 : ℤ → ℤ → ℝ
  /-- `lrenorm[i, :, el]` is `nan` or `-inf`, and `exp` of it times anything counts as zero -/
  nan : ℤ → ℤ → Bool

/-- `half_slices[i]` (price_mcewen.py 69). -/
def pmHalf (mm i el : ℤ) : ℤ := if i = 0 then el + mm + 1 else el - mm + 1

/-- `vsign` (price_mcewen.py 98-101, JAX 208-211). -/
noncomputable def pmVsign (L mm row el : ℤ) : ℝ :=
  let msign : ℝ := if row < L - 1 then (-1) ^ |row| else 1
  let v := msign * (-1) ^ |mm + el|
  if row < L - 1 then v * (-1) ^ |mm + 1 + L| else v

/-- The entry `half_slices[i] - 1` of a table of `2 L + 1` logarithms (price_mcewen.py 74, 107-109):
for `el < |spin|` it may be negative, and counts from the end. -/
def pmLogInd (L mm i el : ℤ) : ℤ :=
  if pmHalf mm i el - 1 < 0 then pmHalf mm i el - 1 + (2 * L + 1) else pmHalf mm i el - 1

/-- `lrenorm[i]` of the NumPy version (price_mcewen.py 74-84, 103-109): the row of logarithms is
filled by the same loop as in `turok.py`, up to `L + |mm| + 1`. -/
noncomputable def pmLrenorm (β : ℝ) (L mm i el : ℤ) : ℝ :=
  turokLogRow β el (L + |mm| + 1) (pmLogInd L mm i el)

/-- Where it is not a number (80-84): from entry `2 el + 1` on, whose ratio is zero, to the last
filled. -/
def pmNan (L mm i el : ℤ) : Bool :=
  decide (2 * el + 1 ≤ pmLogInd L mm i el ∧ pmLogInd L mm i el ≤ L + |mm|)

/-- `lrenorm[i]` of the JAX version (price_mcewen.py 214-245): the logarithm is accumulated and
picked when the loop reaches the half slice. Beyond `2 el + 1`, where the ratio is not positive, it is
`-inf` or `nan`, replaced by zero (251). -/
noncomputable def pmLrenormJax (β : ℝ) (L mm i el : ℤ) : ℝ :=
  let it : ℝ := 2 * el * log |cos (β / 2)|
  if 2 * el + 1 < pmHalf mm i el then 0 else
  (forRange 2 (L + |mm| + 2) (fun j (s : ℝ × ℝ) =>
    let it := s.1 + log ((2 * el + 2 - j) / (j - 1)) / 2
    let it := it + log |tan (-β / 2)|
    (it, if j = pmHalf mm i el then it else s.2))
    (it, if 1 = pmHalf mm i el then it else 0)).2

/-- `generate_precomputes` (price_mcewen.py 14-115) at the angles `β`. -/
noncomputable def generatePrecomputes (L spin : ℤ) (β : ℤ → ℝ) : PmPre where
  lr := fun i t el => pmLrenorm (β t) L (-spin) i el
  vsign := pmVsign L (-spin)
  cpi := fun k el => npRoll (L + 1) (L - el - 1) (pmCpi L el) k
  cp2 := fun k el => npRoll (L + 1) (L - el - 1) (pmCp2 L el) k
  nan := pmNan L (-spin)

/-- `generate_precomputes_jax` (price_mcewen.py 119-255). -/
noncomputable def generatePrecomputesJax (L spin : ℤ) (β : ℤ → ℝ) : PmPre where
  lr := fun i t el => pmLrenormJax (β t) L (-spin) i el
  vsign := pmVsign L (-spin)
  cpi := fun k el => npRoll (L + 1) (L - el - 1) (pmCpi L el) k
  cp2 := fun k el => npRoll (L + 1) (L - el - 1) (pmCp2 L el) k
  nan := fun _ _ => false

/-- `np.exp(lrenorm[i])` in a term of a sum. -/
noncomputable def PmPre.exp (P : PmPre) (i el : ℤ) (x : ℝ) : ℝ := if P.nan i el then 0 else Real.exp x

/-- The arrays updated by the recursion over the rows: `dl_entry`, `dl_iter[0]`, `dl_iter[1]` and
`lrenorm[i]`. -/
structure PmState where
  entry : ℤ → ℤ → ℝ
  d0 : ℤ → ℤ → ℝ
  d1 : ℤ → ℤ → ℝ
  lr : ℤ → ℤ → ℝ

/-- `lamb` (price_mcewen.py 558-563, 593-598; otf_recursions.py 102-107, 135-140 and the other
steps). -/
noncomputable def pmLamb (L mm i m : ℤ) (β : ℝ) (el : ℤ) : ℝ :=
  ((el + 1) * (1 - cos β) + (m - L + el + 1) * cos β - pmHalf mm i el) * (1 / sin β)

/-- The state before the loop (price_mcewen.py 556, 565-571, 585; otf_recursions.py 100, 109-113,
131): only the last degree has its second entry. -/
noncomputable def pmInit (P : PmPre) (L mm i : ℤ) (β : ℤ → ℝ) : PmState where
  entry := fun _ _ => 0
  d0 := fun _ _ => 1
  d1 := fun t el => if L - 1 ≤ el then P.cpi 0 el * (1 * pmLamb L mm i 1 (β t) el) else 1
  lr := P.lr i

/-- `dl_entry` of row `m` (price_mcewen.py 590-606; otf_recursions.py 133-149). -/
noncomputable def pmEntry (P : PmPre) (L mm i : ℤ) (β : ℤ → ℝ) (m : ℤ) (s : PmState) :
    ℤ → ℤ → ℝ := fun t el =>
  if el = L - 1 - m then 1
  else if el ≥ L - m - 1 then
    P.cpi (m - 1) el * (s.d1 t el * pmLamb L mm i m (β t) el) - P.cp2 (m - 1) el * s.d0 t el
  else s.entry t el

/-- The renormalisation that ends a step (price_mcewen.py 616-621; otf_recursions.py 160-165). -/
noncomputable def pmUpdate (L m : ℤ) (e : ℤ → ℤ → ℝ) (s : PmState) : PmState where
  entry := e
  d0 := fun t el => if el ≥ L - m - 1 then 1 / |e t el| * s.d1 t el else s.d0 t el
  d1 := fun t el => if el ≥ L - m - 1 then 1 / |e t el| * e t el else s.d1 t el
  lr := fun t el => if el ≥ L - m - 1 then s.lr t el + log |e t el| else s.lr t el

/-- The recursion from row 2, emitting each row `entry * exp(lrenorm)` into `acc`. -/
noncomputable def pmLoop {α : Type*} (P : PmPre) (L mm i : ℤ) (β : ℤ → ℝ) (hi : ℤ)
    (emit : ℤ → (ℤ → ℤ → ℝ) → α → α) (acc : α) : α :=
  (forRange 2 hi (fun m (s : α × PmState) =>
    let e := pmEntry P L mm i β m s.2
    (emit m (fun t el => e t el * P.exp i el (s.2.lr t el)) s.1, pmUpdate L m e s.2))
    (acc, pmInit P L mm i β)).1

/-- The position of row `sind + sgn * m` in an axis of length `n`. -/
def pmRow (n i m : ℤ) : ℤ := if i = 0 then m else n - 1 - m

/-- `compute_all_slices_jax` (price_mcewen.py 502-643), with its own coefficients; `dl[row, t, el]`.
For `L = 1` the rows beside the single one, which JAX drops, are outside the array. -/
noncomputable def pmAllSlices (L spin : ℤ) (β : ℤ → ℝ) : ℤ → ℤ → ℤ → ℝ :=
  let mm := -spin
  let P := generatePrecomputesJax L spin β
  forRange 0 2 (fun i dl =>
    let s := pmInit P L mm i β
    let r0 := pmRow (2 * L - 1) i 0
    let dl : ℤ → ℤ → ℤ → ℝ := fun r t el => if r = r0 ∧ L - 1 ≤ el then
      s.d0 t el * P.vsign r0 el * P.exp i el (s.lr t el) else dl r t el
    let r1 := pmRow (2 * L - 1) i 1
    let dl : ℤ → ℤ → ℤ → ℝ := fun r t el => if r = r1 ∧ L - 2 ≤ el then
      s.d1 t el * P.vsign r1 el * P.exp i el (s.lr t el) else dl r t el
    pmLoop P L mm i β L (fun m v (dl : ℤ → ℤ → ℤ → ℝ) =>
      fun r t el => if r = pmRow (2 * L - 1) i m ∧ el ≥ L - m - 1 then
        v t el * P.vsign (pmRow (2 * L - 1) i m) el else dl r t el) dl)
    (fun _ _ _ => 0)

end S2fft
