import Verif.Py.Basic
import Mathlib.Analysis.SpecialFunctions.Trigonometric.Basic
import Mathlib.Analysis.SpecialFunctions.Log.Basic
import Mathlib.Analysis.SpecialFunctions.Sqrt

/-!
# Turok & Bucher recursion for Wigner-d slices and planes

Models `s2fft/recursions/turok.py` (NumPy) and `s2fft/recursions/turok_jax.py` (JAX). Floating point
numbers are real numbers; the overflow guards (`big_const`) are kept, with the same comparison.
-/

namespace S2fft
open Real (cos sin tan log exp)

/-- `np.isclose(a, b, atol=atol)` with the default relative tolerance `1e-5`. -/
def isclose (a b atol : ℝ) : Prop := |a - b| ≤ atol + 1e-5 * |b|

/-- `big_const = 1e10` (turok.py 159, 282; turok_jax.py 90). -/
noncomputable def turokBig : ℝ := 1e10

/-- `lamb = ((el + 1) * omc - slice + m * c) / s` (turok.py 206, 210; 333, 337; 351, 355). -/
noncomputable def turokLamb (β : ℝ) (el slice m : ℤ) : ℝ :=
  ((el + 1) * (1 - cos β) - slice + m * cos β) / sin β

/-- One half row of the recursion (turok.py 203-220 within one slice; 331-347 and 349-365 within
one row of the plane). `pos k` is the array position of the `k`-th entry; the state is the row and
`lrenorm`. -/
noncomputable def turokRow (β : ℝ) (el slice : ℤ) (cpi cp2 : ℤ → ℝ) (pos : ℤ → ℤ) (hi : ℤ)
    (row : ℤ → ℝ) : (ℤ → ℝ) × ℝ :=
  let row := set1 row (pos 0) 1
  let row := set1 row (pos 1) (turokLamb β el slice 1 * row (pos 0) * cpi 0)
  forRange 2 hi (fun m (st : (ℤ → ℝ) × ℝ) =>
    let row := set1 st.1 (pos m)
      (turokLamb β el slice m * cpi (m - 1) * st.1 (pos (m - 1)) - cp2 (m - 1) * st.1 (pos (m - 2)))
    if turokBig < row (pos m) then
      (forRange 0 (m + 1) (fun im row => set1 row (pos im) (row (pos im) * (1 / turokBig))) row,
        st.2 - log turokBig)
    else (row, st.2)) (row, 0)

/-! ## A single slice (`turok.py`) -/

/-- `log_first_row` (turok.py 181-186); `top` is `max(half_slices)`. -/
noncomputable def turokLogRow (β : ℝ) (el top : ℤ) : ℤ → ℝ :=
  forRange 2 (top + 1) (fun i r =>
    set1 r (i - 1) (r (i - 2) + log ((2 * el + 2 - i) / (i - 1)) / 2 + log |tan (-β / 2)|))
    (set1 (fun _ => 0) 0 (2 * el * log |cos (β / 2)|))

/-- `cpi` (turok.py 192-194). -/
noncomputable def turokCpi (el k : ℤ) : ℝ :=
  if k = 0 then 2 / √(2 * el) else 2 / √((k + 1) * (2 * el + 1 - (k + 1)))

/-- `cp2` (turok.py 195). -/
noncomputable def turokCp2 (el k : ℤ) : ℝ := turokCpi el k / turokCpi el (k - 1)

/-- `sign[i]` (turok.py 188-189). -/
noncomputable def turokSign (β : ℝ) (slice : ℤ) : ℝ :=
  (tan (-β / 2) / |tan (-β / 2)|) ^ ((slice - 1) % 2).toNat

/-- `compute_quarter_slice` (turok.py 111-235). -/
noncomputable def turokQuarterSlice (dl : ℤ → ℝ) (β : ℝ) (el L mm : ℤ) (pos_only : Bool) : ℤ → ℝ :=
  open Classical in
  if isclose β 0 1e-8 then set1 dl (L - 1 + mm) 1
  else if isclose β Real.pi 1e-8 then set1 dl (L - 1 - mm) ((-1) ^ (el + mm))
  else if el = 0 then set1 dl (L - 1) 1
  else
    let lfr := turokLogRow β el (max (el + mm + 1) (el - mm + 1))
    let dl := if pos_only then dl else
      let slice := el + mm + 1
      let st := turokRow β el slice (turokCpi el) (turokCp2 el) (fun k => L - 1 - el + 1 * k) (el + 1) dl
      let renorm := turokSign β slice * exp (lfr (slice - 1) - st.2)
      forRange 0 el (fun m dl => set1 dl (L - 1 - el + 1 * m) (dl (L - 1 - el + 1 * m) * renorm)) st.1
    let slice := el - mm + 1
    let st := turokRow β el slice (turokCpi el) (turokCp2 el) (fun k => L - 1 + el + -1 * k) (el + 1) dl
    let renorm := turokSign β slice * exp (lfr (slice - 1) - st.2)
    let dl := forRange 0 (el + 1) (fun m dl => set1 dl (L - 1 + el + -1 * m)
      ((-1) ^ ((mm - m + el) % 2).toNat * dl (L - 1 + el + -1 * m) * renorm)) st.1
    forRange (if pos_only then 0 else -el) (el + 1) (fun m dl =>
      set1 dl (m + L - 1) (dl (m + L - 1) * (-1) ^ (|mm - m|).toNat)) dl

/-- `compute_slice` (turok.py 44-108). The warning is not modelled. An order `mm < -el` is not
rejected by the source; for `el ≥ 1` off the poles it then runs out of bounds of `log_first_row`,
which this model does not reproduce. -/
noncomputable def turokSlice (β : ℝ) (el L mm : ℤ) (pos_only : Bool) : Except PyErr (ℤ → ℝ) :=
  if el < mm then .error .valueError
  else if L ≤ el then .error .valueError
  else .ok (turokQuarterSlice (fun _ => 0) β el L mm (if pos_only && mm ≠ 0 then false else pos_only))

/-! ## The whole plane (`turok.py`) -/

/-- `log_first_row` and `sign` of `compute_quarter` (turok.py 303-311). -/
noncomputable def turokLogRowFull (β : ℝ) (ell : ℤ) : (ℤ → ℝ) × (ℤ → ℝ) :=
  forRange 2 (2 * ell + 2) (fun i st =>
    let m := ell + 1 - i
    let ratio := √((m + ell + 1 : ℤ) / (ell - m : ℤ))
    (set1 st.1 (i - 1) (st.1 (i - 2) + log ratio + log |tan (-β / 2)|),
      set1 st.2 (i - 1) (st.2 (i - 2) * tan (-β / 2) / |tan (-β / 2)|)))
    (set1 (fun _ => 0) 0 (2 * ell * log |cos (β / 2)|), set1 (fun _ => 0) 0 1)

/-- `cpi` (turok.py 314-316). -/
noncomputable def turokCpiFull (ell k : ℤ) : ℝ :=
  2 / √(ell * (ell + 1) - (ell - (k + 1)) * (ell - (k + 1) + 1) : ℤ)

/-- `cp2` (turok.py 317-320). -/
noncomputable def turokCp2Full (ell k : ℤ) : ℝ :=
  turokCpiFull ell k * (1 / turokCpiFull ell (k - 1))

/-- Replace row `r` of a matrix: all reads and writes of `turokRow` are in one row. -/
def withRow (dl : ℤ → ℤ → ℝ) (r : ℤ) (row : ℤ → ℝ) : ℤ → ℤ → ℝ :=
  fun x => if x = r then row else dl x

/-- `compute_quarter` (turok.py 238-365). The state of the two recursion loops is the plane and
`lrenorm`. -/
noncomputable def turokQuarter (dl : ℤ → ℤ → ℝ) (β : ℝ) (ell L : ℤ) : ℤ → ℤ → ℝ :=
  open Classical in
  if isclose β 0 1e-8 then
    fun x y => if (L - 1 - ell ≤ x ∧ x < L + ell) ∧ (L - 1 - ell ≤ y ∧ y < L + ell) then
      (if x = y then 1 else 0) else dl x y
  else if isclose β Real.pi 1e-8 then
    forRange (-ell) (ell + 1) (fun m dl => set2 dl (L - 1 - m) (L - 1 + m) ((-1) ^ (ell + m).toNat)) dl
  else if ell = 0 then set2 dl (L - 1) (L - 1) 1
  else
    let lp1 := 1 - (L - 1 - ell)
    let lfr := turokLogRowFull β ell
    let dl := set2 dl (1 - lp1) (1 - lp1) 1
    let dl := set2 dl (2 * ell + 1 - lp1) (1 - lp1) 1
    let rowStep := fun (hi : ℤ → ℤ) (index : ℤ) (st : (ℤ → ℤ → ℝ) × (ℤ → ℝ)) =>
      let r := turokRow β ell index (turokCpiFull ell) (turokCp2Full ell) (fun k => k + 1 - lp1)
        (hi index) (st.1 (index - lp1))
      (withRow st.1 (index - lp1) r.1, set1 st.2 (index - 1) r.2)
    let st := forRange 2 (ell + 2) (rowStep fun index => index) (dl, fun _ => 0)
    let st := forRange (ell + 2) (2 * ell + 1) (rowStep fun index => 2 * ell - index + 2) st
    let dl := forRange 1 (ell + 2) (fun i dl =>
      let renorm := lfr.2 (i - 1) * exp (lfr.1 (i - 1) - st.2 (i - 1))
      forRange 1 (i + 1) (fun j dl => set2 dl (i - lp1) (j - lp1) (dl (i - lp1) (j - lp1) * renorm)) dl)
      st.1
    forRange (ell + 2) (2 * ell + 2) (fun i dl =>
      let renorm := lfr.2 (i - 1) * exp (lfr.1 (i - 1) - st.2 (i - 1))
      forRange 1 (2 * ell + 2 - i + 1) (fun j dl =>
        set2 dl (i - lp1) (j - lp1) (dl (i - lp1) (j - lp1) * renorm)) dl) dl

/-- `fill` (turok.py 368-413). -/
noncomputable def turokFill (dl : ℤ → ℤ → ℝ) (ell L : ℤ) : ℤ → ℤ → ℝ :=
  let lp1 := 1 - (L - 1 - ell)
  let dl := forRange 1 (ell + 1) (fun i dl => forRange (ell + 1) (2 * ell + 1 - i + 1) (fun j dl =>
    set2 dl (2 * ell + 2 - i - lp1) (2 * ell + 2 - j - lp1) (dl (j - lp1) (i - lp1))) dl) dl
  let dl := forRange 1 (ell + 2) (fun i dl =>
    (forRange (i + 1) (ell + 2) (fun j (st : (ℤ → ℤ → ℝ) × ℝ) =>
      (set2 st.1 (i - lp1) (j - lp1) (st.1 (j - lp1) (i - lp1) * st.2), st.2 * (-1))) (dl, -1)).1) dl
  let dl := forRange (ell + 2) (2 * ell + 2) (fun i dl =>
    let dl := (forRange 1 (2 * ell + 2 - i + 1) (fun j (st : (ℤ → ℤ → ℝ) × ℝ) =>
      (set2 st.1 (j - lp1) (i - lp1) (st.1 (i - lp1) (j - lp1) * st.2), st.2 * (-1)))
      (dl, (-1) ^ (i + 1).toNat)).1
    forRange i (2 * ell + 2) (fun j dl => set2 dl (j - lp1) (i - lp1)
      (dl (2 * ell + 2 - i - lp1) (2 * ell + 2 - j - lp1))) dl) dl
  forRange (ell + 2) (2 * ell + 2) (fun i dl => forRange (2 * ell + 3 - i) (i - 1 + 1) (fun j dl =>
    set2 dl (j - lp1) (i - lp1) (dl (2 * ell + 2 - i - lp1) (2 * ell + 2 - j - lp1))) dl) dl

/-- `compute_full` (turok.py 6-41). -/
noncomputable def turokFull (β : ℝ) (el L : ℤ) : Except PyErr (ℤ → ℤ → ℝ) :=
  if L ≤ el then .error .valueError
  else .ok (turokFill (turokQuarter (fun _ _ => 0) β el L) el L)

/-! ## A single slice (`turok_jax.py`)

The JAX version always runs over `L` entries per half; those with `k > el` are meant to be ignored.
Coefficients that are not real numbers there (`cpi[k]`, `k ≥ 2 el`: division by zero or root of a
negative number) are given by an arbitrary `junk` sequence; the results on `|m| ≤ el` will not
depend on it. -/

/-- `log_first_row` (turok_jax.py 108-125). -/
noncomputable def turokLogRowJax (β : ℝ) (el L mm : ℤ) : ℤ → ℝ :=
  forRange 1 (L + |mm|) (fun i r =>
    set1 r i (r (i - 1) + log ((2 * el + 2 - i - 1) / i) / 2 + log |tan (-β / 2)|))
    (set1 (fun _ => 0) 0 (2 * el * log |cos (β / 2)|))

/-- `cpi` (turok_jax.py 130-131). -/
noncomputable def turokCpiJax (junk : ℤ → ℝ) (el L k : ℤ) : ℝ :=
  if L ≤ k then 0 else if 2 * el ≤ k then junk k else 2 / √((k + 1) * (2 * el - k))

/-- `cp2` (turok_jax.py 132). -/
noncomputable def turokCp2Jax (junk : ℤ → ℝ) (el L k : ℤ) : ℝ :=
  if k = 0 then 0 else turokCpiJax junk el L k / turokCpiJax junk el L (k - 1)

/-- One half row (turok_jax.py 147-178); `pos k` is the position of the `k`-th entry from the start
(`i = 0`) or the end (`i = 1`), `inv` its inverse. -/
noncomputable def turokRowJax (β : ℝ) (el slice : ℤ) (cpi cp2 : ℤ → ℝ) (pos inv : ℤ → ℤ) (L : ℤ)
    (dl : ℤ → ℝ) : (ℤ → ℝ) × ℝ :=
  let dl := set1 dl (pos 0) 1
  let dl := set1 dl (pos 1) (turokLamb β el slice 1 * dl (pos 0) * cpi 0)
  forRange 2 L (fun m (st : (ℤ → ℝ) × ℝ) =>
    let dl := set1 st.1 (pos m)
      (turokLamb β el slice m * cpi (m - 1) * st.1 (pos (m - 1)) - cp2 (m - 1) * st.1 (pos (m - 2)))
    if turokBig < dl (pos m) then
      (fun x => if inv x < m + 1 then 1 / turokBig * dl x else dl x, st.2 - log turokBig)
    else (dl, st.2)) (dl, 0)

/-- `_compute_quarter_slice` (turok_jax.py 65-187). The final `nan_to_num` acts only on values that
are not real numbers. -/
noncomputable def turokQuarterSliceJax (junk : ℤ → ℝ) (dl : ℤ → ℝ) (β : ℝ) (el L mm : ℤ) : ℤ → ℝ :=
  let lfr := turokLogRowJax β el L mm
  let slice := el + mm + 1
  let st := turokRowJax β el slice (turokCpiJax junk el L) (turokCp2Jax junk el L) (fun k => k)
    (fun x => x) L dl
  let renorm := turokSign β slice * exp (lfr (slice - 1) - st.2)
  let dl := fun x => if x < L - 1 then st.1 x * renorm else st.1 x
  let slice := el - mm + 1
  let st := turokRowJax β el slice (turokCpiJax junk el L) (turokCp2Jax junk el L)
    (fun k => 2 * L - 2 - k) (fun x => 2 * L - 2 - x) L dl
  let renorm := turokSign β slice * exp (lfr (slice - 1) - st.2)
  fun x => if L - 1 ≤ x ∧ x ≤ 2 * L - 2 then
    let em := 2 * L - 1 - x
    st.1 x * ((-1) ^ ((mm - em + el + 1) % 2).toNat * renorm) else st.1 x

/-- `_north_pole` (turok_jax.py 190-214). -/
def turokNorth (el L mm : ℤ) : ℤ → ℝ :=
  if mm < 0 then set1 (fun _ => 0) (el + mm) 1 else set1 (fun _ => 0) (2 * L - 2 - el + mm) 1

/-- `_south_pole` (turok_jax.py 217-241). -/
noncomputable def turokSouth (el L mm : ℤ) : ℤ → ℝ :=
  if mm > 0 then set1 (fun _ => 0) (el - mm) ((-1) ^ (el + mm))
  else set1 (fun _ => 0) (2 * L - 2 - el - mm) ((-1) ^ (el + mm))

/-- `_el0` (turok_jax.py 244-261). -/
def turokEl0 (L : ℤ) : ℤ → ℝ := set1 (fun _ => 0) (2 * L - 2) 1

/-- `jnp.roll(dl, k)` for an array of length `2 L - 1`. -/
def rollJax (dl : ℤ → ℝ) (L k : ℤ) : ℤ → ℝ := fun x => dl ((x - k) % (2 * L - 1))

/-- `reindex` (turok_jax.py 264-297). The order `m = L` of the last line is out of bounds and its
update is dropped. -/
noncomputable def turokReindex (dl : ℤ → ℝ) (el L mm : ℤ) : ℤ → ℝ :=
  let dl1 : ℤ → ℝ := fun x => if x < L - 1 then rollJax dl L (L - el - 1) x else dl x
  let dl2 : ℤ → ℝ := fun x => if L - 1 ≤ x then rollJax dl1 L (-(L - el - 1)) x else dl1 x
  fun x => dl2 x * (-1) ^ ((mm - (x - (L - 1))) % 2).toNat

/-- `compute_slice` (turok_jax.py 9-62). -/
noncomputable def turokSliceJax (junk : ℤ → ℝ) (β : ℝ) (el L mm : ℤ) : ℤ → ℝ :=
  open Classical in
  let dl : ℤ → ℝ := fun _ => 0
  let dl := if |β| < 1e-10 then turokNorth el L mm else dl
  let dl := if |β - Real.pi| < 1e-10 then turokSouth el L mm else dl
  let dl := if el = 0 then turokEl0 L else dl
  let dl := if ∃ x, 0 ≤ x ∧ x < 2 * L - 1 ∧ dl x ≠ 0 then dl
    else turokQuarterSliceJax junk dl β el L mm
  turokReindex dl el L mm

end S2fft
