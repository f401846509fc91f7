import Verif.Py.Basic
import Mathlib.Analysis.SpecialFunctions.Sqrt

/-!
# Trapani & Navaza recursion for Wigner-d planes at `π/2`

Models `s2fft/recursions/trapani.py`. Floating point numbers are real numbers. The argument checks
of this file are commented out in the source, so nothing is rejected; all positions used are inside
the plane when `1 ≤ el < L`.
-/

namespace S2fft

/-- `for i in range(start, stop, -1)`. -/
def forDown {σ : Type*} (start stop : ℤ) (body : ℤ → σ → σ) (s : σ) : σ :=
  forRange 0 (start - stop) (fun t s => body (start - t) s) s

/-- `init_nonjax` and `init_jax` (trapani.py 41-93). -/
def trapaniInit (dl : ℤ → ℤ → ℝ) (L : ℤ) : ℤ → ℤ → ℝ :=
  set2 dl (0 + L - 1) (0 + L - 1) 1

/-- The row `dmm` for `m = el` (trapani.py 133-143, loop version). -/
noncomputable def trapaniDmm (dl : ℤ → ℤ → ℝ) (L el : ℤ) : ℤ → ℝ :=
  let dmm := set1 (fun _ => 0) 0
    (-Real.sqrt ((2 * el - 1) / (2 * el)) * dl (el - 1 + (L - 1)) (0 + (L - 1)))
  forRange 1 (el + 1) (fun mm dmm =>
    set1 dmm mm (Real.sqrt ((el : ℝ) / 2 * (2 * el - 1) / (el + mm) / (el + mm - 1)) *
      dl (el - 1 + (L - 1)) (mm - 1 + (L - 1)))) dmm

/-- `compute_eighth` (trapani.py 96-174). -/
noncomputable def trapaniEighth (dl : ℤ → ℤ → ℝ) (L el : ℤ) : ℤ → ℤ → ℝ :=
  let dmm := trapaniDmm dl L el
  let dl := forRange 0 (el + 1) (fun mm dl => set2 dl (el + (L - 1)) (mm + (L - 1)) (dmm mm)) dl
  forRange 0 (el + 1) (fun mm dl =>
    let m := el - 1
    let dl := set2 dl (m + (L - 1)) (mm + (L - 1))
      (2 * mm / Real.sqrt ((el - m) * (el + m + 1) : ℤ) * dl (m + 1 + (L - 1)) (mm + (L - 1)))
    forDown (el - 2) (mm - 1) (fun m dl =>
      let t1 := 2 * mm / Real.sqrt ((el - m) * (el + m + 1) : ℤ) *
        dl (m + 1 + (L - 1)) (mm + (L - 1))
      let t2 := Real.sqrt (((el - m - 1) * (el + m + 2) : ℤ) / (el - m : ℤ) / (el + m + 1 : ℤ)) *
        dl (m + 2 + (L - 1)) (mm + (L - 1))
      set2 dl (m + (L - 1)) (mm + (L - 1)) (t1 - t2)) dl) dl

/-- `a[r, lo:hi] = v`, `v` indexed by the column counted from `lo`. -/
def setRow (a : ℤ → ℤ → ℝ) (r lo hi : ℤ) (v : ℤ → ℝ) : ℤ → ℤ → ℝ :=
  fun x y => if x = r ∧ lo ≤ y ∧ y < hi then v (y - lo) else a x y

/-- The row `dmm` for `m = el` (trapani.py 210-220, vectorised; 284-297, JAX): entries
`1 ≤ mm < hi` with `hi = el + 1` (NumPy) or `hi = L` (JAX). -/
noncomputable def trapaniDmmVec (dl : ℤ → ℤ → ℝ) (L el hi : ℤ) : ℤ → ℝ :=
  let dmm := set1 (fun _ => 0) 0
    (-Real.sqrt ((2 * el - 1) / (2 * el)) * dl (el - 1 + (L - 1)) (0 + (L - 1)))
  fun mm => if 1 ≤ mm ∧ mm < hi then
      Real.sqrt ((el : ℝ) / 2 * (2 * el - 1) / (el + mm) / (el + mm - 1)) *
        dl (el - 1 + (L - 1)) (mm - 1 + (L - 1)) else dmm mm

/-- `compute_quarter_vectorized` (trapani.py 177-244). -/
noncomputable def trapaniQuarterVec (dl : ℤ → ℤ → ℝ) (L el : ℤ) : ℤ → ℤ → ℝ :=
  let dmm := trapaniDmmVec dl L el (el + 1)
  let dl := setRow dl (el + (L - 1)) (L - 1) (el + 1 + (L - 1)) dmm
  let m := el - 1
  let dl := setRow dl (m + (L - 1)) (L - 1) (el + 1 + (L - 1)) (fun mm =>
    2 * mm / Real.sqrt ((el - m) * (el + m + 1) : ℤ) * dl (m + 1 + (L - 1)) (mm + (L - 1)))
  forDown (el - 2) (-1) (fun m dl =>
    setRow dl (m + (L - 1)) (L - 1) (el + 1 + (L - 1)) (fun mm =>
      2 * mm / Real.sqrt ((el - m) * (el + m + 1) : ℤ) * dl (m + 1 + (L - 1)) (mm + (L - 1))
      - Real.sqrt (((el - m - 1) * (el + m + 2) : ℤ) / (el - m : ℤ) / (el + m + 1 : ℤ)) *
        dl (m + 2 + (L - 1)) (mm + (L - 1)))) dl

/-- `compute_quarter_jax` (trapani.py 247-339). The `lax.scan` (319-335) carries the two previous
rows; its outputs are the rows `ms[i] = el - 2 - i`, all scattered at once at the end (337). -/
noncomputable def trapaniQuarterJax (dl : ℤ → ℤ → ℝ) (L el : ℤ) : ℤ → ℤ → ℝ :=
  let dmm := trapaniDmmVec dl L el L
  let dl := setRow dl (el + (L - 1)) (L - 1) (L + (L - 1)) dmm
  let m := el - 1
  let dl := setRow dl (m + (L - 1)) (L - 1) (L + (L - 1)) (fun mm =>
    2 * mm / Real.sqrt ((el - m) * (el + m + 1) : ℤ) * dl (m + 1 + (L - 1)) (mm + (L - 1)))
  let ms : ℤ → ℤ := fun i => (L - 1) - 2 - i - (L - 1) + el
  let clip : ℤ → ℤ := fun i => if ms i < 0 then 0 else ms i
  let t1_fact : ℤ → ℝ := fun i => Real.sqrt ((el - clip i) * (el + clip i + 1) : ℤ)
  let t2_fact : ℤ → ℝ := fun i =>
    Real.sqrt (((el - clip i - 1) * (el + clip i + 2) : ℤ) / (el - clip i : ℤ) /
      (el + clip i + 1 : ℤ))
  let scan := forRange 0 (L - 2)
    (fun i (st : (ℤ → ℝ) × (ℤ → ℝ) × (ℤ → ℤ → ℝ)) =>
      let slice0 : ℤ → ℝ := fun mm => 2 * mm / t1_fact i * st.1 mm - t2_fact i * st.2.1 mm
      (slice0, st.1, fun i' => if i' = i then slice0 else st.2.2 i'))
    (fun mm => dl (el - 1 + (L - 1)) (mm + (L - 1)), fun mm => dl (el + (L - 1)) (mm + (L - 1)),
      fun _ _ => 0)
  forRange 0 (L - 2) (fun i dl =>
    setRow dl (ms i + (L - 1)) (L - 1) (L + (L - 1)) (scan.2.2 i)) dl

/-- `fill_eighth2quarter` (trapani.py 342-371). -/
noncomputable def fillEighth2Quarter (dl : ℤ → ℤ → ℝ) (L el : ℤ) : ℤ → ℤ → ℝ :=
  forRange 0 (el + 1) (fun m dl => forRange (m + 1) (el + 1) (fun mm dl =>
    set2 dl (m + (L - 1)) (mm + (L - 1))
      ((-1) ^ (m + mm).toNat * dl (mm + (L - 1)) (m + (L - 1)))) dl) dl

/-- `fill_quarter2half` (trapani.py 374-403). -/
noncomputable def fillQuarter2Half (dl : ℤ → ℤ → ℝ) (L el : ℤ) : ℤ → ℤ → ℝ :=
  forRange 0 (el + 1) (fun mm dl => forRange (-el) 0 (fun m dl =>
    set2 dl (m + (L - 1)) (mm + (L - 1))
      ((-1) ^ (el + mm).toNat * dl (-m + (L - 1)) (mm + (L - 1)))) dl) dl

/-- `fill_quarter2half_vectorized` with `k = el` (trapani.py 406-437) and `fill_quarter2half_jax`
with `k = L - 1` (440-474): the whole right-hand side is read before the assignment. -/
noncomputable def fillQuarter2HalfVec (dl : ℤ → ℤ → ℝ) (L el k : ℤ) : ℤ → ℤ → ℝ :=
  fun x y =>
    let m := x - (L - 1)
    let mm := y - (L - 1)
    if (-k ≤ m ∧ m < 0) ∧ (0 ≤ mm ∧ mm < k + 1) then
      (-1) ^ (el + mm).toNat * dl (-m + (L - 1)) (mm + (L - 1)) else dl x y

/-- `fill_half2full` (trapani.py 477-509). -/
noncomputable def fillHalf2Full (dl : ℤ → ℤ → ℝ) (L el : ℤ) : ℤ → ℤ → ℝ :=
  forRange (-el) 0 (fun mm dl => forRange (-el) (el + 1) (fun m dl =>
    set2 dl (m + (L - 1)) (mm + (L - 1))
      ((-1) ^ (el + |m|).toNat * dl (m + (L - 1)) (-mm + (L - 1)))) dl) dl

/-- `fill_half2full_vectorized` with `k = el` (trapani.py 512-543) and `fill_half2full_jax` with
`k = L - 1` (546-580). -/
noncomputable def fillHalf2FullVec (dl : ℤ → ℤ → ℝ) (L el k : ℤ) : ℤ → ℤ → ℝ :=
  fun x y =>
    let m := x - (L - 1)
    let mm := y - (L - 1)
    if (-k ≤ mm ∧ mm < 0) ∧ (-k ≤ m ∧ m < k + 1) then
      (-1) ^ (el + |m|).toNat * dl (m + (L - 1)) (-mm + (L - 1)) else dl x y

/-- `compute_full_loop` (trapani.py 635-666). -/
noncomputable def trapaniFullLoop (dl : ℤ → ℤ → ℝ) (L el : ℤ) : ℤ → ℤ → ℝ :=
  let dl := trapaniEighth dl L el
  let dl := fillEighth2Quarter dl L el
  let dl := fillQuarter2Half dl L el
  fillHalf2Full dl L el

/-- `compute_quarter` (trapani.py 669-706). -/
noncomputable def trapaniQuarter (dl : ℤ → ℤ → ℝ) (L el : ℤ) : ℤ → ℤ → ℝ :=
  fillEighth2Quarter (trapaniEighth dl L el) L el

/-- `compute_full_vectorized` (trapani.py 709-739). -/
noncomputable def trapaniFullVec (dl : ℤ → ℤ → ℝ) (L el : ℤ) : ℤ → ℤ → ℝ :=
  let dl := trapaniQuarterVec dl L el
  let dl := fillQuarter2HalfVec dl L el el
  fillHalf2FullVec dl L el el

/-- `compute_full_jax` (trapani.py 742-773). -/
noncomputable def trapaniFullJax (dl : ℤ → ℤ → ℝ) (L el : ℤ) : ℤ → ℤ → ℝ :=
  let dl := trapaniQuarterJax dl L el
  let dl := fillQuarter2HalfVec dl L el (L - 1)
  fillHalf2FullVec dl L el (L - 1)

/-- Implementation names. -/
def implLoop : PyStr := "loop".toList
def implVectorized : PyStr := "vectorized".toList
def implJax : PyStr := "jax".toList

/-- `compute_full` (trapani.py 583-632): only the name `loop` is compared case-insensitively. -/
noncomputable def trapaniFull (dl : ℤ → ℤ → ℝ) (L el : ℤ) (impl : PyStr) :
    Except PyErr (ℤ → ℤ → ℝ) :=
  if lower impl = implLoop then .ok (trapaniFullLoop dl L el)
  else if impl = implVectorized then .ok (trapaniFullVec dl L el)
  else if impl = implJax then .ok (trapaniFullJax dl L el)
  else .error .valueError

/-- `init` (trapani.py 8-38). -/
def trapaniInitImpl (dl : ℤ → ℤ → ℝ) (L : ℤ) (impl : PyStr) : Except PyErr (ℤ → ℤ → ℝ) :=
  if lower impl = implLoop then .ok (trapaniInit dl L)
  else if impl = implVectorized then .ok (trapaniInit dl L)
  else if impl = implJax then .ok (trapaniInit dl L)
  else .error .valueError

end S2fft
