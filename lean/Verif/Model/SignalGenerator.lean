import Verif.Model.Samples
import Mathlib.Analysis.SpecialFunctions.Sqrt

/-!
# Random harmonic coefficients

Models `s2fft/utils/signal_generator.py`. The random generator is an arbitrary stream of real
numbers `x : ℕ → ℝ` together with the number of values already drawn; the distribution of the
stream is not modelled. Floating point numbers are modelled by real numbers.
-/

namespace S2fft

/-- `rng.standard_normal(size)`: the next `size` values; a negative size raises. -/
def standardNormal (x : ℕ → ℝ) (pos : ℕ) (size : ℤ) : Except PyErr ((ℤ → ℝ) × ℕ) :=
  if size < 0 then .error .valueError
  else .ok (fun i => x (pos + i.toNat), pos + size.toNat)

/-- `complex_normal` (signal_generator.py 10-39). -/
noncomputable def complexNormal (x : ℕ → ℝ) (pos : ℕ) (size : ℤ) (var : ℝ) :
    Except PyErr ((ℤ → ℂ) × ℕ) := do
  let (a, pos) ← standardNormal x pos size
  let (b, pos) ← standardNormal x pos size
  pure (fun i => ((a i : ℂ) + Complex.I * b i) * (√(var / 2) : ℝ), pos)

/-- `np.tril_indices(m=L, k=-1, n=L)`: the pairs `(r, c)`, `c < r < L`, row by row. -/
def trilIndices (L : ℤ) : List (ℤ × ℤ) :=
  (List.range L.toNat).flatMap fun (r : ℕ) => (List.range r).map fun (c : ℕ) => ((r : ℤ), (c : ℤ))

/-- `complex_el_and_m_indices` (signal_generator.py 42-73); the two index arrays are zipped. -/
def complexElAndMIndices (L min_el : ℤ) : List (ℤ × ℤ) :=
  let idx := (trilIndices L).map fun p => (p.1, p.2 + 1)
  if min_el > 0 then idx.filter fun p => decide (p.1 ≥ min_el) else idx

/-- `a[rows, cols] = v` with index arrays: entry `k` goes to position `k` of the list. -/
def assignIdx (idx : List (ℤ × ℤ)) (v : ℕ → ℂ) (a : ℤ → ℤ → ℂ) (k : ℕ := 0) : ℤ → ℤ → ℂ :=
  match idx with
  | [] => a
  | p :: r => assignIdx r v (set2 a p.1 p.2 (v k)) (k + 1)

/-- `a[lo:hi, j] = v`. -/
def setCol (a : ℤ → ℤ → ℂ) (lo hi j : ℤ) (v : ℤ → ℂ) : ℤ → ℤ → ℂ :=
  fun r c => if (lo ≤ r ∧ r < hi) ∧ c = j then v (r - lo) else a r c

/-- Entry `k` of an index list. -/
def nthIdx (idx : List (ℤ × ℤ)) (k : ℕ) : ℤ × ℤ := idx.getD k (0, 0)

/-- `generate_flm` (signal_generator.py 76-123). -/
noncomputable def generateFlm (x : ℕ → ℝ) (pos : ℕ) (L L_lower spin : ℤ) (reality : Bool) :
    Except PyErr (Nd ℂ × ℕ) := do
  if (flm_shape L).1 < 0 ∨ (flm_shape L).2 < 0 then throw .valueError
  let flm : ℤ → ℤ → ℂ := fun _ _ => 0
  let min_el := max L_lower |spin|
  let (v, pos) ← standardNormal x pos (L - min_el)
  let flm := setCol flm min_el L (L - 1) (fun i => (v i : ℂ))
  let idx := complexElAndMIndices L min_el
  let (w, pos) ← complexNormal x pos idx.length 2
  let flm := assignIdx (idx.map fun p => (p.1, L - 1 + p.2)) (fun k => w k) flm
  if reality then
    let old := flm
    let flm := assignIdx (idx.map fun p => (p.1, L - 1 - p.2))
      (fun k => (-1) ^ (nthIdx idx k).2 *
        (starRingEnd ℂ) (old (nthIdx idx k).1 (L - 1 + (nthIdx idx k).2))) flm
    pure (.d2 (flm_shape L).1 (flm_shape L).2 flm, pos)
  else
    let (w, pos) ← complexNormal x pos idx.length 2
    let flm := assignIdx (idx.map fun p => (p.1, L - 1 - p.2)) (fun k => w k) flm
    pure (.d2 (flm_shape L).1 (flm_shape L).2 flm, pos)

/-- Apply an update to plane `p` of a 3D array. -/
def onPlane (a : ℤ → ℤ → ℤ → ℂ) (p : ℤ) (f : (ℤ → ℤ → ℂ) → ℤ → ℤ → ℂ) : ℤ → ℤ → ℤ → ℂ :=
  fun q => if q = p then f (a q) else a q

/-- The `m = 0` part of the loop body of `generate_flmn` (signal_generator.py 156-176). -/
noncomputable def flmnOrderZero (x : ℕ → ℝ) (L N min_el : ℤ) (reality : Bool) (n : ℤ)
    (s : (ℤ → ℤ → ℤ → ℂ) × ℕ) : Except PyErr ((ℤ → ℤ → ℤ → ℂ) × ℕ) :=
  if reality then
    if n = 0 then do
      let (v, pos) ← standardNormal x s.2 (L - min_el)
      pure (onPlane s.1 (N - 1) fun f => setCol f min_el L (L - 1) (fun i => (v i : ℂ)), pos)
    else if n > 0 then do
      let (v, pos) ← complexNormal x s.2 (L - min_el) 2
      let flmn := onPlane s.1 (N - 1 + n) fun f => setCol f min_el L (L - 1) v
      pure (onPlane flmn (N - 1 - n) fun f => setCol f min_el L (L - 1)
        (fun i => (-1) ^ n * (starRingEnd ℂ) (flmn (N - 1 + n) (min_el + i) (L - 1))), pos)
    else pure s
  else do
    let (v, pos) ← complexNormal x s.2 (L - min_el) 2
    pure (onPlane s.1 (N - 1 + n) fun f => setCol f min_el L (L - 1) v, pos)

/-- The `m ≠ 0` part of the loop body of `generate_flmn` (signal_generator.py 177-200). -/
noncomputable def flmnOrders (x : ℕ → ℝ) (L N min_el : ℤ) (reality : Bool) (n : ℤ)
    (s : (ℤ → ℤ → ℤ → ℂ) × ℕ) : Except PyErr ((ℤ → ℤ → ℤ → ℂ) × ℕ) := do
  let idx := complexElAndMIndices L min_el
  let (w, pos) ← complexNormal x s.2 idx.length 2
  let flmn := onPlane s.1 (N - 1 + n)
    (assignIdx (idx.map fun p => (p.1, L - 1 + p.2)) (fun k => w k))
  if reality then
    pure (onPlane flmn (N - 1 - n) (assignIdx (idx.map fun p => (p.1, L - 1 - p.2))
      (fun k => (-1) ^ ((nthIdx idx k).2 + n) * (starRingEnd ℂ)
        (flmn (N - 1 + n) (nthIdx idx k).1 (L - 1 + (nthIdx idx k).2)))), pos)
  else
    let (w, pos) ← complexNormal x pos idx.length 2
    pure (onPlane flmn (N - 1 + n)
      (assignIdx (idx.map fun p => (p.1, L - 1 - p.2)) (fun k => w k)), pos)

/-- `generate_flmn` (signal_generator.py 126-201). -/
noncomputable def generateFlmn (x : ℕ → ℝ) (pos : ℕ) (L N L_lower : ℤ) (reality : Bool) :
    Except PyErr (Nd ℂ × ℕ) := do
  if (flmn_shape L N).1 < 0 ∨ (flmn_shape L N).2.1 < 0 ∨ (flmn_shape L N).2.2 < 0 then
    throw .valueError
  let (flmn, pos) ← forRangeM (-N + 1) N (fun n s => do
    let s ← flmnOrderZero x L N (max L_lower |n|) reality n s
    flmnOrders x L N (max L_lower |n|) reality n s) (fun _ _ _ => 0, pos)
  pure (.d3 (flmn_shape L N).1 (flmn_shape L N).2.1 (flmn_shape L N).2.2 flmn, pos)

end S2fft
