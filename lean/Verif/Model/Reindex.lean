import Verif.Model.Samples

/-!
# Model of `s2fft/sampling/reindex.py`

`np.where` / `np.triu_indices` return index arrays in row-major order (lists here);
`x.at[rows, cols].set(vals)` writes the values in list order. Shape errors of mismatched inputs
are modelled as in the functions' static-shape checks.
-/

namespace S2fft

/-- Integers `0, …, n-1` as a list (`np.arange(n)`). -/
def arange (n : ℤ) : List ℤ := (List.range n.toNat).map (fun k : ℕ => (k : ℤ))

/-- `np.where(mask)` for an `r × c` mask: index pairs of the true entries, row-major. -/
def npWhere (r c : ℤ) (mask : ℤ → ℤ → Bool) : List (ℤ × ℤ) :=
  (arange r).flatMap (fun i => ((arange c).filter (mask i)).map (fun j => (i, j)))

/-- `np.triu_indices(n, k, m)`: pairs `(row, col)` with `col ≥ row + k`, row-major. -/
def triuIndices (n k m : ℤ) : List (ℤ × ℤ) := npWhere n m (fun i j => decide (i + k ≤ j))

/-- `a.at[rows, cols].set(vals)` for index pairs `ix` and values `vals`. -/
def scatter2 (a : ℤ → ℤ → ℂ) (ix : List (ℤ × ℤ)) (vals : List ℂ) : ℤ → ℤ → ℂ :=
  (ix.zip vals).foldl (fun s p => set2 s p.1.1 p.1.2 p.2) a

/-- A one-dimensional array as the list of its `n` entries. -/
def toList1 (n : ℤ) (a : ℤ → ℂ) : List ℂ := (arange n).map a

/-- A list as a one-dimensional array. -/
def ofList1 (l : List ℂ) : ℤ → ℂ := fun i => if 0 ≤ i then l.getD i.toNat 0 else 0

/-- reindex.py:40-43 / 78-81: the mask
`(row <= col)[::-1, :] & (row <= col)[::-1, ::-1]` on an `L × (2L-1)` grid. -/
def lmIndices (L : ℤ) : List (ℤ × ℤ) :=
  npWhere L (2 * L - 1)
    (fun r c => decide (L - 1 - r ≤ c) && decide (L - 1 - r ≤ 2 * L - 2 - c))

/-- reindex.py:8-44 `flm_1d_to_2d_fast`, input of length `n`. A scatter of `n` values to the
`L²` index pairs needs `n = L²` (or the broadcastable `n = 1`, which only coincides for `L = 1`
and is modelled as a broadcast otherwise). -/
def flm_1d_to_2d_fast (n : ℤ) (flm_1d : ℤ → ℂ) (L : ℤ) : Except PyErr (ℤ → ℤ → ℂ) :=
  if n = (lmIndices L).length then
    .ok (scatter2 (fun _ _ => 0) (lmIndices L) (toList1 n flm_1d))
  else if n = 1 then
    .ok (scatter2 (fun _ _ => 0) (lmIndices L) (List.replicate (lmIndices L).length (flm_1d 0)))
  else .error .valueError

/-- reindex.py:47-82 `flm_2d_to_1d_fast`, input of shape `(L, 2L-1)`. -/
def flm_2d_to_1d_fast (flm_2d : ℤ → ℤ → ℂ) (L : ℤ) : List ℂ :=
  (lmIndices L).map (fun p => flm_2d p.1 p.2)

/-- reindex.py:129: `np.triu_indices(n=L, k=1, m=L) + [[1],[0]]`, as pairs `(m, el)`. -/
def hpIndices (L : ℤ) : List (ℤ × ℤ) := (triuIndices L 1 L).map (fun p => (p.1 + 1, p.2))

/-- reindex.py:85-135 `flm_hp_to_2d_fast`, input of length `L(L+1)/2`. -/
def flm_hp_to_2d_fast (flm_hp : ℤ → ℂ) (L : ℤ) : ℤ → ℤ → ℂ :=
  let ix := hpIndices L
  let rest : List ℂ := (List.range ix.length).map (fun k : ℕ => flm_hp (L + (k : ℤ)))
  let f0 : ℤ → ℤ → ℂ := fun _ _ => 0
  let f1 := scatter2 f0 ((arange L).map (fun el => (el, L - 1))) ((arange L).map flm_hp)
  let f2 := scatter2 f1 (ix.map (fun p => (p.2, L - 1 + p.1))) rest
  scatter2 f2 (ix.map (fun p => (p.2, L - 1 - p.1)))
    ((ix.zip rest).map (fun q => (-1) ^ q.1.1.toNat * (starRingEnd ℂ) q.2))

/-- reindex.py:138-183 `flm_2d_to_hp_fast`, input of shape `(L, 2L-1)`. -/
def flm_2d_to_hp_fast (flm_2d : ℤ → ℤ → ℂ) (L : ℤ) : List ℂ :=
  (triuIndices (L + 1) 0 L).map (fun p => flm_2d p.2 (L - 1 + p.1))

end S2fft
