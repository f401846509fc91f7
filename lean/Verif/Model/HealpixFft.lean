import Verif.Model.Samples
import Verif.Py.Fft

/-!
# HEALPix ring FFTs

Model of `s2fft/utils/healpix_ffts.py` (NumPy and JAX variants) and of
`s2fft/sampling/s2_samples.py` lines 412-443. The `torch` methods are the JAX functions wrapped by
`wrap_as_torch_function`, so they share the JAX model.
-/

namespace S2fft

/-- `spectral_folding`, utils/healpix_ffts.py 19-50. `fm` is the caller's row of length `2L`;
`fm[start:stop]` is a view, so the additions are made in the caller's row. Returns the slice and
the caller's row afterwards. The two `while` loops (41-44, 45-48) are written as counted loops. -/
def spectral_folding (fm : ℤ → ℂ) (nphi L : ℤ) : Except PyErr ((ℤ → ℂ) × (ℤ → ℂ)) :=
  if ¬ nphi ≤ 2 * L then .error .assertionError else
  let slice_start := L - nphi / 2
  let slice_stop := slice_start + nphi
  let fm1 := forRange 1 (slice_start + 1)
    (fun idx fm => add1 fm (slice_start + (-idx) % nphi) (fm (slice_start - idx))) fm
  let fm2 := forRange 0 (2 * L - slice_stop)
    (fun idx fm => add1 fm (slice_start + idx % nphi) (fm (slice_stop + idx))) fm1
  .ok (fun i => fm2 (slice_start + i), fm2)

/-- `spectral_folding_jax`, utils/healpix_ffts.py 53-79. `.at[idx].add(v)` accumulates over
repeated indices; out-of-range gathers clamp to the last entry of the length-`2L` row. -/
def spectral_folding_jax (fm : ℤ → ℂ) (nphi L : ℤ) : ℤ → ℂ :=
  let slice_start := L - nphi / 2
  let slice_stop := slice_start + nphi
  let gather := fun i => fm (min i (2 * L - 1))
  let s0 : ℤ → ℂ := fun i => fm (slice_start + i)
  let s1 := forRange 1 (L - nphi / 2 + 1)
    (fun idx s => add1 s ((-idx) % nphi) (gather (slice_start - idx))) s0
  forRange 0 (L - nphi / 2)
    (fun idx s => add1 s (idx % nphi) (gather (slice_stop + idx))) s1

/-- `spectral_periodic_extension`, utils/healpix_ffts.py 85-117 (`while` loops written as counted
loops). -/
def spectral_periodic_extension (fm : ℤ → ℂ) (nphi L : ℤ) : Except PyErr (ℤ → ℂ) :=
  if ¬ nphi ≤ 2 * L then .error .assertionError else
  let slice_start := L - nphi / 2
  let slice_stop := slice_start + nphi
  let full0 : ℤ → ℂ := fun k =>
    if slice_start ≤ k ∧ k < slice_stop then fm (k - slice_start) else 0
  let full1 := forRange 1 (slice_start + 1)
    (fun idx g => set1 g (slice_start - idx) (fm ((-idx) % nphi))) full0
  .ok (forRange 0 (2 * L - slice_stop)
    (fun idx g => set1 g (slice_stop + idx) (fm (idx % nphi))) full1)

/-- `spectral_periodic_extension_jax`, utils/healpix_ffts.py 120-142. -/
def spectral_periodic_extension_jax (nphi : ℤ) (fm : ℤ → ℂ) (L : ℤ) : ℤ → ℂ :=
  concatChunks
    [(L - nphi / 2, fun j => fm ((-(L - nphi / 2 - j)) % nphi)),
     (nphi, fm),
     (L - (nphi + 1) / 2, fun j => fm (j % nphi))]

/-- The conditional expression at utils/healpix_ffts.py 220-224. -/
def extend_row (fm_chunk : ℤ → ℂ) (nphi L : ℤ) : Except PyErr (ℤ → ℂ) :=
  if nphi = 2 * L then .ok fm_chunk else spectral_periodic_extension fm_chunk nphi L

/-- The conditional expression at utils/healpix_ffts.py 361: the chunk, and the caller's row
afterwards. -/
def fold_row (row : ℤ → ℂ) (nphi L : ℤ) : Except PyErr ((ℤ → ℂ) × (ℤ → ℂ)) :=
  if nphi = 2 * L then .ok (row, row) else spectral_folding row nphi L

/-- `healpix_fft_numpy`, utils/healpix_ffts.py 187-226. -/
noncomputable def healpix_fft_numpy (f : ℤ → ℂ) (L nside : ℤ) (reality : Bool) :
    Except PyErr (ℤ → ℤ → ℂ) := do
  let (nt, _) ← ftm_shape L sHP (some nside)
  let (_, ftm) ← forRangeM 0 nt (fun t (st : ℤ × (ℤ → ℤ → ℂ)) => do
    let (index, ftm) := st
    let nphi ← nphi_ring t nside
    let chunk : ℤ → ℂ := fun p => f (index + p)
    let fm_chunk : ℤ → ℂ :=
      if reality = true ∧ nphi = 2 * L then
        fun k => if k < nphi / 2 then 0 else rfft nphi (fun p => (chunk p).re) (k - nphi / 2)
      else fftshift nphi (fft nphi chunk)
    let row ← extend_row fm_chunk nphi L
    pure (index + nphi, set1 ftm t row)) (0, fun _ _ => 0)
  pure ftm

/-- `f_chunks_to_ftm_rows` inside `healpix_fft_jax`, utils/healpix_ffts.py 252-265, for one
chunk of the stacked pair. -/
noncomputable def f_chunk_to_ftm_row (L : ℤ) (reality : Bool) (chunk : ℤ → ℂ) (nphi : ℤ) :
    ℤ → ℂ :=
  let fm : ℤ → ℂ :=
    if reality = true ∧ nphi = 2 * L then
      concatChunks [(nphi / 2, fun _ => 0), (nphi / 2, rfft nphi (fun p => (chunk p).re))]
    else fftshift nphi (fft nphi chunk)
  spectral_periodic_extension_jax nphi fm L

/-- `healpix_fft_jax`, utils/healpix_ffts.py 230-291. `jnp.stack` of an empty list (`nside = 1`)
raises. For `L < 2 nside` the equatorial rows are longer than `2L` and the concatenation (285)
raises; the model raises at once. -/
noncomputable def healpix_fft_jax (f : ℤ → ℂ) (L nside : ℤ) (reality : Bool) :
    Except PyErr (ℤ → ℤ → ℂ) :=
  let (s, e, polar) := forRange 0 (nside - 1)
    (fun t (st : ℤ × ℤ × (ℤ → (ℤ → ℂ) × (ℤ → ℂ))) =>
      let (s, e, polar) := st
      let nphi := 4 * (t + 1)
      (s + nphi, e - nphi, set1 polar t
        (f_chunk_to_ftm_row L reality (fun p => f (s + p)) nphi,
         f_chunk_to_ftm_row L reality (fun p => f (e - nphi + p)) nphi)))
    (0, 12 * nside ^ 2, fun _ => (fun _ => 0, fun _ => 0))
  if nside - 1 ≤ 0 then .error .valueError
  else if L < 2 * nside then .error .typeError
  else
    let nphi := 4 * nside
    .ok (concatChunks
      [(nside - 1, fun t => (polar t).1),
       ((e - s) / nphi, fun r => f_chunk_to_ftm_row L reality (fun p => f (s + (r * nphi + p))) nphi),
       (nside - 1, fun t => (polar (nside - 2 - t)).2)])

/-- `healpix_ifft_numpy`, utils/healpix_ffts.py 335-371. `nrows` is `ftm.shape[0]`. Returns the
pixels and the caller's `ftm` afterwards (`spectral_folding` writes into it). -/
noncomputable def healpix_ifft_numpy (nrows : ℤ) (ftm : ℤ → ℤ → ℂ) (L nside : ℤ)
    (reality : Bool) : Except PyErr ((ℤ → ℂ) × (ℤ → ℤ → ℂ)) := do
  let (_, f, ftm') ← forRangeM 0 nrows (fun t (st : ℤ × (ℤ → ℂ) × (ℤ → ℤ → ℂ)) => do
    let (index, f, ftm) := st
    let nphi ← nphi_ring t nside
    let (fm_chunk, row) ← fold_row (ftm t) nphi L
    let vals : ℤ → ℂ :=
      if reality = true ∧ nphi = 2 * L then
        irfft_fwd (nphi - nphi / 2) (fun k => fm_chunk (nphi / 2 + k)) nphi
      else ifft_fwd nphi (ifftshift nphi fm_chunk)
    let f' : ℤ → ℂ := fun i => if index ≤ i ∧ i < index + nphi then vals (i - index) else f i
    pure (index + nphi, f', set1 ftm t row)) (0, fun _ => 0, ftm)
  pure (f, ftm')

/-- `ftm_rows_to_f_chunks` inside `healpix_ifft_jax`, utils/healpix_ffts.py 398-407, for one
row. -/
noncomputable def ftm_row_to_f_chunk (L : ℤ) (reality : Bool) (row : ℤ → ℂ) (nphi : ℤ) : ℤ → ℂ :=
  let fm := if nphi = 2 * L then row else spectral_folding_jax row nphi L
  if reality = true ∧ nphi = 2 * L then
    irfft_fwd (nphi - nphi / 2) (fun k => fm (nphi / 2 + k)) nphi
  else ifft_fwd nphi (ifftshift nphi fm)

/-- `range(n)` as a list. -/
def pyRange (n : ℤ) : List ℤ := (List.range n.toNat).map (fun (k : ℕ) => (k : ℤ))

/-- `healpix_ifft_jax`, utils/healpix_ffts.py 375-423, for `ftm` with `4 nside - 1` rows. -/
noncomputable def healpix_ifft_jax (ftm : ℤ → ℤ → ℂ) (L nside : ℤ) (reality : Bool) : ℤ → ℂ :=
  let nrows := 4 * nside - 1
  let polar := fun t : ℤ =>
    (ftm_row_to_f_chunk L reality (ftm t) (4 * (t + 1)),
     ftm_row_to_f_chunk L reality (ftm (nrows - (t + 1))) (4 * (t + 1)))
  let nphi := 4 * nside
  let equatorial := fun r : ℤ => ftm_row_to_f_chunk L reality (ftm (nside - 1 + r)) nphi
  let neq := 3 * nside - (nside - 1)
  concatChunks
    ((pyRange (nside - 1)).map (fun t => (4 * (t + 1), (polar t).1))
      ++ [(neq * nphi, fun i => equatorial (i / nphi) (i % nphi))]
      ++ (pyRange (nside - 1)).reverse.map (fun t => (4 * (t + 1), (polar t).2)))

/-- `p2phi_rings`, utils/healpix_ffts.py 429-452 (and `_jax` 456-479): azimuth of the first
pixel of each ring. -/
noncomputable def p2phi_rings (t nside : ℤ) : ℝ :=
  let tt : ℝ := 0
  let tt := if t + 1 ≥ nside ∧ t + 1 ≤ 3 * nside then
    1 / 2 * (((t - nside + 2) % 2 : ℤ) : ℝ) * Real.pi / (2 * (nside : ℝ)) else tt
  let tt := if t + 1 > 3 * nside then 1 / 2 * Real.pi / (2 * (4 * (nside : ℝ) - t - 1)) else tt
  if t + 1 < nside then 1 / 2 * Real.pi / (2 * ((t : ℝ) + 1)) else tt

/-- `ring_phase_shifts_hp`, utils/healpix_ffts.py 482-509 (and `_jax` 513-543). Entry `[t, j]`;
column `j` is order `m = m_start_ind + j`. -/
noncomputable def ring_phase_shifts_hp (L nside : ℤ) (forward reality : Bool) (t j : ℤ) : ℂ :=
  let sign : ℝ := if forward then -1 else 1
  let m_start_ind := if reality then 0 else -L + 1
  cis (sign * (p2phi_rings t nside * (m_start_ind + j : ℤ)))

/-- `ring_phase_shift_hp`, sampling/s2_samples.py 412-443. -/
noncomputable def ring_phase_shift_hp (L t nside : ℤ) (forward reality : Bool) (j : ℤ) : ℂ :=
  let phi_offset := p2phi_ring t 0 nside
  let sign : ℝ := if forward then -1 else 1
  let m_start_ind := if reality then 0 else -L + 1
  cis (sign * (m_start_ind + j : ℤ) * phi_offset)

end S2fft
