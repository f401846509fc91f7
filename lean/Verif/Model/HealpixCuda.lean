import Verif.Model.HealpixFft

/-!
# CUDA backend of the HEALPix ring FFTs

Model of `lib/src/s2fft_kernels.cu`, `lib/src/s2fft_callbacks.cu`, `lib/src/s2fft.cu`,
`lib/src/extensions.cc`, `lib/src/plan_cache.cc`, `lib/include/s2fft.h` and
`s2fft/utils/healpix_ffts.py` 566-678.

Simplifications: C integers are unbounded and each kernel thread runs atomically (`Model/CudaThreads.lean`
has 32-bit integers and interleaves single accesses; C47 shows that the results agree);
all CUDA/cuFFT calls succeed; `normalize` is exact (the code divides in single precision); cuFFT
computes the documented sums and applies store callbacks after reading all of its input.
-/

namespace S2fft.Cuda

/-- C `%` followed by the sign fix-up used in the kernels, lib/src/s2fft_kernels.cu 79-80. -/
def cmodFix (a n : ℤ) : ℤ := let r := Int.tmod a n; if r < 0 then n + r else r

/-- `computeNphi`, lib/src/s2fft_kernels.cu 10-38: (ring size, ring offset). -/
def computeNphi (nside ring_index : ℤ) : ℤ × ℤ :=
  let total_pixels := 12 * nside * nside
  let total_rings := 4 * nside - 1
  let upper_pixels := nside * (nside - 1) * 2
  if ring_index < nside - 1 then
    (4 * (ring_index + 1), ring_index * (ring_index + 1) * 2)
  else if ring_index > 3 * nside - 1 then
    let nphi := 4 * (total_rings - ring_index)
    let nphi := if nphi = 0 then 4 else nphi
    let reverse_ring_index := total_rings - ring_index
    (nphi, total_pixels - reverse_ring_index * (reverse_ring_index + 1) * 2)
  else (4 * nside, upper_pixels + (ring_index - nside + 1) * 4 * nside)

/-- `swap(output[i], output[j])`, lib/src/s2fft_kernels.cu 40-45. -/
def swap (o : ℤ → ℂ) (i j : ℤ) : ℤ → ℂ := set1 (set1 o i (o j)) j (o i)

/-- One thread of `spectral_folding`, lib/src/s2fft_kernels.cu 46-109. -/
def folding_thread (data : ℤ → ℂ) (nside L : ℤ) (shift : Bool) (idx : ℤ) (output : ℤ → ℂ) :
    ℤ → ℂ :=
  if idx ≥ 4 * nside - 1 then output else
  let nphi := (computeNphi nside idx).1
  let ring_offset := (computeNphi nside idx).2
  let ftm_offset := idx * (2 * L)
  let slice_start := L - nphi.tdiv 2
  let slice_end := slice_start + nphi
  let o := forRange 0 nphi
    (fun i o => set1 o (i + ring_offset) (data (i + ftm_offset + slice_start))) output
  let o := forRange 0 slice_start
    (fun i o => add1 o (cmodFix (-(1 + i)) nphi + ring_offset)
      (data (slice_start - (1 + i) + ftm_offset))) o
  let o := forRange 0 (L - nphi.tdiv 2)
    (fun i o => add1 o (cmodFix i nphi + ring_offset) (data (slice_end + i + ftm_offset))) o
  if shift then
    let half := nphi.tdiv 2
    forRange 0 half (fun i o => swap o (i + ring_offset) (i + ring_offset + half)) o
  else o

/-- One thread of `spectral_extension`, lib/src/s2fft_kernels.cu 165-209. -/
def extension_thread (data : ℤ → ℂ) (nside L : ℤ) (idx : ℤ) (output : ℤ → ℂ) : ℤ → ℂ :=
  let ftm_size := 2 * L
  if idx ≥ (4 * nside - 1) * ftm_size then output else
  let ring_index := idx.tdiv (2 * L)
  let nphi := (computeNphi nside ring_index).1
  let offset_ring := (computeNphi nside ring_index).2
  let offset := idx.tmod (2 * L)
  if offset < L - nphi.tdiv 2 then
    set1 output idx (data (cmodFix (-(L - nphi.tdiv 2 - offset)) nphi + offset_ring))
  else if offset ≥ L - nphi.tdiv 2 ∧ offset < L + nphi.tdiv 2 then
    set1 output idx (data (offset - (L - nphi.tdiv 2) + offset_ring))
  else
    let reverse_offset := ftm_size - offset
    set1 output idx
      (data (cmodFix (L - (nphi + 1).tdiv 2 - reverse_offset) nphi + offset_ring))

/-- Number of threads launched: blocks of 128 covering `n` elements,
lib/src/s2fft_kernels.cu 214-216 and 227-229. -/
def launched (n : ℤ) : ℤ := (n + 128 - 1).tdiv 128 * 128

/-- A schedule: any ordering of the launched threads. -/
def ValidSched (n : ℤ) (sched : List ℤ) : Prop := sched.Perm (pyRange (launched n))

/-- Run the threads of a kernel in the order given by a schedule. -/
def runThreads (thread : ℤ → (ℤ → ℂ) → ℤ → ℂ) (sched : List ℤ) (out : ℤ → ℂ) : ℤ → ℂ :=
  sched.foldl (fun o i => thread i o) out

/-- `fft_norm`, lib/include/s2fft_callbacks.h. -/
inductive FftNorm | FORWARD | BACKWARD | ORTHO | NONE
  deriving DecidableEq

/-- Scaling done by a store callback: nothing, `1/n` or `1/√n`. -/
inductive Scale | one | byN | ortho
  deriving DecidableEq

/-- A store callback: index map (none, `fft_shift`, `fft_shift_eq`) and scaling. -/
structure Callback where
  shift : Bool
  equator : Bool
  scale : Scale
  deriving DecidableEq

/-- A cuFFT plan with its store callback: transform size, batch distance, batch count. -/
structure Plan where
  n : ℤ
  dist : ℤ
  batch : ℤ
  cb : Callback
  deriving DecidableEq

/-- `fft_shift`, lib/src/s2fft_callbacks.cu 13-24. -/
def fft_shift (offset n dist : ℤ) : ℤ :=
  let first_element_offset := if offset < dist then 0 else dist
  let normalized_offset := offset - first_element_offset
  let shifted_index := normalized_offset + n.tdiv 2
  shifted_index.tmod n + first_element_offset

/-- `fft_shift_eq`, lib/src/s2fft_callbacks.cu 26-36. -/
def fft_shift_eq (offset n : ℤ) : ℤ :=
  let first_element_offset := offset.tdiv n * n
  let offset_in_ring := first_element_offset + offset.tmod n
  let shifted_index := offset_in_ring + n.tdiv 2
  shifted_index.tmod n + first_element_offset

/-- Where the callback stores the element of output offset `offset`,
lib/src/s2fft_callbacks.cu 54-143. -/
def Callback.index (cb : Callback) (n dist offset : ℤ) : ℤ :=
  if cb.shift then (if cb.equator then fft_shift_eq offset n else fft_shift offset n dist)
  else offset

/-- The factor applied by the callback, lib/src/s2fft_callbacks.cu 38-50 (exact). -/
noncomputable def Callback.factor (cb : Callback) (n : ℤ) : ℂ :=
  match cb.scale with
  | .one => 1
  | .byN => 1 / n
  | .ortho => 1 / (Real.sqrt n : ℂ)

/-- `setCallback`, lib/src/s2fft_callbacks.cu 252-313: callbacks of the forward and backward
plans. (A plan without callback stores in place without scaling.) -/
def setCallback (shift equator : Bool) (norm : FftNorm) : Callback × Callback :=
  match norm with
  | .ORTHO => (⟨shift, equator, .ortho⟩, ⟨false, equator, .ortho⟩)
  | .BACKWARD => (⟨shift, equator, .one⟩, ⟨false, equator, .byN⟩)
  | .FORWARD => (⟨shift, equator, .byN⟩, ⟨false, equator, .one⟩)
  | .NONE => (⟨shift, equator, .one⟩, ⟨false, equator, .one⟩)

/-- `s2fftDescriptor`, lib/include/s2fft.h 29-52. -/
structure Descriptor where
  nside : ℤ
  harmonic_band_limit : ℤ
  reality : Bool
  forward : Bool
  norm : FftNorm
  shift : Bool
  double_precision : Bool
  deriving DecidableEq

/-- `operator==`, lib/include/s2fft.h 54-58: `forward` is not compared. -/
def Descriptor.same (a b : Descriptor) : Bool :=
  a.nside = b.nside ∧ a.harmonic_band_limit = b.harmonic_band_limit ∧ a.reality = b.reality ∧
  a.norm = b.norm ∧ a.shift = b.shift ∧ a.double_precision = b.double_precision

/-- `s2fftExec`, lib/include/s2fft.h 61-90. -/
structure Exec where
  polar_plans : List Plan
  inverse_polar_plans : List Plan
  equator_plan : Option Plan
  inverse_equator_plan : Option Plan
  nside : ℤ
  eq_start : ℤ
  eq_end : ℤ
  eq_num : ℤ
  upper : List ℤ
  lower : List ℤ

/-- A default-constructed executor. -/
def Exec.empty : Exec := ⟨[], [], none, none, 0, 0, 0, 0, [], []⟩

/-- First loop of `Initialize`, lib/src/s2fft.cu 33-40: push the ring offsets, advance
`(start_index, end_index)`. -/
def offsetsLoop (nside : ℤ) : ℕ → ℤ × ℤ × List ℤ × List ℤ → ℤ × ℤ × List ℤ × List ℤ
  | 0, st => st
  | i + 1, st =>
    let (s, e, up, lo) := offsetsLoop nside i st
    let nphi := 4 * ((i : ℤ) + 1)
    (s + nphi, e - nphi, up ++ [s], lo ++ [e - nphi])

/-- `Initialize`, lib/src/s2fft.cu 19-117. The vectors are appended to; the plan of polar ring `i`
is built from `m_upper_ring_offsets[i]` and `m_lower_ring_offsets[i]`, i.e. from the *first*
entries of the vectors. The equatorial plans have `inembed = nullptr`, so rings are packed. -/
def Exec.initialize (d : Descriptor) (e : Exec) : Exec :=
  let n1 := (d.nside - 1).toNat
  let (s, en, up, lo) := offsetsLoop d.nside n1 (0, 12 * d.nside * d.nside, e.upper, e.lower)
  let num := (en - s).tdiv (4 * d.nside)
  let mk := fun (i : ℕ) =>
    let n := 4 * ((i : ℤ) + 1)
    let dist := lo.getD i 0 - up.getD i 0
    let cbs := setCallback d.shift false d.norm
    (({ n := n, dist := dist, batch := 2, cb := cbs.1 } : Plan),
     ({ n := n, dist := dist, batch := 2, cb := cbs.2 } : Plan))
  let eqs := setCallback d.shift true d.norm
  { polar_plans := e.polar_plans ++ (List.range n1).map (fun i => (mk i).1)
    inverse_polar_plans := e.inverse_polar_plans ++ (List.range n1).map (fun i => (mk i).2)
    equator_plan := some { n := 4 * d.nside, dist := 4 * d.nside, batch := num, cb := eqs.1 }
    inverse_equator_plan :=
      some { n := 4 * d.nside, dist := 4 * d.nside, batch := num, cb := eqs.2 }
    nside := d.nside
    eq_start := s, eq_end := en, eq_num := num, upper := up, lower := lo }

/-- `cufftXtExec` in place at `base`: every batch member is transformed (unnormalised sums),
scaled, and stored where the callback says. -/
noncomputable def Plan.exec (pl : Plan) (fwd : Bool) (base : ℤ) (data : ℤ → ℂ) : ℤ → ℂ :=
  forRange 0 pl.batch (fun b out => forRange 0 pl.n (fun j out =>
    set1 out (base + pl.cb.index pl.n pl.dist (b * pl.dist + j))
      ((if fwd then fft pl.n (fun k => data (base + (b * pl.dist + k))) j
        else ifft_fwd pl.n (fun k => data (base + (b * pl.dist + k))) j)
          * pl.cb.factor pl.n)) out) data

/-- One iteration of the polar loop of `Forward`, lib/src/s2fft.cu 121-127, or `Backward`. -/
noncomputable def Exec.polarStep (e : Exec) (fwd : Bool) (i : ℤ) (data : ℤ → ℂ) : ℤ → ℂ :=
  match (if fwd then e.polar_plans else e.inverse_polar_plans)[i.toNat]?, e.upper[i.toNat]? with
  | some pl, some off => pl.exec fwd off data
  | _, _ => data

/-- `Forward`, lib/src/s2fft.cu 119-136, and `Backward`, 138-154. -/
noncomputable def Exec.run (e : Exec) (fwd : Bool) (data : ℤ → ℂ) : ℤ → ℂ :=
  let data := forRange 0 (e.nside - 1) (e.polarStep fwd) data
  match (if fwd then e.equator_plan else e.inverse_equator_plan) with
  | some pl => pl.exec fwd e.eq_start data
  | none => data

/-- The norm chosen by `build_healpix_fft_descriptor`, lib/src/extensions.cc 120-129. -/
def descriptorNorm (forward normalize : Bool) : FftNorm :=
  if forward && normalize then .FORWARD
  else if !forward && normalize then .BACKWARD
  else if forward && !normalize then .BACKWARD
  else .FORWARD

/-- `normalize` from the `norm` string, utils/healpix_ffts.py 582-588. -/
def lowerNorm (forward : Bool) (norm : PyStr) : Except PyErr Bool :=
  if (forward ∧ norm = "backward".toList) ∨ (¬ forward ∧ norm = "forward".toList) then .ok false
  else if (forward ∧ norm = "forward".toList) ∨ (¬ forward ∧ norm = "backward".toList) then
    .ok true
  else .error .valueError

/-- The descriptor built for a call, extensions.cc 115-133 and healpix_ffts.py 590-592. -/
def mkDescriptor (nside L : ℤ) (reality forward normalize double : Bool) : Descriptor :=
  ⟨nside, L, reality, forward, descriptorNorm forward normalize, true, double⟩

/-- `healpix_forward`, lib/src/extensions.cc 26-56: transform the input buffer in place, then
extend into the output buffer. Returns (output buffer, input buffer afterwards). -/
noncomputable def healpix_forward (e : Exec) (d : Descriptor) (sched : List ℤ)
    (data out : ℤ → ℂ) : (ℤ → ℂ) × (ℤ → ℂ) :=
  let data := e.run true data
  (runThreads (extension_thread data d.nside d.harmonic_band_limit) sched out, data)

/-- `healpix_backward`, lib/src/extensions.cc 58-88: fold into the output buffer, then transform
it in place. Returns (output buffer, input buffer afterwards). -/
noncomputable def healpix_backward (e : Exec) (d : Descriptor) (sched : List ℤ)
    (data out : ℤ → ℂ) : (ℤ → ℂ) × (ℤ → ℂ) :=
  let out := runThreads (folding_thread data d.nside d.harmonic_band_limit d.shift) sched out
  (e.run false out, data)

/-! ## Plan cache -/

/-- One of the two maps of `PlanCache`, lib/include/plan_cache.h 31-37: descriptors to shared
executors. -/
abbrev Cache := List (Descriptor × Exec)

/-- `find`. -/
def Cache.find (c : Cache) (d : Descriptor) : Option Exec :=
  (List.find? (fun p => p.1.same d) c).map Prod.snd

/-- Mutate the shared executor stored under `d`. -/
def Cache.modify (c : Cache) (d : Descriptor) (g : Exec → Exec) : Cache :=
  c.map (fun p => if p.1.same d then (p.1, g p.2) else p)

/-- `GetS2FFTExec`, lib/src/plan_cache.cc 12-50: a hit returns the stored executor; a miss
initialises the passed (fresh) one and stores it. -/
def getExec (c : Cache) (d : Descriptor) : Exec × Cache :=
  match c.find d with
  | some e => (e, c)
  | none => let e := Exec.empty.initialize d; (e, (d, e) :: c)

/-- Operations on the cache: building a descriptor at lowering time, and running a transform. -/
inductive Op
  | build (d : Descriptor)
  | run (d : Descriptor)

/-- One operation: the cache afterwards and the executor in use. Building initialises the
(shared) executor once more, extensions.cc 135-145. -/
def step (c : Cache) : Op → Cache × Exec
  | .build d =>
    let (_, c) := getExec c d
    let c := c.modify d (Exec.initialize d)
    (c, (c.find d).getD Exec.empty)
  | .run d => let (e, c) := getExec c d; (c, e)

/-- The caches for single and double precision. -/
structure Caches where
  c32 : Cache
  c64 : Cache

/-- An operation goes to the map of its precision. -/
def Caches.step (c : Caches) (op : Op) : Caches × Exec :=
  let dbl := match op with | .build d => d.double_precision | .run d => d.double_precision
  if dbl then let r := Cuda.step c.c64 op; ({ c with c64 := r.1 }, r.2)
  else let r := Cuda.step c.c32 op; ({ c with c32 := r.1 }, r.2)

/-- State after a history of operations, starting from empty maps. -/
def runOps (ops : List Op) : Caches := ops.foldl (fun c op => (c.step op).1) ⟨[], []⟩

/-- `healpix_fft_cuda`, utils/healpix_ffts.py 622-648: lowering builds the descriptor (and warms
the cache), execution fetches the executor and runs. Returns the `(4 nside - 1) × 2L` output and
the input buffer afterwards. `out0` is the uninitialised output buffer. -/
noncomputable def healpix_fft_cuda (c : Caches) (sched : List ℤ) (out0 f : ℤ → ℂ) (L nside : ℤ)
    (reality double : Bool) (norm : PyStr) : Except PyErr ((ℤ → ℤ → ℂ) × (ℤ → ℂ)) := do
  let normalize ← lowerNorm true norm
  let d := mkDescriptor nside L reality true normalize double
  let c := (c.step (.build d)).1
  let e := (c.step (.run d)).2
  let (out, data) := healpix_forward e d sched f out0
  pure (fun t k => out (t * (2 * L) + k), data)

/-- `healpix_ifft_cuda`, utils/healpix_ffts.py 652-678. -/
noncomputable def healpix_ifft_cuda (c : Caches) (sched : List ℤ) (out0 : ℤ → ℂ)
    (ftm : ℤ → ℂ) (L nside : ℤ) (reality double : Bool) (norm : PyStr) :
    Except PyErr ((ℤ → ℂ) × (ℤ → ℂ)) := do
  let normalize ← lowerNorm false norm
  let d := mkDescriptor nside L reality false normalize double
  let c := (c.step (.build d)).1
  let e := (c.step (.run d)).2
  pure (healpix_backward e d sched ftm out0)

end S2fft.Cuda
