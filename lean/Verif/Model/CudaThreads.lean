import Verif.Model.HealpixCuda

/-!
# The CUDA kernels, access by access

The two kernels launched by the CUDA backend (`lib/src/s2fft_kernels.cu`), with three things that
`Model/HealpixCuda.lean` leaves out: `int` has 32 bits and its overflow is undefined behaviour, reads
outside the input buffer are undefined behaviour, and threads are interleaved at single accesses of
real numbers to the output buffer. Undefined behaviour is `none`. The input buffer does not change
while a kernel runs. Memory is sequentially consistent, which CUDA guarantees to programs without
data races.
-/

namespace S2fft.Cuda

/-- The result of an operation on C++ `int`. -/
def i32 (x : ℤ) : Option ℤ := if -2 ^ 31 ≤ x ∧ x < 2 ^ 31 then some x else none

/-- `a % b` on `int`. -/
def mod32 (a b : ℤ) : Option ℤ := if b = 0 then none else some (Int.tmod a b)

/-- `r = a % n; r = r < 0 ? n + r : r` (s2fft_kernels.cu 79-80, 90-91, 189-190, 204-205). -/
def modFix32 (a n : ℤ) : Option ℤ := do
  let r ← mod32 a n
  if r < 0 then i32 (n + r) else pure r

/-- Reading element `i` of a buffer of `size` elements. -/
def rd (data : ℤ → ℂ) (size i : ℤ) : Option ℂ := if 0 ≤ i ∧ i < size then some (data i) else none

/-- An address in the output buffer: element and component (`.x` is `false`, `.y` is `true`). -/
abbrev Addr := ℤ × Bool

/-- Registers of a thread. -/
abbrev Regs := ℕ → ℝ

/-- A memory access: load into a register, or store a value computed from the registers. -/
inductive Instr
  | ld (r : ℕ) (a : Addr)
  | st (a : Addr) (v : Regs → ℝ)

/-- The address accessed. -/
def Instr.addr : Instr → Addr
  | .ld _ a => a
  | .st a _ => a

/-- Effect on memory and registers. -/
noncomputable def Instr.exec : Instr → (Addr → ℝ) × Regs → (Addr → ℝ) × Regs
  | .ld r a, (m, g) => (m, Function.update g r (m a))
  | .st a v, (m, g) => (Function.update m a (v g), g)

/-- `output[i] = v`. -/
def copyI (i : ℤ) (v : ℂ) : List Instr := [.st (i, false) fun _ => v.re, .st (i, true) fun _ => v.im]

/-- `output[i].x += v.x; output[i].y += v.y` (s2fft_kernels.cu 85-86). -/
def addI (i : ℤ) (v : ℂ) : List Instr :=
  [.ld 0 (i, false), .st (i, false) fun g => g 0 + v.re,
   .ld 0 (i, true), .st (i, true) fun g => g 0 + v.im]

/-- `swap(output[i], output[j])` (s2fft_kernels.cu 40-45): `c = a; a = b; b = c`. -/
def swapI (i j : ℤ) : List Instr :=
  [.ld 0 (i, false), .ld 1 (i, true),
   .ld 2 (j, false), .st (i, false) fun g => g 2, .ld 2 (j, true), .st (i, true) fun g => g 2,
   .st (j, false) fun g => g 0, .st (j, true) fun g => g 1]

/-- `for (int i = 0; i < n; i++)`, collecting the accesses. -/
def loop32 (n : ℤ) (body : ℤ → Option (List Instr)) : Option (List Instr) :=
  ((pyRange n).mapM body).map List.flatten

/-- `computeNphi` (s2fft_kernels.cu 10-38). -/
def computeNphi32 (nside ring_index : ℤ) : Option (ℤ × ℤ) := do
  let n12 ← i32 (12 * nside)
  let total_pixels ← i32 (n12 * nside)
  let n4 ← i32 (4 * nside)
  let total_rings ← i32 (n4 - 1)
  let nm1 ← i32 (nside - 1)
  let u ← i32 (nside * nm1)
  let upper_pixels ← i32 (u * 2)
  let n3 ← i32 (3 * nside)
  let n3 ← i32 (n3 - 1)
  if ring_index < nm1 then
    let r1 ← i32 (ring_index + 1)
    let nphi ← i32 (4 * r1)
    let o ← i32 (ring_index * r1)
    let o ← i32 (o * 2)
    pure (nphi, o)
  else if ring_index > n3 then
    let rev ← i32 (total_rings - ring_index)
    let nphi ← i32 (4 * rev)
    let nphi := if nphi = 0 then 4 else nphi
    let rev1 ← i32 (rev + 1)
    let o ← i32 (rev * rev1)
    let o ← i32 (o * 2)
    let o ← i32 (total_pixels - o)
    pure (nphi, o)
  else
    let nphi ← i32 (4 * nside)
    let o ← i32 (ring_index - nside)
    let o ← i32 (o + 1)
    let o ← i32 (o * 4)
    let o ← i32 (o * nside)
    let o ← i32 (upper_pixels + o)
    pure (nphi, o)

/-- The accesses of one thread of `spectral_folding` (s2fft_kernels.cu 46-109). The input has
`(4 nside - 1) 2 L` elements. -/
def foldingProg (data : ℤ → ℂ) (nside L : ℤ) (shift : Bool) (idx : ℤ) : Option (List Instr) := do
  let size := (4 * nside - 1) * (2 * L)
  let idx ← i32 idx
  let n4 ← i32 (4 * nside)
  let rings ← i32 (n4 - 1)
  if idx ≥ rings then pure [] else
  let (nphi, ring_offset) ← computeNphi32 nside idx
  let l2 ← i32 (2 * L)
  let ftm_offset ← i32 (idx * l2)
  let half := nphi.tdiv 2
  let slice_start ← i32 (L - half)
  let slice_end ← i32 (slice_start + nphi)
  let p1 ← loop32 nphi fun i => do
    let folded_index ← i32 (i + ring_offset)
    let target_index ← i32 (i + ftm_offset)
    let target_index ← i32 (target_index + slice_start)
    let v ← rd data size target_index
    pure (copyI folded_index v)
  let p2 ← loop32 slice_start fun i => do
    let i1 ← i32 (1 + i)
    let ni1 ← i32 (-i1)
    let folded_index ← modFix32 ni1 nphi
    let target_index ← i32 (slice_start - i1)
    let folded_index ← i32 (folded_index + ring_offset)
    let target_index ← i32 (target_index + ftm_offset)
    let v ← rd data size target_index
    pure (addI folded_index v)
  let p3 ← loop32 slice_start fun i => do
    let folded_index ← modFix32 i nphi
    let target_index ← i32 (slice_end + i)
    let folded_index ← i32 (folded_index + ring_offset)
    let target_index ← i32 (target_index + ftm_offset)
    let v ← rd data size target_index
    pure (addI folded_index v)
  let p4 ← if shift then loop32 half fun i => do
      let origin_index ← i32 (i + ring_offset)
      let shifted_index ← i32 (origin_index + half)
      pure (swapI origin_index shifted_index)
    else pure []
  pure (p1 ++ p2 ++ p3 ++ p4)

/-- The accesses of one thread of `spectral_extension` (s2fft_kernels.cu 165-209). The input has
`12 nside²` elements. -/
def extensionProg (data : ℤ → ℂ) (nside L idx : ℤ) : Option (List Instr) := do
  let size := 12 * nside * nside
  let ftm_size ← i32 (2 * L)
  let idx ← i32 idx
  let n4 ← i32 (4 * nside)
  let rings ← i32 (n4 - 1)
  let total ← i32 (rings * ftm_size)
  if idx ≥ total then pure [] else
  if ftm_size = 0 then none else
  let ring_index := idx.tdiv ftm_size
  let (nphi, offset_ring) ← computeNphi32 nside ring_index
  let offset := idx.tmod ftm_size
  let half := nphi.tdiv 2
  let lo ← i32 (L - half)
  let hi ← i32 (L + half)
  if offset < lo then
    let a ← i32 (lo - offset)
    let a ← i32 (-a)
    let indx ← modFix32 a nphi
    let indx ← i32 (indx + offset_ring)
    let v ← rd data size indx
    pure (copyI idx v)
  else if offset ≥ lo ∧ offset < hi then
    let center_offset ← i32 (offset - lo)
    let indx ← i32 (center_offset + offset_ring)
    let v ← rd data size indx
    pure (copyI idx v)
  else
    let reverse_offset ← i32 (ftm_size - offset)
    let np1 ← i32 (nphi + 1)
    let a ← i32 (L - np1.tdiv 2)
    let a ← i32 (a - reverse_offset)
    let indx ← modFix32 a nphi
    let indx ← i32 (indx + offset_ring)
    let v ← rd data size indx
    pure (copyI idx v)

/-- A running kernel: the output buffer and, for every thread, the accesses still to do and its
registers. -/
structure Gpu where
  mem : Addr → ℝ
  todo : ℤ → List Instr
  regs : ℤ → Regs

/-- Thread `i` does its next access; a thread that has returned does nothing. -/
noncomputable def Gpu.step (s : Gpu) (i : ℤ) : Gpu :=
  match s.todo i with
  | [] => s
  | x :: rest =>
    let r := x.exec (s.mem, s.regs i)
    ⟨r.1, Function.update s.todo i rest, Function.update s.regs i r.2⟩

/-- An interleaving: which thread makes each access. -/
noncomputable def Gpu.run (s : Gpu) (sched : List ℤ) : Gpu := sched.foldl Gpu.step s

/-- All threads have returned. -/
def Gpu.Done (s : Gpu) : Prop := ∀ i, s.todo i = []

/-- Element `i` of the output buffer. -/
def Gpu.out (s : Gpu) (i : ℤ) : ℂ := ⟨s.mem (i, false), s.mem (i, true)⟩

/-- Starting `elements` threads in blocks of 128 (s2fft_kernels.cu 214-218 and 227-231); undefined
behaviour of a thread is undefined behaviour of the kernel. -/
noncomputable def launch (prog : ℤ → Option (List Instr)) (elements : ℤ) (out : ℤ → ℂ)
    (regs : ℤ → Regs) : Option Gpu := do
  let a ← i32 (elements + 128)
  let a ← i32 (a - 1)
  let grid_size := a.tdiv 128
  let progs ← (pyRange (grid_size * 128)).mapM prog
  pure { mem := fun a => if a.2 then (out a.1).im else (out a.1).re
         todo := fun i => if 0 ≤ i then progs.getD i.toNat [] else []
         regs := regs }

/-- `launch_spectral_folding` (s2fft_kernels.cu 211-221). -/
noncomputable def launchFolding (data : ℤ → ℂ) (nside L : ℤ) (shift : Bool) (out : ℤ → ℂ)
    (regs : ℤ → Regs) : Option Gpu := do
  let n4 ← i32 (4 * nside)
  let ftm_elements ← i32 (n4 - 1)
  launch (foldingProg data nside L shift) ftm_elements out regs

/-- `launch_spectral_extension` (s2fft_kernels.cu 223-235). -/
noncomputable def launchExtension (data : ℤ → ℂ) (nside L : ℤ) (out : ℤ → ℂ) (regs : ℤ → Regs) :
    Option Gpu := do
  let l2 ← i32 (2 * L)
  let n4 ← i32 (4 * nside)
  let rings ← i32 (n4 - 1)
  let ftm_elements ← i32 (l2 * rings)
  launch (extensionProg data nside L) ftm_elements out regs

end S2fft.Cuda
