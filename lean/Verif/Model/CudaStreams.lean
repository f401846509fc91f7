import Verif.Model.HealpixCuda

/-!
# GPU transforms from several host threads

The calls to the GPU that `healpix_fft_cuda` and the building of a descriptor make
(`lib/src/extensions.cc`, `lib/src/s2fft.cu`), one by one, so that host threads may be interleaved
between them. A call only queues work on a stream; streams run their work in order, but not in step
with each other or with the host. The executors of `PlanCache` are shared between all calls whose
descriptors are equal, and so are their cuFFT handles, each of which remembers one stream.

Simplifications: a piece of queued work runs atomically (the buffers of different calls are disjoint);
the work areas of plans are not modelled; concurrent accesses to the maps and vectors of `PlanCache`
and `s2fftExec`, data races in C++, are not given a meaning: only the handles are followed.
-/

namespace S2fft.Cuda

/-- The input and the output buffer of a call. -/
abbrev Bufs := (ℤ → ℂ) × (ℤ → ℂ)

/-- The part of a descriptor that `operator==` compares (s2fft.h 54-58). -/
def Descriptor.key (d : Descriptor) : Descriptor := { d with forward := true }

/-- A member of an executor holding a cuFFT handle (s2fft.h 76-79): the executor, the direction, and
the polar ring (`none` is the equator). -/
structure Handle where
  key : Descriptor
  fwd : Bool
  ring : Option ℤ
  deriving DecidableEq

/-- What cuFFT keeps with a handle: whether it has a plan, and its stream. -/
structure HandleState where
  planned : Bool
  stream : ℕ

/-- The calls host threads make. -/
inductive HostOp
  /-- `cufftSetStream`. -/
  | setStream (h : Handle) (s : ℕ)
  /-- `cufftXtExec`. -/
  | exec (h : Handle) (task : Bufs → Bufs)
  /-- A kernel launch. -/
  | launch (s : ℕ) (task : Bufs → Bufs)
  /-- `cufftCreate` into a member. -/
  | create (h : Handle)
  /-- `cufftMakePlanMany64`. -/
  | plan (h : Handle)

/-- The last step of `Forward` and `Backward` (s2fft.cu 130-133, 148-151). -/
noncomputable def Exec.equatorStep (e : Exec) (fwd : Bool) (data : ℤ → ℂ) : ℤ → ℂ :=
  match (if fwd then e.equator_plan else e.inverse_equator_plan) with
  | some pl => pl.exec fwd e.eq_start data
  | none => data

/-- `Forward` and `Backward` (s2fft.cu 119-154), whose transforms act on the buffer that `on`
selects. -/
noncomputable def Exec.prog (e : Exec) (d : Descriptor) (fwd : Bool) (s : ℕ)
    (on : ((ℤ → ℂ) → ℤ → ℂ) → Bufs → Bufs) : List HostOp :=
  ((pyRange (e.nside - 1)).flatMap fun i =>
    [.setStream ⟨d.key, fwd, some i⟩ s, .exec ⟨d.key, fwd, some i⟩ (on (e.polarStep fwd i))])
  ++ [.setStream ⟨d.key, fwd, none⟩ s, .exec ⟨d.key, fwd, none⟩ (on (e.equatorStep fwd))]

/-- What a host thread does with the GPU. `e` is the executor the call finds, `sched` the order in which
the threads of its kernel run. -/
inductive Job
  /-- `healpix_forward` (extensions.cc 26-56). -/
  | forward (e : Exec) (d : Descriptor) (s : ℕ) (sched : List ℤ)
  /-- `healpix_backward` (extensions.cc 58-88). -/
  | backward (e : Exec) (d : Descriptor) (s : ℕ) (sched : List ℤ)
  /-- The second `Initialize` of `build_healpix_fft_descriptor` (extensions.cc 135-145). -/
  | build (d : Descriptor)

/-- The descriptor of a job. -/
def Job.desc : Job → Descriptor
  | .forward _ d _ _ => d
  | .backward _ d _ _ => d
  | .build d => d

/-- The stream XLA passes. -/
def Job.stream : Job → Option ℕ
  | .forward _ _ s _ => some s
  | .backward _ _ s _ => some s
  | .build _ => none

/-- The calls of a job. Building appends new handles for the polar rings, which are never used, and
replaces those of the equator (s2fft.cu 98-105). -/
noncomputable def Job.prog : Job → List HostOp
  | .forward e d s sched =>
    e.prog d true s (fun g b => (g b.1, b.2)) ++ [.launch s fun b =>
      (b.1, runThreads (extension_thread b.1 d.nside d.harmonic_band_limit) sched b.2)]
  | .backward e d s sched =>
    .launch s (fun b =>
      (b.1, runThreads (folding_thread b.1 d.nside d.harmonic_band_limit d.shift) sched b.2))
    :: e.prog d false s (fun g b => (b.1, g b.2))
  | .build d => [.create ⟨d.key, true, none⟩, .plan ⟨d.key, true, none⟩,
      .create ⟨d.key, false, none⟩, .plan ⟨d.key, false, none⟩]

/-- The machine: what the threads have still to do, the handles, the work queued on the streams (with
the job whose buffers it acts on), and the buffers. -/
structure Node (ι : Type) where
  todo : ι → List HostOp
  handles : Handle → HandleState
  queue : ℕ → List (ι × (Bufs → Bufs))
  bufs : ι → Bufs

/-- Thread `i` makes its next call, or stream `s` does its next work. -/
inductive Event (ι : Type)
  | host (i : ι)
  | device (s : ℕ)

variable {ι : Type} [DecidableEq ι]

/-- Add work to a stream. -/
def Node.push (n : Node ι) (s : ℕ) (w : ι × (Bufs → Bufs)) : Node ι :=
  { n with queue := Function.update n.queue s (n.queue s ++ [w]) }

/-- The effect of a call. A new handle is on the default stream. Executing a handle without a plan is
an error, which is printed and otherwise ignored (`CUFFT_CALL`, hresult.h 38-48). -/
def Node.call (n : Node ι) (i : ι) : HostOp → Node ι
  | .setStream h s => { n with handles := Function.update n.handles h ⟨(n.handles h).planned, s⟩ }
  | .exec h task => if (n.handles h).planned then n.push (n.handles h).stream (i, task) else n
  | .launch s task => n.push s (i, task)
  | .create h => { n with handles := Function.update n.handles h ⟨false, 0⟩ }
  | .plan h => { n with handles := Function.update n.handles h ⟨true, (n.handles h).stream⟩ }

/-- One event. -/
def Node.step (n : Node ι) : Event ι → Node ι
  | .host i => match n.todo i with
    | [] => n
    | op :: rest => { n.call i op with todo := Function.update n.todo i rest }
  | .device s => match n.queue s with
    | [] => n
    | w :: rest => { n with
        queue := Function.update n.queue s rest
        bufs := Function.update n.bufs w.1 (w.2 (n.bufs w.1)) }

/-- A history. -/
def Node.run (n : Node ι) (es : List (Event ι)) : Node ι := es.foldl Node.step n

/-- The start: nothing is queued. -/
noncomputable def Node.start (jobs : ι → Job) (handles : Handle → HandleState) (bufs : ι → Bufs) :
    Node ι := ⟨fun i => (jobs i).prog, handles, fun _ => [], bufs⟩

/-- Job `i` is complete: the thread has returned, and its work is done. -/
def Node.Done (n : Node ι) (i : ι) : Prop := n.todo i = [] ∧ ∀ s, ∀ w ∈ n.queue s, w.1 ≠ i

end S2fft.Cuda
