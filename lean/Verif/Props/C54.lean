import Verif.Lemmas.CudaStreams
import Verif.Props.C35

/-! # C54: GPU transforms from several host threads -/

namespace S2fft
open Spec

open Cuda in
/-- The condition under which jobs may run at the same time: a job whose descriptor is equal to that
of another (the cache gives both the same executor) is a transform, on the same stream as the other. -/
def JobsApart {ι : Type} (jobs : ι → Job) : Prop :=
  ∀ i j, i ≠ j → (jobs i).desc.same (jobs j).desc →
    ∃ s, (jobs i).stream = some s ∧ (jobs j).stream = some s

open Cuda in
/-- The plans of every transform have been made. -/
def PlansMade {ι : Type} (jobs : ι → Job) (handles : Handle → HandleState) : Prop :=
  ∀ i, (∃ s, (jobs i).stream = some s) → ∀ h : Handle, h.key.same (jobs i).desc →
    (handles h).planned = true

theorem JobsApart.compatible {ι : Type} {jobs : ι → Cuda.Job} (h : JobsApart jobs) :
    Cuda.Compatible jobs := by
  intro i j hij hk
  obtain ⟨s, h1, h2⟩ := h i j hij ((Cuda.same_iff_key _ _).2 hk)
  rw [h1, h2]
  simp

theorem key_same {h : Cuda.Handle} {d : Cuda.Descriptor} (e : h.key = d.key) : h.key.same d := by
  rw [Cuda.same_iff_key, e]
  rfl

theorem PlansMade.inv {ι : Type} [DecidableEq ι] {jobs : ι → Cuda.Job}
    {H : Cuda.Handle → Cuda.HandleState} (h : PlansMade jobs H) (b : ι → Cuda.Bufs) :
    Cuda.Inv jobs b (Cuda.Node.start jobs H b) :=
  Cuda.inv_start jobs H b fun i hi g hg => h i (Option.ne_none_iff_exists'.1 hi) g (key_same hg)

/-- However the calls of any number of host threads interleave, and however far the streams run ahead
of or behind each other, a transform that has finished has done to its buffers what it does alone.
Missing for the full property: see `C54_two_streams` and `C54_build_during_call`. -/
theorem C54_interleaved_partial {ι : Type} [DecidableEq ι] (jobs : ι → Cuda.Job)
    (handles : Cuda.Handle → Cuda.HandleState) (bufs : ι → Cuda.Bufs) (ha : JobsApart jobs)
    (hp : PlansMade jobs handles) (es : List (Cuda.Event ι)) (i : ι)
    (hd : ((Cuda.Node.start jobs handles bufs).run es).Done i) :
    (∀ e d s sched, jobs i = .forward e d s sched →
      ((Cuda.Node.start jobs handles bufs).run es).bufs i
        = (Cuda.healpix_forward e d sched (bufs i).1 (bufs i).2).swap) ∧
    (∀ e d s sched, jobs i = .backward e d s sched →
      ((Cuda.Node.start jobs handles bufs).run es).bufs i
        = (Cuda.healpix_backward e d sched (bufs i).1 (bufs i).2).swap) := by
  have hI := Cuda.inv_run ha.compatible (hp.inv bufs) es
  constructor
  · intro e d s sched hj
    rw [Cuda.inv_done (s := s) hI (by rw [hj]; rfl) hd, hj, Cuda.apply_forward]
  · intro e d s sched hj
    rw [Cuda.inv_done (s := s) hI (by rw [hj]; rfl) hd, hj, Cuda.apply_backward]

/-- In particular, with executors from the cache after any history, finished transforms hold the
Fourier coefficients of the rings, and the rings of the coefficients. -/
theorem C54_values_partial {ι : Type} [DecidableEq ι] (jobs : ι → Cuda.Job)
    (handles : Cuda.Handle → Cuda.HandleState) (bufs : ι → Cuda.Bufs) (ha : JobsApart jobs)
    (hp : PlansMade jobs handles) (es : List (Cuda.Event ι)) (i : ι)
    (hd : ((Cuda.Node.start jobs handles bufs).run es).Done i)
    (ops : List Cuda.Op) (hops : ∀ op ∈ ops, 1 ≤ op.desc.nside)
    (nside L : ℤ) (hn : 1 ≤ nside) (hL : 2 * nside ≤ L) (reality normalize double : Bool) (s : ℕ)
    (sched : List ℤ) :
    (∀ d, d = Cuda.mkDescriptor nside L reality true normalize double →
      jobs i = .forward ((Cuda.runOps ops).step (.run d)).2 d s sched →
      Cuda.ValidSched (2 * L * (4 * nside - 1)) sched →
      ∀ t k, 0 ≤ t → t < 4 * nside - 1 → 0 ≤ k → k < 2 * L →
      (((Cuda.Node.start jobs handles bufs).run es).bufs i).2 (t * (2 * L) + k)
        = ringAnal nside (bufs i).1 t (k - L) * normFactor d.norm true (ringSize nside t)) ∧
    (∀ d, d = Cuda.mkDescriptor nside L reality false normalize double →
      jobs i = .backward ((Cuda.runOps ops).step (.run d)).2 d s sched →
      Cuda.ValidSched (4 * nside - 1) sched →
      ∀ t p, 0 ≤ t → t < 4 * nside - 1 → 0 ≤ p → p < ringSize nside t →
      (((Cuda.Node.start jobs handles bufs).run es).bufs i).2 (ringStart nside t + p)
        = ringSynth nside L (fun t k => (bufs i).1 (t * (2 * L) + k)) t p
          * normFactor d.norm false (ringSize nside t)) := by
  have hok : ∀ op : Cuda.Op, 1 ≤ op.desc.nside → op.ok := by
    intro op h; cases op <;> exact h
  obtain ⟨a, b⟩ := Cuda.runOps_ok ops (fun o ho => hok o (hops o ho))
  have key := C54_interleaved_partial jobs handles bufs ha hp es i hd
  constructor
  · rintro d rfl hj hs t k h0 h1 hk0 hk1
    obtain ⟨_, _, hg⟩ := Cuda.caches_step_ok a b
      (op := .run (Cuda.mkDescriptor nside L reality true normalize double)) hn
    rw [key.1 _ _ _ _ hj, ← cbFor_normFactor]
    exact Cuda.healpix_forward_ok (d := Cuda.mkDescriptor nside L reality true normalize double)
      hn hL rfl hg hs _ _ h0 h1 hk0 hk1
  · rintro d rfl hj hs t p h0 h1 hp0 hp1
    obtain ⟨_, _, hg⟩ := Cuda.caches_step_ok a b
      (op := .run (Cuda.mkDescriptor nside L reality false normalize double)) hn
    rw [key.2 _ _ _ _ hj, ← cbFor_normFactor]
    exact Cuda.healpix_backward_ok (d := Cuda.mkDescriptor nside L reality false normalize double)
      hn hL rfl hg hs _ _ h0 h1 hp0 hp1

/-- No interleaving blocks a job: from every state reached, it can still finish. -/
theorem C54_finishes {ι : Type} [DecidableEq ι] (jobs : ι → Cuda.Job)
    (handles : Cuda.Handle → Cuda.HandleState) (bufs : ι → Cuda.Bufs) (ha : JobsApart jobs)
    (hp : PlansMade jobs handles) (es : List (Cuda.Event ι)) (i : ι) :
    ∃ es', ((Cuda.Node.start jobs handles bufs).run (es ++ es')).Done i := by
  obtain ⟨es', h⟩ := Cuda.inv_finishes ha.compatible
    (Cuda.inv_run ha.compatible (hp.inv bufs) es) i
  exact ⟨es', by rw [Cuda.run_append]; exact h⟩

/-! ## What fails -/

/-- The descriptor of `healpix_fft_cuda` on 12 pixels, bandlimit 2. -/
def smallDesc : Cuda.Descriptor := Cuda.mkDescriptor 1 2 false true false true

/-- A call of `healpix_fft_cuda` on stream `s`, after its descriptor was built. -/
def smallCall (s : ℕ) : Cuda.Job :=
  .forward ((Cuda.runOps [.build smallDesc]).step (.run smallDesc)).2 smallDesc s
    (pyRange (Cuda.launched 12))

/-- A constant map. -/
noncomputable def ones : ℤ → ℂ := fun _ => 1

theorem ones_mean : ringAnal 1 ones 0 0 = 4 := by
  have h : ringSize 1 0 = 4 := by decide
  have h' : (Finset.Ico (0 : ℤ) 4) = {0, 1, 2, 3} := by decide
  simp [ringAnal, h, h', ones, cis]

theorem ones_extended (o : ℤ → ℂ) :
    Cuda.runThreads (Cuda.extension_thread ones 1 2) (pyRange (Cuda.launched 12)) o 2 = 1 := by
  have h := Cuda.launch_extension (nside := 1) (L := 2) le_rfl le_rfl ones o
    (sched := pyRange (Cuda.launched 12)) (List.Perm.refl _) (t := 0) (k := 2) le_rfl (by norm_num)
    (by norm_num) (by norm_num)
  simpa [ones] using h

/-- The handle of the equator in the executor of the call. -/
def smallHandle : Cuda.Handle := ⟨smallDesc.key, true, none⟩

/-- The extension kernel of the call. -/
noncomputable def smallExtend (b : Cuda.Bufs) : Cuda.Bufs :=
  (b.1, Cuda.runThreads (Cuda.extension_thread b.1 1 2) (pyRange (Cuda.launched 12)) b.2)

theorem smallCall_prog (s : ℕ) : ∃ fourier : (ℤ → ℂ) → ℤ → ℂ, (smallCall s).prog =
    [.setStream smallHandle s, .exec smallHandle (fun b => (fourier b.1, b.2)),
      .launch s smallExtend] :=
  ⟨_, rfl⟩

/-- Two calls with the same arguments on two streams: the second moves the handle they share to its
own stream before the first has used it. The first one's Fourier transform is queued on the wrong
stream, its spectrum is read too early, and the mean of a constant map comes out as 1 instead of 4. -/
theorem C54_two_streams (out : Bool → ℤ → ℂ) (handles : Cuda.Handle → Cuda.HandleState)
    (hp : ∀ h, (handles h).planned = true) :
    ∃ es, let n := (Cuda.Node.start (fun i => smallCall (if i then 1 else 0)) handles
        (fun i => (ones, out i))).run es
      n.Done false ∧ n.Done true ∧ (n.bufs false).2 (0 * (2 * 2) + 2) = 1 ∧
        ringAnal 1 ones 0 (2 - 2) = 4 := by
  obtain ⟨f, hf⟩ := smallCall_prog 0
  obtain ⟨g, hg⟩ := smallCall_prog 1
  have hq : ∀ s : ℕ, s = 0 ∨ s = 1 ∨ (s ≠ 0 ∧ s ≠ 1) := by omega
  refine ⟨[.host false, .host true, .host false, .host false, .device 0, .device 1, .host true,
    .host true, .device 1, .device 1], ⟨?_, ?_⟩, ⟨?_, ?_⟩, ?_, ones_mean⟩
  · simp [Cuda.Node.run, Cuda.Node.step, Cuda.Node.start, Cuda.Node.call, Cuda.Node.push,
      Function.update, hf, hg, hp]
  · intro s w hw
    rcases hq s with rfl | rfl | ⟨h0, h1⟩ <;>
    simp_all [Cuda.Node.run, Cuda.Node.step, Cuda.Node.start, Cuda.Node.call, Cuda.Node.push,
      Function.update]
  · simp [Cuda.Node.run, Cuda.Node.step, Cuda.Node.start, Cuda.Node.call, Cuda.Node.push,
      Function.update, hf, hg, hp]
  · intro s w hw
    rcases hq s with rfl | rfl | ⟨h0, h1⟩ <;>
    simp_all [Cuda.Node.run, Cuda.Node.step, Cuda.Node.start, Cuda.Node.call, Cuda.Node.push,
      Function.update]
  · simp [Cuda.Node.run, Cuda.Node.step, Cuda.Node.start, Cuda.Node.call, Cuda.Node.push,
      Function.update, hf, hg, hp, smallExtend, ones_extended]

/-- A call, while another thread builds a descriptor equal to its own (as tracing the same transform
again does): building replaces the handle of the equator, and the call that uses it before it has a
plan transforms nothing. -/
theorem C54_build_during_call (out : Bool → ℤ → ℂ) (handles : Cuda.Handle → Cuda.HandleState)
    (hp : ∀ h, (handles h).planned = true) :
    ∃ es, let n := (Cuda.Node.start (fun i => if i then .build smallDesc else smallCall 0) handles
        (fun i => (ones, out i))).run es
      n.Done false ∧ n.Done true ∧ (n.bufs false).2 (0 * (2 * 2) + 2) = 1 ∧
        ringAnal 1 ones 0 (2 - 2) = 4 := by
  obtain ⟨f, hf⟩ := smallCall_prog 0
  have hb : (Cuda.Job.build smallDesc).prog = [.create smallHandle, .plan smallHandle,
    .create ⟨smallDesc.key, false, none⟩, .plan ⟨smallDesc.key, false, none⟩] := rfl
  have hq : ∀ s : ℕ, s = 0 ∨ s ≠ 0 := by omega
  refine ⟨[.host false, .host true, .host false, .host false, .device 0, .host true, .host true,
    .host true], ⟨?_, ?_⟩, ⟨?_, ?_⟩, ?_, ones_mean⟩
  · simp [Cuda.Node.run, Cuda.Node.step, Cuda.Node.start, Cuda.Node.call, Cuda.Node.push,
      Function.update, hf, hb]
  · intro s w hw
    rcases hq s with rfl | h0 <;>
    simp_all [Cuda.Node.run, Cuda.Node.step, Cuda.Node.start, Cuda.Node.call, Cuda.Node.push,
      Function.update]
  · simp [Cuda.Node.run, Cuda.Node.step, Cuda.Node.start, Cuda.Node.call, Cuda.Node.push,
      Function.update, hf, hb]
  · intro s w hw
    rcases hq s with rfl | h0 <;>
    simp_all [Cuda.Node.run, Cuda.Node.step, Cuda.Node.start, Cuda.Node.call, Cuda.Node.push,
      Function.update]
  · simp [Cuda.Node.run, Cuda.Node.step, Cuda.Node.start, Cuda.Node.call, Cuda.Node.push,
      Function.update, hf, hb, smallExtend, ones_extended]

/-- The hypotheses of the positive theorems hold for two calls of the same transform on one stream,
beside a call of another transform on a second stream and the building of a third descriptor. -/
example : ∃ jobs : Fin 4 → Cuda.Job, JobsApart jobs ∧ PlansMade jobs (fun _ => ⟨true, 0⟩) ∧
    jobs 0 = smallCall 3 ∧ jobs 1 = smallCall 3 := by
  refine ⟨![smallCall 3, smallCall 3,
    .backward Cuda.Exec.empty (Cuda.mkDescriptor 4 8 false false true true) 5 [],
    .build (Cuda.mkDescriptor 2 4 false true false true)], ?_, fun _ _ _ _ => rfl, rfl, rfl⟩
  intro i j hij hs
  fin_cases i <;> fin_cases j <;>
    first
    | exact absurd rfl hij
    | exact ⟨3, rfl, rfl⟩
    | exact absurd hs (by decide)

end S2fft
