import Verif.Model.CudaStreams
import Verif.Lemmas.HealpixDispatch
import Mathlib.Tactic

/-! # Jobs on the GPU do not disturb each other -/

namespace S2fft.Cuda

theorem same_iff_key (a b : Descriptor) : a.same b = true ↔ a.key = b.key := by
  cases a; cases b
  simp [Descriptor.same, Descriptor.key]

/-- The work in a list of calls. -/
def tasks : List HostOp → List (Bufs → Bufs)
  | [] => []
  | .exec _ t :: r => t :: tasks r
  | .launch _ t :: r => t :: tasks r
  | _ :: r => tasks r

/-- Doing work in order. -/
def apply (ts : List (Bufs → Bufs)) (b : Bufs) : Bufs := ts.foldl (fun b t => t b) b

theorem apply_nil (b : Bufs) : apply [] b = b := rfl
theorem apply_cons (t : Bufs → Bufs) (ts : List (Bufs → Bufs)) (b : Bufs) :
    apply (t :: ts) b = apply ts (t b) := rfl
theorem apply_append (ts us : List (Bufs → Bufs)) (b : Bufs) :
    apply (ts ++ us) b = apply us (apply ts b) := List.foldl_append ..

theorem tasks_append (a b : List HostOp) : tasks (a ++ b) = tasks a ++ tasks b := by
  induction a with
  | nil => rfl
  | cons x r ih => cases x <;> simp [tasks, ih]

/-- Handles are given their stream before they are executed. -/
def SetBefore : List Handle → List HostOp → Prop
  | _, [] => True
  | seen, .setStream h _ :: r => SetBefore (h :: seen) r
  | seen, .exec h _ :: r => h ∈ seen ∧ SetBefore seen r
  | seen, .launch _ _ :: r => SetBefore seen r
  | seen, .create _ :: r => SetBefore seen r
  | seen, .plan _ :: r => SetBefore seen r

/-- The calls of a job with the descriptor `k` and the stream `s`. -/
def OpOk (k : Descriptor) (s : Option ℕ) : HostOp → Prop
  | .setStream h s' => h.key = k ∧ s = some s'
  | .exec h _ => h.key = k ∧ s ≠ none
  | .launch s' _ => s = some s'
  | .create h => h.key = k ∧ s = none
  | .plan h => h.key = k ∧ s = none

theorem setBefore_mono {l : List HostOp} : ∀ {a b : List Handle}, (∀ h ∈ a, h ∈ b) → SetBefore a l →
    SetBefore b l := by
  induction l with
  | nil => intros; trivial
  | cons x r ih =>
    intro a b hab h
    cases x with
    | setStream g s =>
      refine ih (a := g :: a) (b := g :: b) (fun x hx => ?_) h
      rcases List.mem_cons.1 hx with rfl | hx
      · exact List.mem_cons_self ..
      · exact List.mem_cons_of_mem _ (hab x hx)
    | exec g t => exact ⟨hab g h.1, ih hab h.2⟩
    | launch s t => exact ih hab h
    | create g => exact ih hab h
    | plan g => exact ih hab h

theorem setBefore_pairs (d : Descriptor) (fwd : Bool) (s : ℕ) (g : ℤ → Bufs → Bufs) (l : List ℤ)
    (rest : List HostOp) (seen : List Handle) (h : SetBefore seen rest) :
    SetBefore seen ((l.flatMap fun i => [HostOp.setStream ⟨d.key, fwd, some i⟩ s,
      HostOp.exec ⟨d.key, fwd, some i⟩ (g i)]) ++ rest) := by
  induction l generalizing seen with
  | nil => exact h
  | cons x r ih =>
    exact ⟨List.mem_cons_self .., ih _ (setBefore_mono (fun x hx => List.mem_cons_of_mem _ hx) h)⟩

theorem prog_setBefore (j : Job) : SetBefore [] j.prog := by
  cases j with
  | forward e d s sched =>
    simp only [Job.prog, Exec.prog, List.append_assoc]
    exact setBefore_pairs d true s _ _ _ _ ⟨List.mem_cons_self .., trivial⟩
  | backward e d s sched =>
    unfold Job.prog Exec.prog
    exact setBefore_pairs d false s _ _ _ _ ⟨List.mem_cons_self .., trivial⟩
  | build d => trivial

theorem exec_prog_ok (e : Exec) (d : Descriptor) (fwd : Bool) (s : ℕ)
    (on : ((ℤ → ℂ) → ℤ → ℂ) → Bufs → Bufs) :
    ∀ op ∈ e.prog d fwd s on, OpOk d.key (some s) op := by
  intro op h
  unfold Exec.prog at h
  simp only [List.mem_append, List.mem_flatMap, List.mem_cons, List.not_mem_nil, or_false] at h
  rcases h with ⟨i, -, rfl | rfl⟩ | rfl | rfl <;> simp [OpOk]

theorem prog_ok (j : Job) : ∀ op ∈ j.prog, OpOk j.desc.key j.stream op := by
  intro op h
  cases j with
  | forward e d s sched =>
    simp only [Job.prog, List.mem_append, List.mem_cons, List.not_mem_nil, or_false] at h
    rcases h with h | rfl
    · exact exec_prog_ok _ _ _ _ _ op h
    · rfl
  | backward e d s sched =>
    simp only [Job.prog, List.mem_cons] at h
    rcases h with rfl | h
    · rfl
    · exact exec_prog_ok _ _ _ _ _ op h
  | build d =>
    simp only [Job.prog, List.mem_cons, List.not_mem_nil, or_false] at h
    rcases h with rfl | rfl | rfl | rfl <;> exact ⟨rfl, rfl⟩

theorem tasks_pairs (d : Descriptor) (fwd : Bool) (s : ℕ) (g : ℤ → Bufs → Bufs) (l : List ℤ) :
    tasks (l.flatMap fun i => [HostOp.setStream ⟨d.key, fwd, some i⟩ s,
      HostOp.exec ⟨d.key, fwd, some i⟩ (g i)]) = l.map g := by
  induction l with
  | nil => rfl
  | cons x r ih =>
    rw [List.flatMap_cons, tasks_append, ih]
    rfl

theorem apply_map (l : List ℤ) (g : ℤ → (ℤ → ℂ) → ℤ → ℂ) (on : ((ℤ → ℂ) → ℤ → ℂ) → Bufs → Bufs)
    (b : Bufs) : apply (l.map fun i => on (g i)) b = l.foldl (fun b i => on (g i) b) b := by
  unfold apply
  rw [List.foldl_map]

theorem forRange_pyRange {σ : Type*} (n : ℤ) (g : ℤ → σ → σ) (x : σ) :
    (pyRange n).foldl (fun x i => g i x) x = forRange 0 n g x := by
  unfold pyRange forRange
  rw [List.foldl_map, sub_zero]
  induction n.toNat with
  | zero => rfl
  | succ k ih => rw [List.range_succ, List.foldl_append, ih]; simp [forN]

theorem exec_run_eq (e : Exec) (fwd : Bool) (x : ℤ → ℂ) :
    e.run fwd x = e.equatorStep fwd ((pyRange (e.nside - 1)).foldl (fun x i => e.polarStep fwd i x) x) := by
  rw [forRange_pyRange]
  rfl

/-- The work of a job, done without interruption. -/
theorem apply_forward (e : Exec) (d : Descriptor) (s : ℕ) (sched : List ℤ) (b : Bufs) :
    apply (tasks (Job.forward e d s sched).prog) b = (healpix_forward e d sched b.1 b.2).swap := by
  simp only [Job.prog, Exec.prog]
  rw [tasks_append, tasks_append, tasks_pairs]
  simp only [apply_append, tasks, apply_cons, apply_nil]
  rw [apply_map _ _ (fun g b => (g b.1, b.2))]
  have key : ∀ (l : List ℤ) (b : Bufs), l.foldl (fun b i => (e.polarStep true i b.1, b.2)) b
      = (l.foldl (fun x i => e.polarStep true i x) b.1, b.2) := by
    intro l
    induction l with
    | nil => intro b; rfl
    | cons x r ih => intro b; rw [List.foldl_cons, ih]; rfl
  rw [key]
  unfold healpix_forward
  rw [exec_run_eq]
  rfl

theorem apply_backward (e : Exec) (d : Descriptor) (s : ℕ) (sched : List ℤ) (b : Bufs) :
    apply (tasks (Job.backward e d s sched).prog) b = (healpix_backward e d sched b.1 b.2).swap := by
  simp only [Job.prog, Exec.prog, tasks]
  rw [apply_cons, tasks_append, tasks_pairs]
  simp only [apply_append, tasks, apply_cons, apply_nil]
  rw [apply_map _ _ (fun g b => (b.1, g b.2))]
  have key : ∀ (l : List ℤ) (b : Bufs), l.foldl (fun b i => (b.1, e.polarStep false i b.2)) b
      = (b.1, l.foldl (fun x i => e.polarStep false i x) b.2) := by
    intro l
    induction l with
    | nil => intro b; rfl
    | cons x r ih => intro b; rw [List.foldl_cons, ih]; rfl
  rw [key]
  unfold healpix_backward
  simp only
  rw [exec_run_eq]
  rfl

/-! ## The invariant -/

variable {ι : Type} [DecidableEq ι]

/-- Jobs that may run at the same time: those with equal descriptors are transforms on one stream. -/
def Compatible (jobs : ι → Job) : Prop :=
  ∀ i j, i ≠ j → (jobs i).desc.key = (jobs j).desc.key →
    (jobs i).stream ≠ none ∧ (jobs i).stream = (jobs j).stream

/-- The work of `i` in a queue. -/
def own (i : ι) (q : List (ι × (Bufs → Bufs))) : List (Bufs → Bufs) :=
  (q.filter fun w => w.1 = i).map Prod.snd

theorem own_append (i : ι) (p q : List (ι × (Bufs → Bufs))) : own i (p ++ q) = own i p ++ own i q := by
  simp [own]

theorem own_cons_self (i : ι) (t : Bufs → Bufs) (q : List (ι × (Bufs → Bufs))) :
    own i ((i, t) :: q) = t :: own i q := by simp [own]

theorem own_cons_ne {i j : ι} (h : j ≠ i) (t : Bufs → Bufs) (q : List (ι × (Bufs → Bufs))) :
    own i ((j, t) :: q) = own i q := by simp [own, h]

structure Inv (jobs : ι → Job) (b₀ : ι → Bufs) (n : Node ι) : Prop where
  ops : ∀ i, ∀ op ∈ n.todo i, OpOk (jobs i).desc.key (jobs i).stream op
  seen : ∀ i, ∃ seen, SetBefore seen (n.todo i) ∧
    ∀ h ∈ seen, h.key = (jobs i).desc.key ∧ (jobs i).stream = some (n.handles h).stream
  planned : ∀ i, (jobs i).stream ≠ none → ∀ h : Handle, h.key = (jobs i).desc.key →
    (n.handles h).planned = true
  placed : ∀ s, ∀ w ∈ n.queue s, (jobs w.1).stream = some s
  total : ∀ i s, (jobs i).stream = some s →
    apply (tasks (n.todo i)) (apply (own i (n.queue s)) (n.bufs i)) = apply (tasks (jobs i).prog) (b₀ i)

theorem inv_start (jobs : ι → Job) (H : Handle → HandleState) (b₀ : ι → Bufs)
    (hp : ∀ i, (jobs i).stream ≠ none → ∀ h : Handle, h.key = (jobs i).desc.key →
      (H h).planned = true) : Inv jobs b₀ (Node.start jobs H b₀) where
  ops i := prog_ok (jobs i)
  seen i := ⟨[], prog_setBefore _, fun h hh => by simp at hh⟩
  planned := hp
  placed s w hw := by simp [Node.start] at hw
  total i s _ := by simp [Node.start, own, apply_nil]

/-- Work of job `j` is added to the stream of `j`. -/
theorem inv_push {jobs : ι → Job} {b₀ : ι → Bufs} {n : Node ι} (hI : Inv jobs b₀ n) {j : ι} {s : ℕ}
    {t : Bufs → Bufs} {op : HostOp} {rest : List HostOp} (hj : n.todo j = op :: rest)
    (ht : tasks (op :: rest) = t :: tasks rest)
    (hs : (jobs j).stream = some s)
    (hseen : ∀ seen, SetBefore seen (op :: rest) → SetBefore seen rest) :
    Inv jobs b₀ { n.push s (j, t) with todo := Function.update n.todo j rest } where
  ops i op' h := by
    by_cases hij : i = j
    · subst hij
      simp only [Function.update_self] at h
      exact hI.ops i op' (by rw [hj]; exact List.mem_cons_of_mem _ h)
    · simp only [Function.update_of_ne hij] at h
      exact hI.ops i op' h
  seen i := by
    obtain ⟨sn, h1, h2⟩ := hI.seen i
    refine ⟨sn, ?_, h2⟩
    by_cases hij : i = j
    · subst hij
      simp only [Function.update_self]
      rw [hj] at h1
      exact hseen _ h1
    · simp only [Function.update_of_ne hij]
      exact h1
  planned := hI.planned
  placed s' w hw := by
    simp only [Node.push] at hw
    by_cases h : s' = s
    · subst h
      rw [Function.update_self, List.mem_append, List.mem_singleton] at hw
      rcases hw with hw | rfl
      · exact hI.placed _ w hw
      · exact hs
    · rw [Function.update_of_ne h] at hw
      exact hI.placed _ w hw
  total i s' hi := by
    have := hI.total i s' hi
    simp only [Node.push]
    by_cases hij : i = j
    · subst hij
      obtain rfl : s' = s := by
        rw [hi] at hs
        exact Option.some.inj hs
      rw [Function.update_self, Function.update_self, own_append, own_cons_self, apply_append,
        apply_cons]
      rw [hj, ht, apply_cons] at this
      simpa [own, apply_nil] using this
    · rw [Function.update_of_ne hij]
      by_cases h : s' = s
      · subst h
        rw [Function.update_self, own_append, own_cons_ne (Ne.symm hij)]
        simpa [own] using this
      · rw [Function.update_of_ne h]
        exact this

/-- The handles change. -/
theorem inv_handles {jobs : ι → Job} {b₀ : ι → Bufs} {n : Node ι} (hI : Inv jobs b₀ n) {j : ι}
    {op : HostOp} {rest : List HostOp} (hj : n.todo j = op :: rest)
    (ht : tasks (op :: rest) = tasks rest) {H : Handle → HandleState}
    (hp : ∀ i, (jobs i).stream ≠ none → ∀ h : Handle, h.key = (jobs i).desc.key →
      (H h).planned = true)
    (hst : ∀ i s, (jobs i).stream = some s → ∀ h : Handle, h.key = (jobs i).desc.key →
      (n.handles h).stream = s → (H h).stream = s)
    (hseen : ∀ seen, SetBefore seen (op :: rest) →
      (∀ h ∈ seen, h.key = (jobs j).desc.key ∧ (jobs j).stream = some (n.handles h).stream) →
      ∃ seen', SetBefore seen' rest ∧
        ∀ h ∈ seen', h.key = (jobs j).desc.key ∧ (jobs j).stream = some (H h).stream) :
    Inv jobs b₀ { n with handles := H, todo := Function.update n.todo j rest } where
  ops i op' h := by
    by_cases hij : i = j
    · subst hij
      simp only [Function.update_self] at h
      exact hI.ops i op' (by rw [hj]; exact List.mem_cons_of_mem _ h)
    · simp only [Function.update_of_ne hij] at h
      exact hI.ops i op' h
  seen i := by
    obtain ⟨sn, h1, h2⟩ := hI.seen i
    by_cases hij : i = j
    · subst hij
      simp only [Function.update_self]
      rw [hj] at h1
      exact hseen _ h1 h2
    · simp only [Function.update_of_ne hij]
      refine ⟨sn, h1, fun h hh => ⟨(h2 h hh).1, ?_⟩⟩
      rw [hst i _ (h2 h hh).2 h (h2 h hh).1 rfl]
      exact (h2 h hh).2
  planned := hp
  placed := hI.placed
  total i s hi := by
    have := hI.total i s hi
    by_cases hij : i = j
    · subst hij
      simp only [Function.update_self]
      rw [hj, ht] at this
      exact this
    · simp only [Function.update_of_ne hij]
      exact this

theorem step_host_nil {n : Node ι} {j : ι} (h : n.todo j = []) : n.step (.host j) = n := by
  simp [Node.step, h]

theorem step_host_cons {n : Node ι} {j : ι} {op : HostOp} {rest : List HostOp}
    (h : n.todo j = op :: rest) :
    n.step (.host j) = { n.call j op with todo := Function.update n.todo j rest } := by
  simp [Node.step, h]

theorem step_device_nil {n : Node ι} {s : ℕ} (h : n.queue s = []) : n.step (.device s) = n := by
  simp [Node.step, h]

theorem step_device_cons {n : Node ι} {s : ℕ} {w : ι × (Bufs → Bufs)} {rest}
    (h : n.queue s = w :: rest) :
    n.step (.device s) = { n with
      queue := Function.update n.queue s rest
      bufs := Function.update n.bufs w.1 (w.2 (n.bufs w.1)) } := by
  simp [Node.step, h]

theorem inv_host {jobs : ι → Job} (hc : Compatible jobs) {b₀ : ι → Bufs} {n : Node ι}
    (hI : Inv jobs b₀ n) (j : ι) : Inv jobs b₀ (n.step (.host j)) := by
  cases hj : n.todo j with
  | nil => rw [step_host_nil hj]; exact hI
  | cons op rest =>
    rw [step_host_cons hj]
    have hok := hI.ops j op (by rw [hj]; exact List.mem_cons_self ..)
    -- no other job has a handle of a job that builds
    have alone : ∀ i, (jobs j).stream = none → (jobs i).stream ≠ none →
        (jobs i).desc.key ≠ (jobs j).desc.key := by
      intro i h1 h2 he
      by_cases hij : i = j
      · subst hij; exact h2 h1
      · rw [← (hc j i (Ne.symm hij) he.symm).2] at h2
        exact h2 h1
    cases op with
    | setStream h s =>
      simp only [Node.call]
      obtain ⟨hk, hs⟩ := hok
      refine inv_handles hI hj rfl ?_ ?_ ?_
      · intro i hi g hg
        by_cases e : g = h
        · subst e; simp only [Function.update_self]; exact hI.planned i hi g hg
        · rw [Function.update_of_ne e]; exact hI.planned i hi g hg
      · intro i s' hi g hg hgs
        by_cases e : g = h
        · subst e
          simp only [Function.update_self]
          by_cases hij : i = j
          · subst hij
            rw [hi] at hs
            exact (Option.some.inj hs).symm
          · have := (hc i j hij (by rw [← hg, hk])).2
            rw [hi, hs] at this
            exact (Option.some.inj this).symm
        · rw [Function.update_of_ne e]; exact hgs
      · intro sn h1 h2
        refine ⟨h :: sn, h1, fun g hg => ?_⟩
        by_cases e : g = h
        · subst e; simp only [Function.update_self]; exact ⟨hk, hs⟩
        · rw [Function.update_of_ne e]
          exact h2 g ((List.mem_cons.1 hg).resolve_left e)
    | exec h t =>
      obtain ⟨hk, hs⟩ := hok
      obtain ⟨sn, h1, h2⟩ := hI.seen j
      rw [hj] at h1
      have hst := (h2 h h1.1).2
      simp only [Node.call]
      rw [if_pos (hI.planned j hs h hk)]
      exact inv_push hI hj rfl hst fun sn h => h.2
    | launch s t => exact inv_push hI hj rfl hok fun sn h => h
    | create h =>
      simp only [Node.call]
      obtain ⟨hk, hs⟩ := hok
      refine inv_handles hI hj rfl ?_ ?_ ?_
      · intro i hi g hg
        have e : g ≠ h := by
          rintro rfl; exact alone i hs hi (hg.symm.trans hk)
        rw [Function.update_of_ne e]; exact hI.planned i hi g hg
      · intro i s' hi g hg hgs
        have e : g ≠ h := by
          rintro rfl; exact alone i hs (by rw [hi]; simp) (hg.symm.trans hk)
        rw [Function.update_of_ne e]; exact hgs
      · intro sn h1 h2
        refine ⟨sn, h1, fun g hg => ?_⟩
        have := (h2 g hg).2
        rw [hs] at this
        simp at this
    | plan h =>
      simp only [Node.call]
      obtain ⟨hk, hs⟩ := hok
      refine inv_handles hI hj rfl ?_ ?_ ?_
      · intro i hi g hg
        have e : g ≠ h := by
          rintro rfl; exact alone i hs hi (hg.symm.trans hk)
        rw [Function.update_of_ne e]; exact hI.planned i hi g hg
      · intro i s' hi g hg hgs
        have e : g ≠ h := by
          rintro rfl; exact alone i hs (by rw [hi]; simp) (hg.symm.trans hk)
        rw [Function.update_of_ne e]; exact hgs
      · intro sn h1 h2
        refine ⟨sn, h1, fun g hg => ?_⟩
        have := (h2 g hg).2
        rw [hs] at this
        simp at this

theorem inv_device {jobs : ι → Job} {b₀ : ι → Bufs} {n : Node ι} (hI : Inv jobs b₀ n) (s : ℕ) :
    Inv jobs b₀ (n.step (.device s)) := by
  cases hq : n.queue s with
  | nil => rw [step_device_nil hq]; exact hI
  | cons w rest =>
    rw [step_device_cons hq]
    refine ⟨hI.ops, hI.seen, hI.planned, ?_, ?_⟩
    · intro s' w' hw
      by_cases h : s' = s
      · subst h
        simp only [Function.update_self] at hw
        exact hI.placed _ w' (by rw [hq]; exact List.mem_cons_of_mem _ hw)
      · simp only [Function.update_of_ne h] at hw
        exact hI.placed _ w' hw
    · intro i s' hi
      have := hI.total i s' hi
      have hw := hI.placed s w (by rw [hq]; exact List.mem_cons_self ..)
      obtain ⟨j, t⟩ := w
      simp only
      by_cases hij : i = j
      · subst hij
        obtain rfl : s' = s := by
          simp only at hw
          rw [hi] at hw
          exact Option.some.inj hw
        rw [Function.update_self, Function.update_self]
        rw [hq, own_cons_self, apply_cons] at this
        exact this
      · rw [Function.update_of_ne hij]
        by_cases h : s' = s
        · subst h
          rw [Function.update_self]
          rw [hq, own_cons_ne (Ne.symm hij)] at this
          exact this
        · rw [Function.update_of_ne h]
          exact this

theorem inv_run {jobs : ι → Job} (hc : Compatible jobs) {b₀ : ι → Bufs} {n : Node ι}
    (hI : Inv jobs b₀ n) (es : List (Event ι)) : Inv jobs b₀ (n.run es) := by
  unfold Node.run
  induction es generalizing n with
  | nil => exact hI
  | cons e r ih =>
    refine ih ?_
    cases e with
    | host j => exact inv_host hc hI j
    | device s => exact inv_device hI s

/-- When a job is done, its buffers hold what it computes alone. -/
theorem inv_done {jobs : ι → Job} {b₀ : ι → Bufs} {n : Node ι} (hI : Inv jobs b₀ n) {i : ι} {s : ℕ}
    (hs : (jobs i).stream = some s) (hd : n.Done i) :
    n.bufs i = apply (tasks (jobs i).prog) (b₀ i) := by
  have h := hI.total i s hs
  have : own i (n.queue s) = [] := by
    unfold own
    rw [List.map_eq_nil_iff, List.filter_eq_nil_iff]
    intro w hw
    simpa using hd.2 s w hw
  rw [hd.1, this] at h
  exact h

/-- A thread runs to its end. -/
theorem host_finishes (n : Node ι) (i : ι) : ∃ k, (n.run (List.replicate k (.host i))).todo i = [] := by
  generalize hm : (n.todo i).length = m
  induction m generalizing n with
  | zero => exact ⟨0, List.length_eq_zero_iff.1 hm⟩
  | succ m ih =>
    obtain ⟨k, hk⟩ := ih (n.step (.host i)) (by
      cases h : n.todo i with
      | nil => simp [h] at hm
      | cons op r => rw [step_host_cons h]; simpa [h] using hm)
    exact ⟨k + 1, hk⟩

/-- A stream drains. -/
theorem device_finishes (n : Node ι) (s : ℕ) :
    ∃ k, (n.run (List.replicate k (.device s))).queue s = [] ∧
      (n.run (List.replicate k (.device s))).todo = n.todo := by
  generalize hm : (n.queue s).length = m
  induction m generalizing n with
  | zero => exact ⟨0, List.length_eq_zero_iff.1 hm, rfl⟩
  | succ m ih =>
    have ht : (n.step (.device s)).todo = n.todo := by
      cases h : n.queue s with
      | nil => rw [step_device_nil h]
      | cons w r => rw [step_device_cons h]
    obtain ⟨k, hk, hk'⟩ := ih (n.step (.device s)) (by
      cases h : n.queue s with
      | nil => simp [h] at hm
      | cons w r => rw [step_device_cons h]; simpa [h] using hm)
    exact ⟨k + 1, hk, hk'.trans ht⟩

theorem run_append (n : Node ι) (a b : List (Event ι)) : n.run (a ++ b) = (n.run a).run b :=
  List.foldl_append ..

theorem inv_finishes {jobs : ι → Job} (hc : Compatible jobs) {b₀ : ι → Bufs} {n : Node ι}
    (hI : Inv jobs b₀ n) (i : ι) : ∃ es, (n.run es).Done i := by
  obtain ⟨k, hk⟩ := host_finishes n i
  cases hs : (jobs i).stream with
  | none =>
    refine ⟨_, hk, fun s w hw e => ?_⟩
    have := (inv_run hc hI (List.replicate k (.host i))).placed s w hw
    rw [e, hs] at this
    simp at this
  | some s =>
    obtain ⟨k', hk', ht⟩ := device_finishes (n.run (List.replicate k (.host i))) s
    refine ⟨List.replicate k (.host i) ++ List.replicate k' (.device s), ?_, fun s' w hw e => ?_⟩
    · rw [run_append, ht, hk]
    · have := (inv_run hc hI (List.replicate k (.host i) ++ List.replicate k' (.device s))).placed
        s' w hw
      rw [e, hs] at this
      obtain rfl := Option.some.inj this
      rw [run_append, hk'] at hw
      simp at hw

end S2fft.Cuda
