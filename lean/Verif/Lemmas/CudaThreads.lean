import Verif.Model.CudaThreads
import Verif.Lemmas.HealpixCuda

/-! # Interleavings of threads that access disjoint parts of memory -/

namespace S2fft.Cuda

/-- A thread running alone. -/
noncomputable def runProg (p : List Instr) (st : (Addr → ℝ) × Regs) : (Addr → ℝ) × Regs :=
  p.foldl (fun st x => x.exec st) st

theorem runProg_append (p q : List Instr) (st : (Addr → ℝ) × Regs) :
    runProg (p ++ q) st = runProg q (runProg p st) := List.foldl_append

/-- An access sees and changes only its own address. -/
theorem exec_local (x : Instr) (P : Addr → Prop) (hx : P x.addr) (m m' : Addr → ℝ) (g : Regs)
    (h : ∀ a, P a → m a = m' a) :
    (∀ a, P a → (x.exec (m, g)).1 a = (x.exec (m', g)).1 a) ∧
      (x.exec (m, g)).2 = (x.exec (m', g)).2 := by
  cases x with
  | ld r b => exact ⟨h, by simp only [Instr.exec]; rw [h b hx]⟩
  | st b v =>
    refine ⟨fun a ha => ?_, rfl⟩
    simp only [Instr.exec, Function.update_apply]
    split_ifs
    · rfl
    · exact h a ha

theorem exec_frame (x : Instr) (m : Addr → ℝ) (g : Regs) {a : Addr} (h : a ≠ x.addr) :
    (x.exec (m, g)).1 a = m a := by
  cases x with
  | ld r b => rfl
  | st b v => simp only [Instr.exec]; exact Function.update_of_ne h _ _

/-- Threads own disjoint addresses and access only their own. -/
structure Owned (own : ℤ → Addr → Prop) (s : Gpu) : Prop where
  disjoint : ∀ i j a, own i a → own j a → i = j
  access : ∀ i, ∀ x ∈ s.todo i, own i x.addr

theorem Owned.step {own : ℤ → Addr → Prop} {s : Gpu} (h : Owned own s) (j : ℤ) :
    Owned own (s.step j) := by
  refine ⟨h.disjoint, fun i x hx => h.access i x ?_⟩
  unfold Gpu.step at hx
  split at hx
  · exact hx
  · next y rest e =>
    simp only [Function.update_apply] at hx
    split_ifs at hx with hij
    · subst hij; rw [e]; exact List.mem_cons_of_mem _ hx
    · exact hx

/-- What is left to do gives, on a thread's own addresses, the same before and after a step of any
thread. -/
theorem runProg_step {own : ℤ → Addr → Prop} {s : Gpu} (h : Owned own s) (i j : ℤ) {a : Addr}
    (ha : own i a) :
    (runProg ((s.step j).todo i) ((s.step j).mem, (s.step j).regs i)).1 a
      = (runProg (s.todo i) (s.mem, s.regs i)).1 a := by
  unfold Gpu.step
  split
  · rfl
  · next y rest e =>
    by_cases hij : i = j
    · subst hij
      simp only [Function.update_self, e]
      rfl
    · simp only [Function.update_of_ne hij]
      have aux : ∀ (p : List Instr) (m m' : Addr → ℝ) (g : Regs), (∀ x ∈ p, own i x.addr) →
          (∀ b, own i b → m b = m' b) →
          ∀ b, own i b → (runProg p (m, g)).1 b = (runProg p (m', g)).1 b := by
        intro p
        induction p with
        | nil => intro m m' g _ hm b hb; exact hm b hb
        | cons x p ih =>
          intro m m' g hp hm b hb
          obtain ⟨h1, h2⟩ := exec_local x (own i) (hp x List.mem_cons_self) m m' g hm
          have := ih (x.exec (m, g)).1 (x.exec (m', g)).1 (x.exec (m, g)).2
            (fun z hz => hp z (List.mem_cons_of_mem _ hz)) h1 b hb
          simp only [runProg, List.foldl_cons] at this ⊢
          rw [show x.exec (m', g) = ((x.exec (m', g)).1, (x.exec (m, g)).2) from Prod.ext rfl h2.symm]
          exact this
      apply aux _ _ _ _ (h.access i) _ a ha
      intro b hb
      apply exec_frame
      intro hc
      have := h.access j y (by rw [e]; exact List.mem_cons_self)
      exact hij (h.disjoint i j b hb (hc ▸ this))

theorem mem_step_frame {own : ℤ → Addr → Prop} {s : Gpu} (h : Owned own s) (j : ℤ) {a : Addr}
    (ha : ∀ i, ¬ own i a) : (s.step j).mem a = s.mem a := by
  unfold Gpu.step
  split
  · rfl
  · next y rest e =>
    apply exec_frame
    intro hc
    exact ha j (hc ▸ h.access j y (by rw [e]; exact List.mem_cons_self))

/-- Whatever the interleaving, once all threads have returned the memory is as if each had run alone. -/
theorem run_done {own : ℤ → Addr → Prop} : ∀ (sched : List ℤ) {s : Gpu}, Owned own s →
    (s.run sched).Done →
    (∀ i a, own i a → (s.run sched).mem a = (runProg (s.todo i) (s.mem, s.regs i)).1 a) ∧
      ∀ a, (∀ i, ¬ own i a) → (s.run sched).mem a = s.mem a := by
  intro sched
  induction sched with
  | nil =>
    intro s h hd
    refine ⟨fun i a _ => ?_, fun a _ => rfl⟩
    have := hd i
    simp only [Gpu.run, List.foldl_nil] at this ⊢
    rw [this]; rfl
  | cons j l ih =>
    intro s h hd
    obtain ⟨h1, h2⟩ := ih (h.step j) hd
    refine ⟨fun i a ha => ?_, fun a ha => ?_⟩
    · have := h1 i a ha
      rw [runProg_step h i j ha] at this
      exact this
    · have := h2 a ha
      rw [mem_step_frame h j ha] at this
      exact this

/-- Remaining accesses after a schedule. -/
theorem run_todo_length : ∀ (sched : List ℤ) (s : Gpu) (i : ℤ),
    ((s.run sched).todo i).length = (s.todo i).length - sched.count i := by
  intro sched
  induction sched with
  | nil => intro s i; simp [Gpu.run]
  | cons j l ih =>
    intro s i
    have e : s.run (j :: l) = (s.step j).run l := rfl
    rw [e, ih, List.count_cons]
    unfold Gpu.step
    split
    · next h =>
      by_cases hij : j = i
      · subst hij; simp [h]
      · simp [hij]
    · next y rest h =>
      by_cases hij : j = i
      · subst hij
        simp [h]
      · have : i ≠ j := fun h => hij h.symm
        simp [hij, Function.update_of_ne this]

/-- A schedule that gives every thread as many turns as it has accesses is complete. -/
theorem run_done_of_count {sched : List ℤ} {s : Gpu}
    (h : ∀ i, (s.todo i).length ≤ sched.count i) : (s.run sched).Done := by
  intro i
  rw [← List.length_eq_zero_iff, run_todo_length]
  exact Nat.sub_eq_zero_of_le (h i)

/-! ## From accesses to values -/

/-- The complex numbers in a memory. -/
def toC (m : Addr → ℝ) (i : ℤ) : ℂ := ⟨m (i, false), m (i, true)⟩

theorem runProg_copy (i : ℤ) (v : ℂ) (m : Addr → ℝ) (g : Regs) :
    toC (runProg (copyI i v) (m, g)).1 = set1 (toC m) i v := by
  funext x
  by_cases h : x = i
  · subst h; simp [runProg, copyI, Instr.exec, toC, set1, Function.update_apply]
  · simp [runProg, copyI, Instr.exec, toC, set1, Function.update_apply, h]

theorem runProg_add (i : ℤ) (v : ℂ) (m : Addr → ℝ) (g : Regs) :
    toC (runProg (addI i v) (m, g)).1 = add1 (toC m) i v := by
  funext x
  by_cases h : x = i
  · subst h
    simp [runProg, addI, Instr.exec, toC, add1, set1, Function.update_apply, Complex.ext_iff]
  · simp [runProg, addI, Instr.exec, toC, add1, set1, Function.update_apply, h]

theorem runProg_swap (i j : ℤ) (m : Addr → ℝ) (g : Regs) :
    toC (runProg (swapI i j) (m, g)).1 = swap (toC m) i j := by
  funext x
  by_cases h : x = i <;> by_cases h' : x = j <;> by_cases h'' : i = j <;>
    simp [runProg, swapI, Instr.exec, toC, swap, set1, Function.update_apply, h, h', h''] <;>
    simp_all

/-- A loop of accesses does what the loop over values does. -/
theorem runProg_loop (n : ℤ) (p : ℤ → List Instr) (f : ℤ → (ℤ → ℂ) → ℤ → ℂ)
    (h : ∀ i m g, 0 ≤ i → i < n → toC (runProg (p i) (m, g)).1 = f i (toC m)) (m : Addr → ℝ) (g : Regs) :
    toC (runProg ((pyRange n).map p).flatten (m, g)).1 = forRange 0 n f (toC m) := by
  have aux : ∀ k : ℕ, (k : ℤ) ≤ n →
      toC (runProg (((List.range k).map fun j : ℕ => p j).flatten) (m, g)).1
        = forRange 0 k f (toC m) := by
    intro k
    induction k with
    | zero => intro _; simp [runProg, forRange_of_le]
    | succ k ih =>
      intro hk
      rw [List.range_succ, List.map_append, List.flatten_append, runProg_append]
      have h1 := ih (by push_cast at hk; omega)
      have h2 := h k (runProg (((List.range k).map fun j : ℕ => p j).flatten) (m, g)).1
        (runProg (((List.range k).map fun j : ℕ => p j).flatten) (m, g)).2 (by omega)
        (by push_cast at hk; omega)
      simp only [List.map_cons, List.map_nil, List.flatten_cons, List.flatten_nil, List.append_nil]
      rw [Prod.mk.eta] at h2
      rw [h2, h1]
      push_cast
      rw [forRange_succ (by omega)]
  rcases le_or_gt n 0 with h0 | h0
  · rw [forRange_of_le h0]
    simp [pyRange, Int.toNat_of_nonpos h0, runProg]
  · have := aux n.toNat (by omega)
    rw [Int.toNat_of_nonneg h0.le] at this
    rw [← this]
    simp [pyRange, List.map_map, Function.comp_def]

theorem loop32_eq (n : ℤ) (body : ℤ → Option (List Instr)) (p : ℤ → List Instr)
    (h : ∀ i, 0 ≤ i → i < n → body i = some (p i)) :
    loop32 n body = some ((pyRange n).map p).flatten := by
  unfold loop32
  have aux : ∀ l : List ℤ, (∀ i ∈ l, body i = some (p i)) → l.mapM body = some (l.map p) := by
    intro l
    induction l with
    | nil => intro _; simp
    | cons x l ih =>
      intro hl
      rw [List.mapM_cons, hl x List.mem_cons_self, ih fun i hi => hl i (List.mem_cons_of_mem _ hi)]
      rfl
  rw [aux _ fun i hi => h i (mem_pyRange.1 hi).1 (mem_pyRange.1 hi).2]
  rfl

theorem i32_eq {x : ℤ} (h0 : -2 ^ 31 ≤ x) (h1 : x < 2 ^ 31) : i32 x = some x := if_pos ⟨h0, h1⟩

theorem i32_bind {α : Type} {x : ℤ} (f : ℤ → Option α) (h : -2 ^ 31 ≤ x ∧ x < 2 ^ 31) :
    (i32 x >>= f) = f x := by
  unfold i32; rw [if_pos h]; rfl

theorem rd_bind {α : Type} (data : ℤ → ℂ) {size i : ℤ} (f : ℂ → Option α) (h : 0 ≤ i ∧ i < size) :
    (rd data size i >>= f) = f (data i) := by
  unfold rd; rw [if_pos h]; rfl

theorem modFix32_bind {α : Type} {a n : ℤ} (f : ℤ → Option α) (hn : 0 < n) (hn' : n < 2 ^ 31) :
    (modFix32 a n >>= f) = f (a % n) := by
  have h0 := Int.emod_nonneg a hn.ne'
  have h1 := Int.emod_lt_of_pos a hn
  have hfix : (if Int.tmod a n < 0 then n + Int.tmod a n else Int.tmod a n) = a % n :=
    cmodFix_eq hn
  unfold modFix32 mod32
  rw [if_neg hn.ne']
  show ((if Int.tmod a n < 0 then i32 (n + Int.tmod a n) else pure (Int.tmod a n)) >>= f) = _
  split_ifs at hfix ⊢ with h
  · rw [hfix]
    exact i32_bind f ⟨by omega, by omega⟩
  · rw [hfix]; rfl

/-- No overflow in the ring geometry. -/
theorem computeNphi32_eq {n t : ℤ} (hn : 1 ≤ n) (hB : 12 * n * n < 2 ^ 31) (h0 : 0 ≤ t)
    (h1 : t < 4 * n - 1) : computeNphi32 n t = some (Spec.ringSize n t, Spec.ringStart n t) := by
  rw [← computeNphi_eq hn h0 h1]
  have hn' : n < 14000 := by nlinarith
  unfold computeNphi32 computeNphi
  simp only
  rw [i32_bind, i32_bind, i32_bind, i32_bind, i32_bind, i32_bind, i32_bind, i32_bind, i32_bind]
  · split_ifs with a b c c
    · rw [i32_bind, i32_bind, i32_bind, i32_bind]
      · rfl
      all_goals constructor <;> nlinarith
    · omega
    · rw [i32_bind, i32_bind]
      · rw [if_neg c, i32_bind, i32_bind, i32_bind, i32_bind]
        · rfl
        all_goals constructor <;> nlinarith
      all_goals constructor <;> nlinarith
    · rw [i32_bind, i32_bind, i32_bind, i32_bind, i32_bind, i32_bind]
      · rfl
      all_goals constructor <;> nlinarith
  all_goals constructor <;> nlinarith

end S2fft.Cuda
