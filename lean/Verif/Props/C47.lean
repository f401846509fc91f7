import Verif.Lemmas.CudaThreadsKernels

/-! # C47: the CUDA kernels are free of races and of undefined behaviour

The kernels that fold and extend spectra on the GPU, for every interleaving of the single memory
accesses of all threads, with 32-bit integers. Buffers are the flattened `(4 nside - 1) × 2 L` array of
Fourier coefficients and the `12 nside²` pixels. -/

namespace S2fft
open Spec Cuda

/-- Folding: no thread has undefined behaviour, threads never touch the same address, all accesses are
inside the output buffer, the kernel ends once every thread has had its turns, and then pixel `p` of ring
`t` holds the sum of the coefficients of this ring whose order is `p` modulo the length of the ring. -/
theorem C47_folding (nside L : ℤ) (hn : 1 ≤ nside) (hL : 2 * nside ≤ L)
    (hB : 2 * L * (4 * nside - 1) + 128 < 2 ^ 31) (ftm out : ℤ → ℂ) (regs : ℤ → Regs) :
    ∃ g, launchFolding ftm nside L true out regs = some g ∧
      (∀ i j, i ≠ j → ∀ x ∈ g.todo i, ∀ y ∈ g.todo j, x.addr ≠ y.addr) ∧
      (∀ i, ∀ x ∈ g.todo i, 0 ≤ x.addr.1 ∧ x.addr.1 < 12 * nside ^ 2) ∧
      (∀ sched : List ℤ, (∀ i, (g.todo i).length ≤ sched.count i) → (g.run sched).Done) ∧
      ∀ sched, (g.run sched).Done → ∀ t p, 0 ≤ t → t < 4 * nside - 1 → 0 ≤ p → p < ringSize nside t →
        (g.run sched).out (ringStart nside t + p)
          = ∑ m ∈ (Finset.Ico (-L) L).filter (fun m => m % ringSize nside t = p),
              ftm (t * (2 * L) + (m + L)) := by
  refine ⟨_, launchFolding_eq hn hL hB ftm out true regs, ?_, ?_, fun sched h => run_done_of_count h, ?_⟩
  · intro i j hij x hx y hy hxy
    simp only at hx hy
    split_ifs at hx hy with h1 h2
    · have a := foldP_addr ftm true h1.1 h1.2 hx
      have b := foldP_addr ftm true h2.1 h2.2 hy
      rw [hxy] at a
      exact hij (ringOwn_disjoint _ _ _ _ a b)
    all_goals simp_all
  · intro i x hx
    simp only at hx
    split_ifs at hx with h1
    · obtain ⟨-, -, a, b⟩ := foldP_addr ftm true h1.1 h1.2 hx
      have := ringStart_nonneg (n := nside) h1.1 (by omega)
      have := ringEnd_le hn h1.1 h1.2
      omega
    · simp at hx
  · intro sched hd t p h0 h1 hp0 hp1
    have hown : Owned (ringOwn nside)
        { mem := fun a => if a.2 then (out a.1).im else (out a.1).re
          todo := fun i => if 0 ≤ i ∧ i < 4 * nside - 1 then foldP ftm nside L true i else []
          regs := regs } := by
      refine ⟨fun i j a => ringOwn_disjoint nside i j a, fun i x hx => ?_⟩
      simp only at hx
      split_ifs at hx with h
      · exact foldP_addr ftm true h.1 h.2 hx
      · simp at hx
    have hr := (run_done sched hown hd).1 t
    have e : ∀ b : Bool, _ := fun b =>
      hr (ringStart nside t + p, b) ⟨h0, h1, by simp only; omega, by simp only; omega⟩
    simp only [h0, h1, and_self, if_true] at e
    have hv : (Gpu.run { mem := fun a => if a.2 then (out a.1).im else (out a.1).re
                         todo := fun i => if 0 ≤ i ∧ i < 4 * nside - 1 then foldP ftm nside L true i else []
                         regs := regs } sched).out (ringStart nside t + p)
        = toC (runProg (foldP ftm nside L true t)
            ((fun a => if a.2 then (out a.1).im else (out a.1).re), regs t)).1
          (ringStart nside t + p) := by
      unfold Gpu.out toC
      rw [e false, e true]
    rw [hv, runProg_foldP hn ftm true h0 h1, folding_thread_ring hn hL ftm true h0 h1 hp0 hp1]
    simp only [if_true]
    exact foldSum_orders ftm hp0 hp1

/-- Extension: the same, with coefficient `k` of ring `t` copied from the coefficient of the same order
modulo the length of the ring; the ring's own coefficients have the order zero in the middle. -/
theorem C47_extension (nside L : ℤ) (hn : 1 ≤ nside) (hL : 2 * nside ≤ L)
    (hB : 2 * L * (4 * nside - 1) + 128 < 2 ^ 31) (rings out : ℤ → ℂ) (regs : ℤ → Regs) :
    ∃ g, launchExtension rings nside L out regs = some g ∧
      (∀ i j, i ≠ j → ∀ x ∈ g.todo i, ∀ y ∈ g.todo j, x.addr ≠ y.addr) ∧
      (∀ i, ∀ x ∈ g.todo i, 0 ≤ x.addr.1 ∧ x.addr.1 < (4 * nside - 1) * (2 * L)) ∧
      (∀ sched : List ℤ, (∀ i, (g.todo i).length ≤ sched.count i) → (g.run sched).Done) ∧
      ∀ sched, (g.run sched).Done → ∀ t m, 0 ≤ t → t < 4 * nside - 1 → -L ≤ m → m < L →
        (g.run sched).out (t * (2 * L) + (m + L))
          = rings (ringStart nside t + (m + ringSize nside t / 2) % ringSize nside t) := by
  have haddr : ∀ i, ∀ x ∈ extP rings nside L i, x.addr.1 = i := by
    intro i x hx
    simp only [extP, copyI, List.mem_cons, List.not_mem_nil, or_false] at hx
    rcases hx with rfl | rfl <;> rfl
  refine ⟨_, launchExtension_eq hn hL hB rings out regs, ?_, ?_, fun sched h => run_done_of_count h, ?_⟩
  · intro i j hij x hx y hy hxy
    simp only at hx hy
    split_ifs at hx hy with h1 h2
    · have a := haddr _ _ hx
      have b := haddr _ _ hy
      rw [hxy] at a
      exact hij (a.symm.trans b)
    all_goals simp_all
  · intro i x hx
    simp only at hx
    split_ifs at hx with h1
    · rw [haddr _ _ hx]
      exact ⟨h1.1, by linarith [h1.2]⟩
    · simp at hx
  · intro sched hd t m h0 h1 hm0 hm1
    have hown : Owned (fun i a => a.1 = i)
        { mem := fun a => if a.2 then (out a.1).im else (out a.1).re
          todo := fun i => if 0 ≤ i ∧ i < 2 * L * (4 * nside - 1) then extP rings nside L i else []
          regs := regs } := by
      refine ⟨fun i j a ha hb => ha.symm.trans hb, fun i x hx => ?_⟩
      simp only at hx
      split_ifs at hx with h
      · exact haddr _ _ hx
      · simp at hx
    have hx0 : 0 ≤ t * (2 * L) + (m + L) := add_nonneg (mul_nonneg h0 (by omega)) (by omega)
    have hx1 : t * (2 * L) + (m + L) < 2 * L * (4 * nside - 1) := by nlinarith
    have hr := (run_done sched hown hd).1 (t * (2 * L) + (m + L))
    have e : ∀ b : Bool, _ := fun b => hr (t * (2 * L) + (m + L), b) rfl
    simp only [hx0, hx1, and_self, if_true] at e
    have hv : (Gpu.run { mem := fun a => if a.2 then (out a.1).im else (out a.1).re
                         todo := fun i => if 0 ≤ i ∧ i < 2 * L * (4 * nside - 1) then
                           extP rings nside L i else []
                         regs := regs } sched).out (t * (2 * L) + (m + L))
        = toC (runProg (extP rings nside L (t * (2 * L) + (m + L)))
            ((fun a => if a.2 then (out a.1).im else (out a.1).re), regs (t * (2 * L) + (m + L)))).1
          (t * (2 * L) + (m + L)) := by
      unfold Gpu.out toC
      rw [e false, e true]
    rw [hv]
    unfold extP
    rw [runProg_copy, set1_same]
    have e1 : (t * (2 * L) + (m + L)) / (2 * L) = t := by
      rw [add_comm, Int.add_mul_ediv_right _ _ (by omega),
        Int.ediv_eq_zero_of_lt (by omega) (by omega), zero_add]
    have e2 : (t * (2 * L) + (m + L)) % (2 * L) = m + L := by
      rw [add_comm, Int.add_mul_emod_self_right, Int.emod_eq_of_lt (by omega) (by omega)]
    rw [e1, e2, show m + L - (L - ringSize nside t / 2) = m + ringSize nside t / 2 by ring]

/-- Every interleaving gives what the model with threads run one after the other (used in C10) gives. -/
theorem C47_refines (nside L : ℤ) (hn : 1 ≤ nside) (hL : 2 * nside ≤ L)
    (hB : 2 * L * (4 * nside - 1) + 128 < 2 ^ 31) (a out out' : ℤ → ℂ) (regs : ℤ → Regs)
    (s1 s2 : List ℤ) (h1 : ValidSched (4 * nside - 1) s1)
    (h2 : ValidSched (2 * L * (4 * nside - 1)) s2) :
    (∃ g, launchFolding a nside L true out regs = some g ∧ ∀ sched, (g.run sched).Done →
      ∀ t p, 0 ≤ t → t < 4 * nside - 1 → 0 ≤ p → p < ringSize nside t →
        (g.run sched).out (ringStart nside t + p)
          = runThreads (folding_thread a nside L true) s1 out' (ringStart nside t + p)) ∧
    ∃ g, launchExtension a nside L out regs = some g ∧ ∀ sched, (g.run sched).Done →
      ∀ t k, 0 ≤ t → t < 4 * nside - 1 → 0 ≤ k → k < 2 * L →
        (g.run sched).out (t * (2 * L) + k)
          = runThreads (extension_thread a nside L) s2 out' (t * (2 * L) + k) := by
  constructor
  · obtain ⟨g, hg, -, -, -, h⟩ := C47_folding nside L hn hL hB a out regs
    refine ⟨g, hg, fun sched hd t p a0 a1 b0 b1 => ?_⟩
    rw [h sched hd t p a0 a1 b0 b1, launch_folding hn hL a out' true h1 a0 a1 b0 b1]
    simp only [if_true]
    exact (foldSum_orders a b0 b1).symm
  · obtain ⟨g, hg, -, -, -, h⟩ := C47_extension nside L hn hL hB a out regs
    refine ⟨g, hg, fun sched hd t k a0 a1 b0 b1 => ?_⟩
    have := h sched hd t (k - L) a0 a1 (by omega) (by omega)
    rw [sub_add_cancel] at this
    rw [this, launch_extension hn hL a out' h2 a0 a1 b0 b1,
      show k - L + ringSize nside t / 2 = k - (L - ringSize nside t / 2) by ring]

/-- A limit: as soon as the map has `2³¹` pixels or more (`nside = 16384`), a thread of both kernels
overflows, which is undefined behaviour. -/
theorem C47_limit (nside L : ℤ) (hn : 1 ≤ nside) (hL : 1 ≤ L) (hB : 2 ^ 31 ≤ 12 * nside * nside)
    (a out : ℤ → ℂ) (regs : ℤ → Regs) :
    launchFolding a nside L true out regs = none ∧ launchExtension a nside L out regs = none :=
  ⟨launchFolding_none hn hB a out true regs, launchExtension_none hn hL hB a out regs⟩

/-- Witness: the largest common size, and an interleaving that runs to the end. -/
example : (2 : ℤ) * 24576 * (4 * 8192 - 1) + 128 < 2 ^ 31 ∧ (2 ^ 31 : ℤ) ≤ 12 * 16384 * 16384 := by
  norm_num

example (nside L : ℤ) (hn : 1 ≤ nside) (hL : 2 * nside ≤ L)
    (hB : 2 * L * (4 * nside - 1) + 128 < 2 ^ 31) (ftm out : ℤ → ℂ) (regs : ℤ → Regs) :
    ∃ g sched, launchFolding ftm nside L true out regs = some g ∧ (g.run sched).Done := by
  refine ⟨_, ((pyRange (4 * nside - 1)).map fun i =>
    List.replicate (foldP ftm nside L true i).length i).flatten,
    launchFolding_eq hn hL hB ftm out true regs, run_done_of_count fun i => ?_⟩
  simp only
  split_ifs with h
  · have hm : List.replicate (foldP ftm nside L true i).length i ∈ (pyRange (4 * nside - 1)).map
        fun i => List.replicate (foldP ftm nside L true i).length i :=
      List.mem_map.2 ⟨i, mem_pyRange.2 h, rfl⟩
    have := (List.sublist_flatten_of_mem hm).count_le i
    simpa using this
  · simp

end S2fft
