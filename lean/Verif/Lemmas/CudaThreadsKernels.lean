import Verif.Lemmas.CudaThreads

/-! # The accesses of the two kernels -/

namespace S2fft.Cuda
open Spec

/-- The accesses of a folding thread, when no operation overflows. -/
def foldP (data : ℤ → ℂ) (n L : ℤ) (shift : Bool) (t : ℤ) : List Instr :=
  ((pyRange (ringSize n t)).map fun i =>
      copyI (i + ringStart n t) (data (i + t * (2 * L) + (L - ringSize n t / 2)))).flatten
    ++ ((pyRange (L - ringSize n t / 2)).map fun i =>
      addI ((-(1 + i)) % ringSize n t + ringStart n t)
        (data (L - ringSize n t / 2 - (1 + i) + t * (2 * L)))).flatten
    ++ ((pyRange (L - ringSize n t / 2)).map fun i =>
      addI (i % ringSize n t + ringStart n t)
        (data (L - ringSize n t / 2 + ringSize n t + i + t * (2 * L)))).flatten
    ++ if shift then ((pyRange (ringSize n t / 2)).map fun i =>
      swapI (i + ringStart n t) (i + ringStart n t + ringSize n t / 2)).flatten else []

theorem ringStart_nonneg {n t : ℤ} (h0 : 0 ≤ t) (h1 : t ≤ 4 * n - 1) : 0 ≤ ringStart n t := by
  have := ringStart_mono (n := n) le_rfl h0 h1
  simpa [ringStart] using this

theorem ringEnd_le {n t : ℤ} (hn : 1 ≤ n) (h0 : 0 ≤ t) (h1 : t < 4 * n - 1) :
    ringStart n t + ringSize n t ≤ 12 * n ^ 2 := by
  rw [← ringStart_succ n t h0, ← ringStart_total n hn]
  exact ringStart_mono (by omega) (by omega) le_rfl

theorem foldingProg_eq {n L : ℤ} (hn : 1 ≤ n) (hL : 2 * n ≤ L)
    (hB : 2 * L * (4 * n - 1) + 128 < 2 ^ 31) (data : ℤ → ℂ) (shift : Bool) {t : ℤ} (h0 : 0 ≤ t)
    (h1 : t < 4 * n - 1) : foldingProg data n L shift t = some (foldP data n L shift t) := by
  have hpos := ringSize_pos h0 h1
  have heven := ringSize_even n t
  have hle := ringSize_le n t
  have hs0 := ringStart_nonneg (n := n) h0 (by omega)
  have hs1 := ringEnd_le hn h0 h1
  have hn2 : 12 * n ^ 2 < 2 ^ 31 := by nlinarith
  have hn' : n < 14000 := by nlinarith
  have hL' : 6 * L < 2 ^ 31 := by nlinarith
  have ht0 : 0 ≤ t * (2 * L) := mul_nonneg h0 (by omega)
  have ht1 : t * (2 * L) + 2 * L ≤ (4 * n - 1) * (2 * L) := by nlinarith
  have hB' : (4 * n - 1) * (2 * L) + 128 < 2 ^ 31 := by linarith
  have hhalf : (ringSize n t).tdiv 2 = ringSize n t / 2 := Int.tdiv_eq_ediv_of_nonneg hpos.le
  unfold foldingProg
  simp only
  rw [i32_bind, i32_bind, i32_bind]
  · rw [if_neg (by omega), computeNphi32_eq hn (by nlinarith) h0 h1]
    simp only [Option.bind_eq_bind, Option.bind_some]
    simp only [← Option.bind_eq_bind]
    rw [i32_bind, i32_bind, i32_bind, i32_bind]
    · rw [hhalf]
      rw [loop32_eq (ringSize n t) _ (fun i =>
        copyI (i + ringStart n t) (data (i + t * (2 * L) + (L - ringSize n t / 2))))]
      · show (loop32 _ _ >>= _) = _
        rw [loop32_eq (L - ringSize n t / 2) _ (fun i =>
          addI ((-(1 + i)) % ringSize n t + ringStart n t)
            (data (L - ringSize n t / 2 - (1 + i) + t * (2 * L))))]
        · show (loop32 _ _ >>= _) = _
          rw [loop32_eq (L - ringSize n t / 2) _ (fun i =>
            addI (i % ringSize n t + ringStart n t)
              (data (L - ringSize n t / 2 + ringSize n t + i + t * (2 * L))))]
          · cases shift with
            | false => rfl
            | true =>
              show ((loop32 _ _) >>= _) = _
              rw [loop32_eq (ringSize n t / 2) _ (fun i =>
                swapI (i + ringStart n t) (i + ringStart n t + ringSize n t / 2))]
              · rfl
              · intro i g0 g1
                rw [i32_bind, i32_bind]
                · rfl
                all_goals constructor <;> omega
          · intro i g0 g1
            rw [modFix32_bind _ hpos (by omega)]
            have e0 := Int.emod_nonneg i hpos.ne'
            have e1 := Int.emod_lt_of_pos i hpos
            rw [i32_bind, i32_bind, i32_bind, rd_bind]
            · rfl
            all_goals constructor <;> omega
        · intro i g0 g1
          rw [i32_bind, i32_bind, modFix32_bind _ hpos (by omega)]
          · have e0 := Int.emod_nonneg (-(1 + i)) hpos.ne'
            have e1 := Int.emod_lt_of_pos (-(1 + i)) hpos
            rw [i32_bind, i32_bind, i32_bind, rd_bind]
            · rfl
            all_goals constructor <;> omega
          all_goals constructor <;> omega
      · intro i g0 g1
        rw [i32_bind, i32_bind, i32_bind, rd_bind]
        · rfl
        all_goals constructor <;> omega
    all_goals constructor <;> omega
  all_goals constructor <;> omega

theorem foldingProg_idle {n L : ℤ} (hn : 1 ≤ n) (hL : 2 * n ≤ L)
    (hB : 2 * L * (4 * n - 1) + 128 < 2 ^ 31) (data : ℤ → ℂ) (shift : Bool) {t : ℤ}
    (h1 : 4 * n - 1 ≤ t) (h2 : t < 2 ^ 31) : foldingProg data n L shift t = some [] := by
  have hn' : n < 14000 := by nlinarith
  unfold foldingProg
  simp only
  rw [i32_bind, i32_bind, i32_bind]
  · rw [if_pos (by omega)]; rfl
  all_goals constructor <;> omega

/-- Alone, a folding thread does what the model by values says. -/
theorem runProg_foldP {n L : ℤ} (hn : 1 ≤ n) (data : ℤ → ℂ) (shift : Bool) {t : ℤ}
    (h0 : 0 ≤ t) (h1 : t < 4 * n - 1) (m : Addr → ℝ) (g : Regs) :
    toC (runProg (foldP data n L shift t) (m, g)).1 = folding_thread data n L shift t (toC m) := by
  have hpos := ringSize_pos h0 h1
  unfold foldP folding_thread
  rw [if_neg (show ¬ t ≥ 4 * n - 1 by omega), computeNphi_eq hn h0 h1]
  simp only
  rw [Int.tdiv_eq_ediv_of_nonneg hpos.le]
  have key : ∀ (m : Addr → ℝ) (g : Regs),
      toC (runProg (((pyRange (ringSize n t)).map fun i =>
        copyI (i + ringStart n t) (data (i + t * (2 * L) + (L - ringSize n t / 2)))).flatten
      ++ ((pyRange (L - ringSize n t / 2)).map fun i =>
        addI ((-(1 + i)) % ringSize n t + ringStart n t)
          (data (L - ringSize n t / 2 - (1 + i) + t * (2 * L)))).flatten
      ++ ((pyRange (L - ringSize n t / 2)).map fun i =>
        addI (i % ringSize n t + ringStart n t)
          (data (L - ringSize n t / 2 + ringSize n t + i + t * (2 * L)))).flatten) (m, g)).1
      = forRange 0 (L - ringSize n t / 2)
        (fun i o => add1 o (cmodFix i (ringSize n t) + ringStart n t)
          (data (L - ringSize n t / 2 + ringSize n t + i + t * (2 * L))))
        (forRange 0 (L - ringSize n t / 2)
          (fun i o => add1 o (cmodFix (-(1 + i)) (ringSize n t) + ringStart n t)
            (data (L - ringSize n t / 2 - (1 + i) + t * (2 * L))))
          (forRange 0 (ringSize n t)
            (fun i o => set1 o (i + ringStart n t)
              (data (i + t * (2 * L) + (L - ringSize n t / 2)))) (toC m))) := by
    intro m g
    rw [runProg_append, runProg_append]
    rw [← Prod.mk.eta (p := runProg _ (runProg _ (m, g)))]
    rw [runProg_loop _ _ (fun i o => add1 o (cmodFix i (ringSize n t) + ringStart n t)
          (data (L - ringSize n t / 2 + ringSize n t + i + t * (2 * L))))
          (fun i m g _ _ => by rw [runProg_add, cmodFix_eq hpos])]
    congr 1
    rw [← Prod.mk.eta (p := runProg _ (m, g))]
    rw [runProg_loop _ _ (fun i o => add1 o (cmodFix (-(1 + i)) (ringSize n t) + ringStart n t)
            (data (L - ringSize n t / 2 - (1 + i) + t * (2 * L))))
          (fun i m g _ _ => by rw [runProg_add, cmodFix_eq hpos])]
    congr 1
    exact runProg_loop _ _ (fun i o => set1 o (i + ringStart n t)
              (data (i + t * (2 * L) + (L - ringSize n t / 2))))
          (fun i m g _ _ => runProg_copy _ _ _ _) _ _
  cases shift with
  | false =>
    simp only [Bool.false_eq_true, if_false, List.append_nil]
    exact key m g
  | true =>
    simp only [if_true]
    rw [runProg_append, ← key m g]
    exact runProg_loop _ _
      (fun i o => swap o (i + ringStart n t) (i + ringStart n t + ringSize n t / 2))
      (fun i m g _ _ => runProg_swap _ _ _ _) _ _

/-- The addresses of ring `t`. -/
def ringOwn (n t : ℤ) (a : Addr) : Prop :=
  0 ≤ t ∧ t < 4 * n - 1 ∧ ringStart n t ≤ a.1 ∧ a.1 < ringStart n t + ringSize n t

theorem foldP_addr {n L : ℤ} (data : ℤ → ℂ) (shift : Bool) {t : ℤ}
    (h0 : 0 ≤ t) (h1 : t < 4 * n - 1) {x : Instr} (hx : x ∈ foldP data n L shift t) :
    ringOwn n t x.addr := by
  have hpos := ringSize_pos h0 h1
  have heven := ringSize_even n t
  refine ⟨h0, h1, ?_⟩
  unfold foldP at hx
  simp only [List.mem_append, List.mem_flatten, List.mem_map, mem_pyRange] at hx
  rcases hx with ((⟨l, ⟨i, hi, rfl⟩, hl⟩ | ⟨l, ⟨i, hi, rfl⟩, hl⟩) | ⟨l, ⟨i, hi, rfl⟩, hl⟩) | hx
  · simp only [copyI, List.mem_cons, List.not_mem_nil, or_false] at hl
    rcases hl with rfl | rfl <;> simp only [Instr.addr] <;> omega
  · have e0 := Int.emod_nonneg (-(1 + i)) hpos.ne'
    have e1 := Int.emod_lt_of_pos (-(1 + i)) hpos
    simp only [addI, List.mem_cons, List.not_mem_nil, or_false] at hl
    rcases hl with rfl | rfl | rfl | rfl <;> simp only [Instr.addr] <;> omega
  · have e0 := Int.emod_nonneg i hpos.ne'
    have e1 := Int.emod_lt_of_pos i hpos
    simp only [addI, List.mem_cons, List.not_mem_nil, or_false] at hl
    rcases hl with rfl | rfl | rfl | rfl <;> simp only [Instr.addr] <;> omega
  · split_ifs at hx with hs
    · simp only [List.mem_flatten, List.mem_map, mem_pyRange] at hx
      obtain ⟨l, ⟨i, hi, rfl⟩, hl⟩ := hx
      simp only [swapI, List.mem_cons, List.not_mem_nil, or_false] at hl
      rcases hl with rfl | rfl | rfl | rfl | rfl | rfl | rfl | rfl <;> simp only [Instr.addr] <;> omega
    · simp at hx

theorem ringOwn_disjoint (n i j : ℤ) (a : Addr) (h : ringOwn n i a) (h' : ringOwn n j a) : i = j := by
  obtain ⟨a0, a1, a2, a3⟩ := h
  obtain ⟨b0, b1, b2, b3⟩ := h'
  exact (ring_disjoint a0 a1 b0 b1 (q := a.1 - ringStart n i) (p := a.1 - ringStart n j)
    (by omega) (by omega) (by omega) (by omega) (by omega)).1

/-! ## Extension -/

/-- The accesses of an extension thread, when no operation overflows. -/
def extP (data : ℤ → ℂ) (n L idx : ℤ) : List Instr :=
  copyI idx (data (ringStart n (idx / (2 * L))
    + (idx % (2 * L) - (L - ringSize n (idx / (2 * L)) / 2)) % ringSize n (idx / (2 * L))))

theorem extensionProg_eq {n L : ℤ} (hn : 1 ≤ n) (hL : 2 * n ≤ L)
    (hB : 2 * L * (4 * n - 1) + 128 < 2 ^ 31) (data : ℤ → ℂ) {x : ℤ} (h0 : 0 ≤ x)
    (h1 : x < 2 * L * (4 * n - 1)) : extensionProg data n L x = some (extP data n L x) := by
  have hn' : n < 14000 := by nlinarith
  have hn2 : 12 * n ^ 2 < 2 ^ 31 := by nlinarith
  have hL' : 6 * L < 2 ^ 31 := by nlinarith
  have hB' : (4 * n - 1) * (2 * L) + 128 < 2 ^ 31 := by linarith
  have hB'' : 0 ≤ (4 * n - 1) * (2 * L) := mul_nonneg (by omega) (by omega)
  unfold extensionProg extP
  simp only
  rw [i32_bind, i32_bind, i32_bind, i32_bind, i32_bind]
  · rw [if_neg (by linarith), if_neg (by omega), Int.tdiv_eq_ediv_of_nonneg h0,
      Int.tmod_eq_emod_of_nonneg h0]
    have ht0 : 0 ≤ x / (2 * L) := Int.ediv_nonneg h0 (by omega)
    have ht1 : x / (2 * L) < 4 * n - 1 := Int.ediv_lt_of_lt_mul (by omega) (by linarith)
    have hk0 : 0 ≤ x % (2 * L) := Int.emod_nonneg _ (by omega)
    have hk1 : x % (2 * L) < 2 * L := Int.emod_lt_of_pos _ (by omega)
    generalize x / (2 * L) = t at *
    generalize x % (2 * L) = k at *
    have hpos := ringSize_pos ht0 ht1
    have heven := ringSize_even n t
    have hle := ringSize_le n t
    have hs0 := ringStart_nonneg (n := n) ht0 (by omega)
    have hs1 := ringEnd_le hn ht0 ht1
    have hs1' : ringStart n t + ringSize n t ≤ 12 * n * n := by rw [mul_assoc, ← sq]; exact hs1
    rw [computeNphi32_eq hn (by nlinarith) ht0 ht1]
    simp only [Option.bind_eq_bind, Option.bind_some]
    simp only [← Option.bind_eq_bind]
    rw [Int.tdiv_eq_ediv_of_nonneg hpos.le]
    rw [i32_bind, i32_bind]
    · split_ifs with a b
      · rw [i32_bind, i32_bind, modFix32_bind _ hpos (by omega)]
        · have e0 := Int.emod_nonneg (-(L - ringSize n t / 2 - k)) hpos.ne'
          have e1 := Int.emod_lt_of_pos (-(L - ringSize n t / 2 - k)) hpos
          rw [i32_bind, rd_bind]
          · rw [show k - (L - ringSize n t / 2) = -(L - ringSize n t / 2 - k) by ring, add_comm]; rfl
          all_goals constructor <;> omega
        all_goals constructor <;> omega
      · rw [i32_bind, i32_bind, rd_bind]
        · rw [Int.emod_eq_of_lt (by omega) (by omega), add_comm]; rfl
        all_goals constructor <;> omega
      · rw [i32_bind, i32_bind,
          Int.tdiv_eq_ediv_of_nonneg (show 0 ≤ ringSize n t + 1 by omega), i32_bind, i32_bind,
          modFix32_bind _ hpos (by omega)]
        · rw [show L - (ringSize n t + 1) / 2 - (2 * L - k) = k - (L - ringSize n t / 2) - ringSize n t
            by omega, Int.sub_emod_right]
          have e0 := Int.emod_nonneg (k - (L - ringSize n t / 2)) hpos.ne'
          have e1 := Int.emod_lt_of_pos (k - (L - ringSize n t / 2)) hpos
          rw [i32_bind, rd_bind]
          · rw [add_comm]; rfl
          all_goals constructor <;> omega
        all_goals constructor <;> omega
    all_goals constructor <;> omega
  all_goals constructor <;> linarith

theorem extensionProg_idle {n L : ℤ} (hn : 1 ≤ n) (hL : 2 * n ≤ L)
    (hB : 2 * L * (4 * n - 1) + 128 < 2 ^ 31) (data : ℤ → ℂ) {x : ℤ}
    (h1 : 2 * L * (4 * n - 1) ≤ x) (h2 : x < 2 ^ 31) : extensionProg data n L x = some [] := by
  have hn' : n < 14000 := by nlinarith
  have hL' : 6 * L < 2 ^ 31 := by nlinarith
  have hB' : (4 * n - 1) * (2 * L) + 128 < 2 ^ 31 := by linarith
  have hB'' : 0 ≤ (4 * n - 1) * (2 * L) := mul_nonneg (by omega) (by omega)
  unfold extensionProg
  simp only
  rw [i32_bind, i32_bind, i32_bind, i32_bind, i32_bind]
  · rw [if_pos (by linarith)]; rfl
  all_goals constructor <;> linarith

/-! ## Launching -/

theorem mapM_some {α β : Type} (f : α → Option β) (p : α → β) : ∀ l : List α,
    (∀ i ∈ l, f i = some (p i)) → l.mapM f = some (l.map p) := by
  intro l
  induction l with
  | nil => intro _; simp
  | cons x l ih =>
    intro hl
    rw [List.mapM_cons, hl x List.mem_cons_self, ih fun i hi => hl i (List.mem_cons_of_mem _ hi)]
    rfl

theorem launch_eq (prog : ℤ → Option (List Instr)) (p : ℤ → List Instr) {N : ℤ} (h0 : 0 ≤ N)
    (h1 : N + 128 < 2 ^ 31) (h : ∀ i, 0 ≤ i → i < launched N → prog i = some (p i)) (out : ℤ → ℂ)
    (regs : ℤ → Regs) :
    launch prog N out regs = some
      { mem := fun a => if a.2 then (out a.1).im else (out a.1).re
        todo := fun i => if 0 ≤ i ∧ i < launched N then p i else []
        regs := regs } := by
  unfold launch
  rw [i32_bind, i32_bind]
  · have e : (N + 128 - 1).tdiv 128 * 128 = launched N := rfl
    simp only [e]
    rw [mapM_some prog p _ fun i hi => h i (mem_pyRange.1 hi).1 (mem_pyRange.1 hi).2]
    simp only [Option.bind_eq_bind, Option.bind_some, pure, Option.some.injEq, Gpu.mk.injEq, true_and,
      and_true]
    funext i
    by_cases hi : 0 ≤ i
    · obtain ⟨k, rfl⟩ := Int.eq_ofNat_of_zero_le hi
      rw [if_pos hi]
      by_cases hk : (k : ℤ) < launched N
      · rw [if_pos ⟨hi, hk⟩]
        simp [pyRange, show k < (launched N).toNat by omega]
      · rw [if_neg (by omega)]
        simp [pyRange, show ¬ k < (launched N).toNat by omega]
    · rw [if_neg hi, if_neg (by omega)]
  all_goals constructor <;> omega

theorem launched_lt {N : ℤ} (h0 : 0 ≤ N) (h1 : N + 128 < 2 ^ 31) : launched N < 2 ^ 31 := by
  unfold launched
  rw [Int.tdiv_eq_ediv_of_nonneg (by omega)]; omega

theorem launchFolding_eq {n L : ℤ} (hn : 1 ≤ n) (hL : 2 * n ≤ L)
    (hB : 2 * L * (4 * n - 1) + 128 < 2 ^ 31) (data out : ℤ → ℂ) (shift : Bool) (regs : ℤ → Regs) :
    launchFolding data n L shift out regs = some
      { mem := fun a => if a.2 then (out a.1).im else (out a.1).re
        todo := fun i => if 0 ≤ i ∧ i < 4 * n - 1 then foldP data n L shift i else []
        regs := regs } := by
  have hn' : n < 14000 := by nlinarith
  unfold launchFolding
  rw [i32_bind, i32_bind]
  · rw [launch_eq _ (fun i => if i < 4 * n - 1 then foldP data n L shift i else []) (by omega) (by omega)]
    · congr 2
      funext i
      have := le_launched (show 0 ≤ 4 * n - 1 by omega)
      split_ifs <;> first | rfl | omega
    · intro i h0 h1
      have := launched_lt (N := 4 * n - 1) (by omega) (by omega)
      split_ifs with h
      · exact foldingProg_eq hn hL hB data shift h0 h
      · exact foldingProg_idle hn hL hB data shift (by omega) (by omega)
  all_goals constructor <;> omega

theorem launchExtension_eq {n L : ℤ} (hn : 1 ≤ n) (hL : 2 * n ≤ L)
    (hB : 2 * L * (4 * n - 1) + 128 < 2 ^ 31) (data out : ℤ → ℂ) (regs : ℤ → Regs) :
    launchExtension data n L out regs = some
      { mem := fun a => if a.2 then (out a.1).im else (out a.1).re
        todo := fun i => if 0 ≤ i ∧ i < 2 * L * (4 * n - 1) then extP data n L i else []
        regs := regs } := by
  have hn' : n < 14000 := by nlinarith
  have hL' : 6 * L < 2 ^ 31 := by nlinarith
  have hN : 0 ≤ 2 * L * (4 * n - 1) := mul_nonneg (by omega) (by omega)
  unfold launchExtension
  rw [i32_bind, i32_bind, i32_bind, i32_bind]
  · rw [launch_eq _ (fun i => if i < 2 * L * (4 * n - 1) then extP data n L i else []) hN hB]
    · congr 2
      funext i
      have := le_launched hN
      split_ifs <;> first | rfl | omega
    · intro i h0 h1
      have := launched_lt hN hB
      split_ifs with h
      · exact extensionProg_eq hn hL hB data h0 h
      · exact extensionProg_idle hn hL hB data (by omega) (by omega)
  all_goals constructor <;> omega

/-- The sums of the folding kernel in terms of orders. -/
theorem foldSum_orders {n L t p : ℤ} (ftm : ℤ → ℂ) (hp0 : 0 ≤ p) (hp1 : p < ringSize n t) :
    foldSum (fun k => ftm (t * (2 * L) + k)) (ringSize n t) L
        ((p + ringSize n t / 2) % ringSize n t)
      = ∑ m ∈ (Finset.Ico (-L) L).filter (fun m => m % ringSize n t = p),
          ftm (t * (2 * L) + (m + L)) := by
  unfold foldSum
  refine Finset.sum_bij (fun k _ => k - L) ?_ ?_ ?_ ?_
  · intro k hk
    simp only [Finset.mem_filter, Finset.mem_Ico] at hk ⊢
    refine ⟨by omega, ?_⟩
    have h := hk.2
    rw [show k - (L - ringSize n t / 2) = (k - L) + ringSize n t / 2 by ring] at h
    have h2 : (k - L) ≡ p [ZMOD ringSize n t] :=
      Int.ModEq.add_right_cancel' (ringSize n t / 2) h
    exact (h2.eq).trans (Int.emod_eq_of_lt hp0 hp1)
  · intro a _ b _ h; simpa using h
  · intro m hm
    simp only [Finset.mem_filter, Finset.mem_Ico] at hm
    refine ⟨m + L, ?_, by ring⟩
    simp only [Finset.mem_filter, Finset.mem_Ico]
    refine ⟨by omega, ?_⟩
    rw [show m + L - (L - ringSize n t / 2) = m + ringSize n t / 2 by ring]
    have : m ≡ p [ZMOD ringSize n t] := hm.2.trans (Int.emod_eq_of_lt hp0 hp1).symm
    exact this.add_right _
  · intro k _
    congr 2; ring

/-! ## Overflow -/

theorem i32_cases (x : ℤ) : i32 x = none ∨ i32 x = some x := by
  unfold i32; split_ifs <;> simp

theorem bind_none {α : Type} {x : ℤ} {f : ℤ → Option α} (h : i32 x = some x → f x = none) :
    (i32 x >>= f) = none := by
  rcases i32_cases x with e | e
  · rw [e]; rfl
  · rw [e]; exact h e

theorem computeNphi32_none {n t : ℤ} (hB : 2 ^ 31 ≤ 12 * n * n) : computeNphi32 n t = none := by
  unfold computeNphi32
  rcases i32_cases (12 * n) with h | h
  · rw [h]; rfl
  · have : i32 (12 * n * n) = none := if_neg (by omega)
    simp only [h, this, Option.bind_eq_bind, Option.bind_some, Option.bind_none]

theorem foldingProg_none {n L : ℤ} (hn : 1 ≤ n) (hB : 2 ^ 31 ≤ 12 * n * n) (data : ℤ → ℂ)
    (shift : Bool) : foldingProg data n L shift 0 = none := by
  unfold foldingProg
  refine bind_none fun h0 => bind_none fun h1 => bind_none fun h2 => ?_
  rw [if_neg (by omega), computeNphi32_none hB]
  rfl

theorem extensionProg_none {n L : ℤ} (hn : 1 ≤ n) (hL : 1 ≤ L) (hB : 2 ^ 31 ≤ 12 * n * n)
    (data : ℤ → ℂ) : extensionProg data n L 0 = none := by
  have : 0 < (4 * n - 1) * (2 * L) := mul_pos (by omega) (by omega)
  unfold extensionProg
  refine bind_none fun h3 => bind_none fun h0 => bind_none fun h1 => bind_none fun h2 =>
    bind_none fun h4 => ?_
  rw [if_neg (by omega), if_neg (by omega), show (0 : ℤ).tdiv (2 * L) = 0 from Int.zero_tdiv _]
  show (computeNphi32 n 0 >>= _) = none
  rw [computeNphi32_none hB]
  rfl

theorem launch_none (prog : ℤ → Option (List Instr)) {N : ℤ} (h0 : 0 < N) (h : prog 0 = none)
    (out : ℤ → ℂ) (regs : ℤ → Regs) : launch prog N out regs = none := by
  unfold launch
  refine bind_none fun h1 => bind_none fun h2 => ?_
  have e : pyRange ((N + 128 - 1).tdiv 128 * 128)
      = 0 :: (List.range (((N + 128 - 1).tdiv 128 * 128).toNat - 1)).map fun k : ℕ => ((k + 1 : ℕ) : ℤ) := by
    have hl := le_launched h0.le
    unfold launched at hl
    obtain ⟨k, hk⟩ : ∃ k, ((N + 128 - 1).tdiv 128 * 128).toNat = k + 1 :=
      ⟨((N + 128 - 1).tdiv 128 * 128).toNat - 1, by omega⟩
    unfold pyRange
    rw [hk, List.range_succ_eq_map]
    simp [List.map_map, Function.comp_def]
  simp only
  rw [e, List.mapM_cons, h]
  rfl

theorem launchFolding_none {n L : ℤ} (hn : 1 ≤ n) (hB : 2 ^ 31 ≤ 12 * n * n) (data out : ℤ → ℂ)
    (shift : Bool) (regs : ℤ → Regs) : launchFolding data n L shift out regs = none := by
  unfold launchFolding
  exact bind_none fun h1 => bind_none fun h2 =>
    launch_none _ (by omega) (foldingProg_none hn hB data shift) out regs

theorem launchExtension_none {n L : ℤ} (hn : 1 ≤ n) (hL : 1 ≤ L) (hB : 2 ^ 31 ≤ 12 * n * n)
    (data out : ℤ → ℂ) (regs : ℤ → Regs) : launchExtension data n L out regs = none := by
  unfold launchExtension
  exact bind_none fun h1 => bind_none fun h2 => bind_none fun h3 => bind_none fun h4 =>
    launch_none _ (mul_pos (by omega) (by omega)) (extensionProg_none hn hL hB data) out regs

end S2fft.Cuda
