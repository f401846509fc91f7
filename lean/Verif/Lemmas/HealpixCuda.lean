import Verif.Lemmas.HealpixRings
import Verif.Lemmas.Loops
import Verif.Model.HealpixCuda

/-! # The CUDA kernels and executors, ring by ring -/

namespace S2fft.Cuda
open Spec

theorem cmodFix_eq {a n : ℤ} (hn : 0 < n) : cmodFix a n = a % n := by
  unfold cmodFix
  simp only
  have h0 := Int.emod_nonneg a hn.ne'
  have h1 := Int.emod_lt_of_pos a hn
  rw [Int.tmod_eq_emod]
  split_ifs with h2 h3 h3 <;> omega

theorem ringStart_first {n t : ℤ} (h0 : 0 ≤ t) (h1 : t ≤ n) :
    ringStart n t = t * (t + 1) * 2 := by
  obtain ⟨k, rfl⟩ := Int.eq_ofNat_of_zero_le h0
  rw [ringStart_north n k h1]; ring

theorem ringStart_second {n t : ℤ} (h0 : 0 ≤ n) (h1 : n ≤ t) (h2 : t ≤ 3 * n) :
    ringStart n t = 2 * n * (n + 1) + 4 * n * (t - n) := by
  obtain ⟨k, hk⟩ := Int.eq_ofNat_of_zero_le (show 0 ≤ t - n by omega)
  have := ringStart_mid n h0 k (by omega)
  rw [← hk, add_sub_cancel] at this
  exact this

theorem ringStart_third {n t : ℤ} (h0 : 0 ≤ n) (h1 : 3 * n ≤ t) (h2 : t < 4 * n) :
    ringStart n t = 12 * n ^ 2 - 2 * (4 * n - 1 - t) * (4 * n - t) := by
  obtain ⟨k, hk⟩ := Int.eq_ofNat_of_zero_le (show 0 ≤ t - 3 * n by omega)
  have := ringStart_south n h0 k (by omega)
  rw [← hk, add_sub_cancel] at this
  rw [this]; ring

theorem computeNphi_eq {n t : ℤ} (hn : 1 ≤ n) (h0 : 0 ≤ t) (h1 : t < 4 * n - 1) :
    computeNphi n t = (ringSize n t, ringStart n t) := by
  unfold computeNphi
  simp only
  split_ifs with h2 h3 h4
  · rw [ringSize_north (by omega) h0, ringStart_first h0 (by omega)]
  · omega
  · rw [ringSize_south (by omega) (by omega), ringStart_third (by omega) (by omega) (by omega)]
    congr 1; ring
  · rw [ringSize_mid (by omega) (by omega)]
    congr 1
    rcases lt_or_ge t n with h | h
    · rw [ringStart_first h0 (by omega)]
      have : t = n - 1 := by omega
      subst this; ring
    · rw [ringStart_second (by omega) h (by omega)]; ring

/-- Pixels of different rings are different. -/
theorem ring_disjoint {n s t q p : ℤ} (hs0 : 0 ≤ s) (hs1 : s < 4 * n - 1) (ht0 : 0 ≤ t)
    (ht1 : t < 4 * n - 1) (hq0 : 0 ≤ q) (hq1 : q < ringSize n s) (hp0 : 0 ≤ p)
    (hp1 : p < ringSize n t) (h : ringStart n s + q = ringStart n t + p) : s = t ∧ q = p := by
  rcases lt_trichotomy s t with h' | h' | h'
  · have := ringStart_mono (n := n) (show 0 ≤ s + 1 by omega) (show s + 1 ≤ t by omega) (by omega)
    rw [ringStart_succ n s hs0] at this; omega
  · subst h'; exact ⟨rfl, by omega⟩
  · have := ringStart_mono (n := n) (show 0 ≤ t + 1 by omega) (show t + 1 ≤ s by omega) (by omega)
    rw [ringStart_succ n t ht0] at this; omega

/-! ## Kernels -/

theorem swap_loop (o : ℤ → ℂ) (off half : ℤ) (hh : 0 ≤ half) (x : ℤ) :
    forRange 0 half (fun i o => swap o (i + off) (i + off + half)) o x
      = if off ≤ x ∧ x < off + half then o (x + half)
        else if off + half ≤ x ∧ x < off + half + half then o (x - half) else o x := by
  have := forRange_ind hh (fun i o => swap o (i + off) (i + off + half)) o
    (fun j o' => ∀ x, o' x = if off ≤ x ∧ x < off + j then o (x + half)
        else if off + half ≤ x ∧ x < off + half + j then o (x - half) else o x)
    (by intro x; rw [if_neg (by omega), if_neg (by omega)])
    (by
      intro i o' h1 h2 h3 x
      simp only [swap, set1]
      rcases eq_or_ne x (i + off + half) with h | h
      · rw [if_pos h, h3, if_neg (by omega), if_neg (by omega), if_neg (by omega),
          if_pos (by omega)]
        congr 1; omega
      · rw [if_neg h]
        rcases eq_or_ne x (i + off) with h' | h'
        · rw [if_pos h', h3, if_neg (by omega), if_neg (by omega), if_pos (by omega)]
          congr 1; omega
        · rw [if_neg h', h3]
          congr 1
          · apply propext; omega
          · congr 1; apply propext; omega)
  exact this x

theorem runThreads_write (thread : ℤ → (ℤ → ℂ) → ℤ → ℂ) (sched : List ℤ) (out : ℤ → ℂ)
    (x t : ℤ) (v : ℂ) (ht : t ∈ sched) (hw : ∀ o, thread t o x = v)
    (hf : ∀ s ∈ sched, s ≠ t → ∀ o, thread s o x = o x) :
    runThreads thread sched out x = v := by
  have aux : ∀ (l : List ℤ) (o : ℤ → ℂ), (∀ s ∈ l, s ≠ t → ∀ o, thread s o x = o x) →
      (t ∈ l ∨ o x = v) → l.foldl (fun o i => thread i o) o x = v := by
    intro l
    induction l with
    | nil => intro o _ h; simpa using h
    | cons s l ih =>
      intro o h1 h2
      rw [List.foldl_cons]
      apply ih _ (fun s hs => h1 s (List.mem_cons_of_mem _ hs))
      by_cases hst : s = t
      · right; rw [hst]; exact hw o
      · rcases h2 with h2 | h2
        · left
          rcases List.mem_cons.1 h2 with h3 | h3
          · exact absurd h3.symm hst
          · exact h3
        · right; rw [h1 s List.mem_cons_self hst]; exact h2
  exact aux sched out hf (Or.inl ht)

theorem mem_pyRange {n k : ℤ} : k ∈ pyRange n ↔ 0 ≤ k ∧ k < n := by
  unfold pyRange
  simp only [List.mem_map, List.mem_range]
  constructor
  · rintro ⟨a, ha, rfl⟩; omega
  · rintro ⟨h0, h1⟩; exact ⟨k.toNat, by omega, by omega⟩

theorem le_launched {n : ℤ} (h : 0 ≤ n) : n ≤ launched n := by
  unfold launched
  rw [Int.tdiv_eq_ediv_of_nonneg (by omega)]; omega

theorem sched_mem {n : ℤ} {sched : List ℤ} (h : ValidSched n sched) {i : ℤ} :
    i ∈ sched ↔ 0 ≤ i ∧ i < launched n := by
  rw [List.Perm.mem_iff h, mem_pyRange]

theorem folding_thread_ring {nside L : ℤ} (hn : 1 ≤ nside) (hL : 2 * nside ≤ L) (data : ℤ → ℂ)
    (shift : Bool) {t p : ℤ} (h0 : 0 ≤ t) (h1 : t < 4 * nside - 1) (hp0 : 0 ≤ p)
    (hp1 : p < ringSize nside t) (o : ℤ → ℂ) :
    folding_thread data nside L shift t o (ringStart nside t + p)
      = foldSum (fun k => data (t * (2 * L) + k)) (ringSize nside t) L
          (if shift then (p + ringSize nside t / 2) % ringSize nside t else p) := by
  have hpos := ringSize_pos h0 h1
  have heven := ringSize_even nside t
  have hle := ringSize_le nside t
  unfold folding_thread
  rw [if_neg (by omega), computeNphi_eq hn h0 h1]
  simp only
  set n := ringSize nside t with hnn
  rw [Int.tdiv_eq_ediv_of_nonneg hpos.le]
  have hmain : ∀ q, 0 ≤ q → q < n →
      forRange 0 (L - n / 2)
        (fun i o => add1 o (cmodFix i n + ringStart nside t)
          (data (L - n / 2 + n + i + t * (2 * L))))
        (forRange 0 (L - n / 2)
          (fun i o => add1 o (cmodFix (-(1 + i)) n + ringStart nside t)
            (data (L - n / 2 - (1 + i) + t * (2 * L))))
          (forRange 0 n
            (fun i o => set1 o (i + ringStart nside t) (data (i + t * (2 * L) + (L - n / 2)))) o))
        (ringStart nside t + q)
      = foldSum (fun k => data (t * (2 * L) + k)) n L q := by
    intro q hq0 hq1
    rw [add1_loop, add1_loop]
    have e0 : forRange 0 n (fun i o => set1 o (i + ringStart nside t)
        (data (i + t * (2 * L) + (L - n / 2)))) o (ringStart nside t + q)
        = data (t * (2 * L) + (L - n / 2 + q)) := by
      apply forRange_write (get := fun g : ℤ → ℂ => g (ringStart nside t + q)) (k := q)
        (h1 := hq0) (h2 := hq1)
      · intro g; simp only [set1]; rw [if_pos (by omega)]; congr 1; ring
      · intro i g _ _ hne; simp only [set1]; rw [if_neg (by omega)]
    rw [e0]
    unfold foldSum
    rw [← fold_parts hpos (by omega) hq0 hq1]
    congr 1
    · congr 1
      have := sum_Ico_shift 0 (L - n / 2) 1
        (fun k => if (-k) % n = q then data (t * (2 * L) + (L - n / 2 - k)) else 0)
      rw [zero_add] at this
      rw [this]
      apply Finset.sum_congr rfl; intro i _
      rw [cmodFix_eq hpos, show -(1 + i) = -(i + 1) by ring]
      have e : ((-(i + 1)) % n + ringStart nside t = ringStart nside t + q)
          ↔ ((-(i + 1)) % n = q) := by constructor <;> intro h <;> omega
      simp only [e]
      congr 2; ring
    · rw [show 2 * L - (L - n / 2 + n) = L - n / 2 by omega]
      apply Finset.sum_congr rfl; intro i _
      rw [cmodFix_eq hpos]
      have e : (i % n + ringStart nside t = ringStart nside t + q)
          ↔ (i % n = q) := by constructor <;> intro h <;> omega
      simp only [e]
      congr 2; ring
  cases shift with
  | false =>
    simp only [Bool.false_eq_true, if_false]
    exact hmain p hp0 hp1
  | true =>
    simp only [if_true]
    rw [swap_loop _ _ _ (by omega)]
    rcases lt_or_ge p (n / 2) with h | h
    · rw [if_pos (by omega), Int.emod_eq_of_lt (by omega) (by omega), add_assoc]
      exact hmain _ (by omega) (by omega)
    · rw [if_neg (by omega), if_pos (by omega)]
      have : (p + n / 2) % n = p - n / 2 := by
        rw [show p + n / 2 = (p - n / 2) + n by omega, Int.add_emod_right,
          Int.emod_eq_of_lt (by omega) (by omega)]
      rw [this, add_sub_assoc]
      exact hmain _ (by omega) (by omega)

theorem folding_thread_frame {nside L : ℤ} (hn : 1 ≤ nside) (hL : 2 * nside ≤ L) (data : ℤ → ℂ)
    (shift : Bool) {s t p : ℤ} (hs : 0 ≤ s) (hst : s ≠ t) (h0 : 0 ≤ t) (h1 : t < 4 * nside - 1)
    (hp0 : 0 ≤ p) (hp1 : p < ringSize nside t) (o : ℤ → ℂ) :
    folding_thread data nside L shift s o (ringStart nside t + p) = o (ringStart nside t + p) := by
  unfold folding_thread
  by_cases hc : s ≥ 4 * nside - 1
  · rw [if_pos hc]
  · rw [if_neg hc]
    have hs1 : s < 4 * nside - 1 := by omega
    have hpos := ringSize_pos hs hs1
    have heven := ringSize_even nside s
    rw [computeNphi_eq hn hs hs1]
    simp only
    have hne : ∀ q, 0 ≤ q → q < ringSize nside s →
        q + ringStart nside s ≠ ringStart nside t + p := by
      intro q hq0 hq1 h
      exact hst (ring_disjoint hs hs1 h0 h1 hq0 hq1 hp0 hp1 (by omega)).1
    have hhalf : Int.tdiv (ringSize nside s) 2 = ringSize nside s / 2 :=
      Int.tdiv_eq_ediv_of_nonneg hpos.le
    have hmain : ∀ a b c d (g : ℤ → ℂ),
      forRange a b
        (fun i o => add1 o (cmodFix i (ringSize nside s) + ringStart nside s)
          (data (L - (ringSize nside s).tdiv 2 + ringSize nside s + i + s * (2 * L))))
        (forRange c d
          (fun i o => add1 o (cmodFix (-(1 + i)) (ringSize nside s) + ringStart nside s)
            (data (L - (ringSize nside s).tdiv 2 - (1 + i) + s * (2 * L)))) g)
        (ringStart nside t + p) = g (ringStart nside t + p) := by
      intro a b c d g
      rw [add1_loop, add1_loop]
      rw [Finset.sum_eq_zero, Finset.sum_eq_zero]
      · simp
      · intro i _
        rw [cmodFix_eq hpos]
        rw [if_neg (hne _ (Int.emod_nonneg _ hpos.ne') (Int.emod_lt_of_pos _ hpos))]
      · intro i _
        rw [cmodFix_eq hpos]
        rw [if_neg (hne _ (Int.emod_nonneg _ hpos.ne') (Int.emod_lt_of_pos _ hpos))]
    have hset : forRange 0 (ringSize nside s)
        (fun i o => set1 o (i + ringStart nside s)
          (data (i + s * (2 * L) + (L - (ringSize nside s).tdiv 2)))) o (ringStart nside t + p)
        = o (ringStart nside t + p) := by
      refine (forRange_frame _ _ _ _ (fun g : ℤ → ℂ => g (ringStart nside t + p)) ?_)
      intro i g hi0 hi1
      simp only [set1]
      rw [if_neg (fun h => hne i hi0 hi1 h.symm)]
    cases shift with
    | false =>
      simp only [Bool.false_eq_true, if_false]
      rw [hmain, hset]
    | true =>
      simp only [if_true]
      rw [hhalf, swap_loop _ _ _ (by omega)]
      rw [if_neg, if_neg]
      · rw [← hhalf, hmain, hset]
      · rintro ⟨ha, hb⟩
        exact hne (ringStart nside t + p - ringStart nside s) (by omega) (by omega) (by omega)
      · rintro ⟨ha, hb⟩
        exact hne (ringStart nside t + p - ringStart nside s) (by omega) (by omega) (by omega)

theorem launch_folding {nside L : ℤ} (hn : 1 ≤ nside) (hL : 2 * nside ≤ L) (data out : ℤ → ℂ)
    (shift : Bool) {sched : List ℤ} (hs : ValidSched (4 * nside - 1) sched)
    {t p : ℤ} (h0 : 0 ≤ t) (h1 : t < 4 * nside - 1) (hp0 : 0 ≤ p) (hp1 : p < ringSize nside t) :
    runThreads (folding_thread data nside L shift) sched out (ringStart nside t + p)
      = foldSum (fun k => data (t * (2 * L) + k)) (ringSize nside t) L
          (if shift then (p + ringSize nside t / 2) % ringSize nside t else p) := by
  apply runThreads_write _ _ _ _ t
  · rw [sched_mem hs]; have := le_launched (show 0 ≤ 4 * nside - 1 by omega); omega
  · intro o; exact folding_thread_ring hn hL data shift h0 h1 hp0 hp1 o
  · intro s hs' hst o
    rw [sched_mem hs] at hs'
    exact folding_thread_frame hn hL data shift hs'.1 hst h0 h1 hp0 hp1 o

theorem extension_thread_write {nside L : ℤ} (hn : 1 ≤ nside) (hL : 2 * nside ≤ L)
    (data : ℤ → ℂ) {t k : ℤ} (h0 : 0 ≤ t) (h1 : t < 4 * nside - 1) (hk0 : 0 ≤ k)
    (hk1 : k < 2 * L) (o : ℤ → ℂ) :
    extension_thread data nside L (t * (2 * L) + k) o (t * (2 * L) + k)
      = data (ringStart nside t + (k - (L - ringSize nside t / 2)) % ringSize nside t) := by
  have hpos := ringSize_pos h0 h1
  have heven := ringSize_even nside t
  have hle := ringSize_le nside t
  unfold extension_thread
  simp only
  have hnn : 0 ≤ t * (2 * L) + k := by
    have : 0 ≤ t * (2 * L) := mul_nonneg h0 (by omega)
    omega
  rw [if_neg (by nlinarith), Int.tdiv_eq_ediv_of_nonneg hnn, Int.tmod_eq_emod_of_nonneg hnn]
  have e1 : (t * (2 * L) + k) / (2 * L) = t := by
    rw [add_comm, Int.add_mul_ediv_right _ _ (by omega), Int.ediv_eq_zero_of_lt hk0 hk1, zero_add]
  have e2 : (t * (2 * L) + k) % (2 * L) = k := by
    rw [add_comm, Int.add_mul_emod_self_right, Int.emod_eq_of_lt hk0 hk1]
  rw [e1, e2, computeNphi_eq hn h0 h1]
  simp only
  set n := ringSize nside t
  rw [Int.tdiv_eq_ediv_of_nonneg hpos.le, Int.tdiv_eq_ediv_of_nonneg (show 0 ≤ n + 1 by omega)]
  split_ifs with a b
  · rw [set1_same, cmodFix_eq hpos]
    congr 1
    rw [show -(L - n / 2 - k) = k - (L - n / 2) by ring, add_comm]
  · rw [set1_same, Int.emod_eq_of_lt (by omega) (by omega), add_comm]
  · rw [set1_same, cmodFix_eq hpos]
    congr 1
    rw [show L - (n + 1) / 2 - (2 * L - k) = k - (L - n / 2) - n by omega, Int.sub_emod_right,
      add_comm]

theorem extension_thread_frame (data : ℤ → ℂ) (nside L s x : ℤ) (h : s ≠ x) (o : ℤ → ℂ) :
    extension_thread data nside L s o x = o x := by
  unfold extension_thread
  simp only
  split_ifs
  · rfl
  all_goals exact set1_ne _ _ h.symm

theorem launch_extension {nside L : ℤ} (hn : 1 ≤ nside) (hL : 2 * nside ≤ L) (data out : ℤ → ℂ)
    {sched : List ℤ} (hs : ValidSched (2 * L * (4 * nside - 1)) sched)
    {t k : ℤ} (h0 : 0 ≤ t) (h1 : t < 4 * nside - 1) (hk0 : 0 ≤ k) (hk1 : k < 2 * L) :
    runThreads (extension_thread data nside L) sched out (t * (2 * L) + k)
      = data (ringStart nside t + (k - (L - ringSize nside t / 2)) % ringSize nside t) := by
  apply runThreads_write _ _ _ _ (t * (2 * L) + k)
  · rw [sched_mem hs]
    have := le_launched (show 0 ≤ 2 * L * (4 * nside - 1) by nlinarith)
    have h2 : 0 ≤ t * (2 * L) := mul_nonneg h0 (by omega)
    exact ⟨by omega, by nlinarith⟩
  · intro o; exact extension_thread_write hn hL data h0 h1 hk0 hk1 o
  · intro s _ hst o
    exact extension_thread_frame data nside L s _ hst o

/-! ## Plans and executors -/

/-- Index maps of the callbacks inside one batch member. -/
theorem cb_index {cb : Callback} {n dist b j : ℤ} (hn : 0 < n) (hb : 0 ≤ b)
    (hd : n ≤ dist) (hbd : cb.equator = false → b < 2) (hbe : cb.equator = true → dist = n)
    (hj0 : 0 ≤ j) (hj1 : j < n) :
    cb.index n dist (b * dist + j) = b * dist + if cb.shift then (j + n / 2) % n else j := by
  unfold Callback.index
  cases hsh : cb.shift with
  | false => simp
  | true =>
    simp only [if_true]
    cases heq : cb.equator with
    | true =>
      simp only [if_true]
      have hdn := hbe heq
      subst hdn
      unfold fft_shift_eq
      simp only
      have hnn : 0 ≤ b * dist + j := by positivity
      have hq : (b * dist + j) / dist = b := by
        rw [add_comm, Int.add_mul_ediv_right _ _ (by omega), Int.ediv_eq_zero_of_lt hj0 hj1, zero_add]
      have hr : (b * dist + j) % dist = j := by
        rw [add_comm, Int.add_mul_emod_self_right, Int.emod_eq_of_lt hj0 hj1]
      rw [Int.tdiv_eq_ediv_of_nonneg hnn, Int.tmod_eq_emod_of_nonneg hnn, hq, hr,
        Int.tdiv_eq_ediv_of_nonneg (show 0 ≤ dist by omega), Int.tmod_eq_emod_of_nonneg (by positivity),
        add_assoc, add_comm (b * dist), Int.add_mul_emod_self_right, add_comm]
    | false =>
      have hb2 := hbd heq
      simp only [Bool.false_eq_true, if_false]
      unfold fft_shift
      simp only
      rw [Int.tdiv_eq_ediv_of_nonneg hn.le]
      rcases (show b = 0 ∨ b = 1 by omega) with rfl | rfl
      · rw [if_pos (by omega), Int.tmod_eq_emod_of_nonneg (by omega)]; ring_nf
      · rw [if_neg (by omega), show 1 * dist + j - dist + n / 2 = j + n / 2 by ring,
          Int.tmod_eq_emod_of_nonneg (by omega)]; ring_nf

/-- Unnormalised transform in the given direction. -/
noncomputable def dft (fwd : Bool) (n : ℤ) (x : ℤ → ℂ) (j : ℤ) : ℂ :=
  if fwd then fft n x j else ifft_fwd n x j

/-- The position read back from a store position. -/
def unshift (shift : Bool) (n p : ℤ) : ℤ := if shift then (p - n / 2) % n else p

theorem plan_exec_in {pl : Plan} (fwd : Bool) (base : ℤ) (data : ℤ → ℂ) {b p : ℤ}
    (hn : 0 < pl.n) (hd : pl.n ≤ pl.dist)
    (hbd : pl.cb.equator = false → pl.batch ≤ 2) (hbe : pl.cb.equator = true → pl.dist = pl.n)
    (hb0 : 0 ≤ b) (hb1 : b < pl.batch) (hp0 : 0 ≤ p) (hp1 : p < pl.n) :
    pl.exec fwd base data (base + (b * pl.dist + p))
      = dft fwd pl.n (fun k => data (base + (b * pl.dist + k))) (unshift pl.cb.shift pl.n p)
          * pl.cb.factor pl.n := by
  have hidx : ∀ c j, 0 ≤ c → c < pl.batch → 0 ≤ j → j < pl.n →
      pl.cb.index pl.n pl.dist (c * pl.dist + j)
        = c * pl.dist + if pl.cb.shift then (j + pl.n / 2) % pl.n else j := by
    intro c j hc0 hc1 hj0 hj1
    exact cb_index hn hc0 hd (fun h => by have := hbd h; omega) hbe hj0 hj1
  have hj0 : 0 ≤ unshift pl.cb.shift pl.n p := by
    unfold unshift; split_ifs
    · exact Int.emod_nonneg _ hn.ne'
    · exact hp0
  have hj1 : unshift pl.cb.shift pl.n p < pl.n := by
    unfold unshift; split_ifs
    · exact Int.emod_lt_of_pos _ hn
    · exact hp1
  have hback : (if pl.cb.shift then (unshift pl.cb.shift pl.n p + pl.n / 2) % pl.n
      else unshift pl.cb.shift pl.n p) = p := by
    unfold unshift
    split_ifs
    · rw [Int.emod_add_emod, sub_add_cancel, Int.emod_eq_of_lt hp0 hp1]
    · rfl
  unfold Plan.exec
  apply forRange2_write (get := fun g : ℤ → ℂ => g (base + (b * pl.dist + p)))
    (lo2 := fun _ => 0) (hi2 := fun _ => pl.n) (k1 := b)
    (k2 := unshift pl.cb.shift pl.n p) (h1 := hb0) (h2 := hb1) (h3 := hj0) (h4 := hj1)
  · intro g
    simp only [set1]
    rw [hidx b _ hb0 hb1 hj0 hj1, hback, if_pos rfl]
    rfl
  · intro c j g hc0 hc1 hj0' hj1' hne
    simp only [set1]
    rw [hidx c j hc0 hc1 hj0' hj1', if_neg]
    intro h
    set r := (if pl.cb.shift then (j + pl.n / 2) % pl.n else j) with hr
    have hr0 : 0 ≤ r := by rw [hr]; split_ifs; exacts [Int.emod_nonneg _ hn.ne', hj0']
    have hr1 : r < pl.n := by rw [hr]; split_ifs; exacts [Int.emod_lt_of_pos _ hn, hj1']
    have hcb : c = b := by
      rcases lt_trichotomy c b with h' | h' | h'
      · nlinarith
      · exact h'
      · nlinarith
    subst hcb
    have hrp : r = p := by omega
    rcases hne with h' | h'
    · exact h' rfl
    · apply h'
      unfold unshift
      cases hsh : pl.cb.shift with
      | false => rw [hsh] at hr; simp only [Bool.false_eq_true, if_false] at hr ⊢; omega
      | true =>
        rw [hsh] at hr; simp only [if_true] at hr ⊢
        rw [← hrp, hr, Int.emod_sub_emod, add_sub_cancel_right, Int.emod_eq_of_lt hj0' hj1']

theorem plan_exec_frame {pl : Plan} (fwd : Bool) (base : ℤ) (data : ℤ → ℂ) {x : ℤ}
    (hn : 0 < pl.n) (hd : pl.n ≤ pl.dist)
    (hbd : pl.cb.equator = false → pl.batch ≤ 2) (hbe : pl.cb.equator = true → pl.dist = pl.n)
    (hx : ∀ b p, 0 ≤ b → b < pl.batch → 0 ≤ p → p < pl.n → x ≠ base + (b * pl.dist + p)) :
    pl.exec fwd base data x = data x := by
  unfold Plan.exec
  refine forRange2_frame 0 pl.batch (fun _ => 0) (fun _ => pl.n) _ data
    (fun g : ℤ → ℂ => g x) ?_
  intro c j g hc0 hc1 hj0 hj1
  simp only [set1]
  rw [cb_index hn hc0 hd (fun h => by have := hbd h; omega) hbe hj0 hj1, if_neg]
  apply hx c _ hc0 hc1
  · split_ifs; exacts [Int.emod_nonneg _ hn.ne', hj0]
  · split_ifs; exacts [Int.emod_lt_of_pos _ hn, hj1]

/-- The callback of a plan of the executor for `d`. -/
def cbFor (d : Descriptor) (equator fwd : Bool) : Callback :=
  if fwd then (setCallback d.shift equator d.norm).1 else (setCallback d.shift equator d.norm).2

theorem cbFor_equator (d : Descriptor) (q fwd : Bool) : (cbFor d q fwd).equator = q := by
  unfold cbFor setCallback
  cases fwd <;> cases d.norm <;> rfl

theorem cbFor_shift (d : Descriptor) (q fwd : Bool) : (cbFor d q fwd).shift = (fwd && d.shift) := by
  unfold cbFor setCallback
  cases fwd <;> cases d.norm <;> simp

theorem cbFor_factor (d : Descriptor) (q q' fwd : Bool) (n : ℤ) :
    (cbFor d q fwd).factor n = (cbFor d q' fwd).factor n := by
  unfold cbFor setCallback Callback.factor
  cases fwd <;> cases d.norm <;> rfl

/-- The executor is ready for `d`: the entries that `Forward`/`Backward` use are those of a fresh
initialisation. -/
structure Good (d : Descriptor) (e : Exec) : Prop where
  nside : e.nside = d.nside
  upper : ∀ i : ℕ, (i : ℤ) < d.nside - 1 → e.upper[i]? = some (ringStart d.nside i)
  lower : ∀ i : ℕ, (i : ℤ) < d.nside - 1 →
    e.lower[i]? = some (ringStart d.nside (4 * d.nside - 2 - i))
  polar : ∀ i : ℕ, (i : ℤ) < d.nside - 1 → e.polar_plans[i]? = some
    ⟨4 * ((i : ℤ) + 1), ringStart d.nside (4 * d.nside - 2 - i) - ringStart d.nside i, 2,
      cbFor d false true⟩
  inverse_polar : ∀ i : ℕ, (i : ℤ) < d.nside - 1 → e.inverse_polar_plans[i]? = some
    ⟨4 * ((i : ℤ) + 1), ringStart d.nside (4 * d.nside - 2 - i) - ringStart d.nside i, 2,
      cbFor d false false⟩
  equator : e.equator_plan = some
    ⟨4 * d.nside, 4 * d.nside, 2 * d.nside + 1, cbFor d true true⟩
  inverse_equator : e.inverse_equator_plan = some
    ⟨4 * d.nside, 4 * d.nside, 2 * d.nside + 1, cbFor d true false⟩
  start : e.eq_start = ringStart d.nside (d.nside - 1)

theorem offsetsLoop_eq {nside : ℤ} (hn : 1 ≤ nside) (i : ℕ) (hi : (i : ℤ) ≤ nside - 1)
    (up lo : List ℤ) :
    offsetsLoop nside i (0, 12 * nside * nside, up, lo)
      = (ringStart nside i, ringStart nside (4 * nside - 1 - i),
         up ++ (List.range i).map (fun (j : ℕ) => ringStart nside j),
         lo ++ (List.range i).map (fun (j : ℕ) => ringStart nside (4 * nside - 2 - j))) := by
  induction i with
  | zero =>
    simp only [offsetsLoop, Nat.cast_zero, sub_zero, List.range_zero, List.map_nil,
      List.append_nil]
    rw [ringStart_total nside hn]
    simp [ringStart]; ring
  | succ i ih =>
    rw [Nat.cast_succ] at hi
    simp only [offsetsLoop, ih (by omega)]
    have a := ringStart_succ nside i (by omega)
    rw [ringSize_north (by omega) (by omega)] at a
    have b := ringStart_succ nside (4 * nside - 2 - i) (by omega)
    rw [ringSize_symm, ringSize_north (by omega) (by omega),
      show 4 * nside - 2 - (i : ℤ) + 1 = 4 * nside - 1 - i by ring] at b
    rw [List.range_succ, List.map_append, List.map_append, Nat.cast_succ]
    have c : ringStart nside (4 * nside - 1 - i) - 4 * ((i : ℤ) + 1)
        = ringStart nside (4 * nside - 2 - i) := by omega
    rw [c, ← a, show 4 * nside - 1 - ((i : ℤ) + 1) = 4 * nside - 2 - i by ring]
    simp

theorem eq_num_eq {n : ℤ} (hn : 1 ≤ n) :
    Int.tdiv (ringStart n (4 * n - 1 - (n - 1)) - ringStart n (n - 1)) (4 * n) = 2 * n + 1 := by
  rw [show 4 * n - 1 - (n - 1) = 3 * n by ring, ringStart_second (by omega) (by omega) le_rfl,
    ringStart_first (by omega) (by omega)]
  rw [show 2 * n * (n + 1) + 4 * n * (3 * n - n) - (n - 1) * (n - 1 + 1) * 2
    = (2 * n + 1) * (4 * n) by ring]
  exact Int.mul_tdiv_cancel _ (by omega)

/-- Entries of a vector that was empty, or whose leading entries were already right, after
pushing the right entries once more. -/
theorem getElem?_push {α : Type*} (l : List α) (n : ℕ) (g : ℕ → α)
    (hl : l = [] ∨ ∀ i < n, l[i]? = some (g i)) {i : ℕ} (hi : i < n) :
    (l ++ (List.range n).map g)[i]? = some (g i) := by
  rcases hl with rfl | hl
  · simp [hi]
  · have h := hl i hi
    have hlen : i < l.length := by
      by_contra hc
      rw [List.getElem?_eq_none (by omega)] at h; cases h
    rw [List.getElem?_append_left hlen]; exact h

theorem good_initialize {d : Descriptor} (hn : 1 ≤ d.nside) {e : Exec}
    (he : e = Exec.empty ∨ Good d e) : Good d (e.initialize d) := by
  have e1 : (((d.nside - 1).toNat : ℕ) : ℤ) = d.nside - 1 := by omega
  have hoff := offsetsLoop_eq hn (d.nside - 1).toNat (by omega) e.upper e.lower
  rw [e1] at hoff
  have hup : ∀ i < (d.nside - 1).toNat, (e.upper ++ (List.range (d.nside - 1).toNat).map
      (fun (j : ℕ) => ringStart d.nside j))[i]? = some (ringStart d.nside i) := by
    intro i hi
    refine getElem?_push _ _ (fun (j : ℕ) => ringStart d.nside j) ?_ hi
    rcases he with rfl | he
    · exact Or.inl rfl
    · exact Or.inr (fun j hj => he.upper j (by omega))
  have hlo : ∀ i < (d.nside - 1).toNat, (e.lower ++ (List.range (d.nside - 1).toNat).map
      (fun (j : ℕ) => ringStart d.nside (4 * d.nside - 2 - j)))[i]?
        = some (ringStart d.nside (4 * d.nside - 2 - i)) := by
    intro i hi
    refine getElem?_push _ _ (fun (j : ℕ) => ringStart d.nside (4 * d.nside - 2 - j)) ?_ hi
    rcases he with rfl | he
    · exact Or.inl rfl
    · exact Or.inr (fun j hj => he.lower j (by omega))
  have hmap : ∀ fwd, (List.range (d.nside - 1).toNat).map (fun (i : ℕ) =>
      ({ n := 4 * ((i : ℤ) + 1),
         dist := (e.lower ++ (List.range (d.nside - 1).toNat).map
            (fun (j : ℕ) => ringStart d.nside (4 * d.nside - 2 - j))).getD i 0
          - (e.upper ++ (List.range (d.nside - 1).toNat).map
            (fun (j : ℕ) => ringStart d.nside j)).getD i 0,
         batch := 2, cb := cbFor d false fwd } : Plan))
      = (List.range (d.nside - 1).toNat).map (fun (i : ℕ) =>
      ({ n := 4 * ((i : ℤ) + 1),
         dist := ringStart d.nside (4 * d.nside - 2 - i) - ringStart d.nside i,
         batch := 2, cb := cbFor d false fwd } : Plan)) := by
    intro fwd
    apply List.map_congr_left
    intro i hi
    rw [List.mem_range] at hi
    rw [List.getD_eq_getElem?_getD, List.getD_eq_getElem?_getD, hup i hi, hlo i hi]
    rfl
  unfold Exec.initialize
  simp only
  rw [hoff]
  simp only
  refine ⟨rfl, ?_, ?_, ?_, ?_, ?_, ?_, rfl⟩
  · intro i hi; exact hup i (by omega)
  · intro i hi; exact hlo i (by omega)
  · intro i hi
    have := hmap true
    simp only [cbFor, if_true] at this
    simp only
    rw [this]
    refine getElem?_push _ _ (fun (i : ℕ) =>
      ({ n := 4 * ((i : ℤ) + 1),
         dist := ringStart d.nside (4 * d.nside - 2 - i) - ringStart d.nside i,
         batch := 2, cb := cbFor d false true } : Plan)) ?_ (by omega)
    rcases he with rfl | he
    · exact Or.inl rfl
    · exact Or.inr (fun j hj => he.polar j (by omega))
  · intro i hi
    have := hmap false
    simp only [cbFor, Bool.false_eq_true, if_false] at this
    simp only
    rw [this]
    refine getElem?_push _ _ (fun (i : ℕ) =>
      ({ n := 4 * ((i : ℤ) + 1),
         dist := ringStart d.nside (4 * d.nside - 2 - i) - ringStart d.nside i,
         batch := 2, cb := cbFor d false false } : Plan)) ?_ (by omega)
    rcases he with rfl | he
    · exact Or.inl rfl
    · exact Or.inr (fun j hj => he.inverse_polar j (by omega))
  · rw [eq_num_eq hn]; rfl
  · rw [eq_num_eq hn]; rfl

/-- What a ready executor does to each ring. -/
theorem good_run {d : Descriptor} (hn : 1 ≤ d.nside) {e : Exec} (he : Good d e) (fwd : Bool)
    (data : ℤ → ℂ) {t p : ℤ} (h0 : 0 ≤ t) (h1 : t < 4 * d.nside - 1) (hp0 : 0 ≤ p)
    (hp1 : p < ringSize d.nside t) :
    e.run fwd data (ringStart d.nside t + p)
      = dft fwd (ringSize d.nside t) (fun k => data (ringStart d.nside t + k))
          (unshift (fwd && d.shift) (ringSize d.nside t) p)
        * (cbFor d false fwd).factor (ringSize d.nside t) := by
  set N := d.nside with hN
  set R : ℤ → ℤ → ℂ := fun t p => dft fwd (ringSize N t) (fun k => data (ringStart N t + k))
          (unshift (fwd && d.shift) (ringSize N t) p)
        * (cbFor d false fwd).factor (ringSize N t) with hR
  have hpolar : ∀ i : ℕ, (i : ℤ) < N - 1 →
      (if fwd then e.polar_plans else e.inverse_polar_plans)[i]? = some
        ⟨4 * ((i : ℤ) + 1), ringStart N (4 * N - 2 - i) - ringStart N i, 2, cbFor d false fwd⟩ := by
    intro i hi
    cases fwd with
    | true => simpa using he.polar i hi
    | false => simpa using he.inverse_polar i hi
  have heq : (if fwd then e.equator_plan else e.inverse_equator_plan) = some
        ⟨4 * N, 4 * N, 2 * N + 1, cbFor d true fwd⟩ := by
    cases fwd with
    | true => simpa using he.equator
    | false => simpa using he.inverse_equator
  unfold Exec.run
  rw [heq, he.nside, ← hN]
  simp only
  -- polar loop
  have loop := forRange_ind (show (0 : ℤ) ≤ N - 1 by omega)
    (e.polarStep fwd) data
    (fun i data' => ∀ t p, 0 ≤ t → t < 4 * N - 1 → 0 ≤ p → p < ringSize N t →
      data' (ringStart N t + p)
        = if t < i ∨ 4 * N - 2 - i < t then R t p else data (ringStart N t + p))
    (by intro t p a b _ _; rw [if_neg (by omega)])
    (by
      intro i data' hi0 hi1 ih t p ht0 ht1 hp0 hp1
      obtain ⟨k, rfl⟩ := Int.eq_ofNat_of_zero_le hi0
      simp only [Exec.polarStep, Int.toNat_natCast]
      rw [hpolar k hi1, he.upper k hi1]
      simp only
      have hk : ringSize N k = 4 * ((k : ℤ) + 1) := ringSize_north (by omega) (by omega)
      have hk' : ringSize N (4 * N - 2 - k) = 4 * ((k : ℤ) + 1) := by rw [ringSize_symm, hk]
      have hdist : 4 * ((k : ℤ) + 1) ≤ ringStart N (4 * N - 2 - k) - ringStart N k := by
        have a := ringStart_mono (n := N) (show 0 ≤ (k : ℤ) + 1 by omega)
          (show (k : ℤ) + 1 ≤ 4 * N - 2 - k by omega) (by omega)
        rw [ringStart_succ N k (by omega), hk] at a; omega
      have hcb := cbFor_equator d false fwd
      rcases eq_or_ne t k with rfl | h
      · rw [if_pos (by omega)]
        have := plan_exec_in (pl := ⟨4 * ((k : ℤ) + 1),
          ringStart N (4 * N - 2 - k) - ringStart N k, 2, cbFor d false fwd⟩) fwd
          (ringStart N k) data' (b := 0) (p := p) (by simp only; omega) hdist
          (fun _ => le_refl _) (fun h => by simp only at h; rw [hcb] at h; cases h)
          le_rfl (by simp) hp0 (by rw [hk] at hp1; exact hp1)
        simp only [zero_mul, zero_add] at this
        rw [this, hR, cbFor_shift]
        simp only
        rw [hk]
        congr 1
        unfold dft
        have hcong : ∀ q ∈ Finset.Ico 0 (4 * ((k : ℤ) + 1)),
            data' (ringStart N k + q) = data (ringStart N k + q) := by
          intro q hq
          simp only [Finset.mem_Ico] at hq
          rw [ih k q (by omega) (by omega) hq.1 (by rw [hk]; exact hq.2), if_neg (by omega)]
        split_ifs
        · unfold fft; exact Finset.sum_congr rfl (fun q hq => by simp only [hcong q hq])
        · unfold ifft_fwd; exact Finset.sum_congr rfl (fun q hq => by simp only [hcong q hq])
      · rcases eq_or_ne t (4 * N - 2 - k) with rfl | h'
        · rw [if_pos (by omega)]
          have := plan_exec_in (pl := ⟨4 * ((k : ℤ) + 1),
            ringStart N (4 * N - 2 - k) - ringStart N k, 2, cbFor d false fwd⟩) fwd
            (ringStart N k) data' (b := 1) (p := p) (by simp only; omega) hdist
            (fun _ => le_refl _) (fun h => by simp only at h; rw [hcb] at h; cases h)
            (by omega) (by simp) hp0 (by rw [hk'] at hp1; exact hp1)
          simp only [one_mul] at this
          have hb : ∀ q, ringStart N k + (ringStart N (4 * N - 2 - k) - ringStart N k + q)
              = ringStart N (4 * N - 2 - k) + q := fun q => by ring
          simp only [hb] at this
          rw [this, hR, cbFor_shift]
          simp only
          rw [hk']
          congr 1
          unfold dft
          have hcong : ∀ q ∈ Finset.Ico 0 (4 * ((k : ℤ) + 1)),
              data' (ringStart N (4 * N - 2 - k) + q) = data (ringStart N (4 * N - 2 - k) + q) := by
            intro q hq
            simp only [Finset.mem_Ico] at hq
            rw [ih _ q (by omega) (by omega) hq.1 (by rw [hk']; exact hq.2), if_neg (by omega)]
          split_ifs
          · unfold fft; exact Finset.sum_congr rfl (fun q hq => by simp only [hcong q hq])
          · unfold ifft_fwd; exact Finset.sum_congr rfl (fun q hq => by simp only [hcong q hq])
        · rw [plan_exec_frame fwd _ _ (by simp only; omega) hdist (fun _ => le_refl _)
            (fun h => by simp only at h; rw [hcb] at h; cases h)]
          · rw [ih t p ht0 ht1 hp0 hp1]
            by_cases hc : t < k ∨ 4 * N - 2 - k < t
            · rw [if_pos hc, if_pos (by omega)]
            · rw [if_neg hc, if_neg (by omega)]
          · intro b q hb0 hb1 hq0 hq1 heq'
            simp only at hb1 hq1 heq'
            rcases (show b = 0 ∨ b = 1 by omega) with rfl | rfl
            · exact h (ring_disjoint ht0 ht1 (by omega) (by omega) hp0 hp1 hq0
                (by rw [hk]; exact hq1) (by rw [heq']; ring)).1
            · exact h' (ring_disjoint ht0 ht1 (by omega) (by omega) hp0 hp1 hq0
                (by rw [hk']; exact hq1) (by rw [heq']; ring)).1)
  set data1 := forRange 0 (N - 1)
    (e.polarStep fwd) data with hdata1
  -- equator
  have hcb := cbFor_equator d true fwd
  have hS : ∀ u, N - 1 ≤ u → u ≤ 3 * N → ringStart N u
      = ringStart N (N - 1) + (u - (N - 1)) * (4 * N) := by
    intro u hu0 hu1
    rw [ringStart_first (t := N - 1) (by omega) (by omega)]
    rcases eq_or_lt_of_le hu0 with h | h
    · subst h; rw [ringStart_first (by omega) (by omega)]; ring
    · rw [ringStart_second (by omega) (by omega) hu1]; ring
  rw [he.start, ← hN]
  by_cases hc : N - 1 ≤ t ∧ t ≤ 3 * N - 1
  · have hz : ringSize N t = 4 * N := ringSize_mid hc.1 hc.2
    have := plan_exec_in (pl := ⟨4 * N, 4 * N, 2 * N + 1, cbFor d true fwd⟩) fwd
      (ringStart N (N - 1)) data1 (b := t - (N - 1)) (p := p) (by simp only; omega) le_rfl
      (fun h => by simp only at h; rw [hcb] at h; cases h) (fun _ => rfl)
      (by omega) (by simp only; omega) hp0 (by rw [hz] at hp1; exact hp1)
    simp only at this
    have hb : ∀ q, ringStart N (N - 1) + ((t - (N - 1)) * (4 * N) + q) = ringStart N t + q := by
      intro q; rw [hS t hc.1 (by omega)]; ring
    simp only [hb] at this
    rw [this, cbFor_shift, cbFor_factor d true false, hz]
    congr 1
    unfold dft
    have hcong : ∀ q ∈ Finset.Ico 0 (4 * N),
        data1 (ringStart N t + q) = data (ringStart N t + q) := by
      intro q hq
      simp only [Finset.mem_Ico] at hq
      rw [loop t q h0 h1 hq.1 (by rw [hz]; exact hq.2), if_neg (by omega)]
    split_ifs
    · unfold fft; exact Finset.sum_congr rfl (fun q hq => by simp only [hcong q hq])
    · unfold ifft_fwd; exact Finset.sum_congr rfl (fun q hq => by simp only [hcong q hq])
  · rw [plan_exec_frame fwd _ _ (by simp only; omega) le_rfl
      (fun h => by simp only at h; rw [hcb] at h; cases h) (fun _ => rfl)]
    · rw [loop t p h0 h1 hp0 hp1, if_pos (by omega)]
    · intro b q hb0 hb1 hq0 hq1 h
      simp only at hb1 hq1 h
      have hz : ringSize N (b + (N - 1)) = 4 * N := ringSize_mid (by omega) (by omega)
      have hb := hS (b + (N - 1)) (by omega) (by omega)
      have := (ring_disjoint (s := t) (t := b + (N - 1)) h0 h1 (by omega) (by omega) hp0 hp1 hq0
        (by rw [hz]; exact hq1) (by rw [h, hb]; ring)).1
      omega

/-! ## The cache -/

theorem same_iff {a b : Descriptor} : a.same b = true ↔
    a.nside = b.nside ∧ a.harmonic_band_limit = b.harmonic_band_limit ∧ a.reality = b.reality ∧
    a.norm = b.norm ∧ a.shift = b.shift ∧ a.double_precision = b.double_precision := by
  simp [Descriptor.same]

theorem same_refl (a : Descriptor) : a.same a = true := by simp [Descriptor.same]

theorem good_congr {a b : Descriptor} (h : a.same b = true) {e : Exec} (hg : Good a e) :
    Good b e := by
  obtain ⟨h1, _, _, h4, h5, _⟩ := same_iff.1 h
  have hc : ∀ q f, cbFor a q f = cbFor b q f := by
    intro q f; unfold cbFor; rw [h4, h5]
  obtain ⟨g1, g2, g3, g4, g5, g6, g7, g8⟩ := hg
  refine ⟨?_, ?_, ?_, ?_, ?_, ?_, ?_, ?_⟩
  all_goals rw [← h1]
  · exact g1
  · exact g2
  · exact g3
  · rw [← hc]; exact g4
  · rw [← hc]; exact g5
  · rw [← hc]; exact g6
  · rw [← hc]; exact g7
  · exact g8

/-- Every stored executor is ready for its descriptor. -/
def CacheOk (c : Cache) : Prop := ∀ p ∈ c, Good p.1 p.2

/-- The descriptors an operation uses are for `nside ≥ 1`. -/
def Op.ok : Op → Prop
  | .build d => 1 ≤ d.nside
  | .run d => 1 ≤ d.nside

/-- The descriptor of an operation. -/
def Op.desc : Op → Descriptor
  | .build d => d
  | .run d => d

theorem find_good {c : Cache} (hc : CacheOk c) {d : Descriptor} {e : Exec}
    (h : c.find d = some e) : Good d e := by
  unfold Cache.find at h
  rw [Option.map_eq_some_iff] at h
  obtain ⟨p, hp, rfl⟩ := h
  have h1 := List.mem_of_find?_eq_some hp
  have h2 := List.find?_some hp
  exact good_congr h2 (hc p h1)

theorem getExec_ok {c : Cache} (hc : CacheOk c) {d : Descriptor} (hd : 1 ≤ d.nside) :
    Good d (getExec c d).1 ∧ CacheOk (getExec c d).2 ∧ (getExec c d).2.find d ≠ none := by
  unfold getExec
  cases h : c.find d with
  | some e => exact ⟨find_good hc h, hc, by simp [h]⟩
  | none =>
    have hg : Good d (Exec.empty.initialize d) := good_initialize hd (Or.inl rfl)
    refine ⟨hg, ?_, ?_⟩
    · intro p hp
      rcases List.mem_cons.1 hp with rfl | hp
      · exact hg
      · exact hc p hp
    · simp [Cache.find, same_refl]

theorem step_ok {c : Cache} (hc : CacheOk c) {op : Op} (hop : op.ok) :
    CacheOk (step c op).1 ∧ Good op.desc (step c op).2 := by
  cases op with
  | run d =>
    obtain ⟨h1, h2, _⟩ := getExec_ok hc (d := d) hop
    exact ⟨h2, h1⟩
  | build d =>
    obtain ⟨_, h2, h3⟩ := getExec_ok hc (d := d) hop
    simp only [step]
    have hm : CacheOk ((getExec c d).2.modify d (Exec.initialize d)) := by
      intro p hp
      unfold Cache.modify at hp
      rw [List.mem_map] at hp
      obtain ⟨q, hq, rfl⟩ := hp
      by_cases hs : q.1.same d = true
      · rw [if_pos hs]
        have hg := good_congr hs (h2 q hq)
        have hg2 := good_initialize (d := d) hop (Or.inr hg)
        have hs' : d.same q.1 = true := by
          rw [same_iff] at hs ⊢
          obtain ⟨a, b, c, d, e, f⟩ := hs
          exact ⟨a.symm, b.symm, c.symm, d.symm, e.symm, f.symm⟩
        exact good_congr hs' hg2
      · rw [if_neg hs]; exact h2 q hq
    refine ⟨hm, ?_⟩
    have hf : ((getExec c d).2.modify d (Exec.initialize d)).find d ≠ none := by
      unfold Cache.find Cache.modify at *
      simp only [ne_eq, Option.map_eq_none_iff, List.find?_eq_none, not_forall] at h3 ⊢
      obtain ⟨q, hq, hs⟩ := h3
      refine ⟨(q.1, Exec.initialize d q.2), ?_, by simpa using hs⟩
      rw [List.mem_map]
      exact ⟨q, hq, by rw [if_pos (by simpa using hs)]⟩
    cases hfe : ((getExec c d).2.modify d (Exec.initialize d)).find d with
    | none => exact absurd hfe hf
    | some e => exact find_good hm hfe

theorem caches_step_ok {c : Caches} (h32 : CacheOk c.c32) (h64 : CacheOk c.c64) {op : Op}
    (hop : op.ok) :
    CacheOk (c.step op).1.c32 ∧ CacheOk (c.step op).1.c64 ∧ Good op.desc (c.step op).2 := by
  unfold Caches.step
  simp only
  split_ifs
  · obtain ⟨a, b⟩ := step_ok h64 hop; exact ⟨h32, a, b⟩
  · obtain ⟨a, b⟩ := step_ok h32 hop; exact ⟨a, h64, b⟩

theorem runOps_ok (ops : List Op) (h : ∀ op ∈ ops, op.ok) :
    CacheOk (runOps ops).c32 ∧ CacheOk (runOps ops).c64 := by
  unfold runOps
  have aux : ∀ (l : List Op) (c : Caches), (∀ op ∈ l, op.ok) → CacheOk c.c32 → CacheOk c.c64 →
      CacheOk (l.foldl (fun c op => (c.step op).1) c).c32 ∧
      CacheOk (l.foldl (fun c op => (c.step op).1) c).c64 := by
    intro l
    induction l with
    | nil => intro c _ a b; exact ⟨a, b⟩
    | cons op l ih =>
      intro c hl a b
      rw [List.foldl_cons]
      obtain ⟨a', b', _⟩ := caches_step_ok a b (hl op List.mem_cons_self)
      exact ih _ (fun o ho => hl o (List.mem_cons_of_mem _ ho)) a' b'
  exact aux ops ⟨[], []⟩ h (fun p hp => by cases hp) (fun p hp => by cases hp)

/-! ## Whole transforms -/

theorem healpix_forward_ok {d : Descriptor} (hn : 1 ≤ d.nside)
    (hL : 2 * d.nside ≤ d.harmonic_band_limit) (hsh : d.shift = true) {e : Exec} (he : Good d e)
    {sched : List ℤ} (hs : ValidSched (2 * d.harmonic_band_limit * (4 * d.nside - 1)) sched)
    (data out : ℤ → ℂ) {t k : ℤ} (h0 : 0 ≤ t) (h1 : t < 4 * d.nside - 1) (hk0 : 0 ≤ k)
    (hk1 : k < 2 * d.harmonic_band_limit) :
    (healpix_forward e d sched data out).1 (t * (2 * d.harmonic_band_limit) + k)
      = ringAnal d.nside data t (k - d.harmonic_band_limit)
        * (cbFor d false true).factor (ringSize d.nside t) := by
  have hpos := ringSize_pos h0 h1
  unfold healpix_forward
  simp only
  rw [launch_extension hn hL _ _ hs h0 h1 hk0 hk1,
    good_run hn he true data h0 h1 (Int.emod_nonneg _ hpos.ne') (Int.emod_lt_of_pos _ hpos)]
  congr 1
  simp only [dft, unshift, hsh, Bool.and_self, if_true]
  rw [fft_periodic hpos.ne', ← fft_periodic hpos.ne', Int.emod_sub_emod, fft_periodic hpos.ne',
    ← ringAnal_eq]
  congr 1; ring

theorem healpix_backward_ok {d : Descriptor} (hn : 1 ≤ d.nside)
    (hL : 2 * d.nside ≤ d.harmonic_band_limit) (hsh : d.shift = true) {e : Exec} (he : Good d e)
    {sched : List ℤ} (hs : ValidSched (4 * d.nside - 1) sched)
    (data out : ℤ → ℂ) {t p : ℤ} (h0 : 0 ≤ t) (h1 : t < 4 * d.nside - 1) (hp0 : 0 ≤ p)
    (hp1 : p < ringSize d.nside t) :
    (healpix_backward e d sched data out).1 (ringStart d.nside t + p)
      = ringSynth d.nside d.harmonic_band_limit
          (fun t k => data (t * (2 * d.harmonic_band_limit) + k)) t p
        * (cbFor d false false).factor (ringSize d.nside t) := by
  have hpos := ringSize_pos h0 h1
  unfold healpix_backward
  simp only
  rw [good_run hn he false _ h0 h1 hp0 hp1]
  congr 1
  simp only [dft, unshift, Bool.false_and, Bool.false_eq_true, if_false]
  unfold ringSynth
  rw [← ifft_foldSum hpos (fun k => data (t * (2 * d.harmonic_band_limit) + k))
    (fun i => foldSum (fun k => data (t * (2 * d.harmonic_band_limit) + k))
      (ringSize d.nside t) d.harmonic_band_limit i) p (fun i _ _ => rfl)]
  unfold ifft_fwd
  apply Finset.sum_congr rfl; intro j hj
  simp only [Finset.mem_Ico] at hj
  congr 1
  have := launch_folding hn hL data out d.shift hs h0 h1 hj.1 hj.2
  refine this.trans ?_
  rw [hsh]
  rfl

end S2fft.Cuda
