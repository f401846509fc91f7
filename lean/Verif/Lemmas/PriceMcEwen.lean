import Verif.Model.PriceMcEwen
import Verif.Lemmas.Turok

/-! # Price & McEwen recursion -/

namespace S2fft
open Spec Real

/-! ## Coefficients -/

theorem turokLogRow_eq' (β : ℝ) (l top k : ℤ) (hs : sin β ≠ 0) (hl : 0 ≤ l) (h0 : 0 ≤ k)
    (h1 : k < top) (h2 : k ≤ 2 * l) : turokLogRow β l top k = log (firstCol β l k) := by
  unfold turokLogRow
  have := forRange_ind (σ := ℤ → ℝ) (lo := 2) (hi := max 2 (top + 1)) (le_max_left _ _)
    (fun i r => set1 r (i - 1) (r (i - 2) + log ((2 * l + 2 - i) / (i - 1)) / 2 + log |tan (-β / 2)|))
    (set1 (fun _ => 0) 0 (2 * l * log |cos (β / 2)|))
    (fun i r => ∀ k, 0 ≤ k → k < i - 1 → k ≤ 2 * l → r k = log (firstCol β l k))
    (fun k a b _ => by
      obtain rfl : k = 0 := by omega
      rw [set1_same, firstCol_zero β l hl])
    (fun i r a b c k d e f => by
      by_cases hk : k = i - 1
      · subst hk
        have := firstCol_succ β l (i - 2) hs (by omega) (by omega)
        rw [set1_same, c (i - 2) (by omega) (by omega) (by omega), ← show i - 2 + 1 = i - 1 by ring,
          ← this]
        congr 3
        push_cast
        congr 1 <;> ring
      · rw [set1_ne _ _ hk, c k d (by omega) f])
  rw [max_eq_right (by omega : (2 : ℤ) ≤ top + 1)] at this
  exact this k h0 (by omega) h2

theorem pmLogInd_eq {L mm i el : ℤ} (hmm : |mm| ≤ el) : pmLogInd L mm i el = pmHalf mm i el - 1 := by
  have h := abs_le.1 hmm
  unfold pmLogInd
  rw [if_neg]
  unfold pmHalf; split_ifs <;> omega

theorem pmNan_eq {L mm i el : ℤ} (hmm : |mm| ≤ el) : pmNan L mm i el = false := by
  have h := abs_le.1 hmm
  unfold pmNan
  rw [pmLogInd_eq hmm, decide_eq_false]
  unfold pmHalf; split_ifs <;> omega

theorem PmPre.exp_of {P : PmPre} {i el : ℤ} (h : P.nan i el = false) (x : ℝ) :
    P.exp i el x = Real.exp x := by
  unfold PmPre.exp
  rw [h, if_neg Bool.false_ne_true]

theorem pmLrenorm_eq {β : ℝ} {L mm i el : ℤ} (hs : sin β ≠ 0) (hmm : |mm| ≤ el) (hel : el < L) :
    pmLrenorm β L mm i el = log (firstCol β el (pmHalf mm i el - 1)) := by
  have h := abs_le.1 hmm
  rw [pmLrenorm, pmLogInd_eq hmm]
  apply turokLogRow_eq' _ _ _ _ hs
  · omega
  · unfold pmHalf; split_ifs <;> omega
  · have : 0 ≤ |mm| := abs_nonneg _
    have h3 := le_abs_self mm
    have h4 := neg_le_abs mm
    unfold pmHalf; split_ifs <;> omega
  · unfold pmHalf; split_ifs <;> omega

theorem pmLrenormJax_eq {β : ℝ} {L mm i el : ℤ} (hs : sin β ≠ 0) (hmm : |mm| ≤ el) (hel : el < L) :
    pmLrenormJax β L mm i el = log (firstCol β el (pmHalf mm i el - 1)) := by
  have h := abs_le.1 hmm
  have h3 := le_abs_self mm
  have h4 := neg_le_abs mm
  have hh : 1 ≤ pmHalf mm i el ∧ pmHalf mm i el ≤ 2 * el + 1 ∧ pmHalf mm i el ≤ L + |mm| := by
    unfold pmHalf; split_ifs <;> omega
  unfold pmLrenormJax
  simp only
  rw [if_neg (by omega)]
  have := forRange_ind (σ := ℝ × ℝ) (lo := 2) (hi := L + |mm| + 2)
    (by have := abs_nonneg mm; omega)
    (fun j (s : ℝ × ℝ) =>
      (s.1 + log ((2 * el + 2 - j) / (j - 1)) / 2 + log |tan (-β / 2)|,
        if j = pmHalf mm i el then s.1 + log ((2 * el + 2 - j) / (j - 1)) / 2 + log |tan (-β / 2)|
        else s.2))
    (2 * el * log |cos (β / 2)|, if 1 = pmHalf mm i el then 2 * el * log |cos (β / 2)| else 0)
    (fun j s => (j ≤ 2 * el + 2 → s.1 = log (firstCol β el (j - 2))) ∧
      (pmHalf mm i el < j → s.2 = log (firstCol β el (pmHalf mm i el - 1))))
    ⟨fun _ => by rw [show (2 : ℤ) - 2 = 0 by norm_num, firstCol_zero β el (by omega)], fun h => by
      have e : pmHalf mm i el = 1 := by omega
      rw [e]
      simp only [if_true]
      rw [show (1 : ℤ) - 1 = 0 by norm_num, firstCol_zero β el (by omega)]⟩
    (fun j s a b c => by
      have key : j + 1 ≤ 2 * el + 2 → s.1 + log ((2 * el + 2 - j) / (j - 1)) / 2
          + log |tan (-β / 2)| = log (firstCol β el (j - 1)) := by
        intro hj
        have := firstCol_succ β el (j - 2) hs (by omega) (by omega)
        rw [c.1 (by omega), ← show j - 2 + 1 = j - 1 by ring, ← this]
        congr 3
        push_cast
        congr 1 <;> ring
      refine ⟨fun hj => ?_, fun hj => ?_⟩
      · rw [show j + 1 - 2 = j - 1 by ring]
        exact key hj
      · by_cases e : j = pmHalf mm i el
        · simp only [if_pos e]
          rw [← e]
          exact key (by omega)
        · simp only [if_neg e]
          exact c.2 (by omega))
  exact this.2 (by omega)

/-- The coefficients are right at a column. -/
structure PmGood (P : PmPre) (L mm i t el : ℤ) (β : ℝ) : Prop where
  lr : P.lr i t el = log (firstCol β el (pmHalf mm i el - 1))
  cpi : ∀ k, 1 ≤ k → k ≤ el → P.cpi (L - 1 - el + k - 1) el = 2 / ladder el (k - el)
  cp2 : ∀ k, 1 ≤ k → k ≤ el → P.cp2 (L - 1 - el + k - 1) el = ladder el (k - 1 - el) / ladder el (k - el)
  nan : P.nan i el = false

theorem pmCpi_turok {L el k : ℤ} (h1 : 0 ≤ k) (h2 : k < L) : pmCpi L el k = turokCpi el k := by
  unfold pmCpi turokCpi
  by_cases h : k = 0
  · rw [if_pos h, if_pos h]
  · rw [if_neg h, if_neg h, if_pos (by omega)]

theorem pm_cpi {L el k : ℤ} (hel : el < L) (h1 : 1 ≤ k) (h2 : k ≤ el) :
    npRoll (L + 1) (L - el - 1) (pmCpi L el) (L - 1 - el + k - 1) = 2 / ladder el (k - el) := by
  unfold npRoll
  rw [show L - 1 - el + k - 1 - (L - el - 1) = k - 1 by ring, Int.emod_eq_of_lt (by omega) (by omega),
    pmCpi_turok (by omega) (by omega), turokCpi_eq _ _ (by omega), sub_add_cancel]

theorem ladder_bottom (l : ℤ) : ladder l (-l) = 0 := by
  unfold ladder
  simp

theorem pm_cp2 {L el k : ℤ} (hel : el < L) (h1 : 1 ≤ k) (h2 : k ≤ el) :
    npRoll (L + 1) (L - el - 1) (pmCp2 L el) (L - 1 - el + k - 1)
      = ladder el (k - 1 - el) / ladder el (k - el) := by
  unfold npRoll
  rw [show L - 1 - el + k - 1 - (L - el - 1) = k - 1 by ring, Int.emod_eq_of_lt (by omega) (by omega)]
  unfold pmCp2
  by_cases h : k = 1
  · subst h
    rw [if_neg (by omega), show (1 : ℤ) - 1 - el = -el by ring, ladder_bottom, zero_div]
  · rw [if_pos (by omega), pmCpi_turok (by omega) (by omega), pmCpi_turok (by omega) (by omega)]
    have := (turokCoef el).2 (k - 1) (by omega) (by omega)
    unfold turokCp2 at this
    rw [this, sub_add_cancel]

theorem pmGood_numpy {L spin el t i : ℤ} {β : ℤ → ℝ} (hs : sin (β t) ≠ 0) (hmm : |spin| ≤ el)
    (hel : el < L) : PmGood (generatePrecomputes L spin β) L (-spin) i t el (β t) :=
  ⟨pmLrenorm_eq hs (by rwa [abs_neg]) hel, fun _ a b => pm_cpi hel a b, fun _ a b => pm_cp2 hel a b,
    pmNan_eq (by rwa [abs_neg])⟩

theorem pmGood_jax {L spin el t i : ℤ} {β : ℤ → ℝ} (hs : sin (β t) ≠ 0) (hmm : |spin| ≤ el)
    (hel : el < L) : PmGood (generatePrecomputesJax L spin β) L (-spin) i t el (β t) :=
  ⟨pmLrenormJax_eq hs (by rwa [abs_neg]) hel, fun _ a b => pm_cpi hel a b,
    fun _ a b => pm_cp2 hel a b, rfl⟩

/-! ## The recursion in one column -/

/-- The state before row `m`. -/
noncomputable def pmState (P : PmPre) (L mm i : ℤ) (β : ℤ → ℝ) (m : ℤ) : PmState :=
  forRange 2 m (fun m s => pmUpdate L m (pmEntry P L mm i β m s) s) (pmInit P L mm i β)

/-- What row `m` emits. -/
noncomputable def pmVal (P : PmPre) (L mm i : ℤ) (β : ℤ → ℝ) (m t el : ℤ) : ℝ :=
  pmEntry P L mm i β m (pmState P L mm i β m) t el * P.exp i el ((pmState P L mm i β m).lr t el)

theorem pmState_succ (P : PmPre) (L mm i : ℤ) (β : ℤ → ℝ) {m : ℤ} (hm : 2 ≤ m) :
    pmState P L mm i β (m + 1) = pmUpdate L m (pmEntry P L mm i β m (pmState P L mm i β m))
      (pmState P L mm i β m) := by
  unfold pmState
  rw [forRange_succ hm]

theorem pmLoop_eq {α : Type*} (P : PmPre) (L mm i : ℤ) (β : ℤ → ℝ) (hi : ℤ)
    (emit : ℤ → (ℤ → ℤ → ℝ) → α → α) (acc : α) :
    pmLoop P L mm i β hi emit acc
      = forRange 2 hi (fun m a => emit m (pmVal P L mm i β m) a) acc := by
  unfold pmLoop
  rcases le_total 2 hi with h | h
  · have := forRange_ind h (fun m (s : α × PmState) =>
      let e := pmEntry P L mm i β m s.2
      (emit m (fun t el => e t el * P.exp i el (s.2.lr t el)) s.1, pmUpdate L m e s.2))
      (acc, pmInit P L mm i β)
      (fun m s => s.1 = forRange 2 m (fun m a => emit m (pmVal P L mm i β m) a) acc ∧
        s.2 = pmState P L mm i β m)
      ⟨by rw [forRange_of_le le_rfl], by unfold pmState; rw [forRange_of_le le_rfl]⟩
      (fun m s a b c => by
        simp only
        rw [forRange_succ a, pmState_succ _ _ _ _ _ a, c.1, c.2]
        exact ⟨rfl, rfl⟩)
    exact this.1
  · rw [forRange_of_le h, forRange_of_le h]

/-- The sign of the first column. -/
noncomputable def pmSgn (β : ℝ) (l row : ℤ) : ℝ := (tan (-β / 2) / |tan (-β / 2)|) ^ (l + row).toNat

theorem pmLamb_turok (L mm i m : ℤ) (β : ℝ) (el : ℤ) :
    pmLamb L mm i m β el = turokLamb β el (pmHalf mm i el) (m - L + el + 1) := by
  unfold pmLamb turokLamb
  push_cast
  ring

section
variable {P : PmPre} {L mm i t el row : ℤ} {β : ℤ → ℝ}

/-- The column before row `m`; `k = m - (L - 1 - el)` is the number of entries already made. -/
def PmInv (L t el row : ℤ) (β : ℝ) (lr0 : ℝ) (m : ℤ) (s : PmState) : Prop :=
  (m ≤ L - 1 - el → s.entry t el = 0 ∧ s.d1 t el = 1 ∧ s.lr t el = lr0) ∧
  (L - 1 - el < m →
    s.d1 t el * exp (s.lr t el) * pmSgn β el row = wignerd el row (m - L) β ∧
    (L - el < m → s.d0 t el * exp (s.lr t el) * pmSgn β el row = wignerd el row (m - 1 - L) β))

theorem pm_first (hs : sin (β t) ≠ 0) (hrow : |row| ≤ el) (hh : pmHalf mm i el = el + row + 1)
    (hP : PmGood P L mm i t el (β t)) :
    exp (P.lr i t el) * pmSgn (β t) el row = wignerd el row (-el) (β t) := by
  rw [hP.lr, hh, show el + row + 1 - 1 = el + row by ring, exp_log (firstCol_pos _ _ _ hs), mul_comm,
    ← turok_first (β t) el row hs hrow]
  rfl

theorem pmInv_init (hs : sin (β t) ≠ 0) (hrow : |row| ≤ el) (hel : el < L) (hL : 2 ≤ L)
    (hh : pmHalf mm i el = el + row + 1) (hP : PmGood P L mm i t el (β t)) :
    PmInv L t el row (β t) (P.lr i t el) 2 (pmInit P L mm i β) := by
  have h0 : 0 ≤ el := le_trans (abs_nonneg _) hrow
  have hf := pm_first hs hrow hh hP
  refine ⟨fun h => ?_, fun h => ?_⟩
  · refine ⟨rfl, ?_, rfl⟩
    simp only [pmInit]
    rw [if_neg (by omega)]
  · simp only [pmInit]
    by_cases he : L - 1 ≤ el
    · obtain rfl : el = L - 1 := by omega
      have hc := hP.cpi 1 le_rfl (by omega)
      rw [show L - 1 - (L - 1) + 1 - 1 = 0 by ring] at hc
      have hr := turok_rec (β t) (L - 1) row 1 hs hrow le_rfl (by omega)
      rw [if_pos le_rfl, hc, pmLamb_turok, hh, one_mul,
        show (1 : ℤ) - L + (L - 1) + 1 = 1 by ring]
      refine ⟨?_, fun _ => ?_⟩
      · rw [show (2 : ℤ) - L = 1 - (L - 1) by ring, hr,
          show (1 : ℤ) - 1 - (L - 1) = -(L - 1) by ring, ladder_bottom, ← hf]
        ring
      · rw [one_mul, hf]; congr 1; ring
    · obtain rfl : el = L - 2 := by omega
      rw [if_neg he]
      refine ⟨?_, fun h => by omega⟩
      rw [one_mul, hf]; congr 1; ring

theorem pmEntry_eq (hs : sin (β t) ≠ 0) (hrow : |row| ≤ el) (hel : el < L)
    (hh : pmHalf mm i el = el + row + 1) (hP : PmGood P L mm i t el (β t)) {m : ℤ} (hm : 2 ≤ m)
    (hm' : m < L) {s : PmState} (h : PmInv L t el row (β t) (P.lr i t el) m s) :
    (m < L - 1 - el → pmEntry P L mm i β m s t el = 0) ∧
    (L - 1 - el ≤ m → pmEntry P L mm i β m s t el * exp (s.lr t el) * pmSgn (β t) el row
      = wignerd el row (m + 1 - L) (β t)) := by
  unfold pmEntry
  refine ⟨fun a => ?_, fun a => ?_⟩
  · rw [if_neg (by omega), if_neg (by omega)]
    exact (h.1 (by omega)).1
  · by_cases e : el = L - 1 - m
    · rw [if_pos e, one_mul, (h.1 (by omega)).2.2, pm_first hs hrow hh hP]
      congr 1; omega
    · rw [if_neg e, if_pos (by omega)]
      obtain ⟨h1, h2⟩ := h.2 (by omega)
      have hr := turok_rec (β t) el row (m - L + el + 1) hs hrow (by omega) (by omega)
      have hc := hP.cpi (m - L + el + 1) (by omega) (by omega)
      have hc2 := hP.cp2 (m - L + el + 1) (by omega) (by omega)
      rw [show L - 1 - el + (m - L + el + 1) - 1 = m - 1 by ring] at hc hc2
      rw [show m - L + el + 1 - el = m + 1 - L by ring,
        show m - L + el + 1 - 1 - el = m - L by ring,
        show m - L + el + 1 - 2 - el = m - 1 - L by ring] at hr
      rw [show m - L + el + 1 - el = m + 1 - L by ring] at hc
      rw [show m - L + el + 1 - el = m + 1 - L by ring,
        show m - L + el + 1 - 1 - el = m - L by ring] at hc2
      rw [hc, hc2, pmLamb_turok, hh, hr, ← h1]
      by_cases e2 : L - el < m
      · rw [← h2 e2]; ring
      · obtain rfl : m = L - el := by omega
        rw [show L - el - L = -el by ring, ladder_bottom]
        ring

theorem pmInv_step (hs : sin (β t) ≠ 0) (hrow : |row| ≤ el) (hel : el < L)
    (hh : pmHalf mm i el = el + row + 1) (hP : PmGood P L mm i t el (β t)) {m : ℤ} (hm : 2 ≤ m)
    (hm' : m < L) {s : PmState} (h : PmInv L t el row (β t) (P.lr i t el) m s)
    (hz : L - 1 - el < m → wignerd el row (m + 1 - L) (β t) ≠ 0) :
    PmInv L t el row (β t) (P.lr i t el) (m + 1) (pmUpdate L m (pmEntry P L mm i β m s) s) := by
  obtain ⟨e1, e2⟩ := pmEntry_eq hs hrow hel hh hP hm hm' h
  refine ⟨fun a => ?_, fun a => ?_⟩
  · simp only [pmUpdate]
    obtain ⟨h1, h2, h3⟩ := h.1 (by omega)
    refine ⟨e1 (by omega), ?_, ?_⟩
    · rw [if_neg (by omega)]; exact h2
    · rw [if_neg (by omega)]; exact h3
  · have e3 := e2 (by omega)
    simp only [pmUpdate]
    rw [if_pos (by omega), if_pos (by omega), if_pos (by omega)]
    set x := pmEntry P L mm i β m s t el with hx
    have hx0 : x ≠ 0 := by
      by_cases e : el = L - 1 - m
      · rw [hx]; unfold pmEntry; rw [if_pos e]; exact one_ne_zero
      · intro h0
        rw [h0, zero_mul, zero_mul] at e3
        exact hz (by omega) e3.symm
    have hp := abs_pos.mpr hx0
    rw [exp_add, exp_log hp]
    refine ⟨?_, fun b => ?_⟩
    · rw [← e3]; field_simp
    · rw [show m + 1 - 1 - L = m - L by ring, ← (h.2 (by omega)).1]
      field_simp

/-- Row `m` emits the value of the row, provided none of the earlier entries vanishes. -/
theorem pmVal_eq (hs : sin (β t) ≠ 0) (hrow : |row| ≤ el) (hel : el < L)
    (hh : pmHalf mm i el = el + row + 1) (hP : PmGood P L mm i t el (β t)) {m : ℤ} (hm : 2 ≤ m)
    (hm' : m < L) (hz : ∀ k, -el < k → k < m + 1 - L → wignerd el row k (β t) ≠ 0) :
    (m < L - 1 - el → pmVal P L mm i β m t el = 0) ∧
    (L - 1 - el ≤ m → pmVal P L mm i β m t el * pmSgn (β t) el row
      = wignerd el row (m + 1 - L) (β t)) := by
  have hinv : PmInv L t el row (β t) (P.lr i t el) m (pmState P L mm i β m) := by
    unfold pmState
    refine forRange_ind hm (fun m s => pmUpdate L m (pmEntry P L mm i β m s) s)
      (pmInit P L mm i β) (fun m s => PmInv L t el row (β t) (P.lr i t el) m s)
      (pmInv_init hs hrow hel (by omega) hh hP) (fun j s a b c => ?_)
    exact pmInv_step hs hrow hel hh hP a (by omega) c (fun d => hz _ (by omega) (by omega))
  obtain ⟨e1, e2⟩ := pmEntry_eq hs hrow hel hh hP hm hm' hinv
  refine ⟨fun a => ?_, fun a => ?_⟩
  · unfold pmVal; rw [e1 a, zero_mul]
  · unfold pmVal; rw [PmPre.exp_of hP.nan]; exact e2 a

end

/-! ## Rows of the slice -/

/-- All the rows: the first two are made from the initial state. -/
noncomputable def pmRowVal (P : PmPre) (L mm i : ℤ) (β : ℤ → ℝ) (m t el : ℤ) : ℝ :=
  if m = 0 then (if L - 1 ≤ el then (pmInit P L mm i β).d0 t el * P.exp i el (P.lr i t el) else 0)
  else if m = 1 then (if L - 2 ≤ el then (pmInit P L mm i β).d1 t el * P.exp i el (P.lr i t el) else 0)
  else pmVal P L mm i β m t el

/-- The order held by row `m`. -/
def pmOrder (L i m : ℤ) : ℤ := if i = 0 then m - (L - 1) else L - 1 - m

theorem pmSgn_eq {β : ℝ} (h0 : 0 < β) (h1 : β < π) {l row : ℤ} (h : 0 ≤ l + row) :
    pmSgn β l row = (-1) ^ (l + row) := by
  unfold pmSgn
  have ht : tan (-β / 2) < 0 := by
    rw [neg_div, Real.tan_neg, neg_lt_zero]
    exact Real.tan_pos_of_pos_of_lt_pi_div_two (by linarith) (by linarith)
  rw [abs_of_neg ht, div_neg, div_self ht.ne, negOne_toNat h]

theorem negOne_abs (a : ℤ) : (-1 : ℝ) ^ |a| = (-1) ^ a := by
  rcases abs_choice a with h | h
  · rw [h]
  · rw [h, negOne_neg]

/-- The rows hold the `d`-functions, except that the row of order 0 is made by `i = 1`. -/
theorem pmRowVal_eq {P : PmPre} {L spin i t el : ℤ} {β : ℤ → ℝ} (h0 : 0 < β t) (h1 : β t < π)
    (hmm : |spin| ≤ el) (hel : el < L) (hP : PmGood P L (-spin) i t el (β t)) {m : ℤ}
    (hm : 0 ≤ m) (hm' : m < L) (hi : i = 0 → m < L - 1)
    (hz : ∀ k, 1 ≤ |k| → |k| < el → wignerd el k (-spin) (β t) ≠ 0) :
    pmRowVal P L (-spin) i β m t el * pmVsign L (-spin) (pmRow (2 * L - 1) i m) el
      = wignerd el (pmOrder L i m) (-spin) (β t) := by
  have hs : sin (β t) ≠ 0 := (Real.sin_pos_of_pos_of_lt_pi h0 h1).ne'
  have hel0 : 0 ≤ el := le_trans (abs_nonneg _) hmm
  have hsp := abs_le.1 hmm
  -- the row of the recursion and what it means
  obtain ⟨row, hh, hrow, hsign⟩ : ∃ row, pmHalf (-spin) i el = el + row + 1 ∧ |row| ≤ el ∧
      ∀ m, 0 ≤ m → m < L → (i = 0 → m < L - 1) →
        pmVsign L (-spin) (pmRow (2 * L - 1) i m) el * wignerd el row (m + 1 - L) (β t)
          = pmSgn (β t) el row * wignerd el (pmOrder L i m) (-spin) (β t) := by
    by_cases e : i = 0
    · refine ⟨-spin, by unfold pmHalf; rw [if_pos e], by rwa [abs_neg], fun m a b c => ?_⟩
      have c := c e
      rw [pmSgn_eq h0 h1 (by omega), wignerd_transpose el (-spin) (m + 1 - L)]
      unfold pmVsign pmRow pmOrder
      simp only [if_pos e]
      rw [if_pos c, if_pos c, negOne_abs, negOne_abs, negOne_abs,
        show m - (L - 1) = m + 1 - L by ring, ← mul_assoc, negOne_mul, negOne_mul, negOne_mul]
      congr 1
      exact negOne_congr ⟨m + 1 - spin, by ring⟩
    · refine ⟨spin, by unfold pmHalf; rw [if_neg e]; ring, hmm, fun m a b _ => ?_⟩
      rw [pmSgn_eq h0 h1 (by omega)]
      unfold pmVsign pmRow pmOrder
      simp only [if_neg e]
      rw [if_neg (by omega), if_neg (by omega), negOne_abs, one_mul,
        wignerd_swap_neg el (L - 1 - m) (-spin), neg_neg, show -(L - 1 - m) = m + 1 - L by ring]
      congr 1
      exact negOne_congr ⟨-spin, by ring⟩
  have hsq : pmSgn (β t) el row * pmSgn (β t) el row = 1 := by
    have := abs_le.1 hrow
    rw [pmSgn_eq h0 h1 (by omega), negOne_self]
  have hout : m < L - 1 - el → wignerd el (pmOrder L i m) (-spin) (β t) = 0 := by
    intro h
    apply wignerd_outside
    left
    unfold pmOrder
    rw [lt_abs]
    split_ifs <;> omega
  -- the value of the row
  have hval : (m < L - 1 - el → pmRowVal P L (-spin) i β m t el = 0) ∧
      (L - 1 - el ≤ m → pmRowVal P L (-spin) i β m t el * pmSgn (β t) el row
        = wignerd el row (m + 1 - L) (β t)) := by
    have hf := pm_first hs hrow hh hP
    unfold pmRowVal
    by_cases m0 : m = 0
    · rw [if_pos m0]
      refine ⟨fun h => if_neg (by omega), fun h => ?_⟩
      rw [if_pos (by omega), PmPre.exp_of hP.nan]
      simp only [pmInit]
      rw [one_mul, hf]; congr 1; omega
    · rw [if_neg m0]
      by_cases m1 : m = 1
      · rw [if_pos m1]
        refine ⟨fun h => if_neg (by omega), fun h => ?_⟩
        rw [if_pos (by omega), PmPre.exp_of hP.nan]
        have := (pmInv_init hs hrow hel (by omega) hh hP).2 (by omega)
        rw [show m + 1 - L = 2 - L by omega, ← this.1]
        rfl
      · rw [if_neg m1]
        refine pmVal_eq hs hrow hel hh hP (by omega) hm' (fun k a b => ?_)
        -- an earlier entry is, up to sign, a value at a non-zero order
        have hk := hsign (k + L - 1) (by omega) (by omega) (by omega)
        rw [show k + L - 1 + 1 - L = k by ring] at hk
        intro hk0
        rw [hk0, mul_zero] at hk
        have h3 := hz (pmOrder L i (k + L - 1)) (by
          unfold pmOrder; rw [le_abs]; split_ifs <;> omega) (by
          unfold pmOrder; rw [abs_lt]; split_ifs <;> omega)
        rcases mul_eq_zero.1 hk.symm with h4 | h4
        · rw [h4, mul_zero] at hsq; exact one_ne_zero hsq.symm
        · exact h3 h4
  by_cases hc : m < L - 1 - el
  · rw [hval.1 hc, hout hc, zero_mul]
  · have e1 := hval.2 (by omega)
    have e2 := hsign m hm hm' hi
    calc pmRowVal P L (-spin) i β m t el * pmVsign L (-spin) (pmRow (2 * L - 1) i m) el
        = pmSgn (β t) el row * (pmVsign L (-spin) (pmRow (2 * L - 1) i m) el
            * (pmRowVal P L (-spin) i β m t el * pmSgn (β t) el row)) := by
          linear_combination (-(pmRowVal P L (-spin) i β m t el
            * pmVsign L (-spin) (pmRow (2 * L - 1) i m) el)) * hsq
      _ = _ := by rw [e1, e2, ← mul_assoc, hsq, one_mul]

end S2fft
