import Verif.Model.Otf
import Verif.Lemmas.PrecomputeJax

/-! # The on-the-fly latitudinal steps -/

namespace S2fft
open Spec Real

/-- The first degree summed in row `m`. -/
def otfFrom (L lo m : ℤ) : ℤ := if m = 0 then L - 1 else if m = 1 then L - 2 else lo

/-- The weights of row `m`. -/
noncomputable def otfW (P : PmPre) (L mm lo i : ℤ) (β : ℤ → ℝ) (m t el : ℤ) : ℝ :=
  if m = 0 then (pmInit P L mm i β).d0 t el * P.vsign (pmRow (2 * L - 1) i 0) el * P.exp i el (P.lr i t el)
  else if m = 1 then (pmInit P L mm i β).d1 t (max el lo)
    * P.vsign (pmRow (2 * L - 1) i 1) (max el lo) * P.exp i (max el lo) (P.lr i t (max el lo))
  else pmVal P L mm i β m t el * P.vsign (pmRow (2 * L - 1) i m) el

section
variable {α γ : Type*} {P : PmPre} {L mm lo i : ℤ} {β : ℤ → ℝ}
  {emit : ℤ → ℤ → ℤ → (ℤ → ℤ → ℝ) → α → α}

theorem otfPass_frame (acc : α) (read : α → γ)
    (h : ∀ m, 0 ≤ m → (m = 0 ∨ m = 1 ∨ m < L - 1 + i) → ∀ f W a, read (emit i m f W a) = read a) :
    read (otfPass P L mm lo β i emit acc) = read acc := by
  unfold otfPass
  simp only
  rw [pmLoop_eq, forRange_frame 2 (L - 1 + i) _ _ read (fun j a j0 j1 => h j (by omega)
    (Or.inr (Or.inr j1)) _ _ _), h 1 (by omega) (by simp), h 0 le_rfl (by simp)]

/-- The same, when only the degrees actually summed matter. -/
theorem otfPass_frame' (acc : α) (read : α → γ)
    (h : ∀ m, 0 ≤ m → ∀ W a, read (emit i m (otfFrom L lo m) W a) = read a) :
    read (otfPass P L mm lo β i emit acc) = read acc := by
  have e1 := h 1 (by omega)
  have e0 := h 0 le_rfl
  simp only [otfFrom, if_true, if_neg (show ¬ (1 : ℤ) = 0 by omega)] at e0 e1
  unfold otfPass
  simp only
  rw [pmLoop_eq, forRange_frame 2 (L - 1 + i) _ _ read (fun j a j0 j1 => by
    have := h j (by omega)
    simp only [otfFrom, if_neg (show ¬ j = 0 by omega), if_neg (show ¬ j = 1 by omega)] at this
    exact this _ _), e1, e0]

theorem otfPass_read (acc : α) (read : α → γ) {m : ℤ} (h0 : 0 ≤ m)
    (h1 : m = 0 ∨ m = 1 ∨ m < L - 1 + i) (val : ℤ → (ℤ → ℤ → ℝ) → γ → γ)
    (hm : ∀ f W a, read (emit i m f W a) = val f W (read a))
    (h : ∀ j, 0 ≤ j → j ≠ m → ∀ f W a, read (emit i j f W a) = read a) :
    read (otfPass P L mm lo β i emit acc)
      = val (otfFrom L lo m) (fun t el => otfW P L mm lo i β m t el) (read acc) := by
  unfold otfPass otfFrom otfW
  simp only
  rw [pmLoop_eq]
  by_cases m0 : m = 0
  · subst m0
    rw [forRange_frame 2 (L - 1 + i) _ _ read (fun j a j0 j1 => h j (by omega) (by omega) _ _ _),
      h 1 (by omega) (by omega), hm]
    rfl
  · by_cases m1 : m = 1
    · subst m1
      rw [forRange_frame 2 (L - 1 + i) _ _ read (fun j a j0 j1 => h j (by omega) (by omega) _ _ _),
        hm, h 0 le_rfl (by omega)]
      rfl
    · simp only [if_neg m0, if_neg m1]
      generalize hacc : emit i 1 _ _ _ = acc'
      have hr : read acc' = read acc := by
        rw [← hacc, h 1 (by omega) (by omega), h 0 le_rfl (by omega)]
      have := forRange_ind (σ := α) (lo := 2) (hi := L - 1 + i) (by omega)
        (fun m a => emit i m lo (fun t el => pmVal P L mm i β m t el
          * P.vsign (pmRow (2 * L - 1) i m) el) a) acc'
        (fun j a => read a = if m < j then val lo (fun t el => pmVal P L mm i β m t el
          * P.vsign (pmRow (2 * L - 1) i m) el) (read acc) else read acc)
        (by rw [if_neg (by omega)]; exact hr)
        (fun j a j0 j1 ih => by
          by_cases hj : j = m
          · subst hj
            rw [if_neg (by omega)] at ih
            rw [if_pos (by omega), hm, ih]
          · rw [h j (by omega) hj, ih]
            by_cases hc : m < j
            · rw [if_pos hc, if_pos (by omega)]
            · rw [if_neg hc, if_neg (by omega)])
      rw [this, if_pos (by omega)]

theorem otfRows_eq (reality : Bool) (acc : α) :
    otfRows P L mm lo β reality emit acc = otfPass P L mm lo β 1 emit
      (if reality = true then acc else otfPass P L mm lo β 0 emit acc) := by
  unfold otfRows
  rw [show (2 : ℤ) = 0 + 1 + 1 by norm_num, forRange_succ (by norm_num), forRange_succ le_rfl,
    forRange_of_le le_rfl]
  simp

/-- Reading the cell of order `m`. Only the cell of order 0 is ever written twice. -/
theorem otfRows_read (reality : Bool) (acc : α) (read : α → γ) (val : ℤ → (ℤ → ℤ → ℝ) → γ → γ)
    {m : ℤ} (m0 : -L < m) (m1 : m < L) (hr : reality = true → 0 ≤ m) (hL : 1 ≤ L)
    (hm : ∀ i j, (i = 0 ∨ i = 1) → 0 ≤ j → pmOrder L i j = m → ∀ f W a,
      read (emit i j f W a) = val f W (read a))
    (h : ∀ i j, (i = 0 ∨ i = 1) → 0 ≤ j → pmOrder L i j ≠ m → ∀ f W a,
      read (emit i j f W a) = read a) :
    ∃ x, (m ≠ 0 → x = read acc) ∧ read (otfRows P L mm lo β reality emit acc) = if 0 ≤ m
      then val (otfFrom L lo (L - 1 - m)) (fun t el => otfW P L mm lo 1 β (L - 1 - m) t el) x
      else val (otfFrom L lo (m + L - 1)) (fun t el => otfW P L mm lo 0 β (m + L - 1) t el)
        (read acc) := by
  rw [otfRows_eq]
  have o1 : ∀ j, pmOrder L 1 j = L - 1 - j := fun j => by unfold pmOrder; simp
  have o0 : ∀ j, pmOrder L 0 j = j - (L - 1) := fun j => by unfold pmOrder; simp
  by_cases hc : 0 ≤ m
  · simp only [if_pos hc]
    refine ⟨_, ?_, otfPass_read _ read (by omega) (by omega) val
      (hm 1 _ (Or.inr rfl) (by omega) (by rw [o1]; ring))
      (fun j j0 hne => h 1 j (Or.inr rfl) j0 (by rw [o1]; omega))⟩
    intro hne
    split_ifs
    · rfl
    · exact otfPass_frame _ read (fun j j0 hj => h 0 j (Or.inl rfl) j0 (by rw [o0]; omega))
  · simp only [if_neg hc]
    rw [otfPass_frame _ read (fun j j0 hj => h 1 j (Or.inr rfl) j0 (by rw [o1]; omega)),
      if_neg (by intro hh; exact hc (hr hh))]
    exact ⟨_, fun _ => rfl, otfPass_read _ read (by omega) (by omega) val
      (hm 0 _ (Or.inl rfl) (by omega) (by rw [o0]; ring))
      (fun j j0 hne => h 0 j (Or.inl rfl) j0 (by rw [o0]; omega))⟩

end

/-- Coefficients made for the angles. -/
def PmFits (P : PmPre) (L spin nt : ℤ) (β : ℤ → ℝ) : Prop :=
  P.vsign = pmVsign L (-spin) ∧ ∀ i t el, 0 ≤ t → t < nt → |spin| ≤ el → el < L → sin (β t) ≠ 0 →
    PmGood P L (-spin) i t el (β t)

theorem pmFits_numpy (L spin nt : ℤ) (β : ℤ → ℝ) : PmFits (generatePrecomputes L spin β) L spin nt β :=
  ⟨rfl, fun _ _ _ _ _ a b c => pmGood_numpy c a b⟩

theorem PmFits.congr {P : PmPre} {L spin nt : ℤ} {β β' : ℤ → ℝ} (h : PmFits P L spin nt β)
    (e : ∀ t, 0 ≤ t → t < nt → β t = β' t) : PmFits P L spin nt β' :=
  ⟨h.1, fun i t el t0 t1 a b c => by
    rw [← e t t0 t1] at c ⊢
    exact h.2 i t el t0 t1 a b c⟩

theorem pmFits_jax (L spin nt : ℤ) (β : ℤ → ℝ) :
    PmFits (generatePrecomputesJax L spin β) L spin nt β :=
  ⟨rfl, fun _ _ _ _ _ a b c => pmGood_jax c a b⟩

section
variable {P : PmPre} {L spin lo nt : ℤ} {β : ℤ → ℝ}

/-- The weights are the `d`-functions. -/
theorem otfW_eq (hP : PmFits P L spin nt β) {t el i m : ℤ} (t0 : 0 ≤ t) (t1 : t < nt)
    (hr : PmRegular L spin (β t)) (hs : |spin| ≤ el) (hel : el < L) (hlo : lo ≤ el) (h0 : 0 ≤ m)
    (h1 : m < L) (hi : i = 0 → m < L - 1) (hf : otfFrom L lo m ≤ el) :
    otfW P L (-spin) lo i β m t el = wignerd el (pmOrder L i m) (-spin) (β t) := by
  have hsin := (Real.sin_pos_of_pos_of_lt_pi hr.1 hr.2.1).ne'
  rw [← pmRowVal_eq hr.1 hr.2.1 hs hel (hP.2 i t el t0 t1 hs hel hsin) h0 h1 hi
    (fun k a b => hr.2.2 el k hs hel a b)]
  unfold otfW pmRowVal
  unfold otfFrom at hf
  rw [hP.1, max_eq_left hlo]
  by_cases m0 : m = 0
  · subst m0
    simp only [if_true] at hf ⊢
    rw [if_pos hf]; ring
  · by_cases m1 : m = 1
    · subst m1
      simp only [if_neg m0, if_true] at hf ⊢
      rw [if_pos hf]; ring
    · simp only [if_neg m0, if_neg m1]

/-- Degrees below the first one of a row do not reach the order. -/
theorem otfFrom_outside {t el i m : ℤ} (h0 : 0 ≤ m) (h1 : m < L) (hlo : lo ≤ el)
    (hf : el < otfFrom L lo m) : wignerd el (pmOrder L i m) (-spin) (β t) = 0 := by
  apply wignerd_outside
  left
  unfold otfFrom at hf
  unfold pmOrder
  rw [lt_abs]
  split_ifs at hf <;> split_ifs <;> omega

theorem otfFrom_le (hlo : lo < L - 1 ∨ L = 1) (h0 : 0 ≤ lo) (hl : lo < L) {m : ℤ} (hm0 : 0 ≤ m)
    (hm : m < L) : lo ≤ otfFrom L lo m := by
  unfold otfFrom; split_ifs <;> omega

/-- Every column of the inverse step is the sum of the coefficients with the weights of its row. -/
theorem otfSynth_read (hl : 1 ≤ L) (flm : ℤ → ℤ → ℂ) (reality : Bool) {off t m : ℤ} (m0 : -L < m)
    (m1 : m < L) (hm : reality = true → 0 ≤ m) :
    otfSynth P flm β L spin off (2 * L - 1 + off) reality lo t (m + L - 1 + off)
      = if 0 ≤ m then ∑ el ∈ Finset.Ico (otfFrom L lo (L - 1 - m)) L,
          (otfW P L (-spin) lo 1 β (L - 1 - m) t el : ℂ) * flm el (m + L - 1)
        else ∑ el ∈ Finset.Ico (otfFrom L lo (m + L - 1)) L,
          (otfW P L (-spin) lo 0 β (m + L - 1) t el : ℂ) * flm el (m + L - 1) := by
  unfold otfSynth
  obtain ⟨x, -, e⟩ := otfRows_read (P := P) (mm := -spin) (lo := lo) (β := β) (L := L)
    (emit := fun i m from_ W (ftm : ℤ → ℤ → ℂ) => fun t k =>
      if k = otfCol (2 * L - 1 + off) off i m then
        ∑ el ∈ Finset.Ico from_ L, (W t el : ℂ) * flm el (pmRow (2 * L - 1) i m)
      else ftm t k) reality (fun _ _ => 0) (fun ftm : ℤ → ℤ → ℂ => ftm t (m + L - 1 + off))
    (fun f W _ => ∑ el ∈ Finset.Ico f L, (W t el : ℂ) * flm el (m + L - 1)) m0 m1 hm hl
    (fun i j hi j0 ho f W a => by
      have e1 : m + L - 1 + off = otfCol (2 * L - 1 + off) off i j := by
        rw [← ho]; unfold pmOrder otfCol pmRow
        rcases hi with rfl | rfl <;> simp <;> ring
      have e2 : pmRow (2 * L - 1) i j = m + L - 1 := by
        rw [← ho]; unfold pmOrder pmRow
        rcases hi with rfl | rfl <;> simp <;> ring
      beta_reduce
      rw [if_pos e1, e2])
    (fun i j hi j0 ho f W a => by
      refine if_neg (fun e => ho ?_)
      revert e
      unfold pmOrder otfCol pmRow
      rcases hi with rfl | rfl <;> simp <;> intro e <;> linarith)
  exact e

/-- Every column of the inverse step is the sum over degrees. -/
theorem otfSynth_eq (hP : PmFits P L spin nt β) (hlo : lo < L - 1 ∨ L = 1) (h0 : 0 ≤ lo)
    (hl : lo < L) (flm : ℤ → ℤ → ℂ)
    (hf : ∀ el k, lo ≤ el → el < L → el < |spin| → 0 ≤ k → k < 2 * L - 1 → flm el k = 0) (reality : Bool) {off t m : ℤ}
    (t0 : 0 ≤ t) (t1 : t < nt) (hr : PmRegular L spin (β t)) (m0 : -L < m) (m1 : m < L)
    (hm : reality = true → 0 ≤ m) :
    otfSynth P flm β L spin off (2 * L - 1 + off) reality lo t (m + L - 1 + off)
      = ∑ el ∈ Finset.Ico lo L, (wignerd el m (-spin) (β t) : ℂ) * flm el (m + L - 1) := by
  have key : ∀ i j, (i = 0 ∨ i = 1) → 0 ≤ j → j < L → (i = 0 → j < L - 1) → pmOrder L i j = m →
      ∑ el ∈ Finset.Ico (otfFrom L lo j) L, (otfW P L (-spin) lo i β j t el : ℂ)
        * flm el (m + L - 1)
      = ∑ el ∈ Finset.Ico lo L, (wignerd el m (-spin) (β t) : ℂ) * flm el (m + L - 1) := by
    intro i j hi j0 j1 j2 ho
    have hle := otfFrom_le hlo h0 hl j0 j1
    have hsub : Finset.Ico (otfFrom L lo j) L ⊆ Finset.Ico lo L := by
      intro x; simp only [Finset.mem_Ico]; omega
    rw [← Finset.sum_subset hsub]
    · apply Finset.sum_congr rfl
      intro el hel
      rw [Finset.mem_Ico] at hel
      by_cases hs : |spin| ≤ el
      · rw [otfW_eq hP t0 t1 hr hs hel.2 (by omega) j0 j1 j2 hel.1, ho]
      · rw [hf el _ (by omega) hel.2 (by omega) (by omega) (by omega), mul_zero, mul_zero]
    · intro el h1 h2
      simp only [Finset.mem_Ico] at h1 h2
      rw [← ho, otfFrom_outside j0 j1 h1.1 (by omega), Complex.ofReal_zero, zero_mul]
  rw [otfSynth_read (by omega) flm reality m0 m1 hm]
  split_ifs with hc
  · exact key 1 _ (Or.inr rfl) (by omega) (by omega) (by omega)
      (by unfold pmOrder; simp)
  · exact key 0 _ (Or.inl rfl) (by omega) (by omega) (by omega)
      (by unfold pmOrder; simp)

/-- The column that is not an order stays empty. -/
theorem otfSynth_nyquist (flm : ℤ → ℤ → ℂ) (reality : Bool) {t : ℤ} (hL : 2 ≤ L) :
    otfSynth P flm β L spin 1 (2 * L) reality lo t 0 = 0 := by
  have fr : ∀ i, (i = 0 ∨ i = 1) → ∀ a : ℤ → ℤ → ℂ, otfPass P L (-spin) lo β i
      (fun i m from_ W ftm => fun t k => if k = otfCol (2 * L) 1 i m then
        ∑ el ∈ Finset.Ico from_ L, (W t el : ℂ) * flm el (pmRow (2 * L - 1) i m)
        else ftm t k) a t 0 = a t 0 := by
    intro i hi a
    refine otfPass_frame a (fun a : ℤ → ℤ → ℂ => a t 0) (fun m m0 hm f W a => if_neg ?_)
    unfold otfCol pmRow
    rcases hi with rfl | rfl <;> simp <;> omega
  unfold otfSynth
  rw [otfRows_eq, fr 1 (Or.inr rfl)]
  split_ifs
  · rfl
  · rw [fr 0 (Or.inl rfl)]

/-- Every column of the forward step is the sum over the rings. -/
theorem otfAnalyse_eq (hP : PmFits P L spin nt β) (hlo : lo < L - 1 ∨ L = 1) (h0 : 0 ≤ lo)
    (hl : lo < L) (ftm : ℤ → ℤ → ℂ) (reality : Bool) {off el m : ℤ}
    (hr : ∀ t, 0 ≤ t → t < nt → PmRegular L spin (β t)) (hel0 : lo ≤ el) (hel : el < L)
    (hs : |spin| ≤ el) (m0 : -L < m) (m1 : m < L) (hm : reality = true → 0 ≤ m) :
    otfAnalyse P ftm β L spin nt off (2 * L - 1 + off) reality lo el (m + L - 1)
      = ∑ t ∈ Finset.Ico 0 nt, (wignerd el m (-spin) (β t) : ℂ) * ftm t (m + L - 1 + off) := by
  have e2 : ∀ i j, (i = 0 ∨ i = 1) → pmOrder L i j = m → pmRow (2 * L - 1) i j = m + L - 1 := by
    intro i j hi ho
    rw [← ho]; unfold pmOrder pmRow
    rcases hi with rfl | rfl <;> simp <;> ring
  have key : ∀ i j, (i = 0 ∨ i = 1) → 0 ≤ j → j < L → (i = 0 → j < L - 1) → pmOrder L i j = m →
      (if otfFrom L lo j ≤ el then
        ∑ t ∈ Finset.Ico 0 nt, (otfW P L (-spin) lo i β j t el : ℂ) * ftm t (m + L - 1 + off)
        else 0)
      = ∑ t ∈ Finset.Ico 0 nt, (wignerd el m (-spin) (β t) : ℂ) * ftm t (m + L - 1 + off) := by
    intro i j hi j0 j1 j2 ho
    split_ifs with hc
    · apply Finset.sum_congr rfl
      intro t ht
      rw [Finset.mem_Ico] at ht
      rw [otfW_eq hP ht.1 ht.2 (hr t ht.1 ht.2) hs hel hel0 j0 j1 j2 hc, ho]
    · symm
      apply Finset.sum_eq_zero
      intro t _
      rw [← ho, otfFrom_outside j0 j1 hel0 (by omega), Complex.ofReal_zero, zero_mul]
  unfold otfAnalyse
  obtain ⟨x, hx, e⟩ := otfRows_read (P := P) (mm := -spin) (lo := lo) (β := β) (L := L)
    (emit := fun i m from_ W (flm : ℤ → ℤ → ℂ) => fun l k =>
      if k = pmRow (2 * L - 1) i m ∧ from_ ≤ l then
        ∑ t ∈ Finset.Ico 0 nt, (W t l : ℂ) * ftm t (otfCol (2 * L - 1 + off) off i m)
      else flm l k) reality (fun _ _ => 0) (fun flm : ℤ → ℤ → ℂ => flm el (m + L - 1))
    (fun f W x => if f ≤ el then ∑ t ∈ Finset.Ico 0 nt, (W t el : ℂ) * ftm t (m + L - 1 + off)
      else x) m0 m1 hm (by omega)
    (fun i j hi j0 ho f W a => by
      have e1 : otfCol (2 * L - 1 + off) off i j = m + L - 1 + off := by
        rw [← ho]; unfold pmOrder otfCol pmRow
        rcases hi with rfl | rfl <;> simp <;> ring
      simp only [e2 i j hi ho, e1, true_and])
    (fun i j hi j0 ho f W a => by
      refine if_neg (fun e => ho ?_)
      have e := e.1
      revert e
      unfold pmOrder pmRow
      rcases hi with rfl | rfl <;> simp <;> intro e <;> linarith)
  rw [e]
  split_ifs with hc h1 h2
  · have := key 1 (L - 1 - m) (Or.inr rfl) (by omega) (by omega) (by omega)
      (by unfold pmOrder; simp)
    rwa [if_pos h1] at this
  · have := key 1 (L - 1 - m) (Or.inr rfl) (by omega) (by omega) (by omega)
      (by unfold pmOrder; simp)
    rw [if_neg h1] at this
    rw [hx (by unfold otfFrom at h1; split_ifs at h1 <;> omega)]
    exact this
  · have := key 0 (m + L - 1) (Or.inl rfl) (by omega) (by omega) (by omega)
      (by unfold pmOrder; simp)
    rwa [if_pos h2] at this
  · have := key 0 (m + L - 1) (Or.inl rfl) (by omega) (by omega) (by omega)
      (by unfold pmOrder; simp)
    rwa [if_neg h2] at this

/-- No degree below `lo` is written. -/
theorem otfAnalyse_below (hlo : lo < L - 1 ∨ L = 1) (h0 : 0 ≤ lo) (hl : lo < L) (ftm : ℤ → ℤ → ℂ)
    (reality : Bool) {off el width k : ℤ} (he : 0 ≤ el) (hel : el < lo) :
    otfAnalyse P ftm β L spin nt off width reality lo el k = 0 := by
  have hf : ∀ m, lo ≤ otfFrom L lo m ∨ L = 1 := by
    intro m; unfold otfFrom; split_ifs <;> omega
  have fr : ∀ i, ∀ a : ℤ → ℤ → ℂ, otfPass P L (-spin) lo β i (fun i m from_ W flm => fun l k =>
      if k = pmRow (2 * L - 1) i m ∧ from_ ≤ l then
        ∑ t ∈ Finset.Ico 0 nt, (W t l : ℂ) * ftm t (otfCol width off i m)
      else flm l k) a el k = a el k := by
    intro i a
    refine otfPass_frame' a (fun a : ℤ → ℤ → ℂ => a el k) (fun m m0 W a => if_neg ?_)
    rintro ⟨-, h⟩
    rcases hf m with h' | h' <;> omega
  unfold otfAnalyse
  rw [otfRows_eq, fr 1]
  split_ifs
  · rfl
  · rw [fr 0]

/-- With `lo = L - 1` the sum of order `L - 2` takes in the degree below. -/
theorem otfSynth_leak (hP : PmFits P L spin nt β) (hL : 2 ≤ L) (flm : ℤ → ℤ → ℂ) (reality : Bool)
    {off t : ℤ} (t0 : 0 ≤ t) (t1 : t < nt) (hr : PmRegular L spin (β t)) (hs : |spin| < L) :
    otfSynth P flm β L spin off (2 * L - 1 + off) reality (L - 1) t (L - 2 + L - 1 + off)
      = (wignerd (L - 1) (L - 2) (-spin) (β t) : ℂ)
        * (flm (L - 2) (2 * L - 3) + flm (L - 1) (2 * L - 3)) := by
  unfold otfSynth
  obtain ⟨x, -, e⟩ := otfRows_read (P := P) (mm := -spin) (lo := L - 1) (β := β) (L := L)
    (emit := fun i m from_ W (ftm : ℤ → ℤ → ℂ) => fun t k =>
      if k = otfCol (2 * L - 1 + off) off i m then
        ∑ el ∈ Finset.Ico from_ L, (W t el : ℂ) * flm el (pmRow (2 * L - 1) i m)
      else ftm t k) reality (fun _ _ => 0) (fun ftm : ℤ → ℤ → ℂ => ftm t (L - 2 + L - 1 + off))
    (fun f W _ => ∑ el ∈ Finset.Ico f L, (W t el : ℂ) * flm el (L - 2 + L - 1)) (m := L - 2)
    (by omega) (by omega) (fun _ => by omega) (by omega)
    (fun i j hi j0 ho f W a => by
      have e1 : L - 2 + L - 1 + off = otfCol (2 * L - 1 + off) off i j := by
        rw [← ho]; unfold pmOrder otfCol pmRow
        rcases hi with rfl | rfl <;> simp <;> ring
      have e2 : pmRow (2 * L - 1) i j = L - 2 + L - 1 := by
        rw [← ho]; unfold pmOrder pmRow
        rcases hi with rfl | rfl <;> simp <;> ring
      beta_reduce
      rw [if_pos e1, e2])
    (fun i j hi j0 ho f W a => by
      refine if_neg (fun e => ho ?_)
      revert e
      unfold pmOrder otfCol pmRow
      rcases hi with rfl | rfl <;> simp <;> intro e <;> linarith)
  rw [e, if_pos (by omega), show L - 1 - (L - 2) = 1 by ring]
  have hf : otfFrom L (L - 1) 1 = L - 2 := by unfold otfFrom; simp
  have hset : Finset.Ico (L - 2) L = {L - 2, L - 1} := by
    ext x; simp only [Finset.mem_Ico, Finset.mem_insert, Finset.mem_singleton]; omega
  have hw := otfW_eq (lo := L - 1) (i := 1) (m := 1) hP t0 t1 hr (by omega : |spin| ≤ L - 1)
    (by omega) le_rfl (by omega) (by omega) (by omega) (by rw [hf]; omega)
  have ho : pmOrder L 1 1 = L - 2 := by unfold pmOrder; simp; ring
  have hw2 : otfW P L (-spin) (L - 1) 1 β 1 t (L - 2) = otfW P L (-spin) (L - 1) 1 β 1 t (L - 1) := by
    unfold otfW
    simp only [one_ne_zero, if_false, if_true, max_self]
    rw [max_eq_right (by omega)]
  rw [ho] at hw
  rw [hf, hset, Finset.sum_pair (by omega)]
  beta_reduce
  rw [hw2, hw, show L - 2 + L - 1 = 2 * L - 3 by ring]
  ring

/-- And the forward step writes the degree below. -/
theorem otfAnalyse_leak (hP : PmFits P L spin nt β) (hL : 2 ≤ L) (ftm : ℤ → ℤ → ℂ) (reality : Bool)
    {off : ℤ} (hr : ∀ t, 0 ≤ t → t < nt → PmRegular L spin (β t)) (hs : |spin| < L) :
    otfAnalyse P ftm β L spin nt off (2 * L - 1 + off) reality (L - 1) (L - 2) (L - 2 + L - 1)
      = ∑ t ∈ Finset.Ico 0 nt, (wignerd (L - 1) (L - 2) (-spin) (β t) : ℂ)
          * ftm t (L - 2 + L - 1 + off) := by
  unfold otfAnalyse
  obtain ⟨x, hx, e⟩ := otfRows_read (P := P) (mm := -spin) (lo := L - 1) (β := β) (L := L)
    (emit := fun i m from_ W (flm : ℤ → ℤ → ℂ) => fun l k =>
      if k = pmRow (2 * L - 1) i m ∧ from_ ≤ l then
        ∑ t ∈ Finset.Ico 0 nt, (W t l : ℂ) * ftm t (otfCol (2 * L - 1 + off) off i m)
      else flm l k) reality (fun _ _ => 0) (fun flm : ℤ → ℤ → ℂ => flm (L - 2) (L - 2 + L - 1))
    (fun f W x => if f ≤ L - 2 then ∑ t ∈ Finset.Ico 0 nt, (W t (L - 2) : ℂ)
      * ftm t (L - 2 + L - 1 + off) else x) (m := L - 2) (by omega) (by omega) (fun _ => by omega)
    (by omega)
    (fun i j hi j0 ho f W a => by
      have e1 : otfCol (2 * L - 1 + off) off i j = L - 2 + L - 1 + off := by
        rw [← ho]; unfold pmOrder otfCol pmRow
        rcases hi with rfl | rfl <;> simp <;> ring
      have e2 : pmRow (2 * L - 1) i j = L - 2 + L - 1 := by
        rw [← ho]; unfold pmOrder pmRow
        rcases hi with rfl | rfl <;> simp <;> ring
      simp only [e2, e1, true_and])
    (fun i j hi j0 ho f W a => by
      refine if_neg (fun e => ho ?_)
      have e := e.1
      revert e
      unfold pmOrder pmRow
      rcases hi with rfl | rfl <;> simp <;> intro e <;> linarith)
  rw [e, if_pos (by omega), show L - 1 - (L - 2) = 1 by ring]
  have hf : otfFrom L (L - 1) 1 = L - 2 := by unfold otfFrom; simp
  rw [hf, if_pos le_rfl]
  apply Finset.sum_congr rfl
  intro t ht
  rw [Finset.mem_Ico] at ht
  have hw := otfW_eq (lo := L - 1) (i := 1) (m := 1) hP ht.1 ht.2 (hr t ht.1 ht.2)
    (by omega : |spin| ≤ L - 1) (by omega) le_rfl (by omega) (by omega) (by omega)
    (by rw [hf]; omega)
  have ho : pmOrder L 1 1 = L - 2 := by unfold pmOrder; simp; ring
  have hw2 : otfW P L (-spin) (L - 1) 1 β 1 t (L - 2) = otfW P L (-spin) (L - 1) 1 β 1 t (L - 1) := by
    unfold otfW
    simp only [one_ne_zero, if_false, if_true, max_self]
    rw [max_eq_right (by omega)]
  beta_reduce
  rw [hw2, hw, ho]

end

end S2fft
