import Verif.Model.Turok
import Verif.Lemmas.TrapaniLoops

/-! # Turok & Bucher recursion: rows and slices -/

namespace S2fft
open Spec Real

/-! ## Loops updating each position once -/

theorem scale_loop (lo hi : ℤ) (pos : ℤ → ℤ) (hpos : Function.Injective pos) (f : ℤ → ℝ → ℝ)
    (r : ℤ → ℝ) (k : ℤ) :
    forRange lo hi (fun i r => set1 r (pos i) (f i (r (pos i)))) r (pos k)
      = if lo ≤ k ∧ k < hi then f k (r (pos k)) else r (pos k) := by
  split_ifs with h
  · have := forRange_ind (by omega : lo ≤ hi) (fun i r => set1 r (pos i) (f i (r (pos i)))) r
      (fun i s => (k < i → s (pos k) = f k (r (pos k))) ∧ (i ≤ k → s (pos k) = r (pos k)))
      ⟨fun h' => by omega, fun _ => rfl⟩
      (fun i s h1 h2 h3 => by
        refine ⟨fun h4 => ?_, fun h4 => ?_⟩
        · by_cases e : k = i
          · subst e; rw [set1_same, h3.2 le_rfl]
          · rw [set1_ne _ _ (fun h => e (hpos h)), h3.1 (by omega)]
        · rw [set1_ne _ _ (fun h => by have := hpos h; omega), h3.2 (by omega)])
    exact this.1 h.2
  · refine (forRange_frame _ _ _ _ (fun g : ℤ → ℝ => g (pos k)) ?_)
    intro i s h1 h2
    exact set1_ne _ _ (fun h' => by have := hpos h'; omega)

theorem scale_loop_frame (lo hi : ℤ) (pos : ℤ → ℤ) (f : ℤ → ℝ → ℝ)
    (r : ℤ → ℝ) (x : ℤ) (hx : ∀ k, lo ≤ k → k < hi → x ≠ pos k) :
    forRange lo hi (fun i r => set1 r (pos i) (f i (r (pos i)))) r x = r x := by
  refine (forRange_frame _ _ _ _ (fun g : ℤ → ℝ => g x) ?_)
  intro i s h1 h2
  exact set1_ne _ _ (hx i h1 h2)

/-! ## The recursion -/

theorem turokLamb_eq (β : ℝ) (l row m : ℤ) :
    turokLamb β l (l + row + 1) m = -((row : ℝ) - (m - 1 - l : ℤ) * cos β) / sin β := by
  unfold turokLamb
  push_cast
  congr 1; ring

theorem turok_rec (β : ℝ) (l row m : ℤ) (hs : sin β ≠ 0) (hrow : |row| ≤ l) (h1 : 1 ≤ m)
    (h2 : m ≤ 2 * l) :
    wignerd l row (m - l) β
      = turokLamb β l (l + row + 1) m * (2 / ladder l (m - l)) * wignerd l row (m - 1 - l) β
        - ladder l (m - 1 - l) / ladder l (m - l) * wignerd l row (m - 2 - l) β := by
  have h3 := wignerd_three' l row (m - 1 - l) β hrow (by rw [abs_le]; omega)
  rw [show m - 1 - l + 1 = m - l by ring, show m - 1 - l - 1 = m - 2 - l by ring] at h3
  have hp := (ladder_pos l (m - l) (by omega) (by omega)).ne'
  rw [turokLamb_eq]
  rw [div_mul_div_comm, div_mul_eq_mul_div, div_mul_eq_mul_div, div_sub_div _ _ (mul_ne_zero hs hp) hp,
    eq_div_iff (mul_ne_zero (mul_ne_zero hs hp) hp)]
  linear_combination (2 * ladder l (m - l)) * h3

/-- Coefficients of the recursion. -/
def GoodCoef (l : ℤ) (cpi cp2 : ℤ → ℝ) : Prop :=
  (∀ k, 0 ≤ k → k < l → cpi k = 2 / ladder l (k + 1 - l)) ∧
  (∀ k, 1 ≤ k → k < l → cp2 k = ladder l (k - l) / ladder l (k + 1 - l))

/-- The first `m` entries, rescaled, are the values of the row. -/
def RowInv (β : ℝ) (l row : ℤ) (pos : ℤ → ℤ) (m : ℤ) (st : (ℤ → ℝ) × ℝ) : Prop :=
  ∀ k, 0 ≤ k → k < m → k ≤ l →
    st.1 (pos k) * exp (-st.2) * wignerd l row (-l) β = wignerd l row (k - l) β

theorem rowInv_init (β : ℝ) (l row : ℤ) (cpi cp2 : ℤ → ℝ) (hs : sin β ≠ 0) (hl : 1 ≤ l)
    (hrow : |row| ≤ l) (hc : GoodCoef l cpi cp2) (pos : ℤ → ℤ) (hpos : pos 1 ≠ pos 0)
    (a : ℤ → ℝ) :
    RowInv β l row pos 2 (set1 (set1 a (pos 0) 1) (pos 1)
      (turokLamb β l (l + row + 1) 1 * (set1 a (pos 0) 1) (pos 0) * cpi 0), 0) := by
  intro k h0 h1 _
  obtain rfl | rfl : k = 0 ∨ k = 1 := by omega
  · simp only
    rw [set1_ne _ _ (Ne.symm hpos), set1_same, neg_zero, exp_zero, one_mul, one_mul, zero_sub]
  · simp only
    rw [set1_same, set1_same, hc.1 0 le_rfl (by omega), neg_zero, exp_zero]
    have := turok_rec β l row 1 hs hrow le_rfl (by omega)
    rw [show (1 : ℤ) - 1 - l = -l by ring, ladder_bot] at this
    rw [this, show (0 : ℤ) + 1 - l = 1 - l by ring]
    ring

theorem rowInv_step (β : ℝ) (l row : ℤ) (cpi cp2 : ℤ → ℝ) (hs : sin β ≠ 0)
    (hrow : |row| ≤ l) (hc : GoodCoef l cpi cp2) (pos : ℤ → ℤ) (m : ℤ) (hm : 2 ≤ m)
    (hpos : ∀ k, 0 ≤ k → k < m → pos k ≠ pos m) (st : (ℤ → ℝ) × ℝ) (h : RowInv β l row pos m st) :
    RowInv β l row pos (m + 1) (set1 st.1 (pos m)
      (turokLamb β l (l + row + 1) m * cpi (m - 1) * st.1 (pos (m - 1))
        - cp2 (m - 1) * st.1 (pos (m - 2))), st.2) := by
  intro k h0 h1 h2
  by_cases e : k = m
  · subst e
    simp only
    rw [set1_same, hc.1 (k - 1) (by omega) (by omega), hc.2 (k - 1) (by omega) (by omega),
      turok_rec β l row k hs hrow (by omega) (by omega), sub_add_cancel]
    rw [← h (k - 1) (by omega) (by omega) (by omega), ← h (k - 2) (by omega) (by omega) (by omega)]
    ring
  · simp only
    rw [set1_ne _ _ (hpos k h0 (by omega))]
    exact h k h0 (by omega) h2

theorem turokBig_pos : 0 < turokBig := by unfold turokBig; norm_num

theorem rowInv_rescale (β : ℝ) (l row : ℤ) (pos : ℤ → ℤ) (m : ℤ) (a b : ℤ → ℝ) (r : ℝ)
    (h : RowInv β l row pos m (a, r))
    (hb : ∀ k, 0 ≤ k → k < m → b (pos k) = a (pos k) * (1 / turokBig)) :
    RowInv β l row pos m (b, r - log turokBig) := by
  intro k h0 h1 h2
  rw [← h k h0 h1 h2]
  simp only
  rw [hb k h0 h1, neg_sub, sub_eq_add_neg, exp_add, exp_log turokBig_pos]
  have := turokBig_pos.ne'
  field_simp

theorem turokRow_spec (β : ℝ) (l row : ℤ) (cpi cp2 : ℤ → ℝ) (hs : sin β ≠ 0) (hl : 1 ≤ l)
    (hrow : |row| ≤ l) (hc : GoodCoef l cpi cp2) (pos : ℤ → ℤ) (hpos : Function.Injective pos)
    (hi : ℤ) (a : ℤ → ℝ) :
    let st := turokRow β l (l + row + 1) cpi cp2 pos hi a
    RowInv β l row pos (max hi 2) st ∧
      ∀ x, (∀ k, 0 ≤ k → k < max hi 2 → x ≠ pos k) → st.1 x = a x := by
  have key : ∀ hi, 2 ≤ hi → RowInv β l row pos hi (turokRow β l (l + row + 1) cpi cp2 pos hi a) ∧
      ∀ x, (∀ k, 0 ≤ k → k < hi → x ≠ pos k) →
        (turokRow β l (l + row + 1) cpi cp2 pos hi a).1 x = a x := by
    intro hi h2
    unfold turokRow
    refine forRange_ind h2 _ _ (fun m (st : (ℤ → ℝ) × ℝ) => RowInv β l row pos m st ∧
      ∀ x, (∀ k, 0 ≤ k → k < m → x ≠ pos k) → st.1 x = a x) ⟨?_, ?_⟩ ?_
    · exact rowInv_init β l row cpi cp2 hs hl hrow hc pos (fun h => by have := hpos h; omega) a
    · intro x hx
      simp only
      rw [set1_ne _ _ (hx 1 (by norm_num) (by norm_num)),
        set1_ne _ _ (hx 0 (by norm_num) (by norm_num))]
    · intro m st h3 h4 ⟨h5, h6⟩
      have hst := rowInv_step β l row cpi cp2 hs hrow hc pos m h3
        (fun k _ hk h => by have := hpos h; omega) st h5
      have hfr : ∀ x, (∀ k, 0 ≤ k → k < m + 1 → x ≠ pos k) → (set1 st.1 (pos m)
          (turokLamb β l (l + row + 1) m * cpi (m - 1) * st.1 (pos (m - 1))
            - cp2 (m - 1) * st.1 (pos (m - 2)))) x = a x := by
        intro x hx
        rw [set1_ne _ _ (hx m (by omega) (by omega))]
        exact h6 x (fun k a b => hx k a (by omega))
      simp only
      split_ifs with hbig
      · refine ⟨rowInv_rescale β l row pos (m + 1) _ _ _ hst ?_, ?_⟩
        · intro k h7 h8
          rw [scale_loop 0 (m + 1) pos hpos (fun _ v => v * (1 / turokBig)), if_pos ⟨h7, h8⟩]
        · intro x hx
          simp only
          rw [scale_loop_frame 0 (m + 1) pos (fun _ v => v * (1 / turokBig)) _ x hx]
          exact hfr x hx
      · exact ⟨hst, hfr⟩
  rcases le_total 2 hi with h | h
  · rw [max_eq_left h]; exact key hi h
  · rw [max_eq_right h]
    have e : turokRow β l (l + row + 1) cpi cp2 pos hi a = turokRow β l (l + row + 1) cpi cp2 pos 2 a := by
      unfold turokRow
      rw [forRange_of_le h, forRange_of_le le_rfl]
    simp only [e]
    exact key 2 le_rfl

/-! ## Coefficients -/

theorem ladder_cast (l k : ℤ) (h0 : 0 ≤ k) : ladder l (k + 1 - l) = √(((k : ℝ) + 1) * (2 * l - k)) := by
  unfold ladder
  have : (0 : ℝ) ≤ k := by exact_mod_cast h0
  rw [← Real.sqrt_mul (by push_cast; linarith)]
  congr 1; push_cast; ring

theorem turokCpi_eq (l k : ℤ) (h0 : 0 ≤ k) : turokCpi l k = 2 / ladder l (k + 1 - l) := by
  rw [ladder_cast l k h0]
  unfold turokCpi
  split_ifs with h
  · subst h; norm_num
  · congr 2; ring

theorem turokCoef (l : ℤ) : GoodCoef l (turokCpi l) (turokCp2 l) := by
  refine ⟨fun k h0 _ => turokCpi_eq l k h0, fun k h0 h1 => ?_⟩
  unfold turokCp2
  rw [turokCpi_eq l k (by omega), turokCpi_eq l (k - 1) (by omega), sub_add_cancel]
  have a := (ladder_pos l (k - l) (by omega) (by omega)).ne'
  have b := (ladder_pos l (k + 1 - l) (by omega) (by omega)).ne'
  field_simp

theorem turokCpiFull_eq (l k : ℤ) (h0 : 0 ≤ k) : turokCpiFull l k = 2 / ladder l (k + 1 - l) := by
  rw [ladder_cast l k h0]
  unfold turokCpiFull
  congr 2; push_cast; ring

theorem turokCoefFull (l : ℤ) : GoodCoef l (turokCpiFull l) (turokCp2Full l) := by
  refine ⟨fun k h0 _ => turokCpiFull_eq l k h0, fun k h0 h1 => ?_⟩
  unfold turokCp2Full
  rw [turokCpiFull_eq l k (by omega), turokCpiFull_eq l (k - 1) (by omega), sub_add_cancel]
  have a := (ladder_pos l (k - l) (by omega) (by omega)).ne'
  have b := (ladder_pos l (k + 1 - l) (by omega) (by omega)).ne'
  field_simp

theorem turokCoefJax (junk : ℤ → ℝ) (l L : ℤ) (hL : l < L) :
    GoodCoef l (turokCpiJax junk l L) (turokCp2Jax junk l L) := by
  have e : ∀ k, 0 ≤ k → k < l → turokCpiJax junk l L k = 2 / ladder l (k + 1 - l) := by
    intro k h0 h1
    rw [ladder_cast l k h0]
    unfold turokCpiJax
    rw [if_neg (by omega), if_neg (by omega)]
  refine ⟨e, fun k h0 h1 => ?_⟩
  unfold turokCp2Jax
  rw [if_neg (by omega), e k (by omega) h1, e (k - 1) (by omega) (by omega), sub_add_cancel]
  have a := (ladder_pos l (k - l) (by omega) (by omega)).ne'
  have b := (ladder_pos l (k + 1 - l) (by omega) (by omega)).ne'
  field_simp

/-! ## The first column -/

theorem wignerd_swap_neg (l m n : ℤ) (β : ℝ) : wignerd l m n β = wignerd l (-n) (-m) β := by
  rw [wignerd_neg_neg, wignerd_transpose l m n, add_comm n m]

/-- `exp(log_first_row[k])`. -/
noncomputable def firstCol (β : ℝ) (l k : ℤ) : ℝ :=
  nrm (2 * l) 0 / nrm (2 * l) k * |cos (β / 2)| ^ (2 * l).toNat * |tan (-β / 2)| ^ k.toNat

theorem firstCol_pos (β : ℝ) (l k : ℤ) (hs : sin β ≠ 0) : 0 < firstCol β l k := by
  have h1 : sin β = 2 * sin (β / 2) * cos (β / 2) := by rw [← Real.sin_two_mul]; ring_nf
  have hc : cos (β / 2) ≠ 0 := fun h => hs (by rw [h1, h, mul_zero])
  have hs2 : sin (β / 2) ≠ 0 := fun h => hs (by rw [h1, h, mul_zero, zero_mul])
  have ht : tan (-β / 2) ≠ 0 := by
    rw [neg_div, Real.tan_neg, Real.tan_eq_sin_div_cos]
    exact neg_ne_zero.mpr (div_ne_zero hs2 hc)
  unfold firstCol
  have a := nrm_pos (2 * l) 0
  have b := nrm_pos (2 * l) k
  have c := abs_pos.mpr hc
  have d := abs_pos.mpr ht
  positivity

theorem firstCol_succ (β : ℝ) (l k : ℤ) (hs : sin β ≠ 0) (h0 : 0 ≤ k) (h1 : k < 2 * l) :
    log (firstCol β l k) + log ((2 * l - k) / (k + 1)) / 2 + log |tan (-β / 2)|
      = log (firstCol β l (k + 1)) := by
  have h2 : sin β = 2 * sin (β / 2) * cos (β / 2) := by rw [← Real.sin_two_mul]; ring_nf
  have hc : cos (β / 2) ≠ 0 := fun h => hs (by rw [h2, h, mul_zero])
  have hs2 : sin (β / 2) ≠ 0 := fun h => hs (by rw [h2, h, mul_zero, zero_mul])
  have ht : tan (-β / 2) ≠ 0 := by
    rw [neg_div, Real.tan_neg, Real.tan_eq_sin_div_cos]
    exact neg_ne_zero.mpr (div_ne_zero hs2 hc)
  have d := abs_pos.mpr ht
  have hk : (0 : ℝ) < (k : ℝ) + 1 := by exact_mod_cast (by omega : (0 : ℤ) < k + 1)
  have hk' : (0 : ℝ) < 2 * (l : ℝ) - k := by exact_mod_cast (by omega : (0 : ℤ) < 2 * l - k)
  have hr : (0 : ℝ) < (2 * l - k) / (k + 1) := div_pos hk' hk
  rw [← Real.log_sqrt hr.le, ← Real.log_mul (firstCol_pos β l k hs).ne' (Real.sqrt_pos.mpr hr).ne',
    ← Real.log_mul (mul_pos (firstCol_pos β l k hs) (Real.sqrt_pos.mpr hr)).ne' d.ne']
  congr 1
  unfold firstCol
  rw [show (k + 1).toNat = k.toNat + 1 by omega, pow_succ]
  have hn := nrm_step (2 * l) k h0 h1
  push_cast at hn
  rw [Real.sqrt_div hk'.le]
  have e1 := nrm_ne (2 * l) k
  have e2 := nrm_ne (2 * l) (k + 1)
  have e3 := (Real.sqrt_pos.mpr hk).ne'
  have : √(2 * (l : ℝ) - k) / √((k : ℝ) + 1) = nrm (2 * l) k / nrm (2 * l) (k + 1) := by
    rw [div_eq_div_iff e3 e2, hn]; ring
  rw [this]
  field_simp

theorem firstCol_zero (β : ℝ) (l : ℤ) (hl : 0 ≤ l) :
    log (firstCol β l 0) = 2 * l * log |cos (β / 2)| := by
  unfold firstCol
  rw [div_self (nrm_ne _ _), one_mul, show Int.toNat 0 = 0 from rfl, pow_zero, mul_one, Real.log_pow]
  congr 1
  have : (((2 * l).toNat : ℤ) : ℝ) = ((2 * l : ℤ) : ℝ) := by rw [Int.toNat_of_nonneg (by omega)]
  push_cast at this
  exact this

theorem turokLogRow_eq (β : ℝ) (l top k : ℤ) (hs : sin β ≠ 0) (hl : 0 ≤ l) (h0 : 0 ≤ k)
    (h1 : k < top) (h2 : top ≤ 2 * l + 1) : turokLogRow β l top k = log (firstCol β l k) := by
  unfold turokLogRow
  have := forRange_ind (σ := ℤ → ℝ) (lo := 2) (hi := max 2 (top + 1)) (le_max_left _ _)
    (fun i r => set1 r (i - 1) (r (i - 2) + log ((2 * l + 2 - i) / (i - 1)) / 2 + log |tan (-β / 2)|))
    (set1 (fun _ => 0) 0 (2 * l * log |cos (β / 2)|))
    (fun i r => ∀ k, 0 ≤ k → k < i - 1 → r k = log (firstCol β l k))
    (fun k a b => by
      obtain rfl : k = 0 := by omega
      rw [set1_same, firstCol_zero β l hl])
    (fun i r a b c k d e => by
      by_cases hk : k = i - 1
      · subst hk
        have := firstCol_succ β l (i - 2) hs (by omega) (by omega)
        rw [set1_same, c (i - 2) (by omega) (by omega), ← show i - 2 + 1 = i - 1 by ring, ← this]
        congr 3
        push_cast
        congr 1 <;> ring
      · rw [set1_ne _ _ hk, c k d (by omega)])
  rw [max_eq_right (by omega : (2 : ℤ) ≤ top + 1)] at this
  exact this k h0 (by omega)

theorem turok_first (β : ℝ) (l row : ℤ) (hs : sin β ≠ 0) (hrow : |row| ≤ l) :
    (tan (-β / 2) / |tan (-β / 2)|) ^ (l + row).toNat * firstCol β l (l + row)
      = wignerd l row (-l) β := by
  have h2 : sin β = 2 * sin (β / 2) * cos (β / 2) := by rw [← Real.sin_two_mul]; ring_nf
  have hc : cos (β / 2) ≠ 0 := fun h => hs (by rw [h2, h, mul_zero])
  have hs2 : sin (β / 2) ≠ 0 := fun h => hs (by rw [h2, h, mul_zero, zero_mul])
  have ht' : tan (-β / 2) = -sin (β / 2) / cos (β / 2) := by
    rw [neg_div, Real.tan_neg, Real.tan_eq_sin_div_cos, neg_div]
  have ht : tan (-β / 2) ≠ 0 := by
    rw [ht']; exact div_ne_zero (neg_ne_zero.mpr hs2) hc
  rw [wignerd_swap_neg, neg_neg, wignerd_top l (-row) β (by rwa [abs_neg])]
  rw [abs_le] at hrow
  unfold firstCol
  rw [show l + -row = 2 * l - (l + row) by ring, nrm_reflect,
    show nrm (2 * l) (2 * l) = nrm (2 * l) 0 by rw [← nrm_reflect (2 * l) 0, sub_zero],
    show l - -row = l + row by ring, div_pow]
  have habs : |tan (-β / 2)| ^ (l + row).toNat ≠ 0 := pow_ne_zero _ (abs_pos.mpr ht).ne'
  rw [show |cos (β / 2)| ^ (2 * l).toNat = cos (β / 2) ^ (2 * l).toNat from
    Even.pow_abs ⟨l.toNat, by omega⟩ _]
  have : tan (-β / 2) ^ (l + row).toNat / |tan (-β / 2)| ^ (l + row).toNat *
      (nrm (2 * l) 0 / nrm (2 * l) (l + row) * cos (β / 2) ^ (2 * l).toNat *
        |tan (-β / 2)| ^ (l + row).toNat)
      = nrm (2 * l) 0 / nrm (2 * l) (l + row) * (cos (β / 2) ^ (2 * l).toNat *
        tan (-β / 2) ^ (l + row).toNat) := by
    generalize |tan (-β / 2)| ^ (l + row).toNat = w at habs ⊢
    field_simp
  rw [this, ht', div_pow, show (2 * l).toNat = (2 * l - (l + row)).toNat + (l + row).toNat by omega,
    pow_add]
  have := pow_ne_zero (l + row).toNat hc
  field_simp

theorem sign_sq (x : ℝ) (hx : x ≠ 0) : x / |x| = 1 ∨ x / |x| = -1 := by
  rcases lt_or_gt_of_ne hx with h | h
  · right; rw [abs_of_neg h, div_neg, div_self hx]
  · left; rw [abs_of_pos h, div_self hx]

theorem sign_pow_mod (u : ℝ) (hu : u = 1 ∨ u = -1) (k : ℤ) (hk : 0 ≤ k) :
    u ^ (k % 2).toNat = u ^ k.toNat := by
  rcases hu with rfl | rfl
  · rw [one_pow, one_pow]
  · rw [negOne_toNat (by omega), negOne_toNat hk]
    exact negOne_congr (by rw [Int.even_iff]; omega)

theorem tan_half_ne (β : ℝ) (hs : sin β ≠ 0) : tan (-β / 2) ≠ 0 := by
  have h2 : sin β = 2 * sin (β / 2) * cos (β / 2) := by rw [← Real.sin_two_mul]; ring_nf
  have hc : cos (β / 2) ≠ 0 := fun h => hs (by rw [h2, h, mul_zero])
  have hs2 : sin (β / 2) ≠ 0 := fun h => hs (by rw [h2, h, mul_zero, zero_mul])
  rw [neg_div, Real.tan_neg, Real.tan_eq_sin_div_cos]
  exact neg_ne_zero.mpr (div_ne_zero hs2 hc)

theorem turok_renorm (β : ℝ) (l row : ℤ) (hs : sin β ≠ 0) (hrow : |row| ≤ l) (lr r : ℝ)
    (h : lr = log (firstCol β l (l + row))) :
    turokSign β (l + row + 1) * exp (lr - r) = wignerd l row (-l) β * exp (-r) := by
  have hrow' := hrow
  rw [abs_le] at hrow'
  rw [h, sub_eq_add_neg, exp_add, exp_log (firstCol_pos β l _ hs), ← mul_assoc]
  congr 1
  unfold turokSign
  rw [show l + row + 1 - 1 = l + row by ring,
    sign_pow_mod _ (sign_sq _ (tan_half_ne β hs)) _ (by omega), turok_first β l row hs hrow]

/-! ## The slice -/

theorem linear_pos_inj (a b : ℤ) (hb : b = 1 ∨ b = -1) : Function.Injective fun k : ℤ => a + b * k := by
  intro x y h
  rcases hb with rfl | rfl
  · simp only at h; omega
  · simp only at h; omega

theorem turokQuarterSlice_generic (dl : ℤ → ℝ) (β : ℝ) (el L mm : ℤ) (po : Bool)
    (h0 : ¬ isclose β 0 1e-8) (hp : ¬ isclose β Real.pi 1e-8) (hs : sin β ≠ 0) (hel : 1 ≤ el)
    (hmm : |mm| ≤ el) (m : ℤ) (hm : |m| ≤ el) (hpo : po = true → 0 ≤ m) :
    turokQuarterSlice dl β el L mm po (m + L - 1) = wignerd el m mm β := by
  have hmm' := hmm
  have hm' := hm
  rw [abs_le] at hmm' hm'
  unfold turokQuarterSlice
  rw [if_neg h0, if_neg hp, if_neg (by omega)]
  simp only
  -- first half
  set lfr := turokLogRow β el (max (el + mm + 1) (el - mm + 1)) with hlfr
  have hl1 : lfr (el + mm + 1 - 1) = log (firstCol β el (el + mm)) := by
    rw [hlfr, show el + mm + 1 - 1 = el + mm by ring]
    exact turokLogRow_eq β el _ _ hs (by omega) (by omega) (by omega) (by omega)
  have hl2 : lfr (el - mm + 1 - 1) = log (firstCol β el (el + -mm)) := by
    rw [hlfr, show el - mm + 1 - 1 = el + -mm by ring]
    exact turokLogRow_eq β el _ _ hs (by omega) (by omega) (by omega) (by omega)
  set st0 := turokRow β el (el + mm + 1) (turokCpi el) (turokCp2 el) (fun k => L - 1 - el + 1 * k)
    (el + 1) dl with hst0
  set dl1 : ℤ → ℝ := if po = true then dl else
      forRange 0 el (fun m dl => set1 dl (L - 1 - el + 1 * m) (dl (L - 1 - el + 1 * m) *
        (turokSign β (el + mm + 1) * exp (lfr (el + mm + 1 - 1) - st0.2)))) st0.1 with hdl1
  have A : po = false → ∀ k, 0 ≤ k → k < el → dl1 (L - 1 - el + 1 * k) = wignerd el mm (k - el) β := by
    intro hpo' k h1 h2
    rw [hdl1, hpo', if_neg (by simp)]
    rw [scale_loop 0 el _ (linear_pos_inj _ _ (Or.inl rfl)) (fun _ v => v *
      (turokSign β (el + mm + 1) * exp (lfr (el + mm + 1 - 1) - st0.2))), if_pos ⟨h1, h2⟩,
      turok_renorm β el mm hs hmm _ _ hl1]
    have := (turokRow_spec β el mm _ _ hs hel hmm (turokCoef el) _
      (linear_pos_inj (L - 1 - el) 1 (Or.inl rfl)) (el + 1) dl).1 k h1 (by omega) (by omega)
    rw [← this]; ring
  set st1 := turokRow β el (el - mm + 1) (turokCpi el) (turokCp2 el) (fun k => L - 1 + el + -1 * k)
    (el + 1) dl1 with hst1
  have hspec := turokRow_spec β el (-mm) _ _ hs hel (by rwa [abs_neg]) (turokCoef el) _
      (linear_pos_inj (L - 1 + el) (-1) (Or.inr rfl)) (el + 1) dl1
  rw [show el + -mm + 1 = el - mm + 1 by ring, ← hst1] at hspec
  set dl2 : ℤ → ℝ := forRange 0 (el + 1) (fun m dl => set1 dl (L - 1 + el + -1 * m)
      ((-1) ^ ((mm - m + el) % 2).toNat * dl (L - 1 + el + -1 * m) *
        (turokSign β (el - mm + 1) * exp (lfr (el - mm + 1 - 1) - st1.2)))) st1.1 with hdl2
  have B : ∀ k, 0 ≤ k → k ≤ el → dl2 (L - 1 + el + -1 * k)
      = (-1) ^ (mm - k + el) * wignerd el (-mm) (k - el) β := by
    intro k h1 h2
    rw [hdl2, scale_loop 0 (el + 1) _ (linear_pos_inj _ _ (Or.inr rfl))
      (fun m v => (-1) ^ ((mm - m + el) % 2).toNat * v *
        (turokSign β (el - mm + 1) * exp (lfr (el - mm + 1 - 1) - st1.2))), if_pos ⟨h1, by omega⟩]
    have hr := turok_renorm β el (-mm) hs (by rwa [abs_neg]) _ st1.2 hl2
    rw [show el + -mm + 1 = el - mm + 1 by ring] at hr
    rw [hr, ← hspec.1 k h1 (by omega) (by omega), negOne_toNat (by omega),
      negOne_congr (a := (mm - k + el) % 2) (b := mm - k + el) (by rw [Int.even_iff]; omega)]
    ring
  have C : po = false → ∀ k, 0 ≤ k → k < el → dl2 (L - 1 - el + 1 * k) = wignerd el mm (k - el) β := by
    intro hpo' k h1 h2
    rw [hdl2, scale_loop_frame 0 (el + 1) (fun m => L - 1 + el + -1 * m)
      (fun m v => (-1) ^ ((mm - m + el) % 2).toNat * v *
        (turokSign β (el - mm + 1) * exp (lfr (el - mm + 1 - 1) - st1.2))) _ _
        (fun j _ _ => by omega),
      hspec.2 _ (fun j _ _ => by omega), A hpo' k h1 h2]
  -- final signs
  have hinj : Function.Injective (fun m : ℤ => m + L - 1) := fun x y h => by simp only at h; omega
  have F := scale_loop (if po = true then 0 else -el) (el + 1) (fun m => m + L - 1) hinj
    (fun m v => v * (-1) ^ (|mm - m|).toNat) dl2 m
  rw [F, if_pos (by
    cases po
    · simp only [Bool.false_eq_true, if_false]; omega
    · simp only [if_true]; have := hpo rfl; omega)]
  rw [negOne_toNat (abs_nonneg _)]
  have habs : (-1 : ℝ) ^ |mm - m| = (-1) ^ (mm + m) := by
    rcases abs_choice (mm - m) with h | h
    · rw [h]; exact negOne_congr ⟨-m, by ring⟩
    · rw [h]; exact negOne_congr ⟨-mm, by ring⟩
  rw [habs]
  by_cases hneg : m < 0
  · have hpof : po = false := by
      cases po
      · rfl
      · have := hpo rfl; omega
    have := C hpof (m + el) (by omega) (by omega)
    rw [show L - 1 - el + 1 * (m + el) = m + L - 1 by ring, show m + el - el = m by ring] at this
    rw [this, wignerd_transpose el m mm, add_comm m mm, mul_comm]
  · have := B (el - m) (by omega) (by omega)
    rw [show L - 1 + el + -1 * (el - m) = m + L - 1 by ring, show mm - (el - m) + el = mm + m by ring,
      show el - m - el = -m by ring] at this
    rw [this, mul_comm, ← mul_assoc, negOne_self, one_mul, ← wignerd_swap_neg]

end S2fft
