import Verif.Lemmas.TurokPlane
import Mathlib.Analysis.Real.Pi.Bounds

/-! # Turok & Bucher recursion: poles, whole plane, JAX slice, size of pole windows -/

namespace S2fft
open Spec Real

/-! ## Wigner-d functions are bounded and Lipschitz -/

theorem wignerd_abs_le_one (l m n : ℤ) (β : ℝ) : |wignerd l m n β| ≤ 1 := by
  by_cases h : |m| ≤ l ∧ |n| ≤ l
  · have hs := wignerd_orthonormal l m m β
    rw [if_pos ⟨h.1, rfl⟩] at hs
    have hn := h.2
    rw [abs_le] at hn
    have hle : wignerd l m n β * wignerd l m n β ≤ 1 := by
      rw [← hs]
      exact Finset.single_le_sum (f := fun k => wignerd l m k β * wignerd l m k β)
        (fun k _ => mul_self_nonneg _) (Finset.mem_Ico.mpr ⟨by omega, by omega⟩)
    rw [← sq] at hle
    exact abs_le_one_iff_mul_self_le_one.mpr (by rw [← sq]; exact hle)
  · rw [wignerd_outside _ _ _ _ (by omega)]; norm_num

theorem ladder_le (l n : ℤ) (h1 : -l ≤ n) (h2 : n ≤ l + 1) : ladder l n ≤ l + 1 / 2 := by
  have hn := ladder_sq l n h1 h2
  have hl : (0 : ℝ) ≤ l + 1 / 2 := by
    have : (-1 : ℝ) ≤ 2 * l := by exact_mod_cast (by omega : (-1 : ℤ) ≤ 2 * l)
    linarith
  refine le_of_sq_le_sq ?_ hl
  rw [hn]
  nlinarith [sq_nonneg ((n : ℝ) - 1 / 2)]

theorem wignerd_lipschitz (l m n : ℤ) (hl : 0 ≤ l) (β β' : ℝ) :
    |wignerd l m n β - wignerd l m n β'| ≤ (l + 1) * |β - β'| := by
  have hl' : (0 : ℝ) ≤ l := by exact_mod_cast hl
  by_cases h : |m| ≤ l ∧ |n| ≤ l
  · have hn := h.2
    rw [abs_le] at hn
    have := Convex.norm_image_sub_le_of_norm_hasDerivWithin_le (𝕜 := ℝ) (s := Set.univ)
      (f := wignerd l m n) (C := (l : ℝ) + 1) (x := β') (y := β)
      (fun x _ => (hasDerivAt_wignerd l m n x).hasDerivWithinAt)
      (fun x _ => by
        have a := wignerd_abs_le_one l m (n - 1) x
        have b := wignerd_abs_le_one l m (n + 1) x
        have c := ladder_le l n (by omega) (by omega)
        have d := ladder_le l (n + 1) (by omega) (by omega)
        have c0 : 0 ≤ ladder l n := mul_nonneg (Real.sqrt_nonneg _) (Real.sqrt_nonneg _)
        have d0 : 0 ≤ ladder l (n + 1) := mul_nonneg (Real.sqrt_nonneg _) (Real.sqrt_nonneg _)
        rw [Real.norm_eq_abs, abs_div, abs_two, div_le_iff₀ (by norm_num)]
        refine (abs_sub _ _).trans ?_
        rw [abs_mul, abs_mul, abs_of_nonneg c0, abs_of_nonneg d0]
        nlinarith [mul_le_mul c a (abs_nonneg _) (by linarith), mul_le_mul d b (abs_nonneg _) (by linarith)])
      convex_univ (Set.mem_univ _) (Set.mem_univ _)
    exact this
  · rw [wignerd_outside _ _ _ _ (by omega), wignerd_outside _ _ _ _ (by omega), sub_self, abs_zero]
    positivity

/-! ## Slices at the poles -/

theorem turokQuarterSlice_north (β : ℝ) (el L mm : ℤ) (po : Bool) (h : isclose β 0 1e-8)
    (hmm : |mm| ≤ el) (m : ℤ) :
    turokQuarterSlice (fun _ => 0) β el L mm po (m + L - 1) = wignerd el m mm 0 := by
  unfold turokQuarterSlice
  rw [if_pos h, wignerd_at_zero]
  unfold set1
  by_cases e : m = mm
  · rw [if_pos (by omega), if_pos ⟨by rwa [e], e⟩]
  · rw [if_neg (by omega), if_neg (by tauto)]

theorem turokQuarterSlice_south (β : ℝ) (el L mm : ℤ) (po : Bool) (h0 : ¬ isclose β 0 1e-8)
    (h : isclose β Real.pi 1e-8) (hmm : |mm| ≤ el) (m : ℤ) :
    turokQuarterSlice (fun _ => 0) β el L mm po (m + L - 1) = wignerd el m mm Real.pi := by
  unfold turokQuarterSlice
  rw [if_neg h0, if_pos h, wignerd_at_pi]
  unfold set1
  by_cases e : m = -mm
  · rw [if_pos (by omega), if_pos ⟨by rwa [e, abs_neg], e⟩]
  · rw [if_neg (by omega), if_neg (by tauto)]

theorem turokQuarterSlice_zero (β : ℝ) (L : ℤ) (po : Bool) (h0 : ¬ isclose β 0 1e-8)
    (hp : ¬ isclose β Real.pi 1e-8) (m : ℤ) :
    turokQuarterSlice (fun _ => 0) β 0 L 0 po (m + L - 1) = wignerd 0 m 0 β := by
  unfold turokQuarterSlice
  rw [if_neg h0, if_neg hp, if_pos rfl]
  unfold set1
  by_cases e : m = 0
  · rw [if_pos (by omega), e, wignerd_zero]
  · rw [if_neg (by omega), wignerd_outside]
    left; exact abs_pos.mpr e

/-! ## The plane -/

/-- The angle whose plane is computed: the nearest pole inside the pole windows. -/
noncomputable def snapAngle (β : ℝ) : ℝ :=
  open Classical in
  if isclose β 0 1e-8 then 0 else if isclose β Real.pi 1e-8 then Real.pi else β

theorem turokFull_plane (β : ℝ) (l L : ℤ) (hl : 0 ≤ l)
    (hs : ¬ isclose β 0 1e-8 → ¬ isclose β Real.pi 1e-8 → sin β ≠ 0) (x y : ℤ) :
    turokFill (turokQuarter (fun _ _ => 0) β l L) l L x y = tgtB (snapAngle β) L l x y := by
  have fin : (∀ x y, (let c := 1 - (L - 1 - l)
        1 ≤ y + c ∧ ((x + c ≤ l + 1 ∧ y ≤ x) ∨ (l + 2 ≤ x + c ∧ y + c ≤ 2 * l + 2 - (x + c)))) →
        turokQuarter (fun _ _ => 0) β l L x y = tgtB (snapAngle β) L l x y) →
      (∀ x y, (let c := 1 - (L - 1 - l)
        x + c < 1 ∨ 2 * l + 1 < x + c ∨ y + c < 1 ∨ 2 * l + 1 < y + c) →
        turokQuarter (fun _ _ => 0) β l L x y = 0) →
      turokFill (turokQuarter (fun _ _ => 0) β l L) l L x y = tgtB (snapAngle β) L l x y := by
    intro h1 h2
    obtain ⟨a, b⟩ := turokFill_est (snapAngle β) l L hl _ h1
    by_cases h : x + (1 - (L - 1 - l)) < 1 ∨ 2 * l + 1 < x + (1 - (L - 1 - l)) ∨
        y + (1 - (L - 1 - l)) < 1 ∨ 2 * l + 1 < y + (1 - (L - 1 - l))
    · apply a
      rw [h2 x y h, tgtB, wignerd_outside]
      rcases h with h | h | h | h
      · left; rw [lt_abs]; omega
      · left; rw [lt_abs]; omega
      · right; rw [lt_abs]; omega
      · right; rw [lt_abs]; omega
    · exact b x y ⟨⟨by omega, by omega⟩, by omega, by omega⟩
  have whole : (∀ x y, turokQuarter (fun _ _ => 0) β l L x y = tgtB (snapAngle β) L l x y) →
      turokFill (turokQuarter (fun _ _ => 0) β l L) l L x y = tgtB (snapAngle β) L l x y := by
    intro h
    obtain ⟨a, b⟩ := turokFill_est (snapAngle β) l L hl _ (fun x y _ => h x y)
    exact a x y (h x y)
  by_cases h0 : isclose β 0 1e-8
  · apply whole
    intro x y
    unfold turokQuarter snapAngle tgtB
    rw [if_pos h0, if_pos h0, wignerd_at_zero]
    have key : (|x - (L - 1)| ≤ l ∧ x - (L - 1) = y - (L - 1)) ↔
        ((L - 1 - l ≤ x ∧ x < L + l) ∧ (L - 1 - l ≤ y ∧ y < L + l)) ∧ x = y := by
      rw [abs_le]; omega
    simp only [key]
    by_cases e : (L - 1 - l ≤ x ∧ x < L + l) ∧ (L - 1 - l ≤ y ∧ y < L + l)
    · simp only [e, true_and, if_true, and_self]
    · simp only [e, false_and, if_false]
  · by_cases hp : isclose β Real.pi 1e-8
    · apply whole
      intro x y
      unfold turokQuarter snapAngle tgtB
      rw [if_neg h0, if_pos hp, if_neg h0, if_pos hp, wignerd_at_pi]
      by_cases e : |x - (L - 1)| ≤ l ∧ x - (L - 1) = -(y - (L - 1))
      · rw [if_pos e]
        have e1 := e.1
        rw [abs_le] at e1
        refine forRange_write _ _ _ _ (fun g : ℤ → ℤ → ℝ => g x y) (y - (L - 1)) _ (by omega)
          (by omega) ?_ ?_
        · intro s
          unfold set2
          rw [if_pos ⟨by omega, by omega⟩, negOne_toNat (by omega)]
        · intro i s h1 h2 h3
          unfold set2
          rw [if_neg (by omega)]
      · rw [if_neg e]
        refine (forRange_frame _ _ _ _ (fun g : ℤ → ℤ → ℝ => g x y) ?_)
        intro i s h1 h2
        unfold set2
        rw [if_neg]
        rintro ⟨a, b⟩
        exact e ⟨by rw [abs_le]; omega, by omega⟩
    · have hsn : snapAngle β = β := by unfold snapAngle; rw [if_neg h0, if_neg hp]
      by_cases hz : l = 0
      · apply whole
        intro x y
        rw [hsn]
        subst hz
        unfold turokQuarter tgtB
        rw [if_neg h0, if_neg hp, if_pos rfl]
        unfold set2
        by_cases e : x = L - 1 ∧ y = L - 1
        · rw [if_pos e, e.1, e.2, sub_self, wignerd_zero]
        · rw [if_neg e, wignerd_outside]
          rcases not_and_or.mp e with h | h
          · left; exact abs_pos.mpr (by omega)
          · right; exact abs_pos.mpr (by omega)
      · obtain ⟨g1, g2⟩ := turokQuarter_generic (fun _ _ => 0) β l L h0 hp (hs h0 hp) (by omega)
        apply fin
        · intro x y h
          rw [hsn]
          have := g1 (x + (1 - (L - 1 - l))) (y + (1 - (L - 1 - l))) h.1 (by omega)
          rw [add_sub_cancel_right, add_sub_cancel_right] at this
          rw [this, tgtB]
          congr 1 <;> ring
        · intro x y h
          have := g2 (x + (1 - (L - 1 - l))) (y + (1 - (L - 1 - l))) h
          rwa [add_sub_cancel_right, add_sub_cancel_right] at this

/-! ## The JAX slice -/

theorem turokRowJax_spec (β : ℝ) (l row : ℤ) (cpi cp2 : ℤ → ℝ) (hs : sin β ≠ 0) (hl : 1 ≤ l)
    (hrow : |row| ≤ l) (hc : GoodCoef l cpi cp2) (pos inv : ℤ → ℤ) (hinv : ∀ k, inv (pos k) = k)
    (L : ℤ) (hL : 2 ≤ L) (a : ℤ → ℝ) :
    let st := turokRowJax β l (l + row + 1) cpi cp2 pos inv L a
    RowInv β l row pos L st ∧ ∀ x, L ≤ inv x → st.1 x = a x := by
  have hpos : Function.Injective pos := fun x y h => by rw [← hinv x, h, hinv]
  have hne : ∀ x k, k < L → L ≤ inv x → x ≠ pos k := fun x k h1 h2 h => by
    rw [h, hinv] at h2; omega
  unfold turokRowJax
  refine forRange_ind hL _ _ (fun m (st : (ℤ → ℝ) × ℝ) => RowInv β l row pos m st ∧
    ∀ x, L ≤ inv x → st.1 x = a x) ⟨?_, ?_⟩ ?_
  · exact rowInv_init β l row cpi cp2 hs hl hrow hc pos (fun h => by have := hpos h; omega) a
  · intro x hx
    simp only
    rw [set1_ne _ _ (hne x 1 (by omega) hx), set1_ne _ _ (hne x 0 (by omega) hx)]
  · intro m st h3 h4 ⟨h5, h6⟩
    have hst := rowInv_step β l row cpi cp2 hs hrow hc pos m h3
      (fun k _ hk h => by have := hpos h; omega) st h5
    simp only
    split_ifs with hbig
    · refine ⟨rowInv_rescale β l row pos (m + 1) _ _ _ hst ?_, ?_⟩
      · intro k h7 h8
        rw [hinv, if_pos h8, mul_comm]
      · intro x hx
        simp only
        rw [if_neg (by omega), set1_ne _ _ (hne x m h4 hx), h6 x hx]
    · refine ⟨hst, fun x hx => ?_⟩
      simp only
      rw [set1_ne _ _ (hne x m h4 hx), h6 x hx]

theorem turokLogRowJax_eq (β : ℝ) (l L mm k : ℤ) (hs : sin β ≠ 0) (hl : 0 ≤ l) (hL : l < L)
    (h0 : 0 ≤ k) (h1 : k ≤ l + |mm|) (h2 : |mm| ≤ l) :
    turokLogRowJax β l L mm k = log (firstCol β l k) := by
  unfold turokLogRowJax
  have hmm := abs_nonneg mm
  have := forRange_ind (σ := ℤ → ℝ) (by omega : 1 ≤ L + |mm|)
    (fun i r => set1 r i (r (i - 1) + log ((2 * l + 2 - i - 1) / i) / 2 + log |tan (-β / 2)|))
    (set1 (fun _ => 0) 0 (2 * l * log |cos (β / 2)|))
    (fun i r => ∀ k, 0 ≤ k → k < i → k ≤ 2 * l → r k = log (firstCol β l k))
    (fun k a b _ => by
      obtain rfl : k = 0 := by omega
      rw [set1_same, firstCol_zero β l hl])
    (fun i r a b c k d e f => by
      by_cases hk : k = i
      · subst hk
        have := firstCol_succ β l (k - 1) hs (by omega) (by omega)
        rw [sub_add_cancel] at this
        rw [set1_same, c (k - 1) (by omega) (by omega) (by omega), ← this]
        congr 3
        push_cast
        congr 1 <;> ring
      · rw [set1_ne _ _ hk, c k d (by omega) f])
  exact this k h0 (by omega) (by omega)

theorem turokQuarterSliceJax_spec (junk : ℤ → ℝ) (dl : ℤ → ℝ) (β : ℝ) (el L mm : ℤ)
    (hs : sin β ≠ 0) (hel : 1 ≤ el) (hL : el < L) (hmm : |mm| ≤ el) :
    (∀ k, 0 ≤ k → k < el → turokQuarterSliceJax junk dl β el L mm k = wignerd el mm (k - el) β) ∧
    (∀ k, 0 ≤ k → k ≤ el → turokQuarterSliceJax junk dl β el L mm (2 * L - 2 - k)
      = (-1) ^ (mm - k + el) * wignerd el (-mm) (k - el) β) := by
  have hmm' := hmm
  rw [abs_le] at hmm'
  have habs : mm ≤ |mm| := le_abs_self mm
  have habs' : -mm ≤ |mm| := neg_le_abs mm
  unfold turokQuarterSliceJax
  simp only
  set lfr := turokLogRowJax β el L mm with hlfr
  have hl1 : lfr (el + mm + 1 - 1) = log (firstCol β el (el + mm)) := by
    rw [hlfr, show el + mm + 1 - 1 = el + mm by ring]
    exact turokLogRowJax_eq β el L mm _ hs (by omega) hL (by omega) (by omega) hmm
  have hl2 : lfr (el - mm + 1 - 1) = log (firstCol β el (el + -mm)) := by
    rw [hlfr, show el - mm + 1 - 1 = el + -mm by ring]
    exact turokLogRowJax_eq β el L mm _ hs (by omega) hL (by omega) (by omega) hmm
  have s0 := turokRowJax_spec β el mm _ _ hs hel hmm (turokCoefJax junk el L hL) (fun k => k)
    (fun x => x) (fun _ => rfl) L (by omega) dl
  set st0 := turokRowJax β el (el + mm + 1) (turokCpiJax junk el L) (turokCp2Jax junk el L)
    (fun k => k) (fun x => x) L dl with hst0
  set dl1 : ℤ → ℝ := fun x => if x < L - 1 then
      st0.1 x * (turokSign β (el + mm + 1) * exp (lfr (el + mm + 1 - 1) - st0.2)) else st0.1 x with hdl1
  have s1 := turokRowJax_spec β el (-mm) _ _ hs hel (by rwa [abs_neg]) (turokCoefJax junk el L hL)
    (fun k => 2 * L - 2 - k) (fun x => 2 * L - 2 - x) (fun k => by ring) L (by omega) dl1
  rw [show el + -mm + 1 = el - mm + 1 by ring] at s1
  set st1 := turokRowJax β el (el - mm + 1) (turokCpiJax junk el L) (turokCp2Jax junk el L)
    (fun k => 2 * L - 2 - k) (fun x => 2 * L - 2 - x) L dl1 with hst1
  refine ⟨fun k h1 h2 => ?_, fun k h1 h2 => ?_⟩
  · rw [if_neg (by omega), s1.2 k (by omega), hdl1]
    simp only
    rw [if_pos (by omega), turok_renorm β el mm hs hmm _ _ hl1, ← s0.1 k h1 (by omega) (by omega)]
    ring
  · have hr := turok_renorm β el (-mm) hs (by rwa [abs_neg]) _ st1.2 hl2
    rw [show el + -mm + 1 = el - mm + 1 by ring] at hr
    rw [if_pos ⟨by omega, by omega⟩, hr, ← s1.1 k h1 (by omega) (by omega), negOne_toNat (by omega),
      negOne_congr (a := (mm - (2 * L - 1 - (2 * L - 2 - k)) + el + 1) % 2) (b := mm - k + el)
        (by rw [Int.even_iff]; omega)]
    ring

theorem turokReindex_neg (dl : ℤ → ℝ) (el L mm m : ℤ) (hL : el < L) (h1 : -el ≤ m) (h2 : m < 0) :
    turokReindex dl el L mm (m + L - 1) = dl (m + el) * (-1) ^ (mm - m) := by
  unfold turokReindex rollJax
  simp only
  rw [if_neg (by omega), if_pos (by omega), negOne_toNat (by omega),
    show m + L - 1 - (L - el - 1) = m + el by ring, Int.emod_eq_of_lt (by omega) (by omega)]
  congr 1
  exact negOne_congr (by rw [Int.even_iff]; omega)

theorem turokReindex_nonneg (dl : ℤ → ℝ) (el L mm m : ℤ) (hL : el < L) (h1 : 0 ≤ m) (h2 : m ≤ el) :
    turokReindex dl el L mm (m + L - 1) = dl (2 * L - 2 - (el - m)) * (-1) ^ (mm - m) := by
  unfold turokReindex rollJax
  simp only
  rw [if_pos (by omega), show m + L - 1 - -(L - el - 1) = 2 * L - 2 - (el - m) by ring,
    Int.emod_eq_of_lt (by omega) (by omega), if_neg (by omega), negOne_toNat (by omega)]
  congr 1
  exact negOne_congr (by rw [Int.even_iff]; omega)

theorem turokSliceJax_generic (junk : ℤ → ℝ) (β : ℝ) (el L mm : ℤ) (h0 : ¬ |β| < 1e-10)
    (hp : ¬ |β - Real.pi| < 1e-10) (hs : sin β ≠ 0) (hel : 1 ≤ el) (hL : el < L)
    (hmm : |mm| ≤ el) (m : ℤ) (hm : |m| ≤ el) :
    turokSliceJax junk β el L mm (m + L - 1) = wignerd el m mm β := by
  rw [abs_le] at hm
  unfold turokSliceJax
  rw [if_neg (by omega : ¬ el = 0), if_neg hp, if_neg h0,
    if_neg (by rintro ⟨x, _, _, h⟩; exact h rfl)]
  obtain ⟨a, b⟩ := turokQuarterSliceJax_spec junk (fun _ => 0) β el L mm hs hel hL hmm
  by_cases hneg : m < 0
  · rw [turokReindex_neg _ _ _ _ _ hL hm.1 hneg, a (m + el) (by omega) (by omega),
      show m + el - el = m by ring, wignerd_transpose el m mm, mul_comm]
    congr 1
    exact negOne_congr ⟨-m, by ring⟩
  · rw [turokReindex_nonneg _ _ _ _ _ hL (by omega) hm.2, b (el - m) (by omega) (by omega),
      show mm - (el - m) + el = mm + m by ring, show el - m - el = -m by ring, wignerd_swap_neg el m mm,
      mul_right_comm, negOne_mul, negOne_congr (b := 0) ⟨mm, by ring⟩, zpow_zero, one_mul]

theorem turokSliceJax_zero (junk : ℤ → ℝ) (β : ℝ) (L : ℤ) (hL : 0 < L) :
    turokSliceJax junk β 0 L 0 (0 + L - 1) = 1 := by
  have h : turokSliceJax junk β 0 L 0 = turokReindex (turokEl0 L) 0 L 0 := by
    unfold turokSliceJax
    simp only [if_true]
    rw [if_pos ⟨2 * L - 2, by omega, by omega, by
      simp only [if_true]; unfold turokEl0; rw [set1_same]; norm_num⟩]
  rw [h, turokReindex_nonneg _ _ _ _ _ hL le_rfl le_rfl]
  unfold turokEl0
  rw [show 2 * L - 2 - (0 - 0) = 2 * L - 2 by ring, set1_same]
  norm_num

/-- Reindexing an array with a single entry, at the place for order `n`. -/
theorem turokReindex_single (v : ℝ) (el L mm p n m : ℤ) (hL : el < L) (hm : -el ≤ m ∧ m ≤ el)
    (hn : -el ≤ n ∧ n ≤ el) (hp : (n < 0 ∧ p = el + n) ∨ (0 ≤ n ∧ p = 2 * L - 2 - (el - n))) :
    turokReindex (set1 (fun _ => 0) p v) el L mm (m + L - 1)
      = if m = n then v * (-1) ^ (mm - m) else 0 := by
  by_cases hneg : m < 0
  · rw [turokReindex_neg _ _ _ _ _ hL hm.1 hneg]
    split_ifs with e
    · rw [show m + el = p by omega, set1_same]
    · rw [set1_ne _ _ (by omega), zero_mul]
  · rw [turokReindex_nonneg _ _ _ _ _ hL (by omega) hm.2]
    split_ifs with e
    · rw [show 2 * L - 2 - (el - m) = p by omega, set1_same]
    · rw [set1_ne _ _ (by omega), zero_mul]

theorem turokSliceJax_north (junk : ℤ → ℝ) (β : ℝ) (el L mm : ℤ) (h : |β| < 1e-10) (hel : 1 ≤ el)
    (hL : el < L) (hmm : |mm| ≤ el) (m : ℤ) (hm : |m| ≤ el) :
    turokSliceJax junk β el L mm (m + L - 1) = wignerd el m mm 0 := by
  have hmm' := hmm
  have hm' := hm
  rw [abs_le] at hm' hmm'
  have hp : ¬ |β - Real.pi| < 1e-10 := by
    intro h'
    have h3 := Real.two_le_pi
    rw [abs_lt] at h h'
    norm_num at h h'
    linarith
  have hN : turokNorth el L mm
      = set1 (fun _ => 0) (if mm < 0 then el + mm else 2 * L - 2 - (el - mm)) 1 := by
    unfold turokNorth
    split_ifs
    · rfl
    · congr 1; ring
  unfold turokSliceJax
  rw [if_neg (by omega : ¬ el = 0), if_neg hp, if_pos h, hN, if_pos (by
    refine ⟨if mm < 0 then el + mm else 2 * L - 2 - (el - mm), ?_, ?_, by rw [set1_same]; norm_num⟩
    · split_ifs <;> omega
    · split_ifs <;> omega),
    turokReindex_single 1 el L mm _ mm m hL hm' hmm' (by split_ifs <;> omega), wignerd_at_zero]
  by_cases e : m = mm
  · rw [if_pos e, if_pos ⟨hm, e⟩, e, sub_self, zpow_zero, mul_one]
  · rw [if_neg e, if_neg (by tauto)]

theorem turokSliceJax_south (junk : ℤ → ℝ) (β : ℝ) (el L mm : ℤ) (h : |β - Real.pi| < 1e-10)
    (hel : 1 ≤ el) (hL : el < L) (hmm : |mm| ≤ el) (m : ℤ) (hm : |m| ≤ el) :
    turokSliceJax junk β el L mm (m + L - 1) = wignerd el m mm Real.pi := by
  have hmm' := hmm
  have hm' := hm
  rw [abs_le] at hm' hmm'
  have hne : ((-1 : ℝ) ^ (el + mm)) ≠ 0 := zpow_ne_zero _ (by norm_num)
  have hN : turokSouth el L mm
      = set1 (fun _ => 0) (if 0 < mm then el + -mm else 2 * L - 2 - (el - -mm)) ((-1) ^ (el + mm)) := by
    unfold turokSouth
    split_ifs
    · congr 1
    · congr 1; ring
  unfold turokSliceJax
  rw [if_neg (by omega : ¬ el = 0), if_pos h, hN, if_pos (by
    refine ⟨if 0 < mm then el + -mm else 2 * L - 2 - (el - -mm), ?_, ?_, by rw [set1_same]; exact hne⟩
    · split_ifs <;> omega
    · split_ifs <;> omega),
    turokReindex_single _ el L mm _ (-mm) m hL hm' (by omega) (by split_ifs <;> omega), wignerd_at_pi]
  by_cases e : m = -mm
  · rw [if_pos e, if_pos ⟨hm, e⟩, e, negOne_mul]
    exact negOne_congr ⟨mm, by ring⟩
  · rw [if_neg e, if_neg (by tauto)]

/-! ## Snapping to the poles -/

theorem isclose_zero_iff (β : ℝ) : isclose β 0 1e-8 ↔ |β| ≤ 1e-8 := by
  unfold isclose; rw [sub_zero, abs_zero, mul_zero, add_zero]

theorem isclose_pi_iff (β : ℝ) : isclose β Real.pi 1e-8 ↔ |β - Real.pi| ≤ 1e-8 + 1e-5 * Real.pi := by
  unfold isclose; rw [abs_of_pos Real.pi_pos]

theorem sin_ne_of_not_isclose (β : ℝ) (h0 : 0 ≤ β) (hp : β ≤ Real.pi) (a : ¬ isclose β 0 1e-8)
    (b : ¬ isclose β Real.pi 1e-8) : sin β ≠ 0 := by
  rw [isclose_zero_iff] at a
  rw [isclose_pi_iff] at b
  have ha : 0 < β := by
    rcases h0.lt_or_eq with h | h
    · exact h
    · exfalso; apply a; rw [← h, abs_zero]; norm_num
  have hb : β < Real.pi := by
    rcases hp.lt_or_eq with h | h
    · exact h
    · exfalso; apply b; rw [h, sub_self, abs_zero]; have := Real.pi_pos; positivity
  exact (Real.sin_pos_of_pos_of_lt_pi ha hb).ne'

theorem turokSlice_snap (β : ℝ) (el L mm : ℤ) (po : Bool) (h0 : 0 ≤ β) (hp : β ≤ Real.pi)
    (hmm : |mm| ≤ el) (hL : el < L) :
    ∃ d, turokSlice β el L mm po = .ok d ∧ ∀ m : ℤ, |m| ≤ el → (po = true → mm = 0 → 0 ≤ m) →
      d (m + L - 1) = wignerd el m mm (snapAngle β) := by
  have hmm' := hmm
  rw [abs_le] at hmm'
  refine ⟨_, by unfold turokSlice; rw [if_neg (by omega), if_neg (by omega)], fun m hm hpo => ?_⟩
  unfold snapAngle
  by_cases a : isclose β 0 1e-8
  · rw [if_pos a]; exact turokQuarterSlice_north β el L mm _ a hmm m
  · by_cases b : isclose β Real.pi 1e-8
    · rw [if_neg a, if_pos b]; exact turokQuarterSlice_south β el L mm _ a b hmm m
    · rw [if_neg a, if_neg b]
      by_cases hz : el = 0
      · subst hz
        obtain rfl : mm = 0 := by omega
        exact turokQuarterSlice_zero β L _ a b m
      · refine turokQuarterSlice_generic _ β el L mm _ a b (sin_ne_of_not_isclose β h0 hp a b)
          (by omega) hmm m hm ?_
        intro h
        by_cases c : mm = 0
        · subst c
          simp only [ne_eq, not_true_eq_false, decide_false, Bool.and_false, Bool.false_eq_true,
            if_false] at h
          exact hpo h rfl
        · cases po <;> simp [c] at h

theorem snapAngle_eq (β : ℝ) (h : β = 0 ∨ β = Real.pi ∨
    (1e-8 < |β| ∧ 1e-8 + 1e-5 * Real.pi < |β - Real.pi|)) : snapAngle β = β := by
  unfold snapAngle
  by_cases a : isclose β 0 1e-8
  · rw [if_pos a]
    rw [isclose_zero_iff] at a
    rcases h with h | h | h
    · exact h.symm
    · exfalso
      rw [h, abs_of_pos Real.pi_pos] at a
      have := Real.two_le_pi
      norm_num at a; linarith
    · exact absurd a (not_le.mpr h.1)
  · rw [if_neg a]
    by_cases b : isclose β Real.pi 1e-8
    · rw [if_pos b]
      rw [isclose_pi_iff] at b
      rcases h with h | h | h
      · exfalso; apply a; rw [isclose_zero_iff, h, abs_zero]; norm_num
      · exact h.symm
      · exact absurd b (not_le.mpr h.2)
    · rw [if_neg b]

theorem snapAngle_close (β : ℝ) : |snapAngle β - β| ≤ 3.2e-5 := by
  unfold snapAngle
  split_ifs with a b
  · rw [isclose_zero_iff] at a
    rw [zero_sub, abs_neg]
    refine a.trans (by norm_num)
  · rw [isclose_pi_iff] at b
    rw [abs_sub_comm]
    refine b.trans ?_
    have := Real.pi_lt_d2
    norm_num at this ⊢
    linarith
  · rw [sub_self, abs_zero]; norm_num

end S2fft
