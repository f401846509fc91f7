import Verif.Lemmas.Turok

/-! # Turok & Bucher recursion: the plane -/

namespace S2fft
open Spec Real

theorem scale_loop2 (lo hi : ℤ) (hi2 : ℤ → ℤ) (c : ℤ) (f : ℤ → ℝ → ℝ) (d : ℤ → ℤ → ℝ) (x y : ℤ) :
    forRange lo hi (fun i d => forRange 1 (hi2 i) (fun j d =>
      set2 d (i - c) (j - c) (f i (d (i - c) (j - c)))) d) d x y
      = if (lo ≤ x + c ∧ x + c < hi) ∧ (1 ≤ y + c ∧ y + c < hi2 (x + c)) then f (x + c) (d x y)
        else d x y := by
  have inner : ∀ (i : ℤ) (d : ℤ → ℤ → ℝ) (h2 : ℤ),
      forRange 1 h2 (fun j d => set2 d (i - c) (j - c) (f i (d (i - c) (j - c)))) d x y
        = if x + c = i ∧ (1 ≤ y + c ∧ y + c < h2) then f i (d x y) else d x y := by
    intro i d h2
    split_ifs with h
    · have hx : i - c = x := by omega
      have := forRange_ind (by omega : (1 : ℤ) ≤ h2)
        (fun j d => set2 d (i - c) (j - c) (f i (d (i - c) (j - c)))) d
        (fun j s => (y + c < j → s x y = f i (d x y)) ∧ (j ≤ y + c → s x y = d x y))
        ⟨fun h' => by omega, fun _ => rfl⟩
        (fun j s h1 h3 h4 => by
          refine ⟨fun h5 => ?_, fun h5 => ?_⟩
          · unfold set2
            by_cases e : y + c = j
            · rw [if_pos ⟨hx.symm, by omega⟩, hx, show j - c = y by omega, h4.2 (by omega)]
            · rw [if_neg (by omega), h4.1 (by omega)]
          · unfold set2
            rw [if_neg (by omega), h4.2 (by omega)])
      exact this.1 h.2.2
    · refine forRange_frame _ _ _ _ (fun g : ℤ → ℤ → ℝ => g x y) ?_
      intro j s h1 h3
      unfold set2
      rw [if_neg (by omega)]
  split_ifs with h
  · have := forRange_ind (by omega : lo ≤ hi) (fun i d => forRange 1 (hi2 i) (fun j d =>
        set2 d (i - c) (j - c) (f i (d (i - c) (j - c)))) d) d
      (fun i s => (x + c < i → s x y = f (x + c) (d x y)) ∧ (i ≤ x + c → s x y = d x y))
      ⟨fun h' => by omega, fun _ => rfl⟩
      (fun i s h1 h2 h3 => by
        refine ⟨fun h4 => ?_, fun h4 => ?_⟩
        · rw [inner]
          by_cases e : x + c = i
          · rw [if_pos ⟨e, by rw [← e]; exact h.2⟩, h3.2 (by omega), e]
          · rw [if_neg (by omega), h3.1 (by omega)]
        · rw [inner, if_neg (by omega), h3.2 (by omega)])
    exact this.1 h.1.2
  · refine forRange_frame _ _ _ _ (fun g : ℤ → ℤ → ℝ => g x y) ?_
    intro i s h1 h2
    rw [inner, if_neg]
    rintro ⟨e, h3⟩
    exact h ⟨by omega, by rw [e]; exact h3⟩

theorem turokLogRowFull_eq (β : ℝ) (l k : ℤ) (hs : sin β ≠ 0) (hl : 0 ≤ l) (h0 : 0 ≤ k)
    (h1 : k ≤ 2 * l) : (turokLogRowFull β l).1 k = log (firstCol β l k) ∧
      (turokLogRowFull β l).2 k = (tan (-β / 2) / |tan (-β / 2)|) ^ k.toNat := by
  unfold turokLogRowFull
  have := forRange_ind (by omega : (2 : ℤ) ≤ 2 * l + 2) (fun i (st : (ℤ → ℝ) × (ℤ → ℝ)) =>
    (set1 st.1 (i - 1) (st.1 (i - 2) + log (√((l + 1 - i + l + 1 : ℤ) / (l - (l + 1 - i) : ℤ)))
        + log |tan (-β / 2)|),
      set1 st.2 (i - 1) (st.2 (i - 2) * tan (-β / 2) / |tan (-β / 2)|)))
    (set1 (fun _ => 0) 0 (2 * l * log |cos (β / 2)|), set1 (fun _ => 0) 0 1)
    (fun i st => ∀ k, 0 ≤ k → k < i - 1 → st.1 k = log (firstCol β l k) ∧
      st.2 k = (tan (-β / 2) / |tan (-β / 2)|) ^ k.toNat)
    (fun k a b => by
      obtain rfl : k = 0 := by omega
      simp only
      rw [set1_same, set1_same, firstCol_zero β l hl]
      exact ⟨rfl, by simp⟩)
    (fun i st a b c k d e => by
      by_cases hk : k = i - 1
      · subst hk
        simp only
        obtain ⟨c1, c2⟩ := c (i - 2) (by omega) (by omega)
        have hf := firstCol_succ β l (i - 2) hs (by omega) (by omega)
        rw [set1_same, set1_same, c1, c2]
        constructor
        · rw [← show i - 2 + 1 = i - 1 by ring, ← hf]
          have e1 : (((l + 1 - i + l + 1 : ℤ) : ℝ) / ((l - (l + 1 - i) : ℤ) : ℝ))
              = (2 * l - ((i - 2 : ℤ) : ℝ)) / (((i - 2 : ℤ) : ℝ) + 1) := by
            push_cast
            congr 1 <;> ring
          rw [e1, Real.log_sqrt]
          apply div_nonneg
          · exact_mod_cast (by omega : (0 : ℤ) ≤ 2 * l - (i - 2))
          · exact_mod_cast (by omega : (0 : ℤ) ≤ (i - 2) + 1)
        · rw [show (i - 1).toNat = (i - 2).toNat + 1 by omega, pow_succ, mul_div_assoc]
      · simp only
        rw [set1_ne _ _ hk, set1_ne _ _ hk]
        exact c k d (by omega))
  exact this k h0 (by omega)

/-- The row recursion of `compute_quarter` over a range of rows. -/
theorem rowStep_loop (lo hi c : ℤ) (R : ℤ → (ℤ → ℝ) → (ℤ → ℝ) × ℝ)
    (st : (ℤ → ℤ → ℝ) × (ℤ → ℝ)) (i : ℤ) :
    let res := forRange lo hi (fun index (st : (ℤ → ℤ → ℝ) × (ℤ → ℝ)) =>
      (withRow st.1 (index - c) (R index (st.1 (index - c))).1,
        set1 st.2 (index - 1) (R index (st.1 (index - c))).2)) st
    (res.1 (i - c), res.2 (i - 1)) = if lo ≤ i ∧ i < hi then R i (st.1 (i - c))
      else (st.1 (i - c), st.2 (i - 1)) := by
  intro res
  split_ifs with h
  · have := forRange_ind (by omega : lo ≤ hi) (fun index (st : (ℤ → ℤ → ℝ) × (ℤ → ℝ)) =>
      (withRow st.1 (index - c) (R index (st.1 (index - c))).1,
        set1 st.2 (index - 1) (R index (st.1 (index - c))).2)) st
      (fun j s => (i < j → (s.1 (i - c), s.2 (i - 1)) = R i (st.1 (i - c))) ∧
        (j ≤ i → (s.1 (i - c), s.2 (i - 1)) = (st.1 (i - c), st.2 (i - 1))))
      ⟨fun h' => by omega, fun _ => rfl⟩
      (fun j s h1 h2 h3 => by
        refine ⟨fun h4 => ?_, fun h4 => ?_⟩
        · simp only [withRow, set1]
          by_cases e : i = j
          · subst e
            have := (Prod.ext_iff.mp (h3.2 le_rfl)).1
            simp only at this
            rw [if_pos rfl, if_pos rfl, this]
          · rw [if_neg (by omega), if_neg (by omega)]; exact h3.1 (by omega)
        · simp only [withRow, set1]
          rw [if_neg (by omega), if_neg (by omega)]; exact h3.2 (by omega))
    exact this.1 h.2
  · refine forRange_frame _ _ _ _ (fun s : (ℤ → ℤ → ℝ) × (ℤ → ℝ) => (s.1 (i - c), s.2 (i - 1))) ?_
    intro j s h1 h2
    simp only [withRow, set1]
    rw [if_neg (by omega), if_neg (by omega)]

/-- Target plane in array positions. -/
noncomputable def tgtB (β : ℝ) (L el : ℤ) (x y : ℤ) : ℝ := wignerd el (x - (L - 1)) (y - (L - 1)) β

theorem turokQuarter_generic (dl : ℤ → ℤ → ℝ) (β : ℝ) (l L : ℤ)
    (h0 : ¬ isclose β 0 1e-8) (hp : ¬ isclose β Real.pi 1e-8) (hs : sin β ≠ 0) (hl : 1 ≤ l) :
    (∀ i j, 1 ≤ j → ((i ≤ l + 1 ∧ j ≤ i) ∨ (l + 2 ≤ i ∧ j ≤ 2 * l + 2 - i)) →
      turokQuarter dl β l L (i - (1 - (L - 1 - l))) (j - (1 - (L - 1 - l)))
        = wignerd l (i - 1 - l) (j - 1 - l) β) ∧
    (∀ i j, (i < 1 ∨ 2 * l + 1 < i ∨ j < 1 ∨ 2 * l + 1 < j) →
      turokQuarter dl β l L (i - (1 - (L - 1 - l))) (j - (1 - (L - 1 - l)))
        = dl (i - (1 - (L - 1 - l))) (j - (1 - (L - 1 - l)))) := by
  unfold turokQuarter
  rw [if_neg h0, if_neg hp, if_neg (by omega)]
  simp only
  set c := 1 - (L - 1 - l) with hc
  set d0 := set2 (set2 dl (1 - c) (1 - c) 1) (2 * l + 1 - c) (1 - c) 1 with hd0
  set R1 := fun index (row : ℤ → ℝ) => turokRow β l index (turokCpiFull l) (turokCp2Full l)
    (fun k => k + 1 - c) index row with hR1
  set R2 := fun index (row : ℤ → ℝ) => turokRow β l index (turokCpiFull l) (turokCp2Full l)
    (fun k => k + 1 - c) (2 * l - index + 2) row with hR2
  set s1 := forRange 2 (l + 2) (fun index (st : (ℤ → ℤ → ℝ) × (ℤ → ℝ)) =>
      (withRow st.1 (index - c) (R1 index (st.1 (index - c))).1,
        set1 st.2 (index - 1) (R1 index (st.1 (index - c))).2)) (d0, fun _ => 0) with hs1
  set s2 := forRange (l + 2) (2 * l + 1) (fun index (st : (ℤ → ℤ → ℝ) × (ℤ → ℝ)) =>
      (withRow st.1 (index - c) (R2 index (st.1 (index - c))).1,
        set1 st.2 (index - 1) (R2 index (st.1 (index - c))).2)) s1 with hs2
  have e1 : ∀ i, (s1.1 (i - c), s1.2 (i - 1)) = if 2 ≤ i ∧ i < l + 2 then R1 i (d0 (i - c))
      else (d0 (i - c), 0) := fun i => rowStep_loop 2 (l + 2) c R1 (d0, fun _ => 0) i
  have e2 : ∀ i, (s2.1 (i - c), s2.2 (i - 1)) = if l + 2 ≤ i ∧ i < 2 * l + 1 then R2 i (s1.1 (i - c))
      else (s1.1 (i - c), s1.2 (i - 1)) := fun i => rowStep_loop (l + 2) (2 * l + 1) c R2 s1 i
  have hpos : Function.Injective (fun k : ℤ => k + 1 - c) := fun x y h => by simp only at h; omega
  -- rows before the renormalisation
  have rows : ∀ i j, 1 ≤ j → ((i ≤ l + 1 ∧ j ≤ i) ∨ (l + 2 ≤ i ∧ j ≤ 2 * l + 2 - i)) →
      s2.1 (i - c) (j - c) * exp (-s2.2 (i - 1)) * wignerd l (i - 1 - l) (-l) β
        = wignerd l (i - 1 - l) (j - 1 - l) β := by
    intro i j hj hij
    have key : ∀ st : (ℤ → ℝ) × ℝ, RowInv β l (i - 1 - l) (fun k => k + 1 - c) j st →
        st.1 (j - c) * exp (-st.2) * wignerd l (i - 1 - l) (-l) β
          = wignerd l (i - 1 - l) (j - 1 - l) β := by
      intro st h
      have := h (j - 1) (by omega) (by omega) (by omega)
      simpa only [sub_add_cancel] using this
    have hval : ∀ st : (ℤ → ℝ) × ℝ, (s2.1 (i - c), s2.2 (i - 1)) = st →
        RowInv β l (i - 1 - l) (fun k => k + 1 - c) j st →
        s2.1 (i - c) (j - c) * exp (-s2.2 (i - 1)) * wignerd l (i - 1 - l) (-l) β
          = wignerd l (i - 1 - l) (j - 1 - l) β := by
      rintro st rfl h
      exact key _ h
    have hlast : i = 1 ∨ i = 2 * l + 1 → d0 (i - c) (1 - c) = 1 := by
      rintro (rfl | rfl)
      · rw [hd0]; unfold set2
        rw [if_neg (by omega), if_pos ⟨rfl, rfl⟩]
      · rw [hd0]; unfold set2
        rw [if_pos ⟨rfl, rfl⟩]
    have hedge : i = 1 ∨ i = 2 * l + 1 → RowInv β l (i - 1 - l) (fun k => k + 1 - c) j
        (d0 (i - c), 0) := by
      intro h k h1 h2 _
      obtain rfl : k = 0 := by omega
      simp only
      rw [show (0 : ℤ) + 1 - c = 1 - c by ring, hlast h, neg_zero, exp_zero, one_mul, one_mul, zero_sub]
    refine hval _ (e2 i) ?_
    rcases hij with h | h
    · rw [if_neg (by omega), e1 i]
      by_cases h2 : 2 ≤ i
      · rw [if_pos ⟨h2, by omega⟩]
        have := (turokRow_spec β l (i - 1 - l) _ _ hs hl (by rw [abs_le]; omega) (turokCoefFull l) _
          hpos i (d0 (i - c))).1
        rw [show l + (i - 1 - l) + 1 = i by ring] at this
        exact fun k a b d => this k a (by omega) d
      · rw [if_neg (by omega)]
        exact hedge (Or.inl (by omega))
    · by_cases h2 : i < 2 * l + 1
      · rw [if_pos ⟨h.1, h2⟩]
        have := (turokRow_spec β l (i - 1 - l) _ _ hs hl (by rw [abs_le]; omega) (turokCoefFull l) _
          hpos (2 * l - i + 2) (s1.1 (i - c))).1
        rw [show l + (i - 1 - l) + 1 = i by ring] at this
        exact fun k a b d => this k a (by omega) d
      · rw [if_neg (by omega), e1 i, if_neg (by omega)]
        exact hedge (Or.inr (by omega))
  have ren : ∀ i, 1 ≤ i → i ≤ 2 * l + 1 → ∀ r, (turokLogRowFull β l).2 (i - 1) *
      exp ((turokLogRowFull β l).1 (i - 1) - r) = wignerd l (i - 1 - l) (-l) β * exp (-r) := by
    intro i h1 h2 r
    obtain ⟨a, b⟩ := turokLogRowFull_eq β l (i - 1) hs (by omega) (by omega) (by omega)
    rw [a, b, Real.exp_sub, exp_log (firstCol_pos β l _ hs), ← mul_div_assoc, Real.exp_neg,
      ← div_eq_mul_inv]
    have := turok_first β l (i - 1 - l) hs (by rw [abs_le]; omega)
    rw [show l + (i - 1 - l) = i - 1 by ring] at this
    rw [this]
  have S1 := scale_loop2 1 (l + 2) (fun i => i + 1) c (fun i v => v * ((turokLogRowFull β l).2 (i - 1) *
    exp ((turokLogRowFull β l).1 (i - 1) - s2.2 (i - 1)))) s2.1
  have S2 := scale_loop2 (l + 2) (2 * l + 2) (fun i => 2 * l + 2 - i + 1) c
    (fun i v => v * ((turokLogRowFull β l).2 (i - 1) *
    exp ((turokLogRowFull β l).1 (i - 1) - s2.2 (i - 1))))
  refine ⟨fun i j hj hij => ?_, fun i j hij => ?_⟩
  · rw [S2, S1, show i - c + c = i by ring, show j - c + c = j by ring]
    rcases hij with h | h
    · rw [if_neg (by omega), if_pos ⟨⟨by omega, by omega⟩, by omega, by omega⟩,
        ren i (by omega) (by omega), ← rows i j hj (Or.inl h)]
      ring
    · rw [if_pos ⟨⟨by omega, by omega⟩, by omega, by omega⟩, if_neg (by omega),
        ren i (by omega) (by omega), ← rows i j hj (Or.inr h)]
      ring
  · rw [S2, S1, show i - c + c = i by ring, show j - c + c = j by ring, if_neg (by omega),
      if_neg (by omega)]
    have hd : d0 (i - c) (j - c) = dl (i - c) (j - c) := by
      rw [hd0]; unfold set2
      rw [if_neg (by omega), if_neg (by omega)]
    have hval : ∀ st : (ℤ → ℝ) × ℝ, (s2.1 (i - c), s2.2 (i - 1)) = st →
        st.1 (j - c) = dl (i - c) (j - c) → s2.1 (i - c) (j - c) = dl (i - c) (j - c) := by
      rintro st rfl h; exact h
    refine hval _ (e2 i) ?_
    by_cases c2 : l + 2 ≤ i ∧ i < 2 * l + 1
    · rw [if_pos c2]
      have hh := Prod.ext_iff.mp (e1 i)
      rw [if_neg (by omega)] at hh
      have := (turokRow_spec β l (i - 1 - l) _ _ hs hl (by rw [abs_le]; omega) (turokCoefFull l) _
          hpos (2 * l - i + 2) (s1.1 (i - c))).2 (j - c) (fun k _ _ => by omega)
      rw [show l + (i - 1 - l) + 1 = i by ring] at this
      rw [← hd, ← show s1.1 (i - c) = d0 (i - c) from hh.1]; exact this
    · rw [if_neg c2, e1 i]
      by_cases c1 : 2 ≤ i ∧ i < l + 2
      · rw [if_pos c1]
        have := (turokRow_spec β l (i - 1 - l) _ _ hs hl (by rw [abs_le]; omega) (turokCoefFull l) _
          hpos i (d0 (i - c))).2 (j - c) (fun k _ _ => by omega)
        rw [show l + (i - 1 - l) + 1 = i by ring] at this
        rw [← hd]; exact this
      · rw [if_neg c1]; exact hd

/-! ## `fill` -/

/-- A loop carrying a sign that flips at each iteration. -/
theorem forRange_alt (lo hi : ℤ) (f : ℤ → ℝ → (ℤ → ℤ → ℝ) → ℤ → ℤ → ℝ) (d : ℤ → ℤ → ℝ) (g : ℝ) :
    (forRange lo hi (fun j (st : (ℤ → ℤ → ℝ) × ℝ) => (f j st.2 st.1, st.2 * (-1))) (d, g)).1
      = forRange lo hi (fun j d => f j (g * (-1) ^ (j - lo)) d) d := by
  rcases le_total lo hi with h | h
  · have := forRange_ind h (fun j (st : (ℤ → ℤ → ℝ) × ℝ) => (f j st.2 st.1, st.2 * (-1))) (d, g)
      (fun i st => st.1 = forRange lo i (fun j d => f j (g * (-1) ^ (j - lo)) d) d ∧
        st.2 = g * (-1) ^ (i - lo))
      (by rw [forRange_of_le le_rfl, sub_self, zpow_zero, mul_one]; exact ⟨rfl, rfl⟩)
      (fun i st h1 h2 ⟨h3, h4⟩ => by
        refine ⟨?_, ?_⟩
        · rw [forRange_succ h1, ← h3]; simp only; rw [h4]
        · simp only
          rw [h4, show i + 1 - lo = i - lo + 1 by ring, zpow_add₀ (by norm_num), zpow_one, mul_assoc])
    exact this.1
  · rw [forRange_of_le h, forRange_of_le h]

theorem turokFill_est (β : ℝ) (l L : ℤ) (hl : 0 ≤ l) :
    Est (tgtB β L l) (fun x y => let c := 1 - (L - 1 - l)
        1 ≤ y + c ∧ ((x + c ≤ l + 1 ∧ y ≤ x) ∨ (l + 2 ≤ x + c ∧ y + c ≤ 2 * l + 2 - (x + c))))
      (fun dl => turokFill dl l L)
      (fun x y => let c := 1 - (L - 1 - l)
        (1 ≤ x + c ∧ x + c ≤ 2 * l + 1) ∧ (1 ≤ y + c ∧ y + c ≤ 2 * l + 1)) := by
  set c := 1 - (L - 1 - l) with hc
  have T : ∀ i j, tgtB β L l (i - c) (j - c) = wignerd l (i - 1 - l) (j - 1 - l) β := by
    intro i j
    unfold tgtB
    congr 1 <;> omega
  have refl : ∀ i j, tgtB β L l (2 * l + 2 - i - c) (2 * l + 2 - j - c) = tgtB β L l (j - c) (i - c) := by
    intro i j
    rw [T, T, wignerd_swap_neg]
    congr 1 <;> ring
  set J0 : ℤ → ℤ → Prop := fun x y =>
    1 ≤ y + c ∧ ((x + c ≤ l + 1 ∧ y ≤ x) ∨ (l + 2 ≤ x + c ∧ y + c ≤ 2 * l + 2 - (x + c))) with hJ0
  -- left half, lower
  set R1 : ℤ → ℤ → Prop := fun x y => ∃ i, 1 ≤ i ∧ i < l + 1 ∧ ∃ j, l + 1 ≤ j ∧ j < 2 * l + 1 - i + 1 ∧
    (x = 2 * l + 2 - i - c ∧ y = 2 * l + 2 - j - c) with hR1
  have E1 : Est (tgtB β L l) J0 (forRange 1 (l + 1) (fun i => forRange (l + 1) (2 * l + 1 - i + 1)
      (fun j dl => set2 dl (2 * l + 2 - i - c) (2 * l + 2 - j - c) (dl (j - c) (i - c))))) R1 := by
    apply Est.loop; intro i h1 h2
    apply Est.loop; intro j h3 h4
    refine Est.set2 (v := fun dl => dl (j - c) (i - c)) ?_
    intro s hs
    rw [refl, hs]
    refine Or.inl (Or.inl ⟨by omega, ?_⟩)
    by_cases e : j = l + 1
    · left; omega
    · right; omega
  -- left half, upper
  set R2 : ℤ → ℤ → Prop := fun x y => ∃ i, 1 ≤ i ∧ i < l + 2 ∧ ∃ j, i + 1 ≤ j ∧ j < l + 2 ∧
    (x = i - c ∧ y = j - c) with hR2
  have E2 : Est (tgtB β L l) (fun x y => J0 x y ∨ R1 x y) (forRange 1 (l + 2) (fun i dl =>
    (forRange (i + 1) (l + 2) (fun j (st : (ℤ → ℤ → ℝ) × ℝ) =>
      (set2 st.1 (i - c) (j - c) (st.1 (j - c) (i - c) * st.2), st.2 * (-1))) (dl, -1)).1)) R2 := by
    apply Est.loop; intro i h1 h2
    have : (fun dl : ℤ → ℤ → ℝ => (forRange (i + 1) (l + 2) (fun j (st : (ℤ → ℤ → ℝ) × ℝ) =>
      (set2 st.1 (i - c) (j - c) (st.1 (j - c) (i - c) * st.2), st.2 * (-1))) (dl, -1)).1)
        = fun dl => forRange (i + 1) (l + 2) (fun j dl => set2 dl (i - c) (j - c)
          (dl (j - c) (i - c) * ((-1) * (-1) ^ (j - (i + 1))))) dl := by
      funext dl
      exact forRange_alt (i + 1) (l + 2)
        (fun j g d => set2 d (i - c) (j - c) (d (j - c) (i - c) * g)) dl (-1)
    rw [this]
    apply Est.loop; intro j h3 h4
    refine Est.set2 (v := fun dl => dl (j - c) (i - c) * ((-1) * (-1) ^ (j - (i + 1)))) ?_
    intro s hs
    rw [hs _ _ (Or.inl (Or.inl (Or.inl ⟨by omega, Or.inl ⟨by omega, by omega⟩⟩))), T, T,
      wignerd_transpose l (i - 1 - l) (j - 1 - l), mul_comm]
    congr 1
    rw [show (-1 : ℝ) * (-1) ^ (j - (i + 1)) = (-1) ^ (1 : ℤ) * (-1) ^ (j - (i + 1)) by norm_num,
      negOne_mul]
    exact negOne_congr ⟨1 - i + l, by ring⟩
  -- right half, first pass
  set R3 : ℤ → ℤ → Prop := fun x y => ∃ i, l + 2 ≤ i ∧ i < 2 * l + 2 ∧
    ((∃ j, 1 ≤ j ∧ j < 2 * l + 2 - i + 1 ∧ (x = j - c ∧ y = i - c)) ∨
      ∃ j, i ≤ j ∧ j < 2 * l + 2 ∧ (x = j - c ∧ y = i - c)) with hR3
  have left : ∀ x y, 1 ≤ x + c → x + c ≤ 2 * l + 1 → 1 ≤ y + c → y + c ≤ l + 1 →
      ((J0 x y ∨ R1 x y) ∨ R2 x y) := by
    intro x y h1 h2 h3 h4
    by_cases a : x + c ≤ l + 1
    · by_cases b : y ≤ x
      · left; left; exact ⟨h3, Or.inl ⟨a, b⟩⟩
      · right; exact ⟨x + c, h1, by omega, y + c, by omega, by omega, by ring, by ring⟩
    · left
      by_cases b : y + c ≤ 2 * l + 2 - (x + c)
      · left; exact ⟨h3, Or.inr ⟨by omega, b⟩⟩
      · right
        exact ⟨2 * l + 2 - (x + c), by omega, by omega, 2 * l + 2 - (y + c), by omega, by omega,
          by ring, by ring⟩
  have E3 : Est (tgtB β L l) (fun x y => (J0 x y ∨ R1 x y) ∨ R2 x y)
      (forRange (l + 2) (2 * l + 2) (fun i dl =>
        forRange i (2 * l + 2) (fun j dl => set2 dl (j - c) (i - c)
          (dl (2 * l + 2 - i - c) (2 * l + 2 - j - c)))
        (forRange 1 (2 * l + 2 - i + 1) (fun j (st : (ℤ → ℤ → ℝ) × ℝ) =>
          (set2 st.1 (j - c) (i - c) (st.1 (i - c) (j - c) * st.2), st.2 * (-1)))
          (dl, (-1) ^ (i + 1).toNat)).1)) R3 := by
    apply Est.loop; intro i h1 h2
    refine Est.comp (f := fun dl => (forRange 1 (2 * l + 2 - i + 1) (fun j (st : (ℤ → ℤ → ℝ) × ℝ) =>
          (set2 st.1 (j - c) (i - c) (st.1 (i - c) (j - c) * st.2), st.2 * (-1)))
          (dl, (-1) ^ (i + 1).toNat)).1) (g := forRange i (2 * l + 2) (fun j dl => set2 dl (j - c) (i - c)
          (dl (2 * l + 2 - i - c) (2 * l + 2 - j - c)))) ?_ ?_
    · have : (fun dl : ℤ → ℤ → ℝ => (forRange 1 (2 * l + 2 - i + 1) (fun j (st : (ℤ → ℤ → ℝ) × ℝ) =>
          (set2 st.1 (j - c) (i - c) (st.1 (i - c) (j - c) * st.2), st.2 * (-1)))
          (dl, (-1) ^ (i + 1).toNat)).1)
          = fun dl => forRange 1 (2 * l + 2 - i + 1) (fun j dl => set2 dl (j - c) (i - c)
            (dl (i - c) (j - c) * ((-1) ^ (i + 1).toNat * (-1) ^ (j - 1)))) dl := by
        funext dl
        exact forRange_alt 1 (2 * l + 2 - i + 1)
          (fun j g d => set2 d (j - c) (i - c) (d (i - c) (j - c) * g)) dl _
      rw [this]
      apply Est.loop; intro j h3 h4
      refine Est.set2 (v := fun dl => dl (i - c) (j - c) * ((-1) ^ (i + 1).toNat * (-1) ^ (j - 1))) ?_
      intro s hs
      rw [hs _ _ (Or.inl (Or.inl (left _ _ (by omega) (by omega) (by omega) (by omega)))), T, T,
        wignerd_transpose l (j - 1 - l) (i - 1 - l), mul_comm, negOne_toNat (by omega), negOne_mul]
      congr 1
      exact negOne_congr ⟨1 + l, by ring⟩
    · apply Est.loop; intro j h3 h4
      refine Est.set2 (v := fun dl => dl (2 * l + 2 - i - c) (2 * l + 2 - j - c)) ?_
      intro s hs
      rw [hs _ _ (Or.inl (Or.inl (Or.inl (left _ _ (by omega) (by omega) (by omega) (by omega))))),
        refl]
  set R4 : ℤ → ℤ → Prop := fun x y => ∃ i, l + 2 ≤ i ∧ i < 2 * l + 2 ∧ ∃ j, 2 * l + 3 - i ≤ j ∧
    j < i - 1 + 1 ∧ (x = j - c ∧ y = i - c) with hR4
  have E4 : Est (tgtB β L l) (fun x y => ((J0 x y ∨ R1 x y) ∨ R2 x y) ∨ R3 x y)
      (forRange (l + 2) (2 * l + 2) (fun i => forRange (2 * l + 3 - i) (i - 1 + 1) (fun j dl =>
        set2 dl (j - c) (i - c) (dl (2 * l + 2 - i - c) (2 * l + 2 - j - c))))) R4 := by
    apply Est.loop; intro i h1 h2
    apply Est.loop; intro j h3 h4
    refine Est.set2 (v := fun dl => dl (2 * l + 2 - i - c) (2 * l + 2 - j - c)) ?_
    intro s hs
    rw [hs, refl]
    left; left
    by_cases e : 2 * l + 2 - j ≤ l + 1
    · left; exact left _ _ (by omega) (by omega) (by omega) (by omega)
    · right
      refine ⟨2 * l + 2 - j, by omega, by omega, Or.inl ⟨2 * l + 2 - i, by omega, by omega, by ring,
        by ring⟩⟩
  intro s hs
  obtain ⟨a1, b1⟩ := E1 s hs
  obtain ⟨a2, b2⟩ := E2 _ (fun x y h => h.elim (fun h => a1 x y (hs x y h)) (b1 x y))
  have g2 : ∀ x y, ((J0 x y ∨ R1 x y) ∨ R2 x y) → _ = tgtB β L l x y := fun x y h =>
    h.elim (fun h => a2 x y (h.elim (fun h => a1 x y (hs x y h)) (b1 x y))) (b2 x y)
  obtain ⟨a3, b3⟩ := E3 _ g2
  have g3 : ∀ x y, (((J0 x y ∨ R1 x y) ∨ R2 x y) ∨ R3 x y) → _ = tgtB β L l x y := fun x y h =>
    h.elim (fun h => a3 x y (g2 x y h)) (b3 x y)
  obtain ⟨a4, b4⟩ := E4 _ g3
  refine ⟨fun x y h => a4 x y (a3 x y (a2 x y (a1 x y h))), fun x y h => ?_⟩
  simp only at h
  by_cases e : y + c ≤ l + 1
  · exact a4 x y (a3 x y (g2 x y (left x y h.1.1 h.1.2 h.2.1 e)))
  · by_cases e1 : 2 * l + 3 - (y + c) ≤ x + c ∧ x + c ≤ (y + c) - 1
    · exact b4 x y ⟨y + c, by omega, by omega, x + c, by omega, by omega, by ring, by ring⟩
    · refine a4 x y (b3 x y ⟨y + c, by omega, by omega, ?_⟩)
      by_cases e2 : x + c < 2 * l + 3 - (y + c)
      · left; exact ⟨x + c, by omega, by omega, by ring, by ring⟩
      · right; exact ⟨x + c, by omega, by omega, by ring, by ring⟩

end S2fft
