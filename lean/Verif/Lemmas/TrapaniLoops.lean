import Verif.Lemmas.Trapani

/-! # Trapani & Navaza recursion: the programs -/

namespace S2fft
open Spec

/-- `f` makes the entries in `R` equal to the target `T`, provided those in `J` already are, and
spoils no entry that already is. -/
def Est (T : ℤ → ℤ → ℝ) (J : ℤ → ℤ → Prop) (f : (ℤ → ℤ → ℝ) → ℤ → ℤ → ℝ) (R : ℤ → ℤ → Prop) :
    Prop :=
  ∀ s, (∀ x y, J x y → s x y = T x y) →
    (∀ x y, s x y = T x y → f s x y = T x y) ∧ (∀ x y, R x y → f s x y = T x y)

theorem Est.weaken {T J J' f R R'} (h : Est T J f R) (hJ : ∀ x y, J x y → J' x y)
    (hR : ∀ x y, R' x y → R x y) : Est T J' f R' := fun s hs =>
  let ⟨a, b⟩ := h s (fun x y hx => hs x y (hJ x y hx))
  ⟨a, fun x y hx => b x y (hR x y hx)⟩

theorem Est.comp {T J f R g R'} (h : Est T J f R) (h' : Est T (fun x y => J x y ∨ R x y) g R') :
    Est T J (fun s => g (f s)) (fun x y => R x y ∨ R' x y) := fun s hs => by
  obtain ⟨a, b⟩ := h s hs
  obtain ⟨a', b'⟩ := h' (f s) (fun x y hx => hx.elim (fun hj => a x y (hs x y hj)) (b x y))
  exact ⟨fun x y hx => a' x y (a x y hx), fun x y hx => hx.elim (fun h => a' x y (b x y h)) (b' x y)⟩

theorem Est.loop {T J} {lo hi : ℤ} {body : ℤ → (ℤ → ℤ → ℝ) → ℤ → ℤ → ℝ} {R : ℤ → ℤ → ℤ → Prop}
    (h : ∀ i, lo ≤ i → i < hi →
      Est T (fun x y => J x y ∨ ∃ i', lo ≤ i' ∧ i' < i ∧ R i' x y) (body i) (R i)) :
    Est T J (forRange lo hi body) (fun x y => ∃ i, lo ≤ i ∧ i < hi ∧ R i x y) := by
  intro s hs
  rcases le_total lo hi with hle | hle
  · exact forRange_ind hle body s
      (fun i s' => (∀ x y, s x y = T x y → s' x y = T x y) ∧
        (∀ x y, (∃ i', lo ≤ i' ∧ i' < i ∧ R i' x y) → s' x y = T x y))
      ⟨fun _ _ h => h, fun x y ⟨i', a, b, _⟩ => by omega⟩
      (fun i s' h1 h2 ⟨h3, h4⟩ => by
        obtain ⟨a, b⟩ := h i h1 h2 s' (fun x y hx => hx.elim (fun hj => h3 x y (hs x y hj)) (h4 x y))
        refine ⟨fun x y hx => a x y (h3 x y hx), fun x y ⟨i', c, d, e⟩ => ?_⟩
        rcases eq_or_lt_of_le (by omega : i' ≤ i) with rfl | hlt
        · exact b x y e
        · exact a x y (h4 x y ⟨i', c, hlt, e⟩))
  · rw [forRange_of_le hle]
    exact ⟨fun _ _ h => h, fun x y ⟨i', a, b, _⟩ => by omega⟩

theorem Est.set2 {T J} {i k : ℤ} {v : (ℤ → ℤ → ℝ) → ℝ}
    (h : ∀ s, (∀ x y, J x y → s x y = T x y) → v s = T i k) :
    Est T J (fun s => set2 s i k (v s)) (fun x y => x = i ∧ y = k) := by
  intro s hs
  refine ⟨fun x y hx => ?_, fun x y hx => ?_⟩
  · show (if x = i ∧ y = k then v s else s x y) = T x y
    split_ifs with hc
    · rw [h s hs, hc.1, hc.2]
    · exact hx
  · show (if x = i ∧ y = k then v s else s x y) = T x y
    rw [if_pos hx, h s hs, hx.1, hx.2]

theorem Est.setRow {T J} {r lo hi : ℤ} {v : (ℤ → ℤ → ℝ) → ℤ → ℝ}
    (h : ∀ s, (∀ x y, J x y → s x y = T x y) → ∀ y, lo ≤ y → y < hi → v s (y - lo) = T r y) :
    Est T J (fun s => setRow s r lo hi (v s)) (fun x y => x = r ∧ lo ≤ y ∧ y < hi) := by
  intro s hs
  refine ⟨fun x y hx => ?_, fun x y hx => ?_⟩
  · show (if x = r ∧ lo ≤ y ∧ y < hi then v s (y - lo) else s x y) = T x y
    split_ifs with hc
    · rw [h s hs y hc.2.1 hc.2.2, hc.1]
    · exact hx
  · show (if x = r ∧ lo ≤ y ∧ y < hi then v s (y - lo) else s x y) = T x y
    rw [if_pos hx, h s hs y hx.2.1 hx.2.2, hx.1]

/-- Target plane of degree `el` in array positions. -/
noncomputable def tgt (L el : ℤ) (x y : ℤ) : ℝ := Delta el (x - (L - 1)) (y - (L - 1))

/-! ## The row `m = el` -/

theorem trapaniDmm_eq (dl : ℤ → ℤ → ℝ) (L el : ℤ) (h1 : 1 ≤ el)
    (hdl : ∀ n, 0 ≤ n → n ≤ el - 1 → dl (el - 1 + (L - 1)) (n + (L - 1)) = Delta (el - 1) (el - 1) n)
    (mm : ℤ) (h0 : 0 ≤ mm) (hm : mm ≤ el) : trapaniDmm dl L el mm = Delta el el mm := by
  unfold trapaniDmm
  by_cases hz : mm = 0
  · subst hz
    refine (forRange_frame _ _ _ _ (fun g : ℤ → ℝ => g 0) ?_).trans ?_
    · intro i s h2 _; exact set1_ne _ _ (by omega)
    · rw [set1_same, hdl 0 le_rfl (by omega), Delta_eq9 el h1]
  · refine forRange_write _ _ _ _ (fun g : ℤ → ℝ => g mm) mm _ (by omega) (by omega) ?_ ?_
    · intro s
      rw [set1_same, hdl (mm - 1) (by omega) (by omega), Delta_eq10 el mm h1 (by omega)]
    · intro i s _ _ hne; exact set1_ne _ _ (Ne.symm hne)

theorem trapaniDmmVec_eq (dl : ℤ → ℤ → ℝ) (L el hi : ℤ) (h1 : 1 ≤ el)
    (hdl : ∀ n, 0 ≤ n → n < hi - 1 → dl (el - 1 + (L - 1)) (n + (L - 1)) = Delta (el - 1) (el - 1) n)
    (hhi : 1 < hi) (mm : ℤ) (h0 : 0 ≤ mm) (hm : mm < hi) :
    trapaniDmmVec dl L el hi mm = Delta el el mm := by
  unfold trapaniDmmVec
  by_cases hz : mm = 0
  · subst hz
    rw [if_neg (by omega), set1_same, hdl 0 le_rfl (by omega), Delta_eq9 el h1]
  · rw [if_pos (by omega), hdl (mm - 1) (by omega) (by omega), Delta_eq10 el mm h1 (by omega)]

/-! ## Eighth and quarter planes -/

theorem trapaniEighth_est (dl : ℤ → ℤ → ℝ) (L el : ℤ) (h1 : 1 ≤ el)
    (hdl : ∀ n, 0 ≤ n → n ≤ el - 1 →
      dl (el - 1 + (L - 1)) (n + (L - 1)) = Delta (el - 1) (el - 1) n) :
    (∀ x y, dl x y = tgt L el x y → trapaniEighth dl L el x y = tgt L el x y) ∧
    (∀ m n, 0 ≤ n → n ≤ m → m ≤ el →
      trapaniEighth dl L el (m + (L - 1)) (n + (L - 1)) = Delta el m n) := by
  have A : Est (tgt L el) (fun _ _ => False)
      (fun dl' => forRange 0 (el + 1) (fun mm dl' => set2 dl' (el + (L - 1)) (mm + (L - 1))
        (trapaniDmm dl L el mm)) dl')
      (fun x y => ∃ i, 0 ≤ i ∧ i < el + 1 ∧ (x = el + (L - 1) ∧ y = i + (L - 1))) := by
    apply Est.loop
    intro mm h2 h3
    apply Est.set2
    intro s _
    rw [trapaniDmm_eq dl L el h1 hdl mm h2 (by omega), tgt]
    congr 1 <;> ring
  have B : Est (tgt L el) (fun x y => False ∨
        ∃ i, 0 ≤ i ∧ i < el + 1 ∧ (x = el + (L - 1) ∧ y = i + (L - 1)))
      (forRange 0 (el + 1) (fun mm dl =>
        forDown (el - 2) (mm - 1) (fun m dl =>
          set2 dl (m + (L - 1)) (mm + (L - 1))
            (2 * mm / Real.sqrt ((el - m) * (el + m + 1) : ℤ) *
              dl (m + 1 + (L - 1)) (mm + (L - 1)) -
            Real.sqrt (((el - m - 1) * (el + m + 2) : ℤ) / (el - m : ℤ) / (el + m + 1 : ℤ)) *
              dl (m + 2 + (L - 1)) (mm + (L - 1))))
          (set2 dl (el - 1 + (L - 1)) (mm + (L - 1))
            (2 * mm / Real.sqrt ((el - (el - 1)) * (el + (el - 1) + 1) : ℤ) *
              dl (el - 1 + 1 + (L - 1)) (mm + (L - 1))))))
      (fun x y => ∃ mm, 0 ≤ mm ∧ mm < el + 1 ∧
        ((x = el - 1 + (L - 1) ∧ y = mm + (L - 1)) ∨
          ∃ t, 0 ≤ t ∧ t < el - 2 - (mm - 1) ∧ (x = el - 2 - t + (L - 1) ∧ y = mm + (L - 1)))) := by
    apply Est.loop
    intro mm h2 h3
    refine Est.comp (Est.set2 (v := fun dl => 2 * mm / Real.sqrt ((el - (el - 1)) *
      (el + (el - 1) + 1) : ℤ) * dl (el - 1 + 1 + (L - 1)) (mm + (L - 1))) ?_) ?_
    · intro s hs
      rw [hs _ _ (Or.inl (Or.inr ⟨mm, h2, h3, by ring, rfl⟩)), tgt, tgt,
        show el - 1 + 1 + (L - 1) - (L - 1) = el - 1 + 1 by ring,
        show mm + (L - 1) - (L - 1) = mm by ring,
        show el - 1 + (L - 1) - (L - 1) = el - 1 by ring, Delta_first el mm h1]
    · unfold forDown
      apply Est.loop
      intro t h4 h5
      refine Est.set2 (v := fun dl => 2 * mm / Real.sqrt ((el - (el - 2 - t)) *
        (el + (el - 2 - t) + 1) : ℤ) * dl (el - 2 - t + 1 + (L - 1)) (mm + (L - 1)) -
            Real.sqrt (((el - (el - 2 - t) - 1) * (el + (el - 2 - t) + 2) : ℤ) /
              (el - (el - 2 - t) : ℤ) / (el + (el - 2 - t) + 1 : ℤ)) *
              dl (el - 2 - t + 2 + (L - 1)) (mm + (L - 1))) ?_
      intro s hs
      have r1 : s (el - 2 - t + 1 + (L - 1)) (mm + (L - 1))
          = tgt L el (el - 2 - t + 1 + (L - 1)) (mm + (L - 1)) := by
        apply hs
        by_cases ht : t = 0
        · left; right; subst ht; exact ⟨by ring, rfl⟩
        · right; exact ⟨t - 1, by omega, by omega, by ring, rfl⟩
      have r2 : s (el - 2 - t + 2 + (L - 1)) (mm + (L - 1))
          = tgt L el (el - 2 - t + 2 + (L - 1)) (mm + (L - 1)) := by
        apply hs
        by_cases ht : t = 0
        · left; left; left; right; subst ht; exact ⟨mm, h2, h3, by ring, rfl⟩
        · by_cases ht1 : t = 1
          · left; right; subst ht1; exact ⟨by ring, rfl⟩
          · right; exact ⟨t - 2, by omega, by omega, by ring, rfl⟩
      rw [r1, r2, tgt, tgt, tgt, show el - 2 - t + 1 + (L - 1) - (L - 1) = el - 2 - t + 1 by ring,
        show el - 2 - t + 2 + (L - 1) - (L - 1) = el - 2 - t + 2 by ring,
        show mm + (L - 1) - (L - 1) = mm by ring,
        show el - 2 - t + (L - 1) - (L - 1) = el - 2 - t by ring]
      exact (Delta_down el (el - 2 - t) mm (by omega) (by omega)).symm
  obtain ⟨a, b⟩ := Est.comp A B dl (fun _ _ h => h.elim)
  refine ⟨a, fun m n h2 h3 h4 => ?_⟩
  have := b (m + (L - 1)) (n + (L - 1)) (by
    by_cases e1 : m = el
    · left; exact ⟨n, h2, by omega, by rw [e1], rfl⟩
    · right
      refine ⟨n, h2, by omega, ?_⟩
      by_cases e2 : m = el - 1
      · left; exact ⟨by rw [e2], rfl⟩
      · right; exact ⟨el - 2 - m, by omega, by omega, by ring, rfl⟩)
  rw [tgt, show m + (L - 1) - (L - 1) = m by ring, show n + (L - 1) - (L - 1) = n by ring] at this
  exact this

theorem fillEighth2Quarter_est (L el : ℤ) :
    Est (tgt L el) (fun x y => 0 ≤ y - (L - 1) ∧ y ≤ x ∧ x - (L - 1) ≤ el)
      (fun dl => fillEighth2Quarter dl L el)
      (fun x y => ∃ m, 0 ≤ m ∧ m < el + 1 ∧ ∃ mm, m + 1 ≤ mm ∧ mm < el + 1 ∧
        (x = m + (L - 1) ∧ y = mm + (L - 1))) := by
  unfold fillEighth2Quarter
  apply Est.loop; intro m h1 h2
  apply Est.loop; intro mm h3 h4
  refine Est.set2 (v := fun dl => (-1) ^ (m + mm).toNat * dl (mm + (L - 1)) (m + (L - 1))) ?_
  intro s hs
  rw [hs (mm + (L - 1)) (m + (L - 1)) (Or.inl (Or.inl ⟨by omega, by omega, by omega⟩)), tgt, tgt,
    show m + (L - 1) - (L - 1) = m by ring, show mm + (L - 1) - (L - 1) = mm by ring,
    negOne_toNat (by omega), ← Delta_transpose]

theorem fillQuarter2Half_est (L el : ℤ) :
    Est (tgt L el) (fun x y => (0 ≤ x - (L - 1) ∧ x - (L - 1) ≤ el) ∧
        (0 ≤ y - (L - 1) ∧ y - (L - 1) ≤ el))
      (fun dl => fillQuarter2Half dl L el)
      (fun x y => ∃ mm, 0 ≤ mm ∧ mm < el + 1 ∧ ∃ m, -el ≤ m ∧ m < 0 ∧
        (x = m + (L - 1) ∧ y = mm + (L - 1))) := by
  unfold fillQuarter2Half
  apply Est.loop; intro mm h1 h2
  apply Est.loop; intro m h3 h4
  refine Est.set2 (v := fun dl => (-1) ^ (el + mm).toNat * dl (-m + (L - 1)) (mm + (L - 1))) ?_
  intro s hs
  rw [hs (-m + (L - 1)) (mm + (L - 1)) (Or.inl (Or.inl ⟨⟨by omega, by omega⟩, by omega, by omega⟩)),
    tgt, tgt, show m + (L - 1) - (L - 1) = m by ring, show mm + (L - 1) - (L - 1) = mm by ring,
    show -m + (L - 1) - (L - 1) = -m by ring, negOne_toNat (by omega), ← Delta_neg_left, neg_neg]

theorem fillHalf2Full_est (L el : ℤ) :
    Est (tgt L el) (fun x y => (-el ≤ x - (L - 1) ∧ x - (L - 1) ≤ el) ∧
        (0 ≤ y - (L - 1) ∧ y - (L - 1) ≤ el))
      (fun dl => fillHalf2Full dl L el)
      (fun x y => ∃ mm, -el ≤ mm ∧ mm < 0 ∧ ∃ m, -el ≤ m ∧ m < el + 1 ∧
        (x = m + (L - 1) ∧ y = mm + (L - 1))) := by
  unfold fillHalf2Full
  apply Est.loop; intro mm h1 h2
  apply Est.loop; intro m h3 h4
  refine Est.set2 (v := fun dl => (-1) ^ (el + |m|).toNat * dl (m + (L - 1)) (-mm + (L - 1))) ?_
  intro s hs
  rw [hs (m + (L - 1)) (-mm + (L - 1)) (Or.inl (Or.inl ⟨⟨by omega, by omega⟩, by omega, by omega⟩)),
    tgt, tgt, show m + (L - 1) - (L - 1) = m by ring, show mm + (L - 1) - (L - 1) = mm by ring,
    show -mm + (L - 1) - (L - 1) = -mm by ring,
    negOne_toNat (by have := abs_nonneg m; omega)]
  rw [show (-1 : ℝ) ^ (el + |m|) = (-1) ^ (el + m) by
    rcases abs_choice m with h | h
    · rw [h]
    · rw [h]; exact negOne_congr ⟨-m, by ring⟩, ← Delta_neg_right, neg_neg]

theorem fillQuarter2HalfVec_est (L el k : ℤ) (h0 : 0 ≤ el) :
    Est (tgt L el) (fun x y => (0 ≤ x - (L - 1) ∧ x - (L - 1) ≤ k) ∧
        (0 ≤ y - (L - 1) ∧ y - (L - 1) ≤ k))
      (fun dl => fillQuarter2HalfVec dl L el k)
      (fun x y => (-k ≤ x - (L - 1) ∧ x - (L - 1) < 0) ∧
        (0 ≤ y - (L - 1) ∧ y - (L - 1) < k + 1)) := by
  intro s hs
  have key : ∀ x y, ((-k ≤ x - (L - 1) ∧ x - (L - 1) < 0) ∧
        (0 ≤ y - (L - 1) ∧ y - (L - 1) < k + 1)) →
      fillQuarter2HalfVec s L el k x y = tgt L el x y := by
    intro x y h
    unfold fillQuarter2HalfVec
    simp only
    rw [if_pos h, hs _ _ ⟨⟨by omega, by omega⟩, by omega, by omega⟩, tgt, tgt,
      negOne_toNat (by omega), show -(x - (L - 1)) + (L - 1) - (L - 1) = -(x - (L - 1)) by ring,
      show y - (L - 1) + (L - 1) - (L - 1) = y - (L - 1) by ring, ← Delta_neg_left, neg_neg]
  refine ⟨fun x y hx => ?_, key⟩
  by_cases h : (-k ≤ x - (L - 1) ∧ x - (L - 1) < 0) ∧ (0 ≤ y - (L - 1) ∧ y - (L - 1) < k + 1)
  · exact key x y h
  · unfold fillQuarter2HalfVec
    simp only
    rw [if_neg h, hx]

theorem fillHalf2FullVec_est (L el k : ℤ) (h0 : 0 ≤ el) :
    Est (tgt L el) (fun x y => (-k ≤ x - (L - 1) ∧ x - (L - 1) ≤ k) ∧
        (0 ≤ y - (L - 1) ∧ y - (L - 1) ≤ k))
      (fun dl => fillHalf2FullVec dl L el k)
      (fun x y => (-k ≤ y - (L - 1) ∧ y - (L - 1) < 0) ∧
        (-k ≤ x - (L - 1) ∧ x - (L - 1) < k + 1)) := by
  intro s hs
  have key : ∀ x y, ((-k ≤ y - (L - 1) ∧ y - (L - 1) < 0) ∧
        (-k ≤ x - (L - 1) ∧ x - (L - 1) < k + 1)) →
      fillHalf2FullVec s L el k x y = tgt L el x y := by
    intro x y h
    unfold fillHalf2FullVec
    simp only
    rw [if_pos h, hs _ _ ⟨⟨by omega, by omega⟩, by omega, by omega⟩, tgt, tgt,
      negOne_toNat (by have := abs_nonneg (x - (L - 1)); omega),
      show -(y - (L - 1)) + (L - 1) - (L - 1) = -(y - (L - 1)) by ring,
      show x - (L - 1) + (L - 1) - (L - 1) = x - (L - 1) by ring]
    generalize x - (L - 1) = m
    rw [show (-1 : ℝ) ^ (el + |m|) = (-1) ^ (el + m) by
      rcases abs_choice m with h | h
      · rw [h]
      · rw [h]; exact negOne_congr ⟨-m, by ring⟩, ← Delta_neg_right, neg_neg]
  refine ⟨fun x y hx => ?_, key⟩
  by_cases h : (-k ≤ y - (L - 1) ∧ y - (L - 1) < 0) ∧ (-k ≤ x - (L - 1) ∧ x - (L - 1) < k + 1)
  · exact key x y h
  · unfold fillHalf2FullVec
    simp only
    rw [if_neg h, hx]

theorem trapaniQuarterVec_est (dl : ℤ → ℤ → ℝ) (L el : ℤ) (h1 : 1 ≤ el)
    (hdl : ∀ n, 0 ≤ n → n ≤ el - 1 →
      dl (el - 1 + (L - 1)) (n + (L - 1)) = Delta (el - 1) (el - 1) n) :
    (∀ x y, dl x y = tgt L el x y → trapaniQuarterVec dl L el x y = tgt L el x y) ∧
    (∀ x y, (0 ≤ x - (L - 1) ∧ x - (L - 1) ≤ el) ∧ (0 ≤ y - (L - 1) ∧ y - (L - 1) ≤ el) →
      trapaniQuarterVec dl L el x y = tgt L el x y) := by
  have A : Est (tgt L el) (fun _ _ => False)
      (fun dl' => setRow dl' (el + (L - 1)) (L - 1) (el + 1 + (L - 1)) (trapaniDmmVec dl L el (el + 1)))
      (fun x y => x = el + (L - 1) ∧ L - 1 ≤ y ∧ y < el + 1 + (L - 1)) := by
    refine Est.setRow (v := fun _ => trapaniDmmVec dl L el (el + 1)) ?_
    intro s _ y h2 h3
    rw [trapaniDmmVec_eq dl L el (el + 1) h1 (fun n a b => hdl n a (by omega)) (by omega) _ (by omega)
      (by omega), tgt]
    congr 1; ring
  have B : Est (tgt L el) (fun x y => False ∨ (x = el + (L - 1) ∧ L - 1 ≤ y ∧ y < el + 1 + (L - 1)))
      (fun dl => setRow dl (el - 1 + (L - 1)) (L - 1) (el + 1 + (L - 1)) (fun mm =>
        2 * mm / Real.sqrt ((el - (el - 1)) * (el + (el - 1) + 1) : ℤ) *
          dl (el - 1 + 1 + (L - 1)) (mm + (L - 1))))
      (fun x y => x = el - 1 + (L - 1) ∧ L - 1 ≤ y ∧ y < el + 1 + (L - 1)) := by
    refine Est.setRow (v := fun dl mm => 2 * mm / Real.sqrt ((el - (el - 1)) *
      (el + (el - 1) + 1) : ℤ) * dl (el - 1 + 1 + (L - 1)) (mm + (L - 1))) ?_
    intro s hs y h2 h3
    rw [hs _ _ (Or.inr ⟨by ring, by omega, by omega⟩), tgt, tgt,
      show el - 1 + 1 + (L - 1) - (L - 1) = el - 1 + 1 by ring,
      show y - (L - 1) + (L - 1) - (L - 1) = y - (L - 1) by ring,
      show el - 1 + (L - 1) - (L - 1) = el - 1 by ring, Delta_first el (y - (L - 1)) h1]
  have C : Est (tgt L el) (fun x y => False ∨
        ((x = el + (L - 1) ∧ L - 1 ≤ y ∧ y < el + 1 + (L - 1)) ∨
          (x = el - 1 + (L - 1) ∧ L - 1 ≤ y ∧ y < el + 1 + (L - 1))))
      (forRange 0 (el - 2 - (-1)) (fun t dl =>
        setRow dl (el - 2 - t + (L - 1)) (L - 1) (el + 1 + (L - 1)) (fun mm =>
          2 * mm / Real.sqrt ((el - (el - 2 - t)) * (el + (el - 2 - t) + 1) : ℤ) *
            dl (el - 2 - t + 1 + (L - 1)) (mm + (L - 1))
          - Real.sqrt (((el - (el - 2 - t) - 1) * (el + (el - 2 - t) + 2) : ℤ) /
              (el - (el - 2 - t) : ℤ) / (el + (el - 2 - t) + 1 : ℤ)) *
            dl (el - 2 - t + 2 + (L - 1)) (mm + (L - 1)))))
      (fun x y => ∃ t, 0 ≤ t ∧ t < el - 2 - (-1) ∧
        (x = el - 2 - t + (L - 1) ∧ L - 1 ≤ y ∧ y < el + 1 + (L - 1))) := by
    apply Est.loop
    intro t h4 h5
    refine Est.setRow (v := fun dl mm => 2 * mm / Real.sqrt ((el - (el - 2 - t)) *
        (el + (el - 2 - t) + 1) : ℤ) * dl (el - 2 - t + 1 + (L - 1)) (mm + (L - 1))
          - Real.sqrt (((el - (el - 2 - t) - 1) * (el + (el - 2 - t) + 2) : ℤ) /
              (el - (el - 2 - t) : ℤ) / (el + (el - 2 - t) + 1 : ℤ)) *
            dl (el - 2 - t + 2 + (L - 1)) (mm + (L - 1))) ?_
    intro s hs y h2 h3
    have r1 : s (el - 2 - t + 1 + (L - 1)) (y - (L - 1) + (L - 1))
        = tgt L el (el - 2 - t + 1 + (L - 1)) (y - (L - 1) + (L - 1)) := by
      apply hs
      by_cases ht : t = 0
      · left; right; right; subst ht; exact ⟨by ring, by omega, by omega⟩
      · right; exact ⟨t - 1, by omega, by omega, by ring, by omega, by omega⟩
    have r2 : s (el - 2 - t + 2 + (L - 1)) (y - (L - 1) + (L - 1))
        = tgt L el (el - 2 - t + 2 + (L - 1)) (y - (L - 1) + (L - 1)) := by
      apply hs
      by_cases ht : t = 0
      · left; right; left; subst ht; exact ⟨by ring, by omega, by omega⟩
      · by_cases ht1 : t = 1
        · left; right; right; subst ht1; exact ⟨by ring, by omega, by omega⟩
        · right; exact ⟨t - 2, by omega, by omega, by ring, by omega, by omega⟩
    rw [r1, r2, tgt, tgt, tgt, show el - 2 - t + 1 + (L - 1) - (L - 1) = el - 2 - t + 1 by ring,
      show el - 2 - t + 2 + (L - 1) - (L - 1) = el - 2 - t + 2 by ring,
      show y - (L - 1) + (L - 1) - (L - 1) = y - (L - 1) by ring,
      show el - 2 - t + (L - 1) - (L - 1) = el - 2 - t by ring]
    exact (Delta_down el (el - 2 - t) (y - (L - 1)) (by omega) (by omega)).symm
  obtain ⟨a, b⟩ := Est.comp (Est.comp A B) C dl (fun _ _ h => h.elim)
  refine ⟨a, fun x y h => b x y ?_⟩
  by_cases e1 : x = el + (L - 1)
  · left; left; exact ⟨e1, by omega, by omega⟩
  · by_cases e2 : x = el - 1 + (L - 1)
    · left; right; exact ⟨e2, by omega, by omega⟩
    · right; exact ⟨el - 2 - (x - (L - 1)), by omega, by omega, by ring, by omega, by omega⟩

/-! ## JAX quarter plane -/

theorem setRow_apply (a : ℤ → ℤ → ℝ) (r lo hi : ℤ) (v : ℤ → ℝ) (x y : ℤ) :
    setRow a r lo hi v x y = if x = r ∧ lo ≤ y ∧ y < hi then v (y - lo) else a x y := rfl

theorem trapaniQuarterJax_eq (dl : ℤ → ℤ → ℝ) (L el : ℤ) (h1 : 1 ≤ el) (hL : el < L)
    (hdl : ∀ m n, |m| < L → |n| < L → dl (m + (L - 1)) (n + (L - 1)) = Delta (el - 1) m n) :
    (∀ x y, (0 ≤ x - (L - 1) ∧ x - (L - 1) ≤ L - 1) ∧ (0 ≤ y - (L - 1) ∧ y - (L - 1) ≤ L - 1) →
      trapaniQuarterJax dl L el x y = tgt L el x y) := by
  intro x y hxy
  obtain ⟨m, rfl⟩ : ∃ m, x = m + (L - 1) := ⟨x - (L - 1), by ring⟩
  obtain ⟨n, rfl⟩ : ∃ n, y = n + (L - 1) := ⟨y - (L - 1), by ring⟩
  have hm : 0 ≤ m ∧ m < L := by omega
  have hn : 0 ≤ n ∧ n < L := by omega
  rw [tgt, show m + (L - 1) - (L - 1) = m by ring, show n + (L - 1) - (L - 1) = n by ring]
  -- rows `el` and `el - 1`
  have dmm : ∀ n, 0 ≤ n → n < L → trapaniDmmVec dl L el L n = Delta el el n := fun n a b =>
    trapaniDmmVec_eq dl L el L h1 (fun n a b => hdl (el - 1) n (by rw [abs_lt]; omega)
      (by rw [abs_lt]; omega)) (by omega) n a b
  unfold trapaniQuarterJax
  simp only
  set dl1 := setRow dl (el + (L - 1)) (L - 1) (L + (L - 1)) (trapaniDmmVec dl L el L) with hdl1
  set dl2 := setRow dl1 (el - 1 + (L - 1)) (L - 1) (L + (L - 1)) (fun mm =>
    2 * mm / Real.sqrt ((el - (el - 1)) * (el + (el - 1) + 1) : ℤ) *
      dl1 (el - 1 + 1 + (L - 1)) (mm + (L - 1))) with hdl2
  have row_el : ∀ n, 0 ≤ n → n < L → dl1 (el + (L - 1)) (n + (L - 1)) = Delta el el n := by
    intro n a b
    rw [hdl1, setRow_apply, if_pos ⟨rfl, by omega, by omega⟩,
      show n + (L - 1) - (L - 1) = n by ring, dmm n a b]
  have row_el2 : ∀ n, 0 ≤ n → n < L → dl2 (el + (L - 1)) (n + (L - 1)) = Delta el el n := by
    intro n a b
    rw [hdl2, setRow_apply, if_neg (by omega), row_el n a b]
  have row_el1 : ∀ n, 0 ≤ n → n < L → dl2 (el - 1 + (L - 1)) (n + (L - 1)) = Delta el (el - 1) n := by
    intro n a b
    rw [hdl2, setRow_apply, if_pos ⟨rfl, by omega, by omega⟩,
      show n + (L - 1) - (L - 1) = n by ring, show el - 1 + 1 + (L - 1) = el + (L - 1) by ring,
      row_el n a b, Delta_first el n h1, show el - 1 + 1 = el by ring]
  -- the scan
  set step := (fun (i : ℤ) (st : (ℤ → ℝ) × (ℤ → ℝ) × (ℤ → ℤ → ℝ)) =>
      ((fun mm : ℤ => 2 * (mm : ℝ) / Real.sqrt
          ((el - if L - 1 - 2 - i - (L - 1) + el < 0 then 0 else L - 1 - 2 - i - (L - 1) + el) *
            (el + (if L - 1 - 2 - i - (L - 1) + el < 0 then 0 else L - 1 - 2 - i - (L - 1) + el) + 1)
              : ℤ) * st.1 mm
        - Real.sqrt
          (((el - (if L - 1 - 2 - i - (L - 1) + el < 0 then 0 else L - 1 - 2 - i - (L - 1) + el) - 1) *
            (el + (if L - 1 - 2 - i - (L - 1) + el < 0 then 0 else L - 1 - 2 - i - (L - 1) + el) + 2)
              : ℤ) /
            (el - (if L - 1 - 2 - i - (L - 1) + el < 0 then 0 else L - 1 - 2 - i - (L - 1) + el) : ℤ) /
            (el + (if L - 1 - 2 - i - (L - 1) + el < 0 then 0 else L - 1 - 2 - i - (L - 1) + el) + 1
              : ℤ)) * st.2.1 mm : ℤ → ℝ), st.1, fun i' => if i' = i then
        (fun mm : ℤ => 2 * (mm : ℝ) / Real.sqrt
          ((el - if L - 1 - 2 - i - (L - 1) + el < 0 then 0 else L - 1 - 2 - i - (L - 1) + el) *
            (el + (if L - 1 - 2 - i - (L - 1) + el < 0 then 0 else L - 1 - 2 - i - (L - 1) + el) + 1)
              : ℤ) * st.1 mm
        - Real.sqrt
          (((el - (if L - 1 - 2 - i - (L - 1) + el < 0 then 0 else L - 1 - 2 - i - (L - 1) + el) - 1) *
            (el + (if L - 1 - 2 - i - (L - 1) + el < 0 then 0 else L - 1 - 2 - i - (L - 1) + el) + 2)
              : ℤ) /
            (el - (if L - 1 - 2 - i - (L - 1) + el < 0 then 0 else L - 1 - 2 - i - (L - 1) + el) : ℤ) /
            (el + (if L - 1 - 2 - i - (L - 1) + el < 0 then 0 else L - 1 - 2 - i - (L - 1) + el) + 1
              : ℤ)) * st.2.1 mm : ℤ → ℝ) else st.2.2 i')) with hstep
  have hscan : ∀ k, 0 ≤ k → k ≤ L - 2 → k ≤ el - 1 →
      let st := forRange 0 k step
        (fun mm => dl2 (el - 1 + (L - 1)) (mm + (L - 1)), fun mm => dl2 (el + (L - 1)) (mm + (L - 1)),
          fun _ _ => 0)
      (∀ n, 0 ≤ n → n < L → st.1 n = Delta el (el - 1 - k) n) ∧
      (∀ n, 0 ≤ n → n < L → st.2.1 n = Delta el (el - k) n) ∧
      (∀ i n, 0 ≤ i → i < k → 0 ≤ n → n < L → st.2.2 i n = Delta el (el - 2 - i) n) := by
    intro k hk hk1 hk2
    refine forRange_ind hk step _ (fun k st => k ≤ el - 1 →
      (∀ n, 0 ≤ n → n < L → st.1 n = Delta el (el - 1 - k) n) ∧
      (∀ n, 0 ≤ n → n < L → st.2.1 n = Delta el (el - k) n) ∧
      (∀ i n, 0 ≤ i → i < k → 0 ≤ n → n < L → st.2.2 i n = Delta el (el - 2 - i) n)) ?_ ?_ hk2
    · intro _
      refine ⟨fun n a b => ?_, fun n a b => ?_, fun i n a b => by omega⟩
      · rw [sub_zero]; exact row_el1 n a b
      · rw [sub_zero]; exact row_el2 n a b
    · intro i st ha hb hc hd
      obtain ⟨c1, c2, c3⟩ := hc (by omega)
      have hv : ∀ n, 0 ≤ n → n < L → (step i st).1 n = Delta el (el - 2 - i) n := by
        intro n a b
        simp only [hstep]
        rw [show L - 1 - 2 - i - (L - 1) + el = el - 2 - i by ring, if_neg (by omega), c1 n a b,
          c2 n a b]
        have := Delta_down el (el - 2 - i) n (by omega) (by omega)
        rw [show el - 2 - i + 1 = el - 1 - i by ring, show el - 2 - i + 2 = el - i by ring] at this
        exact this.symm
      refine ⟨fun n a b => ?_, fun n a b => ?_, fun i' n a b c d => ?_⟩
      · rw [hv n a b]; congr 1; ring
      · rw [show el - (i + 1) = el - 1 - i by ring]; exact c1 n a b
      · by_cases hi : i' = i
        · subst hi
          have h2 : (step i' st).2.2 i' = (step i' st).1 := by simp only [hstep, if_true]
          rw [h2]; exact hv n c d
        · have h2 : (step i st).2.2 i' = st.2.2 i' := by simp only [hstep, if_neg hi]
          rw [h2]; exact c3 i' n a (by omega) c d
  -- the scan output at an index does not change once written
  have hkeep : ∀ k i, 0 ≤ i → i < k → k ≤ L - 2 → ∀ st0,
      (forRange 0 (L - 2) step st0).2.2 i = (forRange 0 k step st0).2.2 i := by
    intro k i h2 h3 h4 st0
    have e := forRange_ind h4 step (forRange 0 k step st0)
      (fun j st => st = forRange 0 j step st0 ∧ st.2.2 i = (forRange 0 k step st0).2.2 i)
      ⟨rfl, rfl⟩ (fun j st a b ⟨c, d⟩ => by
        refine ⟨?_, ?_⟩
        · rw [forRange_succ (by omega), c]
        · have h2 : (step j st).2.2 i = st.2.2 i := by
            simp only [hstep]; rw [if_neg (by omega)]
          rw [h2, d])
    rw [← e.2, ← e.1]
  by_cases c1 : m = el
  · subst c1
    refine (forRange_frame _ _ _ _ (fun d : ℤ → ℤ → ℝ => d (m + (L - 1)) (n + (L - 1))) ?_).trans
      (row_el2 n hn.1 hn.2)
    intro i s a b
    rw [setRow_apply, if_neg (by omega)]
  · by_cases c2 : m = el - 1
    · subst c2
      refine (forRange_frame _ _ _ _ (fun d : ℤ → ℤ → ℝ => d (el - 1 + (L - 1)) (n + (L - 1)))
        ?_).trans (row_el1 n hn.1 hn.2)
      intro i s a b
      rw [setRow_apply, if_neg (by omega)]
    · by_cases c3 : el < m
      · refine (forRange_frame _ _ _ _ (fun d : ℤ → ℤ → ℝ => d (m + (L - 1)) (n + (L - 1)))
          ?_).trans ?_
        · intro i s a b
          rw [setRow_apply, if_neg (by omega)]
        · rw [hdl2, setRow_apply, if_neg (by omega), hdl1, setRow_apply, if_neg (by omega),
            hdl m n (by rw [abs_lt]; omega) (by rw [abs_lt]; omega),
            Delta_outside _ _ _ (Or.inl (by rw [lt_abs]; omega)),
            Delta_outside _ _ _ (Or.inl (by rw [lt_abs]; omega))]
      · refine (forRange_write _ _ _ _ (fun d : ℤ → ℤ → ℝ => d (m + (L - 1)) (n + (L - 1)))
          (el - 2 - m) _ (by omega) (by omega) ?_ ?_)
        · intro s
          rw [setRow_apply, if_pos ⟨by ring, by omega, by omega⟩,
            show n + (L - 1) - (L - 1) = n by ring]
          rw [hkeep (el - 2 - m + 1) (el - 2 - m) (by omega) (by omega) (by omega)]
          rw [(hscan (el - 2 - m + 1) (by omega) (by omega) (by omega)).2.2 (el - 2 - m) n (by omega)
            (by omega) hn.1 hn.2]
          congr 1; ring
        · intro i s a b c
          rw [setRow_apply, if_neg (by omega)]

/-! ## Whole steps -/

theorem tgt_at (L el m n : ℤ) : tgt L el (m + (L - 1)) (n + (L - 1)) = Delta el m n := by
  rw [tgt, show m + (L - 1) - (L - 1) = m by ring, show n + (L - 1) - (L - 1) = n by ring]

theorem trapaniFullLoop_step (dl : ℤ → ℤ → ℝ) (L el : ℤ) (h1 : 1 ≤ el)
    (hdl : ∀ n, 0 ≤ n → n ≤ el - 1 →
      dl (el - 1 + (L - 1)) (n + (L - 1)) = Delta (el - 1) (el - 1) n) :
    (∀ x y, dl x y = tgt L el x y → trapaniFullLoop dl L el x y = tgt L el x y) ∧
    (∀ m n, |m| ≤ el → |n| ≤ el →
      trapaniFullLoop dl L el (m + (L - 1)) (n + (L - 1)) = Delta el m n) := by
  obtain ⟨a0, b0⟩ := trapaniEighth_est dl L el h1 hdl
  obtain ⟨a1, b1⟩ := fillEighth2Quarter_est L el (trapaniEighth dl L el) (fun x y h => by
    have := b0 (x - (L - 1)) (y - (L - 1)) (by omega) (by omega) (by omega)
    rwa [sub_add_cancel, sub_add_cancel] at this)
  have q1 : ∀ x y, (0 ≤ x - (L - 1) ∧ x - (L - 1) ≤ el) ∧ (0 ≤ y - (L - 1) ∧ y - (L - 1) ≤ el) →
      fillEighth2Quarter (trapaniEighth dl L el) L el x y = tgt L el x y := by
    intro x y h
    by_cases c : y ≤ x
    · refine a1 x y ?_
      have := b0 (x - (L - 1)) (y - (L - 1)) (by omega) (by omega) (by omega)
      rwa [sub_add_cancel, sub_add_cancel] at this
    · exact b1 x y ⟨x - (L - 1), by omega, by omega, y - (L - 1), by omega, by omega, by ring, by ring⟩
  obtain ⟨a2, b2⟩ := fillQuarter2Half_est L el _ q1
  have q2 : ∀ x y, (-el ≤ x - (L - 1) ∧ x - (L - 1) ≤ el) ∧ (0 ≤ y - (L - 1) ∧ y - (L - 1) ≤ el) →
      fillQuarter2Half (fillEighth2Quarter (trapaniEighth dl L el) L el) L el x y = tgt L el x y := by
    intro x y h
    by_cases c : 0 ≤ x - (L - 1)
    · exact a2 x y (q1 x y ⟨⟨c, h.1.2⟩, h.2⟩)
    · exact b2 x y ⟨y - (L - 1), by omega, by omega, x - (L - 1), by omega, by omega, by ring, by ring⟩
  obtain ⟨a3, b3⟩ := fillHalf2Full_est L el _ q2
  refine ⟨fun x y h => a3 x y (a2 x y (a1 x y (a0 x y h))), fun m n hm hn => ?_⟩
  rw [abs_le] at hm hn
  rw [← tgt_at L]
  by_cases c : 0 ≤ n
  · exact a3 _ _ (q2 _ _ ⟨⟨by omega, by omega⟩, by omega, by omega⟩)
  · exact b3 _ _ ⟨n, by omega, by omega, m, by omega, by omega, rfl, rfl⟩

theorem trapaniQuarter_step (dl : ℤ → ℤ → ℝ) (L el : ℤ) (h1 : 1 ≤ el)
    (hdl : ∀ n, 0 ≤ n → n ≤ el - 1 →
      dl (el - 1 + (L - 1)) (n + (L - 1)) = Delta (el - 1) (el - 1) n) :
    (∀ m n, 0 ≤ m → m ≤ el → 0 ≤ n → n ≤ el →
      trapaniQuarter dl L el (m + (L - 1)) (n + (L - 1)) = Delta el m n) := by
  obtain ⟨a0, b0⟩ := trapaniEighth_est dl L el h1 hdl
  obtain ⟨a1, b1⟩ := fillEighth2Quarter_est L el (trapaniEighth dl L el) (fun x y h => by
    have := b0 (x - (L - 1)) (y - (L - 1)) (by omega) (by omega) (by omega)
    rwa [sub_add_cancel, sub_add_cancel] at this)
  intro m n hm hm' hn hn'
  rw [← tgt_at L]
  by_cases c : n ≤ m
  · refine a1 _ _ ?_
    rw [b0 m n hn c hm', tgt_at]
  · exact b1 _ _ ⟨m, hm, by omega, n, by omega, by omega, rfl, rfl⟩

/-- The vectorised fills turn a quarter plane into the full one. -/
theorem fillVec_full (q : ℤ → ℤ → ℝ) (L el k : ℤ) (h0 : 0 ≤ el)
    (q1 : ∀ x y, (0 ≤ x - (L - 1) ∧ x - (L - 1) ≤ k) ∧ (0 ≤ y - (L - 1) ∧ y - (L - 1) ≤ k) →
      q x y = tgt L el x y) :
    (∀ x y, q x y = tgt L el x y →
      fillHalf2FullVec (fillQuarter2HalfVec q L el k) L el k x y = tgt L el x y) ∧
    (∀ m n, |m| ≤ k → |n| ≤ k →
      fillHalf2FullVec (fillQuarter2HalfVec q L el k) L el k (m + (L - 1)) (n + (L - 1))
        = Delta el m n) := by
  obtain ⟨a2, b2⟩ := fillQuarter2HalfVec_est L el k h0 q q1
  have q2 : ∀ x y, (-k ≤ x - (L - 1) ∧ x - (L - 1) ≤ k) ∧ (0 ≤ y - (L - 1) ∧ y - (L - 1) ≤ k) →
      fillQuarter2HalfVec q L el k x y = tgt L el x y := by
    intro x y h
    by_cases c : 0 ≤ x - (L - 1)
    · exact a2 x y (q1 x y ⟨⟨c, h.1.2⟩, h.2⟩)
    · exact b2 x y ⟨⟨by omega, by omega⟩, by omega, by omega⟩
  obtain ⟨a3, b3⟩ := fillHalf2FullVec_est L el k h0 _ q2
  refine ⟨fun x y h => a3 x y (a2 x y h), fun m n hm hn => ?_⟩
  rw [abs_le] at hm hn
  rw [← tgt_at L]
  by_cases c : 0 ≤ n
  · exact a3 _ _ (q2 _ _ ⟨⟨by omega, by omega⟩, by omega, by omega⟩)
  · exact b3 _ _ ⟨⟨by omega, by omega⟩, by omega, by omega⟩

theorem trapaniFullVec_step (dl : ℤ → ℤ → ℝ) (L el : ℤ) (h1 : 1 ≤ el)
    (hdl : ∀ n, 0 ≤ n → n ≤ el - 1 →
      dl (el - 1 + (L - 1)) (n + (L - 1)) = Delta (el - 1) (el - 1) n) :
    (∀ x y, dl x y = tgt L el x y → trapaniFullVec dl L el x y = tgt L el x y) ∧
    (∀ m n, |m| ≤ el → |n| ≤ el →
      trapaniFullVec dl L el (m + (L - 1)) (n + (L - 1)) = Delta el m n) := by
  obtain ⟨a0, b0⟩ := trapaniQuarterVec_est dl L el h1 hdl
  obtain ⟨a1, b1⟩ := fillVec_full _ L el el (by omega) b0
  exact ⟨fun x y h => a1 x y (a0 x y h), b1⟩

theorem trapaniFullJax_step (dl : ℤ → ℤ → ℝ) (L el : ℤ) (h1 : 1 ≤ el) (hL : el < L)
    (hdl : ∀ m n, |m| < L → |n| < L → dl (m + (L - 1)) (n + (L - 1)) = Delta (el - 1) m n)
    (m n : ℤ) (hm : |m| < L) (hn : |n| < L) :
    trapaniFullJax dl L el (m + (L - 1)) (n + (L - 1)) = Delta el m n :=
  (fillVec_full _ L el (L - 1) (by omega) (trapaniQuarterJax_eq dl L el h1 hL hdl)).2 m n (by omega)
    (by omega)

/-- A step that computes the block `|m|, |n| ≤ el` and spoils nothing computes the whole plane. -/
theorem trapani_whole (f : (ℤ → ℤ → ℝ) → ℤ → ℤ → ℝ) (dl : ℤ → ℤ → ℝ) (L el : ℤ)
    (hdl : ∀ m n, |m| < L → |n| < L → dl (m + (L - 1)) (n + (L - 1)) = Delta (el - 1) m n)
    (hf : (∀ x y, dl x y = tgt L el x y → f dl x y = tgt L el x y) ∧
      (∀ m n, |m| ≤ el → |n| ≤ el → f dl (m + (L - 1)) (n + (L - 1)) = Delta el m n))
    (m n : ℤ) (hm : |m| < L) (hn : |n| < L) : f dl (m + (L - 1)) (n + (L - 1)) = Delta el m n := by
  by_cases h : |m| ≤ el ∧ |n| ≤ el
  · exact hf.2 m n h.1 h.2
  · rw [← tgt_at L]
    apply hf.1
    rw [tgt_at, hdl m n hm hn, Delta_outside _ _ _ (by omega), Delta_outside _ _ _ (by omega)]

theorem trapaniInit_plane (L : ℤ) (m n : ℤ) :
    trapaniInit (fun _ _ => 0) L (m + (L - 1)) (n + (L - 1)) = Delta 0 m n := by
  unfold trapaniInit set2
  by_cases h : m = 0 ∧ n = 0
  · rw [if_pos ⟨by omega, by omega⟩, h.1, h.2, Delta, wignerd_zero]
  · rw [if_neg (by omega), Delta_outside]
    rcases not_and_or.mp h with h | h
    · left; exact abs_pos.mpr h
    · right; exact abs_pos.mpr h

end S2fft
