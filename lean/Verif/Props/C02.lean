import Verif.Lemmas.Reindex

/-! # C02: 2D ↔ 1D coefficient conversion is lossless -/

namespace S2fft

/-- 2D → 1D → 2D keeps every coefficient `|m| ≤ el` and zeroes the padding. -/
theorem C02_2d_1d_2d (L : ℤ) (hL : 1 ≤ L) (a : ℤ → ℤ → ℂ) :
    ∃ b c, flm_2d_to_1d (.d2 L (2 * L - 1) a) L = .ok (.d1 (L ^ 2) b) ∧
      flm_1d_to_2d (.d1 (L ^ 2) b) L = .ok (.d2 L (2 * L - 1) c) ∧
      ∀ el m, 0 ≤ el → el < L → |m| < L →
        c el (L - 1 + m) = if |m| ≤ el then a el (L - 1 + m) else 0 := by
  obtain ⟨b, hb, hb'⟩ := to1d_ok L a
  obtain ⟨c, hc, hc'⟩ := to2d_ok L b
  refine ⟨b, c, hb, hc, ?_⟩
  intro el m h0 h1 _
  rw [hc']
  simp only [add_sub_cancel_left]
  by_cases h : |m| ≤ el
  · rw [if_pos ⟨h0, h1, h⟩, if_pos h, hb' el m h1 h]
  · rw [if_neg (by tauto), if_neg h]

/-- 1D → 2D → 1D is the identity. -/
theorem C02_1d_2d_1d (L : ℤ) (hL : 1 ≤ L) (a : ℤ → ℂ) :
    ∃ b c, flm_1d_to_2d (.d1 (L ^ 2) a) L = .ok (.d2 L (2 * L - 1) b) ∧
      flm_2d_to_1d (.d2 L (2 * L - 1) b) L = .ok (.d1 (L ^ 2) c) ∧
      ∀ k, 0 ≤ k → k < L ^ 2 → c k = a k := by
  obtain ⟨b, hb, hb'⟩ := to2d_ok L a
  obtain ⟨c, hc, hc'⟩ := to1d_ok L b
  refine ⟨b, c, hb, hc, ?_⟩
  intro k h0 h1
  obtain ⟨el, m, hel, h2, h3, rfl⟩ := exists_elm h0 h1 (by omega)
  rw [hc' el m h2 h3, hb', if_pos (by simpa using ⟨hel, h2, h3⟩)]
  simp

/-- Each conversion rejects input of any other number of dimensions, and undersized input. -/
theorem C02_reject (L : ℤ) (hL : 1 ≤ L) :
    (∀ n a, flm_2d_to_1d (.d1 n a) L = .error .valueError) ∧
    (∀ p r c a, flm_2d_to_1d (.d3 p r c a) L = .error .valueError) ∧
    (∀ k, flm_2d_to_1d (.other k) L = .error .valueError) ∧
    (∀ r c a, (r < L ∨ c < 2 * L - 1) → flm_2d_to_1d (.d2 r c a) L = .error .indexError) ∧
    (∀ r c a, flm_1d_to_2d (.d2 r c a) L = .error .valueError) ∧
    (∀ p r c a, flm_1d_to_2d (.d3 p r c a) L = .error .valueError) ∧
    (∀ k, flm_1d_to_2d (.other k) L = .error .valueError) ∧
    (∀ n a, n < L ^ 2 → flm_1d_to_2d (.d1 n a) L = .error .indexError) := by
  have hL' : 0 < L := by omega
  refine ⟨fun _ _ => rfl, fun _ _ _ _ => rfl, fun _ => rfl, ?_, fun _ _ _ => rfl,
    fun _ _ _ _ => rfl, fun _ => rfl, ?_⟩
  · intro r c a h
    simp only [flm_2d_to_1d, if_pos (And.intro hL' h)]
  · intro n a h
    rw [← ncoeff_eq] at h
    simp only [flm_1d_to_2d, if_pos (And.intro hL' h)]

/-- The jitted 1D → 2D conversion returns the same array as the loop version. -/
theorem C02_fast_1d_to_2d (L : ℤ) (hL : 1 ≤ L) (a : ℤ → ℂ) :
    ∃ b c, flm_1d_to_2d (.d1 (L ^ 2) a) L = .ok (.d2 L (2 * L - 1) b) ∧
      flm_1d_to_2d_fast (L ^ 2) a L = .ok c ∧ ∀ x y, c x y = b x y := by
  have hs := lmIndices_spec L (by omega)
  obtain ⟨b, hb, hb'⟩ := to2d_ok L a
  refine ⟨b, scatter2 (fun _ _ => 0) (lmIndices L) (toList1 (L ^ 2) a), hb, ?_, ?_⟩
  · unfold flm_1d_to_2d_fast
    rw [if_pos hs.1.symm]
  · intro x y
    rw [hb']
    split_ifs with h
    · obtain ⟨h1, h2, h3⟩ := h
      have hr := elm2ind_range h3 h2
      refine scatter2_get _ (lmIndices L) _ (nodup_npWhere _ _ _) (elm2ind x (y - (L - 1))).toNat _ _ _ ?_ ?_
      · rw [hs.2 x _ h2 h3]; simp
      · exact toList1_getElem? _ _ _ hr.1 hr.2
    · rw [scatter2_notMem]
      rw [mem_lmIndices]; exact h

/-- The jitted 2D → 1D conversion returns the same array as the loop version. -/
theorem C02_fast_2d_to_1d (L : ℤ) (hL : 1 ≤ L) (a : ℤ → ℤ → ℂ) :
    ∃ b, flm_2d_to_1d (.d2 L (2 * L - 1) a) L = .ok (.d1 (L ^ 2) b) ∧
      ((flm_2d_to_1d_fast a L).length : ℤ) = L ^ 2 ∧
      ∀ k, 0 ≤ k → k < L ^ 2 → (flm_2d_to_1d_fast a L)[k.toNat]? = some (b k) := by
  have hs := lmIndices_spec L (by omega)
  obtain ⟨b, hb, hb'⟩ := to1d_ok L a
  refine ⟨b, hb, by simpa [flm_2d_to_1d_fast] using hs.1, ?_⟩
  intro k h0 h1
  obtain ⟨el, m, hel, h2, h3, rfl⟩ := exists_elm h0 h1 (by omega)
  rw [hb' el m h2 h3]
  unfold flm_2d_to_1d_fast
  rw [List.getElem?_map, hs.2 el m h2 h3]
  rfl

/-- Witness: at `L = 3` coefficient (2,-1) sits at 1D index 5 and survives; (0,1) is padding. -/
example : (1 : ℤ) ≤ 3 ∧ |(-1 : ℤ)| ≤ 2 ∧ elm2ind 2 (-1) = 5 ∧ ¬ |(1 : ℤ)| ≤ 0 := by decide

end S2fft
