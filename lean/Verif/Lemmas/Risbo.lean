import Verif.Model.Risbo
import Verif.Lemmas.Loops
import Verif.Lemmas.WignerForm

/-! # Risbo recursion: loops as sums and the half-step identity -/

namespace S2fft
open Spec

theorem add2_apply {α : Type*} [AddZeroClass α] (a : ℤ → ℤ → α) (i j : ℤ) (v : α) (x y : ℤ) :
    add2 a i j v x y = a x y + if x = i ∧ y = j then v else 0 := by
  unfold add2 set2
  split_ifs with h
  · rw [h.1, h.2]
  · rw [add_zero]

/-- A double sum picking one term. -/
theorem sum_sum_pick (lo hi lo' hi' : ℤ) (x y : ℤ) (f : ℤ → ℤ → ℝ) :
    ∑ k ∈ Finset.Ico lo hi, ∑ i ∈ Finset.Ico lo' hi', (if x = i ∧ y = k then f k i else 0)
      = if (lo ≤ y ∧ y < hi) ∧ (lo' ≤ x ∧ x < hi') then f y x else 0 := by
  have h1 : ∀ k, ∑ i ∈ Finset.Ico lo' hi', (if x = i ∧ y = k then f k i else 0)
      = if y = k then (if lo' ≤ x ∧ x < hi' then f k x else 0) else 0 := by
    intro k
    by_cases hk : y = k
    · simp only [hk, and_true, if_true]
      rw [Finset.sum_ite_eq]
      simp only [Finset.mem_Ico]
    · simp only [hk, and_false, if_false]
      exact Finset.sum_const_zero
  simp only [h1]
  rw [Finset.sum_ite_eq]
  simp only [Finset.mem_Ico]
  by_cases ha : lo ≤ y ∧ y < hi <;> by_cases hb : lo' ≤ x ∧ x < hi' <;> simp [ha, hb]

/-- What one half-step computes at row `k`, column `i`. -/
noncomputable def halfStep (j : ℤ) (D : ℤ → ℤ → ℝ) (c s : ℝ) (k i : ℤ) : ℝ :=
  (if (0 ≤ k ∧ k < j) ∧ (0 ≤ i ∧ i < j) then √((j : ℝ) - i) * √((j : ℝ) - k) * D k i * c else 0)
  + (if (0 ≤ k ∧ k < j) ∧ (0 ≤ i - 1 ∧ i - 1 < j) then
      -(√(((i - 1 : ℤ) : ℝ) + 1) * √((j : ℝ) - k) * D k (i - 1) * s) else 0)
  + (if (0 ≤ k - 1 ∧ k - 1 < j) ∧ (0 ≤ i ∧ i < j) then
      √((j : ℝ) - i) * √(((k - 1 : ℤ) : ℝ) + 1) * D (k - 1) i * s else 0)
  + (if (0 ≤ k - 1 ∧ k - 1 < j) ∧ (0 ≤ i - 1 ∧ i - 1 < j) then
      √(((i - 1 : ℤ) : ℝ) + 1) * √(((k - 1 : ℤ) : ℝ) + 1) * D (k - 1) (i - 1) * c else 0)

/-- The half-step with `c = -cos`, `s = sin` maps `ε U_{j-1}` to `-ε j U_j`. -/
theorem halfStep_U (j : ℤ) (hj : 1 ≤ j) (D : ℤ → ℤ → ℝ) (c s ε : ℝ)
    (hD : ∀ k i, 0 ≤ k → k < j → 0 ≤ i → i < j → D k i = ε * U c s (-s) c (j - 1) k i)
    (k i : ℤ) (hk : 0 ≤ k) (hkj : k ≤ j) (hi : 0 ≤ i) (hij : i ≤ j) :
    halfStep j D (-c) s k i = -(ε * ((j : ℝ) * U c s (-s) c j k i)) := by
  rw [U_half c s (-s) c j k i hj hk hkj hi hij]
  unfold halfStep
  simp only [Algebra.algebraMap_self, RingHom.id_apply]
  have t1 : (if (0 ≤ k ∧ k < j) ∧ (0 ≤ i ∧ i < j) then √((j : ℝ) - i) * √((j : ℝ) - k) * D k i * -c
        else 0) = -(ε * (√((j : ℝ) - i) * √((j : ℝ) - k) * c * U c s (-s) c (j - 1) k i)) := by
    split_ifs with h
    · rw [hD k i h.1.1 h.1.2 h.2.1 h.2.2]; ring
    · rw [U_eq_zero _ _ _ _ _ _ _ (by omega)]; ring
  have t2 : (if (0 ≤ k ∧ k < j) ∧ (0 ≤ i - 1 ∧ i - 1 < j) then
      -(√(((i - 1 : ℤ) : ℝ) + 1) * √((j : ℝ) - k) * D k (i - 1) * s) else 0)
      = -(ε * (√(i : ℝ) * √((j : ℝ) - k) * s * U c s (-s) c (j - 1) k (i - 1))) := by
    split_ifs with h
    · rw [hD k (i - 1) h.1.1 h.1.2 h.2.1 h.2.2]; push_cast; ring_nf
    · rw [U_eq_zero _ _ _ _ _ _ _ (by omega)]; ring
  have t3 : (if (0 ≤ k - 1 ∧ k - 1 < j) ∧ (0 ≤ i ∧ i < j) then
      √((j : ℝ) - i) * √(((k - 1 : ℤ) : ℝ) + 1) * D (k - 1) i * s else 0)
      = -(ε * (√((j : ℝ) - i) * √(k : ℝ) * (-s) * U c s (-s) c (j - 1) (k - 1) i)) := by
    split_ifs with h
    · rw [hD (k - 1) i h.1.1 h.1.2 h.2.1 h.2.2]; push_cast; ring_nf
    · rw [U_eq_zero _ _ _ _ _ _ _ (by omega)]; ring
  have t4 : (if (0 ≤ k - 1 ∧ k - 1 < j) ∧ (0 ≤ i - 1 ∧ i - 1 < j) then
      √(((i - 1 : ℤ) : ℝ) + 1) * √(((k - 1 : ℤ) : ℝ) + 1) * D (k - 1) (i - 1) * -c else 0)
      = -(ε * (√(i : ℝ) * √(k : ℝ) * c * U c s (-s) c (j - 1) (k - 1) (i - 1))) := by
    split_ifs with h
    · rw [hD (k - 1) (i - 1) h.1.1 h.1.2 h.2.1 h.2.2]; push_cast; ring_nf
    · rw [U_eq_zero _ _ _ _ _ _ _ (by omega)]; ring
  rw [t1, t2, t3, t4]
  ring

/-- The four contributions of iteration `(k, i)` to the entry at row `X`, column `Y`. -/
noncomputable def halfTerms (j : ℤ) (D : ℤ → ℤ → ℝ) (c s : ℝ) (X Y k i : ℤ) : ℝ :=
  (if Y = i ∧ X = k then √((j : ℝ) - i) * √((j : ℝ) - k) * D k i * c else 0)
  + (if Y - 1 = i ∧ X = k then -(√((i : ℝ) + 1) * √((j : ℝ) - k) * D k i * s) else 0)
  + (if Y = i ∧ X - 1 = k then √((j : ℝ) - i) * √((k : ℝ) + 1) * D k i * s else 0)
  + (if Y - 1 = i ∧ X - 1 = k then √((i : ℝ) + 1) * √((k : ℝ) + 1) * D k i * c else 0)

theorem sum_halfTerms (j : ℤ) (D : ℤ → ℤ → ℝ) (c s : ℝ) (X Y : ℤ) :
    ∑ k ∈ Finset.Ico 0 j, ∑ i ∈ Finset.Ico 0 j, halfTerms j D c s X Y k i
      = halfStep j D c s X Y := by
  unfold halfTerms
  simp only [Finset.sum_add_distrib]
  rw [sum_sum_pick 0 j 0 j Y X (fun k i => √((j : ℝ) - i) * √((j : ℝ) - k) * D k i * c),
    sum_sum_pick 0 j 0 j (Y - 1) X (fun k i => -(√((i : ℝ) + 1) * √((j : ℝ) - k) * D k i * s)),
    sum_sum_pick 0 j 0 j Y (X - 1) (fun k i => √((j : ℝ) - i) * √((k : ℝ) + 1) * D k i * s),
    sum_sum_pick 0 j 0 j (Y - 1) (X - 1) (fun k i => √((i : ℝ) + 1) * √((k : ℝ) + 1) * D k i * c)]
  rfl

theorem risboFirst_eq (dl : ℤ → ℤ → ℝ) (c s : ℝ) (L el x y : ℤ) :
    risboFirst dl c s L el x y = halfStep (2 * el - 1)
      (fun k i => dl (k - (el - 1) + L - 1) (i - (el - 1) + L - 1) / ((2 * el - 1 : ℤ) : ℝ))
      c s y x := by
  unfold risboFirst
  rw [← sum_halfTerms]
  refine (forRange2_sum 0 (2 * el - 1) (fun _ => 0) (fun _ => 2 * el - 1) _ _
    (fun dd : ℤ → ℤ → ℝ => dd x y) (halfTerms (2 * el - 1)
      (fun k i => dl (k - (el - 1) + L - 1) (i - (el - 1) + L - 1) / ((2 * el - 1 : ℤ) : ℝ))
      c s y x) (fun k i dd _ _ _ _ => ?_)).trans (zero_add _)
  simp only [add2_apply, halfTerms, sub_eq_iff_eq_add]
  ring

theorem risboSecond_eq (dl dd : ℤ → ℤ → ℝ) (c s : ℝ) (L el x y : ℤ) :
    risboSecond dl dd c s L el x y = dl x y + halfStep (2 * el)
      (fun k i => dd i k / ((2 * el : ℤ) : ℝ)) c s (x + el - L + 1) (y + el - L + 1) := by
  unfold risboSecond
  rw [← sum_halfTerms]
  refine (forRange2_sum 0 (2 * el) (fun _ => 0) (fun _ => 2 * el) _ _
    (fun dl : ℤ → ℤ → ℝ => dl x y) (halfTerms (2 * el)
      (fun k i => dd i k / ((2 * el : ℤ) : ℝ)) c s (x + el - L + 1) (y + el - L + 1))
      (fun k i dl _ _ _ _ => ?_))
  simp only [add2_apply, halfTerms]
  have h1 : (y + el - L + 1 = i ∧ x + el - L + 1 = k) = (x = k - el + L - 1 ∧ y = i - el + L - 1) :=
    propext (by omega)
  have h2 : (y + el - L + 1 - 1 = i ∧ x + el - L + 1 = k)
      = (x = k - el + L - 1 ∧ y = i + 1 - el + L - 1) := propext (by omega)
  have h3 : (y + el - L + 1 = i ∧ x + el - L + 1 - 1 = k)
      = (x = k + 1 - el + L - 1 ∧ y = i - el + L - 1) := propext (by omega)
  have h4 : (y + el - L + 1 - 1 = i ∧ x + el - L + 1 - 1 = k)
      = (x = k + 1 - el + L - 1 ∧ y = i + 1 - el + L - 1) := propext (by omega)
  simp only [h1, h2, h3, h4]
  ring

/-! ## Degrees 0 and 1 -/

theorem wignerd_zero (β : ℝ) : wignerd 0 0 0 β = 1 := by
  simp [wignerd, fact]

theorem wignerd_outside (l m n : ℤ) (β : ℝ) (h : l < |m| ∨ l < |n|) : wignerd l m n β = 0 := by
  unfold wignerd; rw [if_neg (by omega)]

private theorem nrm20 : nrm 2 0 = √2 := by simp [nrm, fact]
private theorem nrm21 : nrm 2 1 = 1 := by simp [nrm, fact]
private theorem nrm22 : nrm 2 2 = √2 := by simp [nrm, fact]

private theorem sq2 : √(2 : ℝ) ≠ 0 := by simp

theorem wignerd_one (β : ℝ) :
    wignerd 1 (-1) (-1) β = Real.cos (β / 2) ^ 2 ∧
    wignerd 1 (-1) 0 β = Real.sin β / √2 ∧
    wignerd 1 (-1) 1 β = Real.sin (β / 2) ^ 2 ∧
    wignerd 1 0 (-1) β = -Real.sin β / √2 ∧
    wignerd 1 0 0 β = Real.cos β ∧
    wignerd 1 0 1 β = Real.sin β / √2 ∧
    wignerd 1 1 (-1) β = Real.sin (β / 2) ^ 2 ∧
    wignerd 1 1 0 β = -Real.sin β / √2 ∧
    wignerd 1 1 1 β = Real.cos (β / 2) ^ 2 := by
  have hs : Real.sin β = 2 * Real.sin (β / 2) * Real.cos (β / 2) := by
    rw [← Real.sin_two_mul]; ring_nf
  have hc : Real.cos β = Real.cos (β / 2) ^ 2 - Real.sin (β / 2) ^ 2 := by
    rw [← Real.cos_two_mul']; ring_nf
  have h2 : √(2 : ℝ) ^ 2 = 2 := Real.sq_sqrt (by norm_num)
  simp only [wignerd_eq_U, hs, hc]
  generalize Real.cos (β / 2) = c
  generalize Real.sin (β / 2) = s
  norm_num
  have q01 : ∀ i, qf c s (-s) c 0 1 i = (-s) * qf c s (-s) c 0 0 (i - 1) + c * qf c s (-s) c 0 0 i :=
    fun i => qf_succ_right _ _ _ _ 0 0 i
  have q02 : ∀ i, qf c s (-s) c 0 2 i = (-s) * qf c s (-s) c 0 1 (i - 1) + c * qf c s (-s) c 0 1 i :=
    fun i => qf_succ_right _ _ _ _ 0 1 i
  have q11 : ∀ i, qf c s (-s) c 1 1 i = c * qf c s (-s) c 0 1 (i - 1) + s * qf c s (-s) c 0 1 i :=
    fun i => qf_succ_left _ _ _ _ 0 1 i
  have q10 : ∀ i, qf c s (-s) c 1 0 i = c * qf c s (-s) c 0 0 (i - 1) + s * qf c s (-s) c 0 0 i :=
    fun i => qf_succ_left _ _ _ _ 0 0 i
  have q20 : ∀ i, qf c s (-s) c 2 0 i = c * qf c s (-s) c 1 0 (i - 1) + s * qf c s (-s) c 1 0 i :=
    fun i => qf_succ_left _ _ _ _ 1 0 i
  refine ⟨?_, ?_, ?_, ?_, ?_, ?_, ?_, ?_, ?_⟩ <;>
  · rw [U_of _ _ _ _ _ _ _ (by norm_num) (by norm_num)]
    norm_num [show Int.toNat 2 = 2 from rfl, nrm20, nrm21, nrm22, q02, q11, q20, q01, q10]
    try field_simp
    try rw [h2]
    try ring

/-! ## One step -/

/-- `dl` holds the plane of degree `el` (in the positions `|m|, |n| ≤ el`). -/
def HoldsPlane (dl : ℤ → ℤ → ℝ) (L el : ℤ) (β : ℝ) : Prop :=
  ∀ m n : ℤ, |m| ≤ el → |n| ≤ el → dl (m + L - 1) (n + L - 1) = wignerd el m n β

theorem risboStep_plane (dl : ℤ → ℤ → ℝ) (β : ℝ) (L el : ℤ) (h0 : 0 ≤ el)
    (hdl : 0 < el → HoldsPlane dl L (el - 1) β) : HoldsPlane (risboStep dl β L el) L el β := by
  intro m n hm hn
  rw [abs_le] at hm hn
  unfold risboStep
  by_cases e0 : el = 0
  · subst e0
    rw [if_pos rfl, show m = 0 by omega, show n = 0 by omega, wignerd_zero]
    simp [set2]
  rw [if_neg e0]
  by_cases e1 : el = 1
  · subst e1
    rw [if_pos rfl]
    obtain ⟨w1, w2, w3, w4, w5, w6, w7, w8, w9⟩ := wignerd_one β
    obtain rfl | rfl | rfl : m = -1 ∨ m = 0 ∨ m = 1 := by omega
    all_goals
      obtain rfl | rfl | rfl : n = -1 ∨ n = 0 ∨ n = 1 := by omega
    all_goals
      simp only [risboOne, set2, w1, w2, w3, w4, w5, w6, w7, w8, w9, add_sub_assoc, add_left_inj,
        true_and, and_true, false_and, and_false, if_true, if_false,
        show ¬ ((-1 : ℤ) = 0) by decide, show ¬ ((-1 : ℤ) = 1) by decide,
        show ¬ ((0 : ℤ) = -1) by decide, show ¬ ((0 : ℤ) = 1) by decide,
        show ¬ ((1 : ℤ) = -1) by decide, show ¬ ((1 : ℤ) = 0) by decide, and_self]
  rw [if_neg e1]
  set c := Real.cos (β / 2) with hc
  set s := Real.sin (β / 2) with hs
  have hj1 : (((2 * el - 1 : ℤ)) : ℝ) ≠ 0 := by exact_mod_cast (by omega : (2 * el - 1 : ℤ) ≠ 0)
  have hj2 : (((2 * el : ℤ)) : ℝ) ≠ 0 := by exact_mod_cast (by omega : (2 * el : ℤ) ≠ 0)
  have hfirst : ∀ k i, 0 ≤ k → k < 2 * el → 0 ≤ i → i < 2 * el →
      risboFirst dl (-c) s L el i k / ((2 * el : ℤ) : ℝ)
        = -(1 / ((2 * el : ℤ) : ℝ)) * U c s (-s) c (2 * el - 1) k i := by
    intro k i a1 a2 a3 a4
    rw [risboFirst_eq, halfStep_U (2 * el - 1) (by omega) _ c s (1 / ((2 * el - 1 : ℤ) : ℝ)) ?_ k i a1
      (by omega) a3 (by omega)]
    · field_simp
    · intro k i b1 b2 b3 b4
      have := hdl (by omega) (k - (el - 1)) (i - (el - 1)) (by rw [abs_le]; omega)
        (by rw [abs_le]; omega)
      rw [wignerd_eq_U] at this
      rw [this, show el - 1 + (k - (el - 1)) = k by ring, show el - 1 + (i - (el - 1)) = i by ring,
        show 2 * (el - 1) = 2 * el - 1 - 1 by ring]
      ring
  rw [risboSecond_eq, halfStep_U (2 * el) (by omega) _ c s (-(1 / ((2 * el : ℤ) : ℝ))) hfirst _ _
    (by omega) (by omega) (by omega) (by omega), wignerd_eq_U,
    show m + L - 1 + el - L + 1 = el + m by ring, show n + L - 1 + el - L + 1 = el + n by ring,
    risboClear, if_pos (by omega), ← hc, ← hs]
  field_simp
  ring

/-- Entries outside the new block are untouched. -/
theorem risboStep_frame (dl : ℤ → ℤ → ℝ) (β : ℝ) (L el : ℤ) (h0 : 0 ≤ el) (m n : ℤ)
    (h : el < |m| ∨ el < |n|) :
    risboStep dl β L el (m + L - 1) (n + L - 1) = dl (m + L - 1) (n + L - 1) := by
  rw [lt_abs, lt_abs] at h
  unfold risboStep
  by_cases e0 : el = 0
  · rw [if_pos e0, set2, if_neg (by omega)]
  rw [if_neg e0]
  by_cases e1 : el = 1
  · rw [if_pos e1]
    simp only [risboOne, set2]
    repeat rw [if_neg (by omega)]
  rw [if_neg e1]
  rw [risboSecond_eq, risboClear, if_neg (by omega), halfStep, if_neg (by omega),
    if_neg (by omega), if_neg (by omega), if_neg (by omega)]
  ring

/-! ## Vectorised and JAX variants -/

theorem forRange_map {σ τ : Type*} (lo hi : ℤ) (body : ℤ → σ → σ) (body' : ℤ → τ → τ) (s : σ)
    (get : σ → τ) (h : ∀ i s, lo ≤ i → i < hi → get (body i s) = body' i (get s)) :
    get (forRange lo hi body s) = forRange lo hi body' (get s) := by
  rcases le_total lo hi with hle | hle
  · have := forRange_ind hle body s
      (fun i s' => i ≤ hi → get s' = forRange lo i body' (get s))
      (fun _ => by rw [forRange_of_le le_rfl])
      (fun i s' h1 h2 h3 _ => by
        rw [h i s' h1 h2, forRange_succ h1, h3 (by omega)])
    exact this le_rfl
  · rw [forRange_of_le hle, forRange_of_le hle]

theorem addAll_at {α : Type*} [Add α] (a : ℤ → ℤ → ℤ → α) (i k : ℤ) (v : ℤ → α) (b : ℤ) :
    addAll a i k v b = add2 (a b) i k (v b) := rfl

theorem setAll_at {α : Type*} (a : ℤ → ℤ → ℤ → α) (i k : ℤ) (v : ℤ → α) (b : ℤ) :
    setAll a i k v b = set2 (a b) i k (v b) := rfl

theorem risboFirstVec_at (dl : ℤ → ℤ → ℤ → ℝ) (c s : ℤ → ℝ) (L el b : ℤ) :
    risboFirstVec dl c s L el b = risboFirst (dl b) (c b) (s b) L el := by
  unfold risboFirstVec risboFirst
  refine forRange_map _ _ _ _ _ (fun a : ℤ → ℤ → ℤ → ℝ => a b) (fun k a _ _ => ?_)
  refine forRange_map _ _ _ _ _ (fun a : ℤ → ℤ → ℤ → ℝ => a b) (fun i a _ _ => ?_)
  rfl

theorem risboSecondVec_at (dl dd : ℤ → ℤ → ℤ → ℝ) (c s : ℤ → ℝ) (L el b : ℤ) :
    risboSecondVec dl dd c s L el b = risboSecond (dl b) (dd b) (c b) (s b) L el := by
  unfold risboSecondVec risboSecond
  refine forRange_map _ _ _ _ _ (fun a : ℤ → ℤ → ℤ → ℝ => a b) (fun k a _ _ => ?_)
  refine forRange_map _ _ _ _ _ (fun a : ℤ → ℤ → ℤ → ℝ => a b) (fun i a _ _ => ?_)
  rfl

theorem risboFullVec_at (dl : ℤ → ℤ → ℤ → ℝ) (beta : ℤ → ℝ) (L el b : ℤ) :
    risboFullVec dl beta L el b = risboStep (dl b) (beta b) L el := by
  unfold risboFullVec risboStep
  split_ifs
  · rfl
  · rfl
  · simp only
    rw [risboSecondVec_at, risboFirstVec_at]

theorem addBlock_apply (a : ℤ → ℤ → ℝ) (r0 r1 c0 c1 : ℤ) (M : ℤ → ℤ → ℝ) (x y : ℤ) :
    addBlock a r0 r1 c0 c1 M x y
      = a x y + if (r0 ≤ x ∧ x < r1) ∧ (c0 ≤ y ∧ y < c1) then M (x - r0) (y - c0) else 0 := by
  unfold addBlock; split_ifs <;> simp

theorem risboFirstJax_eq (dl : ℤ → ℤ → ℝ) (c s : ℝ) (L el k i : ℤ) :
    risboFirstJax dl c s L el k i = halfStep (2 * el - 1)
      (fun k i => dl (k - (el - 1) + L - 1) (i - (el - 1) + L - 1)) c s k i := by
  unfold risboFirstJax halfStep
  simp only [addBlock_apply, sub_zero, zero_add]
  congr 1
  · congr 1
    · congr 1
      congr 1
      · exact propext (by omega)
      · simp only [neg_mul]
    · congr 1
      exact propext (by omega)
  · congr 1
    exact propext (by omega)

theorem risboSecondJax_eq (dl dd : ℤ → ℤ → ℝ) (c s : ℝ) (L el x y : ℤ) :
    risboSecondJax dl dd c s L el x y = dl x y + halfStep (2 * el) dd c s
      (x + el - L + 1) (y + el - L + 1) := by
  unfold risboSecondJax halfStep
  simp only [addBlock_apply]
  rw [show x - (-el + L - 1) = x + el - L + 1 by ring, show y - (-el + L - 1) = y + el - L + 1 by ring,
    show x - (L - el) = x + el - L + 1 - 1 by ring, show y - (L - el) = y + el - L + 1 - 1 by ring]
  have h1 : ((-el + L - 1 ≤ x ∧ x < el + L - 1) ∧ (-el + L - 1 ≤ y ∧ y < el + L - 1))
      = ((0 ≤ x + el - L + 1 ∧ x + el - L + 1 < 2 * el) ∧
        (0 ≤ y + el - L + 1 ∧ y + el - L + 1 < 2 * el)) := propext (by omega)
  have h2 : ((-el + L - 1 ≤ x ∧ x < el + L - 1) ∧ (L - el ≤ y ∧ y < L + el))
      = ((0 ≤ x + el - L + 1 ∧ x + el - L + 1 < 2 * el) ∧
        (0 ≤ y + el - L + 1 - 1 ∧ y + el - L + 1 - 1 < 2 * el)) := propext (by omega)
  have h3 : ((L - el ≤ x ∧ x < L + el) ∧ (-el + L - 1 ≤ y ∧ y < el + L - 1))
      = ((0 ≤ x + el - L + 1 - 1 ∧ x + el - L + 1 - 1 < 2 * el) ∧
        (0 ≤ y + el - L + 1 ∧ y + el - L + 1 < 2 * el)) := propext (by omega)
  have h4 : ((L - el ≤ x ∧ x < L + el) ∧ (L - el ≤ y ∧ y < L + el))
      = ((0 ≤ x + el - L + 1 - 1 ∧ x + el - L + 1 - 1 < 2 * el) ∧
        (0 ≤ y + el - L + 1 - 1 ∧ y + el - L + 1 - 1 < 2 * el)) := propext (by omega)
  simp only [h1, h2, h3, h4, neg_mul]
  ring

theorem halfStep_mul (j : ℤ) (D : ℤ → ℤ → ℝ) (a c s : ℝ) (k i : ℤ) :
    halfStep j (fun k i => D k i * a) c s k i = halfStep j D c s k i * a := by
  unfold halfStep
  simp only [add_mul, ite_mul, zero_mul]
  congr 1
  · congr 1
    · congr 1
      · split_ifs <;> ring
      · split_ifs <;> ring
    · split_ifs <;> ring
  · split_ifs <;> ring

theorem halfStep_congr (j : ℤ) (D D' : ℤ → ℤ → ℝ) (c s : ℝ) (k i : ℤ) (h : ∀ k i, D k i = D' k i) :
    halfStep j D c s k i = halfStep j D' c s k i := by
  rw [show D = D' from funext fun k => funext fun i => h k i]

/-- The JAX variant agrees with the NumPy one on the block it computes, and scales the rest
(which holds zeros in every use) when `el ≥ 2`. -/
theorem risboFullJax_eq (dl : ℤ → ℤ → ℝ) (β : ℝ) (L el : ℤ) (h0 : 0 ≤ el) (m n : ℤ) :
    risboFullJax dl β L el (m + L - 1) (n + L - 1) =
      if |m| ≤ el ∧ |n| ≤ el ∨ el ≤ 1 then risboStep dl β L el (m + L - 1) (n + L - 1)
      else dl (m + L - 1) (n + L - 1) / ((2 * el) * (2 * el - 1) : ℤ) := by
  simp only [abs_le]
  unfold risboFullJax risboStep
  by_cases e0 : el = 0
  · subst e0; simp
  rw [if_neg e0, if_neg e0]
  by_cases e1 : el = 1
  · subst e1
    simp only [if_true, le_refl, or_true]
    unfold risboOneJax risboOne
    rw [show -1 + L - 1 = L - 2 by ring, show 0 + L - 1 = L - 1 by ring, show 1 + L - 1 = L by ring]
  rw [if_neg e1, if_neg e1]
  have hj1 : (((2 * el - 1 : ℤ)) : ℝ) ≠ 0 := by exact_mod_cast (by omega : (2 * el - 1 : ℤ) ≠ 0)
  have hj2 : (((2 * el : ℤ)) : ℝ) ≠ 0 := by exact_mod_cast (by omega : (2 * el : ℤ) ≠ 0)
  rw [risboSecondJax_eq, risboSecond_eq]
  generalize -Real.cos (β / 2) = c
  generalize Real.sin (β / 2) = s
  by_cases hb : (-el ≤ m ∧ m ≤ el) ∧ (-el ≤ n ∧ n ≤ el)
  · rw [if_pos (Or.inl hb), risboClear, risboClearJax, if_pos (by omega), if_pos (by omega)]
    simp only [mul_zero, zero_add, div_eq_mul_inv]
    rw [halfStep_mul,
      halfStep_congr _ (fun k i => risboFirst dl c s L el i k)
        (fun k i => risboFirstJax dl c s L el k i *
          (((2 * el - 1 : ℤ)) : ℝ)⁻¹), halfStep_mul, Int.cast_mul, mul_inv]
    · ring
    · intro k i
      rw [risboFirst_eq, risboFirstJax_eq]
      simp only [div_eq_mul_inv]
      exact halfStep_mul _ _ _ _ _ _ _
  · rw [if_neg (by omega), risboClearJax, if_neg (by omega), halfStep, if_neg (by omega),
      if_neg (by omega), if_neg (by omega), if_neg (by omega)]
    ring

end S2fft
