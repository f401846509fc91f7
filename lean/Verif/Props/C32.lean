import Verif.Lemmas.SignalGenerator
import Verif.Lemmas.BaseInverse
import Verif.Props.C24

/-! # C32: the signal generator respects band-limit, spin and reality

`generate_flm` and `generate_flmn`, for every stream of random numbers `x`; `pos` is the number of
values drawn from the stream before the call. -/

namespace S2fft
open Spec

/-- Every free entry of `f` holds one sample of the stream if it is `real`, and otherwise has one
sample as real part and one as imaginary part; no sample is used twice, and all of them are among
those drawn (positions `[pos, pos')`). -/
def FreshSamples {ι : Type*} (x : ℕ → ℝ) (f : ι → ℂ) (free real : ι → Prop) (pos pos' : ℕ) : Prop :=
  ∃ slot : ι → Bool → ℕ,
    (∀ i, free i → real i → f i = x (slot i false)) ∧
    (∀ i, free i → ¬ real i → f i = x (slot i false) + Complex.I * x (slot i true)) ∧
    (∀ i b, free i → (b = true → ¬ real i) → pos ≤ slot i b ∧ slot i b < pos') ∧
    (∀ i b j c, free i → (b = true → ¬ real i) → free j → (c = true → ¬ real j) →
      slot i b = slot j c → i = j ∧ b = c)

private theorem sg (m : ℤ) : ((-1 : ℂ)) ^ (-m) = (-1) ^ m := by
  rw [zpow_neg, ← inv_zpow]; norm_num

private theorem sg2 (m : ℤ) : ((-1 : ℂ)) ^ m * (-1) ^ m = 1 := by
  rw [← zpow_add₀ (by norm_num), show m + m = 2 * m by ring, zpow_mul]; norm_num

/-- `generate_flm`: shape, support, real order-zero coefficients, conjugate symmetry when `reality`
is requested, and one fresh sample (pair) for every free coefficient in the requested range. -/
theorem C32_flm (x : ℕ → ℝ) (pos : ℕ) (L L_lower spin : ℤ) (reality : Bool) (hL : 1 ≤ L)
    (h : max L_lower |spin| ≤ L) :
    ∃ f pos', generateFlm x pos L L_lower spin reality = .ok (.d2 L (2 * L - 1) f, pos') ∧
      (∀ l m, ¬ (max L_lower |spin| ≤ l ∧ l < L ∧ |m| ≤ l) → f l (m + L - 1) = 0) ∧
      (∀ l m, m = 0 → (f l (m + L - 1)).im = 0) ∧
      (reality = true → ∀ l m, f l (-m + L - 1) = (-1) ^ m * (starRingEnd ℂ) (f l (m + L - 1))) ∧
      FreshSamples x (fun p : ℤ × ℤ => f p.1 (p.2 + L - 1))
        (fun p => (max L_lower |spin| ≤ p.1 ∧ p.1 < L ∧ |p.2| ≤ p.1) ∧ (reality = true → 0 ≤ p.2))
        (fun p => p.2 = 0) pos pos' := by
  have h0 : 0 ≤ max L_lower |spin| := le_max_of_le_right (abs_nonneg _)
  unfold generateFlm
  generalize max L_lower |spin| = lo at h h0 ⊢
  have hsh : ¬ ((flm_shape L).1 < 0 ∨ (flm_shape L).2 < 0) := by simp only [flm_shape]; omega
  simp only [if_neg hsh, standardNormal_ok x _ (show 0 ≤ L - lo by omega), bind, Except.bind, pure,
    Except.pure]
  have hn := nodup_idx L lo
  have hmem := fun l m => mem_idx (L := L) h0 l m
  have hfresh : ∀ (f : ℤ → ℤ → ℂ) (pos' : ℕ), pos + ((L - lo).toNat
      + (if reality then 2 else 4) * (complexElAndMIndices L lo).length) ≤ pos' →
      (∀ l m, lo ≤ l → l < L → |m| ≤ l → (reality = true → 0 ≤ m) → f l (m + L - 1)
        = x (pos + slotIn (complexElAndMIndices L lo) (L - lo).toNat (L - lo).toNat lo l m false)
          + if m = 0 then 0 else Complex.I * x (pos + slotIn (complexElAndMIndices L lo)
            (L - lo).toNat (L - lo).toNat lo l m true)) →
      FreshSamples x (fun p : ℤ × ℤ => f p.1 (p.2 + L - 1))
        (fun p => (lo ≤ p.1 ∧ p.1 < L ∧ |p.2| ≤ p.1) ∧ (reality = true → 0 ≤ p.2))
        (fun p => p.2 = 0) pos pos' := by
    intro f pos' hp hf
    refine ⟨fun p b => pos + slotIn (complexElAndMIndices L lo) (L - lo).toNat (L - lo).toNat lo
      p.1 p.2 b, ?_, ?_, ?_, ?_⟩
    · rintro ⟨l, m⟩ ⟨⟨a, b, c⟩, d⟩ e
      simp only at a b c d e ⊢
      rw [hf l m a b c d, if_pos e, add_zero]
    · rintro ⟨l, m⟩ ⟨⟨a, b, c⟩, d⟩ e
      simp only at a b c d e ⊢
      rw [hf l m a b c d, if_neg e]
    · rintro ⟨l, m⟩ s ⟨⟨a, b, c⟩, d⟩ e
      simp only at a b c d e ⊢
      have := slotIn_lt (b := s) (base := (L - lo).toNat) h0 reality a b c d (by
        intro hm; cases s <;> simp_all)
      exact ⟨by omega, by omega⟩
    · rintro ⟨l, m⟩ s ⟨l', m'⟩ s' ⟨⟨a, b, c⟩, d⟩ e ⟨⟨a', b', c'⟩, d'⟩ e' hs
      simp only at a b c d e a' b' c' d' e' hs ⊢
      have := slotIn_inj (b := s) (b' := s') (base := (L - lo).toNat) h0 a b c (by
        intro hm; cases s <;> simp_all) a' b' c' (by intro hm; cases s' <;> simp_all) (by omega)
      exact ⟨by rw [this.1, this.2.1], this.2.2⟩
  generalize complexElAndMIndices L lo = idx at hn hmem hfresh ⊢
  simp only [complexNormal_ok x _ (Int.natCast_nonneg idx.length)]
  cases reality
  · rw [if_neg Bool.false_ne_true]
    refine ⟨_, _, rfl, ?_, ?_, fun h => absurd h (by simp), ?_⟩
    · intro l m hr
      rw [assign_neg _ hn, assign_pos _ hn, setCol_at]
      rw [abs_le] at hr
      rw [if_neg (by rw [hmem]; omega), if_neg (by rw [hmem]; omega), if_neg (by omega)]
    · rintro l m rfl
      rw [assign_neg _ hn, assign_pos _ hn, setCol_at,
        if_neg (by rw [hmem]; omega), if_neg (by rw [hmem]; omega)]
      split_ifs <;> simp
    · refine hfresh _ _ ?_ ?_
      · simp only [Int.toNat_natCast, Bool.false_eq_true, if_false, if_true]; omega
      intro l m a b c _
      rw [assign_neg _ hn, assign_pos _ hn, setCol_at]
      rw [abs_le] at c
      rcases lt_trichotomy m 0 with hm | rfl | hm
      · rw [if_pos ((hmem _ _).2 (by omega)), if_neg (by omega), slotIn_neg _ _ _ _ hm,
          slotIn_neg _ _ _ _ hm]
        simp only [Int.toNat_natCast]
        congr 1
        · congr 2; simp; omega
        · congr 3; simp; omega
      · rw [if_neg (by rw [hmem]; omega), if_neg (by rw [hmem]; omega), if_pos (by omega),
          if_pos rfl, add_zero, slotIn_zero _ _ _ _ rfl]
        simp
      · rw [if_neg (by rw [hmem]; omega), if_pos ((hmem _ _).2 (by omega)), if_neg (by omega),
          slotIn_pos _ _ _ _ hm, slotIn_pos _ _ _ _ hm]
        simp only [Int.toNat_natCast]
        congr 1
        · congr 2; simp; omega
        · congr 3; simp; omega
  · rw [if_pos rfl]
    refine ⟨_, _, rfl, ?_, ?_, ?_, ?_⟩
    · intro l m hr
      rw [assign_neg _ hn, assign_pos _ hn, setCol_at]
      rw [abs_le] at hr
      rw [if_neg (by rw [hmem]; omega), if_neg (by rw [hmem]; omega), if_neg (by omega)]
    · rintro l m rfl
      rw [assign_neg _ hn, assign_pos _ hn, setCol_at,
        if_neg (by rw [hmem]; omega), if_neg (by rw [hmem]; omega)]
      split_ifs <;> simp
    · intro _ l m
      rw [assign_neg _ hn, assign_pos _ hn, setCol_at, assign_neg _ hn, assign_pos _ hn, setCol_at,
        neg_neg]
      by_cases h1 : (l, m) ∈ idx
      · have h1' := (hmem _ _).1 h1
        rw [if_pos h1, if_neg (by rw [hmem]; omega), if_pos h1, nthIdx_idxOf h1]
        simp only
        rw [show L - 1 + m = m + L - 1 by ring, assign_pos _ hn, if_pos h1]
      · by_cases h2 : (l, -m) ∈ idx
        · have h2' := (hmem _ _).1 h2
          rw [if_neg h1, if_pos h2, if_pos h2, nthIdx_idxOf h2]
          simp only
          rw [show L - 1 + -m = -m + L - 1 by ring, assign_pos _ hn, if_pos h2, sg, map_mul,
            Complex.conj_conj, map_zpow₀, map_neg, map_one, ← mul_assoc, sg2, one_mul]
        · rw [if_neg h1, if_neg h2, if_neg h2, if_neg h1]
          by_cases h3 : m = 0
          · subst h3
            simp only [neg_zero, zpow_zero, one_mul]
            split_ifs <;> simp
          · rw [if_neg (by omega), if_neg (by omega)]; simp
    · refine hfresh _ _ ?_ ?_
      · simp only [Int.toNat_natCast, Bool.false_eq_true, if_false, if_true]; omega
      intro l m a b c d
      have d := d rfl
      rw [assign_neg _ hn, assign_pos _ hn, setCol_at, if_neg (by rw [hmem]; omega)]
      rw [abs_le] at c
      rcases eq_or_lt_of_le d with hm | hm
      · subst hm
        rw [if_neg (by rw [hmem]; omega), if_pos (by omega), if_pos rfl, add_zero,
          slotIn_zero _ _ _ _ rfl]
        simp
      · rw [if_pos ((hmem _ _).2 (by omega)), if_neg (by omega), slotIn_pos _ _ _ _ hm,
          slotIn_pos _ _ _ _ hm]
        simp only [Int.toNat_natCast]
        congr 1
        · congr 2; simp; omega
        · congr 3; simp; omega

/-- A range without degrees in it, and more than empty, is rejected. -/
theorem C32_flm_reject (x : ℕ → ℝ) (pos : ℕ) (L L_lower spin : ℤ) (reality : Bool)
    (h : L < 1 ∨ L < max L_lower |spin|) :
    generateFlm x pos L L_lower spin reality = .error .valueError := by
  unfold generateFlm
  by_cases hL : L < 1
  · rw [if_pos (by simp only [flm_shape]; omega)]; rfl
  · rw [if_neg (by simp only [flm_shape]; omega)]
    simp only [standardNormal, if_pos (show L - max L_lower |spin| < 0 by omega)]
    rfl

/-- Entry `(n, l, m)` of the result of `generate_flmn` is one that was asked for. -/
def FlmnRange (L N L_lower n l m : ℤ) : Prop :=
  |n| < N ∧ max L_lower |n| ≤ l ∧ l < L ∧ |m| ≤ l

/-- `generate_flmn`: shape, support, the conjugate symmetry of a real signal when `reality` is
requested, and one fresh sample (pair) for every free coefficient in the requested range. -/
theorem C32_flmn (x : ℕ → ℝ) (pos : ℕ) (L N L_lower : ℤ) (reality : Bool) (hL : 1 ≤ L)
    (hN : 1 ≤ N) (h : max L_lower (N - 1) ≤ L) :
    ∃ f pos', generateFlmn x pos L N L_lower reality
        = .ok (.d3 (2 * N - 1) L (2 * L - 1) f, pos') ∧
      (∀ n l m, ¬ FlmnRange L N L_lower n l m → f (N - 1 + n) l (m + L - 1) = 0) ∧
      (reality = true → ∀ n l m, f (N - 1 + -n) l (-m + L - 1)
        = (-1) ^ (m + n) * (starRingEnd ℂ) (f (N - 1 + n) l (m + L - 1))) ∧
      FreshSamples x (fun p : ℤ × ℤ × ℤ => f (N - 1 + p.1) p.2.1 (p.2.2 + L - 1))
        (fun p => FlmnRange L N L_lower p.1 p.2.1 p.2.2 ∧
          (reality = true → 0 < p.2.2 ∨ p.2.2 = 0 ∧ 0 ≤ p.1))
        (fun p => reality = true ∧ p.1 = 0 ∧ p.2.2 = 0) pos pos' := by
  obtain ⟨f, h1, hf⟩ := generateFlmn_ok x pos L N L_lower reality hL hN h
  refine ⟨f, _, h1, fun n l m hr => by rw [hf]; exact if_neg hr, ?_, ?_⟩
  · rintro rfl n l m
    have hone : ∀ k : ℤ, (starRingEnd ℂ) ((-1 : ℂ) ^ k) = (-1) ^ k := fun k => by
      rw [map_zpow₀, map_neg, map_one]
    rw [hf, hf, abs_neg, abs_neg]
    by_cases hr : |n| < N ∧ max L_lower |n| ≤ l ∧ l < L ∧ |m| ≤ l
    · rw [if_pos hr, if_pos hr]
      rcases lt_trichotomy m 0 with hm | rfl | hm
      · have hw : writer true n m = -n := by
          unfold writer; rw [if_pos rfl, if_neg (by omega), if_pos hm]
        have hw' : writer true (-n) (-m) = -n := by
          unfold writer; rw [if_pos rfl, if_pos (by omega)]
        rw [hw, hw']
        unfold flmnVal
        rw [if_pos (fun _ => Or.inl (by omega)), if_neg (by omega), if_neg (by
          intro h; have := h rfl; omega), map_mul, Complex.conj_conj, hone, ← mul_assoc, sg2,
          one_mul]
      · have hw : writer true n 0 = |n| := rfl
        have hw' : writer true (-n) (-0) = |n| := by
          rw [neg_zero, ← abs_neg n]; rfl
        rw [hw, hw']
        unfold flmnVal
        rcases lt_trichotomy n 0 with hn | rfl | hn
        · rw [if_pos (fun _ => Or.inr ⟨neg_zero, by omega⟩), if_neg (by omega), if_neg (by
            intro h; have := h rfl; omega), map_mul, Complex.conj_conj, hone, ← mul_assoc, sg2,
            one_mul]
        · simp
        · rw [if_neg (by intro h; have := h rfl; omega),
            if_pos (fun _ => Or.inr ⟨rfl, by omega⟩), if_neg (by omega), neg_neg,
            show -0 + -n = -(0 + n) by ring, sg]
      · have hw : writer true n m = n := by
          unfold writer; rw [if_pos rfl, if_pos hm]
        have hw' : writer true (-n) (-m) = n := by
          unfold writer; rw [if_pos rfl, if_neg (by omega), if_pos (by omega), neg_neg]
        rw [hw, hw']
        unfold flmnVal
        rw [if_neg (by intro h; have := h rfl; omega), if_pos (fun _ => Or.inl hm),
          if_neg (by omega), neg_neg, show -m + -n = -(m + n) by ring, sg]
    · rw [if_neg hr, if_neg hr, map_zero, mul_zero]
  · refine ⟨fun p b => flmnStart reality L N L_lower pos (writer reality p.1 p.2.2)
      + flmnSlot reality L L_lower (writer reality p.1 p.2.2) p.2.1 p.2.2 b, ?_, ?_, ?_, ?_⟩
    · rintro ⟨n, l, m⟩ ⟨hr, hfree⟩ hreal
      simp only at hr hfree hreal ⊢
      rw [hf, if_pos (show _ ∧ _ from hr)]
      unfold flmnVal
      rw [if_pos hfree, if_pos ⟨hreal.1, hreal.2.2, hreal.2.1⟩]
    · rintro ⟨n, l, m⟩ ⟨hr, hfree⟩ hreal
      simp only at hr hfree hreal ⊢
      rw [hf, if_pos (show _ ∧ _ from hr)]
      unfold flmnVal
      rw [if_pos hfree, if_neg (fun h => hreal ⟨h.1, h.2.2, h.2.1⟩)]
      rfl
    all_goals
      have key : ∀ (n l m : ℤ) (b : Bool), FlmnRange L N L_lower n l m →
          (reality = true → 0 < m ∨ m = 0 ∧ 0 ≤ n) →
          (b = true → ¬ (reality = true ∧ n = 0 ∧ m = 0)) →
          (m = 0 → (L - max L_lower |n|).toNat + (if b then (L - max L_lower |n|).toNat else 0)
            ≤ flmnBase reality (L - max L_lower |n|).toNat (writer reality n m)) ∧
          (-N + 1 ≤ writer reality n m ∧ writer reality n m < N) := by
        intro n l m b hr hfree hreal
        constructor
        · rintro rfl
          unfold flmnBase
          cases reality
          · rw [if_neg Bool.false_ne_true]; split_ifs <;> omega
          · have hw : writer true n 0 = |n| := rfl
            have hn : 0 ≤ n := by have := hfree rfl; omega
            rw [hw, abs_of_nonneg hn, if_pos rfl]
            rcases eq_or_lt_of_le hn with rfl | hn
            · cases b <;> simp at hreal ⊢
            · rw [if_neg hn.ne', if_pos hn]; split_ifs <;> omega
        · have := hr.1
          rw [← abs_writer reality n m, abs_lt] at this
          omega
      have hlt : ∀ (n l m : ℤ) (b : Bool), FlmnRange L N L_lower n l m →
          (reality = true → 0 < m ∨ m = 0 ∧ 0 ≤ n) →
          (b = true → ¬ (reality = true ∧ n = 0 ∧ m = 0)) →
          flmnStart reality L N L_lower pos (writer reality n m)
              + flmnSlot reality L L_lower (writer reality n m) l m b
            < flmnStart reality L N L_lower pos (writer reality n m + 1) := by
        intro n l m b hr hfree hreal
        have hk := key n l m b hr hfree hreal
        rw [flmnStart_succ _ _ _ _ _ hk.2.1]
        refine Nat.add_lt_add_left ?_ _
        unfold flmnSlot flmnCost
        rw [abs_writer]
        exact slotIn_lt (le_max_of_le_right (abs_nonneg _)) reality hr.2.1 hr.2.2.1 hr.2.2.2
          (fun h => by have := hfree h; omega) hk.1
    · rintro ⟨n, l, m⟩ b ⟨hr, hfree⟩ hreal
      simp only at hr hfree hreal ⊢
      have hk := key n l m b hr hfree hreal
      refine ⟨?_, (hlt n l m b hr hfree hreal).trans_le (flmnStart_mono _ _ _ _ _ (by omega))⟩
      unfold flmnStart
      omega
    · rintro ⟨n, l, m⟩ b ⟨n', l', m'⟩ b' ⟨hr, hfree⟩ hreal ⟨hr', hfree'⟩ hreal' e
      simp only at hr hfree hreal hr' hfree' hreal' e ⊢
      have hk := key n l m b hr hfree hreal
      have hk' := key n' l' m' b' hr' hfree' hreal'
      have h3 := hlt n l m b hr hfree hreal
      have h3' := hlt n' l' m' b' hr' hfree' hreal'
      have hw : writer reality n m = writer reality n' m' := by
        rcases lt_trichotomy (writer reality n m) (writer reality n' m') with h4 | h4 | h4
        · have := flmnStart_mono reality L N L_lower pos
            (show writer reality n m + 1 ≤ writer reality n' m' by omega)
          omega
        · exact h4
        · have := flmnStart_mono reality L N L_lower pos
            (show writer reality n' m' + 1 ≤ writer reality n m by omega)
          omega
      have hnn : |n| = |n'| := by rw [← abs_writer reality n m, hw, abs_writer]
      rw [← hw] at e
      have e := Nat.add_left_cancel e
      unfold flmnSlot at e
      rw [abs_writer] at e
      obtain ⟨rfl, rfl, rfl⟩ := slotIn_inj (le_max_of_le_right (abs_nonneg _)) hr.2.1 hr.2.2.1
        hr.2.2.2 hk.1 (by rw [hnn]; exact hr'.2.1) hr'.2.2.1 hr'.2.2.2
        (by rw [hw, hnn]; exact hk'.1) e
      refine ⟨?_, rfl⟩
      have : n = n' := by
        unfold writer at hw
        cases reality
        · exact hw
        · rw [if_pos rfl, if_pos rfl] at hw
          rcases hfree rfl with hm | ⟨rfl, hn⟩
          · rwa [if_pos hm, if_pos hm] at hw
          · have hn' : 0 ≤ n' := by have := hfree' rfl; omega
            rwa [abs_of_nonneg hn, abs_of_nonneg hn'] at hnn
      rw [this]

private theorem zeroOrder_reject (x : ℕ → ℝ) (L N lo : ℤ) (reality : Bool) (n : ℤ)
    (s : (ℤ → ℤ → ℤ → ℂ) × ℕ) (h : L < lo) :
    flmnOrderZero x L N lo reality n s = .error .valueError ∨
      flmnOrderZero x L N lo reality n s = .ok s ∧ n < 0 := by
  have e : ∀ p, standardNormal x p (L - lo) = .error .valueError := fun p => by
    unfold standardNormal; rw [if_pos (by omega)]
  have e2 : ∀ p, complexNormal x p (L - lo) 2 = .error .valueError := fun p => by
    unfold complexNormal; rw [e]; rfl
  unfold flmnOrderZero
  cases reality
  · rw [if_neg Bool.false_ne_true, e2]; exact Or.inl rfl
  · rw [if_pos rfl]
    by_cases h1 : n = 0
    · rw [if_pos h1, e]; exact Or.inl rfl
    · rw [if_neg h1]
      by_cases h2 : n > 0
      · rw [if_pos h2, e2]; exact Or.inl rfl
      · rw [if_neg h2]; exact Or.inr ⟨rfl, by omega⟩

/-- An empty request, and more than empty, is rejected. -/
theorem C32_flmn_reject (x : ℕ → ℝ) (pos : ℕ) (L N L_lower : ℤ) (reality : Bool)
    (h : L < 1 ∨ N < 1 ∨ L < max L_lower (N - 1)) :
    generateFlmn x pos L N L_lower reality = .error .valueError := by
  unfold generateFlmn
  by_cases hL : L < 1 ∨ N < 1
  · rw [if_pos (by simp only [flmn_shape]; omega)]; rfl
  · rw [if_neg (by simp only [flmn_shape]; omega)]
    show (forRangeM (-N + 1) N _ _ >>= _) = _
    rw [forRangeM_error_at _ _ .valueError ?_ (N - 1) (by omega) (by omega) ?_]
    · rfl
    · intro i s
      have h2 := fun s : (ℤ → ℤ → ℤ → ℂ) × ℕ => flmnOrders_ok x L N (max L_lower |i|) reality i s.1
        s.2 0 0 (le_max_of_le_right (abs_nonneg _))
      by_cases hi : max L_lower |i| ≤ L
      · obtain ⟨a1, e1, -⟩ := flmnOrderZero_ok x L N (max L_lower |i|) reality i s.1 s.2 hi
        obtain ⟨a2, e2, -⟩ := h2 (a1, s.2 + flmnBase reality (L - max L_lower |i|).toNat i)
        left
        refine ⟨_, Eq.trans ?_ e2⟩
        show (flmnOrderZero x L N (max L_lower |i|) reality i (s.1, s.2) >>= _) = _
        rw [e1]
        rfl
      · show (∃ s', (flmnOrderZero x L N (max L_lower |i|) reality i s >>= _) = _) ∨
          (flmnOrderZero x L N (max L_lower |i|) reality i s >>= _) = _
        rcases zeroOrder_reject x L N (max L_lower |i|) reality i s (by omega) with e1 | ⟨e1, -⟩
        · rw [e1]; exact Or.inr rfl
        · rw [e1]
          obtain ⟨a2, e2, -⟩ := h2 s
          exact Or.inl ⟨_, e2⟩
    · intro s
      show (flmnOrderZero x L N (max L_lower |N - 1|) reality (N - 1) s >>= _) = _
      have : |N - 1| = N - 1 := abs_of_nonneg (by omega)
      rcases zeroOrder_reject x L N (max L_lower |N - 1|) reality (N - 1) s (by rw [this]; omega)
        with e1 | ⟨-, e1⟩
      · rw [e1]; rfl
      · omega

/-- The harmonic expansion of spin-zero coefficients generated with `reality` is real. -/
theorem C32_real_signal (x : ℕ → ℝ) (pos : ℕ) (L L_lower : ℤ) (hL : 1 ≤ L) (h : max L_lower 0 ≤ L) :
    ∃ f pos', generateFlm x pos L L_lower 0 true = .ok (.d2 L (2 * L - 1) f, pos') ∧
      ∀ θ φ, (harmonicSum 0 L 0 (fun l m => f l (m + L - 1)) θ φ).im = 0 := by
  obtain ⟨f, pos', h1, h2, -, h3, -⟩ := C32_flm x pos L L_lower 0 true hL (by simpa using h)
  exact ⟨f, pos', h1, fun θ φ => harmonicSum_real (fun l m _ _ _ => h3 rfl l m) θ φ⟩

/-- Non-trivial requests. -/
example : (1 : ℤ) ≤ 4 ∧ max 1 |(-2 : ℤ)| ≤ 4 ∧ max 1 ((3 : ℤ) - 1) ≤ 4 ∧ FlmnRange 4 3 1 (-2) 3 2 := by
  unfold FlmnRange
  norm_num [abs_of_neg]

end S2fft
