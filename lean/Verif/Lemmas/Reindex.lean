import Verif.Lemmas.Index

/-! # Row-major index lists: position of each pair -/

namespace S2fft

theorem filter_range_interval (lo hi : ℤ) (h0 : 0 ≤ lo) (c : ℕ) :
    ((List.range c).map (fun k : ℕ => (k : ℤ))).filter (fun j => decide (lo ≤ j) && decide (j ≤ hi))
      = (List.range (min (hi + 1) c - lo).toNat).map (fun k : ℕ => lo + (k : ℤ)) := by
  induction c with
  | zero =>
    have : (min (hi + 1) ((0 : ℕ) : ℤ) - lo).toNat = 0 := by
      have := min_le_right (hi + 1) ((0 : ℕ) : ℤ)
      omega
    rw [this]; simp
  | succ c ih =>
    rw [List.range_succ, List.map_append, List.filter_append, ih]
    by_cases h : lo ≤ (c : ℤ) ∧ (c : ℤ) ≤ hi
    · have e1 : (min (hi + 1) (c : ℤ) - lo).toNat = (c - lo).toNat := by
        rw [min_eq_right (by omega)]
      have e2 : (min (hi + 1) ((c + 1 : ℕ) : ℤ) - lo).toNat = (c - lo).toNat + 1 := by
        rw [min_eq_right (by push_cast; omega)]; push_cast; omega
      rw [e1, e2, List.range_succ, List.map_append]
      simp [h.1, h.2]
    · have e : (min (hi + 1) ((c + 1 : ℕ) : ℤ) - lo).toNat = (min (hi + 1) (c : ℤ) - lo).toNat := by
        rcases not_and_or.1 h with h | h
        · have := min_le_right (hi + 1) ((c + 1 : ℕ) : ℤ)
          have := min_le_right (hi + 1) (c : ℤ)
          push_cast at *
          omega
        · rw [min_eq_left (by push_cast; omega), min_eq_left (by omega)]
      rw [e]
      simp
      intro h1; by_contra h2; exact h ⟨h1, by omega⟩

theorem flatMap_range_getElem? {β : Type*} (g : ℕ → List β) (P : ℕ → ℕ) (h0 : P 0 = 0)
    (hP : ∀ k, P (k + 1) = P k + (g k).length) (n : ℕ) :
    ((List.range n).flatMap g).length = P n ∧
    ∀ k j, k < n → j < (g k).length → ((List.range n).flatMap g)[P k + j]? = (g k)[j]? := by
  induction n with
  | zero => simp [h0]
  | succ n ih =>
    rw [List.range_succ, List.flatMap_append]
    refine ⟨by simp [ih.1, hP], ?_⟩
    intro k j hk hj
    rcases Nat.lt_succ_iff_lt_or_eq.1 hk with hk | rfl
    · rw [List.getElem?_append_left]
      · exact ih.2 k j hk hj
      · rw [ih.1]
        have mono : Monotone P := monotone_nat_of_le_succ (fun k => by rw [hP]; omega)
        have := mono (Nat.succ_le_of_lt hk)
        rw [Nat.succ_eq_add_one, hP] at this
        omega
    · rw [List.getElem?_append_right (by rw [ih.1]; omega), ih.1]
      simp

theorem arange_eq (n : ℕ) : arange n = (List.range n).map (fun k : ℕ => (k : ℤ)) := by
  simp [arange]

theorem mem_arange {n x : ℤ} : x ∈ arange n ↔ 0 ≤ x ∧ x < n := by
  simp only [arange, List.mem_map, List.mem_range]
  constructor
  · rintro ⟨k, hk, rfl⟩; omega
  · rintro ⟨h1, h2⟩; exact ⟨x.toNat, by omega, by omega⟩

theorem nodup_arange (n : ℤ) : (arange n).Nodup :=
  List.Nodup.map (fun a b h => by simpa using h) List.nodup_range

theorem mem_npWhere {r c : ℤ} {mask : ℤ → ℤ → Bool} {p : ℤ × ℤ} :
    p ∈ npWhere r c mask ↔ 0 ≤ p.1 ∧ p.1 < r ∧ 0 ≤ p.2 ∧ p.2 < c ∧ mask p.1 p.2 = true := by
  obtain ⟨i, j⟩ := p
  simp only [npWhere, List.mem_flatMap, List.mem_map, List.mem_filter, mem_arange, Prod.mk.injEq]
  constructor
  · rintro ⟨a, ⟨h1, h2⟩, b, ⟨⟨h3, h4⟩, h5⟩, rfl, rfl⟩; exact ⟨h1, h2, h3, h4, h5⟩
  · rintro ⟨h1, h2, h3, h4, h5⟩; exact ⟨i, ⟨h1, h2⟩, j, ⟨⟨h3, h4⟩, h5⟩, rfl, rfl⟩

theorem nodup_npWhere (r c : ℤ) (mask : ℤ → ℤ → Bool) : (npWhere r c mask).Nodup := by
  unfold npWhere
  rw [List.nodup_flatMap]
  constructor
  · intro i _
    exact ((nodup_arange c).filter _).map (fun a b h => by simpa using h)
  · refine (nodup_arange r).imp ?_
    intro a b hab
    simp only [Function.onFun]
    rw [List.disjoint_left]
    intro x hx hy
    simp only [List.mem_map] at hx hy
    obtain ⟨_, _, rfl⟩ := hx
    obtain ⟨_, _, h⟩ := hy
    simp at h
    exact hab h.1.symm

/-- Row `r` of `lmIndices L`. -/
theorem lm_row (L : ℕ) (r : ℕ) (hr : r < L) :
    ((arange (2 * (L : ℤ) - 1)).filter (fun c => decide ((L : ℤ) - 1 - r ≤ c) &&
        decide ((L : ℤ) - 1 - r ≤ 2 * L - 2 - c))).map (fun j => ((r : ℤ), j))
      = (List.range (2 * r + 1)).map (fun k : ℕ => ((r : ℤ), (L : ℤ) - 1 - r + k)) := by
  have hc : (2 * (L : ℤ) - 1) = ((2 * L - 1 : ℕ) : ℤ) := by omega
  rw [hc, arange_eq]
  have := filter_range_interval ((L : ℤ) - 1 - r) ((L : ℤ) - 1 + r) (by omega) (2 * L - 1)
  have e : (fun c : ℤ => decide ((L : ℤ) - 1 - r ≤ c) && decide ((L : ℤ) - 1 - r ≤ 2 * L - 2 - c))
      = (fun j : ℤ => decide ((L : ℤ) - 1 - r ≤ j) && decide (j ≤ (L : ℤ) - 1 + r)) := by
    funext j
    congr 2
    apply propext
    constructor <;> intro h <;> omega
  rw [e, this]
  have e2 : (min ((L : ℤ) - 1 + r + 1) ((2 * L - 1 : ℕ) : ℤ) - ((L : ℤ) - 1 - r)).toNat = 2 * r + 1 := by
    rw [min_eq_left (by omega)]; omega
  rw [e2, List.map_map]
  rfl

theorem lmIndices_eq (L : ℕ) : lmIndices L = (List.range L).flatMap (fun r : ℕ =>
    (List.range (2 * r + 1)).map (fun k : ℕ => ((r : ℤ), (L : ℤ) - 1 - r + k))) := by
  unfold lmIndices npWhere
  rw [arange_eq, List.flatMap_map]
  apply List.flatMap_congr
  intro r hr
  exact lm_row L r (List.mem_range.1 hr)

theorem lmIndices_spec (L : ℤ) (hL : 0 ≤ L) :
    ((lmIndices L).length : ℤ) = L ^ 2 ∧
    ∀ el m, el < L → |m| ≤ el → (lmIndices L)[(elm2ind el m).toNat]? = some (el, L - 1 + m) := by
  obtain ⟨L, rfl⟩ := Int.eq_ofNat_of_zero_le hL
  rw [lmIndices_eq]
  have key := flatMap_range_getElem? (fun r : ℕ =>
    (List.range (2 * r + 1)).map (fun k : ℕ => ((r : ℤ), (L : ℤ) - 1 - r + k)))
    (fun k => k ^ 2) (by simp) (by intro k; simp; ring) L
  refine ⟨by rw [key.1]; push_cast; rfl, ?_⟩
  intro el m h1 h2
  obtain ⟨el, rfl⟩ := Int.eq_ofNat_of_zero_le (le_trans (abs_nonneg m) h2)
  rw [abs_le] at h2
  have hj : (el : ℤ) + m = ((el + m).toNat : ℕ) := by omega
  have e : (elm2ind el m).toNat = el ^ 2 + (el + m).toNat := by
    unfold elm2ind
    have h3 : (el : ℤ) ^ 2 + el + m = ((el ^ 2 + ((el : ℤ) + m).toNat : ℕ) : ℤ) := by
      rw [Nat.cast_add, ← hj, Nat.cast_pow]; ring
    rw [h3, Int.toNat_natCast]
  rw [e, key.2 el _ (by omega) (by simp; omega)]
  rw [List.getElem?_map, List.getElem?_range (by omega)]
  simp
  omega

theorem scatter2_notMem (a : ℤ → ℤ → ℂ) (ix : List (ℤ × ℤ)) (vals : List ℂ) (x y : ℤ)
    (h : (x, y) ∉ ix) : scatter2 a ix vals x y = a x y := by
  unfold scatter2
  induction ix generalizing a vals with
  | nil => simp
  | cons p ix ih =>
    cases vals with
    | nil => simp
    | cons v vals =>
      simp only [List.zip_cons_cons, List.foldl_cons]
      rw [ih _ _ (fun h' => h (List.mem_cons_of_mem _ h'))]
      have : ¬ (x = p.1 ∧ y = p.2) := by
        rintro ⟨rfl, rfl⟩; exact h (by simp)
      simp [set2, this]

theorem scatter2_get (a : ℤ → ℤ → ℂ) (ix : List (ℤ × ℤ)) (vals : List ℂ) (hn : ix.Nodup)
    (k : ℕ) (x y : ℤ) (v : ℂ) (hk : ix[k]? = some (x, y)) (hv : vals[k]? = some v) :
    scatter2 a ix vals x y = v := by
  induction ix generalizing a vals k with
  | nil => simp at hk
  | cons p ix ih =>
    cases vals with
    | nil => simp at hv
    | cons w vals =>
      rw [List.nodup_cons] at hn
      cases k with
      | zero =>
        simp at hk hv
        subst hk hv
        have := scatter2_notMem (set2 a x y w) ix vals x y hn.1
        unfold scatter2 at *
        simp only [List.zip_cons_cons, List.foldl_cons]
        rw [this]; simp [set2]
      | succ k =>
        simp at hk hv
        have := ih (set2 a p.1 p.2 w) vals hn.2 k hk hv
        unfold scatter2 at *
        simpa only [List.zip_cons_cons, List.foldl_cons] using this

theorem mem_lmIndices {L x y : ℤ} :
    (x, y) ∈ lmIndices L ↔ 0 ≤ x ∧ x < L ∧ |y - (L - 1)| ≤ x := by
  unfold lmIndices
  rw [mem_npWhere, abs_le]
  simp
  omega

theorem toList1_getElem? (n : ℤ) (a : ℤ → ℂ) (k : ℤ) (h0 : 0 ≤ k) (h1 : k < n) :
    (toList1 n a)[k.toNat]? = some (a k) := by
  unfold toList1 arange
  rw [List.getElem?_map, List.getElem?_map, List.getElem?_range (by omega)]
  simp [h0]

/-! ## Triangular index lists -/

/-- Row-major triangle `row + k ≤ col < m`. -/
theorem triu_eq (n k m : ℕ) : triuIndices n k m = (List.range n).flatMap (fun r : ℕ =>
    (List.range (m - (r + k))).map (fun j : ℕ => ((r : ℤ), (r : ℤ) + k + j))) := by
  unfold triuIndices npWhere
  rw [arange_eq n, List.flatMap_map]
  apply List.flatMap_congr
  intro r _
  rw [arange_eq]
  have := filter_range_interval ((r : ℤ) + k) ((m : ℤ) - 1) (by omega) m
  have e : ((List.range m).map (fun k : ℕ => (k : ℤ))).filter (fun j => decide ((r : ℤ) + k ≤ j))
      = ((List.range m).map (fun k : ℕ => (k : ℤ))).filter
          (fun j => decide ((r : ℤ) + k ≤ j) && decide (j ≤ (m : ℤ) - 1)) := by
    apply List.filter_congr
    intro x hx
    simp only [List.mem_map, List.mem_range] at hx
    obtain ⟨y, hy, rfl⟩ := hx
    have : ((y : ℤ) ≤ (m : ℤ) - 1) := by omega
    simp [this]
  simp only [e, this]
  have e2 : (min ((m : ℤ) - 1 + 1) (m : ℤ) - (r + k)).toNat = m - (r + k) := by
    rw [min_eq_left (by omega)]; omega
  rw [e2, List.map_map]
  rfl

theorem hpIndices_eq (L : ℕ) : hpIndices L = (List.range L).flatMap (fun r : ℕ =>
    (List.range (L - (r + 1))).map (fun j : ℕ => ((r : ℤ) + 1, (r : ℤ) + 1 + j))) := by
  unfold hpIndices
  have := triu_eq L 1 L
  push_cast at this
  rw [this, List.map_flatMap]
  apply List.flatMap_congr
  intro r _
  rw [List.map_map]
  rfl

/-- Number of entries before row `r` in `triu_indices(L+1, 0, L)`. -/
def triOff (L : ℕ) : ℕ → ℕ
  | 0 => 0
  | r + 1 => triOff L r + (L - r)

theorem triOff_eq (L r : ℕ) (h : r ≤ L) : (2 * triOff L r : ℤ) = r * (2 * L + 1 - r) := by
  induction r with
  | zero => simp [triOff]
  | succ r ih =>
    have := ih (by omega)
    simp only [triOff]
    push_cast [Nat.cast_sub (show r ≤ L by omega)]
    linarith

theorem triu0_spec (L : ℤ) (hL : 0 ≤ L) :
    ((triuIndices (L + 1) 0 L).length : ℤ) = L * (L + 1) / 2 ∧
    ∀ el m, 0 ≤ m → m ≤ el → el < L →
      (triuIndices (L + 1) 0 L)[(hp_getidx L el m).toNat]? = some (m, el) := by
  obtain ⟨L, rfl⟩ := Int.eq_ofNat_of_zero_le hL
  have h := triu_eq (L + 1) 0 L
  push_cast at h
  rw [h]
  have key := flatMap_range_getElem? (fun r : ℕ =>
    (List.range (L - r)).map (fun j : ℕ => ((r : ℤ), (r : ℤ) + 0 + j)))
    (triOff L) rfl (by intro k; simp [triOff]) (L + 1)
  simp only [add_zero] at key ⊢
  refine ⟨?_, ?_⟩
  · rw [key.1]
    have := triOff_eq L L le_rfl
    have e : triOff L (L + 1) = triOff L L := by simp [triOff]
    rw [e]
    have : (L : ℤ) * (L + 1) = 2 * triOff L L := by rw [this]; ring
    rw [this]; simp
  · intro el m h0 h1 h2
    obtain ⟨m, rfl⟩ := Int.eq_ofNat_of_zero_le h0
    obtain ⟨el, rfl⟩ := Int.eq_ofNat_of_zero_le (le_trans h0 h1)
    have hm : m ≤ L := by omega
    have e : (hp_getidx L el m).toNat = triOff L m + (el - m) := by
      have e1 := hp_getidx_two L el m
      have e2 := triOff_eq L m hm
      have : (hp_getidx L el m) = ((triOff L m + (el - m) : ℕ) : ℤ) := by
        push_cast [Nat.cast_sub (show m ≤ el by omega)]
        linarith
      rw [this, Int.toNat_natCast]
    rw [e, key.2 m _ (by omega) (by simp; omega)]
    rw [List.getElem?_map, List.getElem?_range (by omega)]
    simp
    omega

theorem hpIndices_spec (L : ℤ) (hL : 0 ≤ L) :
    (L + (hpIndices L).length : ℤ) = L * (L + 1) / 2 ∧
    ∀ el m, 1 ≤ m → m ≤ el → el < L → 0 ≤ hp_getidx L el m - L ∧
      (hpIndices L)[(hp_getidx L el m - L).toNat]? = some (m, el) := by
  obtain ⟨L, rfl⟩ := Int.eq_ofNat_of_zero_le hL
  rw [hpIndices_eq]
  have key := flatMap_range_getElem? (fun r : ℕ =>
    (List.range (L - (r + 1))).map (fun j : ℕ => ((r : ℤ) + 1, (r : ℤ) + 1 + j)))
    (fun r => triOff L (r + 1) - L) (by simp [triOff])
    (by
      intro k
      have : L ≤ triOff L (k + 1) := by
        induction k with
        | zero => simp [triOff]
        | succ k ih => simp only [triOff] at *; omega
      simp [triOff]
      simp [triOff] at this
      omega) L
  have hge : ∀ k, L ≤ triOff L (k + 1) := by
    intro k
    induction k with
    | zero => simp [triOff]
    | succ k ih => simp only [triOff] at *; omega
  refine ⟨?_, ?_⟩
  · rw [key.1]
    have h1 := triOff_eq L L le_rfl
    have e : triOff L (L + 1) = triOff L L := by simp [triOff]
    have h2 := hge L
    rw [e] at h2 ⊢
    rw [Nat.cast_sub h2]
    have : (L : ℤ) * (L + 1) = 2 * triOff L L := by rw [h1]; ring
    rw [this]; simp
  · intro el m h0 h1 h2
    obtain ⟨m, rfl⟩ : ∃ k : ℕ, m = (k : ℤ) + 1 := ⟨(m - 1).toNat, by omega⟩
    obtain ⟨el, rfl⟩ := Int.eq_ofNat_of_zero_le (by omega : 0 ≤ el)
    have hm : m + 1 ≤ L := by omega
    have h3 := hge m
    have e0 : hp_getidx L el ((m : ℤ) + 1) - L = ((triOff L (m + 1) - L + (el - (m + 1)) : ℕ) : ℤ) := by
      have e1 := hp_getidx_two L el ((m : ℤ) + 1)
      have e2 := triOff_eq L (m + 1) hm
      push_cast [Nat.cast_sub (show m + 1 ≤ el by omega), Nat.cast_sub h3] at *
      linarith
    rw [e0, Int.toNat_natCast]
    refine ⟨by omega, ?_⟩
    rw [key.2 m _ (by omega) (by simp; omega)]
    rw [List.getElem?_map, List.getElem?_range (by omega)]
    simp
    omega

theorem mem_hpIndices {L m el : ℤ} :
    (m, el) ∈ hpIndices L ↔ 1 ≤ m ∧ m ≤ el ∧ el < L := by
  unfold hpIndices triuIndices
  simp only [List.mem_map, mem_npWhere, Prod.mk.injEq, decide_eq_true_eq]
  constructor
  · rintro ⟨⟨a, b⟩, h, h1, h2⟩; simp only at *; omega
  · intro h; exact ⟨(m - 1, el), by simp only; omega, by simp⟩

theorem nodup_hpIndices (L : ℤ) : (hpIndices L).Nodup := by
  unfold hpIndices
  exact (nodup_npWhere _ _ _).map (fun a b h => by
    simp only [Prod.mk.injEq, add_left_inj] at h; exact Prod.ext h.1 h.2)

/-! ## Results of the conversions -/

theorem exists_elm {L k : ℤ} (h0 : 0 ≤ k) (h1 : k < L ^ 2) (hL : 0 ≤ L) :
    ∃ el m, 0 ≤ el ∧ el < L ∧ |m| ≤ el ∧ elm2ind el m = k := by
  obtain ⟨k, rfl⟩ := Int.eq_ofNat_of_zero_le h0
  have h2 : Nat.sqrt k * Nat.sqrt k ≤ k := Nat.sqrt_le k
  have h3 : k < (Nat.sqrt k + 1) * (Nat.sqrt k + 1) := Nat.lt_succ_sqrt k
  zify at h2 h3
  refine ⟨Nat.sqrt k, k - (Nat.sqrt k : ℤ) ^ 2 - Nat.sqrt k, by omega, ?_, ?_, ?_⟩
  · nlinarith
  · rw [abs_le]; constructor <;> nlinarith
  · unfold elm2ind; ring

theorem to1d_ok (L : ℤ) (a : ℤ → ℤ → ℂ) :
    ∃ b, flm_2d_to_1d (.d2 L (2 * L - 1) a) L = .ok (.d1 (L ^ 2) b) ∧
      ∀ el m, el < L → |m| ≤ el → b (elm2ind el m) = a el (L - 1 + m) := by
  refine ⟨forRange 0 L (fun el s =>
      forRange (-el) (el + 1) (fun m s => set1 s (elm2ind el m) (a el (L - 1 + m))) s)
      (fun _ => 0), ?_, loop_2d_to_1d L a⟩
  unfold flm_2d_to_1d
  simp only [lt_self_iff_false, or_self, and_false, if_false, ncoeff_eq]

theorem to2d_ok (L : ℤ) (a : ℤ → ℂ) :
    ∃ b, flm_1d_to_2d (.d1 (L ^ 2) a) L = .ok (.d2 L (2 * L - 1) b) ∧
      ∀ x y, b x y = if 0 ≤ x ∧ x < L ∧ |y - (L - 1)| ≤ x then a (elm2ind x (y - (L - 1)))
        else 0 := by
  refine ⟨forRange 0 L (fun el s =>
      forRange (-el) (el + 1) (fun m s => set2 s el (L - 1 + m) (a (elm2ind el m))) s)
      (fun _ _ => 0), ?_, loop_1d_to_2d L a⟩
  unfold flm_1d_to_2d
  simp only [ncoeff_eq, lt_self_iff_false, and_false, if_false]
  rfl

theorem tohp_ok (L : ℤ) (a : ℤ → ℤ → ℂ) :
    ∃ b, flm_2d_to_hp (.d2 L (2 * L - 1) a) L = .ok (.d1 (L * (L + 1) / 2) b) ∧
      ∀ el m, 0 ≤ m → m ≤ el → el < L → b (hp_getidx L el m) = a el (L - 1 + m) := by
  refine ⟨forRange 0 L (fun el s =>
      forRange 0 (el + 1) (fun m s => set1 s (hp_getidx L el m) (a el (L - 1 + m))) s)
      (fun _ => 0), ?_, fun el m h0 h1 h2 =>
        loop_2d_to_hp (fun el m => a el (L - 1 + m)) el m h0 h1 h2⟩
  unfold flm_2d_to_hp
  simp only [lt_self_iff_false, or_self, and_false, if_false]

theorem lm2hp_ok (L : ℤ) (a : ℤ → ℂ) :
    ∃ b, lm2lm_hp (.d1 (L ^ 2) a) L = .ok (.d1 (L * (L + 1) / 2) b) ∧
      ∀ el m, 0 ≤ m → m ≤ el → el < L → b (hp_getidx L el m) = a (elm2ind el m) := by
  refine ⟨forRange 0 L (fun el s =>
      forRange 0 (el + 1) (fun m s => set1 s (hp_getidx L el m) (a (elm2ind el m))) s)
      (fun _ => 0), ?_, fun el m h0 h1 h2 =>
        loop_2d_to_hp (fun el m => a (elm2ind el m)) el m h0 h1 h2⟩
  unfold lm2lm_hp
  simp only [ncoeff_eq, lt_self_iff_false, and_false, if_false]

theorem hp2d_ok (L : ℤ) (a : ℤ → ℂ) :
    ∃ b, flm_hp_to_2d (.d1 (L * (L + 1) / 2) a) L = .ok (.d2 L (2 * L - 1) b) ∧
      ∀ x y, b x y = if 0 ≤ x ∧ x < L ∧ |y - (L - 1)| ≤ x then
        (if L - 1 ≤ y then a (hp_getidx L x (y - (L - 1)))
         else (-1) ^ (L - 1 - y).toNat * (starRingEnd ℂ) (a (hp_getidx L x (L - 1 - y))))
        else 0 := by
  refine ⟨_, ?_, loop_hp_to_2d L a⟩
  unfold flm_hp_to_2d
  simp only [lt_self_iff_false, and_false, if_false]
  rfl

/-- Every index below `L(L+1)/2` is the healpy index of one pair `0 ≤ m ≤ el < L`. -/
theorem exists_hp {L k : ℤ} (hL : 0 ≤ L) (h0 : 0 ≤ k) (h1 : k < L * (L + 1) / 2) :
    ∃ el m, 0 ≤ m ∧ m ≤ el ∧ el < L ∧ hp_getidx L el m = k := by
  have hs := triu0_spec L hL
  have hlt : k.toNat < (triuIndices (L + 1) 0 L).length := by omega
  obtain ⟨⟨m, el⟩, hp⟩ : ∃ p, (triuIndices (L + 1) 0 L)[k.toNat]? = some p :=
    ⟨_, List.getElem?_eq_getElem hlt⟩
  have hmem : (m, el) ∈ triuIndices (L + 1) 0 L := List.mem_of_getElem? hp
  unfold triuIndices at hmem
  rw [mem_npWhere] at hmem
  simp at hmem
  have h2 := hs.2 el m (by omega) (by omega) (by omega)
  refine ⟨el, m, by omega, by omega, by omega, ?_⟩
  have hnd : (triuIndices (L + 1) 0 L).Nodup := nodup_npWhere _ _ _
  have hlt2 := (List.getElem?_eq_some_iff.1 h2).1
  have e := (List.getElem?_inj hlt hnd).1 (hp.trans h2.symm)
  have : 0 ≤ hp_getidx L el m := by
    have := hp_getidx_two L el m
    nlinarith [mul_nonneg hmem.1 (by omega : 0 ≤ 2 * L - 1 - m)]
  omega

theorem hp_getidx_range {L el m : ℤ} (h0 : 0 ≤ m) (h1 : m ≤ el) (h2 : el < L) :
    0 ≤ hp_getidx L el m ∧ hp_getidx L el m < L * (L + 1) / 2 := by
  have hs := triu0_spec L (by omega)
  have h3 := hs.2 el m h0 h1 h2
  have hlt := (List.getElem?_eq_some_iff.1 h3).1
  have : 0 ≤ hp_getidx L el m := by
    have := hp_getidx_two L el m
    nlinarith [mul_nonneg h0 (by omega : 0 ≤ 2 * L - 1 - m)]
  omega

theorem to1d3_ok (L N : ℤ) (a : ℤ → ℤ → ℤ → ℂ) :
    ∃ b, flmn_3d_to_1d (.d3 (2 * N - 1) L (2 * L - 1) a) L N = .ok (.d1 ((2 * N - 1) * L * L) b) ∧
      ∀ el m n, el < L → |m| ≤ el → |n| < N →
        b (elmn2ind el m n L N) = a (N - 1 + n) el (L - 1 + m) := by
  refine ⟨_, ?_, loop_3d_to_1d L N a⟩
  unfold flmn_3d_to_1d
  simp only [lt_self_iff_false, or_self, and_false, if_false]
  rfl

theorem to3d_ok (L N : ℤ) (a : ℤ → ℂ) :
    ∃ b, flmn_1d_to_3d (.d1 ((2 * N - 1) * L * L) a) L N = .ok (.d3 (2 * N - 1) L (2 * L - 1) b) ∧
      ∀ x y z, b x y z = if |x - (N - 1)| < N ∧ 0 ≤ y ∧ y < L ∧ |z - (L - 1)| ≤ y then
        a (elmn2ind y (z - (L - 1)) (x - (N - 1)) L N) else 0 := by
  refine ⟨_, ?_, loop_1d_to_3d L N a⟩
  unfold flmn_1d_to_3d
  simp only [flmn_shape_1d, lt_self_iff_false, and_false, if_false]
  rfl

theorem exists_elmn {L N k : ℤ} (hL : 1 ≤ L) (h0 : 0 ≤ k) (h1 : k < (2 * N - 1) * L * L) :
    ∃ el m n, 0 ≤ el ∧ el < L ∧ |m| ≤ el ∧ |n| < N ∧ elmn2ind el m n L N = k := by
  have hpos : 0 < L ^ 2 := by positivity
  obtain ⟨el, m, h2, h3, h4, h5⟩ := exists_elm (L := L) (Int.emod_nonneg k hpos.ne')
    (Int.emod_lt_of_pos k hpos) (by omega)
  refine ⟨el, m, k / L ^ 2 - (N - 1), h2, h3, h4, ?_, ?_⟩
  · have hq : 0 ≤ k / L ^ 2 := Int.ediv_nonneg h0 hpos.le
    have hq2 : k / L ^ 2 < 2 * N - 1 := by
      rw [Int.ediv_lt_iff_lt_mul hpos]; linarith
    rw [abs_lt]; omega
  · rw [elmn2ind_eq, h5]
    have := Int.mul_ediv_add_emod k (L ^ 2)
    linarith

end S2fft
