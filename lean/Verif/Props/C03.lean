import Verif.Lemmas.Reindex

/-! # C03: HEALPix (healpy) coefficient ordering -/

namespace S2fft

/-- Coefficients of a real signal: `f_{el,-m} = (-1)^m conj f_{el,m}` (array column `L-1+m`). -/
def ConjSymm (L : ℤ) (a : ℤ → ℤ → ℂ) : Prop :=
  ∀ el m : ℤ, 0 ≤ el → el < L → 0 ≤ m → m ≤ el →
    a el (L - 1 - m) = (-1) ^ m.toNat * (starRingEnd ℂ) (a el (L - 1 + m))

/-- `hp_getidx` is a bijection from `0 ≤ m ≤ el < L` onto `0, …, L(L+1)/2 - 1`. -/
theorem C03_bijection (L : ℤ) (hL : 0 ≤ L) :
    Set.BijOn (fun p : ℤ × ℤ => hp_getidx L p.1 p.2)
      {p | 0 ≤ p.2 ∧ p.2 ≤ p.1 ∧ p.1 < L} {k | 0 ≤ k ∧ k < L * (L + 1) / 2} := by
  refine ⟨?_, ?_, ?_⟩
  · rintro ⟨el, m⟩ ⟨h0, h1, h2⟩
    exact hp_getidx_range h0 h1 h2
  · rintro ⟨el, m⟩ ⟨h0, h1, h2⟩ ⟨el', m'⟩ ⟨h0', h1', h2'⟩ h
    have := hp_getidx_inj h0 h1 h2 h0' h1' h2' h
    exact Prod.ext this.1 this.2
  · rintro k ⟨h0, h1⟩
    obtain ⟨el, m, h2, h3, h4, h5⟩ := exists_hp hL h0 h1
    exact ⟨(el, m), ⟨h2, h3, h4⟩, h5⟩

/-- 2D → healpy → 2D returns the coefficients of a real signal unchanged (and zeroes padding). -/
theorem C03_2d_hp_2d (L : ℤ) (hL : 1 ≤ L) (a : ℤ → ℤ → ℂ) (hs : ConjSymm L a) :
    ∃ b c, flm_2d_to_hp (.d2 L (2 * L - 1) a) L = .ok (.d1 (L * (L + 1) / 2) b) ∧
      flm_hp_to_2d (.d1 (L * (L + 1) / 2) b) L = .ok (.d2 L (2 * L - 1) c) ∧
      ∀ el m, 0 ≤ el → el < L → |m| < L →
        c el (L - 1 + m) = if |m| ≤ el then a el (L - 1 + m) else 0 := by
  obtain ⟨b, hb, hb'⟩ := tohp_ok L a
  obtain ⟨c, hc, hc'⟩ := hp2d_ok L b
  refine ⟨b, c, hb, hc, ?_⟩
  intro el m h0 h1 _
  rw [hc']
  simp only [add_sub_cancel_left]
  by_cases h : |m| ≤ el
  · rw [if_pos ⟨h0, h1, h⟩, if_pos h]
    rw [abs_le] at h
    split_ifs with hm
    · rw [hb' el m (by omega) (by omega) h1]
    · have e : L - 1 - (L - 1 + m) = -m := by ring
      rw [e, hb' el (-m) (by omega) (by omega) h1]
      rw [← hs el (-m) h0 h1 (by omega) (by omega)]
      simp
  · rw [if_neg (by tauto), if_neg h]

/-- healpy → 2D → healpy is the identity on every healpy-ordered array. -/
theorem C03_hp_2d_hp (L : ℤ) (hL : 1 ≤ L) (a : ℤ → ℂ) :
    ∃ b c, flm_hp_to_2d (.d1 (L * (L + 1) / 2) a) L = .ok (.d2 L (2 * L - 1) b) ∧
      flm_2d_to_hp (.d2 L (2 * L - 1) b) L = .ok (.d1 (L * (L + 1) / 2) c) ∧
      ∀ k, 0 ≤ k → k < L * (L + 1) / 2 → c k = a k := by
  obtain ⟨b, hb, hb'⟩ := hp2d_ok L a
  obtain ⟨c, hc, hc'⟩ := tohp_ok L b
  refine ⟨b, c, hb, hc, ?_⟩
  intro k h0 h1
  obtain ⟨el, m, h2, h3, h4, rfl⟩ := exists_hp (by omega) h0 h1
  rw [hc' el m h2 h3 h4, hb']
  simp only [add_sub_cancel_left]
  rw [if_pos ⟨by omega, h4, by rw [abs_le]; omega⟩, if_pos (by omega)]

/-- Expanding healpy-ordered coefficients always gives a conjugate-symmetric array when the
`m = 0` coefficients are real, and zero padding. -/
theorem C03_hp_2d_conjSymm (L : ℤ) (hL : 1 ≤ L) (a : ℤ → ℂ)
    (h0 : ∀ el, 0 ≤ el → el < L → (starRingEnd ℂ) (a (hp_getidx L el 0)) = a (hp_getidx L el 0)) :
    ∃ b, flm_hp_to_2d (.d1 (L * (L + 1) / 2) a) L = .ok (.d2 L (2 * L - 1) b) ∧
      ConjSymm L b ∧
      ∀ el m, 0 ≤ el → el < L → el < |m| → b el (L - 1 + m) = 0 := by
  obtain ⟨b, hb, hb'⟩ := hp2d_ok L a
  refine ⟨b, hb, ?_, ?_⟩
  · intro el m h1 h2 h3 h4
    rw [hb', hb']
    have e1 : L - 1 - (L - 1 - m) = m := by ring
    have e2 : L - 1 - m - (L - 1) = -m := by ring
    rw [e1, e2]
    simp only [add_sub_cancel_left]
    have c1 : 0 ≤ el ∧ el < L ∧ |-m| ≤ el := ⟨h1, h2, by rw [abs_le]; omega⟩
    have c2 : 0 ≤ el ∧ el < L ∧ |m| ≤ el := ⟨h1, h2, by rw [abs_le]; omega⟩
    rw [if_pos c1, if_pos c2, if_pos (by omega : L - 1 ≤ L - 1 + m)]
    rcases eq_or_lt_of_le h3 with rfl | h5
    · simp [h0 el h1 h2]
    · rw [if_neg (by omega)]
  · intro el m h1 h2 h3
    rw [hb', if_neg]
    simp only [add_sub_cancel_left]
    intro h; omega

/-- Converting 1D coefficients directly to healpy order is the same as going through 2D. -/
theorem C03_lm2lm_hp (L : ℤ) (hL : 1 ≤ L) (a : ℤ → ℂ) :
    ∃ b c d, flm_1d_to_2d (.d1 (L ^ 2) a) L = .ok (.d2 L (2 * L - 1) b) ∧
      flm_2d_to_hp (.d2 L (2 * L - 1) b) L = .ok (.d1 (L * (L + 1) / 2) c) ∧
      lm2lm_hp (.d1 (L ^ 2) a) L = .ok (.d1 (L * (L + 1) / 2) d) ∧
      ∀ k, 0 ≤ k → k < L * (L + 1) / 2 → d k = c k := by
  obtain ⟨b, hb, hb'⟩ := to2d_ok L a
  obtain ⟨c, hc, hc'⟩ := tohp_ok L b
  obtain ⟨d, hd, hd'⟩ := lm2hp_ok L a
  refine ⟨b, c, d, hb, hc, hd, ?_⟩
  intro k h0 h1
  obtain ⟨el, m, h2, h3, h4, rfl⟩ := exists_hp (by omega) h0 h1
  rw [hc' el m h2 h3 h4, hd' el m h2 h3 h4, hb']
  simp only [add_sub_cancel_left]
  rw [if_pos ⟨by omega, h4, by rw [abs_le]; omega⟩]

/-- The jitted 2D → healpy conversion equals the loop version. -/
theorem C03_fast_2d_to_hp (L : ℤ) (hL : 1 ≤ L) (a : ℤ → ℤ → ℂ) :
    ∃ b, flm_2d_to_hp (.d2 L (2 * L - 1) a) L = .ok (.d1 (L * (L + 1) / 2) b) ∧
      ((flm_2d_to_hp_fast a L).length : ℤ) = L * (L + 1) / 2 ∧
      ∀ k, 0 ≤ k → k < L * (L + 1) / 2 → (flm_2d_to_hp_fast a L)[k.toNat]? = some (b k) := by
  have hs := triu0_spec L (by omega)
  obtain ⟨b, hb, hb'⟩ := tohp_ok L a
  refine ⟨b, hb, by simpa [flm_2d_to_hp_fast] using hs.1, ?_⟩
  intro k h0 h1
  obtain ⟨el, m, h2, h3, h4, rfl⟩ := exists_hp (by omega) h0 h1
  rw [hb' el m h2 h3 h4]
  unfold flm_2d_to_hp_fast
  rw [List.getElem?_map, hs.2 el m h2 h3 h4]
  rfl

/-- The jitted healpy → 2D conversion equals the loop version. -/
theorem C03_fast_hp_to_2d (L : ℤ) (hL : 1 ≤ L) (a : ℤ → ℂ) :
    ∃ b, flm_hp_to_2d (.d1 (L * (L + 1) / 2) a) L = .ok (.d2 L (2 * L - 1) b) ∧
      ∀ x y, flm_hp_to_2d_fast a L x y = b x y := by
  have hs := hpIndices_spec L (by omega)
  obtain ⟨b, hb, hb'⟩ := hp2d_ok L a
  refine ⟨b, hb, ?_⟩
  intro x y
  rw [hb']
  unfold flm_hp_to_2d_fast
  have nd1 : ((hpIndices L).map (fun p => (p.2, L - 1 + p.1))).Nodup :=
    (nodup_hpIndices L).map (fun p q h => by
      simp only [Prod.mk.injEq, add_right_inj] at h; exact Prod.ext h.2 h.1)
  have nd2 : ((hpIndices L).map (fun p => (p.2, L - 1 - p.1))).Nodup :=
    (nodup_hpIndices L).map (fun p q h => by
      simp only [Prod.mk.injEq, sub_right_inj] at h; exact Prod.ext h.2 h.1)
  have nd0 : ((arange L).map (fun el => (el, L - 1))).Nodup :=
    (nodup_arange L).map (fun p q h => by simpa using h)
  have mem1 : (x, y) ∈ (hpIndices L).map (fun p => (p.2, L - 1 + p.1)) ↔
      1 ≤ y - (L - 1) ∧ y - (L - 1) ≤ x ∧ x < L := by
    simp only [List.mem_map, Prod.exists, Prod.mk.injEq, mem_hpIndices]
    constructor
    · rintro ⟨m, el, h, rfl, rfl⟩; omega
    · intro h; exact ⟨y - (L - 1), x, h, rfl, by ring⟩
  have mem2 : (x, y) ∈ (hpIndices L).map (fun p => (p.2, L - 1 - p.1)) ↔
      1 ≤ L - 1 - y ∧ L - 1 - y ≤ x ∧ x < L := by
    simp only [List.mem_map, Prod.exists, Prod.mk.injEq, mem_hpIndices]
    constructor
    · rintro ⟨m, el, h, rfl, rfl⟩; omega
    · intro h; exact ⟨L - 1 - y, x, h, rfl, by ring⟩
  have mem0 : (x, y) ∈ (arange L).map (fun el => (el, L - 1)) ↔ 0 ≤ x ∧ x < L ∧ y = L - 1 := by
    simp only [List.mem_map, Prod.mk.injEq, mem_arange]
    constructor
    · rintro ⟨el, h, rfl, rfl⟩; omega
    · intro h; exact ⟨x, ⟨h.1, h.2.1⟩, rfl, h.2.2.symm⟩
  have hrest : ∀ el m, 1 ≤ m → m ≤ el → el < L →
      ((List.range (hpIndices L).length).map (fun k : ℕ => a (L + (k : ℤ))))[
        (hp_getidx L el m - L).toNat]? = some (a (hp_getidx L el m)) := by
    intro el m h1 h2 h3
    obtain ⟨h4, h5⟩ := hs.2 el m h1 h2 h3
    have h6 := (List.getElem?_eq_some_iff.1 h5).1
    rw [List.getElem?_map, List.getElem?_range h6]
    simp only [Option.map_some, Option.some.injEq]
    congr 1; omega
  rcases lt_trichotomy y (L - 1) with hy | rfl | hy
  · by_cases hx : L - 1 - y ≤ x ∧ x < L
    · rw [if_pos ⟨by omega, hx.2, by rw [abs_le]; omega⟩, if_neg (by omega)]
      obtain ⟨h4, h5⟩ := hs.2 x (L - 1 - y) (by omega) hx.1 hx.2
      refine scatter2_get _ _ _ nd2 (hp_getidx L x (L - 1 - y) - L).toNat _ _ _ ?_ ?_
      · rw [List.getElem?_map, h5]; simp
      · rw [List.getElem?_map, (List.getElem?_zip_eq_some (z := ((L - 1 - y, x), a (hp_getidx L x (L - 1 - y))))).2
          ⟨h5, hrest x (L - 1 - y) (by omega) hx.1 hx.2⟩]
        rfl
    · rw [if_neg (by rw [abs_le]; omega), scatter2_notMem _ _ _ _ _ (by rw [mem2]; omega),
        scatter2_notMem _ _ _ _ _ (by rw [mem1]; omega),
        scatter2_notMem _ _ _ _ _ (by rw [mem0]; omega)]
  · rw [scatter2_notMem _ _ _ _ _ (by rw [mem2]; omega),
        scatter2_notMem _ _ _ _ _ (by rw [mem1]; omega)]
    by_cases hx : 0 ≤ x ∧ x < L
    · rw [if_pos ⟨hx.1, hx.2, by simpa using hx.1⟩, if_pos le_rfl]
      have e : hp_getidx L x (L - 1 - (L - 1)) = x := by simp [hp_getidx]
      rw [e]
      refine scatter2_get _ _ _ nd0 x.toNat _ _ _ ?_ ?_
      · unfold arange
        rw [List.getElem?_map, List.getElem?_map, List.getElem?_range (by omega)]
        simp [hx.1]
      · exact toList1_getElem? L a x hx.1 hx.2
    · rw [if_neg (by tauto), scatter2_notMem _ _ _ _ _ (by rw [mem0]; tauto)]
  · rw [scatter2_notMem _ _ _ _ _ (by rw [mem2]; omega)]
    by_cases hx : y - (L - 1) ≤ x ∧ x < L
    · rw [if_pos ⟨by omega, hx.2, by rw [abs_le]; omega⟩, if_pos (by omega)]
      obtain ⟨h4, h5⟩ := hs.2 x (y - (L - 1)) (by omega) hx.1 hx.2
      refine scatter2_get _ _ _ nd1 (hp_getidx L x (y - (L - 1)) - L).toNat _ _ _ ?_ ?_
      · rw [List.getElem?_map, h5]; simp
      · exact hrest x (y - (L - 1)) (by omega) hx.1 hx.2
    · rw [if_neg (by rw [abs_le]; omega),
        scatter2_notMem _ _ _ _ _ (by rw [mem1]; omega),
        scatter2_notMem _ _ _ _ _ (by rw [mem0]; omega)]

/-- `flm_hp_to_2d` rejects anything but a flat array. -/
theorem C03_reject (L : ℤ) :
    (∀ r c a, flm_hp_to_2d (.d2 r c a) L = .error .valueError) ∧
    (∀ p r c a, flm_hp_to_2d (.d3 p r c a) L = .error .valueError) ∧
    (∀ k, flm_hp_to_2d (.other k) L = .error .valueError) :=
  ⟨fun _ _ _ => rfl, fun _ _ _ _ => rfl, fun _ => rfl⟩

/-- Witness: a conjugate-symmetric array that is not zero, at `L = 2`. -/
example : ConjSymm 2 (fun el c => if el = 1 then (if c = 0 then -1 else if c = 2 then 1 else 5) else 3) := by
  intro el m h1 h2 h3 h4
  have : el = 0 ∨ el = 1 := by omega
  rcases this with rfl | rfl
  · have : m = 0 := by omega
    subst this; simp [Complex.conj_ofNat]
  · have : m = 0 ∨ m = 1 := by omega
    rcases this with rfl | rfl <;> simp [Complex.conj_ofNat]

end S2fft
