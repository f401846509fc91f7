import Verif.Lemmas.HealpixFft

/-! # The ring transforms, ring by ring -/

namespace S2fft
open Spec

/-! ## Concatenation -/

/-- Total length of a list of chunks. -/
def chunksLen {α : Type*} (l : List (ℤ × (ℤ → α))) : ℤ := (l.map Prod.fst).sum

theorem chunksLen_nonneg {α : Type*} (l : List (ℤ × (ℤ → α))) (hnn : ∀ c ∈ l, 0 ≤ c.1) :
    0 ≤ chunksLen l := by
  induction l with
  | nil => simp [chunksLen]
  | cons c l ih =>
    have := ih (fun c hc => hnn c (List.mem_cons_of_mem _ hc))
    have h2 := hnn c List.mem_cons_self
    simp only [chunksLen, List.map_cons, List.sum_cons] at *; omega

theorem concatChunks_append_left {α : Type*} [Zero α] (l r : List (ℤ × (ℤ → α))) (i : ℤ)
    (h0 : 0 ≤ i) (h : i < chunksLen l) :
    concatChunks (l ++ r) i = concatChunks l i := by
  induction l generalizing i with
  | nil => simp [chunksLen] at h; omega
  | cons c l ih =>
    obtain ⟨n, a⟩ := c
    simp only [List.cons_append, concatChunks]
    split_ifs with h1
    · rfl
    · apply ih
      · omega
      · simp [chunksLen] at h ⊢; linarith

theorem concatChunks_append_right {α : Type*} [Zero α] (l r : List (ℤ × (ℤ → α))) (i : ℤ)
    (hnn : ∀ c ∈ l, 0 ≤ c.1) (h : chunksLen l ≤ i) :
    concatChunks (l ++ r) i = concatChunks r (i - chunksLen l) := by
  induction l generalizing i with
  | nil => simp [chunksLen]
  | cons c l ih =>
    obtain ⟨n, a⟩ := c
    have hl := chunksLen_nonneg l (fun c hc => hnn c (List.mem_cons_of_mem _ hc))
    have e : chunksLen ((n, a) :: l) = n + chunksLen l := by simp [chunksLen]
    rw [e] at h ⊢
    simp only [List.cons_append, concatChunks]
    rw [if_neg (by omega), ih _ (fun c hc => hnn c (List.mem_cons_of_mem _ hc)) (by omega)]
    congr 1; ring

theorem pyRange_succ (n : ℕ) : pyRange ((n : ℤ) + 1) = pyRange n ++ [(n : ℤ)] := by
  unfold pyRange
  rw [show ((n : ℤ) + 1).toNat = n + 1 by omega, Int.toNat_natCast, List.range_succ]
  simp

theorem chunksLen_map_pyRange {α : Type*} (n : ℕ) (a : ℤ → ℤ) (g : ℤ → ℤ → α) :
    chunksLen ((pyRange n).map (fun t => (a t, g t))) = ∑ t ∈ Finset.Ico (0 : ℤ) n, a t := by
  induction n with
  | zero => simp [pyRange, chunksLen]
  | succ n ih =>
    rw [Nat.cast_succ, pyRange_succ, sum_Ico_succ_top' (by omega), ← ih]
    simp [chunksLen]

theorem concat_map_pyRange {α : Type*} [Zero α] (n : ℕ) (a : ℤ → ℤ) (g : ℤ → ℤ → α)
    (ha : ∀ t : ℤ, 0 ≤ t → t < n → 0 ≤ a t) (t p : ℤ) (h0 : 0 ≤ t) (h1 : t < n)
    (h2 : 0 ≤ p) (h3 : p < a t) :
    concatChunks ((pyRange n).map (fun t => (a t, g t))) ((∑ s ∈ Finset.Ico 0 t, a s) + p)
      = g t p := by
  induction n with
  | zero => push_cast at h1; omega
  | succ n ih =>
    have hnn : ∀ c ∈ (pyRange n).map (fun t => (a t, g t)), 0 ≤ c.1 := by
      intro c hc
      simp only [List.mem_map, pyRange, List.mem_range, Int.toNat_natCast] at hc
      obtain ⟨_, ⟨k, hk, rfl⟩, rfl⟩ := hc
      exact ha k (by omega) (by push_cast; omega)
    have hS : 0 ≤ ∑ s ∈ Finset.Ico 0 t, a s := Finset.sum_nonneg (fun s hs => by
      simp only [Finset.mem_Ico] at hs; exact ha s hs.1 (by omega))
    rw [Nat.cast_succ, pyRange_succ, List.map_append]
    rw [Nat.cast_succ] at h1
    rcases lt_or_ge t n with h | h
    · rw [concatChunks_append_left]
      · exact ih (fun t h0 h1 => ha t h0 (by push_cast; omega)) h
      · omega
      · rw [chunksLen_map_pyRange]
        have hle : ∑ s ∈ Finset.Ico 0 (t + 1), a s ≤ ∑ s ∈ Finset.Ico (0 : ℤ) n, a s := by
          rw [sum_Ico_consec (show (0 : ℤ) ≤ t + 1 by omega) (show t + 1 ≤ (n : ℤ) by omega)]
          have : 0 ≤ ∑ s ∈ Finset.Ico (t + 1) (n : ℤ), a s := Finset.sum_nonneg (fun s hs => by
            simp only [Finset.mem_Ico] at hs; exact ha s (by omega) (by push_cast; omega))
          omega
        rw [sum_Ico_succ_top' h0] at hle
        omega
    · have : t = n := by omega
      subst this
      rw [concatChunks_append_right _ _ _ hnn]
      · rw [chunksLen_map_pyRange]
        simp only [List.map_cons, List.map_nil, concatChunks, add_sub_cancel_left]
        rw [if_pos h3]
      · rw [chunksLen_map_pyRange]; omega

theorem pyRange_reverse (n : ℕ) : (pyRange n).reverse = (pyRange n).map (fun t => (n : ℤ) - 1 - t) := by
  unfold pyRange
  apply List.ext_getElem
  · simp
  · intro i h1 h2
    simp at h1 h2 ⊢
    omega

/-! ## Ring offsets -/

theorem ringSize_symm (n t : ℤ) : ringSize n (4 * n - 2 - t) = ringSize n t := by
  unfold ringSize
  congr 1
  rw [show 4 * n - 2 - t + 1 = 4 * n - 1 - t by ring,
    show 4 * n - 1 - (4 * n - 2 - t) = t + 1 by ring]
  rw [min_left_comm, min_comm (4 * n - 1 - t), ← min_left_comm]

theorem ringStart_symm {n t : ℤ} (hn : 1 ≤ n) (h0 : 0 ≤ t) (h1 : t ≤ 4 * n - 1) :
    ringStart n (4 * n - 1 - t) = 12 * n ^ 2 - ringStart n t := by
  have h := ringStart_total n hn
  unfold ringStart at *
  rw [sum_Ico_consec (show 0 ≤ 4 * n - 1 - t by omega) (show 4 * n - 1 - t ≤ 4 * n - 1 by omega)]
    at h
  have e := sum_Ico_reflect' 0 t (4 * n - 2) (fun s => ringSize n s)
  simp only [ringSize_symm] at e
  rw [show 4 * n - 2 - t + 1 = 4 * n - 1 - t by ring, show 4 * n - 2 - 0 + 1 = 4 * n - 1 by ring]
    at e
  rw [← e] at h
  omega

/-- What one ring of the inverse transform holds. -/
noncomputable def ringVal (nside L : ℤ) (reality : Bool) (ftm : ℤ → ℤ → ℂ) (t p : ℤ) : ℂ :=
  if reality = true ∧ ringSize nside t = 2 * L then
    irfft_fwd L (fun k => ftm t (L + k)) (2 * L) p
  else ringSynth nside L ftm t p

theorem healpix_ifft_numpy_ok {L nside : ℤ} (hn : 1 ≤ nside) (hL : 2 * nside ≤ L)
    (ftm : ℤ → ℤ → ℂ) (reality : Bool) :
    ∃ f ftm', healpix_ifft_numpy (4 * nside - 1) ftm L nside reality = .ok (f, ftm') ∧
      (∀ t p, 0 ≤ t → t < 4 * nside - 1 → 0 ≤ p → p < ringSize nside t →
        f (ringStart nside t + p) = ringVal nside L reality ftm t p) ∧
      (∀ t k, 0 ≤ t → t < 4 * nside - 1 → ftm' t k =
        if ringSize nside t ≠ 2 * L ∧ L - ringSize nside t / 2 ≤ k ∧
            k < L - ringSize nside t / 2 + ringSize nside t
        then foldSum (ftm t) (ringSize nside t) L (k - (L - ringSize nside t / 2))
        else ftm t k) := by
  unfold healpix_ifft_numpy
  obtain ⟨⟨idx, f, ftm'⟩, h1, h2⟩ := forRangeM_ind (show (0 : ℤ) ≤ 4 * nside - 1 by omega)
    (fun t (st : ℤ × (ℤ → ℂ) × (ℤ → ℤ → ℂ)) => do
      let (index, f, ftm) := st
      let nphi ← nphi_ring t nside
      let (fm_chunk, row) ← fold_row (ftm t) nphi L
      let vals : ℤ → ℂ :=
        if reality = true ∧ nphi = 2 * L then
          irfft_fwd (nphi - nphi / 2) (fun k => fm_chunk (nphi / 2 + k)) nphi
        else ifft_fwd nphi (ifftshift nphi fm_chunk)
      let f' : ℤ → ℂ := fun i => if index ≤ i ∧ i < index + nphi then vals (i - index) else f i
      pure (index + nphi, f', set1 ftm t row)) (0, fun _ => 0, ftm)
    (fun t st => st.1 = ringStart nside t ∧
      (∀ s p, 0 ≤ s → s < t → 0 ≤ p → p < ringSize nside s →
        st.2.1 (ringStart nside s + p) = ringVal nside L reality ftm s p) ∧
      (∀ s, t ≤ s → st.2.2 s = ftm s) ∧
      (∀ s k, 0 ≤ s → s < t → st.2.2 s k =
        if ringSize nside s ≠ 2 * L ∧ L - ringSize nside s / 2 ≤ k ∧
            k < L - ringSize nside s / 2 + ringSize nside s
        then foldSum (ftm s) (ringSize nside s) L (k - (L - ringSize nside s / 2))
        else ftm s k))
    ⟨by simp [ringStart], fun s p a b => by omega, fun _ _ => rfl, fun s k a b => by omega⟩
    (by
      rintro t ⟨index, g, ftm₁⟩ h0 h1 ⟨i1, i2, i3, i4⟩
      simp only at i1 i2 i3 i4
      subst i1
      have hpos := ringSize_pos h0 h1
      have hle := ringSize_le nside t
      have hrow : ∃ c r, fold_row (ftm₁ t) (ringSize nside t) L = .ok (c, r) ∧
          (∀ i, 0 ≤ i → i < ringSize nside t → c i = foldSum (ftm t) (ringSize nside t) L i) ∧
          (ringSize nside t = 2 * L → c = ftm t) ∧
          (∀ k, r k = if ringSize nside t ≠ 2 * L ∧ L - ringSize nside t / 2 ≤ k ∧
              k < L - ringSize nside t / 2 + ringSize nside t
            then foldSum (ftm t) (ringSize nside t) L (k - (L - ringSize nside t / 2))
            else ftm t k) := by
        rw [i3 t le_rfl]
        unfold fold_row
        by_cases h : ringSize nside t = 2 * L
        · rw [if_pos h]
          refine ⟨_, _, rfl, ?_, fun _ => rfl, ?_⟩
          · intro i hi0 hi1; rw [h] at hi1 ⊢; rw [foldSum_self _ hi0 hi1]
          · intro k; rw [if_neg (by tauto)]
        · rw [if_neg h]
          obtain ⟨s, r, e1, e2, e3⟩ := spectral_folding_ok hpos (by omega : _ ≤ 2 * L) (ftm t)
          refine ⟨s, r, e1, e2, fun h' => absurd h' h, ?_⟩
          intro k; rw [e3 k]
          by_cases hk : L - ringSize nside t / 2 ≤ k ∧
              k < L - ringSize nside t / 2 + ringSize nside t
          · rw [if_pos hk, if_pos ⟨h, hk⟩]
          · rw [if_neg hk, if_neg (by tauto)]
      obtain ⟨c, r, e1, e2, e2', e3⟩ := hrow
      refine ⟨_, by simp only [nphi_ring_ok h0 h1]; simp only [bind, Except.bind] at e1 ⊢; rw [e1]; rfl, ?_⟩
      refine ⟨(ringStart_succ nside t h0).symm, ?_, ?_, ?_⟩
      · intro s p hs0 hs1 hp0 hp1
        simp only
        rcases eq_or_ne s t with rfl | hst
        · rw [if_pos ⟨by omega, by omega⟩, add_sub_cancel_left]
          unfold ringVal
          by_cases h : reality = true ∧ ringSize nside s = 2 * L
          · rw [if_pos h, if_pos h, e2' h.2, h.2]
            rw [show 2 * L / 2 = L by omega, show 2 * L - L = L by ring]
          · rw [if_neg h, if_neg h, ifft_foldSum hpos (ftm s) c p e2]; rfl
        · have := ringStart_mono (n := nside) (show 0 ≤ s + 1 by omega) (show s + 1 ≤ t by omega)
            (by omega)
          rw [ringStart_succ nside s hs0] at this
          rw [if_neg (by omega)]
          exact i2 s p hs0 (by omega) hp0 hp1
      · intro s hs
        simp only [set1]
        rw [if_neg (by omega)]; exact i3 s (by omega)
      · intro s k hs0 hs1
        simp only [set1]
        rcases eq_or_ne s t with rfl | hst
        · rw [if_pos rfl, e3 k]
        · rw [if_neg hst]; exact i4 s k hs0 (by omega))
  refine ⟨f, ftm', ?_, ?_, ?_⟩
  · rw [h1]; rfl
  · intro t p a b c d; exact h2.2.1 t p a b c d
  · intro t k a b; exact h2.2.2.2 t k a b

/-- One row of the JAX inverse. -/
theorem ftm_row_to_f_chunk_eq {L nside t : ℤ} (h0 : 0 ≤ t) (h1 : t < 4 * nside - 1)
    (hL : 2 * nside ≤ L) (ftm : ℤ → ℤ → ℂ) (reality : Bool) (p : ℤ) :
    ftm_row_to_f_chunk L reality (ftm t) (ringSize nside t) p
      = ringVal nside L reality ftm t p := by
  have hpos := ringSize_pos h0 h1
  have hle := ringSize_le nside t
  unfold ftm_row_to_f_chunk ringVal
  by_cases h : reality = true ∧ ringSize nside t = 2 * L
  · rw [if_pos h, if_pos h, if_pos h.2, h.2]
    rw [show 2 * L / 2 = L by omega, show 2 * L - L = L by ring]
  · rw [if_neg h, if_neg h]
    apply ifft_foldSum hpos (ftm t)
    intro i hi0 hi1
    by_cases h' : ringSize nside t = 2 * L
    · rw [if_pos h']; rw [h'] at hi1 ⊢; rw [foldSum_self _ hi0 hi1]
    · rw [if_neg h', spectral_folding_jax_eq hpos (ringSize_even _ _) (by omega) _ hi0 hi1]

theorem healpix_ifft_jax_ok {L nside : ℤ} (hn : 1 ≤ nside) (hL : 2 * nside ≤ L)
    (ftm : ℤ → ℤ → ℂ) (reality : Bool) (t p : ℤ) (h0 : 0 ≤ t) (h1 : t < 4 * nside - 1)
    (hp0 : 0 ≤ p) (hp1 : p < ringSize nside t) :
    healpix_ifft_jax ftm L nside reality (ringStart nside t + p)
      = ringVal nside L reality ftm t p := by
  obtain ⟨N, hN⟩ := Int.eq_ofNat_of_zero_le (show 0 ≤ nside - 1 by omega)
  have hnn : ∀ (g : ℤ → ℤ → ℂ) (c : ℤ × (ℤ → ℂ)),
      c ∈ (pyRange N).map (fun t => (4 * (t + 1), g t)) → 0 ≤ c.1 := by
    intro g c hc
    simp only [List.mem_map, pyRange, List.mem_range, Int.toNat_natCast] at hc
    obtain ⟨_, ⟨k, hk, rfl⟩, rfl⟩ := hc
    simp only; omega
  have hsz : ∀ u, 0 ≤ u → u ≤ (N : ℤ) → ∑ s ∈ Finset.Ico 0 u, 4 * (s + 1) = ringStart nside u := by
    intro u hu0 hu1
    unfold ringStart
    apply Finset.sum_congr rfl; intro s hs
    simp only [Finset.mem_Ico] at hs
    rw [ringSize_north (by omega) hs.1]
  unfold healpix_ifft_jax
  simp only
  rw [hN, pyRange_reverse, List.map_map, List.append_assoc]
  have hst0 : 0 ≤ ringStart nside t := by
    have := ringStart_mono (n := nside) (le_refl (0 : ℤ)) h0 (by omega)
    simpa [ringStart] using this
  have hmid : ringStart nside (3 * nside) = ringStart nside N + (3 * nside - (N : ℤ)) * (4 * nside) := by
    unfold ringStart
    rw [sum_Ico_consec (show (0 : ℤ) ≤ N by omega) (show (N : ℤ) ≤ 3 * nside by omega)]
    congr 1
    rw [Finset.sum_congr rfl (fun s hs => by
      simp only [Finset.mem_Ico] at hs
      exact ringSize_mid (n := nside) (t := s) (by omega) (by omega))]
    simp
    omega
  rcases lt_or_ge t N with h | h
  · -- north
    rw [concatChunks_append_left]
    · rw [← hsz t h0 (by omega)]
      rw [ringSize_north (by omega) h0] at hp1
      rw [concat_map_pyRange N (fun t => 4 * (t + 1)) _ (fun t _ _ => by omega) t p h0 h hp0 hp1]
      have := ftm_row_to_f_chunk_eq h0 h1 hL ftm reality p
      rw [ringSize_north (by omega) h0] at this
      exact this
    · omega
    · rw [chunksLen_map_pyRange, hsz N (by omega) le_rfl]
      have := ringStart_mono (n := nside) (show 0 ≤ t + 1 by omega) (show t + 1 ≤ (N : ℤ) by omega)
        (by omega)
      rw [ringStart_succ nside t h0] at this
      omega
  · rw [concatChunks_append_right _ _ _ (hnn _)]
    rotate_left
    · rw [chunksLen_map_pyRange, hsz N (by omega) le_rfl]
      have := ringStart_mono (n := nside) (show 0 ≤ (N : ℤ) by omega) h (by omega)
      omega
    rw [chunksLen_map_pyRange, hsz N (by omega) le_rfl]
    rcases lt_or_ge t (3 * nside) with h' | h'
    · -- equator
      have e : ringStart nside t = ringStart nside N + (t - N) * (4 * nside) := by
        unfold ringStart
        rw [sum_Ico_consec (show (0 : ℤ) ≤ N by omega) h]
        congr 1
        rw [Finset.sum_congr rfl (fun s hs => by
          simp only [Finset.mem_Ico] at hs
          exact ringSize_mid (n := nside) (t := s) (by omega) (by omega))]
        simp
        omega
      have hsm : ringSize nside t = 4 * nside := ringSize_mid (by omega) (by omega)
      rw [hsm] at hp1
      rw [e, show ringStart nside N + (t - N) * (4 * nside) + p - ringStart nside N
        = p + (4 * nside) * (t - N) by ring]
      rw [List.singleton_append]
      simp only [concatChunks]
      rw [if_pos (by nlinarith), Int.add_mul_ediv_left _ _ (by omega),
        Int.ediv_eq_zero_of_lt hp0 hp1, Int.add_mul_emod_self_left, Int.emod_eq_of_lt hp0 hp1]
      have := ftm_row_to_f_chunk_eq h0 h1 hL ftm reality p
      rw [hsm] at this
      rw [← this]; congr 2; ring
    · -- south
      have e : ringStart nside t = ringStart nside (3 * nside)
          + ∑ s ∈ Finset.Ico 0 (t - 3 * nside), 4 * (((N : ℤ) - 1 - s) + 1) := by
        unfold ringStart
        rw [sum_Ico_consec (show (0 : ℤ) ≤ 3 * nside by omega) h']
        congr 1
        have := sum_Ico_shift 0 (t - 3 * nside) (3 * nside) (fun s => ringSize nside s)
        rw [zero_add, sub_add_cancel] at this
        rw [this]
        apply Finset.sum_congr rfl; intro s hs
        simp only [Finset.mem_Ico] at hs
        rw [ringSize_south (by omega) (by omega)]; omega
      have hss : ringSize nside t = 4 * (4 * nside - 1 - t) := ringSize_south (by omega) (by omega)
      rw [hss] at hp1
      have hS : 0 ≤ ∑ s ∈ Finset.Ico 0 (t - 3 * nside), 4 * (((N : ℤ) - 1 - s) + 1) :=
        Finset.sum_nonneg (fun s hs => by simp only [Finset.mem_Ico] at hs; omega)
      rw [e, hmid]
      rw [List.singleton_append]
      simp only [concatChunks]
      rw [if_neg (by linarith)]
      have key := concat_map_pyRange N (fun t => 4 * (((N : ℤ) - 1 - t) + 1))
        (fun u => ftm_row_to_f_chunk L reality (ftm (4 * nside - 1 - (((N : ℤ) - 1 - u) + 1)))
          (4 * (((N : ℤ) - 1 - u) + 1)))
        (fun t _ _ => by omega) (t - 3 * nside) p (by omega) (by omega) hp0 (by omega)
      have := ftm_row_to_f_chunk_eq h0 h1 hL ftm reality p
      rw [show 4 * nside - 1 - (((N : ℤ) - 1 - (t - 3 * nside)) + 1) = t by omega,
          show (4 * (((N : ℤ) - 1 - (t - 3 * nside)) + 1)) = 4 * (4 * nside - 1 - t) by omega]
        at key
      rw [← this, hss, ← key]
      congr 1
      ring

/-! ## Forward -/

/-- One row of the forward transform. -/
noncomputable def rowVal (nside L : ℤ) (reality : Bool) (f : ℤ → ℂ) (t k : ℤ) : ℂ :=
  if reality = true ∧ ringSize nside t = 2 * L then
    if k < L then 0 else ringAnal nside (fun i => ((f i).re : ℂ)) t (k - L)
  else ringAnal nside f t (k - L)

theorem healpix_fft_numpy_ok {L nside : ℤ} (hn : 1 ≤ nside) (hL : 2 * nside ≤ L)
    (f : ℤ → ℂ) (reality : Bool) :
    ∃ ftm, healpix_fft_numpy f L nside reality = .ok ftm ∧
      ∀ t k, 0 ≤ t → t < 4 * nside - 1 → 0 ≤ k → k < 2 * L →
        ftm t k = rowVal nside L reality f t k := by
  unfold healpix_fft_numpy
  have hsh : ftm_shape L sHP (some nside) = .ok (4 * nside - 1, 2 * L) := by
    have : lower sHP = sHP := by decide
    simp [ftm_shape, ntheta, this]
  obtain ⟨⟨idx, ftm⟩, h1, h2⟩ := forRangeM_ind (show (0 : ℤ) ≤ 4 * nside - 1 by omega)
    (fun t (st : ℤ × (ℤ → ℤ → ℂ)) => do
      let (index, ftm) := st
      let nphi ← nphi_ring t nside
      let chunk : ℤ → ℂ := fun p => f (index + p)
      let fm_chunk : ℤ → ℂ :=
        if reality = true ∧ nphi = 2 * L then
          fun k => if k < nphi / 2 then 0 else rfft nphi (fun p => (chunk p).re) (k - nphi / 2)
        else fftshift nphi (fft nphi chunk)
      let row ← extend_row fm_chunk nphi L
      pure (index + nphi, set1 ftm t row)) (0, fun _ _ => 0)
    (fun t st => st.1 = ringStart nside t ∧
      (∀ s k, 0 ≤ s → s < t → 0 ≤ k → k < 2 * L → st.2 s k = rowVal nside L reality f s k))
    ⟨by simp [ringStart], fun s k a b => by omega⟩
    (by
      rintro t ⟨index, ftm₁⟩ h0 h1 ⟨i1, i2⟩
      simp only at i1 i2
      subst i1
      have hpos := ringSize_pos h0 h1
      have hle := ringSize_le nside t
      have hrow : ∃ r, extend_row
            (if reality = true ∧ ringSize nside t = 2 * L then
              fun k => if k < ringSize nside t / 2 then 0 else
                rfft (ringSize nside t) (fun p => (f (ringStart nside t + p)).re)
                  (k - ringSize nside t / 2)
            else fftshift (ringSize nside t)
              (fft (ringSize nside t) (fun p => f (ringStart nside t + p))))
            (ringSize nside t) L = .ok r ∧
          (∀ k, 0 ≤ k → k < 2 * L → r k = rowVal nside L reality f t k) := by
        unfold extend_row
        by_cases h : ringSize nside t = 2 * L
        · rw [if_pos h]
          refine ⟨_, rfl, ?_⟩
          intro k hk0 hk1
          unfold rowVal
          by_cases hr : reality = true
          · have hc : reality = true ∧ ringSize nside t = 2 * L := ⟨hr, h⟩
            rw [if_pos hc, if_pos hc]
            have : ringSize nside t / 2 = L := by omega
            simp only [this]
            split_ifs with hkl
            · rfl
            · rw [← ringAnal_eq]; rfl
          · rw [if_neg (by tauto), if_neg (by tauto), fftshift_fft hpos, ← ringAnal_eq]
            congr 1; omega
        · rw [if_neg h, if_neg (by tauto)]
          obtain ⟨g, e1, e2⟩ := spectral_periodic_extension_ok hpos (by omega : _ ≤ 2 * L)
            (fftshift (ringSize nside t)
              (fft (ringSize nside t) (fun p => f (ringStart nside t + p))))
          refine ⟨g, e1, ?_⟩
          intro k hk0 hk1
          unfold rowVal
          rw [if_neg (by tauto), e2 k hk0 hk1, ext_fft hpos, ringAnal_eq]
      obtain ⟨r, e1, e2⟩ := hrow
      refine ⟨_, by simp only [nphi_ring_ok h0 h1]; simp only [bind, Except.bind] at e1 ⊢; rw [e1]; rfl, ?_⟩
      refine ⟨(ringStart_succ nside t h0).symm, ?_⟩
      intro s k hs0 hs1 hk0 hk1
      simp only [set1]
      rcases eq_or_ne s t with rfl | hst
      · rw [if_pos rfl]; exact e2 k hk0 hk1
      · rw [if_neg hst]; exact i2 s k hs0 (by omega) hk0 hk1)
  refine ⟨ftm, ?_, ?_⟩
  · rw [hsh]
    simp only [bind, Except.bind] at h1 ⊢
    rw [h1]; rfl
  · intro t k a b c d; exact h2.2 t k a b c d

theorem f_chunk_to_ftm_row_eq {L nside t : ℤ} (h0 : 0 ≤ t) (h1 : t < 4 * nside - 1)
    (hL : 2 * nside ≤ L) (f : ℤ → ℂ) (reality : Bool) {k : ℤ} (hk0 : 0 ≤ k) (hk1 : k < 2 * L) :
    f_chunk_to_ftm_row L reality (fun p => f (ringStart nside t + p)) (ringSize nside t) k
      = rowVal nside L reality f t k := by
  have hpos := ringSize_pos h0 h1
  have hle := ringSize_le nside t
  unfold f_chunk_to_ftm_row rowVal
  simp only
  rw [spectral_periodic_extension_jax_eq hpos (by omega) _ hk0 hk1]
  by_cases h : reality = true ∧ ringSize nside t = 2 * L
  · rw [if_pos h, if_pos h, h.2, show L - 2 * L / 2 = 0 by omega, sub_zero,
      Int.emod_eq_of_lt hk0 hk1, show 2 * L / 2 = L by omega]
    simp only [concatChunks]
    split_ifs with a b
    · rfl
    · rw [← ringAnal_eq, h.2]; rfl
    · omega
  · rw [if_neg h, if_neg h, ext_fft hpos, ringAnal_eq]

theorem healpix_fft_jax_ok {L nside : ℤ} (hn : 2 ≤ nside) (hL : 2 * nside ≤ L)
    (f : ℤ → ℂ) (reality : Bool) :
    ∃ ftm, healpix_fft_jax f L nside reality = .ok ftm ∧
      ∀ t k, 0 ≤ t → t < 4 * nside - 1 → 0 ≤ k → k < 2 * L →
        ftm t k = rowVal nside L reality f t k := by
  unfold healpix_fft_jax
  have l := forRange_ind (show (0 : ℤ) ≤ nside - 1 by omega)
    (fun t (st : ℤ × ℤ × (ℤ → (ℤ → ℂ) × (ℤ → ℂ))) =>
      let (s, e, polar) := st
      let nphi := 4 * (t + 1)
      (s + nphi, e - nphi, set1 polar t
        (f_chunk_to_ftm_row L reality (fun p => f (s + p)) nphi,
         f_chunk_to_ftm_row L reality (fun p => f (e - nphi + p)) nphi)))
    (0, 12 * nside ^ 2, fun _ => (fun _ => 0, fun _ => 0))
    (fun t st => st.1 = ringStart nside t ∧ st.2.1 = ringStart nside (4 * nside - 1 - t) ∧
      ∀ s k, 0 ≤ s → s < t → 0 ≤ k → k < 2 * L →
        (st.2.2 s).1 k = rowVal nside L reality f s k ∧
        (st.2.2 s).2 k = rowVal nside L reality f (4 * nside - 2 - s) k)
    ⟨by simp [ringStart], by simp [ringStart_total nside (by omega)], fun s k a b => by omega⟩
    (by
      rintro t ⟨s, e, polar⟩ h0 h1 ⟨i1, i2, i3⟩
      simp only at i1 i2 i3
      have hz : ringSize nside t = 4 * (t + 1) := ringSize_north (by omega) h0
      have hz2 : ringSize nside (4 * nside - 2 - t) = 4 * (t + 1) := by rw [ringSize_symm, hz]
      have hst := ringStart_succ nside (4 * nside - 2 - t) (by omega)
      rw [hz2, show 4 * nside - 2 - t + 1 = 4 * nside - 1 - t by ring] at hst
      have e2 : e - 4 * (t + 1) = ringStart nside (4 * nside - 2 - t) := by omega
      refine ⟨?_, ?_, ?_⟩
      · simp only; rw [ringStart_succ nside t h0, i1, hz]
      · simp only; rw [e2]; congr 1; ring
      · intro u k hu0 hu1 hk0 hk1
        simp only [set1]
        rcases eq_or_ne u t with rfl | hut
        · rw [if_pos rfl]
          simp only
          rw [e2, i1]
          refine ⟨?_, ?_⟩
          · rw [← hz]; exact f_chunk_to_ftm_row_eq h0 (by omega) hL f reality hk0 hk1
          · rw [← hz2]; exact f_chunk_to_ftm_row_eq (by omega) (by omega) hL f reality hk0 hk1
        · rw [if_neg hut]; exact i3 u k hu0 (by omega) hk0 hk1)
  generalize hst : forRange 0 (nside - 1)
    (fun t (st : ℤ × ℤ × (ℤ → (ℤ → ℂ) × (ℤ → ℂ))) =>
      let (s, e, polar) := st
      let nphi := 4 * (t + 1)
      (s + nphi, e - nphi, set1 polar t
        (f_chunk_to_ftm_row L reality (fun p => f (s + p)) nphi,
         f_chunk_to_ftm_row L reality (fun p => f (e - nphi + p)) nphi)))
    (0, 12 * nside ^ 2, fun _ => (fun _ => 0, fun _ => 0)) = st at l
  obtain ⟨s, e, polar⟩ := st
  obtain ⟨l1, l2, l3⟩ := l
  simp only at l1 l2 l3
  simp only
  rw [if_neg (by omega), if_neg (by omega)]
  refine ⟨_, rfl, ?_⟩
  intro t k h0 h1 hk0 hk1
  have hS : ∀ u, nside - 1 ≤ u → u ≤ 3 * nside → ringStart nside u
      = ringStart nside (nside - 1) + (u - (nside - 1)) * (4 * nside) := by
    intro u hu0 hu1
    unfold ringStart
    rw [sum_Ico_consec (show (0 : ℤ) ≤ nside - 1 by omega) hu0]
    congr 1
    rw [Finset.sum_congr rfl (fun s hs => by
      simp only [Finset.mem_Ico] at hs
      exact ringSize_mid (n := nside) (t := s) (by omega) (by omega))]
    simp
    omega
  have hneq : (e - s) / (4 * nside) = 2 * nside + 1 := by
    rw [l1, l2, show 4 * nside - 1 - (nside - 1) = 3 * nside by ring, hS (3 * nside) (by omega) le_rfl]
    rw [show ringStart nside (nside - 1) + (3 * nside - (nside - 1)) * (4 * nside)
      - ringStart nside (nside - 1) = (2 * nside + 1) * (4 * nside) by ring]
    exact Int.mul_ediv_cancel _ (by omega)
  rw [hneq]
  simp only [concatChunks]
  split_ifs with a b c
  · exact (l3 t k h0 a hk0 hk1).1
  · have hz : ringSize nside t = 4 * nside := ringSize_mid (by omega) (by omega)
    rw [← f_chunk_to_ftm_row_eq h0 h1 hL f reality hk0 hk1, hz]
    congr 1
    funext p
    rw [l1, hS t (by omega) (by omega)]
    congr 1; ring
  · have := (l3 (nside - 2 - (t - (nside - 1) - (2 * nside + 1))) k (by omega) (by omega) hk0 hk1).2
    rw [this]; congr 1; ring
  · omega

/-! ## Phases -/

theorem p2phi_rings_eq {t nside : ℤ} (hn : 1 ≤ nside) (h0 : 0 ≤ t) (h1 : t < 4 * nside - 1) :
    p2phi_rings t nside = p2phi_ring t 0 nside := by
  unfold p2phi_rings p2phi_ring
  simp only
  split_ifs <;> first | omega | (push_cast; ring)

/-- The azimuth of pixel `p` is that of the first pixel plus `p` steps. -/
theorem p2phi_ring_eq {t nside : ℤ} (h0 : 0 ≤ t) (h1 : t < 4 * nside - 1) (p : ℤ) :
    p2phi_ring t p nside
      = p2phi_ring t 0 nside + 2 * Real.pi * p / (ringSize nside t : ℝ) := by
  unfold p2phi_ring
  split_ifs with h2 h3
  · rw [ringSize_mid (by omega) (by omega)]
    have hn' : (nside : ℝ) ≠ 0 := by exact_mod_cast (by omega : nside ≠ 0)
    push_cast; field_simp; ring
  · rw [ringSize_south (by omega) (by omega)]
    have hn2 : (4 * (nside : ℝ) - 1 - t) ≠ 0 := by
      have : 4 * nside - 1 - t ≠ 0 := by omega
      exact_mod_cast this
    push_cast
    rw [show (4 * (nside : ℝ) - t - 1) = 4 * nside - 1 - t by ring]
    field_simp; ring
  · rw [ringSize_north (by omega) h0]
    have hn' : (t : ℝ) + 1 ≠ 0 := by
      have : t + 1 ≠ 0 := by omega
      exact_mod_cast this
    push_cast; field_simp; ring

end S2fft
