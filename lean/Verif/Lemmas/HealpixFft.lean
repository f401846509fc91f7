import Verif.Lemmas.Dft
import Verif.Lemmas.Healpix
import Verif.Model.HealpixFft
import Verif.Spec.Fourier

/-! # Folding, extension and ring transforms -/

namespace S2fft
open Spec

theorem add1_apply (a : ℤ → ℂ) (i : ℤ) (v : ℂ) (x : ℤ) :
    add1 a i v x = a x + if i = x then v else 0 := by
  unfold add1 set1
  split_ifs with h1 h2 h2
  · rw [h1]
  · exact absurd h1.symm h2
  · exact absurd h2.symm h1
  · simp

theorem add1_loop (lo hi : ℤ) (g : ℤ → ℤ) (v : ℤ → ℂ) (a : ℤ → ℂ) (x : ℤ) :
    forRange lo hi (fun i s => add1 s (g i) (v i)) a x
      = a x + ∑ i ∈ Finset.Ico lo hi, if g i = x then v i else 0 :=
  forRange_sum lo hi _ a (fun s => s x) _ (fun i s _ _ => add1_apply s (g i) (v i) x)

/-- The three parts of a row, folded, are the sum over a residue class. -/
theorem fold_parts {n L i : ℤ} (hn : 0 < n) (h2 : n ≤ 2 * L) (hi0 : 0 ≤ i) (hi1 : i < n)
    (fm : ℤ → ℂ) :
    fm (L - n / 2 + i)
      + (∑ k ∈ Finset.Ico 1 (L - n / 2 + 1), if (-k) % n = i then fm (L - n / 2 - k) else 0)
      + (∑ k ∈ Finset.Ico 0 (2 * L - (L - n / 2 + n)),
          if k % n = i then fm (L - n / 2 + n + k) else 0)
    = ∑ k ∈ (Finset.Ico 0 (2 * L)).filter (fun k => (k - (L - n / 2)) % n = i), fm k := by
  rw [Finset.sum_filter]
  set s := L - n / 2 with hs
  have hs0 : 0 ≤ s := by omega
  rw [sum_Ico_consec (show (0 : ℤ) ≤ s by omega) (show s ≤ 2 * L by omega),
    sum_Ico_consec (show s ≤ s + n by omega) (show s + n ≤ 2 * L by omega)]
  have e1 : ∑ k ∈ Finset.Ico 0 s, (if (k - s) % n = i then fm k else 0)
      = ∑ k ∈ Finset.Ico 1 (s + 1), if (-k) % n = i then fm (s - k) else 0 := by
    have := sum_Ico_reflect' 1 (s + 1) s (fun k => if (k - s) % n = i then fm k else 0)
    rw [show s - (s + 1) + 1 = 0 by ring, show s - 1 + 1 = s by ring] at this
    rw [← this]
    apply Finset.sum_congr rfl; intro k _
    rw [show s - k - s = -k by ring]
  have e2 : ∑ k ∈ Finset.Ico s (s + n), (if (k - s) % n = i then fm k else 0) = fm (s + i) := by
    rw [Finset.sum_eq_single (s + i)]
    · rw [if_pos]; rw [add_sub_cancel_left, Int.emod_eq_of_lt hi0 hi1]
    · intro k hk hne
      simp only [Finset.mem_Ico] at hk
      rw [if_neg]; rw [Int.emod_eq_of_lt (by omega) (by omega)]; omega
    · intro h; exfalso; apply h; simp; omega
  have e3 : ∑ k ∈ Finset.Ico (s + n) (2 * L), (if (k - s) % n = i then fm k else 0)
      = ∑ k ∈ Finset.Ico 0 (2 * L - (s + n)), if k % n = i then fm (s + n + k) else 0 := by
    have := sum_Ico_shift 0 (2 * L - (s + n)) (s + n)
      (fun k => if (k - s) % n = i then fm k else 0)
    rw [zero_add, sub_add_cancel] at this
    rw [this]
    apply Finset.sum_congr rfl; intro k _
    rw [show k + (s + n) - s = k + n by ring, Int.add_emod_right, add_comm k]
  rw [e1, e2, e3]; ring

/-- The residue-class sums of a row of length `2L`. -/
noncomputable def foldSum (fm : ℤ → ℂ) (n L i : ℤ) : ℂ :=
  ∑ k ∈ (Finset.Ico 0 (2 * L)).filter (fun k => (k - (L - n / 2)) % n = i), fm k

theorem spectral_folding_ok {n L : ℤ} (hn : 0 < n) (h2 : n ≤ 2 * L) (fm : ℤ → ℂ) :
    ∃ s r, spectral_folding fm n L = .ok (s, r) ∧
      (∀ i, 0 ≤ i → i < n → s i = foldSum fm n L i) ∧
      (∀ i, r i = if L - n / 2 ≤ i ∧ i < L - n / 2 + n then foldSum fm n L (i - (L - n / 2))
        else fm i) := by
  have key : ∃ s r, spectral_folding fm n L = .ok (s, r) ∧ (∀ i, s i = r (L - n / 2 + i)) ∧
      (∀ i, 0 ≤ i → i < n → r (L - n / 2 + i) = foldSum fm n L i) ∧
      (∀ x, (x < L - n / 2 ∨ L - n / 2 + n ≤ x) → r x = fm x) := by
    unfold spectral_folding
    rw [if_neg (by omega)]
    refine ⟨_, _, rfl, fun i => rfl, ?_⟩
    set s := L - n / 2 with hs
    have l1 := forRange_ind (show (1 : ℤ) ≤ s + 1 by omega)
      (fun idx fm => add1 fm (s + (-idx) % n) (fm (s - idx))) fm
      (fun j g => (∀ x, (x < s ∨ s + n ≤ x) → g x = fm x) ∧
        ∀ i, 0 ≤ i → i < n → g (s + i)
          = fm (s + i) + ∑ k ∈ Finset.Ico 1 j, if (-k) % n = i then fm (s - k) else 0)
      ⟨fun _ _ => rfl, fun i _ _ => by simp⟩
      (by
        rintro j g h1 h2 ⟨g1, g2⟩
        have a0 := Int.emod_nonneg (-j) hn.ne'
        have a1 := Int.emod_lt_of_pos (-j) hn
        refine ⟨?_, ?_⟩
        · intro x hx
          simp only [add1_apply]
          rw [if_neg (by omega), add_zero, g1 x hx]
        · intro i hi0 hi1
          simp only [add1_apply]
          rw [g2 i hi0 hi1, sum_Ico_succ_top' h1, g1 (s - j) (by omega), ← add_assoc]
          congr 1
          by_cases h : (-j) % n = i
          · rw [if_pos h, if_pos (by omega)]
          · rw [if_neg h, if_neg (by omega)])
    set g := forRange 1 (s + 1) (fun idx fm => add1 fm (s + (-idx) % n) (fm (s - idx))) fm
    have l2 := forRange_ind (show (0 : ℤ) ≤ 2 * L - (s + n) by omega)
      (fun idx fm => add1 fm (s + idx % n) (fm (s + n + idx))) g
      (fun j r => (∀ x, (x < s ∨ s + n ≤ x) → r x = fm x) ∧
        ∀ i, 0 ≤ i → i < n → r (s + i)
          = g (s + i) + ∑ k ∈ Finset.Ico 0 j, if k % n = i then fm (s + n + k) else 0)
      ⟨l1.1, fun i _ _ => by simp⟩
      (by
        rintro j r h1 h2 ⟨g1, g2⟩
        have a0 := Int.emod_nonneg j hn.ne'
        have a1 := Int.emod_lt_of_pos j hn
        refine ⟨?_, ?_⟩
        · intro x hx
          simp only [add1_apply]
          rw [if_neg (by omega), add_zero, g1 x hx]
        · intro i hi0 hi1
          simp only [add1_apply]
          rw [g2 i hi0 hi1, sum_Ico_succ_top' h1, g1 (s + n + j) (by omega), ← add_assoc]
          congr 1
          by_cases h : j % n = i
          · rw [if_pos h, if_pos (by omega)]
          · rw [if_neg h, if_neg (by omega)])
    refine ⟨?_, l2.1⟩
    intro i hi0 hi1
    rw [l2.2 i hi0 hi1, l1.2 i hi0 hi1]
    unfold foldSum
    rw [← fold_parts hn h2 hi0 hi1]
  obtain ⟨s, r, h1, h3, h4, h5⟩ := key
  refine ⟨s, r, h1, fun i a b => by rw [h3, h4 i a b], ?_⟩
  intro i
  split_ifs with h
  · have := h4 (i - (L - n / 2)) (by omega) (by omega)
    rw [add_sub_cancel] at this; exact this
  · exact h5 i (by omega)

theorem spectral_folding_jax_eq {n L : ℤ} (hn : 0 < n) (heven : n % 2 = 0) (h2 : n ≤ 2 * L)
    (fm : ℤ → ℂ) {i : ℤ} (hi0 : 0 ≤ i) (hi1 : i < n) :
    spectral_folding_jax fm n L i = foldSum fm n L i := by
  unfold spectral_folding_jax foldSum
  simp only
  rw [add1_loop, add1_loop, ← fold_parts hn h2 hi0 hi1]
  congr 1
  · congr 1
    apply Finset.sum_congr rfl; intro k hk
    simp only [Finset.mem_Ico] at hk
    rw [min_eq_left (by omega)]
  · rw [show 2 * L - (L - n / 2 + n) = L - n / 2 by omega]
    apply Finset.sum_congr rfl; intro k hk
    simp only [Finset.mem_Ico] at hk
    rw [min_eq_left (by omega)]

theorem foldSum_self {L : ℤ} (fm : ℤ → ℂ) {i : ℤ} (h0 : 0 ≤ i) (h1 : i < 2 * L) :
    foldSum fm (2 * L) L i = fm i := by
  unfold foldSum
  rw [show L - 2 * L / 2 = 0 by omega, Finset.sum_eq_single i]
  · intro k hk hne
    simp only [Finset.mem_filter, Finset.mem_Ico] at hk
    rw [sub_zero, Int.emod_eq_of_lt hk.1.1 hk.1.2] at hk
    exact absurd hk.2 hne
  · intro h; exfalso; apply h
    simp only [Finset.mem_filter, Finset.mem_Ico]
    exact ⟨⟨h0, h1⟩, by rw [sub_zero, Int.emod_eq_of_lt h0 h1]⟩

/-- The folded row, un-shifted and transformed, is the Fourier series of the whole row. -/
theorem ifft_foldSum {n L : ℤ} (hn : 0 < n) (fm s : ℤ → ℂ) (p : ℤ)
    (hs : ∀ i, 0 ≤ i → i < n → s i = foldSum fm n L i) :
    ifft_fwd n (ifftshift n s) p
      = ∑ m ∈ Finset.Ico (-L) L, fm (L + m) * cis (2 * Real.pi * m * p / n) := by
  rw [ifft_fwd_ifftshift hn]
  have e : ∀ i ∈ Finset.Ico 0 n, s i * tw n ((i - n / 2) * p)
      = (∑ k ∈ (Finset.Ico 0 (2 * L)).filter (fun k => (k - (L - n / 2)) % n = i), fm k)
        * tw n ((i - n / 2) * p) := by
    intro i hi
    simp only [Finset.mem_Ico] at hi
    rw [hs i hi.1 hi.2]; rfl
  rw [Finset.sum_congr rfl e, sum_fold hn (2 * L) (L - n / 2) fm (fun i => tw n ((i - n / 2) * p))]
  · have := sum_Ico_shift (-L) L L (fun k => fm k * tw n ((k - (L - n / 2) - n / 2) * p))
    rw [show -L + L = 0 by ring, show L + L = 2 * L by ring] at this
    rw [this]
    apply Finset.sum_congr rfl; intro m _
    rw [add_comm m L]
    congr 1
    rw [show ((L + m - (L - n / 2) - n / 2 : ℤ)) = m by ring]
    unfold tw; congr 1; push_cast
    ring
  · intro a b hab
    apply tw_congr hn.ne'
    obtain ⟨q, hq⟩ := hab
    exact ⟨q * p, by linear_combination p * hq⟩

theorem spectral_periodic_extension_ok {n L : ℤ} (hn : 0 < n) (h2 : n ≤ 2 * L) (fm : ℤ → ℂ) :
    ∃ g, spectral_periodic_extension fm n L = .ok g ∧
      ∀ k, 0 ≤ k → k < 2 * L → g k = fm ((k - (L - n / 2)) % n) := by
  unfold spectral_periodic_extension
  rw [if_neg (by omega)]
  refine ⟨_, rfl, ?_⟩
  intro k h0 h1
  set s := L - n / 2 with hs
  rcases lt_or_ge k (s + n) with h | h
  · refine (forRange_frame _ _ _ _ (fun g : ℤ → ℂ => g k) ?_).trans ?_
    rotate_left
    · rcases lt_or_ge k s with h' | h'
      · apply forRange_write (get := fun g : ℤ → ℂ => g k) (k := s - k)
          (h1 := by omega) (h2 := by omega)
        · intro g; simp only [set1]; rw [if_pos (by omega)]; congr 2; ring
        · intro i g _ _ hne; simp only [set1]; rw [if_neg (by omega)]
      · refine (forRange_frame _ _ _ _ (fun g : ℤ → ℂ => g k) ?_).trans ?_
        rotate_left
        · rw [if_pos ⟨h', h⟩, Int.emod_eq_of_lt (by omega) (by omega)]
        · intro i g _ _; simp only [set1]; rw [if_neg (by omega)]
    · intro i g _ _; simp only [set1]; rw [if_neg (by omega)]
  · apply forRange_write (get := fun g : ℤ → ℂ => g k) (k := k - (s + n))
      (h1 := by omega) (h2 := by omega)
    · intro g; simp only [set1]; rw [if_pos (by omega)]
      congr 1
      rw [show k - (s + n) = k - s - n by ring, Int.sub_emod_right]
    · intro i g _ _ hne; simp only [set1]; rw [if_neg (by omega)]

theorem spectral_periodic_extension_jax_eq {n L : ℤ} (hn : 0 < n) (h2 : n ≤ 2 * L) (fm : ℤ → ℂ)
    {k : ℤ} (h0 : 0 ≤ k) (h1 : k < 2 * L) :
    spectral_periodic_extension_jax n fm L k = fm ((k - (L - n / 2)) % n) := by
  unfold spectral_periodic_extension_jax
  simp only [concatChunks]
  split_ifs with a b c
  · congr 2; ring
  · rw [Int.emod_eq_of_lt (by omega) (by omega)]
  · rw [Int.sub_emod_right]
  · omega

/-- Spectrum entries after centring and periodic extension. -/
theorem ext_fft {n L : ℤ} (hn : 0 < n) (x : ℤ → ℂ) (k : ℤ) :
    fftshift n (fft n x) ((k - (L - n / 2)) % n) = fft n x (k - L) := by
  rw [fftshift_fft hn, ← fft_periodic hn.ne' x (k - L), ← fft_periodic hn.ne' x (_ - _)]
  congr 1
  rw [Int.emod_sub_emod]
  congr 1; ring

theorem ringSize_pos {n t : ℤ} (h0 : 0 ≤ t) (h1 : t < 4 * n - 1) : 0 < ringSize n t := by
  unfold ringSize
  have := lt_min (show 0 < t + 1 by omega)
    (lt_min (show 0 < n by omega) (show 0 < 4 * n - 1 - t by omega))
  omega

theorem ringSize_even (n t : ℤ) : ringSize n t % 2 = 0 := by
  unfold ringSize; omega

theorem ringSize_le (n t : ℤ) : ringSize n t ≤ 4 * n := by
  unfold ringSize
  have := min_le_left n (4 * n - 1 - t)
  have := min_le_right (t + 1) (min n (4 * n - 1 - t))
  omega

theorem ringAnal_eq (nside : ℤ) (f : ℤ → ℂ) (t m : ℤ) :
    fft (ringSize nside t) (fun p => f (ringStart nside t + p)) m = ringAnal nside f t m := by
  unfold fft ringAnal
  apply Finset.sum_congr rfl; intro p _; congr 3; ring

theorem ringStart_mono {n s t : ℤ} (h0 : 0 ≤ s) (h1 : s ≤ t) (h2 : t ≤ 4 * n - 1) :
    ringStart n s ≤ ringStart n t := by
  unfold ringStart
  rw [sum_Ico_consec h0 h1]
  have : 0 ≤ ∑ j ∈ Finset.Ico s t, ringSize n j :=
    Finset.sum_nonneg (fun j hj => by
      simp only [Finset.mem_Ico] at hj
      exact (ringSize_pos (by omega) (by omega)).le)
  omega

end S2fft
