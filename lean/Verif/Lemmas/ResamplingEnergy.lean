import Verif.Lemmas.Linear
import Mathlib.Analysis.MeanInequalities
/-! # The energy of a resampled signal

The sum of squares of the samples handed to the quadrature is at most a constant times that of the
samples given. -/
namespace S2fft
open Spec

/-- Sum of squares of a vector. -/
noncomputable def energy (n : ℤ) (x : ℤ → ℂ) : ℝ := ∑ j ∈ Finset.Ico 0 n, ‖x j‖ ^ 2

theorem energy_nonneg (n : ℤ) (x : ℤ → ℂ) : 0 ≤ energy n x :=
  Finset.sum_nonneg fun _ _ => by positivity

theorem energy_congr {n : ℤ} {x y : ℤ → ℂ} (h : ∀ j, 0 ≤ j → j < n → ‖x j‖ = ‖y j‖) :
    energy n x = energy n y :=
  Finset.sum_congr rfl fun j hj => by
    rw [Finset.mem_Ico] at hj; rw [h j hj.1 hj.2]

theorem energy_mono {n k : ℤ} (h : n ≤ k) (x : ℤ → ℂ) : energy n x ≤ energy k x :=
  Finset.sum_le_sum_of_subset_of_nonneg (Finset.Ico_subset_Ico_right h) fun _ _ _ => by positivity

/-- Parseval. -/
theorem energy_fft {n : ℤ} (hn : 0 < n) (x : ℤ → ℂ) : energy n (fft n x) = n * energy n x := by
  have hn' : (n : ℂ) ≠ 0 := by exact_mod_cast hn.ne'
  have h : ((energy n (fft n x) : ℝ) : ℂ) = ((n * energy n x : ℝ) : ℂ) := by
    unfold energy
    push_cast
    have e1 : ∀ z : ℂ, ((‖z‖ : ℝ) : ℂ) ^ 2 = (starRingEnd ℂ) z * z := fun z => by
      rw [mul_comm, Complex.mul_conj, Complex.normSq_eq_norm_sq]; push_cast; rfl
    simp only [e1]
    rw [Finset.mul_sum]
    have e2 : ∀ k, (starRingEnd ℂ) (fft n x k) * fft n x k
        = ∑ j ∈ Finset.Ico 0 n, (starRingEnd ℂ) (x j) * (fft n x k * tw n (k * j)) := by
      intro k
      conv_lhs => rw [fft_eq n x k, map_sum]
      rw [← fft_eq n x k, Finset.sum_mul]
      refine Finset.sum_congr rfl fun j _ => ?_
      rw [map_mul, conj_tw, neg_neg, mul_comm j k]
      ring
    simp only [e2]
    rw [Finset.sum_comm]
    refine Finset.sum_congr rfl fun j hj => ?_
    rw [Finset.mem_Ico] at hj
    rw [← Finset.mul_sum, ← ifft_fwd_eq]
    have := ifft_fft hn x hj.1 hj.2
    unfold ifft at this
    rw [div_eq_iff hn'] at this
    rw [this]; ring
  exact_mod_cast h

theorem energy_fft_fwd {n : ℤ} (hn : 0 < n) (x : ℤ → ℂ) :
    energy n (fft_fwd n x) = energy n x / n := by
  have hn' : (0 : ℝ) < n := by exact_mod_cast hn
  have : energy n (fft_fwd n x) = energy n (fft n x) / n ^ 2 := by
    unfold energy fft_fwd
    rw [Finset.sum_div]
    refine Finset.sum_congr rfl fun j _ => ?_
    rw [norm_div, div_pow, Complex.norm_intCast, sq_abs]
  rw [this, energy_fft hn]
  field_simp

theorem energy_ifft {n : ℤ} (hn : 0 < n) (x : ℤ → ℂ) : energy n (ifft n x) = energy n x / n := by
  have hn' : (0 : ℝ) < n := by exact_mod_cast hn
  have h := energy_fft hn (ifft n x)
  rw [energy_congr (y := x) (fun k h0 h1 => by rw [fft_ifft hn x h0 h1])] at h
  rw [h]; field_simp

theorem energy_ifft_fwd {n : ℤ} (hn : 0 < n) (x : ℤ → ℂ) :
    energy n (ifft_fwd n x) = n * energy n x := by
  have hn' : (0 : ℝ) < n := by exact_mod_cast hn
  have : energy n (ifft n x) = energy n (ifft_fwd n x) / n ^ 2 := by
    unfold energy ifft
    rw [Finset.sum_div]
    refine Finset.sum_congr rfl fun j _ => ?_
    rw [norm_div, div_pow, Complex.norm_intCast, sq_abs]
  rw [energy_ifft hn] at this
  field_simp at this
  linarith

theorem energy_ifftshift {n : ℤ} (hn : 0 < n) (x : ℤ → ℂ) :
    energy n (ifftshift n x) = energy n x := by
  unfold energy
  exact sum_Ico_emod hn (n / 2) (fun i => ‖x i‖ ^ 2)

theorem energy_fftshift {n : ℤ} (hn : 0 < n) (x : ℤ → ℂ) :
    energy n (fftshift n x) = energy n x := by
  unfold energy
  exact sum_Ico_emod hn (-(n / 2)) (fun i => ‖x i‖ ^ 2)

/-- Zero padding. -/
theorem energy_pad {n k a : ℤ} (ha : 0 ≤ a) (h : n + a ≤ k) (x : ℤ → ℂ) :
    energy k (fun j => if a ≤ j ∧ j < n + a then x (j - a) else 0) = energy n x := by
  unfold energy
  rw [← Finset.sum_subset (Finset.Ico_subset_Ico ha h : Finset.Ico a (n + a) ⊆ Finset.Ico 0 k)]
  · have := Finset.sum_Ico_add' (fun j => ‖(if a ≤ j ∧ j < n + a then x (j - a) else 0)‖ ^ 2) 0 n a
    rw [zero_add] at this
    rw [← this]
    refine Finset.sum_congr rfl fun j hj => ?_
    rw [Finset.mem_Ico] at hj
    rw [if_pos (by omega), add_sub_cancel_right]
  · intro j _ hj
    rw [Finset.mem_Ico] at hj
    beta_reduce
    rw [if_neg hj]; simp

/-- Sum of squares of an array. -/
noncomputable def energy2 (r c : ℤ) (f : ℤ → ℤ → ℂ) : ℝ := ∑ t ∈ Finset.Ico 0 r, energy c (f t)

theorem energy2_nonneg (r c : ℤ) (f : ℤ → ℤ → ℂ) : 0 ≤ energy2 r c f :=
  Finset.sum_nonneg fun _ _ => energy_nonneg _ _

theorem energy2_comm (r c : ℤ) (f : ℤ → ℤ → ℂ) :
    energy2 r c f = energy2 c r (fun p t => f t p) := by
  unfold energy2 energy
  exact Finset.sum_comm

theorem energy2_mono {r r' : ℤ} (h : r ≤ r') (c : ℤ) (f : ℤ → ℤ → ℂ) :
    energy2 r c f ≤ energy2 r' c f :=
  Finset.sum_le_sum_of_subset_of_nonneg (Finset.Ico_subset_Ico_right h)
    fun _ _ _ => energy_nonneg _ _

theorem energy2_le {r c r' c' : ℤ} {f g : ℤ → ℤ → ℂ} {k : ℝ} (hr : r = r')
    (h : ∀ t, 0 ≤ t → t < r → energy c (f t) ≤ k * energy c' (g t)) :
    energy2 r c f ≤ k * energy2 r' c' g := by
  subst hr
  unfold energy2
  rw [Finset.mul_sum]
  refine Finset.sum_le_sum fun t ht => ?_
  rw [Finset.mem_Ico] at ht
  exact h t ht.1 ht.2

/-- Rows doubled by reflection. -/
theorem energy2_reflect {n c k : ℤ} (hn : 0 ≤ n) (hk : 0 ≤ k) (hkn : k ≤ n) {f g : ℤ → ℤ → ℂ}
    (h1 : ∀ t, 0 ≤ t → t < n → energy c (f t) = energy c (g t)) (a : ℤ) (ha : k ≤ a + 1)
    (han : a < n)
    (h2 : ∀ t, n ≤ t → t < n + k → energy c (f t) = energy c (g (a - (t - n)))) :
    energy2 (n + k) c f ≤ 2 * energy2 n c g := by
  unfold energy2
  rw [← Finset.Ico_union_Ico_eq_Ico hn (by omega : n ≤ n + k),
    Finset.sum_union (Finset.Ico_disjoint_Ico_consecutive _ _ _), two_mul]
  refine add_le_add (le_of_eq (Finset.sum_congr rfl fun t ht => ?_)) ?_
  · rw [Finset.mem_Ico] at ht; exact h1 t ht.1 ht.2
  · have : ∑ t ∈ Finset.Ico n (n + k), energy c (f t)
        = ∑ t ∈ Finset.Ico (a + 1 - k) (a + 1), energy c (g t) := by
      refine Finset.sum_nbij' (fun t => a - (t - n)) (fun t => a - t + n) ?_ ?_ ?_ ?_ ?_
      · intro t ht; rw [Finset.mem_Ico] at ht ⊢; omega
      · intro t ht; rw [Finset.mem_Ico] at ht ⊢; omega
      · intro t _; ring
      · intro t _; ring
      · intro t ht; rw [Finset.mem_Ico] at ht; exact h2 t ht.1 ht.2
    rw [this]
    exact Finset.sum_le_sum_of_subset_of_nonneg (Finset.Ico_subset_Ico (by omega) (by omega))
      fun _ _ _ => energy_nonneg _ _

/-- The step from `n` to `n'` points: spectrum, zero padding, inverse transform. -/
theorem energy_interp {n n' a : ℤ} (hn : 0 < n) (ha : 0 ≤ a) (h : n + a ≤ n') (x y : ℤ → ℂ)
    (hy : ∀ j, 0 ≤ j → j < n' → ‖y j‖
      = ‖(if a ≤ j ∧ j < n + a then fftshift n (fft_fwd n x) (j - a) else 0 : ℂ)‖) :
    energy n' (ifft_fwd n' (ifftshift n' y)) = n' / n * energy n x := by
  have hn' : 0 < n' := by omega
  rw [energy_ifft_fwd hn', energy_ifftshift hn', energy_congr hy, energy_pad ha h,
    energy_fftshift hn, energy_fft_fwd hn]
  ring

theorem upsample_energy {L : ℤ} (hL : 1 ≤ L) (f : ℤ → ℤ → ℂ) (spin : ℤ) :
    energy2 (2 * L + 1) (2 * L) (upsampleValues (fun _ => f) L (fun _ => spin) 0)
      ≤ 4 * energy2 (L + 1) (2 * L) f := by
  set e := periodic_extension_spatial_mwss (fun _ => f) L (fun _ => spin) 0 with he
  have hLr : (1 : ℝ) ≤ L := by exact_mod_cast hL
  have h1 : energy2 (2 * L) (2 * L) e ≤ 2 * energy2 (L + 1) (2 * L) f := by
    have := energy2_reflect (n := L + 1) (c := 2 * L) (k := L - 1) (f := e) (g := f) (by omega)
      (by omega) (by omega) (fun t t0 t1 => by
        refine energy_congr fun j _ _ => ?_
        rw [he]; unfold periodic_extension_spatial_mwss
        rw [if_pos t1]) (L - 1) (by omega) (by omega) (fun t t0 t1 => by
        rw [← energy_fftshift (by omega) (f _)]
        refine energy_congr fun j _ _ => ?_
        rw [he]; unfold periodic_extension_spatial_mwss
        rw [if_neg (by omega), norm_mul, norm_pow, norm_neg, norm_one, one_pow, one_mul])
    rwa [show L + 1 + (L - 1) = 2 * L by ring] at this
  have h2 : energy2 (4 * L) (2 * L) (upsampleValues (fun _ => f) L (fun _ => spin) 0)
      ≤ 2 * energy2 (2 * L) (2 * L) e := by
    rw [energy2_comm, energy2_comm (2 * L) (2 * L) e]
    refine energy2_le rfl fun p _ _ => ?_
    have := energy_interp (n := 2 * L) (n' := 2 * (2 * L)) (a := L) (by omega) (by omega) (by omega)
      (fun t => e t p) (fun t => if L ≤ t ∧ t < 2 * L + L then
        fftshift (2 * L) (fft_fwd (2 * L) (fun t => e t p)) (t - L) else 0) (fun _ _ _ => rfl)
    rw [show (2 : ℝ) = ((2 * (2 * L) : ℤ) : ℝ) / ((2 * L : ℤ) : ℝ) by push_cast; field_simp, ← this,
      show 4 * L = 2 * (2 * L) by ring]
    rfl
  have h3 := energy2_mono (r := 2 * L + 1) (r' := 4 * L) (by omega) (2 * L)
    (upsampleValues (fun _ => f) L (fun _ => spin) 0)
  linarith

theorem mwss_energy {L : ℤ} (hL : 1 ≤ L) (f : ℤ → ℤ → ℂ) (spin : ℤ) :
    energy2 (L + 1) (2 * L) (mwssValues (fun _ => f) L (fun _ => spin) 0)
      ≤ 8 * energy2 L (2 * L - 1) f := by
  set e : ℤ → ℤ → ℂ := fun t => ifft (2 * L - 1) (ifftshift (2 * L - 1)
      (extensionRows L L (2 * L - 1) 0 (fun _ => f) (fun _ => spin) 0 t)) with he
  have hLr : (1 : ℝ) ≤ L := by exact_mod_cast hL
  have hn : 0 < 2 * L - 1 := by omega
  have hnr : (0 : ℝ) < ((2 * L - 1 : ℤ) : ℝ) := by exact_mod_cast hn
  have hratio : ((2 * L : ℤ) : ℝ) / ((2 * L - 1 : ℤ) : ℝ) ≤ 2 := by
    rw [div_le_iff₀ hnr]; push_cast; linarith
  have row : ∀ t u, 0 ≤ u → u < L → (∀ j, 0 ≤ j → j < 2 * L - 1 →
      ‖extensionRows L L (2 * L - 1) 0 (fun _ => f) (fun _ => spin) 0 t j‖
        = ‖fftshift (2 * L - 1) (fft (2 * L - 1) (f u)) j‖) →
      energy (2 * L - 1) (e t) = energy (2 * L - 1) (f u) := by
    intro t u _ _ h
    rw [he]
    beta_reduce
    rw [energy_ifft hn, energy_ifftshift hn, energy_congr h, energy_fftshift hn, energy_fft hn]
    field_simp
  have h1 : energy2 (2 * L - 1) (2 * L - 1) e ≤ 2 * energy2 L (2 * L - 1) f := by
    have := energy2_reflect (n := L) (c := 2 * L - 1) (k := L - 1) (f := e) (g := f) (by omega)
      (by omega) (by omega) (fun t t0 t1 => row t t t0 t1 (fun j j0 j1 => by
        unfold extensionRows
        simp only [add_zero]
        rw [if_neg (by omega), if_neg (by omega), if_neg (by omega)]
        simp only [t1, if_true])) (L - 2) (by omega) (by omega) (fun t t0 t1 =>
        row t _ (by omega) (by omega) (fun j j0 j1 => by
        unfold extensionRows
        simp only [add_zero]
        rw [if_pos (by omega), if_pos (by omega), if_pos (by omega), norm_mul, norm_mul, norm_pow,
          norm_pow, norm_neg, norm_one, one_pow, one_pow, mul_one, mul_one]
        simp only [show L - 1 - 1 - (t - L) < L by omega, if_true]
        rw [show L - 2 - (t - L) = L - 1 - 1 - (t - L) by ring]))
    rwa [show L + (L - 1) = 2 * L - 1 by ring] at this
  set g : ℤ → ℤ → ℂ := fun t p => ifft_fwd (2 * L) (ifftshift (2 * L)
    (mwssThetaRows (fun _ => e) L 0 p)) t with hg
  have h2 : energy2 (2 * L) (2 * L - 1) g ≤ 2 * energy2 (2 * L - 1) (2 * L - 1) e := by
    rw [energy2_comm, energy2_comm (2 * L - 1) (2 * L - 1) e]
    refine energy2_le rfl fun p _ _ => ?_
    have := energy_interp (n := 2 * L - 1) (n' := 2 * L) (a := 1) hn (by omega) (by omega)
      (fun t => e t p) (mwssThetaRows (fun _ => e) L 0 p) (fun j j0 j1 => by
        unfold mwssThetaRows
        by_cases hj : 1 ≤ j
        · rw [if_pos hj]
          beta_reduce
          rw [if_pos hj, if_pos ⟨hj, by omega⟩, norm_mul]
          unfold cis
          rw [Complex.norm_exp_ofReal_mul_I, mul_one]
        · rw [if_neg hj]
          beta_reduce
          rw [if_neg hj, if_neg (fun h => hj h.1)])
    rw [hg]
    beta_reduce
    rw [this]
    exact mul_le_mul_of_nonneg_right hratio (energy_nonneg _ _)
  have h3 : energy2 (L + 1) (2 * L) (mwssValues (fun _ => f) L (fun _ => spin) 0)
      ≤ 2 * energy2 (L + 1) (2 * L - 1) g := by
    refine energy2_le rfl fun t _ _ => ?_
    have := energy_interp (n := 2 * L - 1) (n' := 2 * L) (a := 1) hn (by omega) (by omega)
      (g t) (fun j => if 1 ≤ j then fftshift (2 * L - 1) (fft_fwd (2 * L - 1) (g t)) (j - 1) else 0)
      (fun j j0 j1 => by
        by_cases hj : 1 ≤ j
        · rw [if_pos hj, if_pos ⟨hj, by omega⟩]
        · rw [if_neg hj, if_neg (fun h => hj h.1)])
    refine le_trans (le_of_eq ?_) (le_trans (le_of_eq this)
      (mul_le_mul_of_nonneg_right hratio (energy_nonneg _ _)))
    rfl
  have h4 := energy2_mono (r := L + 1) (r' := 2 * L) (by omega) (2 * L - 1) g
  linarith

/-- A bound for samples gives one for the energy. -/
theorem energy2_le_of_bound {r c : ℤ} (hr : 0 ≤ r) (hc : 0 ≤ c) {f : ℤ → ℤ → ℂ} {M : ℝ}
    (h : ∀ t p, 0 ≤ t → t < r → 0 ≤ p → p < c → ‖f t p‖ ≤ M) :
    energy2 r c f ≤ r * c * M ^ 2 := by
  unfold energy2 energy
  have h1 : ∀ t ∈ Finset.Ico 0 r, ∑ p ∈ Finset.Ico 0 c, ‖f t p‖ ^ 2 ≤ c * M ^ 2 := by
    intro t ht
    rw [Finset.mem_Ico] at ht
    refine le_trans (Finset.sum_le_card_nsmul _ _ (M ^ 2) fun p hp => ?_) ?_
    · rw [Finset.mem_Ico] at hp
      exact pow_le_pow_left₀ (norm_nonneg _) (h t p ht.1 ht.2 hp.1 hp.2) 2
    · rw [Int.card_Ico, nsmul_eq_mul, sub_zero]
      have : ((c.toNat : ℕ) : ℝ) = c := by
        exact_mod_cast congrArg (Int.cast : ℤ → ℝ) (Int.toNat_of_nonneg hc)
      rw [this]
  refine le_trans (Finset.sum_le_card_nsmul _ _ _ h1) ?_
  rw [Int.card_Ico, nsmul_eq_mul, sub_zero]
  have : ((r.toNat : ℕ) : ℝ) = r := by
    exact_mod_cast congrArg (Int.cast : ℤ → ℝ) (Int.toNat_of_nonneg hr)
  rw [this, mul_assoc]

/-- The samples handed to the quadrature. -/
theorem innerSignal_energy {σ : Scheme} (hσ : σ.Resampled) {L : ℤ} (hL : 1 ≤ L) (spin nside : ℤ)
    {f : ℤ → ℤ → ℂ} {M : ℝ} (h : ∀ t p, σ.Has L nside t p → ‖f t p‖ ≤ M) :
    energy2 (2 * L + 1) (2 * L) (innerSignal σ L spin f) ≤ 64 * L ^ 2 * M ^ 2 := by
  have hLr : (1 : ℝ) ≤ L := by exact_mod_cast hL
  have hM := sq_nonneg M
  rcases hσ with rfl | rfl
  · have h1 := energy2_le_of_bound (r := L) (c := 2 * L - 1) (by omega) (by omega) (f := f) (M := M)
      (fun t p a b c d => h t p ⟨a, b, c, d⟩)
    have h2 := mwss_energy hL f spin
    have h3 := upsample_energy hL (mwssValues (fun _ => f) L (fun _ => spin) 0) spin
    have h4 : energy2 (2 * L + 1) (2 * L) (innerSignal .mw L spin f)
        ≤ 32 * (L * ((2 * L - 1 : ℤ) : ℝ) * M ^ 2) := by
      simp only [innerSignal]; linarith
    refine h4.trans ?_
    push_cast
    nlinarith [mul_nonneg (by linarith : (0 : ℝ) ≤ L) hM]
  · have h1 := energy2_le_of_bound (r := L + 1) (c := 2 * L) (by omega) (by omega) (f := f) (M := M)
      (fun t p a b c d => h t p ⟨a, b, c, d⟩)
    have h3 := upsample_energy hL f spin
    have h4 : energy2 (2 * L + 1) (2 * L) (innerSignal .mwss L spin f)
        ≤ 4 * (((L + 1 : ℤ) : ℝ) * ((2 * L : ℤ) : ℝ) * M ^ 2) := by
      simp only [innerSignal]; linarith
    refine h4.trans ?_
    push_cast
    nlinarith [mul_nonneg (by nlinarith : (0 : ℝ) ≤ L ^ 2 - L) hM, mul_nonneg (sq_nonneg (L : ℝ)) hM]

end S2fft
