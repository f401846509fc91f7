import Verif.Lemmas.LinearComb

/-!
# The resampling acts within each order

The Fourier sums of order `m` of the resampled rings are combinations of the Fourier sums of order `m`
of the given rings.
-/

namespace S2fft
open Spec

/-- A map on columns that is linear. -/
def LinearOp (U : (ℤ → ℂ) → ℤ → ℂ) : Prop :=
  ∀ (a b : ℂ) (x y : ℤ → ℂ), U (fun t => a * x t + b * y t) = fun t => a * U x t + b * U y t

theorem LinearOp.sum {U : (ℤ → ℂ) → ℤ → ℂ} (hU : LinearOp U) (S : Finset ℤ) (e : ℤ → ℤ → ℂ)
    (c : ℤ → ℂ) (t : ℤ) :
    U (fun t => ∑ p ∈ S, e t p * c p) t = ∑ p ∈ S, U (fun t => e t p) t * c p := by
  induction S using Finset.induction_on with
  | empty =>
    have := congrFun (hU 0 0 (fun _ => 0) (fun _ => 0)) t
    simpa using this
  | insert p S hp ih =>
    rw [Finset.sum_insert hp, ← ih]
    simp only [Finset.sum_insert hp]
    have := congrFun (hU (c p) 1 (fun t => e t p) (fun t => ∑ p ∈ S, e t p * c p)) t
    simp only [one_mul] at this
    rw [← mul_comm (c p), ← this]
    congr 1
    funext t
    ring

/-- Fourier sums over the columns pass through a map that acts on each column. -/
theorem LinearOp.fft {U : (ℤ → ℂ) → ℤ → ℂ} (hU : LinearOp U) (n : ℤ) (e : ℤ → ℤ → ℂ) (t m : ℤ) :
    fft n (fun p => U (fun t => e t p) t) m = U (fun t => S2fft.fft n (e t) m) t := by
  simp only [fft_eq]
  rw [hU.sum]

theorem LinearOp.smul {U : (ℤ → ℂ) → ℤ → ℂ} (hU : LinearOp U) (c : ℂ) (x : ℤ → ℂ) (t : ℤ) :
    U (fun t => c * x t) t = c * U x t := by
  have := congrFun (hU c 0 x (fun _ => 0)) t
  simpa using this

/-- Interpolation of a column of `2L` samples to `4L`. -/
noncomputable def upsampleCol (L : ℤ) (x : ℤ → ℂ) : ℤ → ℂ :=
  ifft_fwd (2 * (2 * L)) (ifftshift (2 * (2 * L)) fun t =>
    if L ≤ t ∧ t < 2 * L + L then fftshift (2 * L) (fft_fwd (2 * L) x) (t - L) else 0)

theorem upsampleCol_lin (L : ℤ) : LinearOp (upsampleCol L) := by
  intro a b x y
  unfold upsampleCol
  simp only [fft_fwd_lin, fftshift_lin, ite_lin_zero, ifftshift_lin, ifft_fwd_lin]

theorem upsampleCol_congr {L : ℤ} {x y : ℤ → ℂ} (h : ∀ t, 0 ≤ t → t < 2 * L → x t = y t) :
    upsampleCol L x = upsampleCol L y := by
  have : fft_fwd (2 * L) x = fft_fwd (2 * L) y := by
    funext k; unfold fft_fwd; rw [fft_congr h]
  unfold upsampleCol
  rw [this]

/-- Interpolation of a column of the MW grid, extended to `2L-1` samples, to the MWSS grid. -/
noncomputable def thetaCol (L : ℤ) (x : ℤ → ℂ) : ℤ → ℂ :=
  ifft_fwd (2 * L) (ifftshift (2 * L) (mwssThetaRows (fun _ t _ => x t) L 0 0))

theorem thetaCol_lin (L : ℤ) : LinearOp (thetaCol L) := by
  intro a b x y
  unfold thetaCol
  rw [mwssThetaRows_lin a b (fun _ t _ => x t) (fun _ t _ => y t)]
  simp only [ifftshift_lin, ifft_fwd_lin]

theorem thetaCol_congr {L : ℤ} {x y : ℤ → ℂ} (h : ∀ t, 0 ≤ t → t < 2 * L - 1 → x t = y t) :
    thetaCol L x = thetaCol L y := by
  have : fft_fwd (2 * L - 1) x = fft_fwd (2 * L - 1) y := by
    funext k; unfold fft_fwd; rw [fft_congr h]
  unfold thetaCol mwssThetaRows
  simp only [this]

/-- Order `m` of the samples, from MWSS to twice the number of rings. -/
noncomputable def mwssOrder (L spin m : ℤ) (x : ℤ → ℂ) : ℤ → ℂ :=
  upsampleCol L fun t => if t < L + 1 then x t else (-1) ^ (m + spin) * x (2 * L - t)

/-- Order `m` of the samples, from MW to MWSS. -/
noncomputable def mwOrder (L spin m : ℤ) (x : ℤ → ℂ) : ℤ → ℂ := fun t =>
  (2 * (L : ℂ)) / (2 * (L : ℂ) - 1)
    * thetaCol L (fun t => if t < L then x t else (-1) ^ (m + spin) * x (2 * L - 2 - t)) t

theorem ite_lin (a b : ℂ) (p : Prop) [Decidable p] (x y w z c : ℂ) :
    (if p then a * x + b * y else c * (a * w + b * z))
      = a * (if p then x else c * w) + b * (if p then y else c * z) := by
  split_ifs <;> ring

theorem mwssOrder_lin (L spin m : ℤ) : LinearOp (mwssOrder L spin m) := by
  intro a b x y
  unfold mwssOrder
  simp only [ite_lin]
  exact upsampleCol_lin L a b _ _

theorem mwOrder_lin (L spin m : ℤ) : LinearOp (mwOrder L spin m) := by
  intro a b x y
  unfold mwOrder
  simp only [ite_lin]
  rw [thetaCol_lin L a b]
  funext t
  ring

theorem mwssOrder_congr {L spin m : ℤ} {x y : ℤ → ℂ} (h : ∀ t, 0 ≤ t → t < L + 1 → x t = y t) :
    mwssOrder L spin m x = mwssOrder L spin m y := by
  unfold mwssOrder
  refine upsampleCol_congr fun t t0 t1 => ?_
  split_ifs with ht
  · exact h t t0 ht
  · rw [h (2 * L - t) (by omega) (by omega)]

theorem mwOrder_congr {L spin m : ℤ} {x y : ℤ → ℂ} (h : ∀ t, 0 ≤ t → t < L → x t = y t) :
    mwOrder L spin m x = mwOrder L spin m y := by
  unfold mwOrder
  rw [thetaCol_congr (y := fun t => if t < L then y t else (-1) ^ (m + spin) * y (2 * L - 2 - t))]
  intro t t0 t1
  split_ifs with ht
  · exact h t t0 ht
  · rw [h (2 * L - 2 - t) (by omega) (by omega)]

/-- Fourier sum of a rotated vector. -/
theorem fft_roll {n : ℤ} (hn : 0 < n) (x : ℤ → ℂ) (s m : ℤ) :
    fft n (fun p => x ((p + s) % n)) m = tw n (s * m) * fft n x m := by
  rw [fft_eq, fft_eq, ← sum_Ico_emod hn s (fun p => x p * tw n (-(p * m))), Finset.mul_sum]
  refine Finset.sum_congr rfl fun p _ => ?_
  rw [mul_left_comm, ← tw_add]
  congr 1
  refine tw_congr hn.ne' ⟨-((p + s) / n) * m, ?_⟩
  have := Int.emod_add_mul_ediv (p + s) n
  linear_combination m * this

theorem fft_fftshift_half {L : ℤ} (hL : 1 ≤ L) (x : ℤ → ℂ) (m : ℤ) :
    fft (2 * L) (fftshift (2 * L) x) m = (-1) ^ m * fft (2 * L) x m := by
  have e : fftshift (2 * L) x = fun p => x ((p + -L) % (2 * L)) := by
    funext p
    unfold fftshift
    rw [show 2 * L / 2 = L by omega, sub_eq_add_neg]
  have hL' : (L : ℝ) ≠ 0 := by exact_mod_cast (by omega : L ≠ 0)
  rw [e, fft_roll (by omega)]
  congr 1
  unfold tw
  rw [← cis_pi_int, show (2 * Real.pi * ((-L * m : ℤ) : ℝ) / ((2 * L : ℤ) : ℝ))
    = Real.pi * m + 2 * Real.pi * ((-m : ℤ) : ℝ) by push_cast; field_simp; ring, cis_add,
    cis_two_pi_int, mul_one]

/-- Order `m` of the rings of the upsampled signal. -/
theorem upsample_order {L : ℤ} (hL : 1 ≤ L) (f : ℤ → ℤ → ℂ) (spin t m : ℤ) :
    fft (2 * L) (upsampleValues (fun _ => f) L (fun _ => spin) 0 t) m
      = mwssOrder L spin m (fun t => fft (2 * L) (f t) m) t := by
  have h := (upsampleCol_lin L).fft (2 * L)
    (periodic_extension_spatial_mwss (fun _ => f) L (fun _ => spin) 0) t m
  unfold mwssOrder
  refine h.trans (congrFun (congrArg _ ?_) t)
  funext t
  unfold periodic_extension_spatial_mwss
  split_ifs with ht
  · rfl
  · rw [fft_eq, zpow_add₀ (by norm_num), mul_comm ((-1 : ℂ) ^ m), mul_assoc, ← fft_fftshift_half hL,
      fft_eq, Finset.mul_sum, negOne_natAbs]
    refine Finset.sum_congr rfl fun p _ => ?_
    rw [show L - 1 - (t - (L + 1)) = 2 * L - t by ring]
    ring

/-- Order `m` of the rings of the signal moved to the MWSS grid. -/
theorem mwss_order {L : ℤ} (hL : 1 ≤ L) (f : ℤ → ℤ → ℂ) (spin t : ℤ) {m : ℤ} (m0 : -L < m)
    (m1 : m < L) :
    fft (2 * L) (mwssValues (fun _ => f) L (fun _ => spin) 0 t) m
      = mwOrder L spin m (fun t => fft (2 * L - 1) (f t) m) t := by
  have hn : (0 : ℤ) < 2 * L - 1 := by omega
  set e : ℤ → ℤ → ℂ := fun t => ifft (2 * L - 1) (ifftshift (2 * L - 1)
    (extensionRows L L (2 * L - 1) 0 (fun _ => f) (fun _ => spin) 0 t)) with he
  -- the extension
  have h1 : ∀ t, 0 ≤ t → t < 2 * L - 1 → fft (2 * L - 1) (e t) m
      = if t < L then fft (2 * L - 1) (f t) m
        else (-1) ^ (m + spin) * fft (2 * L - 1) (f (2 * L - 2 - t)) m := by
    intro t t0 t1
    have hj : (m % (2 * L - 1) + (2 * L - 1) / 2) % (2 * L - 1) = m + (L - 1) := by
      rw [Int.emod_add_emod, show (2 * L - 1) / 2 = L - 1 by omega]
      exact Int.emod_eq_of_lt (by omega) (by omega)
    rw [← fft_periodic hn.ne', fft_ifft hn _ (Int.emod_nonneg _ hn.ne') (Int.emod_lt_of_pos _ hn)]
    unfold ifftshift
    rw [hj, extensionRows_mw L _ _ 0 t _ t0 t1 (by omega) (by omega), fftshift_fft hn, fftshift_fft hn,
      show m + (L - 1) - (2 * L - 1) / 2 = m by omega, show m + (L - 1) - (L - 1) = m by ring]
  -- the columns
  set g : ℤ → ℤ → ℂ := fun t p => thetaCol L (fun t => e t p) t with hg
  have h2 : fft (2 * L - 1) (g t) m = thetaCol L (fun t => if t < L then fft (2 * L - 1) (f t) m
      else (-1) ^ (m + spin) * fft (2 * L - 1) (f (2 * L - 2 - t)) m) t := by
    rw [hg, (thetaCol_lin L).fft]
    exact congrFun (thetaCol_congr h1) t
  -- the rows
  unfold mwOrder
  rw [← h2]
  have e3 : mwssValues (fun _ => f) L (fun _ => spin) 0 t
      = ifft_fwd (2 * L) (ifftshift (2 * L) fun j =>
        if 1 ≤ j then fftshift (2 * L - 1) (fft_fwd (2 * L - 1) (g t)) (j - 1) else 0) := rfl
  have h2L : (0 : ℤ) < 2 * L := by omega
  have hc : ((2 * L : ℤ) : ℂ) ≠ 0 := by exact_mod_cast h2L.ne'
  have e4 : ∀ y : ℤ → ℂ, fft (2 * L) (ifft_fwd (2 * L) (ifftshift (2 * L) y)) m
      = (2 * (L : ℂ)) * y (m + L) := by
    intro y
    have hj : (m % (2 * L) + (2 * L) / 2) % (2 * L) = m + L := by
      rw [Int.emod_add_emod, show (2 * L) / 2 = L by omega]
      exact Int.emod_eq_of_lt (by omega) (by omega)
    have : ifft_fwd (2 * L) (ifftshift (2 * L) y)
        = fun p => ((2 * L : ℤ) : ℂ) * ifft (2 * L) (ifftshift (2 * L) y) p + 0 * 0 := by
      funext p; unfold ifft; field_simp; ring
    rw [this, fft_lin _ _ _ _ (fun _ => 0)]
    beta_reduce
    rw [← fft_periodic h2L.ne' (ifft _ _),
      fft_ifft h2L _ (Int.emod_nonneg _ h2L.ne') (Int.emod_lt_of_pos _ h2L)]
    unfold ifftshift
    rw [hj]
    push_cast
    ring
  rw [e3, e4, if_pos (by omega), show m + L - 1 = m + (L - 1) by ring]
  unfold fftshift fft_fwd
  rw [show (2 * L - 1) / 2 = L - 1 by omega, show m + (L - 1) - (L - 1) = m by ring,
    fft_periodic hn.ne']
  push_cast
  ring

/-- Order `m` of the rings given, to order `m` of the rings the method sees. -/
noncomputable def orderOp (σ : Scheme) (L spin m : ℤ) (x : ℤ → ℂ) : ℤ → ℂ :=
  match σ with
  | .mw => mwssOrder L spin m (mwOrder L spin m x)
  | .mwss => mwssOrder L spin m x
  | _ => x

theorem orderOp_lin (σ : Scheme) (L spin m : ℤ) : LinearOp (orderOp σ L spin m) := by
  cases σ with
  | mw =>
    intro a b x y
    simp only [orderOp]
    rw [mwOrder_lin L spin m a b, mwssOrder_lin L spin m a b]
  | mwss => exact mwssOrder_lin L spin m
  | dh => exact fun a b x y => rfl
  | gl => exact fun a b x y => rfl
  | healpix => exact fun a b x y => rfl

theorem ringSum_fft {σ : Scheme} (hσ : σ = .mw ∨ σ = .mwss) (L ns : ℤ) (f : ℤ → ℤ → ℂ) (t m : ℤ) :
    ringSum σ L ns f t m = fft (σ.ringLen L ns t) (f t) m := by
  unfold ringSum fft
  refine Finset.sum_congr rfl fun p _ => ?_
  rcases hσ with rfl | rfl <;>
  · congr 2
    unfold Scheme.phi Scheme.shift
    ring

/-- The resampling acts within each order. -/
theorem ringSum_inner (σ : Scheme) {L : ℤ} (hL : 1 ≤ L) (ns spin : ℤ) (f : ℤ → ℤ → ℂ) (t : ℤ) {m : ℤ}
    (m0 : -L < m) (m1 : m < L) :
    ringSum σ.inner L ns (innerSignal σ L spin f) t m
      = orderOp σ L spin m (fun t => ringSum σ L ns f t m) t := by
  cases σ with
  | mw =>
    have e : (fun t => ringSum .mw L ns f t m) = fun t => fft (2 * L - 1) (f t) m := by
      funext t; exact ringSum_fft (Or.inl rfl) L ns f t m
    simp only [orderOp]
    rw [e, show Scheme.mw.inner = .mwss from rfl, ringSum_fft (Or.inr rfl)]
    refine (upsample_order hL _ spin t m).trans ?_
    simp only [mwss_order hL f spin _ m0 m1]
  | mwss =>
    have e : (fun t => ringSum .mwss L ns f t m) = fun t => fft (2 * L) (f t) m := by
      funext t; exact ringSum_fft (Or.inr rfl) L ns f t m
    simp only [orderOp]
    rw [e, show Scheme.mwss.inner = .mwss from rfl, ringSum_fft (Or.inr rfl)]
    exact upsample_order hL f spin t m
  | dh => rfl
  | gl => rfl
  | healpix => rfl

theorem orderOp_congr (σ : Scheme) {L spin m : ℤ} (ns : ℤ) {x y : ℤ → ℂ}
    (h : ∀ t, 0 ≤ t → t < σ.rings L ns → x t = y t) (t : ℤ) (t0 : 0 ≤ t) (t1 : t < innerRings σ L ns) :
    orderOp σ L spin m x t = orderOp σ L spin m y t := by
  cases σ with
  | mw => simp only [orderOp]; rw [mwOrder_congr (L := L) h]
  | mwss => simp only [orderOp]; rw [mwssOrder_congr (L := L) h]
  | dh => exact h t t0 t1
  | gl => exact h t t0 t1
  | healpix => exact h t t0 t1

/-- Rings whose order `m` differs by a factor. -/
theorem ringSum_inner_smul {σ : Scheme} {L : ℤ} (hL : 1 ≤ L) {ns spin : ℤ} {f f' : ℤ → ℤ → ℂ} {m : ℤ}
    (m0 : -L < m) (m1 : m < L) {c : ℂ}
    (h : ∀ t, 0 ≤ t → t < σ.rings L ns → ringSum σ L ns f' t m = c * ringSum σ L ns f t m)
    (t : ℤ) (t0 : 0 ≤ t) (t1 : t < innerRings σ L ns) :
    ringSum σ.inner L ns (innerSignal σ L spin f') t m
      = c * ringSum σ.inner L ns (innerSignal σ L spin f) t m := by
  rw [ringSum_inner σ hL ns spin f' t m0 m1, ringSum_inner σ hL ns spin f t m0 m1,
    orderOp_congr σ ns h t t0 t1, (orderOp_lin σ L spin m).smul]

end S2fft
