import Verif.Lemmas.Adjoint
import Verif.Props.C38

/-! # Adjoints and energies on the rotation group -/

namespace S2fft
open Spec

theorem sampleInner_congr {σ : Scheme} {L ns : ℤ} {w : ℤ → ℝ} {f f' g g' : ℤ → ℤ → ℂ}
    (h : ∀ t p, σ.Has L ns t p → f (σ.pos ns t p).1 (σ.pos ns t p).2
      = f' (σ.pos ns t p).1 (σ.pos ns t p).2)
    (h' : ∀ t p, σ.Has L ns t p → g (σ.pos ns t p).1 (σ.pos ns t p).2
      = g' (σ.pos ns t p).1 (σ.pos ns t p).2) :
    sampleInner σ L ns w f g = sampleInner σ L ns w f' g' := by
  unfold sampleInner
  exact gridSum_congr fun t p ht => by rw [h t p ht, h' t p ht]

theorem lmSum_mul (a : ℂ) (lo L : ℤ) (f : ℤ → ℤ → ℂ) :
    a * lmSum lo L f = lmSum lo L fun l m => a * f l m := by
  unfold lmSum; simp only [Finset.mul_sum]

/-- Orthogonality over the samples of the third angle. -/
theorem gamma_ortho {N : ℤ} (hN : 1 ≤ N) {n k : ℤ} (hn : |n| < N) (hk : |k| < N) :
    ∑ g ∈ Finset.Ico 0 (2 * N - 1), cis (n * gammaAt N g) * (starRingEnd ℂ) (cis (k * gammaAt N g))
      = if n = k then 2 * (N : ℂ) - 1 else 0 := by
  rw [abs_lt] at hn hk
  have h := sum_tw (n := 2 * N - 1) (by omega) (n - k)
  have e : ∀ g : ℤ, cis (n * gammaAt N g) * (starRingEnd ℂ) (cis (k * gammaAt N g))
      = tw (2 * N - 1) (g * (n - k)) := by
    intro g
    rw [conj_cis, ← cis_add]
    unfold tw gammaAt
    congr 1
    push_cast
    ring
  rw [Finset.sum_congr rfl fun g _ => e g, h]
  by_cases hnk : n = k
  · rw [if_pos hnk, if_pos (by rw [hnk, sub_self]; exact dvd_zero _)]; push_cast; ring
  · rw [if_neg hnk, if_neg]
    intro hd
    have := Int.eq_zero_of_abs_lt_dvd hd (by rw [abs_lt]; omega)
    omega

theorem wigW_sq {l : ℤ} (hl : 0 ≤ l) : wigW l * wigW l = (2 * (l : ℝ) + 1) / (4 * Real.pi) := by
  have hl' : (0 : ℝ) ≤ l := by exact_mod_cast hl
  have hpi := Real.pi_pos
  unfold wigW
  rw [mul_mul_mul_comm, Real.mul_self_sqrt (by positivity)]
  field_simp
  ring

theorem wigW_half {l : ℤ} (hl : 0 ≤ l) :
    (2 * (l : ℝ) + 1) / (8 * Real.pi ^ 2) * √(4 * Real.pi / (2 * (l : ℝ) + 1))
      = wigW l / (2 * Real.pi) := by
  have h1 := wigW_mul hl
  have h2 := wigW_sq hl
  have hpi := Real.pi_pos
  have hl' : (0 : ℝ) ≤ l := by exact_mod_cast hl
  have : (2 * (l : ℝ) + 1) / (8 * Real.pi ^ 2) = wigW l * wigW l / (2 * Real.pi) := by
    rw [h2]; field_simp; ring
  rw [this]
  calc wigW l * wigW l / (2 * Real.pi) * √(4 * Real.pi / (2 * (l : ℝ) + 1))
      = wigW l * (wigW l * √(4 * Real.pi / (2 * (l : ℝ) + 1))) / (2 * Real.pi) := by ring
    _ = wigW l / (2 * Real.pi) := by rw [h1, mul_one]

theorem gridSum_left (b : ℂ) (σ : Scheme) (L ns : ℤ) (a : ℤ → ℤ → ℂ) :
    b * gridSum σ L ns a = gridSum σ L ns fun t p => b * a t p := by
  unfold gridSum; simp only [Finset.mul_sum]

/-- The Fourier transform over the third angle. -/
noncomputable def gammaPlane (f : ℤ → ℤ → ℤ → ℂ) (N n i j : ℤ) : ℂ :=
  2 * Real.pi / (2 * (N : ℂ) - 1)
    * ∑ g ∈ Finset.Ico 0 (2 * N - 1), f g i j * (starRingEnd ℂ) (cis (n * gammaAt N g))

/-- The products of samples on the rotation group with an expansion, by Fourier planes. -/
theorem so3Inner_planes {σ : Scheme} {L N ns : ℤ} {w : ℤ → ℝ} {f F : ℤ → ℤ → ℤ → ℂ}
    {P : ℤ → ℤ → ℤ → ℂ}
    (hF : ∀ g t p, 0 ≤ g → g < 2 * N - 1 → σ.Has L ns t p →
      F g (σ.pos ns t p).1 (σ.pos ns t p).2
        = ∑ n ∈ Finset.Ioo (-N) N, P n t p * cis (n * gammaAt N g)) :
    so3Inner σ L N ns w f F = ∑ n ∈ Finset.Ioo (-N) N, gridSum σ L ns fun t p =>
      w t * gammaPlane f N n (σ.pos ns t p).1 (σ.pos ns t p).2 * (starRingEnd ℂ) (P n t p) := by
  unfold so3Inner
  have h1 : ∀ g ∈ Finset.Ico 0 (2 * N - 1), sampleInner σ L ns w (f g) (F g)
      = gridSum σ L ns fun t p => ∑ n ∈ Finset.Ioo (-N) N,
        w t * (f g (σ.pos ns t p).1 (σ.pos ns t p).2 * (starRingEnd ℂ) (cis (n * gammaAt N g)))
          * (starRingEnd ℂ) (P n t p) := by
    intro g hg
    rw [Finset.mem_Ico] at hg
    unfold sampleInner
    refine gridSum_congr fun t p ht => ?_
    rw [hF g t p hg.1 hg.2 ht, map_sum, Finset.mul_sum]
    refine Finset.sum_congr rfl fun n _ => ?_
    rw [map_mul]
    ring
  rw [Finset.sum_congr rfl h1]
  simp only [gridSum_sum]
  rw [Finset.sum_comm, Finset.mul_sum]
  refine Finset.sum_congr rfl fun n _ => ?_
  rw [← gridSum_sum, gridSum_left]
  congr 1
  funext t p
  unfold gammaPlane
  rw [Finset.mul_sum, Finset.mul_sum, Finset.mul_sum, Finset.sum_mul]
  refine Finset.sum_congr rfl fun g _ => ?_
  ring

/-- The same for a Wigner expansion, as a sum over the coefficients. -/
theorem so3Inner_expansion {σ : Scheme} {lo L N ns : ℤ} (h0 : 0 ≤ lo) {θ w : ℤ → ℝ}
    {f F : ℤ → ℤ → ℤ → ℂ} {c : ℤ → ℤ → ℤ → ℂ}
    (hF : ∀ k t p, 0 ≤ k → k < 2 * N - 1 → σ.Has L ns t p →
      F k (σ.pos ns t p).1 (σ.pos ns t p).2
        = wignerSum lo L N c (σ.phi L ns t p) (θ t) (gammaAt N k)) :
    so3Inner σ L N ns w f F = ∑ n ∈ Finset.Ioo (-N) N, lmSum lo L fun l m =>
      (wigW l / (2 * Real.pi) : ℝ) * ((-1) ^ n
        * fAt (ringSum σ L ns (gammaPlane f N n)) (-n) (σ.rings L ns) θ w l m)
        * (starRingEnd ℂ) (c n l m) := by
  have hpi : (Real.pi : ℂ) ≠ 0 := by exact_mod_cast Real.pi_ne_zero
  rw [so3Inner_planes (P := fun n t p => wigPlane lo L c n (θ t) (σ.phi L ns t p))
    (fun g t p g0 g1 ht => by rw [hF g t p g0 g1 ht, wignerSum_planes])]
  refine Finset.sum_congr rfl fun n _ => ?_
  have e : ∀ t p, wigPlane lo L c n (θ t) (σ.phi L ns t p) = harmonicSum lo L (-n)
      (fun l m => (-1) ^ n * (c n l m * wigW l) / (2 * Real.pi)) (θ t) (σ.phi L ns t p) := by
    intro t p
    have h := wigPlane_scaled h0 (L := L) c n (θ t) (σ.phi L ns t p)
    have h2 : harmonicSum lo L (-n)
        (fun l m => (-1) ^ n * (c n l m * wigW l) / (2 * Real.pi)) (θ t) (σ.phi L ns t p)
        = (1 / (2 * Real.pi)) * harmonicSum lo L (-n)
        (fun l m => (-1) ^ n * (c n l m * wigW l)) (θ t) (σ.phi L ns t p) := by
      unfold harmonicSum
      simp only [Finset.mul_sum]
      refine Finset.sum_congr rfl fun l _ => Finset.sum_congr rfl fun m _ => ?_
      ring
    rw [h2, ← h]
    field_simp
  simp only [e]
  rw [gridSum_expansion]
  refine lmSum_congr fun l m _ _ _ => ?_
  simp only [map_div₀, map_mul, map_zpow₀, map_neg, map_one, Complex.conj_ofReal, map_ofNat]
  push_cast
  ring

/-- Analysis and synthesis on the rotation group are adjoint. -/
theorem adjoint_wigner {σ : Scheme} {lo L N ns : ℤ} (h0 : 0 ≤ lo) {θ w : ℤ → ℝ}
    {f F g : ℤ → ℤ → ℤ → ℂ} {c : ℤ → ℤ → ℤ → ℂ}
    (hF : ∀ k t p, 0 ≤ k → k < 2 * N - 1 → σ.Has L ns t p →
      F k (σ.pos ns t p).1 (σ.pos ns t p).2
        = wignerSum lo L N c (σ.phi L ns t p) (θ t) (gammaAt N k))
    (hg : ∀ n l m, |n| < N → max lo |n| ≤ l → l < L → |m| ≤ l → g (N - 1 + n) l (m + L - 1)
      = (-1) ^ n * fAt (ringSum σ L ns (gammaPlane f N n)) (-n) (σ.rings L ns) θ w l m
          * (√(4 * Real.pi / (2 * (l : ℝ) + 1)) : ℝ)) :
    wignerInner lo L N (fun n l m => g (N - 1 + n) l (m + L - 1)) c = so3Inner σ L N ns w f F := by
  rw [so3Inner_expansion h0 hF]
  unfold wignerInner
  refine Finset.sum_congr rfl fun n hn => ?_
  rw [Finset.mem_Ioo] at hn
  rw [lmSum_low (s := n) (lo := lo) (fun l m hl => by
    rw [fAt_outside (Or.inr (by rw [abs_neg]; exact hl))]; ring)]
  refine lmSum_congr fun l m l0 l1 hm => ?_
  have l00 : 0 ≤ l := by omega
  beta_reduce
  rw [hg n l m (abs_lt.2 hn) l0 l1 hm, ← wigW_half l00]
  push_cast
  ring

/-- The Fourier planes of an expansion. -/
theorem gammaPlane_expansion {N : ℤ} (hN : 1 ≤ N) {n : ℤ} (hn : |n| < N) {f : ℤ → ℤ → ℤ → ℂ}
    {i j : ℤ} {P : ℤ → ℂ}
    (hf : ∀ k, 0 ≤ k → k < 2 * N - 1 → f k i j
      = ∑ n ∈ Finset.Ioo (-N) N, P n * cis (n * gammaAt N k)) :
    gammaPlane f N n i j = 2 * Real.pi * P n := by
  unfold gammaPlane
  have hN' : (2 * (N : ℂ) - 1) ≠ 0 := by
    have : (2 * N - 1 : ℤ) ≠ 0 := by omega
    exact_mod_cast this
  have e : ∑ g ∈ Finset.Ico 0 (2 * N - 1), f g i j * (starRingEnd ℂ) (cis (n * gammaAt N g))
      = ∑ k ∈ Finset.Ioo (-N) N, P k * ∑ g ∈ Finset.Ico 0 (2 * N - 1),
        cis (k * gammaAt N g) * (starRingEnd ℂ) (cis (n * gammaAt N g)) := by
    simp only [Finset.mul_sum]
    rw [Finset.sum_comm]
    refine Finset.sum_congr rfl fun g hg => ?_
    rw [Finset.mem_Ico] at hg
    rw [hf g hg.1 hg.2, Finset.sum_mul]
    exact Finset.sum_congr rfl fun k _ => by ring
  rw [e, Finset.sum_eq_single n]
  · rw [gamma_ortho hN hn hn, if_pos rfl]
    field_simp
  · intro k hk hkn
    rw [Finset.mem_Ioo] at hk
    rw [gamma_ortho hN (abs_lt.2 hk) hn, if_neg hkn, mul_zero]
  · intro h
    exact absurd (Finset.mem_Ioo.2 (abs_lt.1 hn)) h

/-- Products of expansions on the rotation group. -/
theorem parseval_wigner (G : GlTables) {σ : Scheme} (hσ : ¬ σ.Resampled) {lo L N ns : ℤ}
    (hL : 1 ≤ L) (hN : 1 ≤ N) (h0 : 0 ≤ lo) (hS : SamplingTheorem G σ L) {f F : ℤ → ℤ → ℤ → ℂ}
    {b c : ℤ → ℤ → ℤ → ℂ}
    (hf : ∀ k t p, 0 ≤ k → k < 2 * N - 1 → σ.Has L ns t p →
      f k (σ.pos ns t p).1 (σ.pos ns t p).2
        = wignerSum lo L N b (σ.phi L ns t p) (σ.theta G.nodes L ns t) (gammaAt N k))
    (hF : ∀ k t p, 0 ≤ k → k < 2 * N - 1 → σ.Has L ns t p →
      F k (σ.pos ns t p).1 (σ.pos ns t p).2
        = wignerSum lo L N c (σ.phi L ns t p) (σ.theta G.nodes L ns t) (gammaAt N k)) :
    so3Inner σ L N ns (innerWeight G σ L ns) f F = wignerInner lo L N b c := by
  rw [so3Inner_expansion h0 (θ := fun t => σ.theta G.nodes L ns t) hF]
  unfold wignerInner
  refine Finset.sum_congr rfl fun n hn => ?_
  rw [Finset.mem_Ioo] at hn
  rw [lmSum_low (s := n) (lo := lo) (fun l m hl => by
    rw [fAt_outside (Or.inr (by rw [abs_neg]; exact hl))]; ring)]
  refine lmSum_congr fun l m l0 l1 hm => ?_
  have l00 : 0 ≤ l := by omega
  rw [fAt_plain G hσ hL h0 hS (b := fun l m => (-1) ^ n * (b n l m * wigW l)) (fun t p ht => by
      rw [gammaPlane_expansion hN (abs_lt.2 hn)
        (P := fun n => wigPlane lo L b n (σ.theta G.nodes L ns t) (σ.phi L ns t p))
        (fun k k0 k1 => by rw [hf k t p k0 k1 ht, wignerSum_planes]), wigPlane_scaled h0])
      (le_trans (le_max_left _ _) l0) l1 hm,
    if_pos (by rw [abs_neg]; exact le_trans (le_max_right _ _) l0)]
  have h2 := wigW_sq l00
  have h3 : ((wigW l : ℝ) : ℂ) * (wigW l : ℝ) = (2 * (l : ℂ) + 1) / (4 * Real.pi) := by
    rw [← Complex.ofReal_mul, h2]; push_cast; rfl
  have h4 : (-1 : ℂ) ^ n * (-1) ^ n = 1 := neg_one_zpow_sq n
  have hpi : (Real.pi : ℂ) ≠ 0 := by exact_mod_cast Real.pi_ne_zero
  calc ((wigW l / (2 * Real.pi) : ℝ) : ℂ) * ((-1) ^ n * ((-1) ^ n * (b n l m * wigW l)))
        * (starRingEnd ℂ) (c n l m)
      = ((wigW l : ℝ) : ℂ) * (wigW l : ℝ) * ((-1) ^ n * (-1) ^ n) / (2 * Real.pi)
        * (b n l m * (starRingEnd ℂ) (c n l m)) := by push_cast; ring
    _ = _ := by
      rw [h3, h4]
      field_simp
      ring

theorem so3Inner_self (σ : Scheme) (L N ns : ℤ) (w : ℤ → ℝ) (f : ℤ → ℤ → ℤ → ℂ) :
    so3Inner σ L N ns w f f = (so3Energy σ L N ns w f : ℝ) := by
  unfold so3Inner so3Energy
  simp only [sampleInner_self]
  push_cast
  rfl

theorem wignerInner_self (lo L N : ℤ) (c : ℤ → ℤ → ℤ → ℂ) :
    wignerInner lo L N c c = (wignerEnergy lo L N c : ℝ) := by
  unfold wignerInner wignerEnergy lmSum
  push_cast
  refine Finset.sum_congr rfl fun n _ => Finset.sum_congr rfl fun l _ =>
    Finset.sum_congr rfl fun m _ => ?_
  rw [Complex.mul_conj, Complex.normSq_eq_norm_sq]
  push_cast; rfl

/-- The planes the forward transforms compute. -/
theorem wignerBaseFban_plane {N : ℤ} (hN : 1 ≤ N) (f : ℤ → ℤ → ℤ → ℂ) (n i j : ℤ) :
    wignerBaseFban f N false (n - wigStart N false) i j = gammaPlane f N n i j := by
  unfold wignerBaseFban wigStart ngamma gammaPlane
  simp only [Bool.false_eq_true, if_false]
  rw [fftshift_fft (by omega), show n - (-N + 1) - (2 * N - 1) / 2 = n by omega, mul_comm]
  congr 1
  refine Finset.sum_congr rfl fun g _ => ?_
  rw [conj_cis]
  congr 2
  unfold gammaAt
  push_cast
  ring

end S2fft
