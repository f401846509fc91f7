import Verif.Lemmas.FourierWigner
import Verif.Lemmas.PrecomputeWignerForward
import Verif.Lemmas.Quadrature
import Verif.Lemmas.WignerOrtho
import Verif.Props.C26

/-! # The Fourier-Wigner forward transform -/

namespace S2fft
open Spec

/-- Frequencies below `L` are recovered by the transform of `2L - 1` or `2L` samples. -/
theorem fft_centred {L off : ℤ} (hL : 1 ≤ L) (ho : off = 0 ∨ off = 1) (b x : ℤ → ℂ)
    (hx : ∀ p, 0 ≤ p → p < 2 * L - 1 + off →
      x p = ∑ a ∈ Finset.Ioo (-L) L, b a * tw (2 * L - 1 + off) (a * p)) {k : ℤ}
    (h0 : -L - off < k) (h1 : k < L) :
    fft (2 * L - 1 + off) x k
      = ((2 * L - 1 + off : ℤ) : ℂ) * (if -L < k then b k else 0) := by
  rw [fft_eq]
  have e : ∀ p ∈ Finset.Ico 0 (2 * L - 1 + off), x p * tw (2 * L - 1 + off) (-(p * k))
      = ∑ a ∈ Finset.Ioo (-L) L, b a * tw (2 * L - 1 + off) (p * (a - k)) := by
    intro p hp
    rw [Finset.mem_Ico] at hp
    rw [hx p hp.1 hp.2, Finset.sum_mul]
    refine Finset.sum_congr rfl fun a _ => ?_
    rw [mul_assoc, ← tw_add]
    congr 2; ring
  rw [Finset.sum_congr rfl e, Finset.sum_comm]
  simp only [← Finset.mul_sum, sum_tw (show 0 < 2 * L - 1 + off by omega)]
  have hd : ∀ a ∈ Finset.Ioo (-L) L, (2 * L - 1 + off ∣ a - k) → a = k := by
    intro a ha ⟨q, hq⟩
    rw [Finset.mem_Ioo] at ha
    have : q = 0 := by
      by_contra hne
      rcases lt_or_gt_of_ne hne with h | h
      · have := mul_le_mul_of_nonneg_left (show q ≤ -1 by omega) (show 0 ≤ 2 * L - 1 + off by omega)
        omega
      · have := mul_le_mul_of_nonneg_left (show 1 ≤ q by omega) (show 0 ≤ 2 * L - 1 + off by omega)
        omega
    rw [this] at hq; omega
  split_ifs with hk
  · rw [Finset.sum_eq_single k]
    · rw [sub_self, if_pos (dvd_zero _)]; ring
    · intro a ha hne
      rw [if_neg (fun h => hne (hd a ha h)), mul_zero]
    · intro h; exact absurd (Finset.mem_Ioo.2 ⟨hk, h1⟩) h
  · rw [mul_zero]
    refine Finset.sum_eq_zero fun a ha => ?_
    rw [if_neg, mul_zero]
    intro h
    have := hd a ha h
    rw [Finset.mem_Ioo] at ha
    omega

theorem fft_comm (n0 n1 : ℤ) (b : ℤ → ℤ → ℂ) (k j : ℤ) :
    fft n0 (fun g => fft n1 (b g) j) k = fft n1 (fun p => fft n0 (fun g => b g p) k) j := by
  simp only [fft_eq, Finset.sum_mul]
  rw [Finset.sum_comm]
  refine Finset.sum_congr rfl fun p _ => Finset.sum_congr rfl fun g _ => by ring

/-- The transform over `α` of a plane gives its Fourier coefficients. -/
theorem fft_plane {L off : ℤ} (hL : 1 ≤ L) (ho : off = 0 ∨ off = 1) (c : ℤ → ℤ → ℤ → ℂ) (n : ℤ)
    (θ : ℝ) (φ : ℤ → ℝ) (hφ : ∀ m p : ℤ, tw (2 * L - 1 + off) (m * p) = cis (m * φ p)) {m : ℤ}
    (h0 : -L < m) (h1 : m < L) :
    fft (2 * L - 1 + off) (fun p => wigPlane 0 L c n θ (φ p)) m
      = ((2 * L - 1 + off : ℤ) : ℂ) * wigRing L c n θ m := by
  rw [fft_centred hL ho (wigRing L c n θ) _ (fun p _ _ => ?_) (by omega) h1, if_pos h0]
  rw [wigPlane_ring]
  unfold synth
  rw [if_neg Bool.false_ne_true]
  exact Finset.sum_congr rfl fun m _ => by rw [hφ]

theorem fwRings_values {L N off : ℤ} (hL : 1 ≤ L) (hN : 1 ≤ N) (ho : off = 0 ∨ off = 1)
    (c : ℤ → ℤ → ℤ → ℂ) (f : ℤ → ℤ → ℤ → ℂ) (reality : Bool)
    (hre : reality = true → RealWigner c 0 L) (θ : ℝ) (φ : ℤ → ℝ)
    (hφ : ∀ m p : ℤ, tw (2 * L - 1 + off) (m * p) = cis (m * φ p)) (t : ℤ)
    (hs : ∀ g p, 0 ≤ g → g < 2 * N - 1 → 0 ≤ p → p < 2 * L - 1 + off →
      f g t p = wignerSum 0 L N c (φ p) θ (gammaAt N g)) {n m : ℤ}
    (n0 : nFirst N reality ≤ n) (n1 : n < N) (h0 : -L < m) (h1 : m < L) :
    fwRings f N (2 * L - 1 + off) off reality (n - nFirst N reality) t (m + L - 1)
      = wigRing L c n θ m := by
  have hb := nFirst_bounds hN reality
  have hne : ((2 * L - 1 + off : ℤ) : ℂ) ≠ 0 := by
    exact_mod_cast (show 2 * L - 1 + off ≠ 0 by omega)
  have hne' : (2 * (N : ℂ) - 1) ≠ 0 := by exact_mod_cast (by omega : 2 * N - 1 ≠ 0)
  have hpl := fft_plane hL ho c n θ φ hφ h0 h1
  have hfft : ∀ p, 0 ≤ p → p < 2 * L - 1 + off → fft (2 * N - 1) (fun g => f g t p) n
      = (2 * (N : ℂ) - 1) * wigPlane 0 L c n θ (φ p) := fun p p0 p1 =>
    fft_gamma hN (fun n => wigPlane 0 L c n θ (φ p)) (by omega) n1 (fun g => f g t p)
      (fun g a b => by rw [← wignerSum_planes]; exact hs g p a b p0 p1)
  have hidx : (off + (m + L - 1) - (2 * L - 1 + off) / 2) = m := by omega
  unfold fwRings
  cases reality
  · rw [if_neg Bool.false_ne_true]
    simp only [fftshift, fft_fwd]
    rw [hidx, nFirst_false, show n - (-N + 1) - (2 * N - 1) / 2 = n by omega,
      fft_periodic (show 2 * N - 1 ≠ 0 by omega)]
    simp only [fft_periodic (show 2 * L - 1 + off ≠ 0 by omega)]
    have e : ∀ g, fft (2 * L - 1 + off) (f g t) m / ((2 * L - 1 + off : ℤ) : ℂ)
        = fft (2 * L - 1 + off) (f g t) m * ((2 * L - 1 + off : ℤ) : ℂ)⁻¹ := fun g => div_eq_mul_inv _ _
    simp only [e]
    rw [congrFun (fft_smul (2 * N - 1) (fun g => fft (2 * L - 1 + off) (f g t) m) _) n,
      fft_comm (2 * N - 1) _ (fun g => f g t), fft_congr (y := fun p =>
        wigPlane 0 L c n θ (φ p) * (2 * (N : ℂ) - 1)) (fun p p0 p1 => by
        rw [hfft p p0 p1]; ring), congrFun (fft_smul _ _ _) m, hpl]
    push_cast at hne ⊢
    field_simp
  · rw [if_pos rfl]
    simp only [fftshift, fft_fwd]
    rw [hidx, nFirst_true, sub_zero, fft_periodic (show 2 * L - 1 + off ≠ 0 by omega)]
    rw [fft_congr (y := fun p => wigPlane 0 L c n θ (φ p)) (fun p p0 p1 => ?_), hpl]
    · field_simp
    · have : rfft (2 * N - 1) (fun g => (f g t p).re) n = fft (2 * N - 1) (fun g => f g t p) n := by
        unfold rfft
        refine fft_congr (fun g g0 g1 => ?_) n
        beta_reduce
        rw [hs g p g0 g1 p0 p1]
        exact Complex.conj_eq_iff_re.1 (Complex.conj_eq_iff_im.2 (wignerSum_real (hre rfl) N _ _ _))
      rw [this, hfft p p0 p1]
      field_simp

/-! ## The extension in `β` -/

theorem wigRing_reflect (L : ℤ) (c : ℤ → ℤ → ℤ → ℂ) (n m : ℤ) (β : ℝ) :
    wigRing L c n (2 * Real.pi - β) m = wigRing L c n β m * (-1) ^ m * (-1) ^ n := by
  unfold wigRing
  rw [Finset.sum_mul, Finset.sum_mul]
  refine Finset.sum_congr rfl fun l _ => ?_
  rw [show 2 * Real.pi - β = -β + 2 * Real.pi by ring, wignerd_add_two_pi, wignerd_neg,
    zpow_add₀ (by norm_num)]
  push_cast
  ring

theorem neg_one_zpow_abs (m : ℤ) : ((-1 : ℂ)) ^ |m| = (-1) ^ m := by
  rcases abs_choice m with h | h
  · rw [h]
  · rw [h, neg_one_zpow_neg]

theorem fw_theta_reflect (nodes : ℤ → ℤ → ℝ) {σ : Scheme} (hσ : σ.Resampled) {L : ℤ} (hL : 1 ≤ L)
    (t : ℤ) : 2 * Real.pi - σ.theta nodes L 0 (2 * σ.rings L 0 - 2 - t) = σ.theta nodes L 0 t := by
  have hLr : (1 : ℝ) ≤ L := by exact_mod_cast hL
  rcases hσ with rfl | rfl
  · simp only [Scheme.theta, Scheme.rings]
    have : (2 * (L : ℝ) - 1) ≠ 0 := by linarith
    push_cast
    field_simp
    ring
  · simp only [Scheme.theta, Scheme.rings]
    have : (L : ℝ) ≠ 0 := by linarith
    push_cast
    field_simp
    ring

theorem fw_rings {σ : Scheme} (hσ : σ.Resampled) (L : ℤ) : σ.rings L 0 = L + σ.off := by
  rcases hσ with rfl | rfl
  · simp [Scheme.rings, Scheme.off]
  · rfl

theorem fwExtend_values (nodes : ℤ → ℤ → ℝ) {σ : Scheme} (hσ : σ.Resampled) {L N : ℤ} (hL : 1 ≤ L)
    (c : ℤ → ℤ → ℤ → ℂ) (reality : Bool) (x : ℤ → ℤ → ℤ → ℂ) {n m : ℤ}
    (hx : ∀ t, 0 ≤ t → t < σ.rings L 0 → x (n - nFirst N reality) t (m + L - 1)
      = wigRing L c n (σ.theta nodes L 0 t) m) {t : ℤ} (t0 : 0 ≤ t) (t1 : t < 2 * L - 1 + σ.off) :
    fwExtend x L N (σ.rings L 0) reality (n - nFirst N reality) t (m + L - 1)
      = wigRing L c n (σ.theta nodes L 0 t) m := by
  have hr := fw_rings hσ L
  have ho := off_cases σ
  unfold fwExtend
  simp only
  split_ifs with h
  · exact hx t t0 h
  · rw [show σ.rings L 0 - 1 - (1 + (t - σ.rings L 0)) = 2 * σ.rings L 0 - 2 - t by ring,
      hx _ (by omega) (by omega), ← fw_theta_reflect nodes hσ hL t, wigRing_reflect,
      neg_one_zpow_abs, neg_one_zpow_abs, show -L + 1 + (m + L - 1) = m by ring,
      show nFirst N reality + (n - nFirst N reality) = n by ring]

/-! ## The weights -/

theorem fwQuads_eq {L : ℤ} (hL : 1 ≤ L) (p : ℤ) :
    fwQuads L p = ∑ k ∈ Finset.Ioo (-(2 * L - 1)) (2 * L - 1),
      mw_weights (-k) * tw (4 * L - 3) (k * p) := by
  have h := ifft_centred (L := 2 * L - 1) (off := 0) (by omega) (Or.inl rfl)
    (forRange (-2 * (L - 1)) (2 * (L - 1) + 1)
    (fun mm w => set1 w (mm + 2 * (L - 1)) (mw_weights (-mm))) 0) (fun h => by omega) p
  rw [show 2 * (2 * L - 1) - 1 + 0 = 4 * L - 3 by ring] at h
  unfold fwQuads
  rw [h]
  refine Finset.sum_congr rfl fun k hk => ?_
  rw [Finset.mem_Ioo] at hk
  congr 1
  refine forRange_write (-2 * (L - 1)) (2 * (L - 1) + 1)
    (fun mm (w : ℤ → ℂ) => set1 w (mm + 2 * (L - 1)) (mw_weights (-mm))) 0
    (fun w => w (k + (2 * L - 1) - 1 + 0)) k _ (by omega) (by omega) (fun w => ?_) (fun i w _ _ hne => ?_)
  · unfold set1; rw [if_pos (by ring)]
  · unfold set1; rw [if_neg (by omega)]

theorem fwConvolve_values (nodes : ℤ → ℤ → ℝ) {σ : Scheme} (hσ : σ.Resampled) {s : PyStr}
    (hs : lower s = σ.name) {L : ℤ} (hL : 1 ≤ L) (X v : ℤ → ℂ)
    (hv : ∀ t, 0 ≤ t → t < 2 * L - 1 + σ.off →
      v t = ∑ a ∈ Finset.Ioo (-L) L, X a * cis (a * σ.theta nodes L 0 t)) {a : ℤ} (a0 : -L < a)
    (a1 : a < L) :
    fwConvolve v (fwQuads L) L (2 * L - 1 + σ.off) (L - 1 - σ.off) (lower s = sMW) (a + L - 1)
      = ∑ b ∈ Finset.Ioo (-L) L, X b * mw_weights (b - a) := by
  have ho := off_cases σ
  have hne : ((2 * L - 1 + σ.off : ℤ) : ℂ) ≠ 0 := by
    exact_mod_cast (show 2 * L - 1 + σ.off ≠ 0 by omega)
  have hne' : ((4 * L - 3 : ℤ) : ℂ) ≠ 0 := by exact_mod_cast (show 4 * L - 3 ≠ 0 by omega)
  have hx : ∀ k, -L - σ.off < k → k < L → fftshift (2 * L - 1 + σ.off) (fft_fwd (2 * L - 1 + σ.off) v)
      (k + L - 1 + σ.off) = if -L < k then X k * cis (k * fwTheta0 L s) else 0 := by
    intro k k0 k1
    unfold fftshift fft_fwd
    rw [show k + L - 1 + σ.off - (2 * L - 1 + σ.off) / 2 = k by omega,
      fft_periodic (show 2 * L - 1 + σ.off ≠ 0 by omega),
      fft_centred hL ho (fun a => X a * cis (a * fwTheta0 L s)) v (fun p p0 p1 => ?_) k0 k1]
    · field_simp
    · rw [hv p p0 p1]
      refine Finset.sum_congr rfl fun b _ => ?_
      rw [← fw_theta nodes hσ hs hL]; ring
  unfold fwConvolve
  set y : ℤ → ℂ := (if decide (lower s = sMW) = true then
      fun b => fftshift (2 * L - 1 + σ.off) (fft_fwd (2 * L - 1 + σ.off) v) b
        * cis (-(((-L + 1 + b : ℤ) : ℝ) * Real.pi / (2 * (L : ℝ) - 1)))
    else fftshift (2 * L - 1 + σ.off) (fft_fwd (2 * L - 1 + σ.off) v)) with hy
  have hyv : ∀ k, -L - σ.off < k → k < L → y (k + L - 1 + σ.off) = if -L < k then X k else 0 := by
    intro k k0 k1
    rw [hy, hs]
    rcases hσ with rfl | rfl
    · rw [if_pos (by decide)]
      beta_reduce
      rw [hx k k0 k1]
      split_ifs with hk
      · rw [mul_assoc, ← cis_add]
        have : (k : ℝ) * fwTheta0 L s + -(((-L + 1 + (k + L - 1 + Scheme.mw.off) : ℤ) : ℝ)
            * Real.pi / (2 * (L : ℝ) - 1)) = 0 := by
          unfold fwTheta0
          rw [hs, if_neg (by decide)]
          simp only [Scheme.off]
          push_cast
          ring
        rw [this, cis_zero, mul_one]
      · rw [zero_mul]
    · rw [if_neg (by decide), hx k k0 k1]
      split_ifs with hk
      · unfold fwTheta0
        rw [hs, if_pos (show Scheme.mwss.name = sMWSS from rfl)]
        simp
      · rfl
  have hpad : ∀ p, ifft_fwd (4 * L - 3) (ifftshift (4 * L - 3)
      (fun b => if L - 1 - σ.off ≤ b ∧ b < L - 1 - σ.off + (2 * L - 1 + σ.off)
        then y (b - (L - 1 - σ.off)) else 0)) p
      = ∑ b ∈ Finset.Ioo (-L) L, X b * tw (4 * L - 3) (b * p) := by
    intro p
    have h := ifft_centred (L := 2 * L - 1) (off := 0) (by omega) (Or.inl rfl)
      (fun b => if L - 1 - σ.off ≤ b ∧ b < L - 1 - σ.off + (2 * L - 1 + σ.off)
        then y (b - (L - 1 - σ.off)) else 0) (fun h => by omega) p
    rw [show 2 * (2 * L - 1) - 1 + 0 = 4 * L - 3 by ring] at h
    rw [h]
    symm
    have hin : ∀ b, -L - σ.off < b → b < L →
        (if L - 1 - σ.off ≤ b + (2 * L - 1) - 1 + 0 ∧ b + (2 * L - 1) - 1 + 0
            < L - 1 - σ.off + (2 * L - 1 + σ.off)
          then y (b + (2 * L - 1) - 1 + 0 - (L - 1 - σ.off)) else 0) = if -L < b then X b else 0 := by
      intro b b0 b1
      rw [if_pos ⟨by omega, by omega⟩, ← hyv b b0 b1]
      congr 1; ring
    apply Finset.sum_subset_zero_on_sdiff
    · intro b; simp only [Finset.mem_Ioo]; omega
    · intro b hb
      simp only [Finset.mem_sdiff, Finset.mem_Ioo] at hb
      by_cases hr : -L - σ.off < b ∧ b < L
      · rw [hin b hr.1 hr.2, if_neg (by omega), zero_mul]
      · rw [if_neg (by omega), zero_mul]
    · intro b hb
      rw [Finset.mem_Ioo] at hb
      rw [hin b (by omega) hb.2, if_pos hb.1]
  unfold fftshift fft_fwd
  rw [show L - 1 + (a + L - 1) - (4 * L - 3) / 2 = a by omega,
    fft_periodic (show 4 * L - 3 ≠ 0 by omega)]
  have hq : ∀ k, -(2 * L - 1) < k → k < 2 * L - 1 →
      fft (4 * L - 3) (fwQuads L) k = ((4 * L - 3 : ℤ) : ℂ) * mw_weights (-k) := by
    intro k k0 k1
    have h := fft_centred (L := 2 * L - 1) (off := 0) (by omega) (Or.inl rfl)
      (fun k => mw_weights (-k)) (fwQuads L) (fun p _ _ => by
        rw [fwQuads_eq hL, show 2 * (2 * L - 1) - 1 + 0 = 4 * L - 3 by ring]) (k := k)
      (by omega) k1
    rw [show 2 * (2 * L - 1) - 1 + 0 = 4 * L - 3 by ring, if_pos k0] at h
    exact h
  have hprod : fft (4 * L - 3) (fun b => ifft_fwd (4 * L - 3) (ifftshift (4 * L - 3)
      (fun b => if L - 1 - σ.off ≤ b ∧ b < L - 1 - σ.off + (2 * L - 1 + σ.off)
        then y (b - (L - 1 - σ.off)) else 0)) b * fwQuads L b) a
      = ∑ b ∈ Finset.Ioo (-L) L, X b * fft (4 * L - 3) (fwQuads L) (a - b) := by
    simp only [hpad, fft_eq, Finset.sum_mul, Finset.mul_sum]
    rw [Finset.sum_comm]
    refine Finset.sum_congr rfl fun b _ => Finset.sum_congr rfl fun p _ => ?_
    rw [show -(p * (a - b)) = b * p + -(p * a) by ring, tw_add]
    ring
  have hgoal := hprod
  refine (congrArg (· / ((4 * L - 3 : ℤ) : ℂ)) hgoal).trans ?_
  beta_reduce
  rw [Finset.sum_div]
  refine Finset.sum_congr rfl fun b hb => ?_
  rw [Finset.mem_Ioo] at hb
  rw [hq _ (by omega) (by omega), neg_sub]
  field_simp

/-! ## The integral over `β` -/

theorem wigRing_integral {L l m n : ℤ} (l0 : 0 ≤ l) (l1 : l < L) (c : ℤ → ℤ → ℤ → ℂ) :
    (∫ β in (0 : ℝ)..Real.pi, wigRing L c n β m * (wignerd l m n β : ℂ) * (Real.sin β : ℂ))
      = if |n| ≤ l ∧ |m| ≤ l then c n l m / (2 * Real.pi) ^ 2 else 0 := by
  have hc := fun l m n => continuous_wignerd l m n
  split_ifs with h
  · have e : ∀ β : ℝ, wigRing L c n β m * (wignerd l m n β : ℂ) * (Real.sin β : ℂ)
        = ∑ l' ∈ Finset.Ico 0 L, (2 * (l' : ℂ) + 1) / (8 * (Real.pi : ℂ) ^ 2) * c n l' m
          * ((wignerd l' m n β * wignerd l m n β * Real.sin β : ℝ) : ℂ) := by
      intro β
      unfold wigRing
      rw [Finset.sum_mul, Finset.sum_mul]
      refine Finset.sum_congr rfl fun l' _ => ?_
      push_cast; ring
    simp only [e]
    rw [intervalIntegral.integral_finsetSum (fun l' _ => by
      apply Continuous.intervalIntegrable
      exact continuous_const.mul (Complex.continuous_ofReal.comp
        (((hc _ _ _).mul (hc _ _ _)).mul Real.continuous_sin)))]
    have e2 : ∀ l' ∈ Finset.Ico 0 L, (∫ β in (0 : ℝ)..Real.pi,
        (2 * (l' : ℂ) + 1) / (8 * (Real.pi : ℂ) ^ 2) * c n l' m
          * ((wignerd l' m n β * wignerd l m n β * Real.sin β : ℝ) : ℂ))
        = (2 * (l' : ℂ) + 1) / (8 * (Real.pi : ℂ) ^ 2) * c n l' m * (wigInt l' l m n : ℂ) := by
      intro l' _
      rw [intervalIntegral.integral_const_mul, intervalIntegral.integral_ofReal]
      rfl
    rw [Finset.sum_congr rfl e2, Finset.sum_eq_single l]
    · rw [wigInt_eq h.2 h.2 h.1 h.1, if_pos rfl]
      have hl : (2 * (l : ℂ) + 1) ≠ 0 := by exact_mod_cast (show 2 * l + 1 ≠ 0 by omega)
      have hpi : (Real.pi : ℂ) ≠ 0 := by exact_mod_cast Real.pi_ne_zero
      push_cast
      field_simp
      norm_num
    · intro l' _ hne
      by_cases h' : |m| ≤ l' ∧ |n| ≤ l'
      · rw [wigInt_eq h'.1 h.2 h'.2 h.1, if_neg hne]; simp
      · have : wigInt l' l m n = 0 := by
          unfold wigInt
          have : ∀ β, wignerd l' m n β = 0 := fun β => wignerd_outside _ _ _ _ (by omega)
          simp [this]
        rw [this]; simp
    · intro hl; exact absurd (Finset.mem_Ico.2 ⟨l0, l1⟩) hl
  · have : ∀ β, wignerd l m n β = 0 := fun β => wignerd_outside _ _ _ _ (by omega)
    simp [this]

/-- Contraction of the convolved coefficients with the deltas. -/
theorem fw_contract {L l m n : ℤ} (l0 : 0 ≤ l) (l1 : l < L) (c : ℤ → ℤ → ℤ → ℂ) (X : ℤ → ℂ)
    (hX : ∀ β, wigRing L c n β m = ∑ a ∈ Finset.Ioo (-L) L, X a * cis (a * β)) :
    (∑ a ∈ Finset.Ioo (-L) L, (∑ b ∈ Finset.Ioo (-L) L, X b * mw_weights (b - a))
        * wignerd l a m (Real.pi / 2) * wignerd l a n (Real.pi / 2))
      * Complex.I ^ m * Complex.I ^ (-n)
      = if |n| ≤ l ∧ |m| ≤ l then c n l m / (2 * Real.pi) ^ 2 else 0 := by
  rw [← wigRing_integral l0 l1]
  have hd : ∀ β, (wignerd l m n β : ℂ) = Complex.I ^ m * Complex.I ^ (-n)
      * ∑ a ∈ Finset.Ioo (-L) L, (wignerd l a m (Real.pi / 2) : ℂ) * wignerd l a n (Real.pi / 2)
        * cis (-(a * β)) := by
    intro β
    rw [← Complex.conj_ofReal, wignerd_fourier, map_mul, map_sum, map_zpow₀, Complex.conj_I,
      ← zpow_add₀ Complex.I_ne_zero]
    congr 1
    · rw [← Complex.inv_I, inv_zpow, ← zpow_neg]; congr 1; ring
    · have e : ∀ a, (starRingEnd ℂ) ((wignerd l a m (Real.pi / 2) : ℂ) * wignerd l a n (Real.pi / 2)
          * cis (a * β)) = (wignerd l a m (Real.pi / 2) : ℂ) * wignerd l a n (Real.pi / 2)
          * cis (-(a * β)) := by
        intro a
        rw [map_mul, map_mul, Complex.conj_ofReal, Complex.conj_ofReal, conj_cis]
      simp only [e]
      apply Finset.sum_subset
      · intro x; simp only [Finset.mem_Ico, Finset.mem_Ioo]; omega
      · intro a a1 a2
        rw [Finset.mem_Ioo] at a1
        rw [Finset.mem_Ico] at a2
        rw [wignerd_outside l a m _ (Or.inl (by rw [lt_abs]; omega))]
        simp
  have e : ∀ β : ℝ, wigRing L c n β m * (wignerd l m n β : ℂ) * (Real.sin β : ℂ)
      = ∑ a ∈ Finset.Ioo (-L) L, ∑ b ∈ Finset.Ioo (-L) L,
        (X b * wignerd l a m (Real.pi / 2) * wignerd l a n (Real.pi / 2)
          * Complex.I ^ m * Complex.I ^ (-n)) * (cis ((b - a : ℤ) * β) * (Real.sin β : ℂ)) := by
    intro β
    rw [hX, hd]
    simp only [Finset.sum_mul, Finset.mul_sum]
    refine Finset.sum_congr rfl fun a _ => Finset.sum_congr rfl fun b _ => ?_
    rw [show ((b - a : ℤ) : ℝ) * β = b * β + -(a * β) by push_cast; ring, cis_add]
    ring
  have hcont : ∀ a b : ℤ, Continuous (fun β : ℝ =>
      (X b * wignerd l a m (Real.pi / 2) * wignerd l a n (Real.pi / 2)
          * Complex.I ^ m * Complex.I ^ (-n)) * (cis ((b - a : ℤ) * β) * (Real.sin β : ℂ))) :=
    fun a b => continuous_const.mul ((continuous_cis_mul _).mul
      (Complex.continuous_ofReal.comp Real.continuous_sin))
  simp only [e]
  rw [intervalIntegral.integral_finsetSum (fun a _ =>
    (continuous_finset_sum _ fun b _ => hcont a b).intervalIntegrable _ _)]
  rw [Finset.sum_mul, Finset.sum_mul]
  refine Finset.sum_congr rfl fun a _ => ?_
  rw [intervalIntegral.integral_finsetSum (fun b _ => (hcont a b).intervalIntegrable _ _)]
  simp only [Finset.sum_mul]
  refine Finset.sum_congr rfl fun b _ => ?_
  rw [intervalIntegral.integral_const_mul, ← mw_weights_eq]
  ring

/-- The sum over the rows of the deltas. -/
theorem fw_rows {L l m n : ℤ} (X : ℤ → ℂ) (d : ℤ → ℤ → ℝ) {j k : ℤ}
    (hj : j = m + L - 1) (hk : k = n + L - 1)
    (hd : ∀ a m : ℤ, d (a + L - 1) (m + L - 1) = wignerd l a m (Real.pi / 2)) :
    ∑ a ∈ Finset.Ico 0 (2 * L - 1), X a * d a j * d a k
      = ∑ a ∈ Finset.Ioo (-L) L, X (a + L - 1) * wignerd l a m (Real.pi / 2)
          * wignerd l a n (Real.pi / 2) := by
  have := sum_Ico_shift (-L + 1) L (L - 1) (fun a => X a * d a j * d a k)
  rw [show -L + 1 + (L - 1) = 0 by ring, show L + (L - 1) = 2 * L - 1 by ring] at this
  rw [this, show Finset.Ico (-L + 1) L = Finset.Ioo (-L) L by
    ext x; simp only [Finset.mem_Ico, Finset.mem_Ioo]; omega]
  refine Finset.sum_congr rfl fun a _ => ?_
  rw [hj, hk, show a + (L - 1) = a + L - 1 by ring, hd, hd]

theorem fwContract_ok (method : PyStr) {L N : ℤ} (h1 : 1 ≤ N) (hN : N ≤ L)
    (x : ℤ → ℤ → ℤ → ℂ) {precomps : Option FwTables} (hP : FwArgOk precomps L) (reality : Bool) :
    ∃ y, fwContract method x L N precomps reality = .ok y ∧
      ∀ n l m, nFirst N reality ≤ n → n < N → 0 ≤ l → l < L →
        y (n - nFirst N reality) l (m + L - 1)
          = ∑ a ∈ Finset.Ioo (-L) L, x (n - nFirst N reality) (a + L - 1) (m + L - 1)
              * wignerd l a m (Real.pi / 2) * wignerd l a n (Real.pi / 2) := by
  obtain ⟨cols, ec, hc⟩ := fwColumns_ok method h1 hN reality
  have hcol : ∀ n, nFirst N reality ≤ n → n < N → cols (n - nFirst N reality) = n + L - 1 := by
    intro n n0 n1
    rw [hc _ (by omega) (by rw [nDim_eq]; omega)]; ring
  unfold fwContract
  rw [ec]
  simp only [bind, Except.bind]
  cases precomps with
  | some P =>
    have hP := (hP P rfl).1
    refine ⟨_, rfl, fun n l m n0 n1 l0 l1 => ?_⟩
    exact fw_rows (fun a => x (n - nFirst N reality) a (m + L - 1)) (P.delta l) rfl (hcol n n0 n1)
      (fun a m => hP l a m l0 l1)
  | none =>
    simp only
    obtain ⟨s, e, h⟩ := forRangeM_ind (show (0 : ℤ) ≤ L by omega)
      (fun el (s : (ℤ → ℤ → ℝ) × (ℤ → ℤ → ℤ → ℂ)) => do
        let d ← fwStep method L el s.1
        pure (d, setDegree s.2 el (fun k j => ∑ a ∈ Finset.Ico 0 (2 * L - 1),
          x k a j * d a j * d a (cols k)))) (fun _ _ => 0, fun _ _ _ => 0)
      (fun el s => (∀ m n : ℤ, s.1 (m + L - 1) (n + L - 1) = wignerd (el - 1) m n (Real.pi / 2)) ∧
        ∀ n l m, nFirst N reality ≤ n → n < N → 0 ≤ l → l < el →
        s.2 (n - nFirst N reality) l (m + L - 1)
          = ∑ a ∈ Finset.Ioo (-L) L, x (n - nFirst N reality) (a + L - 1) (m + L - 1)
              * wignerd l a m (Real.pi / 2) * wignerd l a n (Real.pi / 2))
      ⟨fwStart L, fun n l m _ _ a b => by omega⟩
      (fun el s e0 e1 h3 => by
        obtain ⟨d, e, hd⟩ := fwStep_ok method e0 e1 h3.1
        refine ⟨(d, _), by rw [e]; rfl, ?_, fun n l m n0 n1 l0 l1 => ?_⟩
        · rw [show el + 1 - 1 = el by ring]; exact hd
        · simp only [setDegree]
          by_cases hl : l = el
          · rw [if_pos hl, hl]
            exact fw_rows (fun a => x (n - nFirst N reality) a (m + L - 1)) d rfl (hcol n n0 n1) hd
          · rw [if_neg hl]; exact h3.2 n l m n0 n1 l0 (by omega))
    simp only [bind, Except.bind] at e
    rw [e]
    exact ⟨_, rfl, h.2⟩

theorem fourierWignerForward_values (nodes : ℤ → ℤ → ℝ) (method : PyStr) {σ : Scheme}
    (hσ : σ.Resampled) {s : PyStr} (hs : lower s = σ.name) {L N : ℤ} (h1 : 1 ≤ N) (hN : N ≤ L)
    (hL : σ = .mwss → 2 ≤ L) (c : ℤ → ℤ → ℤ → ℂ) (f : Nd ℂ)
    (hf : f.shape = (2 * N - 1) :: σ.shape L 0)
    (hsam : So3SamplesOf nodes σ L N 0 f.get3 (wignerSum 0 L N c))
    {precomps : Option FwTables} (hP : FwArgOk precomps L) (reality : Bool)
    (hre : reality = true → RealWigner c 0 L) :
    ∃ g, fourierWignerForward method f L N precomps reality s
        = .ok (.d3 (2 * N - 1) L (2 * L - 1) g) ∧
      ∀ n l m, -N < n → n < N → 0 ≤ l → l < L → -L < m → m < L →
        g (N - 1 + n) l (m + L - 1) = if |n| ≤ l ∧ |m| ≤ l then c n l m else 0 := by
  have hL1 : 1 ≤ L := by omega
  have ho := off_cases σ
  have hb := nFirst_bounds h1 reality
  have hr := fw_rings hσ L
  have hquads : fwQuadsOf precomps L = fwQuads L := by
    cases precomps with
    | none => rfl
    | some P => exact (hP P rfl).2
  have hlpad : (if lower s = sMWSS then L - 2 else L - 1) = L - 1 - σ.off := by
    rw [hs]; rcases hσ with rfl | rfl
    · rw [if_neg (by decide)]; simp [Scheme.off]
    · rw [if_pos (show Scheme.mwss.name = sMWSS from rfl)]; simp only [Scheme.off]; ring
  have hlp : 0 ≤ L - 1 - σ.off := by
    rcases hσ with rfl | rfl
    · simp only [Scheme.off]; omega
    · simp only [Scheme.off]; have := hL rfl; omega
  unfold fourierWignerForward
  rw [if_neg (not_not.2 (fw_supported hσ hs)), fw_ntheta hσ hs, fw_size hσ hs,
    if_neg (by rw [hf, fw_shape hσ]; simp)]
  simp only [hlpad, hquads, fw_off hσ hs]
  rw [if_neg (by omega), show σ.rings L 0 + (L - 1) = 2 * L - 1 + σ.off by omega]
  set x : ℤ → ℤ → ℤ → ℂ := fun k a j => fwConvolve (fun t => fwExtend
    (fwRings f.get3 N (2 * L - 1 + σ.off) σ.off reality) L N (σ.rings L 0) reality k t j)
    (fwQuads L) L (2 * L - 1 + σ.off) (L - 1 - σ.off) (lower s = sMW) a with hx
  have hxv : ∀ n a m, nFirst N reality ≤ n → n < N → -L < a → a < L → -L < m → m < L →
      x (n - nFirst N reality) (a + L - 1) (m + L - 1) = ∑ b ∈ Finset.Ioo (-L) L,
        (fwCoef L c n b m * Complex.I ^ (-m) * Complex.I ^ n) * mw_weights (b - a) := by
    intro n a m n0 n1 a0 a1 m0 m1
    rw [hx]
    beta_reduce
    refine fwConvolve_values nodes hσ hs hL1 _ _ (fun t t0 t1 => ?_) a0 a1
    rw [← wigRing_fourier]
    refine fwExtend_values nodes hσ hL1 c reality _ (fun t t0 t1 => ?_) t0 t1
    refine fwRings_values hL1 h1 ho c f.get3 reality hre _ (fun p => σ.phi L 0 t p)
      (fun m p => fw_phi hσ L m t p) t (fun g p g0 g1 p0 p1 => ?_) n0 n1 m0 m1
    have hh : σ ≠ .healpix := by rcases hσ with rfl | rfl <;> decide
    have := hsam g t p g0 g1 ⟨t0, t1, p0, by
      rcases hσ with rfl | rfl
      · simpa [Scheme.ringLen, Scheme.off] using p1
      · simpa [Scheme.ringLen, Scheme.off] using p1⟩
    rw [equi_pos hh] at this
    exact this
  obtain ⟨y, ey, hy⟩ := fwContract_ok method h1 hN x hP reality
  have hyv : ∀ n l m, nFirst N reality ≤ n → n < N → 0 ≤ l → l < L → -L < m → m < L →
      y (n - nFirst N reality) l (m + L - 1) * Complex.I ^ m * Complex.I ^ (-n)
        = if |n| ≤ l ∧ |m| ≤ l then c n l m / (2 * Real.pi) ^ 2 else 0 := by
    intro n l m n0 n1 l0 l1 m0 m1
    rw [hy n l m n0 n1 l0 l1, ← fw_contract l0 l1 c
      (fun b => fwCoef L c n b m * Complex.I ^ (-m) * Complex.I ^ n)
      (fun β => wigRing_fourier L c n m β)]
    congr 2
    refine Finset.sum_congr rfl fun a ha => ?_
    rw [Finset.mem_Ioo] at ha
    rw [hxv n a m n0 n1 ha.1 ha.2 m0 m1]
  have hpi : (2 * (Real.pi : ℂ)) ^ 2 ≠ 0 := by
    have : (Real.pi : ℂ) ≠ 0 := by exact_mod_cast Real.pi_ne_zero
    exact pow_ne_zero 2 (mul_ne_zero two_ne_zero this)
  simp only [bind, Except.bind]
  rw [ey]
  refine ⟨_, rfl, fun n l m n0 n1 l0 l1 m0 m1 => ?_⟩
  beta_reduce
  cases reality
  · rw [if_neg Bool.false_ne_true, show N - 1 + n = n - nFirst N false by rw [nFirst_false]; ring,
      show -L + 1 + (m + L - 1) = m by ring,
      show nFirst N false + (n - nFirst N false) = n by ring,
      hyv n l m (by rw [nFirst_false]; omega) n1 l0 l1 m0 m1]
    split_ifs
    · field_simp
    · simp
  · rw [if_pos rfl]
    rw [nFirst_true] at hyv ⊢
    by_cases hn : n < 0
    · rw [if_pos (by omega), show (1 + (N - 2 - (N - 1 + n))) = -n - 0 by ring,
        show 2 * L - 2 - (m + L - 1) = -m + L - 1 by ring,
        show -L + 1 + (-m + L - 1) = -m by ring, show (0 : ℤ) + (-n - 0) = -n by ring,
        hyv (-n) l (-m) (by omega) (by omega) l0 l1 (by omega) (by omega),
        show -L + 1 + (m + L - 1) = m by ring, show -N + 1 + (N - 1 + n) = n by ring,
        neg_one_zpow_abs, neg_one_zpow_abs, abs_neg, abs_neg]
      split_ifs with h
      · have := hre rfl (-n) l (-m) l0 l1 (by rw [abs_neg]; exact h.2)
        rw [neg_neg, neg_neg, show -m + -n = -(m + n) by ring, neg_one_zpow_neg,
          zpow_add₀ (by norm_num)] at this
        rw [this, map_div₀, map_pow, map_mul, Complex.conj_ofReal, map_ofNat]
        field_simp
      · simp
    · rw [if_neg (by omega), show N - 1 + n - (N - 1) = n - 0 by ring,
        show -L + 1 + (m + L - 1) = m by ring, show (0 : ℤ) + (n - 0) = n by ring,
        hyv n l m (by omega) n1 l0 l1 m0 m1]
      split_ifs
      · field_simp
      · simp

end S2fft
