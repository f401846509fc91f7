import Verif.Lemmas.LinearComb
import Verif.Props.C29
import Verif.Props.C30

/-! # Linear combinations through the Fourier-Wigner analysis and the rotation -/

namespace S2fft
open Spec

section
variable (a b : ℂ)

theorem fwRings_lin {reality : Bool} (hr : reality = true → a.im = 0 ∧ b.im = 0)
    (f h : ℤ → ℤ → ℤ → ℂ) (N np off : ℤ) :
    fwRings (fun g t p => a * f g t p + b * h g t p) N np off reality
      = fun k t j => a * fwRings f N np off reality k t j + b * fwRings h N np off reality k t j := by
  unfold fwRings
  split_ifs with hR
  · obtain ⟨ha, hb⟩ := hr hR
    have e : ∀ t p, (fun g => (((a * f g t p + b * h g t p).re : ℝ) : ℂ))
        = fun g => a * (((f g t p).re : ℝ) : ℂ) + b * (((h g t p).re : ℝ) : ℂ) := by
      intro t p
      funext g
      apply Complex.ext <;> simp [ha, hb]
    simp only [rfft, e, fft_lin, add_div, mul_div_assoc, fft_fwd_lin, fftshift_lin]
  · simp only [fft_fwd_lin, fftshift_lin]

theorem fwExtend_lin (f h : ℤ → ℤ → ℤ → ℂ) (L N nt : ℤ) (reality : Bool) :
    fwExtend (fun g t p => a * f g t p + b * h g t p) L N nt reality
      = fun k t j => a * fwExtend f L N nt reality k t j + b * fwExtend h L N nt reality k t j := by
  unfold fwExtend
  funext k t j
  split_ifs
  · rfl
  · ring

theorem fwConvolve_lin (x y quads : ℤ → ℂ) (L nb lpad : ℤ) (mw : Bool) :
    fwConvolve (fun t => a * x t + b * y t) quads L nb lpad mw
      = fun i => a * fwConvolve x quads L nb lpad mw i + b * fwConvolve y quads L nb lpad mw i := by
  unfold fwConvolve
  split_ifs
  · simp only [fft_fwd_lin, fftshift_lin, add_mul, mul_assoc, ite_lin_zero, ifftshift_lin, ifft_fwd_lin]
  · simp only [fft_fwd_lin, fftshift_lin, add_mul, mul_assoc, ite_lin_zero, ifftshift_lin, ifft_fwd_lin]

end

/-- The convolved rings. -/
noncomputable def fwConvolved (f : ℤ → ℤ → ℤ → ℂ) (L N : ℤ) (precomps : Option FwTables)
    (reality : Bool) (s : PyStr) : ℤ → ℤ → ℤ → ℂ := fun k i j =>
  fwConvolve (fun t => fwExtend (fwRings f N (fwSize L s) (fwOffset s) reality) L N
    (fwNtheta L s) reality k t j) (fwQuadsOf precomps L) L (fwNtheta L s + (L - 1))
    (if lower s = sMWSS then L - 2 else L - 1) (lower s = sMW) i

theorem fwConvolved_lin (a b : ℂ) {reality : Bool} (hr : reality = true → a.im = 0 ∧ b.im = 0)
    (f h : ℤ → ℤ → ℤ → ℂ) (L N : ℤ) (precomps : Option FwTables) (s : PyStr) (k i j : ℤ) :
    fwConvolved (fun g t p => a * f g t p + b * h g t p) L N precomps reality s k i j
      = a * fwConvolved f L N precomps reality s k i j
        + b * fwConvolved h L N precomps reality s k i j := by
  unfold fwConvolved
  rw [fwRings_lin a b hr, fwExtend_lin]
  beta_reduce
  rw [fwConvolve_lin]

/-- The coefficient of direction `n`. -/
noncomputable def fwCoeff (X : ℤ → ℤ → ℤ → ℂ) (L N : ℤ) (reality : Bool) (n l m : ℤ) : ℂ :=
  (∑ i ∈ Finset.Ioo (-L) L, X (n - nFirst N reality) (i + L - 1) (m + L - 1)
    * wignerd l i m (Real.pi / 2) * wignerd l i n (Real.pi / 2)) * Complex.I ^ m * Complex.I ^ (-n)

theorem fwCoeff_lin (a b : ℂ) {X Y Z : ℤ → ℤ → ℤ → ℂ} (h : ∀ k i j, Z k i j = a * X k i j + b * Y k i j)
    (L N : ℤ) (reality : Bool) (n l m : ℤ) :
    fwCoeff Z L N reality n l m = a * fwCoeff X L N reality n l m + b * fwCoeff Y L N reality n l m := by
  unfold fwCoeff
  simp only [h, add_mul, Finset.sum_add_distrib, Finset.sum_mul, Finset.mul_sum, mul_assoc]

theorem fwForward_values (σ : Scheme) (hσ : σ = .mw ∨ σ = .mwss) (s : PyStr)
    (hs : lower s = σ.name) {L N : ℤ} (h1 : 1 ≤ N) (hN : N ≤ L) (hL : σ = .mwss → 2 ≤ L)
    (method : PyStr) (f : Nd ℂ) (hf : f.shape = (2 * N - 1) :: σ.shape L 0) (reality : Bool)
    {precomps : Option FwTables} (hP : FwPrecomps L precomps) :
    ∃ g, fourierWignerForward method f L N precomps reality s
        = .ok (.d3 (2 * N - 1) L (2 * L - 1) g) ∧
      ∀ n el m, |n| < N → 0 ≤ el → el < L → -L < m → m < L → g (N - 1 + n) el (m + L - 1)
        = mirrored reality (fwCoeff (fwConvolved f.get3 L N precomps reality s) L N reality) n el m
          * (2 * (Real.pi : ℂ)) ^ 2 := by
  have hlp : ¬ (if lower s = sMWSS then L - 2 else L - 1) < 0 := by
    rw [hs]
    rcases hσ with rfl | rfl
    · rw [if_neg (by decide)]; omega
    · rw [if_pos (show Scheme.mwss.name = sMWSS from rfl)]
      have := hL rfl
      omega
  obtain ⟨y, ey, hy⟩ := fwContract_ok method h1 hN (fwConvolved f.get3 L N precomps reality s)
    (hP.ok (by omega)) reality
  have hyv : ∀ n l m, nFirst N reality ≤ n → n < N → 0 ≤ l → l < L →
      y (n - nFirst N reality) l (m + L - 1) * Complex.I ^ m * Complex.I ^ (-n)
        = fwCoeff (fwConvolved f.get3 L N precomps reality s) L N reality n l m := by
    intro n l m n0 n1 l0 l1
    rw [hy n l m n0 n1 l0 l1]
    rfl
  unfold fourierWignerForward
  rw [if_neg (not_not.2 (fw_supported hσ hs)),
    if_neg (by rw [hf, fw_ntheta hσ hs, fw_size hσ hs, fw_shape hσ]; simp)]
  rw [if_neg hlp]
  simp only [bind, Except.bind]
  have ey' := ey
  unfold fwConvolved at ey'
  rw [ey']
  refine ⟨_, rfl, fun n l m hn l0 l1 m0 m1 => ?_⟩
  obtain ⟨n0, n1⟩ := abs_lt.1 hn
  unfold mirrored
  cases reality
  · rw [if_neg Bool.false_ne_true, show N - 1 + n = n - nFirst N false by rw [nFirst_false]; ring,
      show -L + 1 + (m + L - 1) = m by ring,
      show nFirst N false + (n - nFirst N false) = n by ring,
      hyv n l m (by rw [nFirst_false]; omega) n1 l0 l1, if_neg (by simp)]
  · rw [if_pos rfl]
    rw [nFirst_true] at hyv ⊢
    by_cases hn : n < 0
    · rw [if_pos (by omega), show (1 + (N - 2 - (N - 1 + n))) = -n - 0 by ring,
        show 2 * L - 2 - (m + L - 1) = -m + L - 1 by ring,
        show -L + 1 + (-m + L - 1) = -m by ring, show (0 : ℤ) + (-n - 0) = -n by ring,
        hyv (-n) l (-m) (by omega) (by omega) l0 l1,
        show -L + 1 + (m + L - 1) = m by ring, show -N + 1 + (N - 1 + n) = n by ring,
        neg_one_zpow_abs, neg_one_zpow_abs, if_pos ⟨rfl, hn⟩, zpow_add₀ (by norm_num)]
      ring
    · rw [if_neg (by omega), show N - 1 + n - (N - 1) = n - 0 by ring,
        show -L + 1 + (m + L - 1) = m by ring, show (0 : ℤ) + (n - 0) = n by ring,
        hyv n l m (by omega) n1 l0 l1, if_neg (fun h => hn h.2)]

theorem mirrored_lin (a b : ℂ) {reality : Bool} (hr : reality = true → a.im = 0 ∧ b.im = 0)
    {U V W : ℤ → ℤ → ℤ → ℂ} (h : ∀ n l m, W n l m = a * U n l m + b * V n l m) (n l m : ℤ) :
    mirrored reality W n l m = a * mirrored reality U n l m + b * mirrored reality V n l m := by
  unfold mirrored
  split_ifs with hR
  · obtain ⟨ha, hb⟩ := hr hR.1
    rw [h, map_add, map_mul, map_mul, Complex.conj_eq_iff_im.2 ha, Complex.conj_eq_iff_im.2 hb]
    ring
  · exact h n l m

theorem realPlane_lin (a b : ℂ) {reality : Bool} (hr : reality = true → a.im = 0 ∧ b.im = 0) {L N : ℤ}
    {c d : ℤ → ℤ → ℤ → ℂ} (hc : RealPlane c L N reality) (hd : RealPlane d L N reality) :
    RealPlane (fun n l k => a * c n l k + b * d n l k) L N reality := by
  intro hR el m l0 l1 hm
  obtain ⟨ha, hb⟩ := hr hR
  beta_reduce
  rw [hc hR el m l0 l1 hm, hd hR el m l0 l1 hm, map_add, map_mul, map_mul,
    Complex.conj_eq_iff_im.2 ha, Complex.conj_eq_iff_im.2 hb]
  ring

theorem realMean_lin (a b : ℂ) {reality : Bool} (hr : reality = true → a.im = 0 ∧ b.im = 0)
    {nodes : ℤ → ℤ → ℝ} {σ : Scheme} {L N ns : ℤ} {f h : ℤ → ℤ → ℤ → ℂ}
    (hf : RealMean nodes σ L N ns f reality) (hh : RealMean nodes σ L N ns h reality) :
    RealMean nodes σ L N ns (fun g i j => a * f g i j + b * h g i j) reality := by
  intro hR hσ
  have := realInput_lin a b (hr hR) (hf hR hσ) (hh hR hσ)
  simpa only [Finset.sum_add_distrib, ← Finset.mul_sum] using this

theorem fbanAt_lin (a b : ℂ) {reality : Bool} (hr : reality = true → a.im = 0 ∧ b.im = 0)
    (f h : ℤ → ℤ → ℤ → ℂ) (N n : ℤ) :
    fbanAt (fun g i j => a * f g i j + b * h g i j) N reality n
      = fun i j => a * fbanAt f N reality n i j + b * fbanAt h N reality n i j := by
  funext i j
  unfold fbanAt wignerFban fftshift rfft
  split_ifs with hR
  · obtain ⟨ha, hb⟩ := hr hR
    have e : (fun g => (((a * f g i j + b * h g i j).re : ℝ) : ℂ))
        = fun g => a * (((f g i j).re : ℝ) : ℂ) + b * (((h g i j).re : ℝ) : ℂ) := by
      funext g
      apply Complex.ext <;> simp [ha, hb]
    rw [e, fft_lin]
  · rw [fft_lin]

theorem wigCoef_lin (a b : ℂ) {reality : Bool} (hr : reality = true → a.im = 0 ∧ b.im = 0)
    (f h : ℤ → ℤ → ℤ → ℂ) (G : GlTables) (σ : Scheme) (L N nside : ℤ) (n el m : ℤ) :
    wigFull reality (wigCoef G σ L N nside (fbanAt (fun g i j => a * f g i j + b * h g i j) N reality))
        n el m
      = a * wigFull reality (wigCoef G σ L N nside (fbanAt f N reality)) n el m
        + b * wigFull reality (wigCoef G σ L N nside (fbanAt h N reality)) n el m := by
  have key : ∀ n m, wigCoef G σ L N nside (fbanAt (fun g i j => a * f g i j + b * h g i j) N reality)
      n el m = a * wigCoef G σ L N nside (fbanAt f N reality) n el m
        + b * wigCoef G σ L N nside (fbanAt h N reality) n el m := by
    intro n m
    unfold wigCoef
    rw [fbanAt_lin a b hr, innerSignal_lin, ringSum_lin, Finset.mul_sum, Finset.mul_sum,
      ← Finset.sum_add_distrib]
    exact Finset.sum_congr rfl fun t _ => by ring
  unfold wigFull
  split_ifs with hR
  · obtain ⟨ha, hb⟩ := hr hR.1
    rw [key, map_add, map_mul, map_mul, Complex.conj_eq_iff_im.2 ha, Complex.conj_eq_iff_im.2 hb]
    ring
  · exact key n m

theorem rotCoef_lin (a b : ℂ) (α β γ : ℝ) (c d : ℤ → ℤ → ℂ) (l m : ℤ) :
    rotCoef α β γ (fun l n => a * c l n + b * d l n) l m
      = a * rotCoef α β γ c l m + b * rotCoef α β γ d l m := by
  unfold rotCoef
  rw [Finset.mul_sum, Finset.mul_sum, ← Finset.sum_add_distrib]
  exact Finset.sum_congr rfl fun t _ => by ring

end S2fft
