import Verif.Model.BaseWigner
import Verif.Spec.WignerExpansion
import Verif.Props.C24

/-! # Lemmas for the base Wigner transforms -/

namespace S2fft
open Spec

/-- One Fourier plane of a Wigner expansion. -/
noncomputable def wigPlane (lo L : ℤ) (c : ℤ → ℤ → ℤ → ℂ) (n : ℤ) (β α : ℝ) : ℂ :=
  ∑ l ∈ Finset.Ico lo L, ∑ m ∈ Finset.Ico (-l) (l + 1),
    (2 * (l : ℂ) + 1) / (8 * (Real.pi : ℂ) ^ 2) * c n l m * (wignerd l m n β : ℝ) * cis (m * α)

theorem wignerSum_planes (lo L N : ℤ) (c : ℤ → ℤ → ℤ → ℂ) (α β γ : ℝ) :
    wignerSum lo L N c α β γ
      = ∑ n ∈ Finset.Ioo (-N) N, wigPlane lo L c n β α * cis (n * γ) := by
  unfold wignerSum wigPlane wignerD
  refine Finset.sum_congr rfl fun n _ => ?_
  rw [Finset.sum_mul]
  refine Finset.sum_congr rfl fun l _ => ?_
  rw [Finset.sum_mul]
  refine Finset.sum_congr rfl fun m _ => ?_
  rw [map_mul, map_mul, conj_cis, conj_cis, Complex.conj_ofReal, neg_neg, neg_neg]
  ring

theorem scale_mul {l : ℤ} (hl : 0 ≤ l) : √((2 * (l : ℝ) + 1) / (16 * Real.pi ^ 3))
    * √((2 * (l : ℝ) + 1) / (4 * Real.pi)) = (2 * (l : ℝ) + 1) / (8 * Real.pi ^ 2) := by
  have hl' : (0 : ℝ) ≤ l := by exact_mod_cast hl
  have hpi := Real.pi_pos
  rw [← Real.sqrt_mul (by positivity)]
  rw [show (2 * (l : ℝ) + 1) / (16 * Real.pi ^ 3) * ((2 * l + 1) / (4 * Real.pi))
    = ((2 * (l : ℝ) + 1) / (8 * Real.pi ^ 2)) ^ 2 by field_simp; ring]
  exact Real.sqrt_sq (by positivity)

theorem neg_one_zpow_sq (n : ℤ) : ((-1 : ℂ)) ^ n * (-1) ^ n = 1 := by
  rw [← zpow_add₀ (by norm_num), show n + n = 2 * n by ring, zpow_mul]; norm_num

theorem neg_one_zpow_neg (n : ℤ) : ((-1 : ℂ)) ^ (-n) = (-1) ^ n := by
  rw [zpow_neg, ← inv_zpow]; norm_num

/-- A plane is the harmonic expansion of spin `-n` with rescaled coefficients. -/
theorem wigPlane_harmonic {lo L : ℤ} (h0 : 0 ≤ lo) (c : ℤ → ℤ → ℤ → ℂ) (n : ℤ) (β α : ℝ) :
    wigPlane lo L c n β α = (-1) ^ n * harmonicSum lo L (-n)
      (fun l m => c n l m * (√((2 * (l : ℝ) + 1) / (16 * Real.pi ^ 3)) : ℝ)) β α := by
  unfold wigPlane harmonicSum sYlm
  rw [Finset.mul_sum]
  refine Finset.sum_congr rfl fun l hl => ?_
  rw [Finset.mem_Ico] at hl
  rw [Finset.mul_sum]
  refine Finset.sum_congr rfl fun m _ => ?_
  have hs : ((√((2 * (l : ℝ) + 1) / (16 * Real.pi ^ 3)) : ℝ) : ℂ)
      * (√((2 * (l : ℝ) + 1) / (4 * Real.pi)) : ℝ) = (2 * (l : ℂ) + 1) / (8 * (Real.pi : ℂ) ^ 2) := by
    rw [← Complex.ofReal_mul, scale_mul (by omega)]; push_cast; ring
  rw [← hs, neg_neg, neg_one_zpow_neg, Complex.ofReal_mul]
  have h2 := neg_one_zpow_sq n
  generalize ((-1 : ℂ)) ^ n = s at h2 ⊢
  linear_combination (-(c n l m * (√((2 * (l : ℝ) + 1) / (16 * Real.pi ^ 3)) : ℝ)
    * (√((2 * (l : ℝ) + 1) / (4 * Real.pi)) : ℝ) * (wignerd l m n β : ℝ) * cis (m * α))) * h2

/-- Coefficients of a real signal on the rotation group. -/
def RealWigner (c : ℤ → ℤ → ℤ → ℂ) (lo L : ℤ) : Prop :=
  ∀ n l m, lo ≤ l → l < L → |m| ≤ l → c (-n) l (-m) = (-1) ^ (m + n) * (starRingEnd ℂ) (c n l m)

theorem wigPlane_conj {c : ℤ → ℤ → ℤ → ℂ} {lo L : ℤ} (h : RealWigner c lo L) (n : ℤ) (β α : ℝ) :
    wigPlane lo L c (-n) β α = (starRingEnd ℂ) (wigPlane lo L c n β α) := by
  unfold wigPlane
  rw [map_sum]
  refine Finset.sum_congr rfl fun l hl => ?_
  rw [Finset.mem_Ico] at hl
  rw [map_sum, show Finset.Ico (-l) (l + 1) = Finset.Ioo (-(l + 1)) (l + 1) by
    ext x; simp only [Finset.mem_Ico, Finset.mem_Ioo]; omega, ← sum_Ioo_neg (l + 1)]
  refine Finset.sum_congr rfl fun m hm => ?_
  rw [Finset.mem_Ioo] at hm
  rw [h n l m hl.1 hl.2 (by rw [abs_le]; omega), wignerd_neg_neg]
  simp only [map_mul, map_div₀, Complex.conj_ofReal, conj_cis, map_add, map_pow, map_one]
  rw [show (((-m : ℤ) : ℝ) * α) = -(m * α) by push_cast; ring]
  have h2 := neg_one_zpow_sq (m + n)
  have e2 : (starRingEnd ℂ) (2 : ℂ) = 2 := Complex.conj_ofNat 2
  have e8 : (starRingEnd ℂ) (8 : ℂ) = 8 := Complex.conj_ofNat 8
  have el : (starRingEnd ℂ) (l : ℂ) = l := by simp
  rw [e2, e8, el]
  push_cast
  generalize ((-1 : ℂ)) ^ (m + n) = s at h2 ⊢
  linear_combination ((2 * (l : ℂ) + 1) / (8 * (Real.pi : ℂ) ^ 2) * (starRingEnd ℂ) (c n l m)
    * (wignerd l m n β : ℝ) * cis (-(m * α))) * h2

theorem realWignerCoeffs_real (c : ℤ → ℤ → ℤ → ℂ) {lo L : ℤ}
    (h : ∀ l, lo ≤ l → l < L → (c 0 l 0).im = 0) : RealWigner (realWignerCoeffs c) lo L := by
  intro n l m h0 h1 _
  have hz := neg_one_zpow_sq (m + n)
  have hone : ∀ k : ℤ, (starRingEnd ℂ) ((-1 : ℂ) ^ k) = (-1) ^ k := fun k => by
    rw [map_zpow₀, map_neg, map_one]
  unfold realWignerCoeffs
  by_cases h2 : n < 0 ∨ n = 0 ∧ m < 0
  · rw [if_neg (by omega), if_pos h2, map_mul, hone, Complex.conj_conj, ← mul_assoc, hz, one_mul]
  · by_cases h3 : n = 0 ∧ m = 0
    · obtain ⟨rfl, rfl⟩ := h3
      simp [Complex.conj_eq_iff_im.2 (h l h0 h1)]
    · rw [if_pos (by omega), if_neg h2, neg_neg, neg_neg, show -m + -n = -(m + n) by ring,
        neg_one_zpow_neg]

theorem tw_gamma (N n g : ℤ) : tw (2 * N - 1) (n * g) = cis (n * gammaAt N g) := by
  unfold tw gammaAt
  congr 1; push_cast; ring

theorem ifft_gamma {N : ℤ} (hN : 1 ≤ N) (a : ℤ → ℂ) (g : ℤ) :
    ifft_fwd (ngamma N) (ifftshift (ngamma N) (fun k => a (k - (N - 1)))) g
      = ∑ n ∈ Finset.Ioo (-N) N, a n * cis (n * gammaAt N g) := by
  unfold ngamma
  rw [ifft_fwd_ifftshift (by omega)]
  have := sum_Ico_shift (-N + 1) N (N - 1) (fun i => a (i - (N - 1))
    * tw (2 * N - 1) ((i - (2 * N - 1) / 2) * g))
  rw [show -N + 1 + (N - 1) = 0 by ring, show N + (N - 1) = 2 * N - 1 by ring] at this
  rw [this, show Finset.Ico (-N + 1) N = Finset.Ioo (-N) N by
    ext x; simp only [Finset.mem_Ico, Finset.mem_Ioo]; omega]
  refine Finset.sum_congr rfl fun n _ => ?_
  rw [add_sub_cancel_right, show n + (N - 1) - (2 * N - 1) / 2 = n by omega, tw_gamma]

theorem irfft_gamma {N : ℤ} (hN : 1 ≤ N) (a : ℤ → ℂ)
    (h : ∀ n, 0 ≤ n → n < N → a (-n) = (starRingEnd ℂ) (a n)) (g : ℤ) :
    irfft_fwd (2 * N - 1 - (N - 1)) a (2 * N - 1) g
      = ∑ n ∈ Finset.Ioo (-N) N, a n * cis (n * gammaAt N g) := by
  rw [sum_Ioo_split hN]
  unfold irfft_fwd
  simp only
  rw [show (2 * N - 1 + 1) / 2 = N by omega, if_neg (show ¬ (2 * N - 1) % 2 = 0 by omega), add_zero,
    if_pos (show 0 < 2 * N - 1 - (N - 1) by omega)]
  have h0 := h 0 le_rfl (by omega)
  rw [neg_zero, eq_comm, Complex.conj_eq_iff_re] at h0
  rw [Complex.ofReal_add, h0, Complex.ofReal_sum, Int.cast_zero, zero_mul, cis_zero, mul_one]
  congr 1
  refine Finset.sum_congr rfl fun n hn => ?_
  rw [Finset.mem_Ico] at hn
  rw [if_pos (by omega), h n (by omega) hn.2]
  have e : (2 * Real.pi * n * g / (2 * N - 1 : ℤ) : ℝ) = n * gammaAt N g := by
    unfold gammaAt; push_cast; ring
  have e2 : ((-n : ℤ) : ℝ) * gammaAt N g = -(n * gammaAt N g) := by push_cast; ring
  rw [e, e2, ← conj_cis, ← map_mul, Complex.add_conj]

theorem irfft_congr {len n : ℤ} (hn : 0 ≤ n) {a b : ℤ → ℂ} {p : ℤ}
    (h : ∀ k, 0 ≤ k → k < len → a k = b k) : irfft_fwd len a n p = irfft_fwd len b n p := by
  have e : ∀ k, 0 ≤ k → (if k < len then a k else 0) = (if k < len then b k else 0) := by
    intro k hk
    split_ifs with hl
    · exact h k hk hl
    · rfl
  unfold irfft_fwd
  simp only
  rw [e 0 le_rfl, e (n / 2) (by omega)]
  congr 3
  refine Finset.sum_congr rfl fun k hk => ?_
  rw [Finset.mem_Ico] at hk
  rw [e k (by omega)]

theorem fft_gamma {N : ℤ} (hN : 1 ≤ N) (a : ℤ → ℂ) {k : ℤ} (h1 : -N < k) (h2 : k < N) (x : ℤ → ℂ)
    (hx : ∀ g, 0 ≤ g → g < 2 * N - 1 → x g = ∑ n ∈ Finset.Ioo (-N) N, a n * cis (n * gammaAt N g)) :
    fft (ngamma N) x k = (2 * (N : ℂ) - 1) * a k := by
  unfold ngamma
  rw [fft_eq]
  have e : ∀ g ∈ Finset.Ico 0 (2 * N - 1), x g * tw (2 * N - 1) (-(g * k))
      = ∑ n ∈ Finset.Ioo (-N) N, a n * tw (2 * N - 1) (g * (n - k)) := by
    intro g hg
    rw [Finset.mem_Ico] at hg
    rw [hx g hg.1 hg.2, Finset.sum_mul]
    refine Finset.sum_congr rfl fun n _ => ?_
    rw [← tw_gamma, mul_assoc, ← tw_add]
    congr 2; ring
  rw [Finset.sum_congr rfl e, Finset.sum_comm]
  simp only [← Finset.mul_sum]
  rw [Finset.sum_eq_single k]
  · rw [sum_tw (by omega), if_pos (by simp)]
    push_cast; ring
  · intro n hn hk
    rw [Finset.mem_Ioo] at hn
    rw [sum_tw (by omega), if_neg, mul_zero]
    intro hd
    obtain ⟨q, hq⟩ := hd
    have : q = 0 := by
      by_contra hq0
      rcases lt_or_gt_of_ne hq0 with h | h
      · nlinarith
      · nlinarith
    rw [this] at hq
    omega
  · intro hk
    exact absurd (Finset.mem_Ioo.2 ⟨h1, h2⟩) hk

theorem so3_shape {σ : Scheme} {L : ℤ} {nside : Option ℤ} (hv : σ.Valid L (nside.getD 0)) (N : ℤ) :
    so3_f_shape L N σ.name nside = .ok ((2 * N - 1) :: σ.shape L (nside.getD 0)) := by
  cases σ
  all_goals first
    | rfl
    | (cases nside with
       | none => exact absurd (hv.2 rfl) (by simp)
       | some n => rfl)

theorem packSo3_scheme {σ : Scheme} {L nside : ℤ} (N : ℤ) (f : ℤ → ℤ → ℤ → ℂ) :
    ∃ out, packSo3 ((2 * N - 1) :: σ.shape L nside) f = .ok out ∧
      out.shape = (2 * N - 1) :: σ.shape L nside ∧
      ∀ g t p, out.get3 g (σ.pos nside t p).1 (σ.pos nside t p).2
          = f g (σ.pos nside t p).1 (σ.pos nside t p).2 := by
  cases σ <;> exact ⟨_, rfl, rfl, fun g t p => rfl⟩

theorem planeOf_shape {σ : Scheme} {L nside : ℤ} (N : ℤ) (f : ℤ → ℤ → ℂ) :
    (planeOf ((2 * N - 1) :: σ.shape L nside) f).shape = σ.shape L nside := by
  cases σ <;> rfl

theorem planeOf_get {σ : Scheme} {L nside : ℤ} (N : ℤ) (f : ℤ → ℤ → ℂ) (t p : ℤ) :
    (planeOf ((2 * N - 1) :: σ.shape L nside) f).get2 (σ.pos nside t p).1 (σ.pos nside t p).2
      = f (σ.pos nside t p).1 (σ.pos nside t p).2 := by
  cases σ <;> rfl

/-- The factor between the coefficients of a plane and those of the Wigner expansion. -/
noncomputable def wigW (l : ℤ) : ℝ := 2 * Real.pi * √((2 * (l : ℝ) + 1) / (16 * Real.pi ^ 3))

theorem wigW_mul {l : ℤ} (hl : 0 ≤ l) : wigW l * √(4 * Real.pi / (2 * (l : ℝ) + 1)) = 1 := by
  have hl' : (0 : ℝ) ≤ l := by exact_mod_cast hl
  have hpi := Real.pi_pos
  unfold wigW
  rw [mul_assoc, ← Real.sqrt_mul (by positivity),
    show (2 * (l : ℝ) + 1) / (16 * Real.pi ^ 3) * (4 * Real.pi / (2 * l + 1))
      = (1 / (2 * Real.pi)) ^ 2 by field_simp; ring, Real.sqrt_sq (by positivity)]
  field_simp

theorem wigPlane_scaled {lo L : ℤ} (h0 : 0 ≤ lo) (c : ℤ → ℤ → ℤ → ℂ) (n : ℤ) (β α : ℝ) :
    2 * Real.pi * wigPlane lo L c n β α = harmonicSum lo L (-n)
      (fun l m => (-1) ^ n * (c n l m * wigW l)) β α := by
  rw [wigPlane_harmonic h0]
  unfold harmonicSum wigW
  simp only [Finset.mul_sum]
  refine Finset.sum_congr rfl fun l hl => Finset.sum_congr rfl fun m _ => ?_
  push_cast
  ring

theorem wignerSum_real {c : ℤ → ℤ → ℤ → ℂ} {lo L : ℤ} (h : RealWigner c lo L) (N : ℤ) (α β γ : ℝ) :
    (wignerSum lo L N c α β γ).im = 0 := by
  rw [← Complex.conj_eq_iff_im, wignerSum_planes, map_sum, ← sum_Ioo_neg N]
  refine Finset.sum_congr rfl fun n _ => ?_
  rw [map_mul, conj_cis, wigPlane_conj h, Complex.conj_conj]
  congr 2; push_cast; ring

/-- The planes handed to the spherical transforms. -/
theorem fban_plane {N : ℤ} (hN : 1 ≤ N) {c : ℤ → ℤ → ℤ → ℂ} {lo L : ℤ} {f : ℤ → ℤ → ℤ → ℂ}
    {i j : ℤ} {θ φ : ℝ} (reality : Bool) (hre : reality = true → RealWigner c lo L)
    (hs : ∀ g, 0 ≤ g → g < 2 * N - 1 → f g i j = wignerSum lo L N c φ θ (gammaAt N g)) {n : ℤ}
    (h1 : -N < n) (h2 : n < N) :
    wignerBaseFban f N reality (n - (if reality then 0 else -N + 1)) i j
      = 2 * Real.pi * wigPlane lo L c n θ φ := by
  have hne : (2 * (N : ℂ) - 1) ≠ 0 := by exact_mod_cast (by omega : 2 * N - 1 ≠ 0)
  have hfft := fft_gamma hN (fun n => wigPlane lo L c n θ φ) h1 h2 (fun g => f g i j)
    (fun g a b => by rw [← wignerSum_planes]; exact hs g a b)
  have key : (if reality then rfft (ngamma N) (fun g => (f g i j).re)
        (n - (if reality then 0 else -N + 1))
      else fftshift (ngamma N) (fft (ngamma N) (fun g => f g i j))
        (n - (if reality then 0 else -N + 1))) = (2 * (N : ℂ) - 1) * wigPlane lo L c n θ φ := by
    cases reality
    · rw [if_neg Bool.false_ne_true, if_neg Bool.false_ne_true,
        fftshift_fft (by unfold ngamma; omega), ← hfft]
      congr 1
      unfold ngamma
      omega
    · rw [if_pos rfl, if_pos rfl, sub_zero, ← hfft]
      unfold rfft fft ngamma
      refine Finset.sum_congr rfl fun g hg => ?_
      rw [Finset.mem_Ico] at hg
      congr 1
      beta_reduce
      rw [hs g hg.1 hg.2]
      exact Complex.conj_eq_iff_re.1 (Complex.conj_eq_iff_im.2 (wignerSum_real (hre rfl) N _ _ _))
  unfold wignerBaseFban
  rw [key]
  field_simp

end S2fft
