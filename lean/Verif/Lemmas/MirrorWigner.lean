import Verif.Lemmas.Mirror
import Verif.Props.C53Wigner

/-! # Conjugates and mirror images on the rotation group -/

namespace S2fft
open Spec

/-! ## Expansions -/

theorem wignerD_conj (l m n : ℤ) (α β γ : ℝ) :
    wignerD l m n α β γ = (-1) ^ (m + n) * (starRingEnd ℂ) (wignerD l (-m) (-n) α β γ) := by
  unfold wignerD
  have h := wignerd_neg_neg l m n β
  rw [h]
  simp only [map_mul, Complex.conj_ofReal, conj_cis]
  push_cast
  have e : ((-1 : ℂ)) ^ (m + n) * (-1) ^ (m + n) = 1 := by rw [← mul_zpow]; norm_num
  rw [show -(-(-(m : ℝ) * α)) = -(m * α) by ring, show -(-(-(n : ℝ) * γ)) = -(n * γ) by ring]
  linear_combination (-(cis (-(m * α)) * (wignerd l m n β : ℂ) * cis (-(n * γ)))) * e

theorem wignerD_mirror (l m n : ℤ) (α β γ : ℝ) :
    wignerD l m n α (Real.pi - β) (-γ) = (-1) ^ (l + m) * wignerD l m (-n) α β γ := by
  unfold wignerD
  have h := wignerd_pi_sub l m n β
  have h2 := wignerd_neg_neg l m (-n) β
  rw [neg_neg] at h2
  rw [h, h2]
  push_cast
  have e : ((-1 : ℂ)) ^ (l + n) * (-1) ^ (m + -n) = (-1) ^ (l + m) := by
    rw [← zpow_add₀ (by norm_num)]; congr 1; ring
  rw [← e, show -((n : ℝ) * -γ) = -(-n * γ) by ring]
  ring

theorem sum_neg_Ioo (N : ℤ) (a : ℤ → ℂ) :
    ∑ n ∈ Finset.Ioo (-N) N, a (-n) = ∑ n ∈ Finset.Ioo (-N) N, a n := by
  refine Finset.sum_bij (fun n _ => -n) ?_ ?_ ?_ ?_
  · intro n hn; rw [Finset.mem_Ioo] at hn ⊢; omega
  · intro a _ b _ h; exact neg_injective h
  · intro n hn; rw [Finset.mem_Ioo] at hn
    exact ⟨-n, by rw [Finset.mem_Ioo]; omega, by ring⟩
  · intro n _; rfl

theorem wignerSum_conj (lo L N : ℤ) {c c' : ℤ → ℤ → ℤ → ℂ} (α β γ : ℝ)
    (h : ∀ n l m, |n| < N → lo ≤ l → l < L → |m| ≤ l →
      c' n l m = (-1) ^ (m + n) * (starRingEnd ℂ) (c (-n) l (-m))) :
    wignerSum lo L N c' α β γ = (starRingEnd ℂ) (wignerSum lo L N c α β γ) := by
  unfold wignerSum
  rw [← sum_neg_Ioo N fun n => ∑ l ∈ Finset.Ico lo L, ∑ m ∈ Finset.Ico (-l) (l + 1),
    (2 * (l : ℂ) + 1) / (8 * (Real.pi : ℂ) ^ 2) * c n l m
      * (starRingEnd ℂ) (wignerD l m n α β γ), map_sum]
  refine Finset.sum_congr rfl fun n hn => ?_
  rw [Finset.mem_Ioo] at hn
  rw [map_sum]
  refine Finset.sum_congr rfl fun l hl => ?_
  rw [Finset.mem_Ico] at hl
  rw [map_sum]
  refine Finset.sum_bij (fun m _ => -m) ?_ ?_ ?_ ?_
  · intro m hm; rw [Finset.mem_Ico] at hm ⊢; omega
  · intro a _ b _ h; exact neg_injective h
  · intro m hm; rw [Finset.mem_Ico] at hm
    exact ⟨-m, by rw [Finset.mem_Ico]; omega, by ring⟩
  · intro m hm
    rw [Finset.mem_Ico] at hm
    rw [h n l m (abs_lt.2 hn) hl.1 hl.2 (abs_le.2 ⟨hm.1, by omega⟩), wignerD_conj]
    have e : ((-1 : ℂ)) ^ (m + n) * (-1) ^ (m + n) = 1 := by rw [← mul_zpow]; norm_num
    have hr : (starRingEnd ℂ) ((2 * (l : ℂ) + 1) / (8 * (Real.pi : ℂ) ^ 2))
        = (2 * (l : ℂ) + 1) / (8 * (Real.pi : ℂ) ^ 2) := by
      simp only [map_div₀, map_add, map_mul, map_pow, Complex.conj_ofReal, map_ofNat, map_one,
        map_intCast]
    simp only [map_mul, map_zpow₀, map_neg, map_one, Complex.conj_conj, hr]
    linear_combination ((2 * (l : ℂ) + 1) / (8 * (Real.pi : ℂ) ^ 2) * (starRingEnd ℂ) (c (-n) l (-m))
      * wignerD l (-m) (-n) α β γ) * e

theorem wignerSum_mirror (lo L N : ℤ) {c c' : ℤ → ℤ → ℤ → ℂ} (α β γ : ℝ)
    (h : ∀ n l m, |n| < N → lo ≤ l → l < L → |m| ≤ l → c' n l m = (-1) ^ (l + m) * c (-n) l m) :
    wignerSum lo L N c' α (Real.pi - β) (-γ) = wignerSum lo L N c α β γ := by
  unfold wignerSum
  rw [← sum_neg_Ioo N fun n => ∑ l ∈ Finset.Ico lo L, ∑ m ∈ Finset.Ico (-l) (l + 1),
    (2 * (l : ℂ) + 1) / (8 * (Real.pi : ℂ) ^ 2) * c n l m
      * (starRingEnd ℂ) (wignerD l m n α β γ)]
  refine Finset.sum_congr rfl fun n hn => Finset.sum_congr rfl fun l hl =>
    Finset.sum_congr rfl fun m hm => ?_
  rw [Finset.mem_Ioo] at hn
  rw [Finset.mem_Ico] at hl hm
  rw [h n l m (abs_lt.2 hn) hl.1 hl.2 (abs_le.2 ⟨hm.1, by omega⟩), wignerD_mirror]
  have e : ((-1 : ℂ)) ^ (l + m) * (-1) ^ (l + m) = 1 := by rw [← mul_zpow]; norm_num
  simp only [map_mul, map_zpow₀, map_neg, map_one]
  linear_combination ((2 * (l : ℂ) + 1) / (8 * (Real.pi : ℂ) ^ 2) * c (-n) l m
    * (starRingEnd ℂ) (wignerD l m (-n) α β γ)) * e

/-- The third angle of the mirrored plane. -/
theorem cis_gamma_neg {N : ℤ} (hN : 1 ≤ N) (n g : ℤ) :
    cis (n * gammaAt N (-g % (2 * N - 1))) = cis (n * -gammaAt N g) := by
  have hn : (2 * (N : ℝ) - 1) ≠ 0 := by
    have : (1 : ℝ) ≤ N := by exact_mod_cast hN
    linarith
  have hg : gammaAt N (-g % (2 * N - 1))
      = -gammaAt N g + ((-(-g / (2 * N - 1)) : ℤ) : ℝ) * (2 * Real.pi) := by
    have := Int.emod_add_mul_ediv (-g) (2 * N - 1)
    have : ((-g % (2 * N - 1) + (2 * N - 1) * (-g / (2 * N - 1)) : ℤ) : ℝ) = ((-g : ℤ) : ℝ) := by
      rw [this]
    unfold gammaAt
    push_cast at this ⊢
    field_simp
    linear_combination this
  rw [hg]
  generalize -(-g / (2 * N - 1)) = j
  rw [show (n : ℝ) * (-gammaAt N g + (j : ℝ) * (2 * Real.pi))
    = n * -gammaAt N g + ((n * j : ℤ) : ℝ) * (2 * Real.pi) by push_cast; ring]
  unfold cis
  push_cast
  rw [add_mul, Complex.exp_add]
  have := Complex.exp_int_mul_two_pi_mul_I (n * j)
  push_cast at this
  rw [show ((n : ℂ) * j) * (2 * Real.pi) * Complex.I = (n : ℂ) * j * (2 * Real.pi * Complex.I) by
    ring, this, mul_one]

theorem wignerSum_gamma {lo L N : ℤ} (hN : 1 ≤ N) {c : ℤ → ℤ → ℤ → ℂ} (α β : ℝ) (g : ℤ) :
    wignerSum lo L N c α β (gammaAt N (-g % (2 * N - 1))) = wignerSum lo L N c α β (-gammaAt N g) := by
  unfold wignerSum wignerD
  refine Finset.sum_congr rfl fun n _ => Finset.sum_congr rfl fun l _ =>
    Finset.sum_congr rfl fun m _ => ?_
  congr 3
  have := cis_gamma_neg hN (-n) g
  push_cast at this
  rw [← neg_mul, this, ← neg_mul]

theorem wignerCoeffs_conj (flmn : ℤ → ℤ → ℤ → ℂ) (L N n l m : ℤ) :
    wignerCoeffs (conjWigner L N flmn) L N false n l m
      = (-1) ^ (m + n) * (starRingEnd ℂ) (wignerCoeffs flmn L N false (-n) l (-m)) := by
  unfold wignerCoeffs conjWigner
  simp only [Bool.false_eq_true, if_false]
  rw [show N - 1 + n - N + 1 + (m + L - 1 - L + 1) = m + n by ring,
    show 2 * N - 2 - (N - 1 + n) = N - 1 + -n by ring,
    show 2 * L - 2 - (m + L - 1) = -m + L - 1 by ring]

theorem wignerCoeffs_mirror (flmn : ℤ → ℤ → ℤ → ℂ) (L N n l m : ℤ) :
    wignerCoeffs (mirrorWigner L N flmn) L N false n l m
      = (-1) ^ (l + m) * wignerCoeffs flmn L N false (-n) l m := by
  unfold wignerCoeffs mirrorWigner
  simp only [Bool.false_eq_true, if_false]
  rw [show m + L - 1 - L + 1 = m by ring, show 2 * N - 2 - (N - 1 + n) = N - 1 + -n by ring]

/-! ## Analysis -/

theorem gammaPlane_conj {σ : Scheme} {L N ns : ℤ} {f f' : ℤ → ℤ → ℤ → ℂ}
    (h : ConjugatesSo3 σ L N ns f f') (n : ℤ) :
    Conjugates σ L ns (gammaPlane f N (-n)) (gammaPlane f' N n) := by
  intro t p ht
  unfold gammaPlane
  rw [map_mul, map_sum]
  have hr : (starRingEnd ℂ) (2 * (Real.pi : ℂ) / (2 * (N : ℂ) - 1)) = 2 * Real.pi / (2 * (N : ℂ) - 1) := by
    simp only [map_div₀, map_sub, map_mul, Complex.conj_ofReal, map_ofNat, map_one, map_intCast]
  rw [hr]
  congr 1
  refine Finset.sum_congr rfl fun g hg => ?_
  rw [Finset.mem_Ico] at hg
  rw [h g hg.1 hg.2 t p ht, map_mul]
  congr 1
  rw [conj_cis, conj_cis, conj_cis]
  congr 1
  push_cast
  ring

theorem sum_neg_emod {K : ℤ} (hK : 0 < K) (a : ℤ → ℂ) :
    ∑ g ∈ Finset.Ico 0 K, a (-g % K) = ∑ g ∈ Finset.Ico 0 K, a g := by
  refine Finset.sum_bij (fun g _ => -g % K) ?_ ?_ ?_ ?_
  · intro g _
    rw [Finset.mem_Ico]
    exact ⟨Int.emod_nonneg _ (by omega), Int.emod_lt_of_pos _ hK⟩
  · intro a ha b hb h
    rw [Finset.mem_Ico] at ha hb
    have h1 : (-a - -b) % K = 0 := Int.emod_eq_emod_iff_emod_sub_eq_zero.1 h
    obtain ⟨c, hc⟩ := Int.dvd_of_emod_eq_zero h1
    have : c = 0 := by
      by_contra h0
      rcases lt_or_gt_of_ne h0 with h | h <;> nlinarith
    subst this
    omega
  · intro g hg
    rw [Finset.mem_Ico] at hg
    refine ⟨-g % K, ?_, ?_⟩
    · rw [Finset.mem_Ico]
      exact ⟨Int.emod_nonneg _ (by omega), Int.emod_lt_of_pos _ hK⟩
    · have h1 : (-(-g % K)) % K = g % K := by
        rw [Int.emod_eq_emod_iff_emod_sub_eq_zero]
        refine Int.emod_eq_zero_of_dvd ⟨-g / K, ?_⟩
        have := Int.emod_add_mul_ediv (-g) K
        linarith
      rw [h1, Int.emod_eq_of_lt hg.1 hg.2]
  · intro g _; rfl

theorem gammaPlane_mirror {σ : Scheme} {L N ns : ℤ} (hN : 1 ≤ N) {f f' : ℤ → ℤ → ℤ → ℂ}
    (h : MirroredSo3 σ L N ns f f') (n : ℤ) :
    Mirrored σ L ns (gammaPlane f N (-n)) (gammaPlane f' N n) := by
  intro t p ht
  unfold gammaPlane
  congr 1
  rw [← sum_neg_emod (by omega : 0 < 2 * N - 1)]
  refine Finset.sum_congr rfl fun g hg => ?_
  rw [Finset.mem_Ico] at hg
  rw [h g hg.1 hg.2 t p ht, cis_gamma_neg hN, Int.cast_neg, neg_mul_comm]

/-- What the forward transforms compute from samples that are not resampled. -/
def PlainFwd (σ : Scheme) (L N ns lo : ℤ) (θ w : ℤ → ℝ) (f g : ℤ → ℤ → ℤ → ℂ) : Prop :=
  ∀ n l m, |n| < N → 0 ≤ l → l < L → -L < m → m < L → g (N - 1 + n) l (m + L - 1)
    = if l < max |n| lo then 0 else (-1) ^ n
        * fAt (ringSum σ L ns (gammaPlane f N n)) (-n) (σ.rings L ns) θ w l m
        * (√(4 * Real.pi / (2 * (l : ℝ) + 1)) : ℝ)

section
variable {σ : Scheme} {L N ns lo : ℤ} {θ w : ℤ → ℝ} {f f' g g' : ℤ → ℤ → ℤ → ℂ}

theorem plainFwd_conj (hg : PlainFwd σ L N ns lo θ w f g) (hg' : PlainFwd σ L N ns lo θ w f' g')
    (h : ConjugatesSo3 σ L N ns f f') (n l m : ℤ) (hn : |n| < N) (l0 : 0 ≤ l) (l1 : l < L)
    (m0 : -L < m) (m1 : m < L) :
    g' (N - 1 + n) l (m + L - 1) = conjWigner L N g (N - 1 + n) l (m + L - 1) := by
  unfold conjWigner
  rw [show N - 1 + n - N + 1 + (m + L - 1 - L + 1) = n + m by ring,
    show 2 * N - 2 - (N - 1 + n) = N - 1 + -n by ring,
    show 2 * L - 2 - (m + L - 1) = -m + L - 1 by ring, hg' n l m hn l0 l1 m0 m1,
    hg (-n) l (-m) (by rwa [abs_neg]) l0 l1 (by omega) (by omega), abs_neg]
  by_cases hl : l < max |n| lo
  · rw [if_pos hl, if_pos hl, map_zero, mul_zero]
  · rw [if_neg hl, if_neg hl, fAt_conj (gammaPlane_conj h n), neg_neg]
    simp only [map_mul, map_zpow₀, map_neg, map_one, Complex.conj_ofReal]
    rw [negOne_zpow_neg]
    ring

theorem plainFwd_mirror (hN : 1 ≤ N) (hg : PlainFwd σ L N ns lo θ w f g)
    (hg' : PlainFwd σ L N ns lo θ w f' g') (h : MirroredSo3 σ L N ns f f')
    (hθ : ∀ t, 0 ≤ t → t < σ.rings L ns → θ (σ.rings L ns - 1 - t) = Real.pi - θ t)
    (hw : ∀ t, 0 ≤ t → t < σ.rings L ns → w (σ.rings L ns - 1 - t) = w t)
    (n l m : ℤ) (hn : |n| < N) (l0 : 0 ≤ l) (l1 : l < L) (m0 : -L < m) (m1 : m < L) :
    g' (N - 1 + n) l (m + L - 1) = mirrorWigner L N g (N - 1 + n) l (m + L - 1) := by
  unfold mirrorWigner
  rw [show m + L - 1 - L + 1 = m by ring, show 2 * N - 2 - (N - 1 + n) = N - 1 + -n by ring,
    hg' n l m hn l0 l1 m0 m1, hg (-n) l m (by rwa [abs_neg]) l0 l1 m0 m1, abs_neg]
  by_cases hl : l < max |n| lo
  · rw [if_pos hl, if_pos hl, mul_zero]
  · rw [if_neg hl, if_neg hl, fAt_mirror (gammaPlane_mirror hN h n) hθ hw, neg_neg, negOne_zpow_neg]
    ring

end

end S2fft
