import Verif.Lemmas.CBackendRules
import Verif.Lemmas.CBackendInstance
import Verif.Lemmas.DhWeights
import Verif.Props.C33

/-!
# C33: the reverse rules of the SSHT and HEALPy wrappers

The libraries are taken to compute what they are documented to (`SshtContract`, `HealpyContract`).
Without the reality flag the rules of the SSHT wrappers are transposes. With it, the rule of the
inverse transform is right when the band-limit is even and wrong when it is odd
(`C33_ssht_inverse_odd`); the rule of the forward transform is right for cotangents with the symmetry
of the coefficients of a real signal, and wrong for others (`C33_ssht_forward_asymmetric`).
-/

namespace S2fft
open Spec

section
variable {S : Ssht} {G : GlTables} {K : Scheme → ℤ → ℤ → ℤ → ℤ → ℤ → ℤ → ℂ}
  (hS : SshtContract S G.nodes (sshtWeight G.weights) K) {σ : Scheme} (hσ : σ ≠ .healpix) {L : ℤ}
  (hL : 1 ≤ L) (b : ℤ)
include hS hσ hL

/-- `ssht_inverse` without the reality flag: the rule is the transpose. -/
theorem C33_ssht_inverse {s : ℤ} (hs : |s| < L)
    (hw : σ = .dh ∨ σ = .gl → ∀ t, 0 ≤ t → t < σ.rings L 0 → sshtWeight G.weights σ L t ≠ 0)
    (x g : ℤ → ℤ → ℂ) :
    ∃ y z, sshtInverse S (.d2 L (2 * L - 1) x) L s false (sshtNumber σ) b
        = .ok (.d2 (σ.rings L 0) (σ.ringLen L 0 0) y) ∧
      sshtInverseBwd S G (.d2 (σ.rings L 0) (σ.ringLen L 0 0) g) L s false (sshtNumber σ) b
        = .ok (.d2 L (2 * L - 1) z) ∧
      dot2 L (2 * L - 1) z x = dot2 (σ.rings L 0) (σ.ringLen L 0 0) g y := by
  obtain ⟨y, ey, hy⟩ := sshtInverse_values hS hσ hL hs (reality := false) nofun b x
  obtain ⟨z, ez, hz⟩ := sshtInverseBwd_values hS hσ hL hs (reality := false) nofun b g hw
  refine ⟨y, z, ey, ez, ?_⟩
  rw [gridSum_dot2 hσ, dot2_lmSum z x (fun l k _ _ _ _ h => by rw [hz, if_neg (fun h' => h h'.2.2)])]
  rw [gridSum_congr (b := fun t p => lmSum |s| L (fun l m => g t p * (x l (L - 1 + m)
    * sYlm s l m (σ.theta G.nodes L 0 t) (σ.phi L 0 t p)))) (fun t p h => by
      rw [hy t p h, lmSum_mul_left]
      simp only [Bool.false_eq_true, if_false])]
  rw [gridSum_lmSum, ← lmSum_lower hs]
  refine lmSum_congr fun l m h0 h1 h2 => ?_
  rw [hz, if_pos ⟨h0, h1, by rwa [add_sub_cancel_left]⟩, add_sub_cancel_left]
  by_cases hl : l < |s|
  · rw [if_pos hl, if_pos hl, zero_mul]
  · rw [if_neg hl, if_neg hl, ← gridSum_mul]
    refine gridSum_congr fun t p _ => ?_
    simp only [Bool.false_eq_true, if_false]
    ring

/-- `ssht_forward` without the reality flag: the rule is the transpose. -/
theorem C33_ssht_forward {s : ℤ} (hs : |s| < L) (x g : ℤ → ℤ → ℂ) :
    ∃ y z, sshtForward S (.d2 (σ.rings L 0) (σ.ringLen L 0 0) x) L s false (sshtNumber σ) b
        = .ok (.d2 L (2 * L - 1) y) ∧
      sshtForwardBwd S G (.d2 L (2 * L - 1) g) L s false (sshtNumber σ) b
        = .ok (.d2 (σ.rings L 0) (σ.ringLen L 0 0) z) ∧
      dot2 (σ.rings L 0) (σ.ringLen L 0 0) z x = dot2 L (2 * L - 1) g y := by
  obtain ⟨y, ey, hy⟩ := sshtForward_values hS hσ hL hs (reality := false) nofun b x
  obtain ⟨z, ez, hz⟩ := sshtForwardBwd_values hS hσ hL hs (reality := false) nofun b g
  refine ⟨y, z, ey, ez, ?_⟩
  rw [gridSum_dot2 hσ, dot2_comm L, dot2_lmSum y g (fun l k _ _ _ _ h => by
    rw [hy, if_neg (fun h' => h h'.2.2)])]
  rw [gridSum_congr (b := fun t p => lmSum |s| L (fun l m => x t p * (g l (L - 1 + m)
    * K σ L s l m t p))) (fun t p h => by
      rw [hz t p h, lmSum_mul_left, mul_comm]
      simp only [Bool.false_eq_true, if_false])]
  rw [gridSum_lmSum, ← lmSum_lower hs]
  symm
  refine lmSum_congr fun l m h0 h1 h2 => ?_
  rw [hy, if_pos ⟨h0, h1, by rwa [add_sub_cancel_left]⟩, add_sub_cancel_left]
  by_cases hl : l < |s|
  · rw [if_pos hl, if_pos hl, zero_mul]
  · rw [if_neg hl, if_neg hl, ← gridSum_mul]
    refine gridSum_congr fun t p _ => ?_
    simp only [Bool.false_eq_true, if_false]
    ring

/-! ## With the reality flag -/

/-- The rule of the inverse transform returns the sums `b_{lm} = ∑ Y_{lm}(t, p) g(t, p)`, those of
positive order times `1 + (-1)^L`, and zero for negative order. -/
theorem ssht_inverse_real_values
    (hw : σ = .dh ∨ σ = .gl → ∀ t, 0 ≤ t → t < σ.rings L 0 → sshtWeight G.weights σ L t ≠ 0)
    (g : ℤ → ℤ → ℂ) :
    ∃ z, sshtInverseBwd S G (.d2 (σ.rings L 0) (σ.ringLen L 0 0) g) L 0 true (sshtNumber σ) b
        = .ok (.d2 L (2 * L - 1) z) ∧
      ∀ l m, 0 ≤ l → l < L → -L < m → m < L → z l (L - 1 + m)
        = if m < 0 ∨ l < |m| then 0 else (if m = 0 then 1 else 1 + (-1) ^ L)
          * gridSum σ L 0 (fun t p => sYlm 0 l m (σ.theta G.nodes L 0 t) (σ.phi L 0 t p)
            * ((g t p).re : ℂ)) := by
  obtain ⟨a, ea, ha⟩ := sshtInverseBwd_values hS hσ hL (s := 0) (by rw [abs_zero]; omega)
    (reality := true) (fun _ => rfl) b g hw
  simp only [if_true, abs_zero] at ha ea
  refine ⟨_, ea, fun l m l0 l1 m0 m1 => ?_⟩
  have hv : ∀ m, -L < m → m < L → a l (L - 1 + m) = if |m| ≤ l then
      gridSum σ L 0 (fun t p => sYlm 0 l m (σ.theta G.nodes L 0 t) (σ.phi L 0 t p)
            * ((g t p).re : ℂ)) else 0 := by
    intro m _ _
    rw [ha, add_sub_cancel_left]
    by_cases h : |m| ≤ l
    · rw [if_pos ⟨l0, l1, h⟩, if_pos h, if_neg (by omega)]
    · rw [if_neg (fun h' => h h'.2.2), if_neg h]
  have hsym : ∀ m, gridSum σ L 0 (fun t p => sYlm 0 l (-m) (σ.theta G.nodes L 0 t) (σ.phi L 0 t p)
            * ((g t p).re : ℂ))
      = (-1) ^ m * (starRingEnd ℂ) (gridSum σ L 0 (fun t p =>
          sYlm 0 l m (σ.theta G.nodes L 0 t) (σ.phi L 0 t p) * ((g t p).re : ℂ))) := by
    intro m
    rw [conj_gridSum, ← gridSum_mul_left]
    refine gridSum_congr fun t p _ => ?_
    rw [sYlm_zero_neg, map_mul, Complex.conj_ofReal]
    ring
  unfold sshtFold
  beta_reduce
  rcases lt_trichotomy m 0 with hm | rfl | hm
  · rw [if_pos (by omega), if_pos (Or.inl hm)]
  · rw [if_neg (by omega), if_neg (by omega), hv 0 m0 m1, if_pos (by rw [abs_zero]; omega),
      if_neg (by rw [abs_zero]; omega), if_pos rfl, one_mul]
  · rw [if_neg (by omega), if_pos (by omega), hv m m0 m1,
      show L - 2 - (L - 1 + m - L) = L - 1 + -m by ring, hv (-m) (by omega) (by omega), abs_neg]
    by_cases h : |m| ≤ l
    · rw [if_pos h, if_pos h, if_neg (by omega), if_neg (by omega), hsym m]
      have e1 : ((-1 : ℂ) ^ ((L - 1 + -m + 1) % 2).toNat) = (-1) ^ (L - m) := by
        rw [show L - 1 + -m + 1 = L - m by ring]
        rcases Int.emod_two_eq_zero_or_one (L - m) with h' | h'
        · rw [h', Even.neg_one_zpow (Int.even_iff.2 h')]; rfl
        · rw [h', Odd.neg_one_zpow (Int.odd_iff.2 h')]; norm_num
      have e2 : ((-1 : ℂ) ^ (L - m)) * (-1) ^ m = (-1) ^ L := by
        rw [← zpow_add₀ (by norm_num), sub_add_cancel]
      rw [e1, map_mul, map_zpow₀, map_neg, map_one, Complex.conj_conj]
      linear_combination (gridSum σ L 0 fun t p =>
        sYlm 0 l m (σ.theta G.nodes L 0 t) (σ.phi L 0 t p) * ((g t p).re : ℂ)) * e2
    · rw [if_neg h, if_neg h, if_pos (Or.inr (by omega)), map_zero, mul_zero, add_zero]

/-- The value of `∑ g A(x)` for a real cotangent. -/
theorem ssht_inverse_real_pairing (x g : ℤ → ℤ → ℂ)
    (hg : ∀ t p, σ.Has L 0 t p → (g t p).im = 0) :
    ∃ y, sshtInverse S (.d2 L (2 * L - 1) x) L 0 true (sshtNumber σ) b
        = .ok (.d2 (σ.rings L 0) (σ.ringLen L 0 0) y) ∧
      (∀ t p, σ.Has L 0 t p → (y t p).im = 0) ∧
      dot2 (σ.rings L 0) (σ.ringLen L 0 0) g y = ∑ l ∈ Finset.Ico 0 L,
        (((x l (L - 1) * gridSum σ L 0 (fun t p =>
            sYlm 0 l 0 (σ.theta G.nodes L 0 t) (σ.phi L 0 t p) * ((g t p).re : ℂ))
          + ∑ m ∈ Finset.Ico 1 (l + 1), 2 * (x l (L - 1 + m) * gridSum σ L 0 (fun t p =>
            sYlm 0 l m (σ.theta G.nodes L 0 t) (σ.phi L 0 t p) * ((g t p).re : ℂ)))).re : ℝ) : ℂ) := by
  obtain ⟨y, ey, hy⟩ := sshtInverse_values hS hσ hL (s := 0) (by rw [abs_zero]; omega)
    (reality := true) (fun _ => rfl) b x
  simp only [if_true, abs_zero] at hy
  refine ⟨y, ey, fun t p h => ?_, ?_⟩
  · rw [hy t p h]
    unfold lmSum
    rw [Complex.im_sum]
    refine Finset.sum_eq_zero fun l hl => ?_
    rw [Finset.mem_Ico] at hl
    rw [sum_realSignal hl.1 (fun l m => x l (L - 1 + m))
      (b := fun m => sYlm 0 l m (σ.theta G.nodes L 0 t) (σ.phi L 0 t p))
      (fun m => sYlm_zero_neg l m _ _)]
    exact Complex.ofReal_im _
  · rw [gridSum_dot2 hσ, gridSum_congr (b := fun t p => lmSum 0 L (fun l m =>
      realSignal (fun l m => x l (L - 1 + m)) l m * (sYlm 0 l m (σ.theta G.nodes L 0 t) (σ.phi L 0 t p)
        * ((g t p).re : ℂ)))) (fun t p h => by
        rw [hy t p h, ← lmSum_mul_left]
        refine lmSum_congr fun l m _ _ _ => ?_
        have : g t p = ((g t p).re : ℂ) := by
          apply Complex.ext <;> simp [hg t p h]
        rw [this, Complex.ofReal_re]
        ring)]
    rw [gridSum_lmSum]
    simp only [gridSum_mul_left]
    unfold lmSum
    refine Finset.sum_congr rfl fun l hl => ?_
    rw [Finset.mem_Ico] at hl
    have := sum_realSignal hl.1 (fun l m => x l (L - 1 + m))
      (b := fun m => gridSum σ L 0 (fun t p =>
            sYlm 0 l m (σ.theta G.nodes L 0 t) (σ.phi L 0 t p) * ((g t p).re : ℂ))) (fun m => by
        rw [conj_gridSum, ← gridSum_mul_left]
        refine gridSum_congr fun t p _ => ?_
        rw [sYlm_zero_neg, map_mul, Complex.conj_ofReal]
        ring)
    rw [this]
    simp only [add_zero]

/-- `ssht_inverse` with the reality flag and an even band-limit: the rule is right. The signal is real,
so that its cotangents are. -/
theorem C33_ssht_inverse_real (he : Even L)
    (hw : σ = .dh ∨ σ = .gl → ∀ t, 0 ≤ t → t < σ.rings L 0 → sshtWeight G.weights σ L t ≠ 0)
    (x g : ℤ → ℤ → ℂ) (hg : ∀ t p, σ.Has L 0 t p → (g t p).im = 0) :
    ∃ y z, sshtInverse S (.d2 L (2 * L - 1) x) L 0 true (sshtNumber σ) b
        = .ok (.d2 (σ.rings L 0) (σ.ringLen L 0 0) y) ∧
      (∀ t p, σ.Has L 0 t p → (y t p).im = 0) ∧
      sshtInverseBwd S G (.d2 (σ.rings L 0) (σ.ringLen L 0 0) g) L 0 true (sshtNumber σ) b
        = .ok (.d2 L (2 * L - 1) z) ∧
      (dot2 L (2 * L - 1) z x).re = (dot2 (σ.rings L 0) (σ.ringLen L 0 0) g y).re := by
  obtain ⟨y, ey, hr, hy⟩ := ssht_inverse_real_pairing hS hσ hL b x g hg
  obtain ⟨z, ez, hz⟩ := ssht_inverse_real_values hS hσ hL b hw g
  refine ⟨y, z, ey, hr, ez, ?_⟩
  have h2 : (1 : ℂ) + (-1) ^ L = 2 := by rw [he.neg_one_zpow]; norm_num
  rw [hy, dot2_lmSum z x (fun l k l0 l1 k0 k1 h => by
    have := hz l (k - (L - 1)) l0 l1 (by omega) (by omega)
    rw [add_sub_cancel] at this
    rw [this, if_pos (Or.inr (by omega))])]
  unfold lmSum
  rw [Complex.re_sum, Complex.re_sum]
  refine Finset.sum_congr rfl fun l hl => ?_
  rw [Finset.mem_Ico] at hl
  rw [sum_symmetric hl.1, Complex.ofReal_re]
  congr 1
  beta_reduce
  have h0 := hz l 0 hl.1 hl.2 (by omega) (by omega)
  rw [add_zero] at h0
  rw [add_zero, h0, if_neg (by rw [abs_zero]; omega), if_pos rfl, one_mul, mul_comm]
  congr 1
  refine Finset.sum_congr rfl fun m hm => ?_
  rw [Finset.mem_Ico] at hm
  rw [hz l m hl.1 hl.2 (by omega) (by omega), hz l (-m) hl.1 hl.2 (by omega) (by omega),
    if_neg (by rw [abs_of_pos (by omega)]; omega), if_neg (by omega), if_pos (Or.inl (by omega)), h2]
  ring

/-- With an odd band-limit the rule is zero for every order but zero. -/
theorem C33_ssht_inverse_odd_zero (ho : Odd L)
    (hw : σ = .dh ∨ σ = .gl → ∀ t, 0 ≤ t → t < σ.rings L 0 → sshtWeight G.weights σ L t ≠ 0)
    (g : ℤ → ℤ → ℂ) :
    ∃ z, sshtInverseBwd S G (.d2 (σ.rings L 0) (σ.ringLen L 0 0) g) L 0 true (sshtNumber σ) b
        = .ok (.d2 L (2 * L - 1) z) ∧
      ∀ l m, 0 ≤ l → l < L → -L < m → m < L → m ≠ 0 → z l (L - 1 + m) = 0 := by
  obtain ⟨z, ez, hz⟩ := ssht_inverse_real_values hS hσ hL b hw g
  refine ⟨z, ez, fun l m l0 l1 m0 m1 hm => ?_⟩
  rw [hz l m l0 l1 m0 m1, if_neg hm, ho.neg_one_zpow]
  split_ifs <;> simp

/-- A coefficient array of cotangents with the symmetry of the coefficients of a real signal. -/
def RealCotangent (L : ℤ) (g : ℤ → ℤ → ℂ) : Prop :=
  ∀ l m, 0 ≤ l → l < L → 0 ≤ m → m ≤ l →
    g l (L - 1 - m) = (-1) ^ m * (starRingEnd ℂ) (g l (L - 1 + m))

/-- `ssht_forward` with the reality flag: the rule as a sum over orders `m ≥ 0`, beside the value of
`∑ g A(x)`. -/
theorem ssht_forward_real_values (x g : ℤ → ℤ → ℂ) :
    ∃ y z, sshtForward S (.d2 (σ.rings L 0) (σ.ringLen L 0 0) x) L 0 true (sshtNumber σ) b
        = .ok (.d2 L (2 * L - 1) y) ∧
      sshtForwardBwd S G (.d2 L (2 * L - 1) g) L 0 true (sshtNumber σ) b
        = .ok (.d2 (σ.rings L 0) (σ.ringLen L 0 0) z) ∧
      (∀ l m, 0 ≤ l → l < L → |m| ≤ l → y l (L - 1 - m)
        = (-1) ^ m * (starRingEnd ℂ) (y l (L - 1 + m))) ∧
      dot2 L (2 * L - 1) g y
        = lmSum 0 L (fun l m => g l (L - 1 + m) * y l (L - 1 + m)) ∧
      (∀ t p, σ.Has L 0 t p → (z t p).im = 0) ∧
      (dot2 (σ.rings L 0) (σ.ringLen L 0 0) z x).re
        = (lmSum 0 L (fun l m => realSignal (fun l m => g l (L - 1 + m)) l m * y l (L - 1 + m))).re := by
  obtain ⟨y, ey, hy⟩ := sshtForward_values hS hσ hL (s := 0) (by rw [abs_zero]; omega)
    (reality := true) (fun _ => rfl) b x
  obtain ⟨z, ez, hz⟩ := sshtForwardBwd_values hS hσ hL (s := 0) (by rw [abs_zero]; omega)
    (reality := true) (fun _ => rfl) b g
  simp only [if_true, abs_zero] at hy hz
  have hv : ∀ l m, 0 ≤ l → l < L → |m| ≤ l → y l (L - 1 + m)
      = gridSum σ L 0 (fun t p => K σ L 0 l m t p * ((x t p).re : ℂ)) := by
    intro l m h0 h1 h2
    rw [hy, add_sub_cancel_left, if_pos ⟨h0, h1, h2⟩, if_neg (by omega)]
  have hi : ∀ t p, σ.Has L 0 t p → (z t p).im = 0 := by
    intro t p h
    rw [hz t p h]
    unfold lmSum
    rw [Complex.im_sum]
    refine Finset.sum_eq_zero fun l hl => ?_
    rw [Finset.mem_Ico] at hl
    rw [sum_realSignal hl.1 (fun l m => g l (L - 1 + m))
      (b := fun m => K σ L 0 l m t p) (fun m => hS.kernel_real σ L l m t p)]
    exact Complex.ofReal_im _
  refine ⟨y, z, ey, ez, fun l m h0 h1 h2 => ?_, ?_, hi, ?_⟩
  · rw [sub_eq_add_neg, hv l (-m) h0 h1 (by rwa [abs_neg]), hv l m h0 h1 h2, conj_gridSum,
      ← gridSum_mul_left]
    refine gridSum_congr fun t p _ => ?_
    rw [hS.kernel_real, map_mul, Complex.conj_ofReal]
    ring
  · rw [dot2_comm L, dot2_lmSum y g (fun l k _ _ _ _ h => by
      rw [hy, if_neg (fun h' => h h'.2.2)])]
    refine lmSum_congr fun l m _ _ _ => mul_comm _ _
  · have e1 : (dot2 (σ.rings L 0) (σ.ringLen L 0 0) z x).re
        = (gridSum σ L 0 (fun t p => ((x t p).re : ℂ) * z t p)).re := by
      rw [gridSum_dot2 hσ]
      unfold gridSum
      rw [Complex.re_sum, Complex.re_sum]
      refine Finset.sum_congr rfl fun t ht => ?_
      rw [Complex.re_sum, Complex.re_sum]
      refine Finset.sum_congr rfl fun p hp => ?_
      rw [Finset.mem_Ico] at ht hp
      have := hi t p ⟨ht.1, ht.2, hp.1, hp.2⟩
      simp [this, mul_comm]
    rw [e1, gridSum_congr (b := fun t p => lmSum 0 L (fun l m =>
      realSignal (fun l m => g l (L - 1 + m)) l m * (K σ L 0 l m t p * ((x t p).re : ℂ))))
      (fun t p h => by
        rw [hz t p h, ← lmSum_mul_left]
        refine lmSum_congr fun l m _ _ _ => ?_
        ring), gridSum_lmSum]
    congr 1
    refine lmSum_congr fun l m h0 h1 h2 => ?_
    rw [gridSum_mul_left, hv l m h0 h1 h2]

/-- `ssht_forward` with the reality flag: the rule is right for cotangents with the symmetry of the
coefficients of a real signal. -/
theorem C33_ssht_forward_real (x g : ℤ → ℤ → ℂ) (hg : RealCotangent L g) :
    ∃ y z, sshtForward S (.d2 (σ.rings L 0) (σ.ringLen L 0 0) x) L 0 true (sshtNumber σ) b
        = .ok (.d2 L (2 * L - 1) y) ∧
      sshtForwardBwd S G (.d2 L (2 * L - 1) g) L 0 true (sshtNumber σ) b
        = .ok (.d2 (σ.rings L 0) (σ.ringLen L 0 0) z) ∧
      (dot2 (σ.rings L 0) (σ.ringLen L 0 0) z x).re = (dot2 L (2 * L - 1) g y).re := by
  obtain ⟨y, z, ey, ez, _, h1, _, h2⟩ := ssht_forward_real_values hS hσ hL b x g
  refine ⟨y, z, ey, ez, ?_⟩
  rw [h1, h2]
  congr 1
  refine lmSum_congr fun l m l0 l1 hm => ?_
  congr 1
  unfold realSignal
  rw [abs_le] at hm
  rcases lt_trichotomy m 0 with h | rfl | h
  · have := hg l (-m) l0 l1 (by omega) (by omega)
    rw [sub_neg_eq_add] at this
    rw [if_pos h, this, zpow_neg, ← inv_zpow, inv_neg_one]
  · have := hg l 0 l0 l1 (by omega) (by omega)
    rw [sub_zero, add_zero, zpow_zero, one_mul] at this
    rw [if_neg (by omega), if_pos rfl, add_zero]
    apply Complex.ext
    · simp
    · simp [Complex.conj_eq_iff_im.1 this.symm]
  · rw [if_neg (by omega), if_neg (by omega)]

/-- For a cotangent of one coefficient of positive order the rule returns twice what it should; of one
of negative order, nothing. -/
theorem C33_ssht_forward_asymmetric (x : ℤ → ℤ → ℂ) {l₀ m₀ : ℤ} (h1 : l₀ < L) (h2 : |m₀| ≤ l₀) (hm : m₀ ≠ 0) :
    ∃ y z, sshtForward S (.d2 (σ.rings L 0) (σ.ringLen L 0 0) x) L 0 true (sshtNumber σ) b
        = .ok (.d2 L (2 * L - 1) y) ∧
      sshtForwardBwd S G (.d2 L (2 * L - 1)
          (fun l k => if l = l₀ ∧ k = L - 1 + m₀ then 1 else 0)) L 0 true (sshtNumber σ) b
        = .ok (.d2 (σ.rings L 0) (σ.ringLen L 0 0) z) ∧
      (dot2 L (2 * L - 1) (fun l k => if l = l₀ ∧ k = L - 1 + m₀ then 1 else 0) y).re
        = (y l₀ (L - 1 + m₀)).re ∧
      (dot2 (σ.rings L 0) (σ.ringLen L 0 0) z x).re
        = if 0 < m₀ then 2 * (y l₀ (L - 1 + m₀)).re else 0 := by
  have l0 : 0 ≤ l₀ := (abs_nonneg m₀).trans h2
  have hm' := abs_le.1 h2
  obtain ⟨y, z, ey, ez, hs, e1, _, e2⟩ := ssht_forward_real_values hS hσ hL b x
    (fun l k => if l = l₀ ∧ k = L - 1 + m₀ then 1 else 0)
  refine ⟨y, z, ey, ez, ?_, ?_⟩
  · rw [e1]
    congr 1
    unfold lmSum
    rw [Finset.sum_eq_single l₀, Finset.sum_eq_single m₀]
    · simp
    · intro m _ hne
      beta_reduce
      rw [if_neg (by omega), zero_mul]
    · intro h
      exact absurd (Finset.mem_Ico.2 (by omega)) h
    · intro l _ hne
      refine Finset.sum_eq_zero fun m _ => ?_
      beta_reduce
      rw [if_neg (by omega), zero_mul]
    · intro h
      exact absurd (Finset.mem_Ico.2 (by omega)) h
  · rw [e2]
    unfold lmSum
    have hr : ∀ l, 0 ≤ l → ∑ m ∈ Finset.Ico (-l) (l + 1), realSignal (fun l m =>
          if l = l₀ ∧ L - 1 + m = L - 1 + m₀ then 1 else 0) l m * y l (L - 1 + m)
        = if l = l₀ ∧ 0 < m₀ then y l₀ (L - 1 + m₀) + (starRingEnd ℂ) (y l₀ (L - 1 + m₀)) else 0 := by
      intro l hl
      rw [sum_symmetric hl]
      have z0 : realSignal (fun l m =>
          if l = l₀ ∧ L - 1 + m = L - 1 + m₀ then 1 else 0) l 0 = 0 := by
        unfold realSignal
        beta_reduce
        rw [if_neg (by omega), if_pos rfl, if_neg (by omega)]
        simp
      rw [z0, zero_mul, zero_add]
      by_cases h : l = l₀ ∧ 0 < m₀
      · rw [if_pos h, Finset.sum_eq_single m₀]
        · unfold realSignal
          beta_reduce
          rw [if_neg (by omega), if_neg hm, if_pos ⟨h.1, rfl⟩, if_pos (by omega), neg_neg,
            if_pos ⟨h.1, rfl⟩, h.1, ← sub_eq_add_neg (L - 1) m₀, hs l₀ m₀ l0 h1 h2]
          have : ((-1 : ℂ) ^ (-m₀)) * (-1) ^ m₀ = 1 := by
            rw [← zpow_add₀ (by norm_num), neg_add_cancel, zpow_zero]
          rw [map_one]
          linear_combination (starRingEnd ℂ) (y l₀ (L - 1 + m₀)) * this
        · intro m hm hne
          rw [Finset.mem_Ico] at hm
          unfold realSignal
          beta_reduce
          rw [if_neg (by omega), if_neg (by omega), if_neg (by omega), if_pos (by omega),
            if_neg (by omega)]
          simp
        · intro hn
          exact absurd (Finset.mem_Ico.2 (by omega)) hn
      · rw [if_neg h]
        refine Finset.sum_eq_zero fun m hm => ?_
        rw [Finset.mem_Ico] at hm
        unfold realSignal
        beta_reduce
        rw [if_neg (by omega), if_neg (by omega), if_neg (by omega), if_pos (by omega),
            if_neg (by omega)]
        simp
    rw [Finset.sum_congr rfl fun l hl => hr l (Finset.mem_Ico.1 hl).1]
    by_cases h : 0 < m₀
    · rw [if_pos h, Finset.sum_eq_single l₀]
      · rw [if_pos ⟨rfl, h⟩, Complex.add_conj, Complex.ofReal_re]
      · intro l _ hne
        rw [if_neg (fun h' => hne h'.1)]
      · intro hn
        exact absurd (Finset.mem_Ico.2 ⟨l0, h1⟩) hn
    · rw [if_neg h, Finset.sum_eq_zero fun l _ => by rw [if_neg (fun h' => h h'.2)], Complex.zero_re]

end

/-- `ssht_inverse` with the reality flag and an odd band-limit: the rule is wrong. The signal depends on
the coefficient `(1, 1)`, and the rule says that it does not. -/
theorem C33_ssht_inverse_odd {S : Ssht} {G : GlTables} {K : Scheme → ℤ → ℤ → ℤ → ℤ → ℤ → ℤ → ℂ}
    (hS : SshtContract S G.nodes (sshtWeight G.weights) K) {σ : Scheme} (hσ : σ = .mw ∨ σ = .mwss) {L : ℤ}
    (hL : 3 ≤ L) (b : ℤ) (ho : Odd L) :
    ∃ x g y z, (∀ t p, σ.Has L 0 t p → (g t p).im = 0) ∧
      sshtInverse S (.d2 L (2 * L - 1) x) L 0 true (sshtNumber σ) b
        = .ok (.d2 (σ.rings L 0) (σ.ringLen L 0 0) y) ∧
      sshtInverseBwd S G (.d2 (σ.rings L 0) (σ.ringLen L 0 0) g) L 0 true (sshtNumber σ) b
        = .ok (.d2 L (2 * L - 1) z) ∧
      (dot2 L (2 * L - 1) z x).re = 0 ∧
      (dot2 (σ.rings L 0) (σ.ringLen L 0 0) g y).re ≠ 0 := by
  have hσ' : σ ≠ .healpix := by rcases hσ with rfl | rfl <;> decide
  have hw : σ = .dh ∨ σ = .gl → ∀ t, 0 ≤ t → t < σ.rings L 0 → sshtWeight G.weights σ L t ≠ 0 := by
    rcases hσ with rfl | rfl <;> rintro (h | h) <;> cases h
  have hhas : σ.Has L 0 1 0 := by
    rcases hσ with rfl | rfl
    · exact ⟨by omega, show 1 < L by omega, by omega, show 0 < 2 * L - 1 by omega⟩
    · exact ⟨by omega, show 1 < L + 1 by omega, by omega, show 0 < 2 * L by omega⟩
  let x : ℤ → ℤ → ℂ := fun l k => if l = 1 ∧ k = L - 1 + 1 then 1 else 0
  let g : ℤ → ℤ → ℂ := fun t p => if t = 1 ∧ p = 0 then 1 else 0
  have hg : ∀ t p, (g t p).im = 0 := by
    intro t p
    show (if t = 1 ∧ p = 0 then (1 : ℂ) else 0).im = 0
    split_ifs <;> simp
  obtain ⟨y, ey, _, hy⟩ := ssht_inverse_real_pairing hS hσ' (L := L) (by omega) b x g (fun t p _ => hg t p)
  obtain ⟨z, ez, hz⟩ := C33_ssht_inverse_odd_zero hS hσ' (L := L) (by omega) b ho hw g
  refine ⟨x, g, y, z, fun t p _ => hg t p, ey, ez, ?_, ?_⟩
  · unfold dot2
    rw [Finset.sum_eq_zero, Complex.zero_re]
    intro l hl
    refine Finset.sum_eq_zero fun k _ => ?_
    show z l k * (if l = 1 ∧ k = L - 1 + 1 then 1 else 0) = 0
    split_ifs with h
    · rw [h.1, h.2, hz 1 1 (by omega) (by omega) (by omega) (by omega) (by omega), zero_mul]
    · exact mul_zero _
  · have hgs : ∀ l m, gridSum σ L 0 (fun t p => sYlm 0 l m (σ.theta G.nodes L 0 t) (σ.phi L 0 t p)
        * ((g t p).re : ℂ)) = sYlm 0 l m (σ.theta G.nodes L 0 1) (σ.phi L 0 1 0) := by
      intro l m
      unfold gridSum
      rw [Finset.sum_eq_single 1, Finset.sum_eq_single 0]
      · show _ * (((if (1 : ℤ) = 1 ∧ (0 : ℤ) = 0 then (1 : ℂ) else 0).re : ℝ) : ℂ) = _
        rw [if_pos ⟨rfl, rfl⟩]
        simp
      · intro p _ hne
        show _ * (((if (1 : ℤ) = 1 ∧ p = 0 then (1 : ℂ) else 0).re : ℝ) : ℂ) = 0
        rw [if_neg (fun h => hne h.2)]
        simp
      · intro h
        exact absurd (Finset.mem_Ico.2 ⟨hhas.2.2.1, hhas.2.2.2⟩) h
      · intro t _ hne
        refine Finset.sum_eq_zero fun p _ => ?_
        show _ * (((if t = 1 ∧ p = 0 then (1 : ℂ) else 0).re : ℝ) : ℂ) = 0
        rw [if_neg (fun h => hne h.1)]
        simp
      · intro h
        exact absurd (Finset.mem_Ico.2 ⟨hhas.1, hhas.2.1⟩) h
    rw [hy, Complex.re_sum]
    simp only [hgs, Complex.ofReal_re]
    rw [Finset.sum_eq_single 1]
    · rw [Finset.sum_eq_single 1]
      · show ((if (1 : ℤ) = 1 ∧ L - 1 = L - 1 + 1 then (1 : ℂ) else 0) * _
          + 2 * ((if (1 : ℤ) = 1 ∧ L - 1 + 1 = L - 1 + 1 then (1 : ℂ) else 0) * _)).re ≠ 0
        rw [if_neg (by omega), if_pos ⟨rfl, rfl⟩, zero_mul, zero_add, one_mul]
        have hphi : σ.phi L 0 1 0 = 0 := by
          rcases hσ with rfl | rfl <;> simp [Scheme.phi, Scheme.shift]
        have hsin : 0 < Real.sin (σ.theta G.nodes L 0 1) := by
          have hp := Real.pi_pos
          have hLr : (3 : ℝ) ≤ L := by exact_mod_cast hL
          apply Real.sin_pos_of_pos_of_lt_pi
          · rcases hσ with rfl | rfl
            · simp only [Scheme.theta]
              apply div_pos _ (by linarith)
              push_cast
              nlinarith
            · simp only [Scheme.theta]
              apply div_pos _ (by linarith)
              push_cast
              nlinarith
          · rcases hσ with rfl | rfl
            · simp only [Scheme.theta]
              rw [div_lt_iff₀ (by linarith)]
              push_cast
              nlinarith
            · simp only [Scheme.theta]
              rw [div_lt_iff₀ (by linarith)]
              push_cast
              nlinarith
        rw [hphi]
        unfold sYlm
        rw [neg_zero, (wignerd_one _).2.2.2.2.2.2.2.1]
        simp only [zpow_zero, one_mul, mul_zero, cis_zero, mul_one]
        have hq : 0 < √((2 * ((1 : ℤ) : ℝ) + 1) / (4 * Real.pi)) :=
          Real.sqrt_pos.2 (div_pos (by norm_num) (by linarith [Real.pi_pos]))
        have h2 : 0 < √(2 : ℝ) := Real.sqrt_pos.2 (by norm_num)
        rw [Complex.mul_re, Complex.ofReal_re, Complex.ofReal_im, mul_zero, sub_zero]
        refine mul_ne_zero (by norm_num) (mul_ne_zero hq.ne' (div_ne_zero (neg_ne_zero.2 hsin.ne') h2.ne'))
      · intro m hm hne
        show 2 * ((if (1 : ℤ) = 1 ∧ L - 1 + m = L - 1 + 1 then (1 : ℂ) else 0) * _) = 0
        rw [if_neg (by omega), zero_mul, mul_zero]
      · intro h
        exact absurd (Finset.mem_Ico.2 (by omega)) h
    · intro l _ hne
      have hx : ∀ k, x l k = 0 := fun k => if_neg (fun h => hne h.1)
      simp only [hx, zero_mul, mul_zero, Finset.sum_const_zero, add_zero, Complex.zero_re]
    · intro h
      exact absurd (Finset.mem_Ico.2 (by omega)) h

/-! ## healpy -/

section
variable {H : Healpy} (hH : HealpyContract H) {L nside : ℤ} (hL : 1 ≤ L) (hn : 1 ≤ nside)
include hH hL hn

/-- `healpy_map2alm`: the rule is right. Maps are real. -/
theorem C33_healpy_map2alm (x g : ℤ → ℂ) (hx : ∀ i, 0 ≤ i → i < 12 * nside ^ 2 → (x i).im = 0) :
    ∃ y z, H.map2alm (.d1 (12 * nside ^ 2) x) L = .ok (.d1 (L * (L + 1) / 2) y) ∧
      healpyMap2almTranspose H g L nside = .ok (.d1 (12 * nside ^ 2) z) ∧
      (dot1 (12 * nside ^ 2) z x).re = (dot1 (L * (L + 1) / 2) g y).re := by
  obtain ⟨y, ey, hy⟩ := hH.map2alm L nside x hL hn hx
  obtain ⟨f, ef, hf⟩ := hH.alm2map L nside
    (fun i => (starRingEnd ℂ) (g i) / (healpyScale L nside i : ℂ)) hL hn
  refine ⟨y, fun i => (starRingEnd ℂ) (f i), ey, ?_, ?_⟩
  · unfold healpyMap2almTranspose
    rw [ef]
    rfl
  · have e1 : (dot1 (12 * nside ^ 2) (fun i => (starRingEnd ℂ) (f i)) x).re
        = (dot1 (12 * nside ^ 2) x f).re := by
      unfold dot1
      rw [Complex.re_sum, Complex.re_sum]
      refine Finset.sum_congr rfl fun i hi => ?_
      rw [Finset.mem_Ico] at hi
      simp [Complex.mul_re, hx i hi.1 hi.2, mul_comm]
    rw [e1, pair_real_map hn L x f _ hx hf]
    unfold dot1
    rw [sum_healpy hL, Complex.re_sum, Complex.re_sum]
    refine Finset.sum_congr rfl fun l hl => ?_
    rw [Complex.re_sum, Complex.re_sum]
    refine Finset.sum_congr rfl fun m hm => ?_
    rw [Finset.mem_Ico] at hl hm
    rw [hy l m hm.1 (by omega) hl.2, healpyScale_ind hm.1 (by omega) hl.2, ← Complex.conj_re]
    congr 1
    simp only [map_mul, map_div₀, conj_gridSum, Complex.conj_conj, Complex.conj_ofReal, map_pow,
      map_ofNat, map_intCast]
    have hc : ∀ t p, Scheme.healpix.Has L nside t p →
        (starRingEnd ℂ) (x (ringStart nside t + p)) = x (ringStart nside t + p) := by
      intro t p h
      have := pixel_range hn h
      exact Complex.conj_eq_iff_im.2 (hx _ this.1 this.2)
    rw [gridSum_congr (fun t p h => by rw [hc t p h])]
    have hpi : (Real.pi : ℂ) ≠ 0 := by exact_mod_cast Real.pi_pos.ne'
    have hns : (nside : ℂ) ≠ 0 := by exact_mod_cast (by omega : nside ≠ 0)
    generalize gridSum Scheme.healpix L nside _ = q
    by_cases h : m = 0
    · simp only [if_pos h, map_one]
      push_cast
      field_simp
      ring
    · simp only [if_neg h, map_ofNat]
      push_cast
      field_simp
      ring

/-- `healpy_alm2map`: the rule is right. Maps are real, and so are their cotangents. -/
theorem C33_healpy_alm2map (x g : ℤ → ℂ) (hg : ∀ i, 0 ≤ i → i < 12 * nside ^ 2 → (g i).im = 0) :
    ∃ y z, H.alm2map (.d1 (L * (L + 1) / 2) x) L nside = .ok (.d1 (12 * nside ^ 2) y) ∧
      healpyAlm2mapTranspose H g L nside = .ok (.d1 (L * (L + 1) / 2) z) ∧
      (dot1 (L * (L + 1) / 2) z x).re = (dot1 (12 * nside ^ 2) g y).re := by
  obtain ⟨y, ey, hy⟩ := hH.alm2map L nside x hL hn
  obtain ⟨c, ec, hz⟩ := hH.map2alm L nside (fun i => (starRingEnd ℂ) (g i)) hL hn
    (fun i h0 h1 => by rw [Complex.conj_im, hg i h0 h1, neg_zero])
  refine ⟨y, fun i => (healpyScale L nside i : ℂ) * (starRingEnd ℂ) (c i), ey, ?_, ?_⟩
  · unfold healpyAlm2mapTranspose
    rw [ec]
    rfl
  · rw [pair_real_map hn L g y _ hg hy]
    unfold dot1
    rw [sum_healpy hL]
    congr 1
    refine Finset.sum_congr rfl fun l hl => Finset.sum_congr rfl fun m hm => ?_
    rw [Finset.mem_Ico] at hl hm
    beta_reduce
    rw [hz l m hm.1 (by omega) hl.2, healpyScale_ind hm.1 (by omega) hl.2]
    simp only [map_mul, map_div₀, conj_gridSum, Complex.conj_conj, Complex.conj_ofReal, map_pow,
      map_ofNat, map_intCast]
    have hpi : (Real.pi : ℂ) ≠ 0 := by exact_mod_cast Real.pi_pos.ne'
    have hns : (nside : ℂ) ≠ 0 := by exact_mod_cast (by omega : nside ≠ 0)
    generalize gridSum Scheme.healpix L nside _ = q
    by_cases h : m = 0
    · simp only [if_pos h]
      push_cast
      field_simp
      ring
    · simp only [if_neg h]
      push_cast
      field_simp
      ring

end

/-! ## The hypotheses are met -/

theorem dh_weight_ne (G : GlTables) {L : ℤ} (hL : 1 ≤ L) :
    Scheme.dh = .dh ∨ Scheme.dh = .gl → ∀ t, 0 ≤ t → t < Scheme.dh.rings L 0 →
      sshtWeight G.weights .dh L t ≠ 0 :=
  fun _ t h0 h1 => (dh_weight_pos hL h0 h1).ne'

example (G : GlTables) (x g : ℤ → ℤ → ℂ) :
    ∃ y z, sshtInverse (plainSsht G) (.d2 5 9 x) 5 (-2) false 2 1 = .ok (.d2 10 9 y) ∧
      sshtInverseBwd (plainSsht G) G (.d2 10 9 g) 5 (-2) false 2 1 = .ok (.d2 5 9 z) ∧
      dot2 5 9 z x = dot2 10 9 g y :=
  C33_ssht_inverse (plainSsht_contract G) (σ := .dh) (by decide) (by decide) 1 (by decide)
    (dh_weight_ne G (by decide)) x g

example (G : GlTables) (x g : ℤ → ℤ → ℂ) :
    ∃ y z, sshtForward (plainSsht G) (.d2 5 8 x) 4 1 false 1 0 = .ok (.d2 4 7 y) ∧
      sshtForwardBwd (plainSsht G) G (.d2 4 7 g) 4 1 false 1 0 = .ok (.d2 5 8 z) ∧
      dot2 5 8 z x = dot2 4 7 g y :=
  C33_ssht_forward (plainSsht_contract G) (σ := .mwss) (by decide) (by decide) 0 (by decide) x g

example (G : GlTables) : ∃ x g y z, (∀ t p, Scheme.mw.Has 3 0 t p → (g t p).im = 0) ∧
      sshtInverse (plainSsht G) (.d2 3 5 x) 3 0 true 0 0 = .ok (.d2 3 5 y) ∧
      sshtInverseBwd (plainSsht G) G (.d2 3 5 g) 3 0 true 0 0 = .ok (.d2 3 5 z) ∧
      (dot2 3 5 z x).re = 0 ∧ (dot2 3 5 g y).re ≠ 0 :=
  C33_ssht_inverse_odd (plainSsht_contract G) (σ := .mw) (Or.inl rfl) (by decide) 0 (by decide)

example : ∃ H : Healpy, ∀ x g, (∀ i, 0 ≤ i → i < 48 → (x i).im = 0) →
    ∃ y z, H.map2alm (.d1 48 x) 4 = .ok (.d1 10 y) ∧
      healpyMap2almTranspose H g 4 2 = .ok (.d1 48 z) ∧ (dot1 48 z x).re = (dot1 10 g y).re := by
  obtain ⟨H, hH⟩ := healpyContract_met
  exact ⟨H, fun x g hx => C33_healpy_map2alm hH (L := 4) (nside := 2) (by decide) (by decide) x g hx⟩

end S2fft
