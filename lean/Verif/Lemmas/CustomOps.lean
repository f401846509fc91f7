import Verif.Model.CustomOps
import Verif.Lemmas.FourierWignerForward

/-! # The transforms of a subset of directions -/

namespace S2fft
open Spec

theorem subsetColumns_ok (method : PyStr) {L ns : ℤ} (spins : ℤ → ℤ)
    (hsp : ∀ i, 0 ≤ i → i < ns → |spins i| < L) :
    ∃ cols, subsetColumns method L ns spins = .ok cols ∧
      ∀ i, 0 ≤ i → i < ns → cols i = -spins i + L - 1 := by
  unfold subsetColumns
  simp only
  split_ifs with h1 h2
  · refine ⟨_, rfl, fun i i0 i1 => ?_⟩
    have := abs_lt.1 (hsp i i0 i1)
    rw [if_neg (by omega)]; ring
  · refine absurd (fun i hi => ?_) h2
    rw [Finset.mem_Ico] at hi
    have := abs_lt.1 (hsp i hi.1 hi.2)
    constructor <;> omega
  · refine ⟨_, rfl, fun i i0 i1 => ?_⟩
    have := abs_lt.1 (hsp i i0 i1)
    unfold jaxGet
    simp only
    rw [if_neg (show ¬ L - 1 + -spins i < 0 by omega), if_neg (show ¬ L - 1 + -spins i < 0 by omega),
      if_neg (by omega)]
    ring

/-! ## Inverse -/

theorem wignerSubsetToS2_values (nodes : ℤ → ℤ → ℝ) (method : PyStr) {σ : Scheme}
    (hσ : σ.Resampled) {s : PyStr} (hs : lower s = σ.name) {L : ℤ} (hL : 1 ≤ L) {B ns C : ℤ}
    (flmn : ℤ → ℤ → ℤ → ℤ → ℤ → ℂ) (spins : ℤ → ℤ)
    (hsp : ∀ i, 0 ≤ i → i < ns → |spins i| < L) {P : FwTables} (hP : FwTablesAre P L) :
    ∃ out, wignerSubsetToS2 method ⟨[B, ns, L, 2 * L - 1, C], flmn⟩ ns spins P L s
        = .ok ⟨[B, ns, σ.rings L 0, 2 * L - 1 + σ.off, C], out⟩ ∧
      ∀ b i t p c, 0 ≤ i → i < ns → out b i t p c
        = wigPlane 0 L (fun _ l m => flmn b i l (m + L - 1) c) (-spins i)
            (σ.theta nodes L 0 t) (σ.phi L 0 t p) := by
  have ho := off_cases σ
  obtain ⟨cols, ec, hc⟩ := subsetColumns_ok method spins hsp
  unfold wignerSubsetToS2
  rw [if_neg (not_not.2 (fw_supported hσ hs)), fw_off hσ hs, fw_size hσ hs, fw_ntheta hσ hs]
  simp only [ne_eq, not_true, if_false, bind, Except.bind, ec, or_self]
  refine ⟨_, rfl, fun b i t p c i0 i1 => ?_⟩
  beta_reduce
  set x : ℤ → ℤ → ℂ := fun a j => (if σ.off ≤ a ∧ σ.off ≤ j then
      ∑ l ∈ Finset.Ico 0 L, flmn b i l (j - σ.off) c * P.delta l (a - σ.off) (j - σ.off)
        * P.delta l (a - σ.off) (cols i) * ((2 * (l : ℂ) + 1) / (8 * (Real.pi : ℂ) ^ 2)) else 0)
    * Complex.I ^ (-(-L + 1 - σ.off + j)) * Complex.I ^ (-spins i)
    * cis ((-L + 1 - σ.off + a : ℤ) * fwTheta0 L s) with hx
  set y : ℤ → ℤ → ℂ := fun t j => ifft_fwd (2 * L - 1 + σ.off)
    (ifftshift (2 * L - 1 + σ.off) (fun a => x a j)) t with hy
  have hring : ∀ m t, -L < m → y t (m + L - 1 + σ.off)
      = wigRing L (fun _ l m => flmn b i l (m + L - 1) c) (-spins i) (σ.theta nodes L 0 t) m := by
    intro m t m0
    rw [hy]
    beta_reduce
    rw [ifft_centred hL ho _ (fun h => by
        rw [hx]; beta_reduce; rw [if_neg (by omega)]; simp), wigRing_fourier]
    refine Finset.sum_congr rfl fun a ha => ?_
    rw [Finset.mem_Ioo] at ha
    rw [hx]
    beta_reduce
    rw [if_pos ⟨by omega, by omega⟩, show -L + 1 - σ.off + (m + L - 1 + σ.off) = m by ring,
      show -L + 1 - σ.off + (a + L - 1 + σ.off) = a by ring, add_sub_cancel_right,
      add_sub_cancel_right, ← fw_theta nodes hσ hs hL]
    have : ∑ l ∈ Finset.Ico 0 L, flmn b i l (m + L - 1) c * P.delta l (a + L - 1) (m + L - 1)
          * P.delta l (a + L - 1) (cols i) * ((2 * (l : ℂ) + 1) / (8 * (Real.pi : ℂ) ^ 2))
        = fwCoef L (fun _ l m => flmn b i l (m + L - 1) c) (-spins i) a m := by
      unfold fwCoef
      refine Finset.sum_congr rfl fun l hl => ?_
      rw [Finset.mem_Ico] at hl
      rw [hc i i0 i1, hP.1 l a m hl.1 hl.2, hP.1 l a (-spins i) hl.1 hl.2]
      ring
    rw [this]
    ring
  have hy0 : ∀ t, σ.off = 1 → y t 0 = 0 := by
    intro t h
    rw [hy]
    beta_reduce
    rw [ifft_centred hL ho _ (fun h => by
        rw [hx]; beta_reduce; rw [if_neg (by omega)]; simp)]
    refine Finset.sum_eq_zero fun a _ => ?_
    rw [hx]; beta_reduce; rw [if_neg (by omega)]; simp
  have hgoal : ifft_fwd (2 * L - 1 + σ.off) (ifftshift (2 * L - 1 + σ.off) (y t)) p
      = wigPlane 0 L (fun _ l m => flmn b i l (m + L - 1) c) (-spins i)
          (σ.theta nodes L 0 t) (σ.phi L 0 t p) := by
    rw [ifft_centred hL ho _ (hy0 _), wigPlane_ring]
    unfold synth
    rw [if_neg Bool.false_ne_true]
    refine Finset.sum_congr rfl fun m hm => ?_
    rw [Finset.mem_Ioo] at hm
    rw [hring m t hm.1, ← fw_phi hσ]
  exact hgoal

/-! ## Forward -/

theorem fw_lpad {σ : Scheme} (hσ : σ.Resampled) {s : PyStr} (hs : lower s = σ.name) (L : ℤ) :
    (if lower s = sMWSS then L - 2 else L - 1) = L - 1 - σ.off := by
  rw [hs]; rcases hσ with rfl | rfl
  · rw [if_neg (by decide)]; simp [Scheme.off]
  · rw [if_pos (show Scheme.mwss.name = sMWSS from rfl)]; simp only [Scheme.off]; ring

theorem fw_lpad_nonneg {σ : Scheme} (hσ : σ.Resampled) {L : ℤ} (h1 : 1 ≤ L)
    (hL : σ = .mwss → 2 ≤ L) : 0 ≤ L - 1 - σ.off := by
  rcases hσ with rfl | rfl
  · simp only [Scheme.off]; omega
  · simp only [Scheme.off]; have := hL rfl; omega

/-- One entry of the result, as a function of the samples of one signal. -/
noncomputable def subsetCoef (f : ℤ → ℤ → ℂ) (DW : FwTables) (L nt p off lpad : ℤ) (mw : Bool)
    (n col l j : ℤ) : ℂ :=
  let x : ℤ → ℤ → ℂ := fun t j => fftshift p (fft_fwd p (f t)) (off + j)
  let x : ℤ → ℤ → ℂ := fun t j => if t < nt then x t j
    else x (nt - 1 - (1 + (t - nt))) j * (-1) ^ |-L + 1 + j| * (-1) ^ |n|
  (∑ a ∈ Finset.Ico 0 (2 * L - 1), fwConvolve (fun t => x t j) DW.quads L (nt + (L - 1)) lpad mw a
    * DW.delta l a j * DW.delta l a col) * Complex.I ^ (-L + 1 + j) * Complex.I ^ (-n)
    * (2 * (Real.pi : ℂ)) ^ 2

theorem s2ToWignerSubset_coef (method : PyStr) {σ : Scheme} (hσ : σ.Resampled) {s : PyStr}
    (hs : lower s = σ.name) {L : ℤ} (hL : 1 ≤ L) (hL2 : σ = .mwss → 2 ≤ L) {B ns C : ℤ}
    (fs : ℤ → ℤ → ℤ → ℤ → ℤ → ℂ) (spins : ℤ → ℤ) (hsp : ∀ i, 0 ≤ i → i < ns → |spins i| < L)
    (P : FwTables) :
    ∃ out, s2ToWignerSubset method ⟨[B, ns, σ.rings L 0, 2 * L - 1 + σ.off, C], fs⟩ ns spins P L s
        = .ok ⟨[B, ns, L, 2 * L - 1, C], out⟩ ∧
      ∀ b i l j c, 0 ≤ i → i < ns → out b i l j c
        = subsetCoef (fun t p => fs b i t p c) P L (σ.rings L 0) (2 * L - 1 + σ.off) σ.off
            (L - 1 - σ.off) (lower s = sMW) (-spins i) (-spins i + L - 1) l j := by
  obtain ⟨cols, ec, hc⟩ := subsetColumns_ok method spins hsp
  have := fw_lpad_nonneg hσ hL hL2
  unfold s2ToWignerSubset
  rw [if_neg (not_not.2 (fw_supported hσ hs)), fw_off hσ hs, fw_size hσ hs, fw_ntheta hσ hs,
    fw_lpad hσ hs]
  simp only
  rw [if_neg (by simp), if_neg (by omega)]
  simp only [bind, Except.bind, ec]
  refine ⟨_, rfl, fun b i l j c i0 i1 => ?_⟩
  beta_reduce
  rw [hc i i0 i1]
  rfl

theorem subsetCoef_values (nodes : ℤ → ℤ → ℝ) {σ : Scheme} (hσ : σ.Resampled) {s : PyStr}
    (hs : lower s = σ.name) {L : ℤ} (hL : 1 ≤ L)
    (c : ℤ → ℤ → ℤ → ℂ) (n : ℤ) (f : ℤ → ℤ → ℂ) (hf : ∀ t p, 0 ≤ t → t < σ.rings L 0 → 0 ≤ p →
      p < 2 * L - 1 + σ.off → f t p = wigPlane 0 L c n (σ.theta nodes L 0 t) (σ.phi L 0 t p))
    {P : FwTables} (hP : FwTablesAre P L) {l m : ℤ} (l0 : 0 ≤ l) (l1 : l < L) (m0 : -L < m)
    (m1 : m < L) :
    subsetCoef f P L (σ.rings L 0) (2 * L - 1 + σ.off) σ.off (L - 1 - σ.off) (lower s = sMW) n
        (n + L - 1) l (m + L - 1)
      = if |n| ≤ l ∧ |m| ≤ l then c n l m else 0 := by
  have ho := off_cases σ
  have hr := fw_rings hσ L
  have hpi : (2 * (Real.pi : ℂ)) ^ 2 ≠ 0 := by
    have : (Real.pi : ℂ) ≠ 0 := by exact_mod_cast Real.pi_ne_zero
    exact pow_ne_zero 2 (mul_ne_zero two_ne_zero this)
  have hne : ((2 * L - 1 + σ.off : ℤ) : ℂ) ≠ 0 := by
    exact_mod_cast (show 2 * L - 1 + σ.off ≠ 0 by omega)
  have hring : ∀ t, 0 ≤ t → t < σ.rings L 0 →
      fftshift (2 * L - 1 + σ.off) (fft_fwd (2 * L - 1 + σ.off) (f t)) (σ.off + (m + L - 1))
        = wigRing L c n (σ.theta nodes L 0 t) m := by
    intro t t0 t1
    unfold fftshift fft_fwd
    rw [show σ.off + (m + L - 1) - (2 * L - 1 + σ.off) / 2 = m by omega,
      fft_periodic (show 2 * L - 1 + σ.off ≠ 0 by omega),
      fft_congr (fun p p0 p1 => hf t p t0 t1 p0 p1),
      fft_plane hL ho c n _ (fun p => σ.phi L 0 t p) (fun m p => fw_phi hσ L m t p) m0 m1]
    field_simp
  unfold subsetCoef
  dsimp only
  rw [show σ.rings L 0 + (L - 1) = 2 * L - 1 + σ.off by omega, hP.2]
  rw [show -L + 1 + (m + L - 1) = m by ring]
  rw [fw_rows (fun a => fwConvolve (fun t => if t < σ.rings L 0 then
      fftshift (2 * L - 1 + σ.off) (fft_fwd (2 * L - 1 + σ.off) (f t)) (σ.off + (m + L - 1))
      else fftshift (2 * L - 1 + σ.off) (fft_fwd (2 * L - 1 + σ.off)
        (f (σ.rings L 0 - 1 - (1 + (t - σ.rings L 0))))) (σ.off + (m + L - 1)) * (-1) ^ |m|
          * (-1) ^ |n|) (fwQuads L) L (2 * L - 1 + σ.off) (L - 1 - σ.off)
        (decide (lower s = sMW)) a) (P.delta l) rfl rfl (fun a m => hP.1 l a m l0 l1)]
  have hsum : ∑ a ∈ Finset.Ioo (-L) L, fwConvolve (fun t => if t < σ.rings L 0 then
      fftshift (2 * L - 1 + σ.off) (fft_fwd (2 * L - 1 + σ.off) (f t)) (σ.off + (m + L - 1))
      else fftshift (2 * L - 1 + σ.off) (fft_fwd (2 * L - 1 + σ.off)
        (f (σ.rings L 0 - 1 - (1 + (t - σ.rings L 0))))) (σ.off + (m + L - 1)) * (-1) ^ |m|
          * (-1) ^ |n|) (fwQuads L) L (2 * L - 1 + σ.off) (L - 1 - σ.off)
        (decide (lower s = sMW)) (a + L - 1) * wignerd l a m (Real.pi / 2)
          * wignerd l a n (Real.pi / 2)
      = ∑ a ∈ Finset.Ioo (-L) L, (∑ b ∈ Finset.Ioo (-L) L,
          (fwCoef L c n b m * Complex.I ^ (-m) * Complex.I ^ n) * mw_weights (b - a))
          * wignerd l a m (Real.pi / 2) * wignerd l a n (Real.pi / 2) := by
    refine Finset.sum_congr rfl fun a ha => ?_
    rw [Finset.mem_Ioo] at ha
    congr 2
    refine fwConvolve_values nodes hσ hs hL _ _ (fun t t0 t1 => ?_) ha.1 ha.2
    rw [← wigRing_fourier]
    split_ifs with h
    · exact hring t t0 h
    · rw [show σ.rings L 0 - 1 - (1 + (t - σ.rings L 0)) = 2 * σ.rings L 0 - 2 - t by ring,
        hring _ (by omega) (by omega), ← fw_theta_reflect nodes hσ hL t, wigRing_reflect,
        neg_one_zpow_abs, neg_one_zpow_abs]
  refine (congrArg (fun z => z * Complex.I ^ m * Complex.I ^ (-n) * (2 * (Real.pi : ℂ)) ^ 2)
    hsum).trans ?_
  beta_reduce
  rw [fw_contract l0 l1 c (fun b => fwCoef L c n b m * Complex.I ^ (-m) * Complex.I ^ n)
    (fun β => wigRing_fourier L c n m β)]
  split_ifs
  · field_simp
  · simp

/-- The sum over `γ` is the Fourier transform at `-spin`. -/
theorem so3_dft {G : ℤ} (x : ℤ → ℂ) (s : ℤ) :
    (∑ g ∈ Finset.Ico 0 G, x g * cis (-2 * Real.pi * ((g : ℝ) / G * (-s : ℤ)))) / (G : ℂ)
      = fft_fwd G x (-s) := by
  unfold fft_fwd
  rw [fft_eq]
  congr 1
  refine Finset.sum_congr rfl fun g _ => ?_
  unfold tw
  congr 2
  push_cast
  ring

theorem fft_fwd_comm (n0 n1 : ℤ) (b : ℤ → ℤ → ℂ) (k j : ℤ) :
    fft_fwd n0 (fun g => fft_fwd n1 (b g) j) k
      = fft_fwd n1 (fun p => fft_fwd n0 (fun g => b g p) k) j := by
  have h := fft_comm n0 n1 b k j
  unfold fft_fwd
  simp only [div_eq_mul_inv]
  rw [fft_smul, fft_smul]
  beta_reduce
  rw [h]; ring

theorem fwRings_dft {N : ℤ} (f : ℤ → ℤ → ℤ → ℂ) (np off n t j : ℤ) :
    fwRings f N np off false (n - (-N + 1)) t j
      = fftshift np (fft_fwd np (fun p => fft_fwd (2 * N - 1) (fun g => f g t p) n)) (off + j) := by
  unfold fwRings
  rw [if_neg Bool.false_ne_true]
  dsimp only
  unfold fftshift
  rw [show n - (-N + 1) - (2 * N - 1) / 2 = n by omega]
  rw [← fft_fwd_comm (2 * N - 1) np (fun g p => f g t p) n]
  unfold fft_fwd
  beta_reduce
  rw [fft_periodic (show 2 * N - 1 ≠ 0 by omega)]

/-- The transform over `α` with its extension in `β`. -/
noncomputable def subsetExt (f : ℤ → ℤ → ℂ) (L nt p off n j t : ℤ) : ℂ :=
  if t < nt then fftshift p (fft_fwd p (f t)) (off + j)
  else fftshift p (fft_fwd p (f (nt - 1 - (1 + (t - nt))))) (off + j) * (-1) ^ |-L + 1 + j|
    * (-1) ^ |n|

theorem subsetCoef_eq {L l : ℤ} {P : FwTables} (hP : FwTablesAre P L) (l0 : 0 ≤ l) (l1 : l < L)
    (f : ℤ → ℤ → ℂ) (nt p off lpad : ℤ) (mw : Bool) (n m : ℤ) :
    subsetCoef f P L nt p off lpad mw n (n + L - 1) l (m + L - 1)
      = (∑ a ∈ Finset.Ioo (-L) L, fwConvolve (subsetExt f L nt p off n (m + L - 1)) (fwQuads L) L
          (nt + (L - 1)) lpad mw (a + L - 1) * wignerd l a m (Real.pi / 2)
          * wignerd l a n (Real.pi / 2)) * Complex.I ^ (-L + 1 + (m + L - 1)) * Complex.I ^ (-n)
          * (2 * (Real.pi : ℂ)) ^ 2 := by
  rw [← fw_rows (fun a => fwConvolve (subsetExt f L nt p off n (m + L - 1)) (fwQuads L) L
    (nt + (L - 1)) lpad mw a) (P.delta l) rfl rfl (fun a m => hP.1 l a m l0 l1), ← hP.2]
  rfl

/-- The complex Fourier-Wigner analysis of any samples, direction by direction. -/
theorem fourierWignerForward_coef (method : PyStr) {σ : Scheme} (hσ : σ.Resampled) {s : PyStr}
    (hs : lower s = σ.name) {L N : ℤ} (h1 : 1 ≤ N) (hN : N ≤ L) (hL : σ = .mwss → 2 ≤ L)
    (f : ℤ → ℤ → ℤ → ℂ) {precomps : Option FwTables} (hP : FwArgOk precomps L)
    {P : FwTables} (hP' : FwTablesAre P L) :
    ∃ g, fourierWignerForward method (.d3 (2 * N - 1) (σ.rings L 0) (2 * L - 1 + σ.off) f) L N
        precomps false s = .ok (.d3 (2 * N - 1) L (2 * L - 1) g) ∧
      ∀ n l m, -N < n → n < N → 0 ≤ l → l < L → g (N - 1 + n) l (m + L - 1)
        = subsetCoef (fun t p => fft_fwd (2 * N - 1) (fun g => f g t p) n) P L (σ.rings L 0)
            (2 * L - 1 + σ.off) σ.off (L - 1 - σ.off) (lower s = sMW) n (n + L - 1) l
            (m + L - 1) := by
  have hr := fw_rings hσ L
  have hlp := fw_lpad_nonneg hσ (by omega) hL
  have hquads : fwQuadsOf precomps L = fwQuads L := by
    cases precomps with
    | none => rfl
    | some P => exact (hP P rfl).2
  unfold fourierWignerForward
  rw [if_neg (not_not.2 (fw_supported hσ hs)), fw_ntheta hσ hs, fw_size hσ hs,
    if_neg (by simp [Nd.shape])]
  simp only [fw_lpad hσ hs, hquads, fw_off hσ hs]
  rw [if_neg (by omega), show σ.rings L 0 + (L - 1) = 2 * L - 1 + σ.off by omega]
  set x : ℤ → ℤ → ℤ → ℂ := fun k a j => fwConvolve (fun t => fwExtend
    (fwRings (Nd.d3 (2 * N - 1) (σ.rings L 0) (2 * L - 1 + σ.off) f).get3 N (2 * L - 1 + σ.off)
      σ.off false) L N (σ.rings L 0) false k t j)
    (fwQuads L) L (2 * L - 1 + σ.off) (L - 1 - σ.off) (lower s = sMW) a with hx
  obtain ⟨y, ey, hy⟩ := fwContract_ok method h1 hN x hP false
  simp only [bind, Except.bind]
  rw [ey]
  refine ⟨_, rfl, fun n l m n0 n1 l0 l1 => ?_⟩
  beta_reduce
  have hy := hy n l m (by rw [nFirst_false]; omega) n1 l0 l1
  rw [nFirst_false] at hy
  rw [if_neg Bool.false_ne_true, nFirst_false, show N - 1 + n = n - (-N + 1) by ring, hy]
  rw [subsetCoef_eq hP' l0 l1, show σ.rings L 0 + (L - 1) = 2 * L - 1 + σ.off by omega,
    show -N + 1 + (n - (-N + 1)) = n by ring]
  have hext : (fun t => fwExtend (fwRings (Nd.d3 (2 * N - 1) (σ.rings L 0) (2 * L - 1 + σ.off)
        f).get3 N (2 * L - 1 + σ.off) σ.off false) L N (σ.rings L 0) false (n - (-N + 1)) t
        (m + L - 1))
      = subsetExt (fun t p => fft_fwd (2 * N - 1) (fun g => f g t p) n) L (σ.rings L 0)
        (2 * L - 1 + σ.off) σ.off n (m + L - 1) := by
    funext t
    unfold fwExtend subsetExt
    dsimp only
    rw [fwRings_dft, fwRings_dft, nFirst_false, show -N + 1 + (n - (-N + 1)) = n by ring]
    rfl
  have hxv : ∀ a, x (n - (-N + 1)) a (m + L - 1) = fwConvolve (subsetExt
      (fun t p => fft_fwd (2 * N - 1) (fun g => f g t p) n) L (σ.rings L 0)
        (2 * L - 1 + σ.off) σ.off n (m + L - 1)) (fwQuads L) L (2 * L - 1 + σ.off) (L - 1 - σ.off)
        (lower s = sMW) a := by
    intro a
    rw [← hext]
  simp only [hxv]

end S2fft
