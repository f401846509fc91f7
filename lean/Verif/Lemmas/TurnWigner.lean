import Verif.Lemmas.Turn
import Verif.Lemmas.LinearWigner

/-! # Turns of signals on the rotation group (C52) -/

namespace S2fft
open Spec

/-- Two columns over the third angle, one a rotation of the other. -/
def ColTurned (N : ℤ) (γ : ℝ) (x y : ℤ → ℂ) : Prop :=
  ∀ g, 0 ≤ g → g < 2 * N - 1 → ∃ g', 0 ≤ g' ∧ g' < 2 * N - 1 ∧
    SameAngle (2 * Real.pi * (g' + (0 : ℝ)) / (2 * N - 1 : ℤ)) (2 * Real.pi * (g + (0 : ℝ)) / (2 * N - 1 : ℤ) + γ)
      ∧ y g' = x g

theorem sameAngle_trans_neg {x y z a : ℝ} (h : SameAngle x (z + a)) (h' : SameAngle y (z + a)) :
    SameAngle x y := by
  obtain ⟨k, rfl⟩ := h
  obtain ⟨j, rfl⟩ := h'
  exact ⟨k - j, by push_cast; ring⟩

section
variable {σ : Scheme} {L N ns : ℤ} {α γ : ℝ} {f f' : ℤ → ℤ → ℤ → ℂ}

theorem so3_column (hv : σ.Valid L ns) (hN : 1 ≤ N) (h : TurnedSo3 σ L N ns α γ f f') {t p : ℤ}
    (ht : σ.Has L ns t p) :
    ∃ p', σ.Has L ns t p' ∧ SameAngle (σ.phi L ns t p') (σ.phi L ns t p + α) ∧
      ColTurned N γ (fun g => f g (σ.pos ns t p).1 (σ.pos ns t p).2)
        (fun g => f' g (σ.pos ns t p').1 (σ.pos ns t p').2) := by
  obtain ⟨_, p', _, _, hp', ha, _, _⟩ := h 0 t p le_rfl (by omega) ht
  refine ⟨p', hp', ha, fun g g0 g1 => ?_⟩
  obtain ⟨g', q, h0, h1, hq, hb, hg, e⟩ := h g t p g0 g1 ht
  have hn := ringLen_pos hv ht.1 ht.2.1
  have hd : σ.ringLen L ns t ∣ q - p' := sameAngle_index hn (c := σ.shift ns t)
    (sameAngle_trans_neg hb ha)
  have hpq : q = p' := by
    obtain ⟨c, hc⟩ := hd
    have a0 := hq.2.2.1
    have a1 := hq.2.2.2
    have b0 := hp'.2.2.1
    have b1 := hp'.2.2.2
    have : c = 0 := by
      by_contra h0
      rcases lt_or_gt_of_ne h0 with h | h <;> nlinarith
    subst this
    omega
  subst hpq
  refine ⟨g', h0, h1, ?_, e⟩
  unfold gammaAt at hg
  push_cast
  simpa only [add_zero] using hg

theorem turned_column (hv : σ.Valid L ns) (hN : 1 ≤ N) (h : TurnedSo3 σ L N ns α γ f f')
    (T : (ℤ → ℂ) → ℂ) (T' : (ℤ → ℂ) → ℂ) (hT : ∀ x y, ColTurned N γ x y → T' y = T x) :
    Turned σ L ns α (fun i j => T fun g => f g i j) (fun i j => T' fun g => f' g i j) := by
  intro t p ht
  obtain ⟨p', hp', ha, hc⟩ := so3_column hv hN h ht
  exact ⟨p', hp', ha, hT _ _ hc⟩

theorem fft_column (hN : 1 ≤ N) {x y : ℤ → ℂ} (h : ColTurned N γ x y) (n : ℤ) :
    fft (2 * N - 1) y n = cis (-(n * γ)) * fft (2 * N - 1) x n := by
  have e : ∀ z : ℤ → ℂ, fft (2 * N - 1) z n
      = ∑ p ∈ Finset.Ico 0 (2 * N - 1), z p * cis (-(n * (2 * Real.pi * (p + 0) / (2 * N - 1 : ℤ)))) := by
    intro z
    refine Finset.sum_congr rfl fun p _ => ?_
    congr 2
    ring
  rw [e, e]
  exact ring_turned (by omega : 0 < 2 * N - 1) (c := 0) (α := γ) h n

theorem colTurned_re {x y : ℤ → ℂ} (h : ColTurned N γ x y) :
    ColTurned N γ (fun g => ((x g).re : ℂ)) (fun g => ((y g).re : ℂ)) := by
  intro g g0 g1
  obtain ⟨g', a, b, c, d⟩ := h g g0 g1
  exact ⟨g', a, b, c, by beta_reduce; rw [d]⟩

theorem fban_turned (hv : σ.Valid L ns) (hN : 1 ≤ N) (h : TurnedSo3 σ L N ns α γ f f')
    (reality : Bool) (n : ℤ) :
    Turned σ L ns α
      (fun i j => cis (-(n * γ)) * wignerBaseFban f N reality (n - wigStart N reality) i j)
      (wignerBaseFban f' N reality (n - wigStart N reality)) := by
  refine turned_column hv hN h
    (fun x => cis (-(n * γ)) * wignerBaseFban (fun g _ _ => x g) N reality (n - wigStart N reality) 0 0)
    (fun x => wignerBaseFban (fun g _ _ => x g) N reality (n - wigStart N reality) 0 0) fun x y hc => ?_
  unfold wignerBaseFban wigStart ngamma
  cases reality
  · simp only [Bool.false_eq_true, if_false]
    rw [fftshift_fft (by omega), fftshift_fft (by omega), fft_column hN hc,
      show n - (-N + 1) - (2 * N - 1) / 2 = n by omega]
    ring
  · simp only [if_true, rfft, sub_zero]
    rw [fft_column hN (colTurned_re hc)]
    ring

theorem planeOf_turned {g g' : ℤ → ℤ → ℂ} (h : Turned σ L ns α g g') :
    Turned σ L ns α (planeOf ((2 * N - 1) :: σ.shape L ns) g).get2
      (planeOf ((2 * N - 1) :: σ.shape L ns) g').get2 := by
  intro t p ht
  obtain ⟨p', a, b, c⟩ := h t p ht
  exact ⟨p', a, b, by rw [planeOf_get, planeOf_get, c]⟩

theorem realSo3_turned {nodes : ℤ → ℤ → ℝ} (hv : σ.Valid L ns) (hN : 1 ≤ N)
    (h : TurnedSo3 σ L N ns α γ f f') (hf : RealSo3Input nodes σ L N ns f) :
    RealSo3Input nodes σ L N ns f' := by
  classical
  refine ⟨fun g t p g0 g1 ht => ?_, realInput_turned hv (turned_column hv hN h
    (fun x => ∑ g ∈ Finset.Ico 0 (2 * N - 1), x g) (fun x => ∑ g ∈ Finset.Ico 0 (2 * N - 1), x g)
    fun x y hc => ?_) hf.2⟩
  · have hT := turned_column hv hN h
      (fun x => if ∀ g, 0 ≤ g → g < 2 * N - 1 → (x g).im = 0 then 1 else 0)
      (fun x => if ∀ g, 0 ≤ g → g < 2 * N - 1 → (x g).im = 0 then 1 else 0) (fun x y hc => by
        obtain ⟨s, _, e⟩ := ring_roll (by omega : 0 < 2 * N - 1) hc
        have H : (∀ g, 0 ≤ g → g < 2 * N - 1 → (y g).im = 0) ↔
            ∀ g, 0 ≤ g → g < 2 * N - 1 → (x g).im = 0 := by
          refine ⟨fun H g g0 g1 => ?_, fun H g g0 g1 => ?_⟩
          · obtain ⟨g', a, b, _, d⟩ := hc g g0 g1
            rw [← d]; exact H g' a b
          · rw [e g g0 g1]
            exact H _ (Int.emod_nonneg _ (by omega)) (Int.emod_lt_of_pos _ (by omega))
        by_cases hx : ∀ g, 0 ≤ g → g < 2 * N - 1 → (x g).im = 0
        · rw [if_pos hx, if_pos (H.2 hx)]
        · rw [if_neg hx, if_neg (fun h => hx (H.1 h))])
    obtain ⟨q, hq, _, e⟩ := turned_back hv hT ht
    beta_reduce at e
    rw [if_pos (fun g g0 g1 => hf.1 g t q g0 g1 hq)] at e
    split_ifs at e with H
    · exact H g g0 g1
    · exact absurd e (by norm_num)
  · have := ring_turned (by omega : 0 < 2 * N - 1) (c := 0) (α := γ) (x := x) (y := y) hc 0
    simpa using this

end

theorem wigFwdVal_turned {σ : Scheme} {L N lo : ℤ} {nside : Option ℤ} {α γ : ℝ} {f f' : Nd ℂ}
    (T : GlTables) (hv : σ.Valid L (nside.getD 0)) (hN : 1 ≤ N)
    (h : TurnedSo3 σ L N (nside.getD 0) α γ f.get3 f'.get3) (reality : Bool) (θ : ℤ → ℝ) (n el : ℤ)
    {m : ℤ} (m0 : -L < m) (m1 : m < L) :
    mirrored reality (wigFwdVal σ L N lo nside T f' reality θ) n el m
      = cis (-(m * α)) * cis (-(n * γ)) * mirrored reality (wigFwdVal σ L N lo nside T f reality θ) n el m := by
  have key : ∀ n m, -L < m → m < L → wigFwdVal σ L N lo nside T f' reality θ n el m
      = cis (-(m * α)) * cis (-(n * γ)) * wigFwdVal σ L N lo nside T f reality θ n el m := by
    intro n m m0 m1
    have e := forward_turned hv (planeOf_turned (N := N) (fban_turned hv hN h reality n)) false (-n) θ
      (innerWeight T σ L (nside.getD 0)) el m0 m1
    simp only [symm, Bool.false_eq_true, false_and, if_false] at e
    have e2 := planeOf_lin (cis (-(n * γ))) 0 ((2 * N - 1) :: σ.shape L (nside.getD 0))
      (wignerBaseFban f.get3 N reality (n - wigStart N reality)) (fun _ _ => 0)
    simp only [zero_mul, add_zero] at e2
    have e3 := innerSignal_lin (cis (-(n * γ))) 0 σ L (-n) (planeOf ((2 * N - 1) :: σ.shape L (nside.getD 0))
      (wignerBaseFban f.get3 N reality (n - wigStart N reality))).get2 (fun _ _ => 0)
    simp only [zero_mul, add_zero] at e3
    rw [e2, e3] at e
    unfold wigFwdVal wigRings
    split_ifs
    · ring
    · rw [e, fAt_smul (c := cis (-(n * γ))) (A := ringSum σ.inner L (nside.getD 0) (innerSignal σ L (-n)
        (planeOf ((2 * N - 1) :: σ.shape L (nside.getD 0))
          (wignerBaseFban f.get3 N reality (n - wigStart N reality))).get2))]
      · ring
      · intro t _ _
        unfold ringSum
        rw [Finset.mul_sum]
        exact Finset.sum_congr rfl fun p _ => by ring
  unfold mirrored
  split_ifs with hR
  · rw [key _ _ (by omega) (by omega), map_mul, map_mul, conj_phase, conj_phase]
    ring
  · exact key n m m0 m1

theorem turnWigner_cis (L N : ℤ) (α γ : ℝ) (c : ℤ → ℤ → ℤ → ℂ) (n l m : ℤ) :
    turnWigner L N α γ c (N - 1 + n) l (m + L - 1)
      = cis (-(m * α)) * cis (-(n * γ)) * c (N - 1 + n) l (m + L - 1) := by
  unfold turnWigner
  rw [← cis_add]
  unfold cis
  rw [show m + L - 1 - L + 1 = m by ring, show N - 1 + n - N + 1 = n by ring]
  push_cast
  ring_nf

theorem wignerCoeffs_turn (c : ℤ → ℤ → ℤ → ℂ) (L N : ℤ) (reality : Bool) (α γ : ℝ) (n l m : ℤ) :
    wignerCoeffs (turnWigner L N α γ c) L N reality n l m
      = cis (-(m * α)) * cis (-(n * γ)) * wignerCoeffs c L N reality n l m := by
  unfold wignerCoeffs
  split_ifs
  · unfold realWignerCoeffs
    beta_reduce
    split_ifs
    · rw [turnWigner_cis, map_mul, map_mul, conj_phase, conj_phase]
      ring
    · rw [turnWigner_cis]
  · exact turnWigner_cis L N α γ c n l m

theorem wignerSum_turn (lo L N : ℤ) {c c' : ℤ → ℤ → ℤ → ℂ} (α γ β : ℝ) {x x' y y' : ℝ}
    (h : SameAngle x' (x + α)) (h' : SameAngle y' (y + γ))
    (hc : ∀ n l m, c' n l m = cis (-(m * α)) * cis (-(n * γ)) * c n l m) :
    wignerSum lo L N c' x' β y' = wignerSum lo L N c x β y := by
  unfold wignerSum wignerD
  refine Finset.sum_congr rfl fun n _ => Finset.sum_congr rfl fun l _ => Finset.sum_congr rfl fun m _ => ?_
  rw [hc, cis_same_neg h, cis_same_neg h', mul_add, mul_add, neg_add, neg_add, cis_add, cis_add]
  simp only [map_mul, conj_cis, neg_neg]
  have e1 : cis (-(m * α)) * cis (m * α) = 1 := by rw [← cis_add]; simp
  have e2 : cis (-(n * γ)) * cis (n * γ) = 1 := by rw [← cis_add]; simp
  linear_combination (norm := ring_nf)
    (2 * (l : ℂ) + 1) / (8 * (Real.pi : ℂ) ^ 2) * c n l m * cis (m * x) * (starRingEnd ℂ) ((wignerd l m n β : ℝ) : ℂ)
      * cis (n * y) * (e1 * (cis (-(n * γ)) * cis (n * γ)) + e2)
  
theorem realOrigin_turn {c : ℤ → ℤ → ℤ → ℂ} {L N lo : ℤ} {reality : Bool} (α γ : ℝ)
    (h : RealOrigin c L N reality lo) : RealOrigin (turnWigner L N α γ c) L N reality lo := by
  intro hr el e0 e1
  have := turnWigner_cis L N α γ c 0 el 0
  simp only [add_zero, zero_add, Int.cast_zero, zero_mul, neg_zero, cis_zero, one_mul] at this
  rw [this]
  exact h hr el e0 e1

theorem realHarmonics_turn {c : ℤ → ℤ → ℤ → ℂ} {L N lo : ℤ} (α γ : ℝ)
    (h : RealHarmonics (fun el m => c (N - 1) el (m + L - 1)) lo L) :
    RealHarmonics (fun el m => turnWigner L N α γ c (N - 1) el (m + L - 1)) lo L := by
  intro l m l0 l1 hm
  have e := fun m => turnWigner_cis L N α γ c 0 l m
  simp only [add_zero, Int.cast_zero, zero_mul, neg_zero, cis_zero, mul_one] at e
  have := h l m l0 l1 hm
  beta_reduce at this ⊢
  rw [e, e, this, map_mul, conj_cis]
  push_cast
  rw [show -(-(m : ℝ) * α) = -(-(m * α)) by ring]
  ring

/-! ## Precomputed kernels -/

theorem fbanAt_turned {σ : Scheme} {L N ns : ℤ} {α γ : ℝ} {f f' : ℤ → ℤ → ℤ → ℂ}
    (hv : σ.Valid L ns) (hN : 1 ≤ N) (h : TurnedSo3 σ L N ns α γ f f') (reality : Bool) (n : ℤ) :
    Turned σ L ns α (fun i j => cis (-(n * γ)) * fbanAt f N reality n i j) (fbanAt f' N reality n) := by
  refine turned_column hv hN h
    (fun x => cis (-(n * γ)) * fbanAt (fun g _ _ => x g) N reality n 0 0)
    (fun x => fbanAt (fun g _ _ => x g) N reality n 0 0) fun x y hc => ?_
  unfold fbanAt wignerFban
  cases reality
  · rw [nFirst_false]
    simp only [Bool.false_eq_true, if_false]
    rw [fftshift_fft (by omega), fftshift_fft (by omega), fft_column hN hc,
      show n - (-N + 1) - (2 * N - 1) / 2 = n by omega]
  · rw [nFirst_true]
    simp only [if_true, rfft, sub_zero]
    rw [fft_column hN (colTurned_re hc)]

theorem wigCoef_turned {σ : Scheme} {L N ns : ℤ} {α γ : ℝ} {f f' : ℤ → ℤ → ℤ → ℂ}
    (G : GlTables) (hv : σ.Valid L ns) (hN : 1 ≤ N) (h : TurnedSo3 σ L N ns α γ f f')
    (reality : Bool) (n el : ℤ) {m : ℤ} (m0 : -L < m) (m1 : m < L) :
    wigFull reality (wigCoef G σ L N ns (fbanAt f' N reality)) n el m
      = cis (-(m * α)) * cis (-(n * γ)) * wigFull reality (wigCoef G σ L N ns (fbanAt f N reality)) n el m := by
  have key : ∀ n m, -L < m → m < L → wigCoef G σ L N ns (fbanAt f' N reality) n el m
      = cis (-(m * α)) * cis (-(n * γ)) * wigCoef G σ L N ns (fbanAt f N reality) n el m := by
    intro n m m0 m1
    have ht := fbanAt_turned hv hN h reality n
    have e3 := innerSignal_lin (cis (-(n * γ))) 0 σ L (-n) (fbanAt f N reality n) (fun _ _ => 0)
    simp only [zero_mul, add_zero] at e3
    unfold wigCoef
    rw [Finset.mul_sum]
    refine Finset.sum_congr rfl fun t ht' => ?_
    rw [Finset.mem_Ico] at ht'
    rw [ringSum_inner_smul hv.1 m0 m1 (fun t t0 t1 => ringSum_turned hv ht m t0 t1) t ht'.1 ht'.2, e3]
    have e5 := ringSum_lin (cis (-(n * γ))) 0 σ.inner L ns (innerSignal σ L (-n) (fbanAt f N reality n))
      (fun _ _ => 0)
    simp only [zero_mul, add_zero] at e5
    rw [e5]
    ring
  unfold wigFull
  split_ifs with hR
  · rw [key _ _ (by omega) (by omega), map_mul, map_mul, conj_phase, conj_phase]
    ring
  · exact key n m m0 m1

theorem realPlane_turn {c : ℤ → ℤ → ℤ → ℂ} {L N : ℤ} {reality : Bool} (α γ : ℝ)
    (h : RealPlane c L N reality) : RealPlane (turnWigner L N α γ c) L N reality := by
  intro hr l m l0 l1 hm
  have e := fun m => turnWigner_cis L N α γ c 0 l m
  simp only [add_zero, Int.cast_zero, zero_mul, neg_zero, cis_zero, mul_one] at e
  rw [e, e, h hr l m l0 l1 hm, map_mul, conj_cis]
  push_cast
  rw [show -(-(m : ℝ) * α) = -(-(m * α)) by ring]
  ring

/-! ## Fourier-Wigner -/

theorem fwRings_ringSum {σ : Scheme} (hσ : σ = .mw ∨ σ = .mwss) {s : PyStr} (hs : lower s = σ.name)
    {L N : ℤ} (hL : 1 ≤ L) (f : ℤ → ℤ → ℤ → ℂ) (reality : Bool) (n t m : ℤ) :
    fwRings f N (fwSize L s) (fwOffset s) reality (n - nFirst N reality) t (m + L - 1)
      = ringSum σ L 0 (fbanAt f N reality n) t m / (fwSize L s * (2 * (N : ℂ) - 1)) := by
  have hp : 0 < fwSize L s := by unfold fwSize; split_ifs <;> omega
  have hk : fwOffset s + (m + L - 1) - fwSize L s / 2 = m := by
    unfold fwOffset fwSize; split_ifs <;> omega
  have hring : ∀ x : ℤ → ℤ → ℂ, fft (fwSize L s) (x t) m = ringSum σ L 0 x t m := by
    intro x
    unfold fft ringSum
    rcases hσ with rfl | rfl
    · have : fwSize L s = 2 * L - 1 := by
        unfold fwSize; rw [hs, if_neg (by decide)]
      rw [this]
      refine Finset.sum_congr rfl fun p _ => ?_
      simp only [Scheme.pos, Scheme.phi, Scheme.shift, Scheme.ringLen]
      congr 2
      ring
    · have : fwSize L s = 2 * L := by
        unfold fwSize; rw [hs, if_pos (show Scheme.mwss.name = sMWSS from rfl)]
      rw [this]
      refine Finset.sum_congr rfl fun p _ => ?_
      simp only [Scheme.pos, Scheme.phi, Scheme.shift, Scheme.ringLen]
      congr 2
      ring
  have hz : ∀ k : ℤ → ℂ, fftshift (2 * N - 1) k (n - (-N + 1)) = k (n % (2 * N - 1)) := by
    intro k
    unfold fftshift
    rw [show n - (-N + 1) - (2 * N - 1) / 2 = n by omega]
  have hm : ∀ x : ℤ → ℂ, fftshift (fwSize L s) x (fwOffset s + (m + L - 1)) = x (m % fwSize L s) := by
    intro x
    unfold fftshift
    rw [hk]
  rw [← hring]
  unfold fwRings fbanAt wignerFban
  cases reality
  · simp only [Bool.false_eq_true, if_false, nFirst_false]
    rw [hm, hz]
    simp only [hz]
    unfold fft_fwd
    simp only [fft_periodic hp.ne', fft_periodic (show (2 * N - 1 : ℤ) ≠ 0 by omega)]
    have hc : fft (2 * N - 1) (fun g => fft (fwSize L s) (f g t) m / (fwSize L s : ℂ)) n
        = fft (fwSize L s) (fun p => fft (2 * N - 1) (fun g => f g t p) n) m / (fwSize L s : ℂ) := by
      simp only [fft, Finset.sum_mul, Finset.sum_div]
      rw [Finset.sum_comm]
      exact Finset.sum_congr rfl fun p _ => Finset.sum_congr rfl fun g _ => by ring
    rw [hc, div_div]
    push_cast
    ring
  · simp only [if_true, nFirst_true]
    rw [hm]
    unfold fft_fwd
    rw [fft_periodic hp.ne']
    simp only [div_eq_mul_inv]
    rw [fft_smul, mul_inv]
    ring

/-- The convolution over the second angle acts within each order. -/
theorem fwConvolved_turned {σ : Scheme} (hσ : σ = .mw ∨ σ = .mwss) {s : PyStr} (hs : lower s = σ.name)
    {L N : ℤ} (hv : σ.Valid L 0) (hN : 1 ≤ N) {α γ : ℝ} {f f' : ℤ → ℤ → ℤ → ℂ}
    (h : TurnedSo3 σ L N 0 α γ f f') (precomps : Option FwTables) (reality : Bool) (n i m : ℤ) :
    fwConvolved f' L N precomps reality s (n - nFirst N reality) i (m + L - 1)
      = cis (-(m * α)) * cis (-(n * γ))
        * fwConvolved f L N precomps reality s (n - nFirst N reality) i (m + L - 1) := by
  set c := cis (-(m * α)) * cis (-(n * γ)) with hc
  have hr : σ.rings L 0 = fwNtheta L s := by
    unfold fwNtheta
    rcases hσ with rfl | rfl
    · rw [hs, if_neg (by decide)]; rfl
    · rw [hs, if_pos (show Scheme.mwss.name = sMWSS from rfl)]; rfl
  have key : ∀ t, 0 ≤ t → t < fwNtheta L s →
      fwRings f' N (fwSize L s) (fwOffset s) reality (n - nFirst N reality) t (m + L - 1)
        = c * fwRings f N (fwSize L s) (fwOffset s) reality (n - nFirst N reality) t (m + L - 1) := by
    intro t t0 t1
    rw [fwRings_ringSum hσ hs hv.1, fwRings_ringSum hσ hs hv.1,
      ringSum_turned hv (fbanAt_turned hv hN h reality n) m t0 (by rw [hr]; exact t1)]
    have e5 := ringSum_lin (cis (-(n * γ))) 0 σ L 0 (fbanAt f N reality n) (fun _ _ => 0)
    simp only [zero_mul, add_zero] at e5
    rw [e5, hc]
    ring
  unfold fwConvolved
  have hnt : L ≤ fwNtheta L s := by unfold fwNtheta; split_ifs <;> omega
  have e : ∀ t, 0 ≤ t → t < fwNtheta L s + (L - 1) →
      fwExtend (fwRings f' N (fwSize L s) (fwOffset s) reality) L N (fwNtheta L s) reality
        (n - nFirst N reality) t (m + L - 1)
      = c * fwExtend (fwRings f N (fwSize L s) (fwOffset s) reality) L N (fwNtheta L s) reality
        (n - nFirst N reality) t (m + L - 1) + 0 * 0 := by
    intro t t0 t1
    unfold fwExtend
    dsimp only
    split_ifs with ht
    · rw [key t t0 ht]; ring
    · rw [key _ (by omega) (by omega)]; ring
  have hcong : ∀ u v : ℤ → ℂ, (∀ t, 0 ≤ t → t < fwNtheta L s + (L - 1) → u t = v t) →
      ∀ q lp mw i, fwConvolve u q L (fwNtheta L s + (L - 1)) lp mw i
        = fwConvolve v q L (fwNtheta L s + (L - 1)) lp mw i := by
    intro u v huv q lp mw i
    have : fft_fwd (fwNtheta L s + (L - 1)) u = fft_fwd (fwNtheta L s + (L - 1)) v := by
      funext k
      unfold fft_fwd fft
      congr 1
      refine Finset.sum_congr rfl fun t ht => ?_
      rw [Finset.mem_Ico] at ht
      rw [huv t ht.1 ht.2]
    unfold fwConvolve
    rw [this]
  rw [hcong _ _ e, fwConvolve_lin c 0 _ (fun _ => 0)]
  ring

theorem fwCoeff_turned {σ : Scheme} (hσ : σ = .mw ∨ σ = .mwss) {s : PyStr} (hs : lower s = σ.name)
    {L N : ℤ} (hv : σ.Valid L 0) (hN : 1 ≤ N) {α γ : ℝ} {f f' : ℤ → ℤ → ℤ → ℂ}
    (h : TurnedSo3 σ L N 0 α γ f f') (precomps : Option FwTables) (reality : Bool) (n l m : ℤ) :
    mirrored reality (fwCoeff (fwConvolved f' L N precomps reality s) L N reality) n l m
      = cis (-(m * α)) * cis (-(n * γ))
        * mirrored reality (fwCoeff (fwConvolved f L N precomps reality s) L N reality) n l m := by
  have key : ∀ n m, fwCoeff (fwConvolved f' L N precomps reality s) L N reality n l m
      = cis (-(m * α)) * cis (-(n * γ))
        * fwCoeff (fwConvolved f L N precomps reality s) L N reality n l m := by
    intro n m
    unfold fwCoeff
    simp only [fwConvolved_turned hσ hs hv hN h, Finset.sum_mul, Finset.mul_sum]
    exact Finset.sum_congr rfl fun i _ => by ring
  unfold mirrored
  split_ifs with hR
  · rw [key, map_mul, map_mul, conj_phase, conj_phase]
    ring
  · exact key n m

end S2fft
