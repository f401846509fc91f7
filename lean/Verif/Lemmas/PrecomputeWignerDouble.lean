import Verif.Model.PrecomputeWignerDouble
import Verif.Lemmas.PrecomputeDouble
import Verif.Lemmas.PrecomputeWigner

/-! # Accuracy of the precomputed Wigner kernels in double precision -/

namespace S2fft
open Spec

/-- One Fourier coefficient, relative to the product of the entries of the plane. -/
theorem wignerFourierCoeffF_near (F : FftLib) {L n m a : ℤ} {θ' θ : ℝ}
    (hL1 : L ≤ 2 ^ 26) (hs : |n| < L) (hm : |m| < L) (a0 : 0 ≤ a) (a1 : a < L) (hθ0 : 0 ≤ θ)
    (hLθ : (L - 1 : ℝ) * θ ≤ Real.pi) (hθ : |θ' - θ| ≤ θ / 2 ^ 51) (delta : ℤ → ℤ → ℝ) :
    ‖wignerFourierCoeffF F L n (n + L - 1) θ' delta a (m + L - 1)
      - (delta (a + L - 1) (m + L - 1) * delta (a + L - 1) (n + L - 1) : ℝ)
        * Complex.I ^ (n - m) * cis (a * θ)‖
      ≤ 15 * L / 2 ^ 50 * |delta (a + L - 1) (m + L - 1) * delta (a + L - 1) (n + L - 1)|
        + 5 / 2 ^ 1000 := by
  have hL : 1 ≤ L := by have := abs_nonneg m; omega
  have hL' : (1 : ℝ) ≤ L := by exact_mod_cast hL
  have hL2 : (L : ℝ) ≤ 2 ^ 26 := by exact_mod_cast hL1
  unfold wignerFourierCoeffF
  rw [show L - 1 + a = a + L - 1 by ring, show -(-L + 1 + (m + L - 1)) = -m by ring,
    show -L + 1 + (a + L - 1) = a by ring, show n - m = -m + n by ring, zpow_add₀ Complex.I_ne_zero,
    ← mul_assoc]
  generalize delta (a + L - 1) (m + L - 1) = x
  generalize delta (a + L - 1) (n + L - 1) = y
  have s0 := F.mul_near (x : ℂ) (y : ℂ)
  rw [← Complex.ofReal_mul, ← norm_mul, ← Complex.ofReal_mul, Complex.norm_real, Real.norm_eq_abs] at s0
  have hp : ∀ k : ℤ, |k| < L → ‖F.ipow k - Complex.I ^ k‖ ≤ L / 2 ^ 50 := fun k hk => by
    refine le_trans (F.ipow_near _) ?_
    gcongr
    rw [← Int.cast_abs]
    exact_mod_cast hk
  have s1 := mul_stepF F s0 (hp (-m) (by rwa [abs_neg])) (norm_I_zpow _)
  have s2 := mul_stepF F s1 (hp n hs) (norm_I_zpow _)
  have ha : (a : ℝ) * θ ≤ Real.pi := by
    have : (a : ℝ) ≤ L - 1 := by
      have : a ≤ L - 1 := by omega
      exact_mod_cast this
    exact le_trans (mul_le_mul_of_nonneg_right this hθ0) hLθ
  have s3 := mul_stepF F s2 (expIF_near F.toDoubleLib a0 (by omega) hθ0 ha hθ) (norm_cis _)
  refine le_trans s3 ?_
  rw [norm_mul, norm_mul, norm_I_zpow, norm_I_zpow, mul_one, mul_one, Complex.norm_real,
    Real.norm_eq_abs]
  have hτ := abs_nonneg (x * y)
  generalize |x * y| = τ at hτ
  have hu : (0 : ℝ) ≤ 1 / 2 ^ 1000 := by positivity
  rw [show (5 : ℝ) / 2 ^ 1000 = 5 * (1 / 2 ^ 1000) by ring]
  generalize (1 : ℝ) / 2 ^ 1000 = u at hu
  have hd : (L : ℝ) / 2 ^ 50 ≤ 1 / 2 ^ 24 := by
    rw [div_le_div_iff₀ (by positivity) (by positivity)]; norm_num at hL2 ⊢; linarith
  have hd0 : (0 : ℝ) ≤ L / 2 ^ 50 := by positivity
  have hd1 : (1 : ℝ) / 2 ^ 50 ≤ L / 2 ^ 50 := by gcongr
  rw [show (15 : ℝ) * L / 2 ^ 50 * τ = 15 * (L / 2 ^ 50 * τ) by ring]
  generalize (L : ℝ) / 2 ^ 50 = d at hd hd0 hd1
  have w0 : 0 ≤ d * τ := mul_nonneg hd0 hτ
  have w1 : 1 / 2 ^ 50 * τ ≤ d * τ := mul_le_mul_of_nonneg_right hd1 hτ
  have dm : ∀ {e : ℝ}, 0 ≤ e → e * d ≤ e * (1 / 2 ^ 24) := fun he => mul_le_mul_of_nonneg_left hd he
  -- the error after the second product
  have b1 : (τ + (τ / 2 ^ 50 + u)) * (1 + d) / 2 ^ 50 + u + (τ / 2 ^ 50 + u) * (1 + d) + τ * d
      ≤ d * τ + 9 / 4 * (1 / 2 ^ 50 * τ) + 9 / 4 * u := by
    have q1 := dm (e := τ + (τ / 2 ^ 50 + u)) (by positivity)
    have q2 := dm (e := τ / 2 ^ 50 + u) (by positivity)
    norm_num at q1 q2 ⊢
    linarith
  have b0 : 0 ≤ (τ + (τ / 2 ^ 50 + u)) * (1 + d) / 2 ^ 50 + u + (τ / 2 ^ 50 + u) * (1 + d) + τ * d := by
    positivity
  generalize (τ + (τ / 2 ^ 50 + u)) * (1 + d) / 2 ^ 50 + u + (τ / 2 ^ 50 + u) * (1 + d) + τ * d = r at b1 b0
  have c0 : 0 ≤ (τ + r) * (1 + d) / 2 ^ 50 + u + r * (1 + d) + τ * d := by positivity
  have c1 : (τ + r) * (1 + d) / 2 ^ 50 + u + r * (1 + d) + τ * d
      ≤ 9 / 4 * (d * τ) + 7 / 2 * (1 / 2 ^ 50 * τ) + 7 / 2 * u := by
    have q1 := dm (e := τ + r) (by positivity)
    have q2 := dm b0
    norm_num at w0 w1 q1 q2 b1 hu ⊢
    linarith
  generalize (τ + r) * (1 + d) / 2 ^ 50 + u + r * (1 + d) + τ * d = r' at c0 c1
  norm_num at w0 w1 c0 c1 hu ⊢
  linarith

/-- One row of the kernel, before the normalisation. -/
theorem wignerDlF_near (F : FftLib) {L n nt ns : ℤ} {θ : ℤ → ℝ} {θ' E : ℝ}
    (hL : 1 ≤ L) (hL1 : L ≤ 2 ^ 26) (hE : Covers L E) (hg : UniformGrid L nt ns θ) (hn : ns ≤ 4 * L)
    (hnt : nt ≤ ns) (hθ0 : 0 ≤ θ 0) (hLθ : (L - 1 : ℝ) * θ 0 ≤ Real.pi) (hθ : |θ' - θ 0| ≤ θ 0 / 2 ^ 51)
    {delta : ℤ → ℤ → ℝ} {el : ℤ} (h0 : 0 ≤ el) (h1 : el < L)
    (hd : HoldsNear delta L el (Real.pi / 2)) (hs : |n| < L) {t m : ℤ} (t0 : 0 ≤ t) (t1 : t < nt)
    (hm : |m| < L) :
    |F.irfft L (fun a => wignerFourierCoeffF F L n (n + L - 1) θ' delta a (m + L - 1)) ns t
      - wignerd el m n (θ t)| ≤ 5 * E := by
  obtain ⟨hE1, hE2, hE3⟩ := hE
  have hL' : (1 : ℝ) ≤ L := by exact_mod_cast hL
  have hm' := abs_lt.1 hm
  have hE0 : 0 < E := lt_of_lt_of_le (by positivity) hE2
  have exact : (irfft_fwd L (fun a => kernelFourier L (-n) (L - 1 - -n) (θ 0) false
      (fun x y => wignerd el (x - L + 1) (y - L + 1) (Real.pi / 2)) a
      (m + L - 1 - mStart L false)) ns t).re = wignerd el m (- -n) (θ t) :=
    kernelFourier_is hL hg h0 h1 (fun x y _ _ => by
      rw [show x + L - 1 - L + 1 = x by ring, show y + L - 1 - L + 1 = y by ring])
      (by rwa [abs_neg]) t0 t1 hm'.1 hm'.2
  rw [neg_neg] at exact
  have hval : ∀ a : ℤ, kernelFourier L (-n) (L - 1 - -n) (θ 0) false
      (fun x y => wignerd el (x - L + 1) (y - L + 1) (Real.pi / 2)) a (m + L - 1 - mStart L false)
      = (wignerd el a m (Real.pi / 2) * wignerd el a n (Real.pi / 2) : ℝ)
        * Complex.I ^ (n - m) * cis (a * θ 0) := by
    intro a
    unfold kernelFourier
    beta_reduce
    rw [show mStart L false + (m + L - 1 - mStart L false) = m + L - 1 by ring,
      show L - 1 - -n - L + 1 = n by ring, show L - 1 + a - L + 1 = a by ring,
      show m + L - 1 - L + 1 = m by ring,
      show - -n - (-L + 1 + (m + L - 1)) = n - m by ring,
      show -L + 1 + (L - 1 + a) = a by ring]
    push_cast; ring
  have hprod := hd.products h0 h1 (hE1 el h0 h1) m n
  have hex := wignerd_products h0 h1 (Real.pi / 2) m n
  set P : ℤ → ℂ := fun a => wignerFourierCoeffF F L n (n + L - 1) θ' delta a (m + L - 1) with hP
  set Q : ℤ → ℂ := fun a => (wignerd el a m (Real.pi / 2) * wignerd el a n (Real.pi / 2) : ℝ)
        * Complex.I ^ (n - m) * cis (a * θ 0) with hQ
  have exact' : (irfft_fwd L Q ns t).re = wignerd el m n (θ t) := by
    rw [← exact]
    congr 2
    funext a
    exact (hval a).symm
  have term : ∀ a ∈ Finset.Ico 0 L, ‖P a - Q a‖ ≤
      15 * L / 2 ^ 50 * |delta (a + L - 1) (m + L - 1) * delta (a + L - 1) (n + L - 1)|
        + 5 / 2 ^ 1000 + |delta (a + L - 1) (m + L - 1) * delta (a + L - 1) (n + L - 1)
          - wignerd el a m (Real.pi / 2) * wignerd el a n (Real.pi / 2)| := by
    intro a ha
    rw [Finset.mem_Ico] at ha
    have k1 := wignerFourierCoeffF_near F hL1 hs hm ha.1 ha.2 hθ0 hLθ hθ delta
    have e : P a - Q a = (P a - (delta (a + L - 1) (m + L - 1) * delta (a + L - 1) (n + L - 1) : ℝ)
        * Complex.I ^ (n - m) * cis (a * θ 0))
        + ((delta (a + L - 1) (m + L - 1) * delta (a + L - 1) (n + L - 1)
          - wignerd el a m (Real.pi / 2) * wignerd el a n (Real.pi / 2) : ℝ)
          * Complex.I ^ (n - m) * cis (a * θ 0)) := by
      simp only [hQ]; push_cast; ring
    rw [e]
    refine le_trans (norm_add_le _ _) (add_le_add k1 (le_of_eq ?_))
    rw [norm_mul, norm_mul, norm_cis, norm_I_zpow, mul_one, mul_one, Complex.norm_real, Real.norm_eq_abs]
  have hcard : ((Finset.Ico 0 L).card : ℝ) = L := by
    rw [Int.card_Ico, sub_zero]
    exact_mod_cast Int.toNat_of_nonneg (by omega : 0 ≤ L)
  have hu : (L : ℝ) / 2 ^ 1000 ≤ E / 2 ^ 900 := by
    have : (L : ℝ) / 2 ^ 1000 = L / 2 ^ 44 / 2 ^ 956 := by rw [div_div, ← pow_add]
    rw [this]
    gcongr
    · norm_num
    · norm_num
  have hu2 : E / 2 ^ 900 ≤ E / 2 ^ 10 := by
    gcongr
    · norm_num
    · norm_num
  have sumPQ : ∑ a ∈ Finset.Ico 0 L, ‖P a - Q a‖ ≤ 12 / 5 * E := by
    refine le_trans (Finset.sum_le_sum term) ?_
    rw [Finset.sum_add_distrib, Finset.sum_add_distrib, ← Finset.mul_sum, Finset.sum_const,
      nsmul_eq_mul, hcard]
    have c1 : 15 * (L : ℝ) / 2 ^ 50 * ∑ a ∈ Finset.Ico 0 L,
        |delta (a + L - 1) (m + L - 1) * delta (a + L - 1) (n + L - 1)| ≤ 15 / 64 * E * (1 / 16 + 1) ^ 2 := by
      refine mul_le_mul ?_ (le_trans hprod.2 (by gcongr)) (Finset.sum_nonneg fun _ _ => abs_nonneg _)
        (by positivity)
      norm_num at hE2 ⊢
      linarith
    have c2 : (L : ℝ) * (5 / 2 ^ 1000) = 5 * (L / 2 ^ 1000) := by ring
    rw [c2]
    have c3 := hprod.1
    have c4 : E * (E + 1) + E ≤ E * (1 / 16 + 1) + E := by gcongr
    norm_num at c1 hu2 ⊢
    linarith
  have sumQ : ∑ a ∈ Finset.Ico 0 L, ‖Q a‖ ≤ 1 := by
    refine le_trans (le_of_eq (Finset.sum_congr rfl fun a _ => ?_)) hex
    simp only [hQ]
    rw [norm_mul, norm_mul, norm_cis, norm_I_zpow, mul_one, mul_one, Complex.norm_real, Real.norm_eq_abs]
  have sumP : ∑ a ∈ Finset.Ico 0 L, 2 * ‖P a‖ ≤ 23 / 10 := by
    rw [← Finset.mul_sum]
    have : ∑ a ∈ Finset.Ico 0 L, ‖P a‖ ≤ ∑ a ∈ Finset.Ico 0 L, (‖Q a‖ + ‖P a - Q a‖) := by
      refine Finset.sum_le_sum fun a _ => ?_
      have := norm_sub_norm_le (P a) (Q a)
      linarith
    rw [Finset.sum_add_distrib] at this
    linarith
  have i1 := irfft_fwd_near hL hg.1 hg.2.1 P Q t
  have i2 := F.irfft_near L P ns t (by omega) t0 (by omega)
  rw [exact'] at i1
  have hn' : (ns : ℝ) ≤ 4 * L := by exact_mod_cast hn
  have i3 : (ns : ℝ) / 2 ^ 50 * (∑ k ∈ Finset.Ico 0 L, 2 * ‖P k‖) ≤ 4 / 64 * E * (23 / 10) := by
    refine mul_le_mul ?_ sumP (Finset.sum_nonneg fun _ _ => by positivity) (by positivity)
    norm_num at hE2 ⊢
    linarith
  have i4 : (ns : ℝ) / 2 ^ 1000 ≤ 4 * (L / 2 ^ 1000) := by
    rw [← mul_div_assoc]; gcongr
  have tri := abs_sub_le (F.irfft L P ns t) (irfft_fwd L P ns t).re (wignerd el m n (θ t))
  norm_num at hu2 i3 ⊢
  linarith

/-- The planes are near the Wigner functions up to degree `l`. -/
def WDlNear (dl : ℤ → ℤ → ℤ → ℤ → ℝ) (L n0 nd nt : ℤ) (θ : ℤ → ℝ) (ε : ℝ) (l : ℤ) : Prop :=
  ∀ k t el m, 0 ≤ k → k < nd → 0 ≤ t → t < nt → 0 ≤ el → el < l → |m| < L →
    |dl k t el (m + L - 1) - wignerd el m (n0 + k) (θ t)| ≤ ε

theorem WDlNear.step {dl : ℤ → ℤ → ℤ → ℤ → ℝ} {L n0 nd nt : ℤ} {θ : ℤ → ℝ} {ε : ℝ} {el : ℤ}
    (h : WDlNear dl L n0 nd nt θ ε el) {v : ℤ → ℤ → ℤ → ℝ}
    (hv : ∀ k t m, 0 ≤ k → k < nd → 0 ≤ t → t < nt → |m| < L →
      |v k t (m + L - 1) - wignerd el m (n0 + k) (θ t)| ≤ ε) :
    WDlNear (fun k => setDegree (dl k) el (v k)) L n0 nd nt θ ε (el + 1) := by
  intro k t e m k0 k1 t0 t1 e0 e1 hm
  unfold setDegree
  by_cases he : e = el
  · subst he
    simpa using hv k t m k0 k1 t0 t1 hm
  · simpa [he] using h k t e m k0 k1 t0 t1 e0 (by omega) hm

/-- The "fft" branch. -/
theorem wignerFourierF_near (F : FftLib) {L n0 nd nt : ℤ} {s : PyStr} {θ θ' : ℤ → ℝ} {E : ℝ}
    (hL : 1 ≤ L) (hL1 : L ≤ 2 ^ 26) (hE : Covers L E)
    (hg : UniformGrid L nt (kernelSamps s nt) θ) (hn : kernelSamps s nt ≤ 4 * L)
    (hnt : nt ≤ kernelSamps s nt) (hθ0 : 0 ≤ θ 0) (hLθ : (L - 1 : ℝ) * θ 0 ≤ Real.pi)
    (hθ : |θ' 0 - θ 0| ≤ θ 0 / 2 ^ 51) (hnd : ∀ k, 0 ≤ k → k < nd → |n0 + k| < L) :
    ∃ dl, wignerFourierF F L n0 (fun k => L - 1 + (n0 + k)) s nt θ' = .ok dl ∧
      WDlNear dl L n0 nd nt θ (5 * E) L := by
  obtain ⟨b0, b1, b2, b3⟩ := halfPiF F.toDoubleLib
  unfold wignerFourierF
  obtain ⟨s', e, h⟩ := forRangeM_ind (show (0 : ℤ) ≤ L by omega)
    (fun el (st : (ℤ → ℤ → ℝ) × (ℤ → ℤ → ℤ → ℤ → ℝ)) => do
      let delta ← risboFullF F.toDoubleLib (2 * L - 1) (2 * L - 1) st.1 (F.fl (F.fl Real.pi / 2)) L el
      pure (delta, fun k => setDegree (st.2 k) el (fun t j =>
        F.irfft L (fun a => wignerFourierCoeffF F L (n0 + k) (L - 1 + (n0 + k)) (θ' 0) delta a j)
          (kernelSamps s nt) t)))
    (fun _ _ => 0, fun _ _ _ _ => 0)
    (fun el st => (if el = 0 then ∀ m n : ℤ, st.1 (m + L - 1) (n + L - 1) = 0
        else HoldsNear st.1 L (el - 1) (Real.pi / 2)) ∧
      WDlNear st.2 L n0 nd nt θ (5 * E) el)
    ⟨by simp, fun k t el m _ _ _ _ a b => absurd a (by omega)⟩
    (fun el st h1 h2 h3 => by
      have hs' := risboStepF_near F.toDoubleLib h1 (by omega) b2 b3 h3.1
      refine ⟨(risboStepF F.toDoubleLib st.1 (F.fl (F.fl Real.pi / 2)) L el, fun k => setDegree (st.2 k)
        el (fun t j => F.irfft L (fun a => wignerFourierCoeffF F L (n0 + k) (L - 1 + (n0 + k)) (θ' 0)
          (risboStepF F.toDoubleLib st.1 (F.fl (F.fl Real.pi / 2)) L el) a j)
          (kernelSamps s nt) t)), ?_, ?_, ?_⟩
      · simp [risboFullF, risboArgChecksF, h1, h2, b0, b1, bind, Except.bind, pure, Except.pure]
      · rw [if_neg (by omega), add_sub_cancel_right]; exact hs'
      · refine h3.2.step (v := fun k t j => F.irfft L (fun a => wignerFourierCoeffF F L (n0 + k)
          (L - 1 + (n0 + k)) (θ' 0) (risboStepF F.toDoubleLib st.1 (F.fl (F.fl Real.pi / 2)) L el) a j)
          (kernelSamps s nt) t) fun k t m k0 k1 t0 t1 hm => ?_
        rw [show L - 1 + (n0 + k) = n0 + k + L - 1 by ring]
        exact wignerDlF_near F hL hL1 hE hg hn hnt hθ0 hLθ hθ h1 h2 hs' (hnd k k0 k1) t0 t1 hm)
  exact ⟨s'.2, by rw [e]; rfl, h.2⟩

/-- The "direct" branch, with colatitudes off by `τ`. -/
theorem wignerDirectF_near (F : DoubleLib) {L n0 nd nt : ℤ} {θ θ' : ℤ → ℝ} {E τ : ℝ}
    (hL : 1 ≤ L) (hL1 : L ≤ 2 ^ 26) (hE : Covers L E)
    (hθ4 : ∀ t, 0 ≤ t → t < nt → |θ' t| ≤ 4) (hθ : ∀ t, 0 ≤ t → t < nt → |θ' t - θ t| ≤ τ) :
    WDlNear (wignerDirectF F L (fun k => L - 1 + (n0 + k)) θ') L n0 nd nt θ (E + L * τ) L := by
  unfold wignerDirectF
  have := forRange_ind (show (0 : ℤ) ≤ L by omega)
    (fun el (st : (ℤ → ℤ → ℤ → ℝ) × (ℤ → ℤ → ℤ → ℤ → ℝ)) =>
      let delta := risboFullVecF F st.1 θ' L el
      (delta, fun k => setDegree (st.2 k) el (fun t j => delta t j (L - 1 + (n0 + k)))))
    (fun _ _ _ => 0, fun _ _ _ _ => 0)
    (fun el st => (∀ t, 0 ≤ t → t < nt → if el = 0 then ∀ m n : ℤ, st.1 t (m + L - 1) (n + L - 1) = 0
        else HoldsNear (st.1 t) L (el - 1) (θ' t)) ∧
      WDlNear st.2 L n0 nd nt θ' E el)
    ⟨by simp, fun k t el m _ _ _ _ a b => absurd a (by omega)⟩
    (fun el st h1 h2 h3 => by
      have hs' : ∀ t, 0 ≤ t → t < nt → HoldsNear (risboFullVecF F st.1 θ' L el t) L el (θ' t) := by
        intro t t0 t1
        rw [risboFullVecF_at]
        exact risboStepF_near F h1 (by omega) (hθ4 t t0 t1) (by simp) (h3.1 t t0 t1)
      refine ⟨fun t t0 t1 => ?_, h3.2.step (v := fun k t j => risboFullVecF F st.1 θ' L el t j
        (L - 1 + (n0 + k))) fun k t m k0 k1 t0 t1 hm => ?_⟩
      · rw [if_neg (by omega), add_sub_cancel_right]; exact hs' t t0 t1
      · rw [show L - 1 + (n0 + k) = n0 + k + L - 1 by ring]
        exact le_trans ((hs' t t0 t1).entry h1 m (n0 + k)) (hE.1 el h1 h2))
  intro k t el m k0 k1 t0 t1 e0 e1 hm
  have h1 := this.2 k t el m k0 k1 t0 t1 e0 e1 hm
  have h2 := wignerd_lipschitz el m (n0 + k) e0 (θ' t) (θ t)
  have h3 : ((el : ℝ) + 1) * |θ' t - θ t| ≤ L * τ := by
    have : (el : ℝ) + 1 ≤ L := by exact_mod_cast (by omega : el + 1 ≤ L)
    have h0' : (0 : ℝ) ≤ el := by exact_mod_cast e0
    exact mul_le_mul this (hθ t t0 t1) (abs_nonneg _) (by linarith)
  exact le_trans (abs_sub_le _ _ _) (by linarith)

/-! ## The factors folded in -/

/-- The normalisation of the inverse transform. -/
noncomputable def degreeWeight (el : ℤ) : ℝ := (2 * (el : ℝ) + 1) / (8 * Real.pi ^ 2)

theorem degreeWeight_ge {el : ℤ} (h0 : 0 ≤ el) : 1 / 128 ≤ degreeWeight el := by
  have hel : (0 : ℝ) ≤ el := by exact_mod_cast h0
  have h4 := Real.pi_le_four
  have hpi := Real.pi_pos
  unfold degreeWeight
  rw [div_le_div_iff₀ (by norm_num) (by positivity)]
  nlinarith

theorem degreeWeightF_near (F : DoubleLib) {el : ℤ} (h0 : 0 ≤ el) (h1 : el ≤ 2 ^ 40) :
    |degreeWeightF F el - degreeWeight el| ≤ degreeWeight el / 2 ^ 50 := by
  have hf := F.nearest
  have hg := degreeWeight_ge h0
  have hpi := Real.pi_pos
  have hpi2 := Real.two_le_pi
  unfold degreeWeightF
  rw [fl_int hf (by rw [abs_of_nonneg (by omega)]; omega)]
  obtain ⟨x, hx, ex, lx⟩ := fl_rel_pos hf (x := Real.pi) (c := 2) hpi2 (by norm_num)
  obtain ⟨y, hy, ey, ly⟩ := fl_rel_pos hf (x := F.fl Real.pi * F.fl Real.pi) (c := 1) (by nlinarith)
    (by norm_num)
  obtain ⟨z, hz, ez, lz⟩ := fl_rel_pos hf (x := 8 * F.fl (F.fl Real.pi * F.fl Real.pi)) (c := 1)
    (by linarith) (by norm_num)
  have y1 := rel_step (X := 1) (e := 0) (by simp) (by norm_num) hx
  have y2 := rel_step y1 (by norm_num) hx
  have y3 := rel_step y2 (by norm_num) hy
  have y4 := rel_step y3 (by norm_num) hz
  have hY : F.fl (8 * F.fl (F.fl Real.pi * F.fl Real.pi))
      = 8 * Real.pi ^ 2 * (1 * (1 + x) * (1 + x) * (1 + y) * (1 + z)) := by rw [ez, ey, ex]; ring
  rw [hY]
  generalize 1 * (1 + x) * (1 + x) * (1 + y) * (1 + z) = Y at y4
  have hY1 := abs_le.1 y4
  have hY2 : (7 : ℝ) / 8 ≤ Y := by norm_num at hY1 ⊢; linarith
  have hY3 : Y ≤ 9 / 8 := by norm_num at hY1 ⊢; linarith
  have e1 : ((2 * el + 1 : ℤ) : ℝ) / (8 * Real.pi ^ 2 * Y) = degreeWeight el / Y := by
    unfold degreeWeight
    push_cast; rw [div_div]
  rw [e1]
  generalize degreeWeight el = r at hg
  obtain ⟨v, hv, ev, -⟩ := fl_rel_pos hf (x := r / Y) (c := 1 / 256) (by
    rw [div_le_div_iff₀ (by norm_num) (by linarith)]; linarith) (by norm_num)
  rw [ev]
  have hX : |(1 + v) / Y - 1| ≤ 1 / 2 ^ 50 := by
    rw [div_sub_one (by linarith), abs_div, abs_of_pos (by linarith : 0 < Y), div_le_iff₀ (by linarith)]
    have : |1 + v - Y| ≤ 1 / 2 ^ 53 + (0 + 5 / 4 * (1 / 2 ^ 53) + 5 / 4 * (1 / 2 ^ 53)
        + 5 / 4 * (1 / 2 ^ 53) + 5 / 4 * (1 / 2 ^ 53)) := by
      rw [show 1 + v - Y = v + -(Y - 1) by ring]
      refine le_trans (abs_add_le _ _) ?_
      rw [abs_neg]
      exact add_le_add hv y4
    norm_num at this ⊢
    linarith
  rw [show r / Y * (1 + v) - r = r * ((1 + v) / Y - 1) by ring, abs_mul, abs_of_pos (by linarith),
    div_eq_mul_one_div r]
  exact mul_le_mul_of_nonneg_left hX (by linarith)

theorem gammaWeightF_near (F : DoubleLib) {N : ℤ} (h0 : 1 ≤ N) (h1 : N ≤ 2 ^ 40) :
    |gammaWeightF F N - 2 * Real.pi / (2 * N - 1)| ≤ 2 * Real.pi / (2 * N - 1) / 2 ^ 51 := by
  have hf := F.nearest
  have hN : (1 : ℝ) ≤ N := by exact_mod_cast h0
  have hN1 : (N : ℝ) ≤ 2 ^ 40 := by exact_mod_cast h1
  have hpi := Real.pi_pos
  have hpi2 := Real.two_le_pi
  unfold gammaWeightF
  rw [fl_int hf (by rw [abs_of_nonneg (by omega)]; omega)]
  obtain ⟨x, hx, ex, lx⟩ := fl_rel_pos hf (x := Real.pi) (c := 2) hpi2 (by norm_num)
  obtain ⟨y, hy, ey, ly⟩ := fl_rel_pos hf (x := 2 * F.fl Real.pi) (c := 2) (by linarith)
    (by norm_num)
  obtain ⟨z, hz, ez, lz⟩ := fl_rel_pos hf (x := F.fl (2 * F.fl Real.pi) / ((2 * N - 1 : ℤ) : ℝ))
    (c := 1 / 2 ^ 41) (by
      push_cast
      rw [div_le_div_iff₀ (by norm_num) (by linarith)]
      norm_num at hN1 ⊢
      nlinarith) (by norm_num)
  have y1 := rel_step (X := 1) (e := 0) (by simp) (by norm_num) hx
  have y2 := rel_step y1 (by norm_num) hy
  have y3 := rel_step y2 (by norm_num) hz
  have hY : F.fl (F.fl (2 * F.fl Real.pi) / ((2 * N - 1 : ℤ) : ℝ))
      = 2 * Real.pi / (2 * N - 1) * (1 * (1 + x) * (1 + y) * (1 + z)) := by
    rw [ez, ey, ex]; push_cast; ring
  rw [hY]
  generalize 1 * (1 + x) * (1 + y) * (1 + z) = Y at y3
  have hq : 0 < 2 * Real.pi / (2 * (N : ℝ) - 1) := div_pos (by linarith) (by linarith)
  generalize 2 * Real.pi / (2 * (N : ℝ) - 1) = q at hq
  rw [show q * Y - q = q * (Y - 1) by ring, abs_mul, abs_of_pos hq, div_eq_mul_one_div q]
  refine mul_le_mul_of_nonneg_left (y3.trans ?_) hq.le
  norm_num

/-- An element of the inverse kernel. -/
theorem degreeF_entry (F : DoubleLib) {el : ℤ} (h0 : 0 ≤ el) (h1 : el ≤ 2 ^ 40) {x d ε : ℝ}
    (h : |x - d| ≤ ε) (hd : |d| ≤ 1) (hε : ε ≤ 1 / 2) :
    |F.fl (x * degreeWeightF F el) - degreeWeight el * d| ≤ degreeWeight el * (ε + 4 / 2 ^ 50) := by
  have h2 := degreeWeightF_near F h0 h1
  have hg := degreeWeight_ge h0
  generalize degreeWeightF F el = g' at *
  generalize degreeWeight el = g at *
  have hx : |x| ≤ 3 / 2 := by
    have := abs_sub_abs_le_abs_sub x d
    linarith
  have h3 : |x * g' - g * d| ≤ g * ε + 3 / 2 * (g / 2 ^ 50) := by
    rw [show x * g' - g * d = x * (g' - g) + g * (x - d) by ring]
    refine le_trans (abs_add_le _ _) ?_
    rw [abs_mul, abs_mul, abs_of_pos (by linarith : 0 < g)]
    have a1 : |x| * |g' - g| ≤ 3 / 2 * (g / 2 ^ 50) := by gcongr
    have a2 : g * |x - d| ≤ g * ε := by gcongr
    linarith
  have h4 := fl_step F.nearest h3 (B := 2 * g) (by
    rw [abs_mul, abs_of_pos (by linarith : 0 < g)]
    have a1 : g * |d| ≤ g * 1 := by gcongr
    have a2 : g * ε ≤ g * (1 / 2) := by gcongr
    norm_num
    linarith) (by norm_num; linarith)
  refine le_trans h4 ?_
  rw [mul_add]
  norm_num
  linarith

/-- An element of the forward kernel. -/
theorem gammaF_entry {fl : ℝ → ℝ} (hf : RoundsToNearest fl) {x d q q' w w' E δ W : ℝ}
    (hx : |x - d| ≤ 5 * E) (hd : |d| ≤ 1) (hE0 : 1 / 2 ^ 44 ≤ E) (hE : E ≤ 1 / 16)
    (hq : 1 / 2 ^ 41 ≤ q) (hq' : |q' - q| ≤ q / 2 ^ 51) (hw : |w| ≤ W) (hw' : |w' - w| ≤ δ)
    (hδ : 1 / 2 ^ 150 ≤ δ) :
    |fl (fl (x * w') * q') - q * d * w| ≤ q * ((6 * E + 1 / 2 ^ 52) * W + 2 * δ) ∧
      |fl (fl (x * w') * q')| ≤ 2 * q * (W + δ) := by
  have hq0 : 0 < q := lt_of_lt_of_le (by positivity) hq
  have hδ0 : 0 < δ := lt_of_lt_of_le (by positivity) hδ
  have hW : 0 ≤ W := (abs_nonneg _).trans hw
  have h1 : |w'| ≤ W + δ := by
    have := abs_sub_abs_le_abs_sub w' w
    linarith
  have h2 : |x * w' - d * w| ≤ 5 * E * (W + δ) + δ := by
    rw [show x * w' - d * w = (x - d) * w' + d * (w' - w) by ring]
    refine le_trans (abs_add_le _ _) (add_le_add ?_ ?_)
    · rw [abs_mul]; exact mul_le_mul hx h1 (abs_nonneg _) (by positivity)
    · rw [abs_mul]
      exact (mul_le_mul hd hw' (abs_nonneg _) zero_le_one).trans (by rw [one_mul])
  have hdw : |d * w| ≤ W := by
    rw [abs_mul]
    exact (mul_le_mul hd hw (abs_nonneg _) zero_le_one).trans (by rw [one_mul])
  have q1 : E * W ≤ 1 / 16 * W := mul_le_mul_of_nonneg_right hE hW
  have q2 : E * δ ≤ 1 / 16 * δ := mul_le_mul_of_nonneg_right hE hδ0.le
  have q3 : 1 / 2 ^ 44 * W ≤ E * W := mul_le_mul_of_nonneg_right hE0 hW
  have q4 : 0 ≤ E * δ := mul_nonneg (by linarith [show (0:ℝ) ≤ 1 / 2 ^ 44 by positivity]) hδ0.le
  rw [show 5 * E * (W + δ) + δ = 5 * (E * W) + 5 * (E * δ) + δ by ring] at h2
  have h3 := fl_step hf h2 (B := 2 * (W + δ)) (by linarith) (by
    norm_num at hδ ⊢
    linarith)
  generalize fl (x * w') = y at h3
  have h4 : |y * q' - q * d * w| ≤ q * ((5 * (E * W) + 5 * (E * δ) + δ + 2 * (W + δ) / 2 ^ 53)
      * (1 + 1 / 2 ^ 51) + W / 2 ^ 51) := by
    have hq2 : |q'| ≤ q * (1 + 1 / 2 ^ 51) := by
      have := abs_sub_abs_le_abs_sub q' q
      rw [abs_of_pos hq0] at this
      rw [mul_add, mul_one, mul_one_div]
      linarith
    rw [show y * q' - q * d * w = (y - d * w) * q' + d * w * (q' - q) by ring]
    refine le_trans (abs_add_le _ _) ?_
    rw [abs_mul, abs_mul (d * w)]
    have a1 := mul_le_mul h3 hq2 (abs_nonneg _) (by positivity)
    have a2 := mul_le_mul hdw hq' (abs_nonneg _) hW
    refine (add_le_add a1 a2).trans (le_of_eq ?_)
    ring
  have hqdw : |q * d * w| ≤ q * W := by
    rw [mul_assoc, abs_mul, abs_of_pos hq0]
    exact mul_le_mul_of_nonneg_left hdw hq0.le
  have h5 := fl_step hf h4 (B := q * (2 * (W + δ))) (by
    refine (add_le_add hqdw le_rfl).trans ?_
    rw [← mul_add]
    refine mul_le_mul_of_nonneg_left ?_ hq0.le
    norm_num at q1 q2 ⊢
    linarith) (by
    have : (1 : ℝ) / 2 ^ 41 * (2 * (1 / 2 ^ 150)) ≤ q * (2 * (W + δ)) :=
      mul_le_mul hq (by linarith) (by positivity) hq0.le
    refine le_trans ?_ this
    norm_num)
  have h6 : |fl (y * q') - q * d * w| ≤ q * ((6 * E + 1 / 2 ^ 52) * W + 2 * δ) := by
    refine h5.trans ?_
    rw [show q * (2 * (W + δ)) / 2 ^ 53 = q * (2 * (W + δ) / 2 ^ 53) by ring, ← mul_add]
    refine mul_le_mul_of_nonneg_left ?_ hq0.le
    rw [show (6 * E + 1 / 2 ^ 52) * W = 6 * (E * W) + 1 / 2 ^ 52 * W by ring]
    norm_num at q1 q2 q3 ⊢
    linarith
  refine ⟨h6, ?_⟩
  have h7 := abs_sub_abs_le_abs_sub (fl (y * q')) (q * d * w)
  have h8 : q * ((6 * E + 1 / 2 ^ 52) * W + 2 * δ) + q * W ≤ 2 * q * (W + δ) := by
    rw [← mul_add, show 2 * q * (W + δ) = q * (2 * (W + δ)) by ring]
    refine mul_le_mul_of_nonneg_left ?_ hq0.le
    rw [show (6 * E + 1 / 2 ^ 52) * W = 6 * (E * W) + 1 / 2 ^ 52 * W by ring]
    norm_num at q1 q2 q3 ⊢
    linarith
  linarith

/-! ## The kernel -/

theorem chooseModeF_ok (F : DoubleLib) (logL : ℝ) {σ : Scheme} {s : PyStr} (hs : lower s = σ.name)
    {L N : ℤ} {mode : PyStr} (h : ModeOk σ L mode) : ∃ μ, chooseModeF F logL L N s mode = .ok μ ∧
      (μ = mdDirect ∨ (μ = mdFft ∧ σ ≠ .gl ∧ σ ≠ .healpix)) := by
  obtain ⟨h1, h2, h3⟩ := h
  have u := uniformName_iff hs
  have l1 : lower mdAuto = mdAuto := rfl
  have l2 : lower mdDirect = mdDirect := rfl
  have l3 : lower mdFft = mdFft := rfl
  have n1 : ¬ mdAuto = mdFft := by decide
  have n2 : ¬ mdDirect = mdFft := by decide
  have n3 : ¬ mdDirect = mdAuto := by decide
  have n4 : ¬ mdFft = mdAuto := by decide
  unfold chooseModeF
  simp only [List.mem_cons, List.not_mem_nil, or_false] at h1
  rcases h1 with rfl | rfl | rfl
  · rw [l1, if_neg (fun h => n1 h.1), if_pos rfl]
    by_cases hu : UniformName s
    · rw [if_pos hu, if_neg (by
        intro hL
        have hu' := u.1 hu
        exact (h3 rfl hL).elim hu'.1 hu'.2)]
      split_ifs
      · exact ⟨_, rfl, Or.inr ⟨rfl, u.1 hu⟩⟩
      · exact ⟨_, rfl, Or.inl rfl⟩
    · rw [if_neg hu]; exact ⟨_, rfl, Or.inl rfl⟩
  · rw [l2, if_neg (fun h => n2 h.1), if_neg n3]; exact ⟨_, rfl, Or.inl rfl⟩
  · rw [l3, if_neg (fun h => h.2 (u.2 (h2 rfl))), if_neg n4]
    exact ⟨_, rfl, Or.inr ⟨rfl, h2 rfl⟩⟩

/-- The kernel in terms of planes near the Wigner functions, on the uniform grids. -/
theorem wignerKernelF_near (F : FftLib) (lg nodes : ℤ → ℤ → ℝ) (logL : ℝ) (w : ℤ → ℝ) {σ : Scheme}
    (hσ : σ = .mw ∨ σ = .mwss ∨ σ = .dh) {L N : ℤ} {E : ℝ} (hL : 1 ≤ L) (hL1 : L ≤ 2 ^ 26)
    (h1 : 1 ≤ N) (hN : N ≤ L) (hE : Covers L E) (reality forward : Bool) {mode : PyStr}
    (hm : ModeOk σ L mode) :
    ∃ dl, wignerKernelF F lg logL w L N reality σ.name forward mode
        = .ok ⟨nDim N reality, kRings σ L 0 forward, L, 2 * L - 1, fun k t el j =>
          ((if forward then F.fl (F.fl (dl k t el j * w t) * gammaWeightF F.toDoubleLib N)
            else F.fl (dl k t el j * degreeWeightF F.toDoubleLib el) : ℝ) : ℂ)⟩ ∧
      WDlNear dl L (nFirst N reality) (nDim N reality) (kRings σ L 0 forward)
        (kTheta nodes σ L 0 forward) (5 * E) L := by
  have hh : σ ≠ .healpix := by rintro rfl; simp at hσ
  have hgl : σ ≠ .gl := by rintro rfl; simp at hσ
  have hv : σ.Valid L 0 := ⟨hL, fun h => absurd h hh⟩
  have hL' : (1 : ℝ) ≤ L := by exact_mod_cast hL
  have hb := nFirst_bounds h1 reality
  obtain ⟨T, e, h⟩ := kernelThetasF_ok F.toDoubleLib lg nodes hσ (lower_name σ) (n := 0) hL (by omega)
    forward
  obtain ⟨g1, g2, g3, g4, g5⟩ := kGrid_bounds nodes hσ (lower_name σ) 0 hL forward
  have hu := kTheta_uniform nodes (lower_name σ) hv forward hgl hh
  obtain ⟨μ, eμ, hμ⟩ := chooseModeF_ok F.toDoubleLib logL (lower_name σ) (N := N) hm
  have key : ∃ dl, (if lower μ = mdDirect then do
        let cols ← wignerColumns L N reality
        pure (wignerDirectF F.toDoubleLib L cols T)
      else if lower μ = mdFft then do
        let cols ← wignerColumns L N reality
        wignerFourierF F L (nFirst N reality) cols (kName σ σ.name forward) (kRings σ L 0 forward) T
      else .error .valueError) = .ok dl ∧
      WDlNear dl L (nFirst N reality) (nDim N reality) (kRings σ L 0 forward)
        (kTheta nodes σ L 0 forward) (5 * E) L := by
    rw [wignerColumns_ok hN]
    simp only [bind, Except.bind, pure, Except.pure]
    rcases hμ with rfl | ⟨rfl, -⟩
    · rw [if_pos (by decide)]
      have hpi := Real.pi_le_four
      have hpi3 := Real.pi_lt_d2
      have hth : ∀ t, 0 ≤ t → t < kRings σ L 0 forward →
          0 ≤ kTheta nodes σ L 0 forward t ∧ kTheta nodes σ L 0 forward t ≤ Real.pi := fun t t0 t1 =>
        kTheta_mem nodes hv t0 t1
      have hc : ∀ t, 0 ≤ t → t < kRings σ L 0 forward →
          |T t - kTheta nodes σ L 0 forward t| ≤ 4 / 2 ^ 51 := fun t t0 t1 =>
        (h t t0 t1).trans (by gcongr; linarith [(hth t t0 t1).2])
      refine ⟨_, rfl, fun k t el m k0 k1 t0 t1 e0 e1 hm' => ?_⟩
      refine (wignerDirectF_near F.toDoubleLib hL hL1 hE (fun t t0 t1 => ?_) hc k t el m k0 k1 t0 t1 e0
        e1 hm').trans ?_
      · have a1 := abs_le.1 (hc t t0 t1)
        have a2 := hth t t0 t1
        norm_num at a1 hpi3
        rw [abs_le]
        constructor <;> linarith
      · have := hE.2.1
        norm_num at this ⊢
        linarith
    · rw [if_neg (by decide), if_pos (by decide)]
      exact wignerFourierF_near F hL hL1 hE hu g1 g2 g3 g4 (h 0 le_rfl (kRings_pos hv forward))
        (fun k k0 k1 => by rw [nDim_eq] at k1; rw [abs_lt]; omega)
  obtain ⟨dl, edl, hdl⟩ := key
  refine ⟨dl, ?_, hdl⟩
  unfold wignerKernelF
  rw [eμ]
  simp only [bind, Except.bind]
  rw [e]
  simp only
  rw [wignerColumns_ok hN] at edl ⊢
  rcases hμ with rfl | ⟨rfl, -⟩
  · rw [if_pos (by decide)] at edl ⊢
    simp only [bind, Except.bind, pure, Except.pure] at edl ⊢
    injection edl with edl
    rw [edl]
    cases forward <;> rfl
  · rw [if_neg (by decide), if_pos (by decide)] at edl ⊢
    simp only [bind, Except.bind, pure, Except.pure] at edl ⊢
    rw [edl]
    cases forward <;> rfl

end S2fft
