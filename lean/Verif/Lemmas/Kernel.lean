import Verif.Model.Precompute
import Verif.Lemmas.KernelSum
import Verif.Lemmas.WignerFourier
import Verif.Props.C12

/-! # The precomputed kernels -/

namespace S2fft
open Spec

/-- The array of `d`-functions of a kernel, at the angles `α`. -/
def DlIs (dl : ℤ → ℤ → ℤ → ℝ) (L spin nt : ℤ) (reality : Bool) (α : ℤ → ℝ) : Prop :=
  ∀ t el m, 0 ≤ t → t < nt → 0 ≤ el → el < L → -L < m → m < L → (reality = true → 0 ≤ m) →
    dl t el (m + L - 1 - mStart L reality) = wignerd el m (-spin) (α t) * elfactor el

theorem setRow3_same {a : ℤ → ℤ → ℤ → ℝ} {t el : ℤ} {v : ℤ → ℝ} :
    setRow3 a t el v t el = v := by
  funext j; unfold setRow3; rw [if_pos ⟨rfl, rfl⟩]

theorem setRow3_ne {a : ℤ → ℤ → ℤ → ℝ} {t el x y : ℤ} {v : ℤ → ℝ} (h : x ≠ t ∨ y ≠ el) :
    setRow3 a t el v x y = a x y := by
  funext j; unfold setRow3; rw [if_neg (by omega)]

theorem kernelTurok_is {L spin nt : ℤ} {θ : ℤ → ℝ} {reality : Bool}
    (hr : reality = true → spin = 0) (hθ : ∀ t, 0 ≤ t → t < nt → 0 ≤ θ t ∧ θ t ≤ Real.pi) :
    DlIs (kernelTurok L spin nt θ reality) L spin nt reality (fun t => snapAngle (θ t)) := by
  intro t el m t0 t1 e0 e1 m0 m1 hm
  by_cases hs : |spin| ≤ el
  · rw [← baseSlice_eq (θ t) el L spin reality (hθ t t0 t1).1 (hθ t t0 t1).2 hs e1 hr m hm]
    unfold kernelTurok
    refine (forRange_write 0 nt _ _ (fun d : ℤ → ℤ → ℤ → ℝ => d t el (m + L - 1 - mStart L reality))
      t _ t0 t1 (fun d => ?_) (fun i d _ _ hne => ?_))
    · refine (forRange_write |spin| L _ _
        (fun d : ℤ → ℤ → ℤ → ℝ => d t el (m + L - 1 - mStart L reality))
        el _ hs e1 (fun d => ?_) (fun i d _ _ hne => ?_))
      · rw [setRow3_same, setRow3_same]
        congr 2; ring
      · rw [setRow3_ne (Or.inr (Ne.symm hne)), setRow3_ne (Or.inr (Ne.symm hne))]
    · refine forRange_frame _ _ _ _ (fun d : ℤ → ℤ → ℤ → ℝ => d t el (m + L - 1 - mStart L reality))
        (fun i' d _ _ => ?_)
      rw [setRow3_ne (Or.inl (Ne.symm hne)), setRow3_ne (Or.inl (Ne.symm hne))]
  · rw [wignerd_outside _ _ _ _ (Or.inr (by rw [abs_neg]; omega)), zero_mul]
    unfold kernelTurok
    refine (forRange_frame _ _ _ _ (fun d : ℤ → ℤ → ℤ → ℝ => d t el (m + L - 1 - mStart L reality))
      (fun i d _ _ => ?_)).trans rfl
    refine forRange_frame _ _ _ _ (fun d : ℤ → ℤ → ℤ → ℝ => d t el (m + L - 1 - mStart L reality))
        (fun i' d h1 _ => ?_)
    rw [setRow3_ne (Or.inr (by omega)), setRow3_ne (Or.inr (by omega))]

/-! ## Risbo -/

/-- Degrees below `el` of an array under construction hold the `d`-functions. -/
def DlUpTo (dl : ℤ → ℤ → ℤ → ℝ) (L spin nt : ℤ) (reality : Bool) (α : ℤ → ℝ) (hi : ℤ) : Prop :=
  ∀ t el m, 0 ≤ t → t < nt → 0 ≤ el → el < hi → -L < m → m < L → (reality = true → 0 ≤ m) →
    dl t el (m + L - 1 - mStart L reality) = wignerd el m (-spin) (α t)

theorem DlUpTo.step {dl : ℤ → ℤ → ℤ → ℝ} {L spin nt : ℤ} {reality : Bool} {α : ℤ → ℝ} {hi : ℤ}
    (h : DlUpTo dl L spin nt reality α hi) {v : ℤ → ℤ → ℝ}
    (hv : ∀ t m, 0 ≤ t → t < nt → -L < m → m < L → (reality = true → 0 ≤ m) →
      v t (m + L - 1 - mStart L reality) = wignerd hi m (-spin) (α t)) :
    DlUpTo (setDegree dl hi v) L spin nt reality α (hi + 1) := by
  intro t el m t0 t1 e0 e1 m0 m1 hm
  unfold setDegree
  by_cases he : el = hi
  · rw [if_pos he, he]; exact hv t m t0 t1 m0 m1 hm
  · rw [if_neg he]; exact h t el m t0 t1 e0 (by omega) m0 m1 hm

theorem kernelRisboDirect_is {L spin nt : ℤ} (hL : 0 ≤ L) {θ : ℤ → ℝ} {reality : Bool} :
    DlUpTo (kernelRisboDirect L (L - 1 - spin) θ reality) L spin nt reality θ L := by
  unfold kernelRisboDirect
  have := forRange_ind hL (fun el (s : (ℤ → ℤ → ℤ → ℝ) × (ℤ → ℤ → ℤ → ℝ)) =>
    let delta := risboFullVec s.1 θ L el
    (delta, setDegree s.2 el (fun t j => delta t (mStart L reality + j) (L - 1 - spin))))
    (fun _ _ _ => 0, fun _ _ _ => 0)
    (fun el s => (∀ b m n : ℤ, s.1 b (m + L - 1) (n + L - 1) = wignerd (el - 1) m n (θ b)) ∧
      DlUpTo s.2 L spin nt reality θ el)
    ⟨fun b m n => by
      rw [wignerd_outside]
      have := abs_nonneg m
      omega, fun t el m _ _ a b => absurd a (by omega)⟩
    (fun el s h1 h2 h3 => by
      have key : ∀ b m n : ℤ, risboFullVec s.1 θ L el b (m + L - 1) (n + L - 1)
          = wignerd el m n (θ b) := by
        intro b m n
        rw [risboFullVec_at]
        by_cases h : |m| ≤ el ∧ |n| ≤ el
        · exact risboStep_plane _ _ _ _ h1 (fun _ m n _ _ => h3.1 b m n) m n h.1 h.2
        · rw [risboStep_frame _ _ _ _ h1 m n (by omega), h3.1, wignerd_outside _ _ _ _ (by omega),
            wignerd_outside _ _ _ _ (by omega)]
      refine ⟨fun b m n => by rw [show el + 1 - 1 = el by ring]; exact key b m n,
        h3.2.step (fun t m _ _ _ _ _ => ?_)⟩
      rw [show mStart L reality + (m + L - 1 - mStart L reality) = m + L - 1 by ring,
        show L - 1 - spin = -spin + L - 1 by ring, key])
  exact this.2

theorem risboFullJax_holds {dl : ℤ → ℤ → ℝ} {β : ℝ} {L el : ℤ} (h1 : 0 ≤ el)
    (h : ∀ m n : ℤ, dl (m + L - 1) (n + L - 1) = wignerd (el - 1) m n β) (m n : ℤ) :
    risboFullJax dl β L el (m + L - 1) (n + L - 1) = wignerd el m n β := by
  by_cases hmn : |m| ≤ el ∧ |n| ≤ el
  · exact C12_jax_step dl β L el h1 (fun m n _ _ => h m n) m n hmn.1 hmn.2
  · rw [risboFullJax_eq _ _ _ _ h1]
    by_cases h' : el ≤ 1
    · rw [if_pos (Or.inr h'), risboStep_frame _ _ _ _ h1 m n (by omega), h,
        wignerd_outside _ _ _ _ (by omega), wignerd_outside _ _ _ _ (by omega)]
    · rw [if_neg (by omega), h, wignerd_outside _ _ _ _ (by omega),
        wignerd_outside _ _ _ _ (by omega), zero_div]

theorem kernelRisboDirectJax_is {L spin nt : ℤ} (hL : 0 ≤ L) {θ : ℤ → ℝ} {reality : Bool} :
    DlUpTo (kernelRisboDirectJax L (L - 1 - spin) θ reality) L spin nt reality θ L := by
  unfold kernelRisboDirectJax
  have := forRange_ind hL (fun el (s : (ℤ → ℤ → ℤ → ℝ) × (ℤ → ℤ → ℤ → ℝ)) =>
    let delta := fun t => risboFullJax (s.1 t) (θ t) L el
    (delta, setDegree s.2 el (fun t j => delta t (mStart L reality + j) (L - 1 - spin))))
    (fun _ _ _ => 0, fun _ _ _ => 0)
    (fun el s => (∀ b m n : ℤ, s.1 b (m + L - 1) (n + L - 1) = wignerd (el - 1) m n (θ b)) ∧
      DlUpTo s.2 L spin nt reality θ el)
    ⟨fun b m n => by
      rw [wignerd_outside]
      have := abs_nonneg m
      omega, fun t el m _ _ a b => absurd a (by omega)⟩
    (fun el s h1 h2 h3 => by
      have key : ∀ b m n : ℤ, risboFullJax (s.1 b) (θ b) L el (m + L - 1) (n + L - 1)
          = wignerd el m n (θ b) := fun b m n => risboFullJax_holds h1 (h3.1 b) m n
      refine ⟨fun b m n => by rw [show el + 1 - 1 = el by ring]; exact key b m n,
        h3.2.step (fun t m _ _ _ _ _ => ?_)⟩
      rw [show mStart L reality + (m + L - 1 - mStart L reality) = m + L - 1 by ring,
        show L - 1 - spin = -spin + L - 1 by ring, key])
  exact this.2

/-- A Wigner function as a cosine series of its Fourier coefficients. -/
theorem wignerd_fourier_re (l m n : ℤ) (h0 : 0 ≤ l) (β : ℝ) :
    wignerd l m n β
      = (wignerd l 0 m (Real.pi / 2) * wignerd l 0 n (Real.pi / 2) * Complex.I ^ (n - m)).re
        + ∑ k ∈ Finset.Ico 1 (l + 1), 2 * (wignerd l k m (Real.pi / 2) * wignerd l k n (Real.pi / 2)
            * Complex.I ^ (n - m) * cis (k * β)).re := by
  have h := congrArg Complex.re (wignerd_fourier l m n β)
  rw [Complex.ofReal_re] at h
  rw [h, show Finset.Ico (-l) (l + 1) = Finset.Ioo (-(l + 1)) (l + 1) by
    ext x; simp only [Finset.mem_Ico, Finset.mem_Ioo]; omega, sum_Ioo_split (by omega), mul_add,
    Complex.add_re, Finset.mul_sum, Complex.re_sum]
  congr 1
  · simp only [Int.cast_zero, zero_mul, cis_zero, mul_one]
    congr 1; ring
  · apply Finset.sum_congr rfl
    intro k _
    have hneg : ∀ j, wignerd l (-k) j (Real.pi / 2) = (-1) ^ (l + j) * wignerd l k j (Real.pi / 2) := by
      intro j
      have := wignerd_pi_sub l k j (Real.pi / 2)
      rw [show Real.pi - Real.pi / 2 = Real.pi / 2 by ring] at this
      rw [this, ← mul_assoc, ← zpow_add₀ (by norm_num), ← two_mul, zpow_mul]; norm_num
    have hI : (starRingEnd ℂ) (Complex.I ^ (n - m)) = (-1) ^ (n - m) * Complex.I ^ (n - m) := by
      rw [map_zpow₀, Complex.conj_I, ← mul_zpow]; norm_num
    have hsgn : ((-1 : ℂ)) ^ (l + m) * (-1) ^ (l + n) = (-1) ^ (n - m) := by
      rw [← zpow_add₀ (by norm_num), show l + m + (l + n) = (n - m) + 2 * (l + m) by ring,
        zpow_add₀ (by norm_num), zpow_mul]; norm_num
    have hc : Complex.I ^ (n - m) * ((wignerd l (-k) m (Real.pi / 2) : ℂ)
          * wignerd l (-k) n (Real.pi / 2) * cis ((-k : ℤ) * β))
        = (starRingEnd ℂ) (wignerd l k m (Real.pi / 2) * wignerd l k n (Real.pi / 2)
            * Complex.I ^ (n - m) * cis (k * β)) := by
      rw [map_mul, map_mul, map_mul, Complex.conj_ofReal, Complex.conj_ofReal, hI, conj_cis, ← hsgn,
        hneg, hneg]
      push_cast
      rw [neg_mul]; ring
    rw [mul_add, hc, Complex.add_re, Complex.conj_re, two_mul]
    congr 2
    ring

/-- `irfft` without content at or above half the number of samples. -/
theorem irfft_fwd_short {h n : ℤ} (hh : 1 ≤ h) (hn : 2 * h ≤ n + 1) (hn' : n % 2 = 0 → 2 * h ≤ n)
    (a : ℤ → ℂ) (p : ℤ) : (irfft_fwd h a n p).re
      = (a 0).re + ∑ k ∈ Finset.Ico 1 h, 2 * (a k * cis (2 * Real.pi * k * p / n)).re := by
  unfold irfft_fwd
  simp only
  rw [Complex.ofReal_re, if_pos (show (0 : ℤ) < h by omega)]
  have hny : (if n % 2 = 0 then ((if n / 2 < h then a (n / 2) else 0 : ℂ)).re
      * (cis (Real.pi * p)).re else 0) = 0 := by
    split_ifs with h1 h2
    · have := hn' h1; omega
    · simp
    · rfl
  rw [hny, add_zero]
  congr 1
  rw [← Finset.sum_subset (s₁ := Finset.Ico 1 h)]
  · apply Finset.sum_congr rfl
    intro k hk
    rw [Finset.mem_Ico] at hk
    rw [if_pos hk.2]
  · intro k; simp only [Finset.mem_Ico]; omega
  · intro k h1 h2
    simp only [Finset.mem_Ico] at h1 h2
    rw [if_neg (by omega)]; simp

/-- The angles of a uniform grid, as the inverse FFT sees them. -/
def UniformGrid (L nt n : ℤ) (θ : ℤ → ℝ) : Prop :=
  2 * L ≤ n + 1 ∧ (n % 2 = 0 → 2 * L ≤ n) ∧
    ∀ t : ℤ, 0 ≤ t → t < nt → θ t = θ 0 + 2 * Real.pi * t / n

theorem kernelFourier_is {L spin nt n : ℤ} {θ : ℤ → ℝ} {reality : Bool} (hL : 1 ≤ L)
    (hg : UniformGrid L nt n θ) {delta : ℤ → ℤ → ℝ} {el : ℤ} (h0 : 0 ≤ el) (h1 : el < L)
    (hd : ∀ m n : ℤ, |m| < L → |n| < L → delta (m + L - 1) (n + L - 1) = wignerd el m n (Real.pi / 2))
    (hs : |spin| < L) {t m : ℤ} (t0 : 0 ≤ t) (t1 : t < nt) (m0 : -L < m) (m1 : m < L) :
    (irfft_fwd L (fun a => kernelFourier L spin (L - 1 - spin) (θ 0) reality delta a
      (m + L - 1 - mStart L reality)) n t).re = wignerd el m (-spin) (θ t) := by
  rw [irfft_fwd_short hL hg.1 hg.2.1, wignerd_fourier_re el m (-spin) h0]
  have hval : ∀ a : ℤ, 0 ≤ a → a < L → kernelFourier L spin (L - 1 - spin) (θ 0) reality delta a
      (m + L - 1 - mStart L reality) = wignerd el a m (Real.pi / 2)
        * wignerd el a (-spin) (Real.pi / 2) * Complex.I ^ (-spin - m) * cis (a * θ 0) := by
    intro a a0 a1
    unfold kernelFourier
    rw [show mStart L reality + (m + L - 1 - mStart L reality) = m + L - 1 by ring,
      show L - 1 - spin = -spin + L - 1 by ring, show L - 1 + a = a + L - 1 by ring,
      hd a m (by rw [abs_lt]; omega) (by rw [abs_lt]; omega),
      hd a (-spin) (by rw [abs_lt]; omega) (by rwa [abs_neg]),
      show -spin - (-L + 1 + (m + L - 1)) = -spin - m by ring,
      show -L + 1 + (a + L - 1) = a by ring]
  rw [hval 0 le_rfl (by omega), Int.cast_zero, zero_mul, cis_zero, mul_one]
  congr 1
  rw [← Finset.sum_subset (s₁ := Finset.Ico 1 (el + 1))]
  · apply Finset.sum_congr rfl
    intro a ha
    rw [Finset.mem_Ico] at ha
    rw [hval a (by omega) (by omega), mul_assoc (_ * _), ← cis_add, hg.2.2 t t0 t1]
    congr 4; ring
  · intro k; simp only [Finset.mem_Ico]; omega
  · intro k h1 h2
    simp only [Finset.mem_Ico] at h1 h2
    rw [hval k (by omega) (by omega), wignerd_outside el k m _ (Or.inl (by rw [lt_abs]; omega))]
    simp

theorem kernelRisboFourier_is {L spin nt : ℤ} {s : PyStr} {θ : ℤ → ℝ} {reality : Bool} (hL : 1 ≤ L)
    (hg : UniformGrid L nt (kernelSamps s nt) θ) (hs : |spin| < L) :
    ∃ dl, kernelRisboFourier L spin (L - 1 - spin) s nt θ reality = .ok dl ∧
      DlUpTo dl L spin nt reality θ L := by
  have hpi := Real.pi_pos
  unfold kernelRisboFourier
  obtain ⟨s', e, h⟩ := forRangeM_ind (show (0 : ℤ) ≤ L by omega)
    (fun el (st : (ℤ → ℤ → ℝ) × (ℤ → ℤ → ℤ → ℝ)) => do
      let delta ← risboFull (2 * L - 1) (2 * L - 1) st.1 (Real.pi / 2) L el
      pure (delta, setDegree st.2 el (fun t j =>
        (irfft_fwd L (fun a => kernelFourier L spin (L - 1 - spin) (θ 0) reality delta a j)
          (kernelSamps s nt) t).re)))
    (fun _ _ => 0, fun _ _ _ => 0)
    (fun el st => (∀ m n : ℤ, st.1 (m + L - 1) (n + L - 1) = wignerd (el - 1) m n (Real.pi / 2)) ∧
      DlUpTo st.2 L spin nt reality θ el)
    ⟨fun m n => by
      rw [wignerd_outside]
      have := abs_nonneg m
      omega, fun t el m _ _ a b => absurd a (by omega)⟩
    (fun el st h1 h2 h3 => by
      obtain ⟨d', e1, e2, e3⟩ := C12_step st.1 (Real.pi / 2) L el h1 h2 (by linarith) (by linarith)
        (fun m n _ _ => h3.1 m n)
      have key : ∀ m n : ℤ, d' (m + L - 1) (n + L - 1) = wignerd el m n (Real.pi / 2) := by
        intro m n
        by_cases h : |m| ≤ el ∧ |n| ≤ el
        · exact e2 m n h.1 h.2
        · rw [e3 m n (by omega), h3.1, wignerd_outside _ _ _ _ (by omega),
            wignerd_outside _ _ _ _ (by omega)]
      refine ⟨(d', setDegree st.2 el (fun t j =>
        (irfft_fwd L (fun a => kernelFourier L spin (L - 1 - spin) (θ 0) reality d' a j)
          (kernelSamps s nt) t).re)), ?_, fun m n => ?_, h3.2.step (fun t m t0 t1 m0 m1 _ => ?_)⟩
      · rw [e1]; rfl
      · rw [show el + 1 - 1 = el by ring]; exact key m n
      · exact kernelFourier_is hL hg h1 h2 (fun m n _ _ => key m n) hs t0 t1 m0 m1)
  exact ⟨s'.2, by rw [e]; rfl, h.2⟩

theorem kernelRisboFourierJax_is {L spin nt : ℤ} {s : PyStr} {θ : ℤ → ℝ} {reality : Bool}
    (hL : 1 ≤ L) (hg : UniformGrid L nt (kernelSamps s nt) θ) (hs : |spin| < L) :
    DlUpTo (kernelRisboFourierJax L spin (L - 1 - spin) s nt θ reality) L spin nt reality θ L := by
  unfold kernelRisboFourierJax
  have := forRange_ind (show (0 : ℤ) ≤ L by omega)
    (fun el (st : (ℤ → ℤ → ℝ) × (ℤ → ℤ → ℤ → ℝ)) =>
      let delta := risboFullJax st.1 (Real.pi / 2) L el
      (delta, setDegree st.2 el (fun t j =>
        (irfft_fwd L (fun a => kernelFourier L spin (L - 1 - spin) (θ 0) reality delta a j)
          (kernelSamps s nt) t).re)))
    (fun _ _ => 0, fun _ _ _ => 0)
    (fun el st => (∀ m n : ℤ, st.1 (m + L - 1) (n + L - 1) = wignerd (el - 1) m n (Real.pi / 2)) ∧
      DlUpTo st.2 L spin nt reality θ el)
    ⟨fun m n => by
      rw [wignerd_outside]
      have := abs_nonneg m
      omega, fun t el m _ _ a b => absurd a (by omega)⟩
    (fun el st h1 h2 h3 => by
      have key := fun m n => risboFullJax_holds h1 h3.1 m n
      refine ⟨fun m n => by rw [show el + 1 - 1 = el by ring]; exact key m n,
        h3.2.step (fun t m t0 t1 m0 m1 _ => ?_)⟩
      exact kernelFourier_is hL hg h1 h2 (fun m n _ _ => key m n) hs t0 t1 m0 m1)
  exact this.2

end S2fft
