import Verif.Model.FourierWigner
import Verif.Lemmas.PrecomputeWigner

/-! # The Fourier-Wigner transforms: tables and inverse -/

namespace S2fft
open Spec

theorem fwStep_ok (method : PyStr) {L el : ℤ} (h1 : 0 ≤ el) (h2 : el < L) {d : ℤ → ℤ → ℝ}
    (h : ∀ m n : ℤ, d (m + L - 1) (n + L - 1) = wignerd (el - 1) m n (Real.pi / 2)) :
    ∃ d', fwStep method L el d = .ok d' ∧
      ∀ m n : ℤ, d' (m + L - 1) (n + L - 1) = wignerd el m n (Real.pi / 2) := by
  have hpi := Real.pi_pos
  unfold fwStep
  split_ifs
  · obtain ⟨d', e1, e2, e3⟩ := C12_step d (Real.pi / 2) L el h1 h2 (by linarith) (by linarith)
      (fun m n _ _ => h m n)
    refine ⟨d', e1, fun m n => ?_⟩
    by_cases hh : |m| ≤ el ∧ |n| ≤ el
    · exact e2 m n hh.1 hh.2
    · rw [e3 m n (by omega), h, wignerd_outside _ _ _ _ (by omega),
        wignerd_outside _ _ _ _ (by omega)]
  · exact ⟨_, rfl, fun m n => risboFullJax_holds h1 h m n⟩

theorem fwStart (L : ℤ) (m n : ℤ) :
    (fun _ _ => 0 : ℤ → ℤ → ℝ) (m + L - 1) (n + L - 1) = wignerd (0 - 1) m n (Real.pi / 2) := by
  rw [wignerd_outside]
  have := abs_nonneg m
  omega

/-- The contents of the tables. -/
def FwTablesAre (P : FwTables) (L : ℤ) : Prop :=
  (∀ l a m, 0 ≤ l → l < L → P.delta l (a + L - 1) (m + L - 1) = wignerd l a m (Real.pi / 2)) ∧
    P.quads = fwQuads L

theorem fourierWignerKernel_ok (method : PyStr) {L : ℤ} (hL : 1 ≤ L) :
    ∃ P, fourierWignerKernel method L = .ok P ∧ FwTablesAre P L := by
  unfold fourierWignerKernel
  obtain ⟨s, e, h⟩ := forRangeM_ind (show (0 : ℤ) ≤ L by omega)
    (fun el (s : (ℤ → ℤ → ℝ) × (ℤ → ℤ → ℤ → ℝ)) => do
      let d ← fwStep method L el s.1
      pure (d, setPlane s.2 el d)) (fun _ _ => 0, fun _ _ _ => 0)
    (fun el s => (∀ m n : ℤ, s.1 (m + L - 1) (n + L - 1) = wignerd (el - 1) m n (Real.pi / 2)) ∧
      ∀ l a m, 0 ≤ l → l < el → s.2 l (a + L - 1) (m + L - 1) = wignerd l a m (Real.pi / 2))
    ⟨fwStart L, fun l a m h1 h2 => by omega⟩
    (fun el s h1 h2 h3 => by
      obtain ⟨d, e, hd⟩ := fwStep_ok method h1 h2 h3.1
      refine ⟨(d, setPlane s.2 el d), by rw [e]; rfl, ?_, ?_⟩
      · rw [show el + 1 - 1 = el by ring]; exact hd
      · intro l a m l0 l1
        show setPlane s.2 el d l _ _ = _
        unfold setPlane
        by_cases hl : l = el
        · rw [if_pos hl, hl]; exact hd a m
        · rw [if_neg hl]; exact h3.2 l a m l0 (by omega))
  rw [e]
  exact ⟨_, rfl, h.2, rfl⟩

/-- The tables given, if any, hold what the constructors compute. -/
def FwArgOk (precomps : Option FwTables) (L : ℤ) : Prop :=
  ∀ P, precomps = some P → FwTablesAre P L

theorem fwColumns_ok (method : PyStr) {L N : ℤ} (h1 : 1 ≤ N) (hN : N ≤ L) (reality : Bool) :
    ∃ cols, fwColumns method L N reality = .ok cols ∧
      ∀ k, 0 ≤ k → k < nDim N reality → cols k = nFirst N reality + k + L - 1 := by
  unfold fwColumns
  split_ifs
  · rw [wignerColumns_ok hN]
    exact ⟨_, rfl, fun k _ _ => by ring⟩
  · refine ⟨_, rfl, fun k k0 k1 => ?_⟩
    rw [wignerColumnsJax_ok h1 hN reality k0 k1]; ring

/-- The Fourier coefficients in `α` and `β` of a plane, without the phases. -/
noncomputable def fwCoef (L : ℤ) (c : ℤ → ℤ → ℤ → ℂ) (n a m : ℤ) : ℂ :=
  ∑ l ∈ Finset.Ico 0 L, c n l m * ((2 * (l : ℂ) + 1) / (8 * (Real.pi : ℂ) ^ 2))
    * wignerd l a m (Real.pi / 2) * wignerd l a n (Real.pi / 2)

theorem fwSpectrum_ok (method : PyStr) {L N off : ℤ} (h1 : 1 ≤ N) (hN : N ≤ L)
    (flmn : ℤ → ℤ → ℤ → ℂ) {precomps : Option FwTables} (hP : FwArgOk precomps L) (reality : Bool) :
    ∃ x, fwSpectrum method flmn L N off precomps reality = .ok x ∧
      (∀ a m k, a < off ∨ m < off → x a m k = 0) ∧
      ∀ a m n, -L < a → -L < m → nFirst N reality ≤ n → n < N →
        x (a + L - 1 + off) (m + L - 1 + off) (n - nFirst N reality)
          = fwCoef L (fun n l m => flmn (N - 1 + n) l (m + L - 1)) n a m := by
  obtain ⟨cols, ec, hc⟩ := fwColumns_ok method h1 hN reality
  have hns := nStart_eq N reality
  unfold fwSpectrum
  rw [ec]
  simp only [bind, Except.bind]
  cases precomps with
  | some P =>
    have hP := (hP P rfl).1
    refine ⟨_, rfl, fun a m k h => if_neg (by omega), fun a m n a0 m0 n0 n1 => ?_⟩
    beta_reduce
    rw [if_pos ⟨by omega, by omega⟩]
    unfold fwCoef
    refine Finset.sum_congr rfl fun l hl => ?_
    rw [Finset.mem_Ico] at hl
    rw [hc _ (by omega) (by rw [nDim_eq]; omega), add_sub_cancel_right, add_sub_cancel_right,
      show nFirst N reality + (n - nFirst N reality) = n by ring, hP l a m hl.1 hl.2,
      hP l a n hl.1 hl.2, show nStart N reality + (n - nFirst N reality) = N - 1 + n by omega]
  | none =>
    simp only
    obtain ⟨s, e, h⟩ := forRangeM_ind (show (0 : ℤ) ≤ L by omega)
      (fun el (s : (ℤ → ℤ → ℝ) × (ℤ → ℤ → ℤ → ℂ)) => do
        let d ← fwStep method L el s.1
        pure (d, fun a m k => if off ≤ a ∧ off ≤ m then
          s.2 a m k + flmn (nStart N reality + k) el (m - off)
            * ((2 * (el : ℂ) + 1) / (8 * (Real.pi : ℂ) ^ 2)) * d (a - off) (m - off)
            * d (a - off) (cols k)
          else s.2 a m k)) (fun _ _ => 0, fun _ _ _ => 0)
      (fun el s => (∀ m n : ℤ, s.1 (m + L - 1) (n + L - 1) = wignerd (el - 1) m n (Real.pi / 2)) ∧
        (∀ a m k, a < off ∨ m < off → s.2 a m k = 0) ∧
        ∀ a m n, -L < a → -L < m → nFirst N reality ≤ n → n < N →
          s.2 (a + L - 1 + off) (m + L - 1 + off) (n - nFirst N reality)
            = fwCoef el (fun n l m => flmn (N - 1 + n) l (m + L - 1)) n a m)
      ⟨fwStart L, fun _ _ _ _ => rfl, fun a m n _ _ _ _ => by simp [fwCoef]⟩
      (fun el s e0 e1 h3 => by
        obtain ⟨d, e, hd⟩ := fwStep_ok method e0 e1 h3.1
        refine ⟨(d, _), by rw [e]; rfl, ?_, fun a m k h => ?_, fun a m n a0 m0 n0 n1 => ?_⟩
        · rw [show el + 1 - 1 = el by ring]; exact hd
        · simp only
          rw [if_neg (by omega)]; exact h3.2.1 a m k h
        · simp only
          rw [if_pos ⟨by omega, by omega⟩, h3.2.2 a m n a0 m0 n0 n1]
          unfold fwCoef
          rw [sum_Ico_succ_top' e0, hc _ (by omega) (by rw [nDim_eq]; omega), add_sub_cancel_right,
            add_sub_cancel_right, show nFirst N reality + (n - nFirst N reality) = n by ring, hd, hd,
            show nStart N reality + (n - nFirst N reality) = N - 1 + n by omega])
    simp only [bind, Except.bind] at e
    rw [e]
    exact ⟨_, rfl, h.2⟩

/-- Centred inverse transform over the frequencies below `L`. -/
theorem ifft_centred {L off : ℤ} (hL : 1 ≤ L) (ho : off = 0 ∨ off = 1) (x : ℤ → ℂ)
    (hx : off = 1 → x 0 = 0) (p : ℤ) :
    ifft_fwd (2 * L - 1 + off) (ifftshift (2 * L - 1 + off) x) p
      = ∑ a ∈ Finset.Ioo (-L) L, x (a + L - 1 + off) * tw (2 * L - 1 + off) (a * p) := by
  rw [ifft_fwd_ifftshift (by omega), show (2 * L - 1 + off) / 2 = L - 1 + off by omega]
  have := sum_Ico_shift (-(L - 1) - off) L (L - 1 + off)
    (fun i => x i * tw (2 * L - 1 + off) ((i - (L - 1 + off)) * p))
  rw [show -(L - 1) - off + (L - 1 + off) = 0 by ring,
    show L + (L - 1 + off) = 2 * L - 1 + off by ring] at this
  rw [this]
  symm
  apply Finset.sum_subset_zero_on_sdiff
  · intro a; simp only [Finset.mem_Ioo, Finset.mem_Ico]; omega
  · intro a ha
    simp only [Finset.mem_sdiff, Finset.mem_Ioo, Finset.mem_Ico] at ha
    rw [show a + (L - 1 + off) = 0 by omega, hx (by omega), zero_mul]
  · intro a _
    rw [add_sub_cancel_right, show a + (L - 1 + off) = a + L - 1 + off by ring]

/-- The Fourier series in `β` of the coefficients in `α`. -/
theorem wigRing_fourier (L : ℤ) (c : ℤ → ℤ → ℤ → ℂ) (n m : ℤ) (β : ℝ) :
    wigRing L c n β m = ∑ a ∈ Finset.Ioo (-L) L,
      fwCoef L c n a m * Complex.I ^ (-m) * Complex.I ^ n * cis (a * β) := by
  unfold wigRing fwCoef
  simp only [Finset.sum_mul]
  rw [Finset.sum_comm]
  refine Finset.sum_congr rfl fun l hl => ?_
  rw [Finset.mem_Ico] at hl
  rw [wignerd_fourier, Finset.mul_sum, Finset.mul_sum]
  have : ∀ a, (2 * (l : ℂ) + 1) / (8 * (Real.pi : ℂ) ^ 2) * c n l m * (Complex.I ^ (n - m)
      * ((wignerd l a m (Real.pi / 2) : ℂ) * wignerd l a n (Real.pi / 2) * cis (a * β)))
      = c n l m * ((2 * (l : ℂ) + 1) / (8 * (Real.pi : ℂ) ^ 2)) * wignerd l a m (Real.pi / 2)
        * wignerd l a n (Real.pi / 2) * Complex.I ^ (-m) * Complex.I ^ n * cis (a * β) := by
    intro a
    rw [show n - m = -m + n by ring, zpow_add₀ Complex.I_ne_zero]
    ring
  simp only [this]
  apply Finset.sum_subset
  · intro x; simp only [Finset.mem_Ico, Finset.mem_Ioo]; omega
  · intro a a1 a2
    rw [Finset.mem_Ioo] at a1
    rw [Finset.mem_Ico] at a2
    rw [wignerd_outside l a m _ (Or.inl (by rw [lt_abs]; omega))]
    simp

/-! ## The grids -/

theorem fw_supported {σ : Scheme} (hσ : σ.Resampled) {s : PyStr} (hs : lower s = σ.name) :
    fwSupported s := by
  unfold fwSupported; rw [hs]; rcases hσ with rfl | rfl
  · exact Or.inl rfl
  · exact Or.inr rfl

theorem fw_off {σ : Scheme} (hσ : σ.Resampled) {s : PyStr} (hs : lower s = σ.name) :
    fwOffset s = σ.off := by
  unfold fwOffset; rw [hs]; rcases hσ with rfl | rfl <;> rfl

theorem fw_size {σ : Scheme} (hσ : σ.Resampled) {s : PyStr} (hs : lower s = σ.name) (L : ℤ) :
    fwSize L s = 2 * L - 1 + σ.off := by
  unfold fwSize; rw [hs]; rcases hσ with rfl | rfl
  · rw [if_neg (by decide)]; simp [Scheme.off]
  · rw [if_pos (show Scheme.mwss.name = sMWSS from rfl)]; simp [Scheme.off]

theorem fw_ntheta {σ : Scheme} (hσ : σ.Resampled) {s : PyStr} (hs : lower s = σ.name) (L : ℤ) :
    fwNtheta L s = σ.rings L 0 := by
  unfold fwNtheta; rw [hs]; rcases hσ with rfl | rfl
  · rw [if_neg (by decide)]; rfl
  · rw [if_pos (show Scheme.mwss.name = sMWSS from rfl)]; rfl

theorem fw_shape {σ : Scheme} (hσ : σ.Resampled) (L : ℤ) :
    σ.shape L 0 = [σ.rings L 0, 2 * L - 1 + σ.off] := by
  rcases hσ with rfl | rfl <;> simp [Scheme.shape, Scheme.off, Scheme.rings, Scheme.ringLen]

theorem fw_theta (nodes : ℤ → ℤ → ℝ) {σ : Scheme} (hσ : σ.Resampled) {s : PyStr}
    (hs : lower s = σ.name) {L : ℤ} (hL : 1 ≤ L) (a t : ℤ) :
    cis (a * fwTheta0 L s) * tw (2 * L - 1 + σ.off) (a * t) = cis (a * σ.theta nodes L 0 t) := by
  have hLr : (1 : ℝ) ≤ L := by exact_mod_cast hL
  unfold tw fwTheta0
  rw [← cis_add, hs]
  congr 1
  rcases hσ with rfl | rfl
  · rw [if_neg (by decide)]
    simp only [Scheme.theta, Scheme.off]
    push_cast
    have : (2 * (L : ℝ) - 1) ≠ 0 := by linarith
    rw [show 2 * (L : ℝ) - 1 + 0 = 2 * L - 1 by ring]
    field_simp
    ring
  · rw [if_pos (show Scheme.mwss.name = sMWSS from rfl)]
    simp only [Scheme.theta, Scheme.off]
    push_cast
    have : (L : ℝ) ≠ 0 := by linarith
    rw [show 2 * (L : ℝ) - 1 + 1 = 2 * L by ring]
    field_simp
    ring

theorem fw_phi {σ : Scheme} (hσ : σ.Resampled) (L m t p : ℤ) :
    tw (2 * L - 1 + σ.off) (m * p) = cis (m * σ.phi L 0 t p) := by
  unfold tw
  congr 1
  rcases hσ with rfl | rfl
  · simp only [Scheme.phi, Scheme.off, Scheme.shift, Scheme.ringLen]
    push_cast
    ring
  · simp only [Scheme.phi, Scheme.off, Scheme.shift, Scheme.ringLen]
    push_cast
    ring

/-! ## Inverse -/

theorem fourierWignerInverse_values (nodes : ℤ → ℤ → ℝ) (method : PyStr) {σ : Scheme}
    (hσ : σ.Resampled) {s : PyStr} (hs : lower s = σ.name) {L N : ℤ} (h1 : 1 ≤ N) (hN : N ≤ L)
    (flmn : ℤ → ℤ → ℤ → ℂ) {precomps : Option FwTables} (hP : FwArgOk precomps L) (reality : Bool) :
    ∃ out, fourierWignerInverse method (.d3 (2 * N - 1) L (2 * L - 1) flmn) L N precomps reality s
        = .ok (.d3 (2 * N - 1) (σ.rings L 0) (2 * L - 1 + σ.off) out) ∧
      ∀ g t p, ∃ a, (∀ n, nFirst N reality ≤ n → n < N → a (N - 1 + n)
            = wigPlane 0 L (fun n l m => flmn (N - 1 + n) l (m + L - 1)) n
                (σ.theta nodes L 0 t) (σ.phi L 0 t p)) ∧
          out g t p = gammaSynth N reality a g := by
  have hL : 1 ≤ L := by omega
  have hb := nFirst_bounds h1 reality
  have hns := nStart_eq N reality
  have ho := off_cases σ
  obtain ⟨x, e, hx0, hx⟩ := fwSpectrum_ok method (off := σ.off) h1 hN flmn hP reality
  unfold fourierWignerInverse
  rw [if_neg (not_not.2 (fw_supported hσ hs)), if_neg (by simp [Nd.shape]), fw_off hσ hs,
    fw_size hσ hs, fw_ntheta hσ hs]
  have e : fwSpectrum method (Nd.d3 (2 * N - 1) L (2 * L - 1) flmn).get3 L N σ.off precomps reality
    = .ok x := e
  simp only [bind, Except.bind]
  rw [e]
  simp only
  set y : ℤ → ℤ → ℤ → ℂ := fun k t j => ifft_fwd (2 * L - 1 + σ.off)
    (ifftshift (2 * L - 1 + σ.off) (fun a => x a j k * Complex.I ^ (-(-L + 1 - σ.off + j))
      * Complex.I ^ (nFirst N reality + k)
      * cis ((-L + 1 - σ.off + a : ℤ) * fwTheta0 L s))) t with hy
  have hring : ∀ n m t, nFirst N reality ≤ n → n < N → -L < m →
      y (n - nFirst N reality) t (m + L - 1 + σ.off)
        = wigRing L (fun n l m => flmn (N - 1 + n) l (m + L - 1)) n (σ.theta nodes L 0 t) m := by
    intro n m t n0 n1 m0
    rw [hy]
    simp only
    rw [ifft_centred hL ho _ (fun h => by beta_reduce; rw [hx0 0 _ _ (Or.inl (by omega))]; simp),
      wigRing_fourier]
    refine Finset.sum_congr rfl fun a ha => ?_
    rw [Finset.mem_Ioo] at ha
    rw [hx a m n ha.1 m0 n0 n1, show -L + 1 - σ.off + (m + L - 1 + σ.off) = m by ring,
      show -L + 1 - σ.off + (a + L - 1 + σ.off) = a by ring,
      show nFirst N reality + (n - nFirst N reality) = n by ring, ← fw_theta nodes hσ hs hL]
    ring
  have hy0 : ∀ k t, σ.off = 1 → y k t 0 = 0 := by
    intro k t h
    rw [hy]
    simp only
    rw [ifft_centred hL ho _ (fun h => by beta_reduce; rw [hx0 0 _ _ (Or.inl (by omega))]; simp)]
    refine Finset.sum_eq_zero fun a _ => ?_
    rw [hx0 _ _ _ (Or.inr (by omega))]; simp
  have hplane : ∀ n t p, nFirst N reality ≤ n → n < N →
      ifft_fwd (2 * L - 1 + σ.off) (ifftshift (2 * L - 1 + σ.off) (y (n - nFirst N reality) t)) p
        = wigPlane 0 L (fun n l m => flmn (N - 1 + n) l (m + L - 1)) n (σ.theta nodes L 0 t)
            (σ.phi L 0 t p) := by
    intro n t p n0 n1
    rw [ifft_centred hL ho _ (hy0 _ _), wigPlane_ring]
    unfold synth
    rw [if_neg Bool.false_ne_true]
    refine Finset.sum_congr rfl fun m hm => ?_
    rw [Finset.mem_Ioo] at hm
    rw [hring n m t n0 n1 hm.1, ← fw_phi hσ]
  cases reality
  · rw [if_neg Bool.false_ne_true]
    refine ⟨_, rfl, fun g t p => ⟨fun K => ifft_fwd (2 * L - 1 + σ.off)
      (ifftshift (2 * L - 1 + σ.off) (y K t)) p, fun n n0 n1 => ?_, ?_⟩⟩
    · rw [← hplane n t p n0 n1, show n - nFirst N false = N - 1 + n by rw [nFirst_false]; ring]
    · unfold gammaSynth
      rw [if_neg Bool.false_ne_true]
      rfl
  · rw [if_pos rfl]
    refine ⟨_, rfl, fun g t p => ⟨fun K => ifft_fwd (2 * L - 1 + σ.off)
      (ifftshift (2 * L - 1 + σ.off) (y (K - (N - 1)) t)) p, fun n n0 n1 => ?_, ?_⟩⟩
    · beta_reduce
      rw [← hplane n t p n0 n1, show N - 1 + n - (N - 1) = n - nFirst N true by
        rw [nFirst_true]; ring]
    · unfold gammaSynth
      rw [if_pos rfl, show 2 * N - 1 - (N - 1) = N by ring]
      simp only [add_sub_cancel_left]
      rfl

end S2fft
