import Verif.Lemmas.FourierWignerDoubleConvolve

/-! # The contraction of the forward Fourier-Wigner transform in double precision -/

namespace S2fft
open Spec

/-- The rows of the planes. -/
theorem fw_shift_sum {M : Type*} [AddCommMonoid M] (L : ℤ) (g : ℤ → M) :
    ∑ a ∈ Finset.Ico 0 (2 * L - 1), g a = ∑ a ∈ Finset.Ioo (-L) L, g (a + L - 1) := by
  have := sum_Ico_shift (-L + 1) L (L - 1) g
  rw [show -L + 1 + (L - 1) = 0 by ring, show L + (L - 1) = 2 * L - 1 by ring] at this
  rw [this, show Finset.Ico (-L + 1) L = Finset.Ioo (-L) L by
    ext x; simp only [Finset.mem_Ico, Finset.mem_Ioo]; omega]
  exact Finset.sum_congr rfl fun a _ => by rw [show a + (L - 1) = a + L - 1 by ring]

/-- One coefficient. -/
theorem fwRowsF_near (F : FftLib) (pair : Fin 3) {L l m n : ℤ} {E : ℝ} (hL : 1 ≤ L) (hL1 : L ≤ 2 ^ 26)
    (hE : Covers L E) (l0 : 0 ≤ l) (l1 : l < L) {d : ℤ → ℤ → ℝ} (hd : HoldsNear d L l (Real.pi / 2))
    {x x' : ℤ → ℂ} {B ε : ℝ} (hB : ∀ a, -L < a → a < L → ‖x (a + L - 1)‖ ≤ B)
    (hx : ∀ a, -L < a → a < L → ‖x' (a + L - 1) - x (a + L - 1)‖ ≤ ε) :
    ‖∑ a ∈ Finset.Ioo (-L) L, x (a + L - 1) * wignerd l a m (Real.pi / 2) * wignerd l a n (Real.pi / 2)‖
      ≤ B ∧
    ‖einsum3F F pair (2 * L - 1) x' (fun a => (d a (m + L - 1) : ℂ)) (fun a => (d a (n + L - 1) : ℂ))
      - ∑ a ∈ Finset.Ioo (-L) L, x (a + L - 1) * wignerd l a m (Real.pi / 2)
          * wignerd l a n (Real.pi / 2)‖ ≤ 3 / 2 * ε + 3 * (E * B) + tn := by
  have hL' : (1 : ℝ) ≤ L := by exact_mod_cast hL
  have hL2 : (L : ℝ) ≤ 2 ^ 26 := by exact_mod_cast hL1
  have hB0 : 0 ≤ B := (norm_nonneg _).trans (hB 0 (by omega) (by omega))
  have hε0 : 0 ≤ ε := (norm_nonneg _).trans (hx 0 (by omega) (by omega))
  have hE0 : 0 ≤ E := le_trans (by positivity) hE.2.1
  obtain ⟨p1, p2, p3⟩ := hd.full_products l0 l1 (hE.1 l l0 l1) hE.2.2 m n
  have hx' : ∀ a, -L < a → a < L → ‖x' (a + L - 1)‖ ≤ B + ε := fun a a0 a1 => by
    have := norm_le_norm_add_norm_sub' (x' (a + L - 1)) (x (a + L - 1))
    linarith [hB a a0 a1, hx a a0 a1]
  constructor
  · refine (norm_sum_le _ _).trans ?_
    calc _ ≤ ∑ a ∈ Finset.Ioo (-L) L, B * |wignerd l a m (Real.pi / 2) * wignerd l a n (Real.pi / 2)| := by
          refine Finset.sum_le_sum fun a ha => ?_
          rw [Finset.mem_Ioo] at ha
          rw [mul_assoc, norm_mul, ← Complex.ofReal_mul, Complex.norm_real, Real.norm_eq_abs]
          exact mul_le_mul_of_nonneg_right (hB a ha.1 ha.2) (abs_nonneg _)
      _ ≤ B * 1 := by rw [← Finset.mul_sum]; exact mul_le_mul_of_nonneg_left p3 hB0
      _ = B := mul_one B
  · have row : ∀ (a : ℤ), a = a - L + 1 + L - 1 := fun a => by ring
    have h := einsum3F_near F pair (L := 2 * L - 1) (by omega) (by omega) (u := 1 / 2 ^ 1000) rfl (x := x')
      (X := x') (y := fun a => d a (m + L - 1)) (z := fun a => d a (n + L - 1))
      (fun a _ _ => by rw [sub_self, norm_zero]; positivity)
      (fun a _ _ => by
        have := hd.entry_le l0 l1 (hE.1 l l0 l1) hE.2.2 (a - L + 1) m
        rwa [← row a] at this)
      (fun a _ _ => by
        have := hd.entry_le l0 l1 (hE.1 l l0 l1) hE.2.2 (a - L + 1) n
        rwa [← row a] at this)
    rw [fw_shift_sum, fw_shift_sum, fw_shift_sum] at h
    have k1 : ∑ a ∈ Finset.Ioo (-L) L, ‖x' (a + L - 1)‖ * |d (a + L - 1) (m + L - 1) * d (a + L - 1) (n + L - 1)|
        ≤ (B + ε) * (5 / 4) := by
      calc _ ≤ ∑ a ∈ Finset.Ioo (-L) L, (B + ε) * |d (a + L - 1) (m + L - 1) * d (a + L - 1) (n + L - 1)| := by
            refine Finset.sum_le_sum fun a ha => ?_
            rw [Finset.mem_Ioo] at ha
            exact mul_le_mul_of_nonneg_right (hx' a ha.1 ha.2) (abs_nonneg _)
        _ ≤ _ := by rw [← Finset.mul_sum]; exact mul_le_mul_of_nonneg_left p2 (by linarith)
    have k2 : ∑ a ∈ Finset.Ioo (-L) L, (1 + ‖x' (a + L - 1)‖) ≤ 2 * L * (1 + (B + ε)) := by
      have hcard : ((Finset.Ioo (-L) L).card : ℝ) ≤ 2 * L := by
        rw [Int.card_Ioo]
        have : ((L - -L - 1).toNat : ℤ) ≤ 2 * L := by omega
        exact_mod_cast this
      calc _ ≤ ∑ _a ∈ Finset.Ioo (-L) L, (1 + (B + ε)) := by
            refine Finset.sum_le_sum fun a ha => ?_
            rw [Finset.mem_Ioo] at ha
            linarith [hx' a ha.1 ha.2]
        _ ≤ _ := by
          rw [Finset.sum_const, nsmul_eq_mul]
          exact mul_le_mul_of_nonneg_right hcard (by linarith)
    have k3 : ‖∑ a ∈ Finset.Ioo (-L) L, x' (a + L - 1) * (d (a + L - 1) (m + L - 1) : ℂ) * (d (a + L - 1) (n + L - 1) : ℂ)
        - ∑ a ∈ Finset.Ioo (-L) L, x (a + L - 1) * wignerd l a m (Real.pi / 2)
          * wignerd l a n (Real.pi / 2)‖ ≤ ε * (5 / 4) + B * (33 / 16 * E) := by
      rw [← Finset.sum_sub_distrib]
      refine (norm_sum_le _ _).trans ?_
      calc _ ≤ ∑ a ∈ Finset.Ioo (-L) L, (ε * |d (a + L - 1) (m + L - 1) * d (a + L - 1) (n + L - 1)|
            + B * |d (a + L - 1) (m + L - 1) * d (a + L - 1) (n + L - 1)
              - wignerd l a m (Real.pi / 2) * wignerd l a n (Real.pi / 2)|) := by
            refine Finset.sum_le_sum fun a ha => ?_
            rw [Finset.mem_Ioo] at ha
            have e : x' (a + L - 1) * (d (a + L - 1) (m + L - 1) : ℂ) * (d (a + L - 1) (n + L - 1) : ℂ)
                - x (a + L - 1) * wignerd l a m (Real.pi / 2) * wignerd l a n (Real.pi / 2)
                = (x' (a + L - 1) - x (a + L - 1))
                    * ((d (a + L - 1) (m + L - 1) * d (a + L - 1) (n + L - 1) : ℝ) : ℂ)
                  + x (a + L - 1) * ((d (a + L - 1) (m + L - 1) * d (a + L - 1) (n + L - 1)
                    - wignerd l a m (Real.pi / 2) * wignerd l a n (Real.pi / 2) : ℝ) : ℂ) := by
              push_cast; ring
            rw [e]
            refine (norm_add_le _ _).trans ?_
            rw [norm_mul, norm_mul, Complex.norm_real, Complex.norm_real, Real.norm_eq_abs, Real.norm_eq_abs]
            exact add_le_add (mul_le_mul_of_nonneg_right (hx a ha.1 ha.2) (abs_nonneg _))
              (mul_le_mul_of_nonneg_right (hB a ha.1 ha.2) (abs_nonneg _))
        _ ≤ _ := by
          rw [Finset.sum_add_distrib, ← Finset.mul_sum, ← Finset.mul_sum]
          exact add_le_add (mul_le_mul_of_nonneg_left p2 hε0) (mul_le_mul_of_nonneg_left p1 hB0)
    refine (norm_sub_le_norm_sub_add_norm_sub _ _ _).trans ((add_le_add h k3).trans ?_)
    have hc : 12 * ((2 * L - 1 : ℤ) : ℝ) / 2 ^ 50 ≤ 3 / 8 * E := by
      have : 12 * ((2 * L - 1 : ℤ) : ℝ) / 2 ^ 50 ≤ 3 / 8 * (L / 2 ^ 44) := by
        push_cast
        have e : (3 : ℝ) / 8 * (L / 2 ^ 44) = 24 * L / 2 ^ 50 := by ring
        rw [e]
        refine div_le_div_of_nonneg_right (by linarith) (by norm_num)
      exact this.trans (mul_le_mul_of_nonneg_left hE.2.1 (by norm_num))
    have ht : 36 * (1 / 2 ^ 1000) * (2 * (L : ℝ)) ≤ tn / 2 ^ 60 := by
      rw [tiny_tn]
      have := tn_pos
      have e : 36 * (tn / 2 ^ 100) * (2 * (L : ℝ)) = tn / 2 ^ 60 * (72 * L / 2 ^ 40) := by ring
      rw [e]
      refine mul_le_of_le_one_right (by positivity) ?_
      rw [div_le_one (by norm_num)]
      norm_num at hL2 ⊢
      linarith
    have htn := tn_pos
    have htn1 : tn ≤ 1 := by
      unfold tn
      rw [div_le_one (by positivity)]
      exact one_le_pow₀ (by norm_num)
    have m1 := mul_le_mul hc k1 (Finset.sum_nonneg fun _ _ => mul_nonneg (norm_nonneg _) (abs_nonneg _))
      (by positivity : 0 ≤ 3 / 8 * E)
    have m2 : 36 * (1 / 2 ^ 1000 : ℝ) * ∑ a ∈ Finset.Ioo (-L) L, (1 + ‖x' (a + L - 1)‖)
        ≤ tn / 2 ^ 60 * (1 + (B + ε)) := by
      calc _ ≤ 36 * (1 / 2 ^ 1000 : ℝ) * (2 * L * (1 + (B + ε))) := mul_le_mul_of_nonneg_left k2 (by positivity)
        _ = 36 * (1 / 2 ^ 1000) * (2 * (L : ℝ)) * (1 + (B + ε)) := by ring
        _ ≤ _ := mul_le_mul_of_nonneg_right ht (by linarith)
    have m3 : tn / 2 ^ 60 * (1 + (B + ε)) ≤ tn + 1 / 16 * (E * B) + 1 / 16 * ε := by
      have hE1 := hE.pos hL
      have c1 : tn / 2 ^ 60 ≤ tn := div_le_self htn.le (by norm_num)
      have c2 : tn / 2 ^ 60 ≤ 1 / 16 * E := by
        have : tn / 2 ^ 60 ≤ 1 / 2 ^ 60 := div_le_div_of_nonneg_right htn1 (by norm_num)
        norm_num at this hE1 ⊢
        linarith
      have c3 : tn / 2 ^ 60 ≤ 1 / 16 := by
        have := hE.2.2
        linarith
      have d1 := mul_le_mul_of_nonneg_right c2 hB0
      have d2 := mul_le_mul_of_nonneg_right c3 hε0
      rw [mul_add, mul_add]
      linarith
    have m4 : E * ε ≤ 1 / 16 * ε := mul_le_mul_of_nonneg_right hE.2.2 hε0
    have m5 : 3 / 8 * E * ((B + ε) * (5 / 4)) = 15 / 32 * (E * B) + 15 / 32 * (E * ε) := by ring
    have m6 : B * (33 / 16 * E) = 33 / 16 * (E * B) := by ring
    have m7 : 0 ≤ E * B := mul_nonneg hE0 hB0
    rw [m5] at m1
    rw [m6]
    linarith

theorem fwContractF_near (F : XlaLib) (pair : Fin 3) (method : PyStr) {L N : ℤ} (h1 : 1 ≤ N) (hN : N ≤ L)
    (hL1 : L ≤ 2 ^ 26) {E : ℝ} (hE : Covers L E) {x x' : ℤ → ℤ → ℤ → ℂ} {precomps : Option FwTables}
    (hP : ∀ P, precomps = some P → FwTablesNear P L) (reality : Bool) {B ε : ℝ}
    (hB : ∀ n a m, nFirst N reality ≤ n → n < N → -L < a → a < L → -L < m → m < L →
      ‖x (n - nFirst N reality) (a + L - 1) (m + L - 1)‖ ≤ B)
    (hx : ∀ n a m, nFirst N reality ≤ n → n < N → -L < a → a < L → -L < m → m < L →
      ‖x' (n - nFirst N reality) (a + L - 1) (m + L - 1)
        - x (n - nFirst N reality) (a + L - 1) (m + L - 1)‖ ≤ ε) :
    ∃ y, fwContractF F pair method x' L N precomps reality = .ok y ∧
      ∀ n l m, nFirst N reality ≤ n → n < N → 0 ≤ l → l < L → -L < m → m < L →
        ‖∑ a ∈ Finset.Ioo (-L) L, x (n - nFirst N reality) (a + L - 1) (m + L - 1)
              * wignerd l a m (Real.pi / 2) * wignerd l a n (Real.pi / 2)‖ ≤ B ∧
        ‖y (n - nFirst N reality) l (m + L - 1)
          - ∑ a ∈ Finset.Ioo (-L) L, x (n - nFirst N reality) (a + L - 1) (m + L - 1)
              * wignerd l a m (Real.pi / 2) * wignerd l a n (Real.pi / 2)‖
          ≤ 3 / 2 * ε + 3 * (E * B) + tn := by
  have hL : 1 ≤ L := h1.trans hN
  obtain ⟨cols, ec, hc⟩ := fwColumns_ok method h1 hN reality
  have hcol : ∀ n, nFirst N reality ≤ n → n < N → cols (n - nFirst N reality) = n + L - 1 := by
    intro n n0 n1
    rw [hc _ (by omega) (by rw [nDim_eq]; omega)]; ring
  unfold fwContractF
  rw [ec]
  simp only [bind, Except.bind]
  cases precomps with
  | some P =>
    have hP := hP P rfl
    refine ⟨_, rfl, fun n l m n0 n1 l0 l1 m0 m1 => ?_⟩
    rw [hcol n n0 n1]
    exact fwRowsF_near F.toFftLib pair hL hL1 hE l0 l1 (hP l l0 l1)
      (x := fun a => x (n - nFirst N reality) a (m + L - 1))
      (x' := fun a => x' (n - nFirst N reality) a (m + L - 1))
      (fun a a0 a1 => hB n a m n0 n1 a0 a1 m0 m1) (fun a a0 a1 => hx n a m n0 n1 a0 a1 m0 m1)
  | none =>
    simp only
    obtain ⟨s, e, h⟩ := forRangeM_ind (show (0 : ℤ) ≤ L by omega)
      (fun el (s : (ℤ → ℤ → ℝ) × (ℤ → ℤ → ℤ → ℂ)) => do
        let d ← fwStepF F method L el s.1
        pure (d, setDegree s.2 el (fun k j => einsum3F F.toFftLib pair (2 * L - 1) (fun a => x' k a j)
          (fun a => (d a j : ℂ)) (fun a => (d a (cols k) : ℂ))))) (fun _ _ => 0, fun _ _ _ => 0)
      (fun el s => PlanesNear s.1 L el (Real.pi / 2) ∧
        ∀ n l m, nFirst N reality ≤ n → n < N → 0 ≤ l → l < el → -L < m → m < L →
        ‖∑ a ∈ Finset.Ioo (-L) L, x (n - nFirst N reality) (a + L - 1) (m + L - 1)
              * wignerd l a m (Real.pi / 2) * wignerd l a n (Real.pi / 2)‖ ≤ B ∧
        ‖s.2 (n - nFirst N reality) l (m + L - 1)
          - ∑ a ∈ Finset.Ioo (-L) L, x (n - nFirst N reality) (a + L - 1) (m + L - 1)
              * wignerd l a m (Real.pi / 2) * wignerd l a n (Real.pi / 2)‖
          ≤ 3 / 2 * ε + 3 * (E * B) + tn)
      ⟨planesNear_start L _, fun n l m _ _ a b => by omega⟩
      (fun el s e0 e1 h3 => by
        obtain ⟨d, e, hd⟩ := fwStepF_near F method e0 e1 hL1 h3.1
        refine ⟨(d, _), by rw [e]; rfl, hd.next e0, fun n l m n0 n1 l0 l1 m0 m1 => ?_⟩
        simp only [setDegree]
        by_cases hl : l = el
        · rw [if_pos hl, hl, hcol n n0 n1]
          exact fwRowsF_near F.toFftLib pair hL hL1 hE e0 e1 hd
            (x := fun a => x (n - nFirst N reality) a (m + L - 1))
            (x' := fun a => x' (n - nFirst N reality) a (m + L - 1))
            (fun a a0 a1 => hB n a m n0 n1 a0 a1 m0 m1) (fun a a0 a1 => hx n a m n0 n1 a0 a1 m0 m1)
        · rw [if_neg hl]; exact h3.2 n l m n0 n1 l0 (by omega) m0 m1)
    simp only [bind, Except.bind] at e
    rw [e]
    exact ⟨_, rfl, h.2⟩

/-! ## The exact rings are bounded by the signal -/

theorem fwRings_norm_le {L N off : ℤ} (hL : 1 ≤ L) (hN : 1 ≤ N) (ho : off = 0 ∨ off = 1)
    (f : ℤ → ℤ → ℤ → ℂ) (reality : Bool) (t : ℤ) {A : ℝ}
    (hA : ∀ g p, 0 ≤ g → g < 2 * N - 1 → 0 ≤ p → p < 2 * L - 1 + off → ‖f g t p‖ ≤ A) (k j : ℤ) :
    ‖fwRings f N (2 * L - 1 + off) off reality k t j‖ ≤ A := by
  have hnp : 0 < 2 * L - 1 + off := by omega
  have hng : 0 < 2 * N - 1 := by omega
  unfold fwRings
  cases reality
  · rw [if_neg Bool.false_ne_true]
    simp only [fftshift]
    exact norm_fft_fwd_le hng (fun g g0 g1 => norm_fft_fwd_le hnp (fun p p0 p1 => hA g p g0 g1 p0 p1) _) _
  · rw [if_pos rfl]
    simp only [fftshift]
    refine norm_fft_fwd_le hnp (fun p p0 p1 => ?_) _
    have e : rfft (2 * N - 1) (fun g => (f g t p).re) k / (2 * (N : ℂ) - 1)
        = fft_fwd (2 * N - 1) (fun g => ((f g t p).re : ℂ)) k := by
      unfold rfft fft_fwd; push_cast; rfl
    rw [e]
    refine norm_fft_fwd_le hng (fun g g0 g1 => ?_) _
    rw [Complex.norm_real]
    exact (Complex.abs_re_le_norm _).trans (hA g p g0 g1 p0 p1)

/-! ## The factor -/

theorem fwFactorF_near (F : DoubleLib) : |fwFactorF F - (2 * Real.pi) ^ 2| ≤ 20 / 2 ^ 50 := by
  have hpi := Real.pi_le_four
  have hpi0 := Real.pi_pos
  have h315 := Real.pi_lt_d2
  have h0 := fl_near F.nearest (x := Real.pi) (B := 4) (by rw [abs_of_pos hpi0]; exact hpi)
  unfold fwFactorF
  generalize F.fl Real.pi = p at *
  have h0' := abs_le.1 h0
  have h1 : |2 * p * (2 * p) - (2 * Real.pi) ^ 2| ≤ 104 / 2 ^ 53 := by
    rw [show 2 * p * (2 * p) - (2 * Real.pi) ^ 2 = (p - Real.pi) * (4 * (p + Real.pi)) by ring, abs_mul]
    have : |4 * (p + Real.pi)| ≤ 26 := by
      rw [abs_le]; norm_num at h0' h315 ⊢; constructor <;> linarith
    calc |p - Real.pi| * |4 * (p + Real.pi)| ≤ 4 / 2 ^ 53 * 26 := by gcongr
      _ = 104 / 2 ^ 53 := by norm_num
  have h2 := fl_step F.nearest h1 (B := 50) (by
    rw [abs_of_pos (by positivity)]
    norm_num at h315 ⊢
    nlinarith)
  norm_num at h2 ⊢
  linarith

end S2fft
