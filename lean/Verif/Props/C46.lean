import Verif.Lemmas.RisboDouble

/-! # C46: the Risbo recursion is stable in double precision

`risbo.compute_full`, `risbo.compute_full_vectorised` and the table of `fourier_wigner_kernel`, with a
rounding at every operation on floats. The bound grows like the degree to the power 3/2: below
`2⁻²⁹` for degrees up to 1000, whatever the angle, the orders and the rounding of ties. -/

namespace S2fft
open Spec

/-- Running the recursion in double precision from an empty plane through the degrees `0, …, l` is
accepted, and every entry of the plane is within `(l + 1)^(3/2) / 2⁴⁴` of the Wigner d-function, at
the angle given or at any angle within `2⁻⁵⁰` of it. -/
theorem C46_plane (F : DoubleLib) (b β : ℝ) (L l : ℤ) (h0 : 0 ≤ l) (hL : l < L) (hL28 : L ≤ 2 ^ 28)
    (hb : 0 ≤ b) (hb' : b ≤ F.fl Real.pi) (hβ : |b - β| ≤ 1 / 2 ^ 50) :
    ∃ d, forRangeM 0 (l + 1) (fun el dl => risboFullF F (2 * L - 1) (2 * L - 1) dl b L el)
        (fun _ _ => 0) = .ok d ∧
      ∀ m n : ℤ, |m| < L → |n| < L →
        |d (m + L - 1) (n + L - 1) - wignerd l m n β| ≤ (l + 1) * √((l : ℝ) + 1) / 2 ^ 44 := by
  have hb4 : |b| ≤ 4 := by
    rw [abs_of_nonneg hb]
    exact le_trans hb' (flPi_le_four F)
  obtain ⟨d, hd, hp⟩ := forRangeM_ind (by omega : (0 : ℤ) ≤ l + 1)
    (fun el dl => risboFullF F (2 * L - 1) (2 * L - 1) dl b L el) (fun _ _ => 0)
    (fun el d => if el = 0 then ∀ m n : ℤ, d (m + L - 1) (n + L - 1) = 0
      else HoldsNear d L (el - 1) β)
    (by simp)
    (fun el d h1 h2 h3 => by
      refine ⟨risboStepF F d b L el, ?_, ?_⟩
      · simp [risboFullF, risboArgChecksF, h1, show el < L by omega, hb, hb', bind, Except.bind, pure,
          Except.pure]
      · rw [if_neg (by omega), add_sub_cancel_right]
        exact risboStepF_near F h1 (by omega) hb4 hβ h3)
  refine ⟨d, hd, fun m n _ _ => ?_⟩
  rw [if_neg (by omega), add_sub_cancel_right] at hp
  exact hp.entry h0 m n

/-- The same for all angles at once. -/
theorem C46_vectorised (F : DoubleLib) (b : ℤ → ℝ) (L l : ℤ) (h0 : 0 ≤ l) (hl : l < 2 ^ 28) (t : ℤ)
    (β : ℝ) (hb : |b t| ≤ 4) (hβ : |b t - β| ≤ 1 / 2 ^ 50) (m n : ℤ) :
    |forRange 0 (l + 1) (fun el dl => risboFullVecF F dl b L el) (fun _ _ _ => 0) t
      (m + L - 1) (n + L - 1) - wignerd l m n β| ≤ (l + 1) * √((l : ℝ) + 1) / 2 ^ 44 := by
  have := forRange_ind (by omega : (0 : ℤ) ≤ l + 1) (fun el dl => risboFullVecF F dl b L el)
    (fun _ _ _ => (0 : ℝ))
    (fun el d => if el = 0 then ∀ m n : ℤ, d t (m + L - 1) (n + L - 1) = 0
      else HoldsNear (d t) L (el - 1) β)
    (by simp)
    (fun el d h1 h2 h3 => by
      rw [if_neg (by omega), add_sub_cancel_right, risboFullVecF_at]
      exact risboStepF_near F h1 (by omega) hb hβ h3)
  rw [if_neg (by omega), add_sub_cancel_right] at this
  exact this.entry h0 m n

/-- The table of `fourier_wigner_kernel`: although `np.pi / 2` is not exactly `π / 2`, the table holds
the planes at `π / 2` to the same accuracy. -/
theorem C46_deltas (F : DoubleLib) (L : ℤ) (hL0 : 0 ≤ L) (hL : L ≤ 2 ^ 28) :
    ∃ D, fwDeltasF F L = .ok D ∧ ∀ l m n : ℤ, 0 ≤ l → l < L → |m| < L → |n| < L →
      |D l (m + L - 1) (n + L - 1) - wignerd l m n (Real.pi / 2)|
        ≤ (l + 1) * √((l : ℝ) + 1) / 2 ^ 44 := by
  obtain ⟨p1, p2⟩ := flPi_bounds F
  have hpi : |F.fl Real.pi - Real.pi| ≤ 4 / 2 ^ 53 := by
    refine fl_near F.nearest ?_
    rw [abs_of_pos Real.pi_pos]; exact Real.pi_le_four
  have h4 := flPi_le_four F
  have hhalf : |F.fl (F.fl Real.pi / 2) - F.fl Real.pi / 2| ≤ 2 / 2 ^ 53 := by
    refine fl_near F.nearest ?_
    rw [abs_of_pos (by linarith)]; linarith
  obtain ⟨q1, q2⟩ := abs_le.1 hhalf
  have hb0 : 0 ≤ F.fl (F.fl Real.pi / 2) := fl_nonneg F.nearest (by linarith)
  have hb' : F.fl (F.fl Real.pi / 2) ≤ F.fl Real.pi := by norm_num at q2; linarith
  have hβ : |F.fl (F.fl Real.pi / 2) - Real.pi / 2| ≤ 1 / 2 ^ 50 := by
    obtain ⟨r1, r2⟩ := abs_le.1 hpi
    rw [abs_le]
    norm_num at q1 q2 r1 r2 ⊢
    constructor <;> linarith
  have hb4 : |F.fl (F.fl Real.pi / 2)| ≤ 4 := by rw [abs_of_nonneg hb0]; linarith
  obtain ⟨st, hst, hp⟩ := forRangeM_ind (by omega : (0 : ℤ) ≤ L)
    (fun el (st : (ℤ → ℤ → ℤ → ℝ) × (ℤ → ℤ → ℝ)) => do
      let d ← risboFullF F (2 * L - 1) (2 * L - 1) st.2 (F.fl (F.fl Real.pi / 2)) L el
      pure ((fun x => if x = el then d else st.1 x, d) : (ℤ → ℤ → ℤ → ℝ) × (ℤ → ℤ → ℝ)))
    (fun _ _ _ => 0, fun _ _ => 0)
    (fun el st => (if el = 0 then ∀ m n : ℤ, st.2 (m + L - 1) (n + L - 1) = 0
        else HoldsNear st.2 L (el - 1) (Real.pi / 2)) ∧
      ∀ l, 0 ≤ l → l < el → HoldsNear (st.1 l) L l (Real.pi / 2))
    ⟨by simp, fun l h1 h2 => by omega⟩
    (fun el st h1 h2 h3 => by
      have hs := risboStepF_near F h1 (by omega) hb4 hβ h3.1
      refine ⟨(fun x => if x = el then risboStepF F st.2 (F.fl (F.fl Real.pi / 2)) L el else st.1 x,
        risboStepF F st.2 (F.fl (F.fl Real.pi / 2)) L el), ?_, ?_, ?_⟩
      · simp [risboFullF, risboArgChecksF, h1, h2, hb0, hb', bind, Except.bind, pure, Except.pure]
      · rw [if_neg (by omega), add_sub_cancel_right]
        exact hs
      · intro l g1 g2
        by_cases hl : l = el
        · simp only [hl, if_true]; exact hs
        · simp only [hl, if_false]; exact h3.2 l g1 (by omega))
  refine ⟨st.1, ?_, fun l m n g1 g2 _ _ => (hp.2 l g1 g2).entry g1 m n⟩
  unfold fwDeltasF
  rw [hst]
  rfl

/-- The bound in numbers: up to degree 1000 the error is below `2⁻²⁹`. -/
theorem C46_numbers (F : DoubleLib) (b : ℝ) (l : ℤ) (h0 : 0 ≤ l) (hl : l ≤ 1000)
    (hb : 0 ≤ b) (hb' : b ≤ F.fl Real.pi) :
    ∃ d, forRangeM 0 (l + 1) (fun el dl => risboFullF F (2 * 1024 - 1) (2 * 1024 - 1) dl b 1024 el)
        (fun _ _ => 0) = .ok d ∧
      ∀ m n : ℤ, |m| < 1024 → |n| < 1024 →
        |d (m + 1024 - 1) (n + 1024 - 1) - wignerd l m n b| < 1 / 2 ^ 29 := by
  obtain ⟨d, e, h⟩ := C46_plane F b b 1024 l h0 (by omega) (by norm_num) hb hb' (by simp)
  refine ⟨d, e, fun m n hm hn => lt_of_le_of_lt (h m n hm hn) ?_⟩
  have h1 : (0 : ℝ) ≤ l := by exact_mod_cast h0
  have h2 : (l : ℝ) ≤ 1000 := by exact_mod_cast hl
  have h3 : √((l : ℝ) + 1) ≤ 32 := by rw [Real.sqrt_le_iff]; constructor <;> linarith
  calc ((l : ℝ) + 1) * √((l : ℝ) + 1) / 2 ^ 44 ≤ (1000 + 1) * 32 / 2 ^ 44 := by gcongr
    _ < 1 / 2 ^ 29 := by norm_num

/-- Witness: a floating point library as assumed exists, with angles as assumed. -/
example : ∃ F : DoubleLib, (0 : ℝ) ≤ 1 ∧ (1 : ℝ) ≤ F.fl Real.pi ∧ |(1 : ℝ) - 1| ≤ 1 / 2 ^ 50 :=
  ⟨exactLib, by norm_num, (flPi_bounds _).1, by norm_num⟩

end S2fft
