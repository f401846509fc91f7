import Verif.Lemmas.RoundTrip

/-! # Sums over degrees and rings at given angles

As `gVal` and `fVal`, which are the cases `α = snapAngle θ`. -/

namespace S2fft
open Spec

/-- The Fourier coefficients over the ring at colatitude `α`. -/
noncomputable def gAt (flm : ℤ → ℤ → ℂ) (L spin Ll : ℤ) (α : ℝ) (m : ℤ) : ℂ :=
  ∑ el ∈ Finset.Ico (elStart Ll spin) L,
    (-1) ^ spin * elfactor el * wignerd el m (-spin) α * flm el (m + L - 1)

theorem gAt_snap (flm : ℤ → ℤ → ℂ) (L spin Ll : ℤ) (θ : ℝ) :
    gAt flm L spin Ll (snapAngle θ) = gVal flm L spin Ll θ := rfl

theorem gAt_zero (flm : ℤ → ℤ → ℂ) (L spin : ℤ) (α : ℝ) (m : ℤ) :
    gAt flm L spin 0 α m = ∑ el ∈ Finset.Ico 0 L,
      (-1) ^ spin * elfactor el * wignerd el m (-spin) α * flm el (m + L - 1) := by
  unfold gAt
  apply Finset.sum_subset
  · intro x; simp only [Finset.mem_Ico, elStart]; omega
  · intro el h1 h2
    simp only [Finset.mem_Ico, elStart] at h1 h2
    rw [wignerd_outside _ _ _ _ (Or.inr (by rw [abs_neg]; omega))]; simp

theorem gAt_im {flm : ℤ → ℤ → ℂ} {L Ll : ℤ} (hre : ∀ el, Ll ≤ el → el < L → (flm el (L - 1)).im = 0)
    (α : ℝ) : (gAt flm L 0 Ll α 0).im = 0 := by
  unfold gAt
  rw [Complex.im_sum]
  apply Finset.sum_eq_zero
  intro el hel
  rw [Finset.mem_Ico] at hel
  have hb := elStart_bounds (L := L) hel.1
  have := hre el hb.2 hel.2
  rw [zpow_zero, one_mul, zero_add, ← Complex.ofReal_mul, Complex.im_ofReal_mul, this, mul_zero]

theorem gEff_gAt (flm : ℤ → ℤ → ℂ) (L spin Ll : ℤ) (α : ℝ) (reality : Bool) (m : ℤ) :
    gEff reality (gAt flm L spin Ll α) m = ∑ el ∈ Finset.Ico (elStart Ll spin) L,
      gEff reality (fun m => (-1) ^ spin * elfactor el * wignerd el m (-spin) α
        * flm el (m + L - 1)) m := by
  unfold gEff gAt
  split_ifs
  · rw [map_sum]
  · rfl

theorem synth_gAt_harmonic {L spin Ll : ℤ} (flm : ℤ → ℤ → ℂ) (reality : Bool)
    (h0 : 0 ≤ Ll) (hL : 1 ≤ L) (hr : reality = true → spin = 0) (α φ : ℝ) :
    synth L reality (gAt flm L spin Ll α) φ
      = harmonicSum Ll L spin (if reality = true then realCoeffs (fun l m => flm l (m + L - 1))
          else fun l m => flm l (m + L - 1)) α φ := by
  rw [synth_eq hL]
  simp only [gEff_gAt, Finset.sum_mul]
  rw [Finset.sum_comm]
  unfold harmonicSum
  have hsub : Finset.Ico (elStart Ll spin) L ⊆ Finset.Ico Ll L := by
    intro x; simp only [Finset.mem_Ico, elStart]; omega
  rw [← Finset.sum_subset hsub]
  · apply Finset.sum_congr rfl
    intro el hel
    rw [Finset.mem_Ico] at hel
    rw [sum_order_extend hel.2 _ (fun m hm => by
      unfold sYlm; rw [wignerd_outside _ _ _ _ (Or.inl hm)]; simp)]
    apply Finset.sum_congr rfl
    intro m _
    unfold sYlm elfactor
    by_cases hre : reality = true
    · have hsp := hr hre
      subst hsp
      simp only [hre, if_true]
      by_cases hm : 0 ≤ m
      · rw [gEff_nonneg hm]
        unfold realCoeffs; rw [if_neg (by omega)]
        push_cast; ring
      · rw [gEff_neg (by omega)]
        unfold realCoeffs; rw [if_pos (by omega)]
        have := wignerd_neg_neg el m (-0) α
        rw [neg_neg, neg_zero, add_zero] at this
        simp only [neg_zero, zpow_zero, one_mul]
        rw [this]
        rw [map_mul, map_mul, Complex.conj_ofReal, Complex.conj_ofReal]
        push_cast; ring
    · simp only [hre, Bool.false_eq_true, if_false]
      unfold gEff
      simp only [Bool.false_eq_true, false_and, if_false]
      push_cast; ring
  · intro el h1 h2
    apply Finset.sum_eq_zero
    intro m _
    simp only [Finset.mem_Ico, elStart] at h1 h2
    unfold sYlm
    rw [wignerd_outside _ _ _ _ (Or.inr (by rw [abs_neg]; omega))]; simp

/-- The coefficient of degree `el` and order `m`, from rings at the angles `α`. -/
noncomputable def fAt (A : ℤ → ℤ → ℂ) (spin nt : ℤ) (α w : ℤ → ℝ) (el m : ℤ) : ℂ :=
  ∑ t ∈ Finset.Ico 0 nt, w t * (-1) ^ spin * elfactor el
    * wignerd el m (-spin) (α t) * A t m

theorem fAt_snap (A : ℤ → ℤ → ℂ) (spin nt : ℤ) (θ w : ℤ → ℝ) :
    fAt A spin nt (fun t => snapAngle (θ t)) w = fVal A spin nt θ w := rfl

theorem fAt_congr {A : ℤ → ℤ → ℂ} {spin nt : ℤ} {α β w : ℤ → ℝ}
    (h : ∀ t, 0 ≤ t → t < nt → α t = β t) : fAt A spin nt α w = fAt A spin nt β w := by
  funext el m
  unfold fAt
  apply Finset.sum_congr rfl
  intro t ht
  rw [Finset.mem_Ico] at ht
  rw [h t ht.1 ht.2]

theorem fAt_outside {A : ℤ → ℤ → ℂ} {spin nt : ℤ} {α w : ℤ → ℝ} {el m : ℤ}
    (h : el < |m| ∨ el < |spin|) : fAt A spin nt α w el m = 0 := by
  unfold fAt
  apply Finset.sum_eq_zero
  intro t _
  rw [wignerd_outside _ _ _ _ (by rwa [abs_neg])]; simp

theorem fAt_exact {A : ℤ → ℤ → ℂ} {lo L spin nt : ℤ} {θ w q : ℤ → ℝ} {c : ℤ → ℤ → ℂ} {n : ℝ}
    (hn : n ≠ 0) (hA : ∀ t m, 0 ≤ t → t < nt → -L < m → m < L →
      A t m = n * trigPoly L (harmF lo L spin c m) (θ t))
    (hw : ∀ t, 0 ≤ t → t < nt → w t = q t * (2 * Real.pi / n)) (hq : ThetaRule (2 * L) nt θ q)
    {el m : ℤ} (h0 : 0 ≤ el) (h1 : lo ≤ el)
    (h2 : |spin| ≤ el) (h3 : el < L) (hm0 : -L < m) (hm1 : m < L) :
    fAt A spin nt θ w el m = if |m| ≤ el then c el m else 0 := by
  have hs : ((-1 : ℂ)) ^ spin * (-1) ^ spin = 1 := by
    rw [← zpow_add₀ (by norm_num), show spin + spin = 2 * spin by ring, zpow_mul]; norm_num
  have hnc : (n : ℂ) ≠ 0 := by exact_mod_cast hn
  by_cases hm : |m| ≤ el
  · rw [if_pos hm]
    have step : fAt A spin nt θ w el m = ∑ l ∈ Finset.Ico lo L, c l m * (2 * Real.pi * elfactor el
        * √((2 * (l : ℝ) + 1) / (4 * Real.pi)) : ℝ) * ∑ t ∈ Finset.Ico 0 nt,
          (q t : ℂ) * (wignerd el m (-spin) (θ t) * wignerd l m (-spin) (θ t)) := by
      simp only [Finset.mul_sum]
      rw [Finset.sum_comm]
      unfold fAt
      apply Finset.sum_congr rfl
      intro t ht
      rw [Finset.mem_Ico] at ht
      rw [hA t m ht.1 ht.2 hm0 hm1, hw t ht.1 ht.2, trigPoly_harmF,
        Finset.mul_sum, Finset.mul_sum]
      apply Finset.sum_congr rfl
      intro l _
      have e : (2 * Real.pi / n : ℂ) * n = 2 * Real.pi := by field_simp
      push_cast
      generalize (-1 : ℂ) ^ spin = s at hs
      linear_combination (q t * elfactor el * wignerd el m (-spin) (θ t) * c l m
        * (√((2 * (l : ℝ) + 1) / (4 * Real.pi)) : ℝ) * wignerd l m (-spin) (θ t) : ℂ)
        * (s * s * e + 2 * Real.pi * hs)
    rw [step, Finset.sum_eq_single el]
    · rw [hq.ortho h3 h3 hm (by rwa [abs_neg]), if_pos rfl]
      have hpos : (0 : ℝ) < 2 * (el : ℝ) + 1 := by
        have : (0 : ℝ) ≤ el := by exact_mod_cast h0
        linarith
      have hpi := Real.pi_pos
      have e : 2 * Real.pi * elfactor el * √((2 * (el : ℝ) + 1) / (4 * Real.pi))
          = (2 * (el : ℝ) + 1) / 2 := by
        unfold elfactor
        rw [mul_assoc, Real.mul_self_sqrt (by positivity)]
        field_simp; norm_num
      rw [e]
      have : (2 * (el : ℂ) + 1) ≠ 0 := by exact_mod_cast hpos.ne'
      push_cast
      field_simp
    · intro l hl hne
      rw [Finset.mem_Ico] at hl
      rw [hq.ortho h3 hl.2 hm (by rwa [abs_neg]), if_neg (Ne.symm hne), mul_zero]
    · intro h
      rw [Finset.mem_Ico] at h
      omega
  · rw [if_neg hm]
    unfold fAt
    apply Finset.sum_eq_zero
    intro t _
    rw [wignerd_outside _ _ _ _ (Or.inl (by omega))]; simp

end S2fft
