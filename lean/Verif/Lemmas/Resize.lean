import Verif.Spec.Resize
import Verif.Lemmas.Refinement
import Verif.Props.C24
import Verif.Props.C26

/-! # Expansions of resized coefficients -/

namespace S2fft
open Spec

theorem resized_at {L L' : ℤ} (g : ℤ → ℤ → ℂ) {l m : ℤ} :
    resized L L' g l (m + L' - 1) = if l < L ∧ |m| < L then g l (m + L - 1) else 0 := by
  unfold resized
  rw [show m + L' - 1 - (L' - 1) = m by ring, show m + (L - 1) = m + L - 1 by ring]

theorem sYlm_outside {s l m : ℤ} (h : l < |s|) (θ φ : ℝ) : sYlm s l m θ φ = 0 := by
  unfold sYlm
  rw [wignerd_outside l m (-s) θ (Or.inr (by rwa [abs_neg]))]
  simp

/-- Degrees below the spin do not contribute. -/
theorem harmonicSum_spin {lo L s : ℤ} {c d : ℤ → ℤ → ℂ}
    (h : ∀ l m, lo ≤ l → l < L → |s| ≤ l → |m| ≤ l → c l m = d l m) (θ φ : ℝ) :
    harmonicSum lo L s c θ φ = harmonicSum lo L s d θ φ := by
  unfold harmonicSum
  refine Finset.sum_congr rfl fun l hl => Finset.sum_congr rfl fun m hm => ?_
  rw [Finset.mem_Ico] at hl hm
  by_cases hs : |s| ≤ l
  · rw [h l m hl.1 hl.2 hs (by rw [abs_le]; omega)]
  · rw [sYlm_outside (by omega), mul_zero, mul_zero]

/-- Nor do degrees whose coefficients vanish. -/
theorem harmonicSum_cut {lo L L' s : ℤ} {c d : ℤ → ℤ → ℂ}
    (h : ∀ l m, lo ≤ l → l < L → l < L' → |s| ≤ l → |m| ≤ l → c l m = d l m)
    (h0 : ∀ l m, lo ≤ l → L ≤ l → l < L' → |m| ≤ l → d l m = 0) (θ φ : ℝ) :
    harmonicSum lo (min L L') s c θ φ = harmonicSum lo L' s d θ φ := by
  rw [harmonicSum_spin (d := d) fun l m a b => h l m a (by omega) (by omega)]
  unfold harmonicSum
  refine Finset.sum_subset_zero_on_sdiff (fun l hl => ?_) (fun l hl => ?_) (fun l hl => rfl)
  · rw [Finset.mem_Ico] at hl ⊢
    omega
  · rw [Finset.mem_sdiff, Finset.mem_Ico, Finset.mem_Ico] at hl
    refine Finset.sum_eq_zero fun m hm => ?_
    rw [Finset.mem_Ico] at hm
    rw [h0 l m hl.1.1 (by omega) hl.1.2 (by rw [abs_le]; omega), zero_mul]

/-- The coefficients returned by an analysis. -/
def Analysed (L s : ℤ) (c g : ℤ → ℤ → ℂ) : Prop :=
  ∀ el m, 0 ≤ el → el < L → -L < m → m < L →
    g el (m + L - 1) = if |s| ≤ el ∧ |m| ≤ el then c el m else 0

theorem resized_coeffs {L L' s : ℤ} {c g : ℤ → ℤ → ℂ} (h : Analysed L s c g) {reality : Bool}
    (hre : reality = true → s = 0 → RealHarmonics c 0 L) (θ φ : ℝ) :
    harmonicSum 0 L' s (coeffs (resized L L' g) L' s reality) θ φ
      = harmonicSum 0 (min L L') s c θ φ := by
  have val : ∀ l m, 0 ≤ l → l < L → |s| ≤ l → |m| ≤ l → resized L L' g l (m + L' - 1) = c l m := by
    intro l m a b hs hm
    rw [resized_at, if_pos ⟨b, by omega⟩]
    rw [abs_le] at hm
    rw [h l m a b (by omega) (by omega), if_pos ⟨hs, abs_le.2 hm⟩]
  symm
  refine harmonicSum_cut (fun l m a b _ hs hm => ?_) (fun l m a b _ hm => ?_) θ φ
  · unfold coeffs
    split_ifs with hr
    · unfold realCoeffs
      split_ifs with hneg
      · beta_reduce
        rw [val l (-m) a b hs (by rwa [abs_neg])]
        have := hre hr.1 hr.2 l (-m) a b (by rwa [abs_neg])
        rw [neg_neg] at this
        rw [this, zpow_neg, ← inv_zpow, inv_neg, inv_one]
      · exact (val l m a b hs hm).symm
    · exact (val l m a b hs hm).symm
  · have z : ∀ m, resized L L' g l (m + L' - 1) = 0 := fun m => by
      rw [resized_at, if_neg (by omega)]
    unfold coeffs
    split_ifs with hr
    · unfold realCoeffs
      simp only [z, map_zero, mul_zero, ite_self]
    · exact z m

theorem resized_order_zero {L L' s : ℤ} {c g : ℤ → ℤ → ℂ} (hL : 1 ≤ L) (h : Analysed L s c g)
    {reality : Bool} (hre : reality = true → s = 0 → RealHarmonics c 0 L) :
    RealOrderZero (resized L L' g) L' s reality 0 := by
  intro hr hs l a b
  have := resized_at (L := L) (L' := L') g (l := l) (m := 0)
  rw [zero_add] at this
  rw [this]
  split_ifs with hl
  · rw [h l 0 a hl.1 (by omega) (by omega)]
    split_ifs with hc
    · have := hre hr hs l 0 a hl.1 hc.2
      rw [neg_zero, zpow_zero, one_mul] at this
      exact Complex.conj_eq_iff_im.1 this.symm
    · rfl
  · rfl

/-- Low-degree entries stay zero. -/
theorem resized_low {L L' s : ℤ} {c g : ℤ → ℤ → ℂ} (h : Analysed L s c g) :
    ∀ el k, 0 ≤ el → el < |s| → 0 ≤ k → k < 2 * L' - 1 → resized L L' g el k = 0 := by
  intro el k a b _ _
  have := resized_at (L := L) (L' := L') g (l := el) (m := k - (L' - 1))
  rw [show k - (L' - 1) + L' - 1 = k by ring] at this
  rw [this]
  split_ifs with hc
  · obtain ⟨h1, h2⟩ := hc
    rw [abs_lt] at h2
    rw [h el _ a h1 h2.1 h2.2, if_neg (by omega)]
  · rfl

/-- The expansion with the coefficients from degree `L` on set to zero. -/
theorem harmonicSum_extend {L L' s : ℤ} (hLL : L ≤ L') (c : ℤ → ℤ → ℂ) (θ φ : ℝ) :
    harmonicSum 0 L' s (fun l m => if l < L then c l m else 0) θ φ = harmonicSum 0 L s c θ φ := by
  have := harmonicSum_cut (lo := 0) (L := L) (L' := L') (s := s) (c := c)
    (d := fun l m => if l < L then c l m else 0) (fun l m a b _ _ _ => by rw [if_pos b])
    (fun l m a b _ _ => by rw [if_neg (by omega)]) θ φ
  rw [← this, min_eq_left hLL]

theorem realHarmonics_extend {L L' : ℤ} {c : ℤ → ℤ → ℂ} (h : RealHarmonics c 0 L) :
    RealHarmonics (fun l m => if l < L then c l m else 0) 0 L' := by
  intro l m a b hm
  beta_reduce
  split_ifs with hl
  · exact h l m a hl hm
  · simp

end S2fft
