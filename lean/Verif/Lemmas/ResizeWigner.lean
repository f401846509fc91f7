import Verif.Lemmas.Resize
import Verif.Props.C28

/-! # Wigner expansions of resized coefficients -/

namespace S2fft
open Spec

theorem resized3_at {L L' N N' : ℤ} (g : ℤ → ℤ → ℤ → ℂ) {n l m : ℤ} :
    resized3 L L' N N' g (N' - 1 + n) l (m + L' - 1)
      = if |n| < N ∧ l < L ∧ |m| < L then g (N - 1 + n) l (m + L - 1) else 0 := by
  unfold resized3
  rw [show N' - 1 + n - (N' - 1) = n by ring, show n + (N - 1) = N - 1 + n by ring, resized_at]
  by_cases h : |n| < N <;> simp [h]

theorem wignerSum_cut {L L' N N' : ℤ} {c d : ℤ → ℤ → ℤ → ℂ}
    (h : ∀ n l m, |n| < N → |n| < N' → 0 ≤ l → l < L → l < L' → |n| ≤ l → |m| ≤ l → c n l m = d n l m)
    (h0 : ∀ n l m, |n| < N' → 0 ≤ l → l < L' → N ≤ |n| ∨ L ≤ l → |m| ≤ l → d n l m = 0) (α β γ : ℝ) :
    wignerSum 0 (min L L') (min N N') c α β γ = wignerSum 0 L' N' d α β γ := by
  unfold wignerSum
  refine Finset.sum_subset_zero_on_sdiff (fun n hn => ?_) (fun n hn => ?_) (fun n hn => ?_)
  · rw [Finset.mem_Ioo] at hn ⊢
    omega
  · rw [Finset.mem_sdiff, Finset.mem_Ioo, Finset.mem_Ioo] at hn
    refine Finset.sum_eq_zero fun l hl => Finset.sum_eq_zero fun m hm => ?_
    rw [Finset.mem_Ico] at hl hm
    have hn' : N ≤ |n| := by
      by_contra hc
      have := abs_lt.1 (not_le.1 hc)
      omega
    rw [h0 n l m (by rw [abs_lt]; exact hn.1) hl.1 hl.2 (Or.inl hn') (by rw [abs_le]; omega)]
    simp
  · rw [Finset.mem_Ioo] at hn
    refine Finset.sum_subset_zero_on_sdiff (fun l hl => ?_) (fun l hl => ?_) (fun l hl => ?_)
    · rw [Finset.mem_Ico] at hl ⊢
      omega
    · rw [Finset.mem_sdiff, Finset.mem_Ico, Finset.mem_Ico] at hl
      refine Finset.sum_eq_zero fun m hm => ?_
      rw [Finset.mem_Ico] at hm
      rw [h0 n l m (by rw [abs_lt]; omega) hl.1.1 hl.1.2 (Or.inr (by omega)) (by rw [abs_le]; omega)]
      simp
    · rw [Finset.mem_Ico] at hl
      refine Finset.sum_congr rfl fun m hm => ?_
      rw [Finset.mem_Ico] at hm
      by_cases hnl : |n| ≤ l
      · rw [h n l m (by rw [abs_lt]; omega) (by rw [abs_lt]; omega) hl.1 (by omega) (by omega) hnl
          (by rw [abs_le]; omega)]
      · unfold wignerD
        rw [wignerd_outside l m n β (Or.inr (by omega))]
        simp

/-- The coefficients returned by an analysis. -/
def Analysed3 (L N : ℤ) (c g : ℤ → ℤ → ℤ → ℂ) : Prop :=
  ∀ n el m, |n| < N → 0 ≤ el → el < L → -L < m → m < L →
    g (N - 1 + n) el (m + L - 1) = if |n| ≤ el ∧ |m| ≤ el then c n el m else 0

theorem resized3_coeffs {L L' N N' : ℤ} {c g : ℤ → ℤ → ℤ → ℂ} (h : Analysed3 L N c g) {reality : Bool}
    (hre : reality = true → RealWigner c 0 L) (α β γ : ℝ) :
    wignerSum 0 L' N' (wignerCoeffs (resized3 L L' N N' g) L' N' reality) α β γ
      = wignerSum 0 (min L L') (min N N') c α β γ := by
  have val : ∀ n l m, |n| < N → 0 ≤ l → l < L → |n| ≤ l → |m| ≤ l →
      resized3 L L' N N' g (N' - 1 + n) l (m + L' - 1) = c n l m := by
    intro n l m hn a b hnl hm
    rw [resized3_at, if_pos ⟨hn, b, by omega⟩]
    rw [abs_le] at hm
    rw [h n l m hn a b (by omega) (by omega), if_pos ⟨hnl, abs_le.2 hm⟩]
  symm
  refine wignerSum_cut (fun n l m hn hn' a b _ hnl hm => ?_) (fun n l m _ a b hc hm => ?_) α β γ
  · unfold wignerCoeffs
    split_ifs with hr
    · unfold realWignerCoeffs
      split_ifs with hneg
      · beta_reduce
        rw [val (-n) l (-m) (by rwa [abs_neg]) a b (by rwa [abs_neg]) (by rwa [abs_neg])]
        have := hre hr (-n) l (-m) a b (by rwa [abs_neg])
        rw [neg_neg, neg_neg] at this
        rw [this, show -m + -n = -(m + n) by ring, zpow_neg, ← inv_zpow, inv_neg, inv_one]
      · exact (val n l m hn a b hnl hm).symm
    · exact (val n l m hn a b hnl hm).symm
  · have z : ∀ m, resized3 L L' N N' g (N' - 1 + n) l (m + L' - 1) = 0 := fun m => by
      rw [resized3_at, if_neg (by omega)]
    have z' : ∀ m, resized3 L L' N N' g (N' - 1 + -n) l (m + L' - 1) = 0 := fun m => by
      rw [resized3_at, abs_neg, if_neg (by omega)]
    unfold wignerCoeffs
    split_ifs with hr
    · unfold realWignerCoeffs
      simp only [z, z', map_zero, mul_zero, ite_self]
    · exact z m

theorem resized3_plane {L L' N N' : ℤ} {c g : ℤ → ℤ → ℤ → ℂ} (h : Analysed3 L N c g) {reality : Bool}
    (hre : reality = true → RealWigner c 0 L) :
    RealPlane (resized3 L L' N N' g) L' N' reality := by
  intro hr el m a b hm
  have e : ∀ m, resized3 L L' N N' g (N' - 1) el (m + L' - 1)
      = if |(0 : ℤ)| < N ∧ el < L ∧ |m| < L then g (N - 1 + 0) el (m + L - 1) else 0 := fun m => by
    rw [← resized3_at, add_zero]
  rw [e, e, abs_neg]
  split_ifs with hc
  · have hm' := abs_lt.1 hc.2.2
    rw [h 0 el (-m) hc.1 a hc.2.1 (by omega) (by omega), h 0 el m hc.1 a hc.2.1 (by omega) (by omega),
      abs_neg, abs_zero, if_pos ⟨a, hm⟩, if_pos ⟨a, hm⟩]
    have := hre hr 0 el m a hc.2.1 hm
    rw [neg_zero, add_zero] at this
    exact this
  · simp

theorem resized3_low {L L' N N' : ℤ} {c g : ℤ → ℤ → ℤ → ℂ} (h : Analysed3 L N c g) :
    ∀ n el k, -N' < n → n < N' → 0 ≤ el → el < |n| → 0 ≤ k → k < 2 * L' - 1 →
      resized3 L L' N N' g (N' - 1 + n) el k = 0 := by
  intro n el k _ _ a b _ _
  have := resized3_at (L := L) (L' := L') (N := N) (N' := N') g (n := n) (l := el) (m := k - (L' - 1))
  rw [show k - (L' - 1) + L' - 1 = k by ring] at this
  rw [this]
  split_ifs with hc
  · obtain ⟨h0, h1, h2⟩ := hc
    rw [abs_lt] at h2
    rw [h n el _ h0 a h1 h2.1 h2.2, if_neg (by omega)]
  · rfl

theorem wignerSum_extend {L L' N N' : ℤ} (hLL : L ≤ L') (hNN : N ≤ N') (c : ℤ → ℤ → ℤ → ℂ) (α β γ : ℝ) :
    wignerSum 0 L' N' (fun n l m => if |n| < N ∧ l < L then c n l m else 0) α β γ
      = wignerSum 0 L N c α β γ := by
  have := wignerSum_cut (L := L) (L' := L') (N := N) (N' := N') (c := c)
    (d := fun n l m => if |n| < N ∧ l < L then c n l m else 0)
    (fun n l m hn _ a b _ _ _ => by rw [if_pos ⟨hn, b⟩])
    (fun n l m _ a b hc _ => by rw [if_neg (by omega)]) α β γ
  rw [← this, min_eq_left hLL, min_eq_left hNN]

theorem realWigner_extend {L L' N : ℤ} {c : ℤ → ℤ → ℤ → ℂ} (h : RealWigner c 0 L) :
    RealWigner (fun n l m => if |n| < N ∧ l < L then c n l m else 0) 0 L' := by
  intro n l m a b hm
  beta_reduce
  rw [abs_neg]
  split_ifs with hc
  · exact h n l m a hc.2 hm
  · simp

end S2fft
