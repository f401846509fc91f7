import Verif.Props.C12
import Verif.Props.C13
import Verif.Props.C15

/-! # C17: the computed Wigner-d planes are rotations

The planes are what `risbo.compute_full` returns after running through degrees `0, …, l`, and what
`turok.compute_full` returns for degree `l`. -/

namespace S2fft
open Spec

/-- `d` is the plane one of the two recursions returns for degree `l` at the angle `β`. -/
def ComputedPlane (L l : ℤ) (β : ℝ) (d : ℤ → ℤ → ℝ) : Prop :=
  forRangeM 0 (l + 1) (fun el dl => risboFull (2 * L - 1) (2 * L - 1) dl β L el)
      (fun _ _ => 0) = .ok d ∨
    (ExactAngle β ∧ turokFull β l L = .ok d)

/-- There is such a plane at every angle. -/
theorem C17_exists (L l : ℤ) (β : ℝ) (h0 : 0 ≤ l) (hL : l < L) (hβ : 0 ≤ β) (hβ' : β ≤ Real.pi) :
    ∃ d, ComputedPlane L l β d := by
  obtain ⟨d, h, _⟩ := C12_all β L l h0 hL hβ hβ'
  exact ⟨d, Or.inl h⟩

private theorem plane_eq {L l : ℤ} {β : ℝ} {d : ℤ → ℤ → ℝ} (h0 : 0 ≤ l) (hL : l < L) (hβ : 0 ≤ β)
    (hβ' : β ≤ Real.pi) (hd : ComputedPlane L l β d) {m n : ℤ} (hm : |m| < L) (hn : |n| < L) :
    d (m + L - 1) (n + L - 1) = wignerd l m n β := by
  rcases hd with hd | ⟨he, hd⟩
  · obtain ⟨d', h1, h2⟩ := C12_all β L l h0 hL hβ hβ'
    rw [h1] at hd
    rw [← Except.ok.inj hd, h2 m n hm hn]
  · obtain ⟨d', h1, h2⟩ := C13_full β l L hβ hβ' he h0 hL
    rw [h1] at hd
    rw [← Except.ok.inj hd, h2 m n]

private theorem lt_of_Ico {L l k : ℤ} (hL : l < L) (hk : k ∈ Finset.Ico (-l) (l + 1)) : |k| < L := by
  rw [Finset.mem_Ico] at hk
  rw [abs_lt]; omega

/-- Orthogonality of rows and of columns. -/
theorem C17_orthogonal (L l : ℤ) (β : ℝ) (d : ℤ → ℤ → ℝ) (h0 : 0 ≤ l) (hL : l < L) (hβ : 0 ≤ β)
    (hβ' : β ≤ Real.pi) (hd : ComputedPlane L l β d) (m n : ℤ) (hm : |m| ≤ l) (hn : |n| ≤ l) :
    ∑ k ∈ Finset.Ico (-l) (l + 1), d (m + L - 1) (k + L - 1) * d (n + L - 1) (k + L - 1)
        = (if m = n then 1 else 0) ∧
    ∑ k ∈ Finset.Ico (-l) (l + 1), d (k + L - 1) (m + L - 1) * d (k + L - 1) (n + L - 1)
        = (if m = n then 1 else 0) := by
  constructor
  · rw [Finset.sum_congr rfl fun k hk => by
      rw [plane_eq h0 hL hβ hβ' hd (hm.trans_lt hL) (lt_of_Ico hL hk),
        plane_eq h0 hL hβ hβ' hd (hn.trans_lt hL) (lt_of_Ico hL hk)],
      wignerd_orthonormal]
    simp only [hm, true_and]
  · rw [Finset.sum_congr rfl fun k hk => by
      rw [plane_eq h0 hL hβ hβ' hd (lt_of_Ico hL hk) (hm.trans_lt hL),
        plane_eq h0 hL hβ hβ' hd (lt_of_Ico hL hk) (hn.trans_lt hL)],
      wignerd_orthonormal']
    simp only [hm, true_and]

/-- The plane at angle zero is the identity. -/
theorem C17_identity (L l : ℤ) (d : ℤ → ℤ → ℝ) (h0 : 0 ≤ l) (hL : l < L)
    (hd : ComputedPlane L l 0 d) (m n : ℤ) (hm : |m| ≤ l) (hn : |n| ≤ l) :
    d (m + L - 1) (n + L - 1) = if m = n then 1 else 0 := by
  rw [plane_eq h0 hL le_rfl Real.pi_pos.le hd (hm.trans_lt hL) (hn.trans_lt hL), wignerd_at_zero]
  simp only [hm, true_and]

/-- The two reflection symmetries. -/
theorem C17_symmetry (L l : ℤ) (β : ℝ) (d : ℤ → ℤ → ℝ) (h0 : 0 ≤ l) (hL : l < L) (hβ : 0 ≤ β)
    (hβ' : β ≤ Real.pi) (hd : ComputedPlane L l β d) (m n : ℤ) (hm : |m| < L) (hn : |n| < L) :
    d (m + L - 1) (n + L - 1) = (-1) ^ (m - n) * d (-m + L - 1) (-n + L - 1) ∧
    d (m + L - 1) (n + L - 1) = (-1) ^ (m - n) * d (n + L - 1) (m + L - 1) := by
  have e : ((-1 : ℝ)) ^ (m - n) = (-1) ^ (m + n) := negOne_congr ⟨-n, by ring⟩
  rw [plane_eq h0 hL hβ hβ' hd hm hn, plane_eq h0 hL hβ hβ' hd hn hm,
    plane_eq h0 hL hβ hβ' hd (by rwa [abs_neg]) (by rwa [abs_neg]), e]
  refine ⟨?_, wignerd_transpose l m n β⟩
  rw [wignerd_neg_neg, ← mul_assoc, negOne_self, one_mul]

/-- Planes multiply as the rotations do. -/
theorem C17_compose (L l : ℤ) (β₁ β₂ : ℝ) (d₁ d₂ d : ℤ → ℤ → ℝ) (h0 : 0 ≤ l) (hL : l < L)
    (hβ₁ : 0 ≤ β₁) (hβ₂ : 0 ≤ β₂) (hβ : β₁ + β₂ ≤ Real.pi) (hd₁ : ComputedPlane L l β₁ d₁)
    (hd₂ : ComputedPlane L l β₂ d₂) (hd : ComputedPlane L l (β₁ + β₂) d) (m n : ℤ) (hm : |m| ≤ l)
    (hn : |n| ≤ l) :
    ∑ k ∈ Finset.Ico (-l) (l + 1), d₁ (m + L - 1) (k + L - 1) * d₂ (k + L - 1) (n + L - 1)
      = d (m + L - 1) (n + L - 1) := by
  rw [Finset.sum_congr rfl fun k hk => by
      rw [plane_eq h0 hL hβ₁ (by linarith) hd₁ (hm.trans_lt hL) (lt_of_Ico hL hk),
        plane_eq h0 hL hβ₂ (by linarith) hd₂ (lt_of_Ico hL hk) (hn.trans_lt hL)],
    wignerd_mul, plane_eq h0 hL (by linarith) hβ hd (hm.trans_lt hL) (hn.trans_lt hL)]

/-- Risbo, Turok and (at `π/2`) Trapani-Navaza planes are the same. -/
theorem C17_recursions_agree (L l : ℤ) (β : ℝ) (d d' : ℤ → ℤ → ℝ) (h0 : 0 ≤ l) (hL : l < L)
    (hβ : 0 ≤ β) (hβ' : β ≤ Real.pi) (hd : ComputedPlane L l β d)
    (hd' : ComputedPlane L l β d' ∨ β = Real.pi / 2 ∧ ∃ impl d0,
      (impl = implLoop ∨ impl = implVectorized ∨ impl = implJax) ∧
      trapaniInitImpl (fun _ _ => 0) L impl = .ok d0 ∧
      forRangeM 1 (l + 1) (fun el dl => trapaniFull dl L el impl) d0 = .ok d')
    (m n : ℤ) (hm : |m| < L) (hn : |n| < L) :
    d (m + L - 1) (n + L - 1) = d' (m + L - 1) (n + L - 1) := by
  rw [plane_eq h0 hL hβ hβ' hd hm hn]
  rcases hd' with hd' | ⟨rfl, impl, d0, hi, ha, hb⟩
  · rw [plane_eq h0 hL hβ hβ' hd' hm hn]
  · obtain ⟨e0, e, h1, h2, h3⟩ := C15_all L l impl hi h0 hL
    rw [ha] at h1
    obtain rfl := Except.ok.inj h1
    rw [hb] at h2
    obtain rfl := Except.ok.inj h2
    rw [add_sub_assoc, add_sub_assoc, h3 m n hm hn]

/-- A concrete case: degree 1 at a right angle is a computed plane and not the identity. -/
example : ∃ d, ComputedPlane 2 1 (Real.pi / 2) d ∧ d 1 1 = 0 ∧ d 0 0 = 1 / 2 := by
  have hpi := Real.pi_pos
  obtain ⟨d, hd⟩ := C17_exists 2 1 (Real.pi / 2) (by norm_num) (by norm_num) (by linarith)
    (by linarith)
  refine ⟨d, hd, ?_, ?_⟩
  · have := plane_eq (m := 0) (n := 0) (by norm_num) (by norm_num) (by linarith) (by linarith) hd
      (by norm_num) (by norm_num)
    norm_num at this
    rw [this, (wignerd_one _).2.2.2.2.1, Real.cos_pi_div_two]
  · have := plane_eq (m := -1) (n := -1) (by norm_num) (by norm_num) (by linarith) (by linarith) hd
      (by norm_num) (by norm_num)
    norm_num at this
    rw [this, (wignerd_one _).1, Real.cos_sq, mul_div_cancel₀ _ two_ne_zero, Real.cos_pi_div_two]
    norm_num

end S2fft
