import Verif.Props.C30
import Verif.Lemmas.RotationDouble
import Verif.Lemmas.PrecomputeDoubleForward
import Verif.Lemmas.LinearWigner

/-!
# Rotations in double precision: norms of degrees
-/

namespace S2fft

open Spec Finset

/-- A rotated signal determines its coefficients. -/
theorem isRotated_eq {L : ℤ} {α β γ : ℝ} {f g : ℤ → ℤ → ℂ} (h : IsRotated L α β γ f g) {l m : ℤ}
    (h0 : 0 ≤ l) (hl : l < L) (hm : |m| ≤ l) :
    g l (m + L - 1) = rotCoef α β γ (fun l n => f l (n + L - 1)) l m := by
  rw [← rotateFlms_none f L α β γ l m h0 hl]
  refine harmonicSum_inj (lo := 0) (L := L) (s := 0) (c := fun l m => g l (m + L - 1))
    (c' := stored L (rotated f L α β γ)) ?_ h0 hl (by simpa using h0) hm
  intro θ φ
  obtain ⟨θ', φ', e⟩ := exists_preimage α β γ θ φ
  rw [h θ φ θ' φ' e, C30_rotates f L α β γ θ φ θ' φ' e]
  rfl

theorem degreeNorm_of_planes (F : XlaLib) {L l : ℤ} {α β γ : ℝ} {plane : ℤ → ℤ → ℝ}
    {flm g out : ℤ → ℤ → ℂ} (h0 : 0 ≤ l) (hl : l < L) (hL : L ≤ 2 ^ 28) (hα : |α| ≤ 8)
    (hγ : |γ| ≤ 8) (hp : HoldsNear plane L l β)
    (ho : ∀ m, |m| ≤ l → out l (m + L - 1) = rotateDegreeF F.toFftLib plane
      (expArrayF F.toFftLib L α) (expArrayF F.toFftLib L γ) flm L l m)
    (hg : IsRotated L α β γ flm g) :
    degreeNorm L (fun l p => out l p - g l p) l
      ≤ L * √L / 2 ^ 42 * degreeNorm L flm l + 1 / 2 ^ 900 := by
  rw [degreeNorm_eq, degreeNorm_eq]
  have := rotateDegreeF_l2 F.toFftLib h0 hl hL hα hγ hp flm
  refine le_trans (le_of_eq ?_) this
  apply l2_congr
  intro k hk
  rw [mem_Ico] at hk
  have : |k - l| ≤ l := by rw [abs_le]; omega
  rw [ho _ this, isRotated_eq hg h0 hl this]

theorem degreeNorm_nonneg (L : ℤ) (f : ℤ → ℤ → ℂ) (l : ℤ) : 0 ≤ degreeNorm L f l :=
  Real.sqrt_nonneg _

theorem degreeNorm_congr {L : ℤ} {f g : ℤ → ℤ → ℂ} {l : ℤ}
    (h : ∀ m, |m| ≤ l → f l (m + L - 1) = g l (m + L - 1)) : degreeNorm L f l = degreeNorm L g l := by
  unfold degreeNorm
  rw [sum_congr rfl fun m hm => ?_]
  rw [mem_Ico] at hm
  rw [h m (by rw [abs_le]; omega)]

theorem degreeNorm_add_le (L : ℤ) (f g : ℤ → ℤ → ℂ) (l : ℤ) :
    degreeNorm L (fun l p => f l p + g l p) l ≤ degreeNorm L f l + degreeNorm L g l := by
  rw [degreeNorm_eq, degreeNorm_eq, degreeNorm_eq]
  exact l2_add _ _ _

theorem degreeNorm_rotated (flm : ℤ → ℤ → ℂ) {L l : ℤ} (α β γ : ℝ) (h0 : 0 ≤ l) (hl : l < L) :
    degreeNorm L (rotated flm L α β γ) l = degreeNorm L flm l := by
  unfold degreeNorm
  have := C30_power flm L α β γ l h0 hl
  simp only [Complex.normSq_eq_norm_sq] at this
  rw [this]

theorem isRotated_rotated (flm : ℤ → ℤ → ℂ) (L : ℤ) (α β γ : ℝ) :
    IsRotated L α β γ flm (rotated flm L α β γ) :=
  fun θ φ θ' φ' h => C30_rotates flm L α β γ θ φ θ' φ' h

theorem rotated_sub (f g : ℤ → ℤ → ℂ) {L l m : ℤ} (α β γ : ℝ) (h0 : 0 ≤ l) (hl : l < L) :
    rotated (fun l p => f l p - g l p) L α β γ l (m + L - 1)
      = rotated f L α β γ l (m + L - 1) - rotated g L α β γ l (m + L - 1) := by
  unfold rotated
  rw [rotateFlms_none _ _ _ _ _ _ _ h0 hl, rotateFlms_none _ _ _ _ _ _ _ h0 hl,
    rotateFlms_none _ _ _ _ _ _ _ h0 hl]
  have := rotCoef_lin 1 (-1) α β γ (fun l n => f l (n + L - 1)) (fun l n => g l (n + L - 1)) l m
  simp only [one_mul, neg_one_mul, ← sub_eq_add_neg] at this
  exact this

theorem degreeNorm_neg (L : ℤ) (f : ℤ → ℤ → ℂ) (l : ℤ) :
    degreeNorm L (fun l p => -f l p) l = degreeNorm L f l := by
  unfold degreeNorm
  simp only [norm_neg]

theorem degreeNorm_abs_sub_le (L : ℤ) (f g : ℤ → ℤ → ℂ) (l : ℤ) :
    |degreeNorm L f l - degreeNorm L g l| ≤ degreeNorm L (fun l p => f l p - g l p) l := by
  have h1 := degreeNorm_add_le L (fun l p => f l p - g l p) g l
  have h2 := degreeNorm_add_le L (fun l p => -(f l p - g l p)) f l
  rw [degreeNorm_neg L (fun l p => f l p - g l p)] at h2
  simp only [sub_add_cancel, neg_sub] at h1 h2
  rw [abs_sub_le_iff]
  constructor
  · linarith
  · linarith

theorem undo_bound {L : ℤ} (hL : L ≤ 2 ^ 28) (h0 : 0 ≤ L) {x y a b : ℝ} (hx : 0 ≤ x)
    (h1 : a ≤ L * √L / 2 ^ 42 * x + 1 / 2 ^ 900) (h2 : b ≤ L * √L / 2 ^ 42 * y + 1 / 2 ^ 900)
    (hp : |y - x| ≤ L * √L / 2 ^ 42 * x + 1 / 2 ^ 900) :
    b + a ≤ L * √L / 2 ^ 40 * x + 1 / 2 ^ 898 := by
  have hL' : (L : ℝ) ≤ 2 ^ 28 := by exact_mod_cast hL
  have h0' : (0 : ℝ) ≤ L := by exact_mod_cast h0
  have hs : √(L : ℝ) ≤ 2 ^ 14 := by
    rw [Real.sqrt_le_iff]; constructor
    · positivity
    · rw [← pow_mul]; exact hL'
  have hε : L * √L / 2 ^ 42 ≤ 1 := by
    rw [div_le_one (by positivity)]
    calc (L : ℝ) * √L ≤ 2 ^ 28 * 2 ^ 14 := mul_le_mul hL' hs (Real.sqrt_nonneg _) (by positivity)
      _ = 2 ^ 42 := by rw [← pow_add]
  have hε0 : 0 ≤ L * √L / 2 ^ 42 := by positivity
  have e1 : L * √L / 2 ^ 40 = 4 * (L * √L / 2 ^ 42) := by ring
  have e2 : (1 : ℝ) / 2 ^ 898 = 4 * (1 / 2 ^ 900) := by
    rw [show (900 : ℕ) = 898 + 2 by norm_num, pow_add]
    generalize (2 : ℝ) ^ 898 = t
    rw [← div_div]; ring
  rw [e1, e2]
  have ht : (0 : ℝ) ≤ 1 / 2 ^ 900 := by positivity
  generalize (1 : ℝ) / 2 ^ 900 = t at *
  generalize L * √L / 2 ^ 42 = ε at *
  have hy : y ≤ x + (ε * x + t) := by linarith [(abs_le.1 hp).2]
  have := mul_le_mul_of_nonneg_left hy hε0
  have a1 : ε * (ε * x) ≤ 1 * (ε * x) := mul_le_mul_of_nonneg_right hε (by positivity)
  have a2 : ε * t ≤ 1 * t := mul_le_mul_of_nonneg_right hε ht
  have a3 : 0 ≤ ε * x := by positivity
  rw [mul_add, mul_add] at this
  linarith

/-- A library whose compiler contracts every product and sum, and divides by multiplying. -/
noncomputable def fusedXlaLib : XlaLib where
  toFftLib := exactFftLib
  mulAdd _ v a b := exactFftLib.fl (v + a * b)
  quot _ x y := exactFftLib.fl (x * exactFftLib.fl (1 / y))
  mulAdd_is _ _ _ _ := Or.inr rfl
  quot_is _ _ _ := Or.inr rfl

end S2fft
