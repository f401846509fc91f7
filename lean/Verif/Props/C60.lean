import Verif.Lemmas.RotationDoubleNorm

/-!
# C60: rotations of harmonic coefficients are stable in double precision

`rotate_flms` and `generate_rotate_dls` as compiled in 64-bit mode, with every operation rounded.
-/

namespace S2fft

open Spec Finset

/-- The tables of `generate_rotate_dls` hold the Wigner functions: an entry of degree `l` is in error
by at most `(l+1)^(3/2) / 2^44`, and entries outside `|m|, |n| ≤ l` are zero. -/
theorem C60_planes (F : XlaLib) (L : ℤ) (hL : L ≤ 2 ^ 28) (β : ℝ) (hβ : |β| ≤ 4) (l m n : ℤ)
    (h0 : 0 ≤ l) (hl : l < L) :
    |generateRotateDlsF F L β l (m + L - 1) (n + L - 1) - wignerd l m n β|
        ≤ (l + 1) * √(l + 1) / 2 ^ 44
      ∧ (l < |m| ∨ l < |n| → generateRotateDlsF F L β l (m + L - 1) (n + L - 1) = 0) := by
  have h := generateRotateDlsF_near F h0 hl hL hβ
  exact ⟨h.entry h0 m n, h.2 m n⟩

/-- The last degree of a band limit of a million, at the equator. -/
example : |generateRotateDlsF fusedXlaLib (2 ^ 20) (Real.pi / 2) (2 ^ 20 - 1) (3 + 2 ^ 20 - 1)
    (-7 + 2 ^ 20 - 1) - wignerd (2 ^ 20 - 1) 3 (-7) (Real.pi / 2)| ≤ 1 / 2 ^ 14 := by
  refine (C60_planes fusedXlaLib (2 ^ 20) (by norm_num) (Real.pi / 2) ?_ (2 ^ 20 - 1) 3 (-7)
    (by norm_num) (by norm_num)).1.trans ?_
  · rw [abs_of_nonneg (by positivity)]
    linarith [Real.pi_le_four]
  · have : √((1048576 : ℝ)) = 1024 := by
      rw [show (1048576 : ℝ) = 1024 ^ 2 by norm_num, Real.sqrt_sq (by norm_num)]
    push_cast
    norm_num [this]

/-- **The rotation.** In every degree the computed coefficients differ from those of the rotated
signal by at most `L^(3/2) / 2^42` of the size of that degree. -/
theorem C60_rotate (F : XlaLib) (flm g : ℤ → ℤ → ℂ) (L : ℤ) (hL : L ≤ 2 ^ 28) (α β γ : ℝ)
    (hα : |α| ≤ 8) (hβ : |β| ≤ 4) (hγ : |γ| ≤ 8) (hg : IsRotated L α β γ flm g) (l : ℤ)
    (h0 : 0 ≤ l) (hl : l < L) :
    degreeNorm L (fun l p => rotateFlmsF F flm L (α, β, γ) none l p - g l p) l
      ≤ L * √L / 2 ^ 42 * degreeNorm L flm l + 1 / 2 ^ 900 := by
  obtain ⟨plane, hp, ho⟩ := rotateFlmsF_none F flm (α := α) (γ := γ) h0 hl hL hβ
  exact degreeNorm_of_planes F h0 hl hL hα hγ hp (fun m hm => by rw [ho, if_pos hm]) hg

/-- A signal with two coefficients, turned by angles of every size. -/
example : degreeNorm 4 (fun l p => rotateFlmsF fusedXlaLib
      (fun l p => if l = 3 ∧ (p = 2 ∨ p = 6) then 1 else 0) 4 (-6, 3, 7) none l p
      - rotated (fun l p => if l = 3 ∧ (p = 2 ∨ p = 6) then 1 else 0) 4 (-6) 3 7 l p) 3
    ≤ (4 : ℤ) * √(4 : ℤ) / 2 ^ 42 * degreeNorm 4 (fun l p => if l = 3 ∧ (p = 2 ∨ p = 6) then 1 else 0) 3
      + 1 / 2 ^ 900 :=
  C60_rotate _ _ _ 4 (by norm_num) _ _ _ (by norm_num) (by norm_num) (by norm_num)
    (isRotated_rotated _ _ _ _ _) 3 (by norm_num) (by norm_num)

/-- The same with tables computed beforehand. -/
theorem C60_precomputed (F : XlaLib) (flm g : ℤ → ℤ → ℂ) (L : ℤ) (hL : L ≤ 2 ^ 28) (α β γ : ℝ)
    (hα : |α| ≤ 8) (hβ : |β| ≤ 4) (hγ : |γ| ≤ 8) (hg : IsRotated L α β γ flm g) (l : ℤ)
    (h0 : 0 ≤ l) (hl : l < L) :
    degreeNorm L (fun l p =>
        rotateFlmsF F flm L (α, β, γ) (some (generateRotateDlsF F L β)) l p - g l p) l
      ≤ L * √L / 2 ^ 42 * degreeNorm L flm l + 1 / 2 ^ 900 :=
  degreeNorm_of_planes F h0 hl hL hα hγ (generateRotateDlsF_near F h0 hl hL hβ)
    (fun m hm => by rw [rotateFlmsF_some F flm _ h0 hl, if_pos hm]) hg

/-- Positions that store no coefficient are exactly zero in the result. -/
theorem C60_support (F : XlaLib) (flm : ℤ → ℤ → ℂ) (L : ℤ) (hL : L ≤ 2 ^ 28) (α β γ : ℝ)
    (hβ : |β| ≤ 4) (l m : ℤ) (h0 : 0 ≤ l) (hl : l < L) (hm : l < |m|) :
    rotateFlmsF F flm L (α, β, γ) none l (m + L - 1) = 0
      ∧ ∀ dls, rotateFlmsF F flm L (α, β, γ) (some dls) l (m + L - 1) = 0 := by
  obtain ⟨plane, hp, ho⟩ := rotateFlmsF_none F flm (α := α) (γ := γ) h0 hl hL hβ
  exact ⟨by rw [ho, if_neg (by omega)], fun dls => by
    rw [rotateFlmsF_some F flm _ h0 hl, if_neg (by omega)]⟩

/-- The power of every degree is preserved, up to rounding. -/
theorem C60_power (F : XlaLib) (flm : ℤ → ℤ → ℂ) (L : ℤ) (hL : L ≤ 2 ^ 28) (α β γ : ℝ)
    (hα : |α| ≤ 8) (hβ : |β| ≤ 4) (hγ : |γ| ≤ 8) (l : ℤ) (h0 : 0 ≤ l) (hl : l < L) :
    |degreeNorm L (rotateFlmsF F flm L (α, β, γ) none) l - degreeNorm L flm l|
      ≤ L * √L / 2 ^ 42 * degreeNorm L flm l + 1 / 2 ^ 900 := by
  have h := C60_rotate F flm _ L hL α β γ hα hβ hγ (isRotated_rotated flm L α β γ) l h0 hl
  refine le_trans ?_ h
  rw [← degreeNorm_rotated flm α β γ h0 hl]
  exact degreeNorm_abs_sub_le L _ _ l

/-- Rotating by `(-γ, -β, -α)` undoes the rotation by `(α, β, γ)`, up to rounding. -/
theorem C60_undo (F : XlaLib) (flm : ℤ → ℤ → ℂ) (L : ℤ) (hL : L ≤ 2 ^ 28) (α β γ : ℝ)
    (hα : |α| ≤ 8) (hβ : |β| ≤ 4) (hγ : |γ| ≤ 8) (l : ℤ) (h0 : 0 ≤ l) (hl : l < L) :
    degreeNorm L (fun l p => rotateFlmsF F (rotateFlmsF F flm L (α, β, γ) none) L (-γ, -β, -α) none l p
        - flm l p) l
      ≤ L * √L / 2 ^ 40 * degreeNorm L flm l + 1 / 2 ^ 898 := by
  have h1 := C60_rotate F flm _ L hL α β γ hα hβ hγ (isRotated_rotated flm L α β γ) l h0 hl
  have hp := C60_power F flm L hL α β γ hα hβ hγ l h0 hl
  set out := rotateFlmsF F flm L (α, β, γ) none with ho
  have h2 := C60_rotate F out _ L hL (-γ) (-β) (-α) (by rwa [abs_neg]) (by rwa [abs_neg])
    (by rwa [abs_neg]) (isRotated_rotated out L (-γ) (-β) (-α)) l h0 hl
  have h3 : degreeNorm L (fun l p => rotated out L (-γ) (-β) (-α) l p - flm l p) l
      = degreeNorm L (fun l p => out l p - rotated flm L α β γ l p) l := by
    rw [← degreeNorm_rotated (fun l p => out l p - rotated flm L α β γ l p) (-γ) (-β) (-α) h0 hl]
    apply degreeNorm_congr
    intro m hm
    rw [rotated_sub _ _ _ _ _ h0 hl, C30_undo flm L α β γ l m h0 hl hm]
  have h4 := degreeNorm_add_le L
    (fun l p => rotateFlmsF F out L (-γ, -β, -α) none l p - rotated out L (-γ) (-β) (-α) l p)
    (fun l p => rotated out L (-γ) (-β) (-α) l p - flm l p) l
  simp only [sub_add_sub_cancel] at h4
  refine h4.trans ?_
  rw [h3]
  exact undo_bound hL (by omega) (degreeNorm_nonneg _ _ _) h1 h2 hp

/-- There and back again. -/
example : degreeNorm 4 (fun l p => rotateFlmsF fusedXlaLib (rotateFlmsF fusedXlaLib
      (fun l p => if l = 3 ∧ (p = 2 ∨ p = 6) then 1 else 0) 4 (-6, 3, 7) none) 4 (-7, -3, - -6) none l p
      - (if l = 3 ∧ (p = 2 ∨ p = 6) then 1 else 0)) 3
    ≤ (4 : ℤ) * √(4 : ℤ) / 2 ^ 40 * degreeNorm 4 (fun l p => if l = 3 ∧ (p = 2 ∨ p = 6) then 1 else 0) 3
      + 1 / 2 ^ 898 :=
  C60_undo _ _ 4 (by norm_num) _ _ _ (by norm_num) (by norm_num) (by norm_num) 3 (by norm_num)
    (by norm_num)

end S2fft
