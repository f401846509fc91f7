import Verif.Lemmas.Rotation

/-! # C30: rotation of harmonic coefficients

`rotate_flms` and `generate_rotate_dls`. Coefficient `(l, m)` is stored at `[l, m + L - 1]`. -/

namespace S2fft
open Spec

/-- The harmonic coefficients an array of shape `(L, 2L-1)` stores. -/
def stored (L : ℤ) (flm : ℤ → ℤ → ℂ) : ℤ → ℤ → ℂ := fun l m => flm l (m + L - 1)

/-- `f` rotated without precomputed planes. -/
noncomputable abbrev rotated (flm : ℤ → ℤ → ℂ) (L : ℤ) (α β γ : ℝ) : ℤ → ℤ → ℂ :=
  rotateFlms flm L (α, β, γ) none

/-- The result is the expansion of the rotated signal: its value in the direction `R v`, with
`R = R_z(α) R_y(β) R_z(γ)`, is the value of the given signal in the direction `v`. -/
theorem C30_rotates (flm : ℤ → ℤ → ℂ) (L : ℤ) (α β γ θ φ θ' φ' : ℝ)
    (h : direction θ φ = (euler α β γ).mulVec (direction θ' φ')) :
    harmonicSum 0 L 0 (stored L (rotated flm L α β γ)) θ φ
      = harmonicSum 0 L 0 (stored L flm) θ' φ' := by
  rw [← harmonicSum_euler L (stored L flm) α β γ θ φ θ' φ' h]
  unfold harmonicSum
  apply Finset.sum_congr rfl
  intro l hl
  rw [Finset.mem_Ico] at hl
  apply Finset.sum_congr rfl
  intro m _
  unfold stored
  rw [rotated, rotateFlms_none _ _ _ _ _ _ _ hl.1 hl.2]

/-- The entries with `|m| > l` are zero. -/
theorem C30_support (flm : ℤ → ℤ → ℂ) (L : ℤ) (α β γ : ℝ) (l m : ℤ) (h0 : 0 ≤ l) (h1 : l < L)
    (hm : l < |m|) : rotated flm L α β γ l (m + L - 1) = 0 := by
  rw [rotated, rotateFlms_none _ _ _ _ _ _ _ h0 h1, rotCoef_outside hm]

/-- With the planes `generate_rotate_dls` precomputes for the same `beta` nothing changes. -/
theorem C30_precomputed (flm : ℤ → ℤ → ℂ) (L : ℤ) (α β γ : ℝ) (l m : ℤ) (h0 : 0 ≤ l) (h1 : l < L) :
    rotateFlms flm L (α, β, γ) (some (generateRotateDls L β)) l (m + L - 1)
      = rotated flm L α β γ l (m + L - 1) := by
  rw [rotated, rotateFlms_none _ _ _ _ _ _ _ h0 h1, rotateFlms_some _ _ _ _ _ _
    (fun l m n a b => generateRotateDls_at L β l m n a b) _ _ _ h0 h1]

private theorem exists_direction (v : Fin 3 → ℝ) (hv : v 0 ^ 2 + v 1 ^ 2 + v 2 ^ 2 = 1) :
    ∃ θ φ, direction θ φ = v := by
  have h2 : v 2 ^ 2 ≤ 1 := by nlinarith [sq_nonneg (v 0), sq_nonneg (v 1)]
  have hc := Real.cos_arccos (x := v 2) (by nlinarith) (by nlinarith)
  have hs := Real.sin_arccos (v 2)
  set z : ℂ := ⟨v 0, v 1⟩ with hz
  have hn : ‖z‖ = √(1 - v 2 ^ 2) := by
    rw [Complex.norm_def, Complex.normSq_mk]
    congr 1
    nlinarith
  refine ⟨Real.arccos (v 2), Complex.arg z, ?_⟩
  have h0 : √(1 - v 2 ^ 2) * Real.cos (Complex.arg z) = v 0 := by
    rw [← hn, Complex.norm_mul_cos_arg]
  have h1 : √(1 - v 2 ^ 2) * Real.sin (Complex.arg z) = v 1 := by
    rw [← hn, Complex.norm_mul_sin_arg]
  ext i
  fin_cases i
  · simp [direction, hs, h0]
  · simp [direction, hs, h1]
  · simp [direction, hc]

private theorem rotZ_unit (a : ℝ) (v : Fin 3 → ℝ) :
    (rotZ a).mulVec v 0 ^ 2 + (rotZ a).mulVec v 1 ^ 2 + (rotZ a).mulVec v 2 ^ 2
      = v 0 ^ 2 + v 1 ^ 2 + v 2 ^ 2 := by
  simp [rotZ, Matrix.mulVec, dotProduct, Fin.sum_univ_three]
  linear_combination (v 0 ^ 2 + v 1 ^ 2) * Real.sin_sq_add_cos_sq a

private theorem rotY_unit (a : ℝ) (v : Fin 3 → ℝ) :
    (rotY a).mulVec v 0 ^ 2 + (rotY a).mulVec v 1 ^ 2 + (rotY a).mulVec v 2 ^ 2
      = v 0 ^ 2 + v 1 ^ 2 + v 2 ^ 2 := by
  simp [rotY, Matrix.mulVec, dotProduct, Fin.sum_univ_three]
  linear_combination (v 0 ^ 2 + v 2 ^ 2) * Real.sin_sq_add_cos_sq a

private theorem rotZ_neg (a : ℝ) : rotZ a * rotZ (-a) = 1 := by
  ext i j
  have := Real.sin_sq_add_cos_sq a
  fin_cases i <;> fin_cases j <;> simp [rotZ, Matrix.mul_apply, Fin.sum_univ_three] <;>
    nlinarith

private theorem rotY_neg (a : ℝ) : rotY a * rotY (-a) = 1 := by
  ext i j
  have := Real.sin_sq_add_cos_sq a
  fin_cases i <;> fin_cases j <;> simp [rotY, Matrix.mul_apply, Fin.sum_univ_three] <;>
    nlinarith

private theorem euler_neg (α β γ : ℝ) : euler α β γ * euler (-γ) (-β) (-α) = 1 := by
  unfold euler
  rw [show rotZ α * rotY β * rotZ γ * (rotZ (-γ) * rotY (-β) * rotZ (-α))
      = rotZ α * (rotY β * (rotZ γ * rotZ (-γ)) * rotY (-β)) * rotZ (-α) by
        simp only [Matrix.mul_assoc], rotZ_neg, Matrix.mul_one, rotY_neg, Matrix.mul_one, rotZ_neg]

/-- Every direction is the image of a direction. -/
theorem exists_preimage (α β γ θ φ : ℝ) :
    ∃ θ' φ', direction θ φ = (euler α β γ).mulVec (direction θ' φ') := by
  obtain ⟨θ', φ', h⟩ := exists_direction ((euler (-γ) (-β) (-α)).mulVec (direction θ φ)) (by
    unfold euler
    rw [← Matrix.mulVec_mulVec, ← Matrix.mulVec_mulVec, rotZ_unit, rotY_unit, rotZ_unit]
    simp [direction]
    have := Real.sin_sq_add_cos_sq θ
    have := Real.sin_sq_add_cos_sq φ
    linear_combination (exp := 1) (Real.sin θ) ^ 2 * this + Real.sin_sq_add_cos_sq θ)
  refine ⟨θ', φ', ?_⟩
  rw [h, Matrix.mulVec_mulVec, euler_neg, Matrix.one_mulVec]

/-- Two rotations one after the other are the rotation by the product of the two matrices. -/
theorem C30_compose (flm : ℤ → ℤ → ℂ) (L : ℤ) (α₁ β₁ γ₁ α₂ β₂ γ₂ α β γ : ℝ)
    (h : euler α β γ = euler α₂ β₂ γ₂ * euler α₁ β₁ γ₁) (l m : ℤ) (h0 : 0 ≤ l) (h1 : l < L)
    (hm : |m| ≤ l) :
    rotated (rotated flm L α₁ β₁ γ₁) L α₂ β₂ γ₂ l (m + L - 1)
      = rotated flm L α β γ l (m + L - 1) := by
  refine harmonicSum_inj (lo := 0) (L := L) (s := 0)
    (c := stored L (rotated (rotated flm L α₁ β₁ γ₁) L α₂ β₂ γ₂))
    (c' := stored L (rotated flm L α β γ)) ?_ h0 h1 (by simpa using h0) hm
  intro θ φ
  obtain ⟨θ₂, φ₂, e2⟩ := exists_preimage α₂ β₂ γ₂ θ φ
  obtain ⟨θ₁, φ₁, e1⟩ := exists_preimage α₁ β₁ γ₁ θ₂ φ₂
  rw [C30_rotates _ L α₂ β₂ γ₂ θ φ θ₂ φ₂ e2, C30_rotates _ L α₁ β₁ γ₁ θ₂ φ₂ θ₁ φ₁ e1,
    C30_rotates flm L α β γ θ φ θ₁ φ₁ (by rw [e2, e1, Matrix.mulVec_mulVec, h])]

/-- Zero angles: nothing changes. -/
theorem C30_identity (flm : ℤ → ℤ → ℂ) (L : ℤ) (l m : ℤ) (h0 : 0 ≤ l) (h1 : l < L)
    (hm : |m| ≤ l) : rotated flm L 0 0 0 l (m + L - 1) = flm l (m + L - 1) := by
  refine harmonicSum_inj (lo := 0) (L := L) (s := 0) (c := stored L (rotated flm L 0 0 0))
    (c' := stored L flm) ?_ h0 h1 (by simpa using h0) hm
  intro θ φ
  apply C30_rotates
  have : euler 0 0 0 = 1 := by
    ext i j
    fin_cases i <;> fin_cases j <;> simp [euler, rotZ, rotY, Matrix.mul_apply, Fin.sum_univ_three]
  rw [this, Matrix.one_mulVec]

/-- Rotations about the z-axis add. -/
theorem C30_z (flm : ℤ → ℤ → ℂ) (L : ℤ) (α₁ γ₁ α₂ γ₂ : ℝ) (l m : ℤ) (h0 : 0 ≤ l) (h1 : l < L)
    (hm : |m| ≤ l) :
    rotated (rotated flm L α₁ 0 γ₁) L α₂ 0 γ₂ l (m + L - 1)
      = rotated flm L (α₁ + γ₁ + α₂ + γ₂) 0 0 l (m + L - 1) := by
  apply C30_compose _ _ _ _ _ _ _ _ _ _ _ _ _ _ h0 h1 hm
  have hz : ∀ a b, rotZ a * rotZ b = rotZ (a + b) := by
    intro a b
    ext i j
    fin_cases i <;> fin_cases j <;>
      simp [rotZ, Matrix.mul_apply, Fin.sum_univ_three, Real.cos_add, Real.sin_add] <;> ring
  have h0 : rotY 0 = 1 := by
    ext i j
    fin_cases i <;> fin_cases j <;> simp [rotY]
  unfold euler
  rw [h0, Matrix.mul_one, Matrix.mul_one, Matrix.mul_one, hz, hz, hz, hz]
  congr 1; ring

/-- Rotating by `(-γ, -β, -α)` undoes the rotation by `(α, β, γ)`. -/
theorem C30_undo (flm : ℤ → ℤ → ℂ) (L : ℤ) (α β γ : ℝ) (l m : ℤ) (h0 : 0 ≤ l) (h1 : l < L)
    (hm : |m| ≤ l) :
    rotated (rotated flm L α β γ) L (-γ) (-β) (-α) l (m + L - 1) = flm l (m + L - 1) := by
  rw [C30_compose _ _ _ _ _ _ _ _ 0 0 0 ?_ _ _ h0 h1 hm, C30_identity _ _ _ _ h0 h1 hm]
  have := euler_neg (-γ) (-β) (-α)
  simp only [neg_neg] at this
  rw [this]
  ext i j
  fin_cases i <;> fin_cases j <;> simp [euler, rotZ, rotY, Matrix.mul_apply, Fin.sum_univ_three]

/-- The power of every degree is preserved. -/
theorem C30_power (flm : ℤ → ℤ → ℂ) (L : ℤ) (α β γ : ℝ) (l : ℤ) (h0 : 0 ≤ l) (h1 : l < L) :
    ∑ m ∈ Finset.Ico (-l) (l + 1), Complex.normSq (rotated flm L α β γ l (m + L - 1))
      = ∑ m ∈ Finset.Ico (-l) (l + 1), Complex.normSq (flm l (m + L - 1)) := by
  apply Complex.ofReal_injective
  push_cast
  simp only [← Complex.mul_conj]
  have e : ∀ m, rotated flm L α β γ l (m + L - 1) = cis (-(m * α)) *
      ∑ n ∈ Finset.Ico (-l) (l + 1), (wignerd l m n β : ℂ) * (cis (-(n * γ)) * flm l (n + L - 1)) := by
    intro m
    rw [rotated, rotateFlms_none _ _ _ _ _ _ _ h0 h1, rotCoef, Finset.mul_sum]
    apply Finset.sum_congr rfl
    intro n _
    ring
  set a : ℤ → ℂ := fun n => cis (-(n * γ)) * flm l (n + L - 1) with ha
  have ea : ∀ n, flm l (n + L - 1) * (starRingEnd ℂ) (flm l (n + L - 1))
      = a n * (starRingEnd ℂ) (a n) := by
    intro n
    simp only [ha]
    rw [map_mul, conj_cis]
    linear_combination -(flm l (n + L - 1) * (starRingEnd ℂ) (flm l (n + L - 1)))
      * cis_mul_neg (-(n * γ))
  have em : ∀ m, rotated flm L α β γ l (m + L - 1)
      * (starRingEnd ℂ) (rotated flm L α β γ l (m + L - 1))
      = ∑ n ∈ Finset.Ico (-l) (l + 1), ∑ n' ∈ Finset.Ico (-l) (l + 1),
        a n * (starRingEnd ℂ) (a n') * ((wignerd l m n β * wignerd l m n' β : ℝ) : ℂ) := by
    intro m
    rw [e, map_mul, conj_cis, map_sum]
    rw [show ∀ x y : ℂ, cis (-(m * α)) * x * (cis (- -(m * α)) * y) = x * y from fun x y => by
      linear_combination x * y * cis_mul_neg (-(m * α)), Finset.sum_mul_sum]
    apply Finset.sum_congr rfl
    intro n _
    apply Finset.sum_congr rfl
    intro n' _
    rw [map_mul, Complex.conj_ofReal]
    push_cast; ring
  simp only [em, ea]
  rw [Finset.sum_comm]
  apply Finset.sum_congr rfl
  intro n hn
  rw [Finset.sum_comm]
  have : ∀ n' ∈ Finset.Ico (-l) (l + 1), ∑ m ∈ Finset.Ico (-l) (l + 1),
      a n * (starRingEnd ℂ) (a n') * ((wignerd l m n β * wignerd l m n' β : ℝ) : ℂ)
      = if n = n' then a n * (starRingEnd ℂ) (a n') else 0 := by
    intro n' _
    rw [← Finset.mul_sum, ← Complex.ofReal_sum, wignerd_orthonormal']
    rw [Finset.mem_Ico] at hn
    have : |n| ≤ l := by rw [abs_le]; omega
    simp only [this, true_and]
    split_ifs <;> simp
  rw [Finset.sum_congr rfl this, Finset.sum_ite_eq, if_pos hn]

/-- A rotation that is not the identity: half a turn about the y-axis exchanges the orders `±1` of
degree one. -/
example (flm : ℤ → ℤ → ℂ) : rotated flm 2 0 Real.pi 0 1 (1 + 2 - 1) = flm 1 (-1 + 2 - 1) := by
  rw [rotated, rotateFlms_none _ _ _ _ _ _ _ (by norm_num) (by norm_num), rotCoef]
  rw [show Finset.Ico (-1 : ℤ) (1 + 1) = {-1, 0, 1} by decide, Finset.sum_insert (by decide),
    Finset.sum_insert (by decide), Finset.sum_singleton]
  simp [wignerd_at_pi]

end S2fft
