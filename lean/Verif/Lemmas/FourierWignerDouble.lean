import Verif.Model.FourierWignerDouble
import Verif.Lemmas.FourierWigner
import Verif.Lemmas.PrecomputeWignerDoubleInverse
import Verif.Lemmas.RotationDouble

/-! # The inverse Fourier-Wigner transform in double precision: helper lemmas -/

namespace S2fft
open Spec

/-! ## Columns of the planes -/

theorem OpLe.full_col {el L n : ℤ} (hL : el < L) {X : ℤ → ℤ → ℝ} {e : ℝ}
    (h : OpLe (2 * el + 1) X e) (hn : |n| ≤ el) {g : ℤ → ℝ}
    (hg : ∀ a, |a| ≤ el → g a = X (a + el) (n + el)) (hz : ∀ a, el < |a| → g a = 0) :
    ∑ a ∈ Finset.Ioo (-L) L, g a ^ 2 ≤ e ^ 2 := by
  have hn' := abs_le.1 hn
  have e1 : ∑ a ∈ Finset.Ioo (-L) L, g a ^ 2 = ∑ a ∈ Finset.Ico (-el) (el + 1), g a ^ 2 := by
    symm
    refine Finset.sum_subset (fun x hx => ?_) (fun x _ hx => ?_)
    · rw [Finset.mem_Ico] at hx; rw [Finset.mem_Ioo]; omega
    · rw [Finset.mem_Ico] at hx
      rw [hz x (by rw [lt_abs]; omega)]; norm_num
  have e2 : ∑ a ∈ Finset.Ico (-el) (el + 1), g a ^ 2
      = ∑ k ∈ Finset.Ico 0 (2 * el + 1), X k (n + el) ^ 2 := by
    rw [show Finset.Ico 0 (2 * el + 1) = Finset.Ico (-el + el) (el + 1 + el) by congr 1 <;> ring,
      ← Finset.map_add_right_Ico, Finset.sum_map]
    refine Finset.sum_congr rfl fun a ha => ?_
    rw [Finset.mem_Ico] at ha
    rw [hg a (by rw [abs_le]; omega)]; rfl
  rw [e1, e2]
  exact h.col (i := n + el) (by omega) (by omega)

theorem HoldsNear.full_cols {dl : ℤ → ℤ → ℝ} {β : ℝ} {L el : ℤ} (h0 : 0 ≤ el) (hL : el < L)
    (h : HoldsNear dl L el β) (n : ℤ) :
    ∑ a ∈ Finset.Ioo (-L) L, (dl (a + L - 1) (n + L - 1) - wignerd el a n β) ^ 2 ≤ risboErr el ^ 2 ∧
    ∑ a ∈ Finset.Ioo (-L) L, dl (a + L - 1) (n + L - 1) ^ 2 ≤ (risboErr el + 1) ^ 2 ∧
    ∑ a ∈ Finset.Ioo (-L) L, wignerd el a n β ^ 2 ≤ 1 ^ 2 := by
  have hpos := risboErr_nonneg h0
  by_cases hn : |n| ≤ el
  · have hU := opLe_U (Real.cos_sq_add_sin_sq (β / 2)) (2 * el) (by omega)
    refine ⟨h.1.full_col hL hn (fun a h1 => ?_) (fun a h1 => ?_),
      (h.1.add hU).full_col hL hn (fun a h1 => ?_) (fun a h1 => ?_),
      hU.full_col hL hn (fun a h1 => ?_) (fun a h1 => ?_)⟩
    · rw [wignerd_eq_U, show a + el - el + L - 1 = a + L - 1 by ring,
        show n + el - el + L - 1 = n + L - 1 by ring, add_comm el a, add_comm el n]
    · rw [h.2 a n (Or.inl h1), wignerd_outside _ _ _ _ (Or.inl h1), sub_zero]
    · rw [sub_add_cancel, show a + el - el + L - 1 = a + L - 1 by ring,
        show n + el - el + L - 1 = n + L - 1 by ring]
    · exact h.2 a n (Or.inl h1)
    · rw [wignerd_eq_U, add_comm el a, add_comm el n]
    · exact wignerd_outside _ _ _ _ (Or.inl h1)
  · have hz : ∀ a, dl (a + L - 1) (n + L - 1) = 0 := fun a => h.2 a n (Or.inr (by omega))
    have hw : ∀ a, wignerd el a n β = 0 := fun a => wignerd_outside _ _ _ _ (Or.inr (by omega))
    simp only [hz, hw, sub_zero]
    norm_num
    exact ⟨sq_nonneg _, by positivity⟩

theorem sum_abs_mul_full {S : Finset ℤ} {x y : ℤ → ℝ} {p q : ℝ} (hp : 0 ≤ p) (hq : 0 ≤ q)
    (hx : ∑ a ∈ S, x a ^ 2 ≤ p ^ 2) (hy : ∑ a ∈ S, y a ^ 2 ≤ q ^ 2) :
    ∑ a ∈ S, |x a| * |y a| ≤ p * q := by
  refine le_trans (Real.sum_mul_le_sqrt_mul_sqrt _ _ _) ?_
  simp only [sq_abs]
  exact mul_le_mul (by rw [← Real.sqrt_sq hp]; exact Real.sqrt_le_sqrt hx)
    (by rw [← Real.sqrt_sq hq]; exact Real.sqrt_le_sqrt hy) (Real.sqrt_nonneg _) hp

/-- The products of two columns, in the mean: errors, computed and exact values. -/
theorem HoldsNear.full_products {dl : ℤ → ℤ → ℝ} {β E : ℝ} {L el : ℤ} (h0 : 0 ≤ el) (hL : el < L)
    (h : HoldsNear dl L el β) (hE : risboErr el ≤ E) (hE1 : E ≤ 1 / 16) (m n : ℤ) :
    ∑ a ∈ Finset.Ioo (-L) L, |dl (a + L - 1) (m + L - 1) * dl (a + L - 1) (n + L - 1)
      - wignerd el a m β * wignerd el a n β| ≤ 33 / 16 * E ∧
    ∑ a ∈ Finset.Ioo (-L) L, |dl (a + L - 1) (m + L - 1) * dl (a + L - 1) (n + L - 1)| ≤ 5 / 4 ∧
    ∑ a ∈ Finset.Ioo (-L) L, |wignerd el a m β * wignerd el a n β| ≤ 1 := by
  have hpos := risboErr_nonneg h0
  have hE0 : 0 ≤ E := le_trans hpos hE
  obtain ⟨m1, m2, m3⟩ := h.full_cols h0 hL m
  obtain ⟨n1, n2, n3⟩ := h.full_cols h0 hL n
  have up : ∀ {x y z : ℝ}, 0 ≤ x → x ≤ y → z ≤ x ^ 2 → z ≤ y ^ 2 := fun hx hxy hz =>
    le_trans hz (pow_le_pow_left₀ hx hxy 2)
  have m1' := up hpos hE m1
  have n1' := up hpos hE n1
  have m2' := up (by linarith) (add_le_add_left hE 1) m2
  have n2' := up (by linarith) (add_le_add_left hE 1) n2
  refine ⟨?_, ?_, ?_⟩
  · have a1 := sum_abs_mul_full hE0 (by linarith : 0 ≤ E + 1) m1' n2'
    have a2 := sum_abs_mul_full (by norm_num : (0 : ℝ) ≤ 1) hE0 m3 n1'
    rw [one_mul] at a2
    refine le_trans (Finset.sum_le_sum fun a _ => ?_)
      (le_trans (le_of_eq Finset.sum_add_distrib) (le_trans (add_le_add a1 a2) (by nlinarith)))
    rw [← abs_mul, ← abs_mul]
    refine le_trans (le_of_eq ?_) (abs_add_le _ _)
    congr 1; ring
  · have := sum_abs_mul_full (by linarith : 0 ≤ E + 1) (by linarith : 0 ≤ E + 1) m2' n2'
    simp only [abs_mul]
    refine this.trans ?_
    nlinarith
  · have := sum_abs_mul_full zero_le_one zero_le_one m3 n3
    simpa only [abs_mul, one_mul] using this

/-- Entries of the computed planes. -/
theorem HoldsNear.entry_le {dl : ℤ → ℤ → ℝ} {β E : ℝ} {L el : ℤ} (h0 : 0 ≤ el) (hL : el < L)
    (h : HoldsNear dl L el β) (hE : risboErr el ≤ E) (hE1 : E ≤ 1 / 16) (a n : ℤ) :
    |dl (a + L - 1) (n + L - 1)| ≤ 2 := by
  have hpos := risboErr_nonneg h0
  by_cases ha : |a| < L
  · have := (h.full_cols h0 hL n).2.1
    have h2 := Finset.single_le_sum (f := fun a => dl (a + L - 1) (n + L - 1) ^ 2)
      (fun a _ => sq_nonneg _) (Finset.mem_Ioo.2 (abs_lt.1 ha))
    have h3 := sq_le_sq.1 (h2.trans this)
    rw [abs_of_nonneg (by linarith : 0 ≤ risboErr el + 1)] at h3
    linarith
  · rw [h.2 a n (Or.inl (by omega)), abs_zero]; norm_num

/-! ## The recursion -/

theorem fwStepF_near (F : XlaLib) (method : PyStr) {L el : ℤ} {s : ℤ → ℤ → ℝ} (h0 : 0 ≤ el) (hel : el < L)
    (hL : L ≤ 2 ^ 26) (h : PlanesNear s L el (Real.pi / 2)) :
    ∃ d, fwStepF F method L el s = .ok d ∧ HoldsNear d L el (Real.pi / 2) := by
  obtain ⟨b0, b1, b2, b3⟩ := halfPiF F.toDoubleLib
  unfold fwStepF
  split_ifs
  · refine ⟨risboStepF F.toDoubleLib s (F.fl (F.fl Real.pi / 2)) L el, ?_,
      risboStepF_near F.toDoubleLib h0 (by omega) b2 b3 h⟩
    simp [risboFullF, risboArgChecksF, h0, hel, b0, b1]
  · exact ⟨_, rfl, risboFullJ_near F h0 (by omega) b2 b3 h⟩

theorem planesNear_start (L : ℤ) (β : ℝ) : PlanesNear (fun _ _ => 0) L 0 β := by
  unfold PlanesNear; rw [if_pos rfl]; exact fun _ _ => rfl

/-- Tables whose planes are exact up to the rounding errors of the recursion. -/
def FwTablesNear (P : FwTables) (L : ℤ) : Prop :=
  ∀ l, 0 ≤ l → l < L → HoldsNear (P.delta l) L l (Real.pi / 2)

theorem fourierWignerKernelF_near (F : XlaLib) (method : PyStr) {L : ℤ} (hL : 1 ≤ L) (hL1 : L ≤ 2 ^ 26) :
    ∃ P, fourierWignerKernelF F method L = .ok P ∧ FwTablesNear P L ∧
      P.quads = fwQuadsF F.toFftLib L := by
  unfold fourierWignerKernelF
  obtain ⟨s, e, h⟩ := forRangeM_ind (show (0 : ℤ) ≤ L by omega)
    (fun el (s : (ℤ → ℤ → ℝ) × (ℤ → ℤ → ℤ → ℝ)) => do
      let d ← fwStepF F method L el s.1
      pure (d, setPlane s.2 el d)) (fun _ _ => 0, fun _ _ _ => 0)
    (fun el s => PlanesNear s.1 L el (Real.pi / 2) ∧
      ∀ l, 0 ≤ l → l < el → HoldsNear (s.2 l) L l (Real.pi / 2))
    ⟨planesNear_start L _, fun l h1 h2 => by omega⟩
    (fun el s h1 h2 h3 => by
      obtain ⟨d, e, hd⟩ := fwStepF_near F method h1 h2 hL1 h3.1
      refine ⟨(d, setPlane s.2 el d), by rw [e]; rfl, hd.next h1, ?_⟩
      intro l l0 l1
      show HoldsNear (setPlane s.2 el d l) L l _
      unfold setPlane
      by_cases hl : l = el
      · simp only [if_pos hl]; rw [hl]; exact hd
      · simp only [if_neg hl]; exact h3.2 l l0 (by omega))
  rw [e]
  exact ⟨_, rfl, h.2, rfl⟩

/-! ## One product -/

/-- A product of three factors, two of which are multiplied first. -/
def ProdNear (p q T : ℂ) (τ w : ℝ) : Prop :=
  ‖p * q - T‖ ≤ 8 / 2 ^ 50 * τ + w ∧ ‖p‖ * ‖q‖ ≤ 2 * τ + w

theorem degreeF_mul (F : FftLib) {l : ℤ} (h0 : 0 ≤ l) (h1 : l ≤ 2 ^ 40) (c : ℂ) :
    ‖F.mul c (degreeWeightF F.toDoubleLib l : ℂ) - c * (degreeWeight l : ℂ)‖
      ≤ 3 / 2 ^ 50 * (degreeWeight l * ‖c‖) + 1 / 2 ^ 1000 := by
  have hg := degreeWeight_nonneg h0
  have h2 := degreeWeightF_near F.toDoubleLib h0 h1
  have h3 := F.mul_near c (degreeWeightF F.toDoubleLib l : ℂ)
  have h4 : ‖(degreeWeightF F.toDoubleLib l : ℂ) - (degreeWeight l : ℂ)‖ ≤ degreeWeight l / 2 ^ 50 := by
    rw [← Complex.ofReal_sub, Complex.norm_real]; exact h2
  have h5 : ‖(degreeWeightF F.toDoubleLib l : ℂ)‖ ≤ 2 * degreeWeight l := by
    have := norm_sub_norm_le (degreeWeightF F.toDoubleLib l : ℂ) (degreeWeight l : ℂ)
    rw [Complex.norm_real (degreeWeight l), Real.norm_eq_abs, abs_of_nonneg hg] at this
    have : degreeWeight l / 2 ^ 50 ≤ degreeWeight l := div_le_self hg (by norm_num)
    linarith
  have h6 : ‖c‖ * ‖(degreeWeightF F.toDoubleLib l : ℂ)‖ / 2 ^ 50 ≤ ‖c‖ * (2 * degreeWeight l) / 2 ^ 50 := by
    gcongr
  have h7 : ‖c * ((degreeWeightF F.toDoubleLib l : ℂ) - (degreeWeight l : ℂ))‖
      ≤ ‖c‖ * (degreeWeight l / 2 ^ 50) := by
    rw [norm_mul]; gcongr
  have h8 := norm_add_le (F.mul c (degreeWeightF F.toDoubleLib l : ℂ) - c * (degreeWeightF F.toDoubleLib l : ℂ))
    (c * ((degreeWeightF F.toDoubleLib l : ℂ) - (degreeWeight l : ℂ)))
  rw [show F.mul c (degreeWeightF F.toDoubleLib l : ℂ) - c * (degreeWeightF F.toDoubleLib l : ℂ)
    + c * ((degreeWeightF F.toDoubleLib l : ℂ) - (degreeWeight l : ℂ))
    = F.mul c (degreeWeightF F.toDoubleLib l : ℂ) - c * (degreeWeight l : ℂ) by ring] at h8
  have e : 3 / 2 ^ 50 * (degreeWeight l * ‖c‖) = ‖c‖ * (2 * degreeWeight l) / 2 ^ 50
    + ‖c‖ * (degreeWeight l / 2 ^ 50) := by ring
  rw [e]
  linarith

/-- The product of a factor known up to rounding by an entry of a plane, then by another. -/
theorem prodNear_left (F : FftLib) {x X : ℂ} {y z u : ℝ} (hu : u = 1 / 2 ^ 1000)
    (hx : ‖x - X‖ ≤ 3 / 2 ^ 50 * ‖X‖ + u) (hy : |y| ≤ 2) (hz : |z| ≤ 2) :
    ProdNear (F.mul x y) z (X * y * z) (‖X‖ * |y * z|) (12 * u) := by
  have hu0 : 0 ≤ u := by rw [hu]; positivity
  have h1 := F.mul_near x (y : ℂ)
  rw [← hu, Complex.norm_real, Real.norm_eq_abs] at h1
  have h2 : ‖x‖ ≤ ‖X‖ + (3 / 2 ^ 50 * ‖X‖ + u) := by
    have := norm_sub_norm_le x X
    linarith
  have hX := norm_nonneg X
  have hay := abs_nonneg y
  have haz := abs_nonneg z
  have h3 : ‖F.mul x y - X * y‖ ≤ 5 / 2 ^ 50 * (‖X‖ * |y|) + 4 * u := by
    have e : F.mul x y - X * y = (F.mul x y - x * y) + (x - X) * y := by ring
    rw [e]
    refine (norm_add_le _ _).trans ?_
    rw [norm_mul, Complex.norm_real, Real.norm_eq_abs]
    have a1 : ‖x‖ * |y| / 2 ^ 50 ≤ (‖X‖ + (3 / 2 ^ 50 * ‖X‖ + u)) * |y| / 2 ^ 50 := by gcongr
    have a2 : ‖x - X‖ * |y| ≤ (3 / 2 ^ 50 * ‖X‖ + u) * |y| := by gcongr
    have a3 : u * |y| ≤ u * 2 := by gcongr
    have a4 := mul_nonneg hX hay
    have e1 : (‖X‖ + (3 / 2 ^ 50 * ‖X‖ + u)) * |y| / 2 ^ 50
        = 1 / 2 ^ 50 * (‖X‖ * |y|) + 3 / 2 ^ 100 * (‖X‖ * |y|) + (u * |y|) / 2 ^ 50 := by ring
    have e2 : (3 / 2 ^ 50 * ‖X‖ + u) * |y| = 3 / 2 ^ 50 * (‖X‖ * |y|) + u * |y| := by ring
    rw [e1] at a1
    rw [e2] at a2
    generalize ‖X‖ * |y| = T at *
    generalize u * |y| = v at *
    norm_num at *
    linarith
  have h4 : ‖F.mul x y‖ ≤ ‖X‖ * |y| + (5 / 2 ^ 50 * (‖X‖ * |y|) + 4 * u) := by
    have := norm_sub_norm_le (F.mul x y) (X * y)
    rw [norm_mul, Complex.norm_real, Real.norm_eq_abs] at this
    linarith
  have a4 := mul_nonneg hX hay
  have a5 : u * |z| ≤ u * 2 := by gcongr
  have a6 := mul_nonneg a4 haz
  constructor
  · rw [← sub_mul, norm_mul, Complex.norm_real, Real.norm_eq_abs, abs_mul, ← mul_assoc ‖X‖]
    refine (mul_le_mul_of_nonneg_right h3 haz).trans ?_
    rw [add_mul, mul_assoc (5 / 2 ^ 50 : ℝ), show 4 * u * |z| = 4 * (u * |z|) by ring]
    generalize ‖X‖ * |y| * |z| = T at *
    norm_num
    linarith
  · rw [Complex.norm_real, Real.norm_eq_abs, abs_mul, ← mul_assoc ‖X‖]
    refine (mul_le_mul_of_nonneg_right h4 haz).trans ?_
    rw [add_mul, add_mul, mul_assoc (5 / 2 ^ 50 : ℝ), show 4 * u * |z| = 4 * (u * |z|) by ring]
    generalize ‖X‖ * |y| * |z| = T at *
    norm_num
    linarith

/-- The two entries multiplied first. -/
theorem prodNear_right (F : FftLib) {x X : ℂ} {y z u : ℝ} (hu : u = 1 / 2 ^ 1000)
    (hx : ‖x - X‖ ≤ 3 / 2 ^ 50 * ‖X‖ + u) (hy : |y| ≤ 2) (hz : |z| ≤ 2) :
    ProdNear x (F.mul y z) (X * y * z) (‖X‖ * |y * z|) (12 * u * (1 + ‖X‖)) := by
  have hu0 : 0 ≤ u := by rw [hu]; positivity
  have hu1 : u ≤ 1 := by
    rw [hu, div_le_one (by positivity)]; exact one_le_pow₀ (by norm_num)
  have h1 := F.mul_near (y : ℂ) (z : ℂ)
  rw [← hu, ← norm_mul, ← Complex.ofReal_mul, Complex.norm_real, Real.norm_eq_abs] at h1
  have hX := norm_nonneg X
  have hyz : |y * z| ≤ 4 := by
    rw [abs_mul]
    calc |y| * |z| ≤ 2 * 2 := by gcongr
      _ = 4 := by norm_num
  have hyz0 := abs_nonneg (y * z)
  have h2 : ‖x‖ ≤ ‖X‖ + (3 / 2 ^ 50 * ‖X‖ + u) := by
    have := norm_sub_norm_le x X
    linarith
  have h3 : ‖F.mul y z‖ ≤ |y * z| + (|y * z| / 2 ^ 50 + u) := by
    have := norm_sub_norm_le (F.mul y z) ((y * z : ℝ) : ℂ)
    rw [Complex.norm_real, Real.norm_eq_abs] at this
    linarith
  have p1 := mul_nonneg hX hyz0
  have p2 := mul_nonneg hX hu0
  have p3 : u * |y * z| ≤ u * 4 := by gcongr
  have p4 : u * u ≤ u * 1 := by gcongr
  have p5 : 0 ≤ u * u := mul_nonneg hu0 hu0
  constructor
  · have e : x * F.mul y z - X * y * z = (x - X) * F.mul y z + X * (F.mul y z - ((y * z : ℝ) : ℂ)) := by
      push_cast; ring
    rw [e]
    refine (norm_add_le _ _).trans ?_
    rw [norm_mul, norm_mul]
    have a1 : ‖x - X‖ * ‖F.mul y z‖ ≤ (3 / 2 ^ 50 * ‖X‖ + u) * (|y * z| + (|y * z| / 2 ^ 50 + u)) := by
      gcongr
    have a2 : ‖X‖ * ‖F.mul y z - ((y * z : ℝ) : ℂ)‖ ≤ ‖X‖ * (|y * z| / 2 ^ 50 + u) := by gcongr
    have e1 : (3 / 2 ^ 50 * ‖X‖ + u) * (|y * z| + (|y * z| / 2 ^ 50 + u))
        = 3 / 2 ^ 50 * (‖X‖ * |y * z|) + 3 / 2 ^ 100 * (‖X‖ * |y * z|) + 3 / 2 ^ 50 * (‖X‖ * u)
          + u * |y * z| + (u * |y * z|) / 2 ^ 50 + u * u := by ring
    have e2 : ‖X‖ * (|y * z| / 2 ^ 50 + u) = 1 / 2 ^ 50 * (‖X‖ * |y * z|) + ‖X‖ * u := by ring
    rw [e1] at a1
    rw [e2] at a2
    rw [show 12 * u * (1 + ‖X‖) = 12 * u + 12 * (‖X‖ * u) by ring]
    generalize ‖X‖ * |y * z| = T at *
    generalize ‖X‖ * u = V at *
    generalize u * |y * z| = W at *
    generalize u * u = Z at *
    norm_num at *
    linarith
  · have a1 : ‖x‖ * ‖F.mul y z‖ ≤ (‖X‖ + (3 / 2 ^ 50 * ‖X‖ + u)) * (|y * z| + (|y * z| / 2 ^ 50 + u)) := by
      gcongr
    refine a1.trans ?_
    have e1 : (‖X‖ + (3 / 2 ^ 50 * ‖X‖ + u)) * (|y * z| + (|y * z| / 2 ^ 50 + u))
        = (‖X‖ * |y * z|) * ((1 + 3 / 2 ^ 50) * (1 + 1 / 2 ^ 50)) + (1 + 3 / 2 ^ 50) * (‖X‖ * u)
          + (1 + 1 / 2 ^ 50) * (u * |y * z|) + u * u := by ring
    rw [e1, show 12 * u * (1 + ‖X‖) = 12 * u + 12 * (‖X‖ * u) by ring]
    generalize ‖X‖ * |y * z| = T at *
    generalize ‖X‖ * u = V at *
    generalize u * |y * z| = W at *
    generalize u * u = Z at *
    norm_num at *
    linarith

/-! ## Sums of products -/

theorem einsum3F_near (F : FftLib) (pair : Fin 3) {L : ℤ} (hL : 0 ≤ L) (hL1 : L ≤ 2 ^ 27) {x X : ℤ → ℂ}
    {y z : ℤ → ℝ} {u : ℝ} (hu : u = 1 / 2 ^ 1000)
    (hx : ∀ l, 0 ≤ l → l < L → ‖x l - X l‖ ≤ 3 / 2 ^ 50 * ‖X l‖ + u)
    (hy : ∀ l, 0 ≤ l → l < L → |y l| ≤ 2) (hz : ∀ l, 0 ≤ l → l < L → |z l| ≤ 2) :
    ‖einsum3F F pair L x (fun l => (y l : ℂ)) (fun l => (z l : ℂ))
        - ∑ l ∈ Finset.Ico 0 L, X l * y l * z l‖
      ≤ 12 * L / 2 ^ 50 * (∑ l ∈ Finset.Ico 0 L, ‖X l‖ * |y l * z l|)
        + 36 * u * ∑ l ∈ Finset.Ico 0 L, (1 + ‖X l‖) := by
  have hu0 : 0 ≤ u := by rw [hu]; positivity
  have hL' : (0 : ℝ) ≤ L := by exact_mod_cast hL
  have hL2 : (L : ℝ) ≤ 2 ^ 27 := by exact_mod_cast hL1
  have key : ∀ p q : ℤ → ℂ, (∀ l, 0 ≤ l → l < L →
      ProdNear (p l) (q l) (X l * y l * z l) (‖X l‖ * |y l * z l|) (12 * u * (1 + ‖X l‖))) →
      ‖F.dot L p q - ∑ l ∈ Finset.Ico 0 L, X l * y l * z l‖
      ≤ 12 * L / 2 ^ 50 * (∑ l ∈ Finset.Ico 0 L, ‖X l‖ * |y l * z l|)
        + 36 * u * ∑ l ∈ Finset.Ico 0 L, (1 + ‖X l‖) := by
    intro p q hpq
    by_cases h0 : L = 0
    · subst h0
      have := F.dot_near 0 p q le_rfl
      simpa using this
    have hL3 : (1 : ℝ) ≤ L := by exact_mod_cast (by omega : 1 ≤ L)
    have h1 := F.dot_near L p q hL
    rw [show (L : ℝ) / 2 ^ 1000 = L * u by rw [hu]; ring] at h1
    have h2 : ‖∑ l ∈ Finset.Ico 0 L, p l * q l - ∑ l ∈ Finset.Ico 0 L, X l * y l * z l‖
        ≤ 8 / 2 ^ 50 * (∑ l ∈ Finset.Ico 0 L, ‖X l‖ * |y l * z l|)
          + 12 * u * ∑ l ∈ Finset.Ico 0 L, (1 + ‖X l‖) := by
      rw [← Finset.sum_sub_distrib, Finset.mul_sum, Finset.mul_sum, ← Finset.sum_add_distrib]
      refine (norm_sum_le _ _).trans (Finset.sum_le_sum fun l hl => ?_)
      rw [Finset.mem_Ico] at hl
      exact (hpq l hl.1 hl.2).1
    have h3 : ∑ l ∈ Finset.Ico 0 L, ‖p l‖ * ‖q l‖
        ≤ 2 * (∑ l ∈ Finset.Ico 0 L, ‖X l‖ * |y l * z l|)
          + 12 * u * ∑ l ∈ Finset.Ico 0 L, (1 + ‖X l‖) := by
      rw [Finset.mul_sum, Finset.mul_sum, ← Finset.sum_add_distrib]
      refine Finset.sum_le_sum fun l hl => ?_
      rw [Finset.mem_Ico] at hl
      exact (hpq l hl.1 hl.2).2
    have hT : 0 ≤ ∑ l ∈ Finset.Ico 0 L, ‖X l‖ * |y l * z l| :=
      Finset.sum_nonneg fun _ _ => mul_nonneg (norm_nonneg _) (abs_nonneg _)
    have hW : (L : ℝ) ≤ ∑ l ∈ Finset.Ico 0 L, (1 + ‖X l‖) := by
      have := Finset.sum_le_sum (s := Finset.Ico 0 L) (f := fun _ => (1 : ℝ)) (g := fun l => 1 + ‖X l‖)
        (fun l _ => by have := norm_nonneg (X l); linarith)
      rw [Finset.sum_const, Int.card_Ico, nsmul_eq_mul, mul_one, sub_zero,
        show ((L.toNat : ℕ) : ℝ) = L by exact_mod_cast Int.toNat_of_nonneg hL] at this
      exact this
    have h4 := norm_sub_le_norm_sub_add_norm_sub (F.dot L p q) (∑ l ∈ Finset.Ico 0 L, p l * q l)
      (∑ l ∈ Finset.Ico 0 L, X l * y l * z l)
    generalize ∑ l ∈ Finset.Ico 0 L, p l * q l = A at *
    generalize ∑ l ∈ Finset.Ico 0 L, X l * y l * z l = B at *
    generalize ∑ l ∈ Finset.Ico 0 L, ‖p l‖ * ‖q l‖ = C at *
    generalize ∑ l ∈ Finset.Ico 0 L, ‖X l‖ * |y l * z l| = T at *
    generalize ∑ l ∈ Finset.Ico 0 L, (1 + ‖X l‖) = W at *
    have h5 : (L : ℝ) / 2 ^ 50 * C ≤ L / 2 ^ 50 * (2 * T + 12 * u * W) := by gcongr
    have h6 : (L : ℝ) * u ≤ W * u := by gcongr
    have h7 : (L : ℝ) / 2 ^ 50 * (12 * u * W) ≤ 1 / 12 * (12 * u * W) := by
      have : (0 : ℝ) ≤ W := by linarith
      refine mul_le_mul_of_nonneg_right ?_ (by positivity)
      rw [div_le_div_iff₀ (by norm_num) (by norm_num)]
      norm_num at hL2 ⊢
      linarith
    have h8 : (8 : ℝ) / 2 ^ 50 * T ≤ 8 * L / 2 ^ 50 * T := by gcongr; linarith
    have h9 : 0 ≤ (L : ℝ) / 2 ^ 50 * T := by positivity
    have e1 : (L : ℝ) / 2 ^ 50 * (2 * T + 12 * u * W) = 2 * (L / 2 ^ 50 * T) + L / 2 ^ 50 * (12 * u * W) := by
      ring
    have e2 : 8 * (L : ℝ) / 2 ^ 50 * T = 8 * (L / 2 ^ 50 * T) := by ring
    have e3 : 12 * (L : ℝ) / 2 ^ 50 * T = 12 * (L / 2 ^ 50 * T) := by ring
    have e4 : 0 ≤ u * W := mul_nonneg hu0 (by linarith)
    rw [e1] at h5
    rw [e2] at h8
    rw [e3]
    have e5 : 12 * u * W = 12 * (u * W) := by ring
    have e6 : 36 * u * W = 36 * (u * W) := by ring
    rw [mul_comm W u] at h6
    rw [e5] at h2 h5 h7
    rw [e6]
    clear hu hx
    linarith
  have wk : ∀ {p q T : ℂ} {τ r : ℝ}, 0 ≤ r → ProdNear p q T τ (12 * u) →
      ProdNear p q T τ (12 * u * (1 + r)) := fun {p q T τ r} hr h => by
    have : 12 * u ≤ 12 * u * (1 + r) := le_mul_of_one_le_right (by linarith) (by linarith)
    exact ⟨by linarith [h.1], by linarith [h.2]⟩
  unfold einsum3F
  match pair with
  | 0 =>
    refine key _ _ fun l l0 l1 => wk (norm_nonneg _) ?_
    exact prodNear_left F hu (hx l l0 l1) (hy l l0 l1) (hz l l0 l1)
  | 1 => exact key _ _ fun l l0 l1 => prodNear_right F hu (hx l l0 l1) (hy l l0 l1) (hz l l0 l1)
  | 2 =>
    refine key _ _ fun l l0 l1 => wk (norm_nonneg _) ?_
    have := prodNear_left F hu (hx l l0 l1) (hz l l0 l1) (hy l l0 l1)
    rwa [mul_comm (z l) (y l), mul_right_comm] at this

theorem mulAddF_near (F : FftLib) (v p q : ℂ) :
    ‖mulAddF F v p q - (v + p * q)‖ ≤ 2 / 2 ^ 50 * (‖v‖ + ‖p‖ * ‖q‖) + 2 * (1 / 2 ^ 1000) := by
  have h := F.dot_near 2 (fun i => if i = 0 then v else p) (fun i => if i = 0 then 1 else q) (by norm_num)
  have e : ∀ f : ℤ → ℂ, ∑ k ∈ Finset.Ico 0 2, f k = f 0 + f 1 := fun f => by
    rw [show Finset.Ico (0 : ℤ) 2 = {0, 1} by rfl, Finset.sum_pair (by norm_num)]
  have e' : ∀ f : ℤ → ℝ, ∑ k ∈ Finset.Ico 0 2, f k = f 0 + f 1 := fun f => by
    rw [show Finset.Ico (0 : ℤ) 2 = {0, 1} by rfl, Finset.sum_pair (by norm_num)]
  rw [e, e'] at h
  simp only [if_true, one_ne_zero, if_false, mul_one, norm_one] at h
  unfold mulAddF
  refine h.trans (le_of_eq ?_)
  push_cast; ring

/-- One term more in the sum over the degrees. -/
theorem mulAddF_step (F : FftLib) {el : ℤ} (h0 : 0 ≤ el) (h1 : el ≤ 2 ^ 26) {v V p q T : ℂ}
    {G W τ w : ℝ} (hS : ‖V‖ ≤ G) (hW : 0 ≤ W) (hτ : 0 ≤ τ) (hw : 12 * (1 / 2 ^ 1000) ≤ w)
    (hv : ‖v - V‖ ≤ 12 * el / 2 ^ 50 * (G + W) + 2 * W) (h : ProdNear p q T τ w) :
    ‖mulAddF F v p q - (V + T)‖
      ≤ 12 * (el + 1 : ℤ) / 2 ^ 50 * ((G + τ) + (W + w)) + 2 * (W + w) := by
  have he : (0 : ℝ) ≤ el := by exact_mod_cast h0
  have he1 : (el : ℝ) ≤ 2 ^ 26 := by exact_mod_cast h1
  have hs0 : 0 ≤ G := (norm_nonneg _).trans hS
  have hm := mulAddF_near F v p q
  have hu : (0 : ℝ) ≤ 1 / 2 ^ 1000 := by positivity
  generalize (1 : ℝ) / 2 ^ 1000 = u at *
  have a1 : ‖v‖ ≤ G + ‖v - V‖ := by
    have := norm_sub_norm_le v V
    linarith
  obtain ⟨b1, b2⟩ := h
  have c1 : ‖mulAddF F v p q - (V + T)‖ ≤ ‖mulAddF F v p q - (v + p * q)‖ + (‖v - V‖ + ‖p * q - T‖) := by
    have e : mulAddF F v p q - (V + T) = (mulAddF F v p q - (v + p * q)) + ((v - V) + (p * q - T)) := by
      ring
    rw [e]
    exact (norm_add_le _ _).trans (add_le_add le_rfl (norm_add_le _ _))
  have d1 : 12 * (el : ℝ) / 2 ^ 50 * (G + W) ≤ 1 / 2 * (G + W) := by
    refine mul_le_mul_of_nonneg_right ?_ (by linarith)
    rw [div_le_div_iff₀ (by norm_num) (by norm_num)]
    norm_num at he1 ⊢
    linarith
  have d2 : 0 ≤ 12 * (el : ℝ) / 2 ^ 50 * (τ + w) := by
    have : 0 ≤ w := by linarith
    positivity
  have e1 : 12 * ((el + 1 : ℤ) : ℝ) / 2 ^ 50 * ((G + τ) + (W + w))
      = 12 * (el : ℝ) / 2 ^ 50 * (G + W) + 12 * (el : ℝ) / 2 ^ 50 * (τ + w)
        + 12 / 2 ^ 50 * (G + τ + W + w) := by push_cast; ring
  rw [e1]
  generalize 12 * (el : ℝ) / 2 ^ 50 * (G + W) = A at *
  generalize 12 * (el : ℝ) / 2 ^ 50 * (τ + w) = B at *
  norm_num at *
  linarith

/-! ## The spectrum -/

/-- The sizes of the terms of one coefficient of the spectrum, with planes `Δ`. -/
noncomputable def fwTau (Δ : ℤ → ℤ → ℤ → ℝ) (c : ℤ → ℤ → ℤ → ℂ) (L n m a l : ℤ) : ℝ :=
  degreeWeight l * ‖c n l m‖ * |Δ l (a + L - 1) (m + L - 1) * Δ l (a + L - 1) (n + L - 1)|

theorem fwSpectrumF_near (F : XlaLib) (pair : Fin 3) (method : PyStr) {L N off : ℤ} (h1 : 1 ≤ N)
    (hN : N ≤ L) (hL1 : L ≤ 2 ^ 26) {E : ℝ} (hE : Covers L E) (flmn : ℤ → ℤ → ℤ → ℂ)
    {precomps : Option FwTables} (hP : ∀ P, precomps = some P → FwTablesNear P L) (reality : Bool)
    {c : ℤ → ℤ → ℤ → ℂ} (hc : c = fun n l m => flmn (N - 1 + n) l (m + L - 1)) :
    ∃ x Δ, fwSpectrumF F pair method flmn L N off precomps reality = .ok x ∧
      (∀ l, 0 ≤ l → l < L → HoldsNear (Δ l) L l (Real.pi / 2)) ∧
      (∀ a m k, a < off ∨ m < off → x a m k = 0) ∧
      ∀ a m n, -L < a → -L < m → nFirst N reality ≤ n → n < N →
        ‖x (a + L - 1 + off) (m + L - 1 + off) (n - nFirst N reality)
          - ∑ l ∈ Finset.Ico 0 L, c n l m * (degreeWeight l : ℂ) * (Δ l (a + L - 1) (m + L - 1) : ℂ)
              * (Δ l (a + L - 1) (n + L - 1) : ℂ)‖
          ≤ 12 * L / 2 ^ 50 * (∑ l ∈ Finset.Ico 0 L, fwTau Δ c L n m a l)
            + 36 * (1 / 2 ^ 1000) * (L + planeSize c L n m) := by
  have hL : 1 ≤ L := h1.trans hN
  have hL2 : (L : ℝ) ≤ 2 ^ 26 := by exact_mod_cast hL1
  obtain ⟨cols, ec, hcol⟩ := fwColumns_ok method h1 hN reality
  have hns := nStart_eq N reality
  have hnorm : ∀ n l m, 0 ≤ l → ‖c n l m * (degreeWeight l : ℂ)‖ = degreeWeight l * ‖c n l m‖ :=
    fun n l m h => by
      rw [norm_mul, Complex.norm_real, Real.norm_eq_abs, abs_of_nonneg (degreeWeight_nonneg h), mul_comm]
  have hx : ∀ n l m, 0 ≤ l → l < L → ‖F.mul (c n l m) (degreeWeightF F.toDoubleLib l : ℂ)
      - c n l m * (degreeWeight l : ℂ)‖ ≤ 3 / 2 ^ 50 * ‖c n l m * (degreeWeight l : ℂ)‖ + 1 / 2 ^ 1000 :=
    fun n l m l0 l1 => by
      rw [hnorm n l m l0]
      exact degreeF_mul F.toFftLib l0 (by omega) _
  have hcap : ∀ n m el, 0 ≤ el → ∑ l ∈ Finset.Ico 0 el, (1 + ‖c n l m * (degreeWeight l : ℂ)‖)
      = el + planeSize c el n m := fun n m el h => by
    unfold planeSize
    rw [Finset.sum_add_distrib, Finset.sum_const, Int.card_Ico, nsmul_eq_mul, mul_one, sub_zero,
        show ((el.toNat : ℕ) : ℝ) = el by exact_mod_cast Int.toNat_of_nonneg h]
    congr 1
    exact Finset.sum_congr rfl fun l hl => hnorm n l m (Finset.mem_Ico.1 hl).1
  unfold fwSpectrumF
  rw [ec]
  simp only [bind, Except.bind]
  cases precomps with
  | some P =>
    have hP := hP P rfl
    refine ⟨_, P.delta, rfl, hP, fun a m k h => if_neg (by omega), fun a m n a0 m0 n0 n1 => ?_⟩
    beta_reduce
    rw [if_pos ⟨by omega, by omega⟩]
    have := einsum3F_near F.toFftLib pair (by omega) (by omega) (u := 1 / 2 ^ 1000) rfl
      (x := fun l => F.mul (c n l m) (degreeWeightF F.toDoubleLib l : ℂ))
      (X := fun l => c n l m * (degreeWeight l : ℂ)) (y := fun l => P.delta l (a + L - 1) (m + L - 1))
      (z := fun l => P.delta l (a + L - 1) (n + L - 1)) (fun l => hx n l m)
      (fun l l0 l1 => (hP l l0 l1).entry_le l0 l1 (hE.1 l l0 l1) hE.2.2 a m)
      (fun l l0 l1 => (hP l l0 l1).entry_le l0 l1 (hE.1 l l0 l1) hE.2.2 a n)
    rw [hcol _ (by omega) (by rw [nDim_eq]; omega), add_sub_cancel_right, add_sub_cancel_right,
      show nFirst N reality + (n - nFirst N reality) = n by ring,
      show nStart N reality + (n - nFirst N reality) = N - 1 + n by omega]
    rw [hcap n m L (by omega)] at this
    have e : ∑ l ∈ Finset.Ico 0 L, ‖c n l m * (degreeWeight l : ℂ)‖
        * |P.delta l (a + L - 1) (m + L - 1) * P.delta l (a + L - 1) (n + L - 1)|
        = ∑ l ∈ Finset.Ico 0 L, fwTau P.delta c L n m a l :=
      Finset.sum_congr rfl fun l hl => by
        unfold fwTau; rw [hnorm n l m (Finset.mem_Ico.1 hl).1]
    rw [e] at this
    simp only [hc] at this ⊢
    exact this
  | none =>
    simp only
    obtain ⟨s, e, h⟩ := forRangeM_ind (show (0 : ℤ) ≤ L by omega)
      (fun el (s : (ℤ → ℤ → ℝ) × (ℤ → ℤ → ℤ → ℂ)) => do
        let d ← fwStepF F method L el s.1
        pure (d, fun a m k => if off ≤ a ∧ off ≤ m then
          mulAddF F.toFftLib (s.2 a m k)
            (F.mul (F.mul (flmn (nStart N reality + k) el (m - off)) (degreeWeightF F.toDoubleLib el : ℂ))
              (d (a - off) (m - off) : ℂ)) (d (a - off) (cols k) : ℂ)
          else s.2 a m k)) (fun _ _ => 0, fun _ _ _ => 0)
      (fun el s => PlanesNear s.1 L el (Real.pi / 2) ∧
        (∀ a m k, a < off ∨ m < off → s.2 a m k = 0) ∧
        ∃ Δ : ℤ → ℤ → ℤ → ℝ, (∀ l, 0 ≤ l → l < el → HoldsNear (Δ l) L l (Real.pi / 2)) ∧
        ∀ a m n, -L < a → -L < m → nFirst N reality ≤ n → n < N →
          ‖s.2 (a + L - 1 + off) (m + L - 1 + off) (n - nFirst N reality)
            - ∑ l ∈ Finset.Ico 0 el, c n l m * (degreeWeight l : ℂ) * (Δ l (a + L - 1) (m + L - 1) : ℂ)
              * (Δ l (a + L - 1) (n + L - 1) : ℂ)‖
          ≤ 12 * el / 2 ^ 50 * (∑ l ∈ Finset.Ico 0 el, fwTau Δ c L n m a l
              + ∑ l ∈ Finset.Ico 0 el, 12 * (1 / 2 ^ 1000) * (1 + ‖c n l m * (degreeWeight l : ℂ)‖))
            + 2 * ∑ l ∈ Finset.Ico 0 el, 12 * (1 / 2 ^ 1000) * (1 + ‖c n l m * (degreeWeight l : ℂ)‖))
      ⟨planesNear_start L _, fun _ _ _ _ => rfl, fun _ _ _ => 0, fun l a b => by omega,
        fun a m n _ _ _ _ => by simp⟩
      (fun el s e0 e1 h3 => by
        obtain ⟨d, e, hd⟩ := fwStepF_near F method e0 e1 hL1 h3.1
        obtain ⟨Δ, hΔ, hv⟩ := h3.2.2
        obtain ⟨Δ', hΔ'⟩ : ∃ Δ', Δ' = fun l => if l = el then d else Δ l := ⟨_, rfl⟩
        have hel : Δ' el = d := by rw [hΔ']; simp only [if_true]
        have hne : ∀ l, l < el → Δ' l = Δ l := fun l hl => by
          rw [hΔ']; simp only [if_neg (by omega : ¬ l = el)]
        refine ⟨(d, _), by rw [e]; rfl, hd.next e0, fun a m k h => ?_, Δ', fun l l0 l1 => ?_,
          fun a m n a0 m0 n0 n1 => ?_⟩
        · simp only
          rw [if_neg (by omega)]; exact h3.2.1 a m k h
        · by_cases hl : l = el
          · rw [hl, hel]; exact hd
          · rw [hne l (by omega)]; exact hΔ l l0 (by omega)
        · simp only
          rw [if_pos ⟨by omega, by omega⟩, sum_Ico_succ_top' e0, sum_Ico_succ_top' e0,
            sum_Ico_succ_top' e0, hcol _ (by omega) (by rw [nDim_eq]; omega), add_sub_cancel_right,
            add_sub_cancel_right, show nFirst N reality + (n - nFirst N reality) = n by ring,
            show nStart N reality + (n - nFirst N reality) = N - 1 + n by omega]
          have s1 : ∑ l ∈ Finset.Ico 0 el, c n l m * (degreeWeight l : ℂ)
                * (Δ' l (a + L - 1) (m + L - 1) : ℂ) * (Δ' l (a + L - 1) (n + L - 1) : ℂ)
              = ∑ l ∈ Finset.Ico 0 el, c n l m * (degreeWeight l : ℂ)
                * (Δ l (a + L - 1) (m + L - 1) : ℂ) * (Δ l (a + L - 1) (n + L - 1) : ℂ) :=
            Finset.sum_congr rfl fun l hl => by rw [hne l (Finset.mem_Ico.1 hl).2]
          have s2 : ∑ l ∈ Finset.Ico 0 el, fwTau Δ' c L n m a l = ∑ l ∈ Finset.Ico 0 el, fwTau Δ c L n m a l :=
            Finset.sum_congr rfl fun l hl => by unfold fwTau; rw [hne l (Finset.mem_Ico.1 hl).2]
          have hpn := prodNear_left F.toFftLib (u := 1 / 2 ^ 1000) rfl (hx n el m e0 e1)
            (hd.entry_le e0 e1 (hE.1 el e0 e1) hE.2.2 a m) (hd.entry_le e0 e1 (hE.1 el e0 e1) hE.2.2 a n)
          have hu : (0 : ℝ) ≤ 12 * (1 / 2 ^ 1000) := by positivity
          have hge : 12 * (1 / 2 ^ 1000 : ℝ) ≤ 12 * (1 / 2 ^ 1000) * (1 + ‖c n el m * (degreeWeight el : ℂ)‖) :=
            le_mul_of_one_le_right hu (by have := norm_nonneg (c n el m * (degreeWeight el : ℂ)); linarith)
          have hst := mulAddF_step F.toFftLib e0 (by omega)
            (v := s.2 (a + L - 1 + off) (m + L - 1 + off) (n - nFirst N reality))
            (G := ∑ l ∈ Finset.Ico 0 el, fwTau Δ c L n m a l)
            (W := ∑ l ∈ Finset.Ico 0 el, 12 * (1 / 2 ^ 1000) * (1 + ‖c n l m * (degreeWeight l : ℂ)‖))
            (τ := fwTau Δ' c L n m a el)
            (w := 12 * (1 / 2 ^ 1000) * (1 + ‖c n el m * (degreeWeight el : ℂ)‖))
            (by
              refine (norm_sum_le _ _).trans (Finset.sum_le_sum fun l hl => ?_)
              rw [mul_assoc, norm_mul, hnorm n l m (Finset.mem_Ico.1 hl).1, ← Complex.ofReal_mul,
                Complex.norm_real, Real.norm_eq_abs]
              exact le_rfl)
            (Finset.sum_nonneg fun l _ => mul_nonneg hu (by
              have := norm_nonneg (c n l m * (degreeWeight l : ℂ)); linarith))
            (by
              unfold fwTau
              exact mul_nonneg (mul_nonneg (degreeWeight_nonneg e0) (norm_nonneg _)) (abs_nonneg _))
            hge (hv a m n a0 m0 n0 n1)
            (p := F.mul (F.mul (c n el m) (degreeWeightF F.toDoubleLib el : ℂ)) (d (a + L - 1) (m + L - 1) : ℂ))
            (q := (d (a + L - 1) (n + L - 1) : ℂ))
            (T := c n el m * (degreeWeight el : ℂ) * (d (a + L - 1) (m + L - 1) : ℂ)
              * (d (a + L - 1) (n + L - 1) : ℂ))
            (by
              unfold fwTau
              rw [hel, ← hnorm n el m e0]
              exact ⟨hpn.1.trans (by linarith), hpn.2.trans (by linarith)⟩)
          rw [s1, s2, hel]
          simp only [hc] at hst ⊢
          exact hst)
    simp only [bind, Except.bind] at e
    rw [e]
    obtain ⟨hp, hz, Δ, hΔ, hv⟩ := h
    refine ⟨_, Δ, rfl, hΔ, hz, fun a m n a0 m0 n0 n1 => (hv a m n a0 m0 n0 n1).trans ?_⟩
    rw [← Finset.mul_sum, hcap n m L (by omega)]
    have hS := planeSize_nonneg c L n m
    have hL' : (1 : ℝ) ≤ L := by exact_mod_cast hL
    have hu : (0 : ℝ) ≤ 1 / 2 ^ 1000 := by positivity
    generalize (1 : ℝ) / 2 ^ 1000 = u at *
    have h5 : 0 ≤ u * (L + planeSize c L n m) := mul_nonneg hu (by linarith)
    have h6 : 12 * (L : ℝ) / 2 ^ 50 * (12 * u * (L + planeSize c L n m))
        ≤ 1 * (12 * u * (L + planeSize c L n m)) := by
      refine mul_le_mul_of_nonneg_right ?_ (by linarith)
      rw [div_le_one (by norm_num)]
      norm_num at hL2 ⊢
      linarith
    rw [mul_add]
    linarith

end S2fft
