import Verif.Lemmas.PrecomputeDouble
import Verif.Lemmas.DhWeights

/-! # The Driscoll-Healy weights in double precision -/

namespace S2fft
open Spec

/-- The partial sums of the weights. -/
noncomputable def dhSum (θ : ℝ) (k : ℤ) : ℝ :=
  ∑ i ∈ Finset.Ico 0 k, Real.sin ((2 * (i : ℝ) + 1) * θ) / (2 * i + 1)

theorem dhSum_succ {k : ℤ} (h : 0 ≤ k) (θ : ℝ) :
    dhSum θ (k + 1) = dhSum θ k + Real.sin ((2 * (k : ℝ) + 1) * θ) / (2 * k + 1) := by
  unfold dhSum
  rw [sum_Ico_succ_top' h]

theorem quad_weight_dh_eq (θ : ℝ) (L : ℤ) :
    quad_weight_dh_theta_only θ L = dhSum θ L * (2 / (L : ℝ) * Real.sin θ) := by
  unfold quad_weight_dh_theta_only dhSum
  refine congrArg (· * _) ?_
  refine (forRange_sum _ _ _ _ (fun x : ℝ => x) (fun k => Real.sin ((2 * (k : ℝ) + 1) * θ) / (2 * k + 1))
    (fun k w _ _ => rfl)).trans (zero_add _)

theorem dhSum_le {k : ℤ} (h : 0 ≤ k) (θ : ℝ) : |dhSum θ k| ≤ √(k : ℝ) := by
  obtain ⟨n, rfl⟩ := Int.eq_ofNat_of_zero_le h
  clear h
  induction n with
  | zero => simp [dhSum]
  | succ n ih =>
    rw [Nat.cast_succ, dhSum_succ (by omega)]
    have hn : n = 0 ∨ (1 : ℝ) ≤ n := by
      rcases Nat.eq_zero_or_pos n with h | h
      · exact Or.inl h
      · exact Or.inr (by exact_mod_cast h)
    have hn0 : (0 : ℝ) ≤ n := Nat.cast_nonneg n
    have h1 : |Real.sin ((2 * ((n : ℤ) : ℝ) + 1) * θ) / (2 * ((n : ℤ) : ℝ) + 1)| ≤ 1 / (2 * n + 1) := by
      push_cast
      rw [abs_div, abs_of_pos (by linarith : 0 < 2 * (n : ℝ) + 1)]
      exact div_le_div_of_nonneg_right (Real.abs_sin_le_one _) (by linarith)
    refine le_trans (abs_add_le _ _) (le_trans (add_le_add ih h1) ?_)
    push_cast
    rcases hn with h0 | h0
    · rw [h0]; simp
    · generalize (n : ℝ) = x at *
      have a1 := Real.mul_self_sqrt hn0
      have a2 := Real.mul_self_sqrt (by linarith : 0 ≤ x + 1)
      have a3 := Real.sqrt_nonneg x
      have a4 := Real.sqrt_nonneg (x + 1)
      have a5 : √x ≤ (x + 1) / 2 := by nlinarith [sq_nonneg (√x - 1)]
      have a6 : √(x + 1) ≤ (x + 2) / 2 := by nlinarith [sq_nonneg (√(x + 1) - 1)]
      have a7 : √x ≤ √(x + 1) := Real.sqrt_le_sqrt (by linarith)
      have a8 : (√(x + 1) - √x) * (√(x + 1) + √x) = 1 := by nlinarith
      have a9 : (√(x + 1) - √x) * (√(x + 1) + √x) ≤ (√(x + 1) - √x) * (2 * x + 1) :=
        mul_le_mul_of_nonneg_left (by linarith) (by linarith)
      have : 1 / (2 * x + 1) ≤ √(x + 1) - √x := by
        rw [div_le_iff₀ (by linarith)]; linarith
      linarith

/-- One sine of the sum. -/
theorem dhSinF_near (F : DoubleLib) {k : ℤ} {θ θ' : ℝ} (h0 : 0 ≤ k) (hθ0 : 0 ≤ θ)
    (hθ1 : θ ≤ Real.pi) (hθ : |θ' - θ| ≤ θ / 2 ^ 51) :
    |F.sin (F.fl ((2 * (k : ℝ) + 1) * θ')) - Real.sin ((2 * k + 1) * θ)|
      ≤ (2 * k + 1) * (4 / 2 ^ 50) := by
  have hf := F.nearest
  have hpi := Real.pi_le_four
  have hk : (0 : ℝ) ≤ k := by exact_mod_cast h0
  have hθ2 : |θ' - θ| ≤ 2 / 2 ^ 50 := le_trans hθ (by norm_num; linarith)
  have hx1 : |(2 * (k : ℝ) + 1) * θ' - (2 * k + 1) * θ| ≤ (2 * k + 1) * (2 / 2 ^ 50) := by
    rw [← mul_sub, abs_mul, abs_of_pos (by linarith)]
    exact mul_le_mul_of_nonneg_left hθ2 (by linarith)
  have hx2 := fl_step hf hx1 (B := (2 * k + 1) * 8) (by
    rw [abs_of_nonneg (mul_nonneg (by linarith) hθ0), ← mul_add]
    refine mul_le_mul_of_nonneg_left ?_ (by linarith)
    norm_num; linarith) (by norm_num; linarith)
  have a1 := F.sin_near (F.fl ((2 * (k : ℝ) + 1) * θ'))
  have a2 : |Real.sin (F.fl ((2 * (k : ℝ) + 1) * θ')) - Real.sin ((2 * k + 1) * θ)|
      ≤ |F.fl ((2 * (k : ℝ) + 1) * θ') - (2 * k + 1) * θ| := Real.abs_sin_sub_sin_le _ _
  have a3 := abs_sub_le (F.sin (F.fl ((2 * (k : ℝ) + 1) * θ')))
    (Real.sin (F.fl ((2 * (k : ℝ) + 1) * θ'))) (Real.sin ((2 * k + 1) * θ))
  refine le_trans a3 (le_trans (add_le_add a1 (le_trans a2 hx2)) ?_)
  norm_num
  linarith

/-- One term of the sum. -/
theorem dhTermF_near (F : DoubleLib) {k : ℤ} {θ θ' : ℝ} (h0 : 0 ≤ k) (h1 : k < 2 ^ 26) (hθ0 : 0 ≤ θ)
    (hθ1 : θ ≤ Real.pi) (hθ : |θ' - θ| ≤ θ / 2 ^ 51) :
    |F.fl (F.sin (F.fl (F.fl ((2 * k + 1 : ℤ) : ℝ) * θ')) / F.fl ((2 * k + 1 : ℤ) : ℝ))
      - Real.sin ((2 * (k : ℝ) + 1) * θ) / (2 * k + 1)| ≤ 5 / 2 ^ 50 := by
  have hf := F.nearest
  have hk : (0 : ℝ) ≤ k := by exact_mod_cast h0
  rw [fl_int hf (by rw [abs_of_nonneg (by omega)]; omega)]
  push_cast
  have hs1 := dhSinF_near F h0 hθ0 hθ1 hθ
  have hq1 : |F.sin (F.fl ((2 * (k : ℝ) + 1) * θ')) / (2 * k + 1)
      - Real.sin ((2 * (k : ℝ) + 1) * θ) / (2 * k + 1)| ≤ 4 / 2 ^ 50 := by
    rw [← sub_div, abs_div, abs_of_pos (by linarith : 0 < 2 * (k : ℝ) + 1),
      div_le_iff₀ (by linarith), mul_comm (4 / 2 ^ 50 : ℝ)]
    exact hs1
  have hval : |Real.sin ((2 * (k : ℝ) + 1) * θ) / (2 * k + 1)| ≤ 1 := by
    rw [abs_div, abs_of_pos (by linarith : 0 < 2 * (k : ℝ) + 1), div_le_one (by linarith)]
    linarith [Real.abs_sin_le_one ((2 * (k : ℝ) + 1) * θ)]
  have := fl_step hf hq1 (B := 2) (by norm_num; linarith)
  refine le_trans this (by norm_num)

/-- The sum of the weights. -/
theorem dhSum_steps (F : DoubleLib) {L : ℤ} {θ : ℝ} (hL : 1 ≤ L) (hL1 : L ≤ 2 ^ 26) (g : ℤ → ℝ → ℝ)
    (hg : ∀ k w, 0 ≤ k → k < L → ∃ q', g k w = F.fl (w + q') ∧
      |q' - Real.sin ((2 * (k : ℝ) + 1) * θ) / (2 * k + 1)| ≤ 5 / 2 ^ 50) :
    |forRange 0 L g 0 - dhSum θ L| ≤ L * (6 * √(L : ℝ) / 2 ^ 50) := by
  have hf := F.nearest
  have hL' : (1 : ℝ) ≤ L := by exact_mod_cast hL
  have hL2 : (L : ℝ) ≤ 2 ^ 26 := by exact_mod_cast hL1
  have hs1 : 1 ≤ √(L : ℝ) := by rw [Real.le_sqrt' (by norm_num)]; linarith
  have hs2 : √(L : ℝ) ≤ 2 ^ 13 := by
    rw [Real.sqrt_le_left (by norm_num)]; norm_num at hL2 ⊢; exact hL2
  refine forRange_ind (show (0 : ℤ) ≤ L by omega) _ (0 : ℝ)
    (fun k w => |w - dhSum θ k| ≤ k * (6 * √(L : ℝ) / 2 ^ 50)) (by simp [dhSum]) ?_
  intro k w h0 h1 hw
  obtain ⟨q', eq, hq⟩ := hg k w h0 h1
  have hS := dhSum_le (by omega : 0 ≤ k + 1) θ
  have hk : (k : ℝ) + 1 ≤ L := by exact_mod_cast (by omega : k + 1 ≤ L)
  have hk0 : (0 : ℝ) ≤ k := by exact_mod_cast h0
  have hS' : |dhSum θ (k + 1)| ≤ √(L : ℝ) := by
    refine le_trans hS (Real.sqrt_le_sqrt ?_)
    push_cast; exact hk
  rw [dhSum_succ h0] at hS' ⊢
  rw [eq]
  generalize Real.sin ((2 * (k : ℝ) + 1) * θ) / (2 * k + 1) = q at *
  have h2 : |w + q' - (dhSum θ k + q)| ≤ k * (6 * √(L : ℝ) / 2 ^ 50) + 5 / 2 ^ 50 := by
    rw [add_sub_add_comm]
    exact le_trans (abs_add_le _ _) (add_le_add hw hq)
  have h3 : (k : ℝ) * (6 * √(L : ℝ) / 2 ^ 50) ≤ 1 / 2 := by
    have : (k : ℝ) * (6 * √(L : ℝ) / 2 ^ 50) ≤ 2 ^ 26 * (6 * 2 ^ 13 / 2 ^ 50) := by gcongr; linarith
    refine le_trans this (by norm_num)
  have h4 := fl_step hf h2 (B := 2 * √(L : ℝ)) (by
    norm_num at h3 ⊢
    linarith) (by norm_num; linarith)
  refine le_trans h4 ?_
  push_cast
  rw [add_mul, one_mul, add_assoc]
  refine add_le_add le_rfl ?_
  norm_num
  linarith

theorem dhSumF_near (F : DoubleLib) {L : ℤ} {θ θ' : ℝ} (hL : 1 ≤ L) (hL1 : L ≤ 2 ^ 26) (hθ0 : 0 ≤ θ)
    (hθ1 : θ ≤ Real.pi) (hθ : |θ' - θ| ≤ θ / 2 ^ 51) :
    |forRange 0 L (fun k w => F.fl (w
      + F.fl (F.sin (F.fl (F.fl ((2 * k + 1 : ℤ) : ℝ) * θ')) / F.fl ((2 * k + 1 : ℤ) : ℝ)))) 0
      - dhSum θ L| ≤ L * (6 * √(L : ℝ) / 2 ^ 50) :=
  dhSum_steps F hL hL1 _ fun _ _ h0 h1 => ⟨_, rfl, dhTermF_near F h0 (by omega) hθ0 hθ1 hθ⟩

/-- The weight of an angle. -/
theorem dhTheta_of_sum (F : DoubleLib) {L : ℤ} {θ θ' s' : ℝ} (hL : 1 ≤ L) (hL1 : L ≤ 2 ^ 26)
    (hθ1 : θ ≤ Real.pi) (hθ : |θ' - θ| ≤ θ / 2 ^ 51)
    (hS' : |s' - dhSum θ L| ≤ L * (6 * √(L : ℝ) / 2 ^ 50)) :
    |F.fl (s' * F.fl (F.fl (2 / F.fl L) * F.sin θ')) - quad_weight_dh_theta_only θ L|
        ≤ 22 * √(L : ℝ) / 2 ^ 50 ∧
      |quad_weight_dh_theta_only θ L| ≤ 2 := by
  have hf := F.nearest
  have hpi := Real.pi_le_four
  have hL' : (1 : ℝ) ≤ L := by exact_mod_cast hL
  have hL2 : (L : ℝ) ≤ 2 ^ 26 := by exact_mod_cast hL1
  have hs1 : 1 ≤ √(L : ℝ) := by rw [Real.le_sqrt' (by norm_num)]; linarith
  have hs2 : √(L : ℝ) ≤ 2 ^ 13 := by
    rw [Real.sqrt_le_left (by norm_num)]; norm_num at hL2 ⊢; exact hL2
  have hsq := Real.mul_self_sqrt (by linarith : 0 ≤ (L : ℝ))
  rw [quad_weight_dh_eq]
  rw [fl_int hf (k := L) (by rw [abs_of_nonneg (by omega)]; omega)]
  have hS := dhSum_le (by omega : 0 ≤ L) θ
  generalize dhSum θ L = s at *
  have hGL : 2 / (L : ℝ) * L = 2 := by field_simp
  have hG0 : 0 < 2 / (L : ℝ) := by positivity
  have hG2 : 1 / 2 ^ 26 ≤ 2 / (L : ℝ) := by
    rw [div_le_div_iff₀ (by norm_num) (by linarith)]; norm_num at hL2 ⊢; linarith
  have hGR : √(L : ℝ) * (2 / L) ≤ 2 := by
    have : √(L : ℝ) ≤ L := by nlinarith
    nlinarith
  generalize √(L : ℝ) = R at *
  generalize 2 / (L : ℝ) = G at *
  obtain ⟨d, hd, ed, -⟩ := fl_rel_pos hf (x := G) (c := 1 / 2 ^ 26) hG2 (by norm_num)
  have hsin : |F.sin θ' - Real.sin θ| ≤ 3 / 2 ^ 50 := by
    have a1 := F.sin_near θ'
    have a2 : |Real.sin θ' - Real.sin θ| ≤ |θ' - θ| := Real.abs_sin_sub_sin_le _ _
    have a3 := abs_sub_le (F.sin θ') (Real.sin θ') (Real.sin θ)
    refine le_trans a3 (le_trans (add_le_add a1 (le_trans a2 hθ)) ?_)
    norm_num
    linarith
  have hsin1 := Real.abs_sin_le_one θ
  rw [ed]
  generalize F.sin θ' = u' at *
  generalize Real.sin θ = u at *
  have hu' : |u'| ≤ 2 := by
    have := abs_sub_abs_le_abs_sub u' u
    norm_num at hsin
    linarith
  have hg1 : |G * (1 + d) * u' - G * u| ≤ G * (3 / 2 ^ 50 + 2 / 2 ^ 53) := by
    rw [show G * (1 + d) * u' - G * u = G * ((u' - u) + d * u') by ring, abs_mul, abs_of_pos hG0]
    refine mul_le_mul_of_nonneg_left ?_ hG0.le
    refine le_trans (abs_add_le _ _) (add_le_add hsin ?_)
    rw [abs_mul]
    calc |d| * |u'| ≤ 1 / 2 ^ 53 * 2 := by gcongr
      _ = 2 / 2 ^ 53 := by norm_num
  have hgu : |G * u| ≤ G := by
    rw [abs_mul, abs_of_pos hG0]; nlinarith
  have hg2 := fl_step hf hg1 (B := 2 * G) (by
    generalize |G * u| = z at *
    norm_num
    linarith) (by norm_num at hG2 ⊢; linarith)
  have hg3 : |F.fl (G * (1 + d) * u') - G * u| ≤ G * (4 / 2 ^ 50) := by
    refine le_trans hg2 ?_
    norm_num
    linarith
  generalize F.fl (G * (1 + d) * u') = g' at *
  generalize G * u = g at *
  have hp1 : |s' * g' - s * g| ≤ L * (6 * R / 2 ^ 50) * (G * (17 / 16)) + R * (G * (4 / 2 ^ 50)) := by
    rw [show s' * g' - s * g = (s' - s) * g' + s * (g' - g) by ring]
    refine le_trans (abs_add_le _ _) (add_le_add ?_ ?_)
    · rw [abs_mul]
      refine mul_le_mul hS' ?_ (abs_nonneg _) (by positivity)
      have := abs_sub_abs_le_abs_sub g' g
      norm_num at hg3
      linarith
    · rw [abs_mul]
      exact mul_le_mul hS hg3 (abs_nonneg _) (by linarith)
  have hRG0 : 0 < R * G := by positivity
  have hp2 : |s' * g' - s * g| ≤ 21 * R / 2 ^ 50 := by
    refine le_trans hp1 ?_
    rw [show (L : ℝ) * (6 * R / 2 ^ 50) * (G * (17 / 16)) = (G * L) * (6 * R / 2 ^ 50) * (17 / 16) by ring,
      hGL, show R * (G * (4 / 2 ^ 50)) = (R * G) * (4 / 2 ^ 50) by ring]
    norm_num
    linarith
  have hsg : |s * g| ≤ 2 := by
    rw [abs_mul]
    exact le_trans (mul_le_mul hS hgu (abs_nonneg _) (by linarith)) hGR
  refine ⟨?_, hsg⟩
  refine le_trans (fl_step hf hp2 (B := 4) ?_) ?_
  · generalize |s * g| = z at *
    norm_num at hs2 ⊢; linarith
  · norm_num
    linarith

theorem quadWeightDhThetaF_near (F : DoubleLib) {L : ℤ} {θ θ' : ℝ} (hL : 1 ≤ L) (hL1 : L ≤ 2 ^ 26)
    (hθ0 : 0 ≤ θ) (hθ1 : θ ≤ Real.pi) (hθ : |θ' - θ| ≤ θ / 2 ^ 51) :
    |quadWeightDhThetaF F θ' L - quad_weight_dh_theta_only θ L| ≤ 22 * √(L : ℝ) / 2 ^ 50 ∧
      |quad_weight_dh_theta_only θ L| ≤ 2 :=
  dhTheta_of_sum F hL hL1 hθ1 hθ (dhSumF_near F hL hL1 hθ0 hθ1 hθ)

/-- The factor `2π`. -/
theorem dhScale_near (F : DoubleLib) {w' w R : ℝ} (hs1 : 1 ≤ R) (hs2 : R ≤ 2 ^ 13)
    (hw : |w' - w| ≤ 22 * R / 2 ^ 50) (hw1 : |w| ≤ 2) :
    |F.fl (F.fl (w' * 2) * F.fl Real.pi) - w * 2 * Real.pi| ≤ 186 * R / 2 ^ 50 ∧
      |w * 2 * Real.pi| ≤ 16 := by
  have hf := F.nearest
  have hpi := Real.pi_le_four
  have hpi0 := Real.pi_pos
  have hP : |F.fl Real.pi - Real.pi| ≤ 4 / 2 ^ 53 := by
    refine fl_near hf ?_
    rw [abs_of_pos hpi0]; exact hpi
  have hP4 := flPi_le_four F
  have hP0 := flPi_pos F
  have ha1 : |w' * 2 - w * 2| ≤ 44 * R / 2 ^ 50 := by
    rw [← sub_mul, abs_mul, abs_of_pos (by norm_num : (0 : ℝ) < 2)]
    linarith
  have hw2 : |w * 2| ≤ 4 := by
    rw [abs_mul, abs_of_pos (by norm_num : (0 : ℝ) < 2)]; linarith
  have ha2 : |F.fl (w' * 2) - w * 2| ≤ 45 * R / 2 ^ 50 := by
    refine le_trans (fl_step hf ha1 (B := 8) ?_) ?_
    · generalize |w * 2| = z at *
      norm_num at hs2 ⊢; linarith
    · norm_num; linarith
  generalize F.fl (w' * 2) = a at *
  generalize w * 2 = b at *
  generalize F.fl Real.pi = P at *
  have hb1 : |a * P - b * Real.pi| ≤ 182 * R / 2 ^ 50 := by
    rw [show a * P - b * Real.pi = (a - b) * P + b * (P - Real.pi) by ring]
    refine le_trans (abs_add_le _ _) ?_
    rw [abs_mul, abs_mul, abs_of_pos hP0]
    have q1 : |a - b| * P ≤ 45 * R / 2 ^ 50 * 4 := mul_le_mul ha2 hP4 hP0.le (by positivity)
    have q2 : |b| * |P - Real.pi| ≤ 4 * (4 / 2 ^ 53) :=
      mul_le_mul hw2 hP (abs_nonneg _) (by norm_num)
    refine le_trans (add_le_add q1 q2) ?_
    norm_num; linarith
  have hbp : |b * Real.pi| ≤ 16 := by
    rw [abs_mul, abs_of_pos hpi0]
    calc |b| * Real.pi ≤ 4 * 4 := by gcongr
      _ = 16 := by norm_num
  have hb2 : |F.fl (a * P) - b * Real.pi| ≤ 186 * R / 2 ^ 50 := by
    refine le_trans (fl_step hf hb1 (B := 32) ?_) ?_
    · generalize |b * Real.pi| = z at *
      norm_num at hs2 ⊢; linarith
    · norm_num; linarith
  exact ⟨hb2, hbp⟩

/-- The Driscoll–Healy weights. -/
theorem quadWeightsDhF_near (F : DoubleLib) {L : ℤ} {T : ℤ → ℝ} {t : ℤ} (hL : 1 ≤ L) (hL1 : L ≤ 2 ^ 26)
    (h0 : 0 ≤ t) (h1 : t < 2 * L)
    (hT : |T t - (2 * (t : ℝ) + 1) * Real.pi / (4 * L)| ≤
      (2 * (t : ℝ) + 1) * Real.pi / (4 * L) / 2 ^ 51) :
    |quadWeightsDhF F L T t - quad_weights_dh L t| ≤ 192 * √(L : ℝ) / 2 ^ 50 / (2 * L - 1) := by
  have hf := F.nearest
  have hpi := Real.pi_le_four
  have hpi0 := Real.pi_pos
  have hL' : (1 : ℝ) ≤ L := by exact_mod_cast hL
  have hL2 : (L : ℝ) ≤ 2 ^ 26 := by exact_mod_cast hL1
  have ht0 : (0 : ℝ) ≤ t := by exact_mod_cast h0
  have ht1 : (t : ℝ) + 1 ≤ 2 * L := by exact_mod_cast h1
  have hs1 : 1 ≤ √(L : ℝ) := by rw [Real.le_sqrt' (by norm_num)]; linarith
  have hs2 : √(L : ℝ) ≤ 2 ^ 13 := by
    rw [Real.sqrt_le_left (by norm_num)]; norm_num at hL2 ⊢; exact hL2
  have hθ0 : 0 ≤ (2 * (t : ℝ) + 1) * Real.pi / (4 * L) := by positivity
  have hθ1 : (2 * (t : ℝ) + 1) * Real.pi / (4 * L) ≤ Real.pi := by
    rw [div_le_iff₀ (by linarith)]; nlinarith
  obtain ⟨hw, hw1⟩ := quadWeightDhThetaF_near F hL hL1 hθ0 hθ1 hT
  unfold quadWeightsDhF quad_weights_dh
  rw [fl_int hf (k := 2 * L - 1) (by rw [abs_of_nonneg (by omega)]; omega)]
  push_cast
  generalize quadWeightDhThetaF F (T t) L = w' at *
  generalize quad_weight_dh_theta_only _ L = w at *
  generalize √(L : ℝ) = R at *
  have hn1 : (1 : ℝ) ≤ 2 * L - 1 := by linarith
  have hn2 : (2 : ℝ) * L - 1 ≤ 2 ^ 27 := by norm_num at hL2 ⊢; linarith
  generalize (2 : ℝ) * L - 1 = n at *
  obtain ⟨hb2, hbp⟩ := dhScale_near F hs1 hs2 hw hw1
  generalize F.fl (F.fl (w' * 2) * F.fl Real.pi) = c at *
  generalize w * 2 * Real.pi = d at *
  have hc1 : |c / n - d / n| ≤ 186 * R / 2 ^ 50 / n := by
    rw [← sub_div, abs_div, abs_of_pos (by linarith : 0 < n)]
    gcongr
  have hc2 := fl_step hf hc1 (B := 32 / n) (by
    rw [abs_div, abs_of_pos (by linarith : 0 < n), ← add_div]
    gcongr
    generalize |d| = z at *
    norm_num at hs2 ⊢; linarith) (by
    rw [div_le_div_iff₀ (by norm_num) (by linarith)]
    norm_num at hn2 ⊢; linarith)
  refine le_trans hc2 ?_
  rw [show (32 : ℝ) / n / 2 ^ 53 = 4 / 2 ^ 50 / n by ring, ← add_div]
  gcongr
  norm_num; linarith

end S2fft
