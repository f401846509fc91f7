import Verif.Model.RisboJaxDouble
import Verif.Lemmas.RisboDouble

/-! # The JAX Risbo recursion in double precision: helper lemmas -/

namespace S2fft
open Spec

/-! ## Rounding errors of one pass -/

/-- Product of two rounded square roots, with a sign. -/
theorem rootsJ_near (F : XlaLib) {p q j : ℤ} {σ : ℝ} (hσ : σ = 1 ∨ σ = -1) (hp1 : 1 ≤ p) (hp2 : p ≤ j)
    (hq1 : 1 ≤ q) (hq2 : q ≤ j) (hj : j ≤ 2 ^ 53) :
    |F.fl (σ * sqrtF F.toDoubleLib p * sqrtF F.toDoubleLib q) - σ * √(p : ℝ) * √(q : ℝ)|
        ≤ 15 / 4 * j / 2 ^ 53 ∧ |σ * √(p : ℝ) * √(q : ℝ)| ≤ j := by
  have hj0 : (1 : ℝ) ≤ j := by exact_mod_cast (by omega : 1 ≤ j)
  obtain ⟨a, ha, ea, -⟩ := sqrtF_rel F.toDoubleLib hp1 (by omega)
  obtain ⟨b, hb, eb, -⟩ := sqrtF_rel F.toDoubleLib hq1 (by omega)
  have hgj : √(p : ℝ) * √(q : ℝ) ≤ j := by
    have h1 : √(p : ℝ) ≤ √(j : ℝ) := Real.sqrt_le_sqrt (by exact_mod_cast hp2)
    have h2 : √(q : ℝ) ≤ √(j : ℝ) := Real.sqrt_le_sqrt (by exact_mod_cast hq2)
    calc √(p : ℝ) * √(q : ℝ) ≤ √(j : ℝ) * √(j : ℝ) := by gcongr
      _ = j := Real.mul_self_sqrt (by linarith)
  have hg : |σ * √(p : ℝ) * √(q : ℝ)| ≤ j := by
    have : |σ| = 1 := by rcases hσ with rfl | rfl <;> simp
    rw [mul_assoc, abs_mul, this, one_mul, abs_of_nonneg (by positivity)]
    exact hgj
  refine ⟨?_, hg⟩
  have r1 := rel_step (X := 1) (e := 0) (by simp) (by norm_num) ha
  have r2 := rel_step r1 (by norm_num) hb
  have e : σ * sqrtF F.toDoubleLib p * sqrtF F.toDoubleLib q
      = σ * √(p : ℝ) * √(q : ℝ) * (1 * (1 + a) * (1 + b)) := by rw [ea, eb]; ring
  rw [e]
  generalize σ * √(p : ℝ) * √(q : ℝ) = g at hg ⊢
  generalize 1 * (1 + a) * (1 + b) = K at r2
  have h1 : |g * K - g| ≤ 5 / 2 * j / 2 ^ 53 := by
    rw [show g * K - g = g * (K - 1) by ring, abs_mul]
    refine le_trans (mul_le_mul hg r2 (abs_nonneg _) (by linarith)) (le_of_eq (by ring))
  refine le_trans (fl_step F.nearest h1 (B := 5 / 4 * j) ?_ ?_) (le_of_eq (by ring))
  · norm_num; linarith
  · refine le_trans (by norm_num : (1 : ℝ) / 2 ^ 200 ≤ 5 / 4) (by linarith)

/-- What is added to an entry. -/
theorem mulAddJ_near (F : XlaLib) {p q j : ℤ} {σ D B c c' : ℝ} (hσ : σ = 1 ∨ σ = -1) (hp1 : 1 ≤ p)
    (hp2 : p ≤ j) (hq1 : 1 ≤ q) (hq2 : q ≤ j) (hj : j ≤ 2 ^ 53) (hD : |D| ≤ B) (hB : 1 / 2 ^ 140 ≤ B)
    (hc : |c| ≤ 1) (hc' : |c' - c| ≤ 1 / 2 ^ 49) (site : List ℤ) (v : ℝ) :
    ∃ t', F.mulAdd site v
        (prefJ F (σ * sqrtF F.toDoubleLib p) (sqrtF F.toDoubleLib q) D) c' = F.fl (v + t') ∧
      |t' - σ * √(p : ℝ) * √(q : ℝ) * D * c| ≤ 24 * (j * B) / 2 ^ 53 ∧
      |σ * √(p : ℝ) * √(q : ℝ) * D * c| ≤ j * B := by
  have hf := F.nearest
  have hj0 : (1 : ℝ) ≤ j := by exact_mod_cast (by omega : 1 ≤ j)
  have hB0 : 0 < B := lt_of_lt_of_le (by positivity) hB
  have hBj : B ≤ j * B := by nlinarith
  have hJ : (1 : ℝ) / 2 ^ 200 ≤ j * B := le_trans (le_trans (by norm_num) hB) hBj
  obtain ⟨hG, hg⟩ := rootsJ_near F hσ hp1 hp2 hq1 hq2 hj
  unfold prefJ
  generalize F.fl (σ * sqrtF F.toDoubleLib p * sqrtF F.toDoubleLib q) = G at hG
  generalize σ * √(p : ℝ) * √(q : ℝ) = g at hG hg
  have hgD : |g * D| ≤ j * B := by
    rw [abs_mul]; exact mul_le_mul hg hD (abs_nonneg _) (by linarith)
  have hP : |G * D - g * D| ≤ 15 / 4 * (j * B) / 2 ^ 53 := by
    rw [← sub_mul, abs_mul]
    refine le_trans (mul_le_mul hG hD (abs_nonneg _) (by positivity)) (le_of_eq (by ring))
  have hP2 := fl_step hf hP (B := 3 / 2 * (j * B)) (by norm_num [-abs_mul]; linarith) (by linarith)
  generalize F.fl (G * D) = P at hP2
  have hc1 : |c'| ≤ 11 / 10 := by
    have := abs_sub_abs_le_abs_sub c' c
    norm_num at hc' ⊢; linarith
  have hQ2 : |g * D * c| ≤ j * B := by
    rw [abs_mul]
    calc |g * D| * |c| ≤ (j * B) * 1 := mul_le_mul hgD hc (abs_nonneg _) (by positivity)
      _ = j * B := mul_one _
  generalize (j : ℝ) * B = W at *
  have hW : 0 < W := lt_of_lt_of_le hB0 hBj
  have hQ : |P * c' - g * D * c| ≤ 22 * W / 2 ^ 53 := by
    have e : P * c' - g * D * c = (P - g * D) * c' + g * D * (c' - c) := by ring
    rw [e]
    have h1 : |(P - g * D) * c'| ≤ (15 / 4 * W / 2 ^ 53 + 3 / 2 * W / 2 ^ 53) * (11 / 10) := by
      rw [abs_mul]; exact mul_le_mul hP2 hc1 (abs_nonneg _) (by positivity)
    have h2 : |g * D * (c' - c)| ≤ W * (1 / 2 ^ 49) := by
      rw [abs_mul]; exact mul_le_mul hgD hc' (abs_nonneg _) hW.le
    refine le_trans (abs_add_le _ _) ?_
    norm_num at h1 h2 ⊢; linarith
  rcases F.mulAdd_is site v P c' with h | h
  · refine ⟨F.fl (P * c'), h, ?_, hQ2⟩
    refine le_trans (fl_step hf hQ (B := 3 / 2 * W) (by norm_num at hQ2 ⊢; linarith) (by linarith)) ?_
    norm_num; linarith
  · refine ⟨P * c', h, le_trans hQ ?_, hQ2⟩
    norm_num; linarith

/-- Error of one of the sums. -/
theorem updJ_near (F : XlaLib) {p : Prop} [Decidable p] {x t v w a W B : ℝ}
    (h : |v - w| ≤ a * W / 2 ^ 53) (hw : |w| ≤ W) (hW : 0 ≤ W) (ha : 24 ≤ a) (ha' : a ≤ 40)
    (hB : 1 / 2 ^ 140 ≤ B)
    (ht : p → ∃ t', x = F.fl (v + t') ∧ |t' - t| ≤ 24 * B / 2 ^ 53 ∧ |t| ≤ B) :
    |(if p then x else v) - (w + if p then t else 0)| ≤ (a + 2) * (W + B) / 2 ^ 53 ∧
      |w + if p then t else 0| ≤ W + B ∧ 0 ≤ W + B := by
  have hB0 : 0 < B := lt_of_lt_of_le (by positivity) hB
  have hB2 : (1 : ℝ) / 2 ^ 200 ≤ B := le_trans (by norm_num) hB
  have haW : a * W ≤ (a + 2) * (W + B) := by nlinarith
  refine ⟨?_, ?_, by linarith⟩
  · split_ifs with hp
    · obtain ⟨t', rfl, h1, h2⟩ := ht hp
      have hwt : |w + t| ≤ W + B := le_trans (abs_add_le _ _) (by linarith)
      have h3 : |v + t' - (w + t)| ≤ a * (W + B) / 2 ^ 53 := by
        rw [show v + t' - (w + t) = (v - w) + (t' - t) by ring]
        refine le_trans (abs_add_le _ _) (le_trans (add_le_add h h1) ?_)
        rw [← add_div]
        gcongr
        nlinarith
      have h5 : a * (W + B) / 2 ^ 53 ≤ W + B := by
        rw [div_le_iff₀ (by positivity), mul_comm]
        gcongr
        norm_num; linarith
      have h4 := fl_step F.nearest h3 (B := 2 * (W + B)) (by linarith) (by linarith)
      refine le_trans h4 (le_of_eq (by ring))
    · rw [add_zero]
      refine le_trans h ?_
      gcongr
  · split_ifs with hp
    · obtain ⟨t', -, -, h2⟩ := ht hp
      exact le_trans (abs_add_le _ _) (by linarith)
    · rw [add_zero]; linarith

/-- One pass in the coordinates of the block. -/
noncomputable def halfStepJ (F : XlaLib) (site : ℤ → List ℤ) (j : ℤ) (D : ℤ → ℤ → ℝ) (c s : ℝ)
    (X Y : ℤ) (v : ℝ) : ℝ :=
  let r := sqrtF F.toDoubleLib
  let v := if (0 ≤ X ∧ X < j) ∧ (0 ≤ Y ∧ Y < j) then
    F.mulAdd (site 1) v (prefJ F (r (j - Y)) (r (j - X)) (D X Y)) c else v
  let v := if (0 ≤ X ∧ X < j) ∧ (0 ≤ Y - 1 ∧ Y - 1 < j) then
    F.mulAdd (site 2) v (prefJ F (-r (Y - 1 + 1)) (r (j - X)) (D X (Y - 1))) s else v
  let v := if (0 ≤ X - 1 ∧ X - 1 < j) ∧ (0 ≤ Y ∧ Y < j) then
    F.mulAdd (site 3) v (prefJ F (r (j - Y)) (r (X - 1 + 1)) (D (X - 1) Y)) s else v
  if (0 ≤ X - 1 ∧ X - 1 < j) ∧ (0 ≤ Y - 1 ∧ Y - 1 < j) then
    F.mulAdd (site 4) v (prefJ F (r (Y - 1 + 1)) (r (X - 1 + 1)) (D (X - 1) (Y - 1))) c else v

theorem risboFirstJ_eq (F : XlaLib) (dl : ℤ → ℤ → ℝ) (c s : ℝ) (L el k i : ℤ) :
    risboFirstJ F dl c s L el k i = halfStepJ F (fun q => [k, i, el, 1, q]) (2 * el - 1)
      (fun k i => dl (k - (el - 1) + L - 1) (i - (el - 1) + L - 1)) c s k i 0 := by
  unfold risboFirstJ halfStepJ addBlockJ
  simp only [sub_zero]
  have h1 : (0 ≤ k ∧ k < 2 * el - 1) ∧ (1 ≤ i ∧ i < 2 * el - 1 + 1)
      ↔ (0 ≤ k ∧ k < 2 * el - 1) ∧ (0 ≤ i - 1 ∧ i - 1 < 2 * el - 1) := by omega
  have h2 : (1 ≤ k ∧ k < 2 * el - 1 + 1) ∧ (0 ≤ i ∧ i < 2 * el - 1)
      ↔ (0 ≤ k - 1 ∧ k - 1 < 2 * el - 1) ∧ (0 ≤ i ∧ i < 2 * el - 1) := by omega
  have h3 : (1 ≤ k ∧ k < 2 * el - 1 + 1) ∧ (1 ≤ i ∧ i < 2 * el - 1 + 1)
      ↔ (0 ≤ k - 1 ∧ k - 1 < 2 * el - 1) ∧ (0 ≤ i - 1 ∧ i - 1 < 2 * el - 1) := by omega
  simp only [h1, h2, h3]

theorem risboSecondJ_eq (F : XlaLib) (dl dd : ℤ → ℤ → ℝ) (c s : ℝ) (L el x y : ℤ) :
    risboSecondJ F dl dd c s L el x y = halfStepJ F (fun q => [x, y, el, 2, q]) (2 * el) dd c s
      (x + el - L + 1) (y + el - L + 1) (dl x y) := by
  unfold risboSecondJ halfStepJ addBlockJ
  rw [show x - (-el + L - 1) = x + el - L + 1 by ring, show y - (-el + L - 1) = y + el - L + 1 by ring,
    show x - (L - el) = x + el - L + 1 - 1 by ring, show y - (L - el) = y + el - L + 1 - 1 by ring]
  have h1 : ((-el + L - 1 ≤ x ∧ x < el + L - 1) ∧ (-el + L - 1 ≤ y ∧ y < el + L - 1))
      ↔ ((0 ≤ x + el - L + 1 ∧ x + el - L + 1 < 2 * el) ∧
        (0 ≤ y + el - L + 1 ∧ y + el - L + 1 < 2 * el)) := (by omega)
  have h2 : ((-el + L - 1 ≤ x ∧ x < el + L - 1) ∧ (L - el ≤ y ∧ y < L + el))
      ↔ ((0 ≤ x + el - L + 1 ∧ x + el - L + 1 < 2 * el) ∧
        (0 ≤ y + el - L + 1 - 1 ∧ y + el - L + 1 - 1 < 2 * el)) := (by omega)
  have h3 : ((L - el ≤ x ∧ x < L + el) ∧ (-el + L - 1 ≤ y ∧ y < el + L - 1))
      ↔ ((0 ≤ x + el - L + 1 - 1 ∧ x + el - L + 1 - 1 < 2 * el) ∧
        (0 ≤ y + el - L + 1 ∧ y + el - L + 1 < 2 * el)) := (by omega)
  have h4 : ((L - el ≤ x ∧ x < L + el) ∧ (L - el ≤ y ∧ y < L + el))
      ↔ ((0 ≤ x + el - L + 1 - 1 ∧ x + el - L + 1 - 1 < 2 * el) ∧
        (0 ≤ y + el - L + 1 - 1 ∧ y + el - L + 1 - 1 < 2 * el)) := (by omega)
  simp only [h1, h2, h3, h4]

/-- Error of one pass on a matrix that is `κ` times `D`. -/
theorem halfStepJ_near (F : XlaLib) (site : ℤ → List ℤ) {j : ℤ} (E D : ℤ → ℤ → ℝ) {κ c s c' s' : ℝ}
    (hκ : 1 ≤ κ) (hE : ∀ k i, E k i = κ * D k i) (hj1 : 1 ≤ j) (hj : j ≤ 2 ^ 53)
    (hc : |c| ≤ 1) (hs : |s| ≤ 1)
    (hc' : |c' - c| ≤ 1 / 2 ^ 49) (hs' : |s' - s| ≤ 1 / 2 ^ 49) (X Y : ℤ) :
    |halfStepJ F site j E c' s' X Y 0 - halfStep j E c s X Y|
      ≤ 32 * (j * (κ * (blockAbs j D X Y + blockAbs j D X (Y - 1) + blockAbs j D (X - 1) Y
        + blockAbs j D (X - 1) (Y - 1)))) / 2 ^ 53 ∧
    |halfStep j E c s X Y| ≤ j * (κ * (blockAbs j D X Y + blockAbs j D X (Y - 1)
      + blockAbs j D (X - 1) Y + blockAbs j D (X - 1) (Y - 1))) := by
  have hj0 : (1 : ℝ) ≤ j := by exact_mod_cast hj1
  have hb : ∀ x y, 1 / 2 ^ 140 ≤ κ * blockAbs j D x y := fun x y => by
    have h1 := blockAbs_ge j D x y
    have h0 : 0 ≤ blockAbs j D x y := le_trans (by positivity) h1
    nlinarith
  have hb' : ∀ x y, 1 / 2 ^ 140 ≤ j * (κ * blockAbs j D x y) := fun x y => by
    have h1 := hb x y
    have h0 : 0 ≤ κ * blockAbs j D x y := le_trans (by positivity) h1
    nlinarith
  have hEb : ∀ x y, (0 ≤ x ∧ x < j) ∧ (0 ≤ y ∧ y < j) → |E x y| ≤ κ * blockAbs j D x y := by
    intro x y h
    rw [hE, abs_mul, abs_of_nonneg (by linarith)]
    exact mul_le_mul_of_nonneg_left (le_blockAbs D h) (by linarith)
  unfold halfStepJ
  simp only
  have a1 := updJ_near F (p := (0 ≤ X ∧ X < j) ∧ (0 ≤ Y ∧ Y < j)) (v := 0) (w := 0) (a := 24) (W := 0)
    (t := 1 * √((j - Y : ℤ) : ℝ) * √((j - X : ℤ) : ℝ) * E X Y * c)
    (x := F.mulAdd (site 1) 0 (prefJ F (sqrtF F.toDoubleLib (j - Y)) (sqrtF F.toDoubleLib (j - X))
      (E X Y)) c')
    (by simp) (by simp) le_rfl le_rfl (by norm_num) (hb' X Y)
    (fun h => by
      rw [← one_mul (sqrtF F.toDoubleLib (j - Y))]
      exact mulAddJ_near F (Or.inl rfl) (by omega) (by omega) (by omega) (by omega) hj (hEb X Y h)
        (hb X Y) hc hc' _ _)
  generalize (if (0 ≤ X ∧ X < j) ∧ (0 ≤ Y ∧ Y < j) then
    F.mulAdd (site 1) 0 (prefJ F (sqrtF F.toDoubleLib (j - Y)) (sqrtF F.toDoubleLib (j - X))
      (E X Y)) c' else 0) = v1 at *
  have a2 := updJ_near F (p := (0 ≤ X ∧ X < j) ∧ (0 ≤ Y - 1 ∧ Y - 1 < j))
    (t := -1 * √((Y - 1 + 1 : ℤ) : ℝ) * √((j - X : ℤ) : ℝ) * E X (Y - 1) * s)
    (x := F.mulAdd (site 2) v1 (prefJ F (-sqrtF F.toDoubleLib (Y - 1 + 1))
      (sqrtF F.toDoubleLib (j - X)) (E X (Y - 1))) s')
    a1.1 a1.2.1 a1.2.2 (by norm_num) (by norm_num) (hb' X (Y - 1))
    (fun h => by
      rw [← neg_one_mul (sqrtF F.toDoubleLib (Y - 1 + 1))]
      exact mulAddJ_near F (Or.inr rfl) (by omega) (by omega) (by omega) (by omega) hj
        (hEb X (Y - 1) h) (hb X (Y - 1)) hs hs' _ _)
  generalize (if (0 ≤ X ∧ X < j) ∧ (0 ≤ Y - 1 ∧ Y - 1 < j) then
    F.mulAdd (site 2) v1 (prefJ F (-sqrtF F.toDoubleLib (Y - 1 + 1))
      (sqrtF F.toDoubleLib (j - X)) (E X (Y - 1))) s' else v1) = v2 at *
  have a3 := updJ_near F (p := (0 ≤ X - 1 ∧ X - 1 < j) ∧ (0 ≤ Y ∧ Y < j))
    (t := 1 * √((j - Y : ℤ) : ℝ) * √((X - 1 + 1 : ℤ) : ℝ) * E (X - 1) Y * s)
    (x := F.mulAdd (site 3) v2 (prefJ F (sqrtF F.toDoubleLib (j - Y))
      (sqrtF F.toDoubleLib (X - 1 + 1)) (E (X - 1) Y)) s')
    a2.1 a2.2.1 a2.2.2 (by norm_num) (by norm_num) (hb' (X - 1) Y)
    (fun h => by
      rw [← one_mul (sqrtF F.toDoubleLib (j - Y))]
      exact mulAddJ_near F (Or.inl rfl) (by omega) (by omega) (by omega) (by omega) hj
        (hEb (X - 1) Y h) (hb (X - 1) Y) hs hs' _ _)
  generalize (if (0 ≤ X - 1 ∧ X - 1 < j) ∧ (0 ≤ Y ∧ Y < j) then
    F.mulAdd (site 3) v2 (prefJ F (sqrtF F.toDoubleLib (j - Y))
      (sqrtF F.toDoubleLib (X - 1 + 1)) (E (X - 1) Y)) s' else v2) = v3 at *
  have a4 := updJ_near F (p := (0 ≤ X - 1 ∧ X - 1 < j) ∧ (0 ≤ Y - 1 ∧ Y - 1 < j))
    (t := 1 * √((Y - 1 + 1 : ℤ) : ℝ) * √((X - 1 + 1 : ℤ) : ℝ) * E (X - 1) (Y - 1) * c)
    (x := F.mulAdd (site 4) v3 (prefJ F (sqrtF F.toDoubleLib (Y - 1 + 1))
      (sqrtF F.toDoubleLib (X - 1 + 1)) (E (X - 1) (Y - 1))) c')
    a3.1 a3.2.1 a3.2.2 (by norm_num) (by norm_num) (hb' (X - 1) (Y - 1))
    (fun h => by
      rw [← one_mul (sqrtF F.toDoubleLib (Y - 1 + 1))]
      exact mulAddJ_near F (Or.inl rfl) (by omega) (by omega) (by omega) (by omega) hj
        (hEb (X - 1) (Y - 1) h) (hb (X - 1) (Y - 1)) hc hc' _ _)
  have e : halfStep j E c s X Y
      = 0 + (if (0 ≤ X ∧ X < j) ∧ (0 ≤ Y ∧ Y < j) then
          1 * √((j - Y : ℤ) : ℝ) * √((j - X : ℤ) : ℝ) * E X Y * c else 0)
        + (if (0 ≤ X ∧ X < j) ∧ (0 ≤ Y - 1 ∧ Y - 1 < j) then
          -1 * √((Y - 1 + 1 : ℤ) : ℝ) * √((j - X : ℤ) : ℝ) * E X (Y - 1) * s else 0)
        + (if (0 ≤ X - 1 ∧ X - 1 < j) ∧ (0 ≤ Y ∧ Y < j) then
          1 * √((j - Y : ℤ) : ℝ) * √((X - 1 + 1 : ℤ) : ℝ) * E (X - 1) Y * s else 0)
        + (if (0 ≤ X - 1 ∧ X - 1 < j) ∧ (0 ≤ Y - 1 ∧ Y - 1 < j) then
          1 * √((Y - 1 + 1 : ℤ) : ℝ) * √((X - 1 + 1 : ℤ) : ℝ) * E (X - 1) (Y - 1) * c else 0) := by
    unfold halfStep
    push_cast
    simp only [neg_mul, one_mul, zero_add]
  rw [e]
  exact ⟨le_trans a4.1 (le_of_eq (by ring)), le_trans a4.2.1 (le_of_eq (by ring))⟩

/-! ## The norm of the error -/

/-- A half-step with a small error in every entry. -/
theorem opLe_of_near {j : ℤ} {D H : ℤ → ℤ → ℝ} {c s e ε : ℝ} (hj1 : 1 ≤ j)
    (hj : j ≤ 2 ^ 30) (hcs : c ^ 2 + s ^ 2 = 1) (hε : ε = 1 ∨ ε = -1) (he : e ≤ 1 / 2)
    (near : ∀ X Y, 0 ≤ X → X < j + 1 → 0 ≤ Y → Y < j + 1 →
      |H X Y - halfStep j (fun k i => D k i / j) (-c) s X Y|
      ≤ 36 * (blockAbs j D X Y + blockAbs j D X (Y - 1) + blockAbs j D (X - 1) Y
        + blockAbs j D (X - 1) (Y - 1)) / 2 ^ 53)
    (h : OpLe j (fun k i => D k i - ε * U c s (-s) c (j - 1) k i) e) :
    OpLe (j + 1) (fun k i => H k i - -ε * U c s (-s) c j k i) (e + √(j : ℝ) / 2 ^ 45) := by
  have hj0 : (0 : ℝ) < j := by exact_mod_cast (by omega : 0 < j)
  have hU := opLe_U hcs (j - 1) (by omega)
  rw [sub_add_cancel] at hU
  have hεU : OpLe j (fun k i => ε * U c s (-s) c (j - 1) k i) 1 := by
    rcases hε with rfl | rfl
    · exact hU.congr fun k i _ _ _ _ => (one_mul _).symm
    · exact hU.neg.congr fun k i _ _ _ _ => by ring
  have hD : OpLe j D (3 / 2) :=
    ((h.add hεU).mono (by linarith)).congr fun k i _ _ _ _ => by ring
  have l : OpLe (j + 1) (fun k i => H k i - halfStep j (fun k i => D k i / j) (-c) s k i)
      (√(j : ℝ) / 2 ^ 45) := by
    refine OpLe.of_sq (by positivity) ?_
    have b1 := sum_blockAbs hj1 hj (a := 1) (b := 1) (Or.inr rfl) (Or.inr rfl) hD le_rfl
    have b2 := sum_blockAbs hj1 hj (a := 1) (b := 0) (Or.inr rfl) (Or.inl rfl) hD le_rfl
    have b3 := sum_blockAbs hj1 hj (a := 0) (b := 1) (Or.inl rfl) (Or.inr rfl) hD le_rfl
    have b4 := sum_blockAbs hj1 hj (a := 0) (b := 0) (Or.inl rfl) (Or.inl rfl) hD le_rfl
    simp only [sub_zero] at b1 b2 b3 b4
    have sq : ∀ k ∈ Finset.Ico 0 (j + 1), ∀ i ∈ Finset.Ico 0 (j + 1),
        (H k i - halfStep j (fun k i => D k i / j) (-c) s k i) ^ 2
        ≤ (36 / 2 ^ 53) ^ 2 * 4 * (blockAbs j D (k - 1) (i - 1) ^ 2 + blockAbs j D (k - 1) i ^ 2
          + blockAbs j D k (i - 1) ^ 2 + blockAbs j D k i ^ 2) := by
      intro k hk i hi
      rw [Finset.mem_Ico] at hk hi
      rw [← sq_abs]
      refine le_trans (pow_le_pow_left₀ (abs_nonneg _) (near k i hk.1 hk.2 hi.1 hi.2) 2) ?_
      generalize blockAbs j D (k - 1) (i - 1) = x
      generalize blockAbs j D (k - 1) i = y
      generalize blockAbs j D k (i - 1) = z
      generalize blockAbs j D k i = w
      rw [show (36 * (w + z + y + x) / 2 ^ 53) ^ 2 = (36 / 2 ^ 53) ^ 2 * (x + y + z + w) ^ 2 by ring,
        mul_assoc]
      refine mul_le_mul_of_nonneg_left ?_ (by positivity)
      nlinarith [sq_nonneg (x - y), sq_nonneg (x - z), sq_nonneg (x - w), sq_nonneg (y - z),
        sq_nonneg (y - w), sq_nonneg (z - w)]
    refine le_trans (Finset.sum_le_sum fun k hk => Finset.sum_le_sum fun i hi => sq k hk i hi) ?_
    simp only [← Finset.mul_sum, Finset.sum_add_distrib]
    rw [div_pow √(j : ℝ), Real.sq_sqrt hj0.le]
    have : (36 / 2 ^ 53 : ℝ) ^ 2 * 4 * (3 * j + 3 * j + 3 * j + 3 * j) ≤ j / (2 ^ 45) ^ 2 := by
      norm_num
      linarith
    refine le_trans (mul_le_mul_of_nonneg_left ?_ (by positivity)) this
    linarith
  have t := h.halfStep (c := -c) (s := s) hj1 (by rw [neg_sq]; exact hcs)
  refine (t.add l).congr fun k i h1 h2 h3 h4 => ?_
  have hlin : halfStep j (fun k i => (D k i - ε * U c s (-s) c (j - 1) k i) / j) (-c) s k i
      = halfStep j (fun k i => D k i / j) (-c) s k i - -(ε * U c s (-s) c j k i) := by
    have hUj : halfStep j (fun k i => ε * U c s (-s) c (j - 1) k i / j) (-c) s k i
        = -(ε * U c s (-s) c j k i) := by
      rw [halfStep_U j hj1 _ c s (ε / j) (fun k i _ _ _ _ => by ring) k i h1 (by omega) h3 (by omega)]
      field_simp
    rw [← hUj]
    unfold halfStep
    split_ifs <;> ring
  rw [hlin]
  ring

/-- Division by a rounded integer, or multiplication by the reciprocal. -/
theorem quotJ_near (F : XlaLib) {N : ℤ} {x h S : ℝ} (hN : 1 ≤ N) (hN2 : N ≤ 2 ^ 62)
    (hx : |x / N - h| ≤ 32 * S / 2 ^ 53) (hh : |h| ≤ S) (hS : 1 / 2 ^ 140 ≤ S) (site : List ℤ) :
    |F.quot site x (F.fl N) - h| ≤ 36 * S / 2 ^ 53 := by
  have hN0 : (1 : ℝ) ≤ N := by exact_mod_cast hN
  have hN3 : (N : ℝ) ≤ 2 ^ 62 := by exact_mod_cast hN2
  have hS0 : 0 < S := lt_of_lt_of_le (by positivity) hS
  obtain ⟨δ, hδ, e1, l1⟩ := fl_rel_pos F.nearest hN0 (by norm_num)
  have hz : |x / N| ≤ 11 / 10 * S := by
    have := abs_sub_abs_le_abs_sub (x / N) h
    norm_num at hx ⊢; linarith
  have d0 : (9 : ℝ) / 10 ≤ 1 + δ := by have := (abs_le.1 hδ).1; norm_num at this; linarith
  have small : ∀ K : ℝ, |K - 1| ≤ 9 / 4 * (1 / 2 ^ 53) →
      |F.fl (x / N * K) - h| ≤ 36 * S / 2 ^ 53 := by
    intro K hK
    have h1 : |x / N * K - h| ≤ 69 / 2 * S / 2 ^ 53 := by
      rw [show x / N * K - h = x / N * (K - 1) + (x / N - h) by ring]
      refine le_trans (abs_add_le _ _) ?_
      have : |x / N * (K - 1)| ≤ 11 / 10 * S * (9 / 4 * (1 / 2 ^ 53)) := by
        rw [abs_mul]; exact mul_le_mul hz hK (abs_nonneg _) (by positivity)
      norm_num [-abs_mul] at this hx ⊢
      linarith
    refine le_trans (fl_step F.nearest h1 (B := 3 / 2 * S) (by norm_num; linarith)
      (le_trans (by norm_num : (1 : ℝ) / 2 ^ 200 ≤ 3 / 2 * (1 / 2 ^ 140)) (by gcongr))) ?_
    exact le_of_eq (by ring)
  rcases F.quot_is site x (F.fl N) with q | q
  · rw [q, e1, show x / ((N : ℝ) * (1 + δ)) = x / N * (1 / (1 + δ)) by field_simp]
    refine small _ ?_
    rw [show 1 / (1 + δ) - 1 = -δ / (1 + δ) by field_simp; ring, abs_div, abs_neg,
      abs_of_pos (show (0 : ℝ) < 1 + δ by linarith), div_le_iff₀ (by linarith)]
    norm_num at hδ ⊢; linarith
  · have hr : 1 / 2 ^ 64 ≤ 1 / F.fl N := by
      have p : 0 < F.fl N := by linarith
      rw [div_le_div_iff₀ (by positivity) p, e1]
      have : 1 + δ ≤ 2 := by have := (abs_le.1 hδ).2; norm_num at this; linarith
      norm_num at hN3 ⊢
      nlinarith
    obtain ⟨η, hη, e2, -⟩ := fl_rel_pos F.nearest hr (by norm_num)
    rw [q, e2, e1, show x * (1 / ((N : ℝ) * (1 + δ)) * (1 + η)) = x / N * ((1 + η) / (1 + δ)) by
      field_simp]
    refine small _ ?_
    rw [show (1 + η) / (1 + δ) - 1 = (η - δ) / (1 + δ) by field_simp; ring, abs_div,
      abs_of_pos (show (0 : ℝ) < 1 + δ by linarith), div_le_iff₀ (by linarith)]
    have := abs_sub η δ
    norm_num at hδ hη ⊢; linarith

theorem four_ge (j : ℤ) (D : ℤ → ℤ → ℝ) (X Y : ℤ) :
    1 / 2 ^ 140 ≤ blockAbs j D X Y + blockAbs j D X (Y - 1) + blockAbs j D (X - 1) Y
      + blockAbs j D (X - 1) (Y - 1) := by
  have h0 : (0 : ℝ) < 1 / 2 ^ 140 := by positivity
  have h1 := blockAbs_ge j D X Y
  have h2 := blockAbs_ge j D X (Y - 1)
  have h3 := blockAbs_ge j D (X - 1) Y
  have h4 := blockAbs_ge j D (X - 1) (Y - 1)
  linarith

/-- One step of the recursion. -/
theorem risboFullJ_opLe (F : XlaLib) {dl : ℤ → ℤ → ℝ} {b β e : ℝ} {L el : ℤ} (h2 : 2 ≤ el)
    (hel : 2 * el ≤ 2 ^ 30) (hb : |b| ≤ 4) (hβ : |b - β| ≤ 1 / 2 ^ 50)
    (he : e + √(2 * el : ℝ) / 2 ^ 45 ≤ 1 / 2)
    (h : OpLe (2 * el - 1) (fun k i => dl (k - (el - 1) + L - 1) (i - (el - 1) + L - 1)
      - U (Real.cos (β / 2)) (Real.sin (β / 2)) (-Real.sin (β / 2)) (Real.cos (β / 2))
        (2 * (el - 1)) k i) e) :
    OpLe (2 * el + 1) (fun k i => risboFullJ F dl b L el (k - el + L - 1) (i - el + L - 1)
      - U (Real.cos (β / 2)) (Real.sin (β / 2)) (-Real.sin (β / 2)) (Real.cos (β / 2)) (2 * el) k i)
      (e + 2 * √(2 * el : ℝ) / 2 ^ 45) := by
  have hel0 : (0 : ℝ) < el := by exact_mod_cast (by omega : 0 < el)
  have hcs : Real.cos (β / 2) ^ 2 + Real.sin (β / 2) ^ 2 = 1 := Real.cos_sq_add_sin_sq _
  obtain ⟨hc', hs'⟩ := halfAngleF F.toDoubleLib hb hβ
  unfold risboFullJ
  rw [if_neg (by omega), if_neg (by omega)]
  generalize F.cos (F.fl (b / 2)) = c' at hc'
  generalize F.sin (F.fl (b / 2)) = s' at hs'
  generalize Real.cos (β / 2) = c at *
  generalize Real.sin (β / 2) = s at *
  have hc1 : |(-c)| ≤ 1 := by rw [abs_le]; constructor <;> nlinarith [sq_nonneg s]
  have hs1 : |s| ≤ 1 := by rw [abs_le]; constructor <;> nlinarith [sq_nonneg c]
  have hc2 : |(-c') - -c| ≤ 1 / 2 ^ 49 := by rw [neg_sub_neg, abs_sub_comm]; exact hc'
  obtain ⟨j, hj⟩ : ∃ j : ℤ, j = 2 * el - 1 := ⟨_, rfl⟩
  have hj0 : (0 : ℝ) < j := by exact_mod_cast (by omega : 0 < j)
  have hj1 : (1 : ℝ) ≤ j := by exact_mod_cast (by omega : 1 ≤ j)
  -- the first pass, divided by `j`
  have first := (opLe_of_near (j := j) (ε := 1) (c := c) (s := s)
    (D := fun k i => dl (k - (el - 1) + L - 1) (i - (el - 1) + L - 1))
    (H := fun k i => risboFirstJ F dl (-c') s' L el k i / j) (by omega) (by omega) hcs (Or.inl rfl)
    (le_trans (le_add_of_nonneg_right (by positivity)) he)
    (by
      intro X Y _ _ _ _
      obtain ⟨n, -⟩ := halfStepJ_near F (fun q => [X, Y, el, 1, q]) (j := j)
        (fun k i => dl (k - (el - 1) + L - 1) (i - (el - 1) + L - 1))
        (fun k i => dl (k - (el - 1) + L - 1) (i - (el - 1) + L - 1)) (κ := 1) le_rfl
        (fun _ _ => (one_mul _).symm) (by omega) (by omega) hc1 hs1 hc2 hs' X Y
      rw [risboFirstJ_eq, ← hj]
      simp only [div_eq_mul_inv _ (j : ℝ)]
      rw [halfStep_mul, ← sub_mul, abs_mul, abs_of_pos (inv_pos.2 hj0), ← div_eq_mul_inv,
        div_le_iff₀ hj0]
      refine le_trans n ?_
      have hS := four_ge j (fun k i => dl (k - (el - 1) + L - 1) (i - (el - 1) + L - 1)) X Y
      generalize blockAbs j _ X Y + blockAbs j _ X (Y - 1) + blockAbs j _ (X - 1) Y
        + blockAbs j _ (X - 1) (Y - 1) = S at hS ⊢
      have : 0 ≤ S * j := mul_nonneg (le_trans (by positivity) hS) hj0.le
      rw [one_mul, div_mul_eq_mul_div]
      refine div_le_div_of_nonneg_right ?_ (by positivity)
      linarith)
    (by
      rw [hj]
      refine h.congr fun k i _ _ _ _ => ?_
      rw [one_mul, show 2 * el - 1 - 1 = 2 * (el - 1) by ring])).mono
    (e' := e + √(2 * el : ℝ) / 2 ^ 45) (by
      gcongr
      rw [hj]; push_cast; linarith)
  rw [show j + 1 = 2 * el by omega] at first
  -- the second pass and the division
  have second := opLe_of_near (j := 2 * el) (ε := -1) (c := c) (s := s)
    (e := e + √(2 * el : ℝ) / 2 ^ 45)
    (D := fun k i => risboFirstJ F dl (-c') s' L el k i / j)
    (H := fun k i => F.quot [k - el + L - 1, i - el + L - 1, el, 117]
      (risboSecondJ F (risboClearJax dl L el) (risboFirstJ F dl (-c') s' L el) (-c') s' L el
        (k - el + L - 1) (i - el + L - 1)) (F.fl ((2 * el) * (2 * el - 1) : ℤ)))
    (by omega) hel hcs (Or.inr rfl) he
    (by
      intro X Y hX1 hX2 hY1 hY2
      obtain ⟨n, n'⟩ := halfStepJ_near F
        (fun q => [X - el + L - 1, Y - el + L - 1, el, 2, q]) (j := 2 * el)
        (risboFirstJ F dl (-c') s' L el) (fun k i => risboFirstJ F dl (-c') s' L el k i / j)
        (κ := j) hj1 (fun _ _ => by field_simp) (by omega) (by omega) hc1 hs1 hc2 hs' X Y
      have hS := four_ge (2 * el) (fun k i => risboFirstJ F dl (-c') s' L el k i / j) X Y
      rw [risboSecondJ_eq, risboClearJax, if_pos (by omega), mul_zero,
        show X - el + L - 1 + el - L + 1 = X by ring, show Y - el + L - 1 + el - L + 1 = Y by ring]
      have e1 : halfStep (2 * el) (fun k i => risboFirstJ F dl (-c') s' L el k i / j / (2 * el : ℤ))
          (-c) s X Y = halfStep (2 * el) (risboFirstJ F dl (-c') s' L el) (-c) s X Y
            / ((2 * el) * (2 * el - 1) : ℤ) := by
        rw [← hj, div_eq_mul_inv, ← halfStep_mul]
        refine halfStep_congr _ _ _ _ _ _ _ fun k i => ?_
        push_cast
        field_simp
      have hNj : (((2 * el) * (2 * el - 1) : ℤ) : ℝ) = (2 * el : ℤ) * j := by rw [hj]; push_cast; ring
      have hN0 : (0 : ℝ) < ((2 * el) * (2 * el - 1) : ℤ) := by
        rw [hNj]; push_cast; positivity
      rw [e1]
      refine quotJ_near F (by nlinarith) (by nlinarith) ?_ ?_ hS _
      · rw [← sub_div, abs_div, abs_of_pos hN0, div_le_iff₀ hN0]
        refine le_trans n (le_of_eq ?_)
        rw [hNj]; ring
      · rw [abs_div, abs_of_pos hN0, div_le_iff₀ hN0]
        refine le_trans n' (le_of_eq ?_)
        rw [hNj]; ring)
    (by
      refine first.congr fun k i _ _ _ _ => ?_
      rw [hj])
  refine (second.mono (e' := e + 2 * √(2 * el : ℝ) / 2 ^ 45) (le_of_eq (by push_cast; ring))).congr
    fun k i h1 h3 h4 h5 => ?_
  ring

/-- The explicit plane of degree 1: division by a rounded square root. -/
theorem quotJ_one (F : XlaLib) {a a' : ℝ} (ha : |a' - a| ≤ 1 / 2 ^ 49) (ha1 : |a| ≤ 1)
    (site : List ℤ) : |F.quot site a' (F.fl √2) - a / √2| ≤ 1 / 2 ^ 47 := by
  have s2 : |F.fl √2 - √2| ≤ 2 / 2 ^ 53 := by
    refine fl_near F.nearest ?_
    rw [abs_of_nonneg (Real.sqrt_nonneg _), Real.sqrt_le_iff]; norm_num
  have s1 : (1 : ℝ) ≤ √2 := by rw [Real.one_le_sqrt]; norm_num
  rcases F.quot_is site a' (F.fl √2) with q | q
  · rw [q]; exact quotF_near F.toDoubleLib ha ha1 s1 s2
  · rw [q]
    have hb1 : (1 : ℝ) / 2 ≤ F.fl √2 := by have := (abs_le.1 s2).1; norm_num at this; linarith
    generalize F.fl √2 = b' at *
    generalize √2 = b at *
    have r0 : |1 / b| ≤ 1 := by
      rw [abs_of_pos (by positivity), div_le_one (by linarith)]; exact s1
    have r1 : |1 / b' - 1 / b| ≤ 4 / 2 ^ 53 := by
      rw [show 1 / b' - 1 / b = (b - b') * (1 / b) / b' by field_simp, abs_div,
        abs_of_pos (by linarith : 0 < b'), div_le_iff₀ (by linarith), abs_mul, abs_sub_comm]
      have : |b' - b| * |1 / b| ≤ 2 / 2 ^ 53 * 1 := mul_le_mul s2 r0 (abs_nonneg _) (by norm_num)
      norm_num at this ⊢; linarith
    have r2 := fl_step F.nearest r1 (B := 2) (by norm_num at r0 ⊢; linarith)
    generalize F.fl (1 / b') = r at *
    have h1 : |a' * r - a / b| ≤ 3 / 2 ^ 49 := by
      rw [show a' * r - a / b = (a' - a) * r + a * (r - 1 / b) by ring]
      have hr : |r| ≤ 11 / 10 := by
        have := abs_sub_abs_le_abs_sub r (1 / b)
        norm_num at r2 r0 this ⊢; linarith
      have h2 : |(a' - a) * r| ≤ 1 / 2 ^ 49 * (11 / 10) := by
        rw [abs_mul]; exact mul_le_mul ha hr (abs_nonneg _) (by norm_num)
      have h3 : |a * (r - 1 / b)| ≤ 1 * (4 / 2 ^ 53 + 2 / 2 ^ 53) := by
        rw [abs_mul]; exact mul_le_mul ha1 r2 (abs_nonneg _) (by norm_num)
      refine le_trans (abs_add_le _ _) ?_
      norm_num [-abs_mul] at h2 h3 ⊢; linarith
    have hq : |a / b| ≤ 1 := by
      rw [div_eq_mul_one_div, abs_mul]
      exact mul_le_one₀ ha1 (abs_nonneg _) r0
    refine le_trans (fl_step F.nearest h1 (B := 2) ?_) (by norm_num)
    linarith [show (3 : ℝ) / 2 ^ 49 ≤ 1 by norm_num]

/-- The explicit plane of degree 1. -/
theorem risboOneJ_near (F : XlaLib) (dl : ℤ → ℤ → ℝ) {b β : ℝ} (hb : |b| ≤ 4)
    (hβ : |b - β| ≤ 1 / 2 ^ 50) (L : ℤ) {m n : ℤ} (hm : |m| ≤ 1) (hn : |n| ≤ 1) :
    |risboOneJ F dl b L (m + L - 1) (n + L - 1) - wignerd 1 m n β| ≤ 1 / 2 ^ 47 := by
  rw [abs_le] at hm hn
  obtain ⟨hc, hs⟩ := halfAngleF F.toDoubleLib hb hβ
  have hq := squareF_near F.toDoubleLib hc (Real.abs_cos_le_one _)
  have hr := squareF_near F.toDoubleLib hs (Real.abs_sin_le_one _)
  have hsb : |F.sin b - Real.sin β| ≤ 1 / 2 ^ 49 := by
    have a := F.sin_near b
    have b' := Real.abs_sin_sub_sin_le b β
    have := abs_sub_le (F.sin b) (Real.sin b) (Real.sin β)
    norm_num at a hβ ⊢; linarith
  have ht : |F.cos b - Real.cos β| ≤ 1 / 2 ^ 47 := by
    have a := F.cos_near b
    have b' := Real.abs_cos_sub_cos_le b β
    have := abs_sub_le (F.cos b) (Real.cos b) (Real.cos β)
    norm_num at a hβ ⊢; linarith
  have hp := quotJ_one F hsb (Real.abs_sin_le_one β)
  have hp' := quotJ_one F (a := -Real.sin β) (a' := -F.sin b)
    (by rw [neg_sub_neg, abs_sub_comm]; exact hsb)
    (by rw [abs_neg]; exact Real.abs_sin_le_one β)
  obtain ⟨w1, w2, w3, w4, w5, w6, w7, w8, w9⟩ := wignerd_one β
  have i1 : -1 + L - 1 = L - 2 := by ring
  have i2 : 0 + L - 1 = L - 1 := by ring
  have i3 : 1 + L - 1 = L := by ring
  have n1 : ¬ L - 2 = L - 1 := by omega
  have n2 : ¬ L - 2 = L := by omega
  have n3 : ¬ L - 1 = L - 2 := by omega
  have n4 : ¬ L - 1 = L := by omega
  have n5 : ¬ L = L - 2 := by omega
  have n6 : ¬ L = L - 1 := by omega
  obtain rfl | rfl | rfl : m = -1 ∨ m = 0 ∨ m = 1 := by omega
  all_goals
    obtain rfl | rfl | rfl : n = -1 ∨ n = 0 ∨ n = 1 := by omega
  all_goals
    simp only [risboOneJ, set2, i1, i2, i3, n1, n2, n3, n4, n5, n6, w1, w2, w3, w4, w5, w6, w7, w8, w9,
      and_true, and_false, if_true, if_false, and_self]
    first | assumption | exact hp _ | exact hp' _

/-- Entries outside the new block: untouched, or zero if they were. -/
theorem risboFullJ_frame (F : XlaLib) (dl : ℤ → ℤ → ℝ) (β : ℝ) (L el : ℤ) (h0 : 0 ≤ el) (m n : ℤ)
    (h : el < |m| ∨ el < |n|) (hz : dl (m + L - 1) (n + L - 1) = 0) :
    risboFullJ F dl β L el (m + L - 1) (n + L - 1) = 0 := by
  rw [lt_abs, lt_abs] at h
  unfold risboFullJ
  by_cases e0 : el = 0
  · rw [if_pos e0, set2, if_neg (by omega), hz]
  rw [if_neg e0]
  by_cases e1 : el = 1
  · rw [if_pos e1]
    simp only [risboOneJ, set2]
    repeat rw [if_neg (by omega)]
    exact hz
  rw [if_neg e1]
  rw [risboSecondJ_eq, risboClearJax, if_neg (by omega), halfStepJ, if_neg (by omega), if_neg (by omega), if_neg (by omega), if_neg (by omega), hz]
  rcases F.quot_is [m + L - 1, n + L - 1, el, 117] 0 (F.fl ((2 * el) * (2 * el - 1) : ℤ)) with q | q
  · rw [q, zero_div, fl_zero F.nearest]
  · rw [q, zero_mul, fl_zero F.nearest]

theorem risboFullJ_near (F : XlaLib) {dl : ℤ → ℤ → ℝ} {b β : ℝ} {L el : ℤ} (h0 : 0 ≤ el)
    (hel : el < 2 ^ 28) (hb : |b| ≤ 4) (hβ : |b - β| ≤ 1 / 2 ^ 50)
    (hdl : if el = 0 then ∀ m n : ℤ, dl (m + L - 1) (n + L - 1) = 0 else HoldsNear dl L (el - 1) β) :
    HoldsNear (risboFullJ F dl b L el) L el β := by
  constructor
  · by_cases e0 : el = 0
    · subst e0
      have : OpLe (2 * 0 + 1) (fun k i => risboFullJ F dl b L 0 (k - 0 + L - 1) (i - 0 + L - 1)
        - U (Real.cos (β / 2)) (Real.sin (β / 2)) (-Real.sin (β / 2)) (Real.cos (β / 2)) (2 * 0) k i)
          ((2 * 0 + 1 : ℤ) * 0) := by
        refine OpLe.of_entries (by norm_num) fun k i h1 h2 h3 h4 => ?_
        have hk : k = 0 := by omega
        have hi : i = 0 := by omega
        subst hk hi
        have := wignerd_eq_U 0 0 0 β
        rw [wignerd_zero] at this
        simp only [mul_zero, add_zero] at this
        rw [mul_zero, ← this, risboFullJ, if_pos rfl]
        simp [set2]
      exact this.mono (by rw [mul_zero]; exact risboErr_nonneg le_rfl)
    rw [if_neg e0] at hdl
    by_cases e1 : el = 1
    · subst e1
      have : OpLe (2 * 1 + 1) (fun k i => risboFullJ F dl b L 1 (k - 1 + L - 1) (i - 1 + L - 1)
        - U (Real.cos (β / 2)) (Real.sin (β / 2)) (-Real.sin (β / 2)) (Real.cos (β / 2)) (2 * 1) k i)
          ((2 * 1 + 1 : ℤ) * (1 / 2 ^ 47)) := by
        refine OpLe.of_entries (by norm_num) fun k i h1 h2 h3 h4 => ?_
        have := risboOneJ_near F dl hb hβ L (m := k - 1) (n := i - 1) (by rw [abs_le]; omega)
          (by rw [abs_le]; omega)
        rw [wignerd_eq_U] at this
        rw [risboFullJ, if_neg (by norm_num), if_pos rfl]
        rwa [show 1 + (k - 1) = k by ring, show 1 + (i - 1) = i by ring] at this
      refine this.mono ?_
      have h1 : (1 : ℝ) ≤ √(((1 : ℤ) : ℝ) + 1) := by rw [Real.one_le_sqrt]; norm_num
      unfold risboErr
      generalize √(((1 : ℤ) : ℝ) + 1) = x at h1 ⊢
      norm_num
      linarith
    have h := hdl.1
    rw [show 2 * (el - 1) + 1 = 2 * el - 1 by ring] at h
    have step := risboErr_step (el := el) (by omega)
    have half : risboErr el ≤ 1 / 2 :=
      le_trans (risboErr_le h0 (n := 2 ^ 14) (by omega) (by norm_num)) (by norm_num)
    have pos : 0 ≤ √(2 * el : ℝ) / 2 ^ 45 := by positivity
    refine (risboFullJ_opLe F (by omega) (by omega) hb hβ ?_ h).mono step
    rw [mul_div_assoc] at step
    linarith
  · intro m n h
    refine risboFullJ_frame F dl b L el h0 m n h ?_
    by_cases e0 : el = 0
    · rw [if_pos e0] at hdl; exact hdl m n
    · rw [if_neg e0] at hdl
      exact hdl.2 m n (by omega)

end S2fft
