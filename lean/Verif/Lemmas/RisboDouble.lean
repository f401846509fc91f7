import Verif.Model.RisboDouble
import Verif.Lemmas.Double
import Verif.Lemmas.Risbo

/-! # The Risbo recursion in double precision: helper lemmas -/

namespace S2fft
open Spec

/-! ## Which operations reach an entry -/

/-- A loop of which only two consecutive passes do anything. -/
theorem forRange_pick2 {σ : Type*} (j a : ℤ) (h : ℤ → σ → σ)
    (hid : ∀ i v, i ≠ a → i ≠ a + 1 → h i v = v) (v : σ) :
    forRange 0 j h v = (if 0 ≤ a + 1 ∧ a + 1 < j then h (a + 1) else id)
      ((if 0 ≤ a ∧ a < j then h a else id) v) := by
  rcases le_total j 0 with hj | hj
  · rw [forRange_of_le hj, if_neg (by omega), if_neg (by omega)]; rfl
  · induction j, hj using Int.le_induction with
    | base => rw [forRange_of_le le_rfl, if_neg (by omega), if_neg (by omega)]; rfl
    | succ n hn ih =>
      rw [forRange_succ hn, ih]
      by_cases h1 : n = a
      · subst h1
        rw [if_neg (show ¬ (0 ≤ n + 1 ∧ n + 1 < n) by omega),
          if_neg (show ¬ (0 ≤ n ∧ n < n) by omega),
          if_neg (show ¬ (0 ≤ n + 1 ∧ n + 1 < n + 1) by omega), if_pos ⟨hn, by omega⟩]
        rfl
      · by_cases h2 : n = a + 1
        · subst h2
          rw [if_neg (show ¬ (0 ≤ a + 1 ∧ a + 1 < a + 1) by omega),
            if_pos (show 0 ≤ a + 1 ∧ a + 1 < a + 1 + 1 by omega)]
          by_cases h3 : 0 ≤ a
          · rw [if_pos (show 0 ≤ a ∧ a < a + 1 by omega),
              if_pos (show 0 ≤ a ∧ a < a + 1 + 1 by omega)]; rfl
          · rw [if_neg (show ¬ (0 ≤ a ∧ a < a + 1) by omega),
              if_neg (show ¬ (0 ≤ a ∧ a < a + 1 + 1) by omega)]; rfl
        · rw [hid n _ h1 h2]
          have e1 : (0 ≤ a + 1 ∧ a + 1 < n + 1) = (0 ≤ a + 1 ∧ a + 1 < n) := propext (by omega)
          have e2 : (0 ≤ a ∧ a < n + 1) = (0 ≤ a ∧ a < n) := propext (by omega)
          simp only [e1, e2]

/-- `+=` on one number, done if `p`. -/
noncomputable def updF (fl : ℝ → ℝ) (p : Prop) [Decidable p] (t v : ℝ) : ℝ :=
  if p then fl (v + t) else v

theorem add2F_apply (F : DoubleLib) (a : ℤ → ℤ → ℝ) (i k : ℤ) (t : ℝ) (x y : ℤ) :
    add2F F a i k t x y = updF F.fl (x = i ∧ y = k) t (a x y) := by
  unfold add2F set2 updF
  by_cases h : x = i ∧ y = k
  · obtain ⟨rfl, rfl⟩ := h; simp
  · rw [if_neg h, if_neg h]

/-- One pass of the inner loop seen from the entry at row `X`, column `Y`. -/
noncomputable def passF (fl : ℝ → ℝ) (T1 T2 T3 T4 : ℤ → ℤ → ℝ) (X Y k i : ℤ) (v : ℝ) : ℝ :=
  updF fl (X = k + 1 ∧ Y = i + 1) (T4 k i) (updF fl (X = k + 1 ∧ Y = i) (T3 k i)
    (updF fl (X = k ∧ Y = i + 1) (T2 k i) (updF fl (X = k ∧ Y = i) (T1 k i) v)))

/-- Both loops seen from the entry at row `X`, column `Y`. -/
theorem loopF_eq (fl : ℝ → ℝ) (T1 T2 T3 T4 : ℤ → ℤ → ℝ) (j X Y : ℤ) (v : ℝ) :
    forRange 0 j (fun k v => forRange 0 j (fun i v => passF fl T1 T2 T3 T4 X Y k i v) v) v
      = updF fl ((0 ≤ X ∧ X < j) ∧ (0 ≤ Y ∧ Y < j)) (T1 X Y)
        (updF fl ((0 ≤ X ∧ X < j) ∧ (0 ≤ Y - 1 ∧ Y - 1 < j)) (T2 X (Y - 1))
        (updF fl ((0 ≤ X - 1 ∧ X - 1 < j) ∧ (0 ≤ Y ∧ Y < j)) (T3 (X - 1) Y)
        (updF fl ((0 ≤ X - 1 ∧ X - 1 < j) ∧ (0 ≤ Y - 1 ∧ Y - 1 < j)) (T4 (X - 1) (Y - 1)) v))) := by
  have inner : ∀ k v, forRange 0 j (fun i v => passF fl T1 T2 T3 T4 X Y k i v) v
      = (if 0 ≤ Y ∧ Y < j then passF fl T1 T2 T3 T4 X Y k Y else id)
        ((if 0 ≤ Y - 1 ∧ Y - 1 < j then passF fl T1 T2 T3 T4 X Y k (Y - 1) else id) v) := by
    intro k v
    have := forRange_pick2 j (Y - 1) (fun i v => passF fl T1 T2 T3 T4 X Y k i v) (by
      intro i v h1 h2
      unfold passF updF
      rw [if_neg (by omega), if_neg (by omega), if_neg (by omega), if_neg (by omega)]) v
    rw [sub_add_cancel] at this
    exact this
  simp only [inner]
  have outer := forRange_pick2 j (X - 1) (fun k (v : ℝ) =>
      (if 0 ≤ Y ∧ Y < j then passF fl T1 T2 T3 T4 X Y k Y else id)
        ((if 0 ≤ Y - 1 ∧ Y - 1 < j then passF fl T1 T2 T3 T4 X Y k (Y - 1) else id) v)) (by
      intro k v h1 h2
      have : ∀ i v, passF fl T1 T2 T3 T4 X Y k i v = v := by
        intro i v
        unfold passF updF
        rw [if_neg (by omega), if_neg (by omega), if_neg (by omega), if_neg (by omega)]
      beta_reduce
      split_ifs <;> simp [this]) v
  rw [sub_add_cancel] at outer
  rw [outer]
  have p1 : ∀ v, passF fl T1 T2 T3 T4 X Y X Y v = fl (v + T1 X Y) := by
    intro v; unfold passF updF; split_ifs <;> first | rfl | omega
  have p2 : ∀ v, passF fl T1 T2 T3 T4 X Y X (Y - 1) v = fl (v + T2 X (Y - 1)) := by
    intro v; unfold passF updF; split_ifs <;> first | rfl | omega
  have p3 : ∀ v, passF fl T1 T2 T3 T4 X Y (X - 1) Y v = fl (v + T3 (X - 1) Y) := by
    intro v; unfold passF updF; split_ifs <;> first | rfl | omega
  have p4 : ∀ v, passF fl T1 T2 T3 T4 X Y (X - 1) (Y - 1) v = fl (v + T4 (X - 1) (Y - 1)) := by
    intro v; unfold passF updF; split_ifs <;> first | rfl | omega
  rcases Classical.propComplete (0 ≤ X ∧ X < j) with a | a <;>
    rcases Classical.propComplete (0 ≤ X - 1 ∧ X - 1 < j) with b | b <;>
    rcases Classical.propComplete (0 ≤ Y ∧ Y < j) with c | c <;>
    rcases Classical.propComplete (0 ≤ Y - 1 ∧ Y - 1 < j) with d | d <;>
    simp only [a, b, c, d, p1, p2, p3, p4, updF, if_true, if_false, and_self, and_true, true_and,
      and_false, false_and, id]

/-- What one half-step computes at row `X`, column `Y`, starting from `v`. -/
noncomputable def halfStepF (F : DoubleLib) (j : ℤ) (D : ℤ → ℤ → ℝ) (c s : ℝ) (X Y : ℤ) (v : ℝ) : ℝ :=
  updF F.fl ((0 ≤ X ∧ X < j) ∧ (0 ≤ Y ∧ Y < j))
    (prodF F (sqrtF F (j - Y)) (sqrtF F (j - X)) (D X Y) c)
  (updF F.fl ((0 ≤ X ∧ X < j) ∧ (0 ≤ Y - 1 ∧ Y - 1 < j))
    (-(prodF F (sqrtF F (Y - 1 + 1)) (sqrtF F (j - X)) (D X (Y - 1)) s))
  (updF F.fl ((0 ≤ X - 1 ∧ X - 1 < j) ∧ (0 ≤ Y ∧ Y < j))
    (prodF F (sqrtF F (j - Y)) (sqrtF F (X - 1 + 1)) (D (X - 1) Y) s)
  (updF F.fl ((0 ≤ X - 1 ∧ X - 1 < j) ∧ (0 ≤ Y - 1 ∧ Y - 1 < j))
    (prodF F (sqrtF F (Y - 1 + 1)) (sqrtF F (X - 1 + 1)) (D (X - 1) (Y - 1)) c) v)))

theorem risboFirstF_eq (F : DoubleLib) (dl : ℤ → ℤ → ℝ) (c s : ℝ) (L el x y : ℤ) :
    risboFirstF F dl c s L el x y = halfStepF F (2 * el - 1)
      (fun k i => F.fl (dl (k - (el - 1) + L - 1) (i - (el - 1) + L - 1) / F.fl ((2 * el - 1 : ℤ) : ℝ)))
      c s y x 0 := by
  obtain ⟨D, hD⟩ : ∃ D : ℤ → ℤ → ℝ, D = fun k i =>
    F.fl (dl (k - (el - 1) + L - 1) (i - (el - 1) + L - 1) / F.fl ((2 * el - 1 : ℤ) : ℝ)) := ⟨_, rfl⟩
  rw [← hD]
  have := loopF_eq F.fl
    (fun k i => prodF F (sqrtF F (2 * el - 1 - i)) (sqrtF F (2 * el - 1 - k)) (D k i) c)
    (fun k i => -(prodF F (sqrtF F (i + 1)) (sqrtF F (2 * el - 1 - k)) (D k i) s))
    (fun k i => prodF F (sqrtF F (2 * el - 1 - i)) (sqrtF F (k + 1)) (D k i) s)
    (fun k i => prodF F (sqrtF F (i + 1)) (sqrtF F (k + 1)) (D k i) c) (2 * el - 1) y x 0
  refine Eq.trans ?_ this
  unfold risboFirstF
  refine forRange_map _ _ _ _ _ (fun a : ℤ → ℤ → ℝ => a x y) (fun k a _ _ => ?_)
  refine forRange_map _ _ _ _ _ (fun a : ℤ → ℤ → ℝ => a x y) (fun i a _ _ => ?_)
  simp only [add2F_apply, passF, hD]
  have e : ∀ p q : ℤ, (x = p ∧ y = q) = (y = q ∧ x = p) := fun p q => propext and_comm
  simp only [e]

theorem risboSecondF_eq (F : DoubleLib) (dl dd : ℤ → ℤ → ℝ) (c s : ℝ) (L el x y : ℤ) :
    risboSecondF F dl dd c s L el x y = halfStepF F (2 * el)
      (fun k i => F.fl (dd i k / F.fl ((2 * el : ℤ) : ℝ)))
      c s (x + el - L + 1) (y + el - L + 1) (dl x y) := by
  obtain ⟨D, hD⟩ : ∃ D : ℤ → ℤ → ℝ, D = fun k i =>
    F.fl (dd i k / F.fl ((2 * el : ℤ) : ℝ)) := ⟨_, rfl⟩
  rw [← hD]
  have := loopF_eq F.fl
    (fun k i => prodF F (sqrtF F (2 * el - i)) (sqrtF F (2 * el - k)) (D k i) c)
    (fun k i => -(prodF F (sqrtF F (i + 1)) (sqrtF F (2 * el - k)) (D k i) s))
    (fun k i => prodF F (sqrtF F (2 * el - i)) (sqrtF F (k + 1)) (D k i) s)
    (fun k i => prodF F (sqrtF F (i + 1)) (sqrtF F (k + 1)) (D k i) c) (2 * el)
    (x + el - L + 1) (y + el - L + 1) (dl x y)
  refine Eq.trans ?_ this
  unfold risboSecondF
  refine forRange_map _ _ _ _ _ (fun a : ℤ → ℤ → ℝ => a x y) (fun k a _ _ => ?_)
  refine forRange_map _ _ _ _ _ (fun a : ℤ → ℤ → ℝ => a x y) (fun i a _ _ => ?_)
  simp only [add2F_apply, passF, hD]
  have e : ∀ p q : ℤ, (x = p - el + L - 1 ∧ y = q - el + L - 1)
      = (x + el - L + 1 = p ∧ y + el - L + 1 = q) := fun p q => propext (by omega)
  simp only [e]

/-! ## Rounding errors of one half-step -/

theorem sqrtF_rel (F : DoubleLib) {n : ℤ} (h1 : 1 ≤ n) (h2 : n ≤ 2 ^ 53) :
    ∃ δ : ℝ, |δ| ≤ 1 / 2 ^ 53 ∧ sqrtF F n = √(n : ℝ) * (1 + δ) ∧ 1 / 2 ≤ sqrtF F n := by
  unfold sqrtF
  rw [fl_int F.nearest (by rw [abs_of_pos (by omega)]; exact h2)]
  refine fl_rel_pos F.nearest ?_ (by norm_num)
  rw [Real.one_le_sqrt]
  exact_mod_cast h1

/-- Error of one of the products. -/
theorem prodF_near (F : DoubleLib) {p q j : ℤ} {D B c c' : ℝ} (hp1 : 1 ≤ p) (hp2 : p ≤ j)
    (hq1 : 1 ≤ q) (hq2 : q ≤ j) (hj : j ≤ 2 ^ 53) (hD : |D| ≤ B) (hB : 1 / 2 ^ 140 ≤ B) (hc : |c| ≤ 1)
    (hc' : |c' - c| ≤ 1 / 2 ^ 49) :
    |prodF F (sqrtF F p) (sqrtF F q) (F.fl (D / F.fl j)) c' - √(p : ℝ) * √(q : ℝ) * (D / j) * c|
        ≤ 25 * B / 2 ^ 53 ∧
      |√(p : ℝ) * √(q : ℝ) * (D / j) * c| ≤ B := by
  have hf := F.nearest
  have hj0 : (1 : ℝ) ≤ j := by exact_mod_cast (by omega : 1 ≤ j)
  have hj2 : (j : ℝ) ≤ 2 ^ 53 := by exact_mod_cast hj
  have hB0 : 0 < B := lt_of_lt_of_le (by positivity) hB
  have hB2 : (1 : ℝ) / 2 ^ 200 ≤ B := le_trans (by norm_num) hB
  rw [fl_int hf (k := j) (by rw [abs_of_pos (by omega)]; exact hj)]
  obtain ⟨a, ha, ea, la⟩ := sqrtF_rel F hp1 (by omega)
  obtain ⟨b, hb, eb, lb⟩ := sqrtF_rel F hq1 (by omega)
  unfold prodF
  obtain ⟨d, hd, ed, -⟩ := fl_rel_pos hf (x := sqrtF F p * sqrtF F q) (c := 1 / 4) (by nlinarith)
    (by norm_num)
  have hg0 : 0 ≤ √(p : ℝ) * √(q : ℝ) := by positivity
  have hgj : √(p : ℝ) * √(q : ℝ) ≤ j := by
    have h1 : √(p : ℝ) ≤ √(j : ℝ) := Real.sqrt_le_sqrt (by exact_mod_cast hp2)
    have h2 : √(q : ℝ) ≤ √(j : ℝ) := Real.sqrt_le_sqrt (by exact_mod_cast hq2)
    calc √(p : ℝ) * √(q : ℝ) ≤ √(j : ℝ) * √(j : ℝ) := by gcongr
      _ = j := Real.mul_self_sqrt (by linarith)
  have r1 := rel_step (X := 1) (e := 0) (by simp) (by norm_num) ha
  have r2 := rel_step r1 (by norm_num) hb
  have r3 := rel_step r2 (by norm_num) hd
  have hG : F.fl (sqrtF F p * sqrtF F q)
      = √(p : ℝ) * √(q : ℝ) * (1 * (1 + a) * (1 + b) * (1 + d)) := by
    rw [ed, ea, eb]; ring
  rw [hG]
  generalize 1 * (1 + a) * (1 + b) * (1 + d) = K at r3
  generalize √(p : ℝ) * √(q : ℝ) = g at hg0 hgj
  have hDj : |D / j| ≤ B / j := by
    rw [abs_div, abs_of_pos (by linarith : (0 : ℝ) < j)]; gcongr
  have hx := fl_near hf hDj (by
    rw [div_le_div_iff₀ (by positivity) (by linarith)]
    have : (1 : ℝ) / 2 ^ 140 * 2 ^ 200 ≤ B * 2 ^ 200 := by gcongr
    norm_num at hj2 this ⊢; linarith)
  have hgD : |g * (D / j)| ≤ B := by
    rw [abs_mul, abs_of_nonneg hg0]
    calc g * |D / j| ≤ j * (B / j) := by gcongr
      _ = B := by field_simp
  have hK : |K| ≤ 5 / 4 := by
    have := abs_sub_abs_le_abs_sub K 1
    rw [abs_one] at this
    norm_num at r3 ⊢; linarith
  have hP : |g * K * F.fl (D / j) - g * (D / j)| ≤ 5 * B / 2 ^ 53 := by
    have e : g * K * F.fl (D / j) - g * (D / j)
        = g * (D / j) * (K - 1) + g * (K * (F.fl (D / j) - D / j)) := by ring
    rw [e]
    have h1 : |g * (D / j) * (K - 1)| ≤ B * (0 + 5 / 4 * (1 / 2 ^ 53) + 5 / 4 * (1 / 2 ^ 53)
        + 5 / 4 * (1 / 2 ^ 53)) := by
      rw [abs_mul]; exact mul_le_mul hgD r3 (abs_nonneg _) hB0.le
    have h2 : |g * (K * (F.fl (D / j) - D / j))| ≤ 5 / 4 * B / 2 ^ 53 := by
      rw [abs_mul, abs_mul, abs_of_nonneg hg0]
      calc g * (|K| * |F.fl (D / j) - D / j|) ≤ j * (5 / 4 * (B / j / 2 ^ 53)) := by gcongr
        _ = 5 / 4 * B / 2 ^ 53 := by field_simp
    refine le_trans (abs_add_le _ _) ?_
    norm_num at h1 h2 ⊢; linarith
  have hP2 := fl_step hf hP (B := 3 / 2 * B) (by norm_num at hgD ⊢; linarith) (by linarith)
  generalize F.fl (g * K * F.fl (D / j)) = P at hP2
  have hc1 : |c'| ≤ 11 / 10 := by
    have := abs_sub_abs_le_abs_sub c' c
    norm_num at hc' ⊢; linarith
  have hQ2 : |g * (D / j) * c| ≤ B := by
    rw [abs_mul]
    calc |g * (D / j)| * |c| ≤ B * 1 := mul_le_mul hgD hc (abs_nonneg _) hB0.le
      _ = B := mul_one _
  have hQ : |P * c' - g * (D / j) * c| ≤ 47 / 2 * B / 2 ^ 53 := by
    have e : P * c' - g * (D / j) * c = (P - g * (D / j)) * c' + g * (D / j) * (c' - c) := by ring
    rw [e]
    have h1 : |(P - g * (D / j)) * c'| ≤ (5 * B / 2 ^ 53 + 3 / 2 * B / 2 ^ 53) * (11 / 10) := by
      rw [abs_mul]; exact mul_le_mul hP2 hc1 (abs_nonneg _) (by positivity)
    have h2 : |g * (D / j) * (c' - c)| ≤ B * (1 / 2 ^ 49) := by
      rw [abs_mul]; exact mul_le_mul hgD hc' (abs_nonneg _) hB0.le
    refine le_trans (abs_add_le _ _) ?_
    norm_num at h1 h2 ⊢; linarith
  have hQ3 := fl_step hf hQ (B := 3 / 2 * B) (by norm_num at hQ2 ⊢; linarith) (by linarith)
  exact ⟨le_trans hQ3 (le_of_eq (by ring)), hQ2⟩

/-- Error of one of the sums. -/
theorem updF_near (F : DoubleLib) {p : Prop} [Decidable p] {t t' v w a W B : ℝ}
    (h : |v - w| ≤ a * W / 2 ^ 53) (hw : |w| ≤ W) (hW : 0 ≤ W) (ha : 25 ≤ a) (ha' : a ≤ 40)
    (hB : 1 / 2 ^ 140 ≤ B) (ht : p → |t' - t| ≤ 25 * B / 2 ^ 53 ∧ |t| ≤ B) :
    |updF F.fl p t' v - (w + if p then t else 0)| ≤ (a + 2) * (W + B) / 2 ^ 53 ∧
      |w + if p then t else 0| ≤ W + B ∧ 0 ≤ W + B := by
  have hB0 : 0 < B := lt_of_lt_of_le (by positivity) hB
  have hB2 : (1 : ℝ) / 2 ^ 200 ≤ B := le_trans (by norm_num) hB
  have haW : a * W ≤ (a + 2) * (W + B) := by nlinarith
  unfold updF
  refine ⟨?_, ?_, by linarith⟩
  · split_ifs with hp
    · obtain ⟨h1, h2⟩ := ht hp
      have hwt : |w + t| ≤ W + B := le_trans (abs_add_le _ _) (by linarith)
      have h3 : |v + t' - (w + t)| ≤ a * (W + B) / 2 ^ 53 := by
        rw [show v + t' - (w + t) = (v - w) + (t' - t) by ring]
        refine le_trans (abs_add_le _ _) (le_trans (add_le_add h h1) ?_)
        rw [← add_div]
        gcongr
        nlinarith
      have h5 : a * (W + B) / 2 ^ 53 ≤ W + B := by
        rw [div_le_iff₀ (by positivity), mul_comm]
        gcongr
        norm_num; linarith
      have h4 := fl_step F.nearest h3 (B := 2 * (W + B)) (by linarith) (by linarith)
      refine le_trans h4 (le_of_eq (by ring))
    · rw [add_zero]
      refine le_trans h ?_
      gcongr
  · split_ifs with hp
    · exact le_trans (abs_add_le _ _) (by linarith [(ht hp).2])
    · rw [add_zero]; linarith

/-- The size of an entry of a `j × j` block (zero outside), kept away from zero. -/
noncomputable def blockAbs (j : ℤ) (D : ℤ → ℤ → ℝ) (x y : ℤ) : ℝ :=
  (if (0 ≤ x ∧ x < j) ∧ (0 ≤ y ∧ y < j) then |D x y| else 0) + 1 / 2 ^ 140

theorem blockAbs_ge (j : ℤ) (D : ℤ → ℤ → ℝ) (x y : ℤ) : 1 / 2 ^ 140 ≤ blockAbs j D x y := by
  unfold blockAbs
  split_ifs
  · linarith [abs_nonneg (D x y)]
  · linarith

theorem le_blockAbs {j : ℤ} (D : ℤ → ℤ → ℝ) {x y : ℤ} (h : (0 ≤ x ∧ x < j) ∧ (0 ≤ y ∧ y < j)) :
    |D x y| ≤ blockAbs j D x y := by
  unfold blockAbs
  rw [if_pos h]
  linarith [show (0 : ℝ) < 1 / 2 ^ 140 by positivity]

/-- Error of one half-step: relative to the entries that contribute. -/
theorem halfStepF_near (F : DoubleLib) {j : ℤ} (D : ℤ → ℤ → ℝ) {c s c' s' : ℝ} (hj : j ≤ 2 ^ 53)
    (hc : |c| ≤ 1) (hs : |s| ≤ 1)
    (hc' : |c' - c| ≤ 1 / 2 ^ 49) (hs' : |s' - s| ≤ 1 / 2 ^ 49) (X Y : ℤ) :
    |halfStepF F j (fun k i => F.fl (D k i / F.fl j)) c' s' X Y 0
      - halfStep j (fun k i => D k i / j) c s X Y|
      ≤ 33 * (blockAbs j D (X - 1) (Y - 1) + blockAbs j D (X - 1) Y + blockAbs j D X (Y - 1)
        + blockAbs j D X Y) / 2 ^ 53 := by
  have a4 := updF_near F (p := (0 ≤ X - 1 ∧ X - 1 < j) ∧ (0 ≤ Y - 1 ∧ Y - 1 < j))
    (t' := prodF F (sqrtF F (Y - 1 + 1)) (sqrtF F (X - 1 + 1))
      (F.fl (D (X - 1) (Y - 1) / F.fl j)) c')
    (t := √((Y - 1 + 1 : ℤ) : ℝ) * √((X - 1 + 1 : ℤ) : ℝ) * (D (X - 1) (Y - 1) / j) * c)
    (v := 0) (w := 0) (a := 25) (W := 0) (by simp) (by simp) le_rfl le_rfl (by norm_num)
    (blockAbs_ge j D (X - 1) (Y - 1))
    (fun h => prodF_near F (by omega) (by omega) (by omega) (by omega) hj
      (le_blockAbs D h) (blockAbs_ge _ _ _ _) hc hc')
  have a3 := updF_near F (p := (0 ≤ X - 1 ∧ X - 1 < j) ∧ (0 ≤ Y ∧ Y < j))
    (t' := prodF F (sqrtF F (j - Y)) (sqrtF F (X - 1 + 1)) (F.fl (D (X - 1) Y / F.fl j)) s')
    (t := √((j - Y : ℤ) : ℝ) * √((X - 1 + 1 : ℤ) : ℝ) * (D (X - 1) Y / j) * s)
    a4.1 a4.2.1 a4.2.2 (by norm_num) (by norm_num) (blockAbs_ge j D (X - 1) Y)
    (fun h => prodF_near F (by omega) (by omega) (by omega) (by omega) hj
      (le_blockAbs D h) (blockAbs_ge _ _ _ _) hs hs')
  have a2 := updF_near F (p := (0 ≤ X ∧ X < j) ∧ (0 ≤ Y - 1 ∧ Y - 1 < j))
    (t' := -prodF F (sqrtF F (Y - 1 + 1)) (sqrtF F (j - X)) (F.fl (D X (Y - 1) / F.fl j)) s')
    (t := -(√((Y - 1 + 1 : ℤ) : ℝ) * √((j - X : ℤ) : ℝ) * (D X (Y - 1) / j) * s))
    a3.1 a3.2.1 a3.2.2 (by norm_num) (by norm_num) (blockAbs_ge j D X (Y - 1))
    (fun h => by
      rw [abs_neg, neg_sub_neg, abs_sub_comm]
      exact prodF_near F (by omega) (by omega) (by omega) (by omega) hj
        (le_blockAbs D h) (blockAbs_ge _ _ _ _) hs hs')
  have a1 := updF_near F (p := (0 ≤ X ∧ X < j) ∧ (0 ≤ Y ∧ Y < j))
    (t' := prodF F (sqrtF F (j - Y)) (sqrtF F (j - X)) (F.fl (D X Y / F.fl j)) c')
    (t := √((j - Y : ℤ) : ℝ) * √((j - X : ℤ) : ℝ) * (D X Y / j) * c)
    a2.1 a2.2.1 a2.2.2 (by norm_num) (by norm_num) (blockAbs_ge j D X Y)
    (fun h => prodF_near F (by omega) (by omega) (by omega) (by omega) hj
      (le_blockAbs D h) (blockAbs_ge _ _ _ _) hc hc')
  have e : halfStep j (fun k i => D k i / j) c s X Y
      = 0 + (if (0 ≤ X - 1 ∧ X - 1 < j) ∧ (0 ≤ Y - 1 ∧ Y - 1 < j) then
          √((Y - 1 + 1 : ℤ) : ℝ) * √((X - 1 + 1 : ℤ) : ℝ) * (D (X - 1) (Y - 1) / j) * c else 0)
        + (if (0 ≤ X - 1 ∧ X - 1 < j) ∧ (0 ≤ Y ∧ Y < j) then
          √((j - Y : ℤ) : ℝ) * √((X - 1 + 1 : ℤ) : ℝ) * (D (X - 1) Y / j) * s else 0)
        + (if (0 ≤ X ∧ X < j) ∧ (0 ≤ Y - 1 ∧ Y - 1 < j) then
          -(√((Y - 1 + 1 : ℤ) : ℝ) * √((j - X : ℤ) : ℝ) * (D X (Y - 1) / j) * s) else 0)
        + (if (0 ≤ X ∧ X < j) ∧ (0 ≤ Y ∧ Y < j) then
          √((j - Y : ℤ) : ℝ) * √((j - X : ℤ) : ℝ) * (D X Y / j) * c else 0) := by
    unfold halfStep
    push_cast
    ring
  rw [e]
  unfold halfStepF
  refine le_trans a1.1 (le_of_eq ?_)
  ring

/-! ## Half-steps do not amplify errors

`OpLe n X e` says that the `n × n` matrix `X`, as an operator on vectors with the Euclidean norm, has
norm at most `e`. -/

/-- `2 |⟨u, X v⟩| ≤ e (‖u‖² + ‖v‖²)` for all vectors. -/
def OpLe (n : ℤ) (X : ℤ → ℤ → ℝ) (e : ℝ) : Prop :=
  ∀ u v : ℤ → ℝ, 2 * |∑ k ∈ Finset.Ico 0 n, ∑ i ∈ Finset.Ico 0 n, X k i * (u k * v i)|
    ≤ e * (∑ k ∈ Finset.Ico 0 n, u k ^ 2 + ∑ i ∈ Finset.Ico 0 n, v i ^ 2)

theorem OpLe.congr {n : ℤ} {X Y : ℤ → ℤ → ℝ} {e : ℝ} (h : OpLe n X e)
    (hXY : ∀ k i, 0 ≤ k → k < n → 0 ≤ i → i < n → X k i = Y k i) : OpLe n Y e := by
  intro u v
  have e1 : ∑ k ∈ Finset.Ico 0 n, ∑ i ∈ Finset.Ico 0 n, Y k i * (u k * v i)
      = ∑ k ∈ Finset.Ico 0 n, ∑ i ∈ Finset.Ico 0 n, X k i * (u k * v i) := by
    refine Finset.sum_congr rfl fun k hk => Finset.sum_congr rfl fun i hi => ?_
    rw [Finset.mem_Ico] at hk hi
    rw [hXY k i hk.1 hk.2 hi.1 hi.2]
  rw [e1]
  exact h u v

theorem OpLe.mono {n : ℤ} {X : ℤ → ℤ → ℝ} {e e' : ℝ} (h : OpLe n X e) (he : e ≤ e') :
    OpLe n X e' := fun u v => le_trans (h u v) (mul_le_mul_of_nonneg_right he
      (add_nonneg (Finset.sum_nonneg fun _ _ => sq_nonneg _) (Finset.sum_nonneg fun _ _ => sq_nonneg _)))

theorem OpLe.neg {n : ℤ} {X : ℤ → ℤ → ℝ} {e : ℝ} (h : OpLe n X e) :
    OpLe n (fun k i => -X k i) e := by
  intro u v
  have := h u v
  simp only [neg_mul, Finset.sum_neg_distrib, abs_neg]
  exact this

theorem OpLe.add {n : ℤ} {X Y : ℤ → ℤ → ℝ} {a b : ℝ} (h : OpLe n X a) (h' : OpLe n Y b) :
    OpLe n (fun k i => X k i + Y k i) (a + b) := by
  intro u v
  have h1 := h u v
  have h2 := h' u v
  simp only [add_mul, Finset.sum_add_distrib]
  have := abs_add_le (∑ k ∈ Finset.Ico 0 n, ∑ i ∈ Finset.Ico 0 n, X k i * (u k * v i))
    (∑ k ∈ Finset.Ico 0 n, ∑ i ∈ Finset.Ico 0 n, Y k i * (u k * v i))
  linarith

/-- Entries are bounded by the norm. -/
theorem OpLe.entry {n : ℤ} {X : ℤ → ℤ → ℝ} {e : ℝ} (h : OpLe n X e) {k i : ℤ} (hk : 0 ≤ k)
    (hkn : k < n) (hi : 0 ≤ i) (hin : i < n) : |X k i| ≤ e := by
  have := h (fun x => if x = k then 1 else 0) (fun x => if x = i then 1 else 0)
  have mk : k ∈ Finset.Ico 0 n := by simp; omega
  have mi : i ∈ Finset.Ico 0 n := by simp; omega
  have e1 : ∑ x ∈ Finset.Ico 0 n, ∑ y ∈ Finset.Ico 0 n, X x y *
      ((if x = k then (1 : ℝ) else 0) * (if y = i then 1 else 0)) = X k i := by
    rw [Finset.sum_eq_single k, Finset.sum_eq_single i]
    · simp
    · intro b _ hb; simp [hb]
    · intro hb; exact absurd mi hb
    · intro b _ hb; simp [hb]
    · intro hb; exact absurd mk hb
  have e2 : ∀ c ∈ Finset.Ico 0 n, ∑ x ∈ Finset.Ico 0 n, (if x = c then (1 : ℝ) else 0) ^ 2 = 1 := by
    intro c hc
    rw [Finset.sum_eq_single c]
    · simp
    · intro b _ hb; simp [hb]
    · intro hb; exact absurd hc hb
  rw [e1, e2 k mk, e2 i mi] at this
  linarith

/-- The norm is bounded by the size of the entries. -/
theorem OpLe.of_entries {n : ℤ} {X : ℤ → ℤ → ℝ} {e : ℝ} (hn : 0 ≤ n)
    (h : ∀ k i, 0 ≤ k → k < n → 0 ≤ i → i < n → |X k i| ≤ e) : OpLe n X (n * e) := by
  intro u v
  have hcard : ((Finset.Ico 0 n).card : ℝ) = n := by
    rw [Int.card_Ico, sub_zero]
    exact_mod_cast Int.toNat_of_nonneg hn
  have h1 : |∑ k ∈ Finset.Ico 0 n, ∑ i ∈ Finset.Ico 0 n, X k i * (u k * v i)|
      ≤ ∑ k ∈ Finset.Ico 0 n, ∑ i ∈ Finset.Ico 0 n, e * ((u k ^ 2 + v i ^ 2) / 2) := by
    refine le_trans (Finset.abs_sum_le_sum_abs _ _) (Finset.sum_le_sum fun k hk => ?_)
    refine le_trans (Finset.abs_sum_le_sum_abs _ _) (Finset.sum_le_sum fun i hi => ?_)
    rw [Finset.mem_Ico] at hk hi
    have := h k i hk.1 hk.2 hi.1 hi.2
    rw [abs_mul]
    refine mul_le_mul this ?_ (abs_nonneg _) (le_trans (abs_nonneg _) this)
    rw [abs_mul, ← sq_abs (u k), ← sq_abs (v i)]
    nlinarith [sq_nonneg (|u k| - |v i|)]
  have h2 : ∑ k ∈ Finset.Ico 0 n, ∑ i ∈ Finset.Ico 0 n, e * ((u k ^ 2 + v i ^ 2) / 2)
      = n * e * (∑ k ∈ Finset.Ico 0 n, u k ^ 2 + ∑ i ∈ Finset.Ico 0 n, v i ^ 2) / 2 := by
    simp only [← Finset.mul_sum, ← Finset.sum_div, Finset.sum_add_distrib, Finset.sum_const,
      nsmul_eq_mul, hcard]
    ring
  rw [h2] at h1
  linarith

/-- The norm is bounded by the square root of the sum of the squares of the entries. -/
theorem OpLe.of_sq {n : ℤ} {X : ℤ → ℤ → ℝ} {e : ℝ} (he : 0 ≤ e)
    (h : ∑ k ∈ Finset.Ico 0 n, ∑ i ∈ Finset.Ico 0 n, X k i ^ 2 ≤ e ^ 2) : OpLe n X e := by
  intro u v
  have h1 := Finset.sum_mul_sq_le_sq_mul_sq (Finset.Ico 0 n ×ˢ Finset.Ico 0 n)
    (fun p : ℤ × ℤ => X p.1 p.2) (fun p => u p.1 * v p.2)
  rw [Finset.sum_product, Finset.sum_product, Finset.sum_product] at h1
  simp only at h1
  have e1 : ∑ k ∈ Finset.Ico 0 n, ∑ i ∈ Finset.Ico 0 n, (u k * v i) ^ 2
      = (∑ k ∈ Finset.Ico 0 n, u k ^ 2) * ∑ i ∈ Finset.Ico 0 n, v i ^ 2 := by
    rw [Finset.sum_mul_sum]
    exact Finset.sum_congr rfl fun k _ => Finset.sum_congr rfl fun i _ => mul_pow _ _ _
  rw [e1] at h1
  have hA : 0 ≤ ∑ k ∈ Finset.Ico 0 n, u k ^ 2 := Finset.sum_nonneg fun _ _ => sq_nonneg _
  have hB : 0 ≤ ∑ i ∈ Finset.Ico 0 n, v i ^ 2 := Finset.sum_nonneg fun _ _ => sq_nonneg _
  generalize ∑ k ∈ Finset.Ico 0 n, u k ^ 2 = A at *
  generalize ∑ i ∈ Finset.Ico 0 n, v i ^ 2 = B at *
  generalize ∑ k ∈ Finset.Ico 0 n, ∑ i ∈ Finset.Ico 0 n, X k i * (u k * v i) = S at *
  generalize ∑ k ∈ Finset.Ico 0 n, ∑ i ∈ Finset.Ico 0 n, X k i ^ 2 = Q at *
  have h2 : S ^ 2 ≤ e ^ 2 * (A * B) := le_trans h1 (mul_le_mul_of_nonneg_right h (mul_nonneg hA hB))
  rw [← abs_two, ← abs_mul]
  refine abs_le_of_sq_le_sq ?_ (mul_nonneg he (by linarith))
  nlinarith [mul_nonneg (sq_nonneg e) (sq_nonneg (A - B))]

/-- The norm bounds the columns. -/
theorem OpLe.col {n : ℤ} {X : ℤ → ℤ → ℝ} {e : ℝ} (h : OpLe n X e) {i : ℤ} (hi : 0 ≤ i) (hin : i < n) :
    ∑ k ∈ Finset.Ico 0 n, X k i ^ 2 ≤ e ^ 2 := by
  have he : 0 ≤ e := le_trans (abs_nonneg _) (h.entry hi hin hi hin)
  have key : ∀ s : ℝ, 2 * |s * ∑ k ∈ Finset.Ico 0 n, X k i ^ 2|
      ≤ e * (∑ k ∈ Finset.Ico 0 n, X k i ^ 2 + s ^ 2) := by
    intro s
    have := h (fun k => X k i) (fun y => if y = i then s else 0)
    have mi : i ∈ Finset.Ico 0 n := by simp; omega
    have e1 : ∑ k ∈ Finset.Ico 0 n, ∑ y ∈ Finset.Ico 0 n, X k y * (X k i * (if y = i then s else 0))
        = s * ∑ k ∈ Finset.Ico 0 n, X k i ^ 2 := by
      rw [Finset.mul_sum]
      refine Finset.sum_congr rfl fun k _ => ?_
      rw [Finset.sum_eq_single i]
      · rw [if_pos rfl]; ring
      · intro b _ hb; simp [hb]
      · intro hb; exact absurd mi hb
    have e2 : ∑ y ∈ Finset.Ico 0 n, (if y = i then s else (0 : ℝ)) ^ 2 = s ^ 2 := by
      rw [Finset.sum_eq_single i]
      · rw [if_pos rfl]
      · intro b _ hb; simp [hb]
      · intro hb; exact absurd mi hb
    rw [e1, e2] at this
    exact this
  have hS : 0 ≤ ∑ k ∈ Finset.Ico 0 n, X k i ^ 2 := Finset.sum_nonneg fun _ _ => sq_nonneg _
  generalize ∑ k ∈ Finset.Ico 0 n, X k i ^ 2 = S at *
  rcases eq_or_lt_of_le he with h0 | h0
  · have := key 1
    rw [← h0, zero_mul, one_mul, abs_of_nonneg hS] at this
    rw [← h0]; linarith
  · have := key e
    rw [abs_of_nonneg (mul_nonneg he hS)] at this
    nlinarith

theorem sum_block_shift {j a : ℤ} (hj : 0 ≤ j) (ha : a = 0 ∨ a = 1) (g : ℤ → ℝ)
    (hz : ∀ x, ¬ (0 ≤ x ∧ x < j) → g x = 0) :
    ∑ x ∈ Finset.Ico 0 (j + 1), g (x - a) = ∑ x ∈ Finset.Ico 0 j, g x := by
  rcases ha with rfl | rfl
  · simp only [sub_zero]
    rw [sum_Ico_succ_top' hj, hz j (by omega), add_zero]
  · have e : ∀ n : ℤ, 0 ≤ n → ∑ x ∈ Finset.Ico 0 (n + 1), g (x - 1) = ∑ x ∈ Finset.Ico 0 n, g x := by
      intro n hn
      induction n, hn using Int.le_induction with
      | base =>
        rw [sum_Ico_succ_top' le_rfl]
        simp [hz (-1) (by omega)]
      | succ n hn ih => rw [sum_Ico_succ_top' (by omega), ih, sum_Ico_succ_top' hn, add_sub_cancel_right]
    exact e j hj

/-- The contributions of a shifted block to the error of a half-step. -/
theorem sum_blockAbs {j a b : ℤ} {D : ℤ → ℤ → ℝ} {e : ℝ} (hj : 1 ≤ j) (hj1 : j ≤ 2 ^ 30)
    (ha : a = 0 ∨ a = 1) (hb : b = 0 ∨ b = 1) (h : OpLe j D e) (he : e ≤ 3 / 2) :
    ∑ x ∈ Finset.Ico 0 (j + 1), ∑ y ∈ Finset.Ico 0 (j + 1), blockAbs j D (x - a) (y - b) ^ 2
      ≤ 3 * j := by
  have he0 : 0 ≤ e := le_trans (abs_nonneg _) (h.entry (k := 0) (i := 0) le_rfl (by omega) le_rfl (by omega))
  have hcard : ∀ n : ℤ, 0 ≤ n → ((Finset.Ico 0 n).card : ℝ) = n := by
    intro n hn
    rw [Int.card_Ico, sub_zero]
    exact_mod_cast Int.toNat_of_nonneg hn
  let z : ℤ → ℤ → ℝ := fun x y => (if (0 ≤ x ∧ x < j) ∧ (0 ≤ y ∧ y < j) then |D x y| else 0) ^ 2
  have h1 : ∀ x y, blockAbs j D x y ^ 2 ≤ z x y + 5 / 2 ^ 140 := by
    intro x y
    simp only [z]
    unfold blockAbs
    split_ifs with hc
    · have := h.entry hc.1.1 hc.1.2 hc.2.1 hc.2.2
      have h0 := abs_nonneg (D x y)
      generalize |D x y| = v at *
      have e1 : (v + 1 / 2 ^ 140) ^ 2 = v ^ 2 + 2 * v * (1 / 2 ^ 140) + (1 / 2 ^ 140) ^ 2 := by ring
      have e2 : 2 * v * (1 / 2 ^ 140) ≤ 3 * (1 / 2 ^ 140) := by gcongr; linarith
      have e3 : ((1 : ℝ) / 2 ^ 140) ^ 2 ≤ 2 * (1 / 2 ^ 140) := by norm_num
      have e4 : (5 : ℝ) / 2 ^ 140 = 3 * (1 / 2 ^ 140) + 2 * (1 / 2 ^ 140) := by ring
      linarith
    · norm_num
  have h2 : ∑ x ∈ Finset.Ico 0 (j + 1), ∑ y ∈ Finset.Ico 0 (j + 1), z (x - a) (y - b)
      = ∑ y ∈ Finset.Ico 0 j, ∑ x ∈ Finset.Ico 0 j, D x y ^ 2 := by
    rw [sum_block_shift (by omega) ha (fun x => ∑ y ∈ Finset.Ico 0 (j + 1), z x (y - b)) ?_, Finset.sum_comm]
    · rw [sum_block_shift (by omega) hb (fun y => ∑ x ∈ Finset.Ico 0 j, z x y) ?_]
      · refine Finset.sum_congr rfl fun y hy => Finset.sum_congr rfl fun x hx => ?_
        rw [Finset.mem_Ico] at hx hy
        simp only [z]
        rw [if_pos ⟨hx, hy⟩, sq_abs]
      · intro y hy
        refine Finset.sum_eq_zero fun x _ => ?_
        simp only [z]
        rw [if_neg (by tauto)]; norm_num
    · intro x hx
      refine Finset.sum_eq_zero fun y _ => ?_
      simp only [z]
      rw [if_neg (by tauto)]; norm_num
  have h3 : ∑ y ∈ Finset.Ico 0 j, ∑ x ∈ Finset.Ico 0 j, D x y ^ 2 ≤ 9 / 4 * j := by
    have : ∀ y ∈ Finset.Ico 0 j, ∑ x ∈ Finset.Ico 0 j, D x y ^ 2 ≤ 9 / 4 := by
      intro y hy
      rw [Finset.mem_Ico] at hy
      refine le_trans (h.col hy.1 hy.2) ?_
      nlinarith
    refine le_trans (Finset.sum_le_card_nsmul _ _ _ this) (le_of_eq ?_)
    rw [nsmul_eq_mul, hcard j (by omega)]; ring
  calc ∑ x ∈ Finset.Ico 0 (j + 1), ∑ y ∈ Finset.Ico 0 (j + 1), blockAbs j D (x - a) (y - b) ^ 2
      ≤ ∑ x ∈ Finset.Ico 0 (j + 1), ∑ y ∈ Finset.Ico 0 (j + 1), (z (x - a) (y - b) + 5 / 2 ^ 140) :=
        Finset.sum_le_sum fun x _ => Finset.sum_le_sum fun y _ => h1 _ _
    _ = ∑ y ∈ Finset.Ico 0 j, ∑ x ∈ Finset.Ico 0 j, D x y ^ 2
        + ((j : ℝ) + 1) * (((j : ℝ) + 1) * (5 / 2 ^ 140)) := by
        simp only [Finset.sum_add_distrib, h2, Finset.sum_const, nsmul_eq_mul, hcard (j + 1) (by omega)]
        push_cast; ring
    _ ≤ 9 / 4 * j + 1 / 2 := by
        have hj' : (j : ℝ) + 1 ≤ 2 ^ 31 := by exact_mod_cast (by omega : j + 1 ≤ 2 ^ 31)
        have hj0 : (0 : ℝ) ≤ (j : ℝ) + 1 := by exact_mod_cast (by omega : 0 ≤ j + 1)
        have : ((j : ℝ) + 1) * (((j : ℝ) + 1) * (5 / 2 ^ 140)) ≤ 2 ^ 31 * (2 ^ 31 * (5 / 2 ^ 140)) := by
          gcongr
        norm_num at this ⊢
        linarith
    _ ≤ 3 * j := by
        have : (1 : ℝ) ≤ j := by exact_mod_cast hj
        linarith

theorem sum_half_sq (u : ℤ → ℝ) (j : ℤ) (hj : 0 ≤ j) :
    ∑ k ∈ Finset.Ico 0 j, ((√((j : ℝ) - k) * u k) ^ 2 + (√((k : ℝ) + 1) * u (k + 1)) ^ 2)
      = j * ∑ k ∈ Finset.Ico 0 (j + 1), u k ^ 2 := by
  have h1 : ∀ n : ℤ, 0 ≤ n → ∑ k ∈ Finset.Ico 0 n, (((j : ℝ) - k) * u k ^ 2
      + ((k : ℝ) + 1) * u (k + 1) ^ 2) = j * ∑ k ∈ Finset.Ico 0 n, u k ^ 2 + n * u n ^ 2 := by
    intro n hn
    induction n, hn using Int.le_induction with
    | base => simp
    | succ n hn ih =>
      rw [sum_Ico_succ_top' hn, ih, sum_Ico_succ_top' hn]
      push_cast; ring
  rw [sum_Ico_succ_top' hj, mul_add, ← h1 j hj]
  refine Finset.sum_congr rfl fun k hk => ?_
  rw [Finset.mem_Ico] at hk
  have e1 : (0 : ℝ) ≤ (j : ℝ) - k := by
    have : (k : ℝ) ≤ j := by exact_mod_cast hk.2.le
    linarith
  have e2 : (0 : ℝ) ≤ (k : ℝ) + 1 := by
    have : (0 : ℝ) ≤ k := by exact_mod_cast hk.1
    linarith
  rw [mul_pow, mul_pow, Real.sq_sqrt e1, Real.sq_sqrt e2]

/-- The bilinear form of the result of a half-step. -/
theorem bilin_halfStep (j : ℤ) (D : ℤ → ℤ → ℝ) (c s : ℝ) (u v : ℤ → ℝ) :
    ∑ X ∈ Finset.Ico 0 (j + 1), ∑ Y ∈ Finset.Ico 0 (j + 1), halfStep j D c s X Y * (u X * v Y)
      = ∑ k ∈ Finset.Ico 0 j, ∑ i ∈ Finset.Ico 0 j, D k i *
          ((√((j : ℝ) - k) * u k) * (c * (√((j : ℝ) - i) * v i) - s * (√((i : ℝ) + 1) * v (i + 1))))
        + ∑ k ∈ Finset.Ico 0 j, ∑ i ∈ Finset.Ico 0 j, D k i *
          ((√((k : ℝ) + 1) * u (k + 1)) *
            (s * (√((j : ℝ) - i) * v i) + c * (√((i : ℝ) + 1) * v (i + 1)))) := by
  simp only [← sum_halfTerms, Finset.sum_mul]
  have sw : ∑ X ∈ Finset.Ico 0 (j + 1), ∑ Y ∈ Finset.Ico 0 (j + 1), ∑ k ∈ Finset.Ico 0 j,
        ∑ i ∈ Finset.Ico 0 j, halfTerms j D c s X Y k i * (u X * v Y)
      = ∑ k ∈ Finset.Ico 0 j, ∑ i ∈ Finset.Ico 0 j, ∑ X ∈ Finset.Ico 0 (j + 1),
        ∑ Y ∈ Finset.Ico 0 (j + 1), halfTerms j D c s X Y k i * (u X * v Y) := by
    calc _ = ∑ X ∈ Finset.Ico 0 (j + 1), ∑ k ∈ Finset.Ico 0 j, ∑ i ∈ Finset.Ico 0 j,
          ∑ Y ∈ Finset.Ico 0 (j + 1), halfTerms j D c s X Y k i * (u X * v Y) := by
          refine Finset.sum_congr rfl fun X _ => ?_
          rw [Finset.sum_comm]
          exact Finset.sum_congr rfl fun k _ => Finset.sum_comm
      _ = _ := by
          rw [Finset.sum_comm]
          exact Finset.sum_congr rfl fun k _ => Finset.sum_comm
  rw [sw, ← Finset.sum_add_distrib]
  refine Finset.sum_congr rfl fun k hk => ?_
  rw [← Finset.sum_add_distrib]
  refine Finset.sum_congr rfl fun i hi => ?_
  rw [Finset.mem_Ico] at hk hi
  have pick : ∀ (a b : ℤ) (t : ℝ), a ∈ Finset.Ico 0 (j + 1) → b ∈ Finset.Ico 0 (j + 1) →
      ∑ X ∈ Finset.Ico 0 (j + 1), ∑ Y ∈ Finset.Ico 0 (j + 1),
        (if Y = b ∧ X = a then t else 0) * (u X * v Y) = t * (u a * v b) := by
    intro a b t ha hb
    rw [Finset.sum_eq_single a, Finset.sum_eq_single b]
    · simp
    · intro x _ hx; simp [hx]
    · intro hx; exact absurd hb hx
    · intro x _ hx; simp [hx]
    · intro hx; exact absurd ha hx
  simp only [halfTerms, sub_eq_iff_eq_add, add_mul, Finset.sum_add_distrib]
  rw [pick k i _ (by simp; omega) (by simp; omega), pick k (i + 1) _ (by simp; omega) (by simp; omega),
    pick (k + 1) i _ (by simp; omega) (by simp; omega),
    pick (k + 1) (i + 1) _ (by simp; omega) (by simp; omega)]
  ring

/-- A half-step does not increase the norm. -/
theorem OpLe.halfStep {j : ℤ} {X : ℤ → ℤ → ℝ} {e c s : ℝ} (h : OpLe j X e) (hj : 1 ≤ j)
    (hcs : c ^ 2 + s ^ 2 = 1) : OpLe (j + 1) (halfStep j (fun k i => X k i / j) c s) e := by
  intro u v
  have hj0 : (0 : ℝ) < j := by exact_mod_cast (by omega : 0 < j)
  rw [bilin_halfStep]
  have h1 := h (fun k => √((j : ℝ) - k) * u k)
    (fun i => c * (√((j : ℝ) - i) * v i) - s * (√((i : ℝ) + 1) * v (i + 1)))
  have h2 := h (fun k => √((k : ℝ) + 1) * u (k + 1))
    (fun i => s * (√((j : ℝ) - i) * v i) + c * (√((i : ℝ) + 1) * v (i + 1)))
  simp only [div_mul_eq_mul_div, ← Finset.sum_div]
  rw [← add_div, abs_div, abs_of_pos hj0]
  have ha := abs_add_le (∑ k ∈ Finset.Ico 0 j, ∑ i ∈ Finset.Ico 0 j, X k i *
          ((√((j : ℝ) - k) * u k) * (c * (√((j : ℝ) - i) * v i) - s * (√((i : ℝ) + 1) * v (i + 1)))))
        (∑ k ∈ Finset.Ico 0 j, ∑ i ∈ Finset.Ico 0 j, X k i *
          ((√((k : ℝ) + 1) * u (k + 1)) *
            (s * (√((j : ℝ) - i) * v i) + c * (√((i : ℝ) + 1) * v (i + 1)))))
  have su := sum_half_sq u j (by omega)
  have sv := sum_half_sq v j (by omega)
  rw [Finset.sum_add_distrib] at su
  have sv' : ∑ i ∈ Finset.Ico 0 j, (c * (√((j : ℝ) - i) * v i) - s * (√((i : ℝ) + 1) * v (i + 1))) ^ 2
      + ∑ i ∈ Finset.Ico 0 j, (s * (√((j : ℝ) - i) * v i) + c * (√((i : ℝ) + 1) * v (i + 1))) ^ 2
      = j * ∑ k ∈ Finset.Ico 0 (j + 1), v k ^ 2 := by
    rw [← sv, ← Finset.sum_add_distrib]
    refine Finset.sum_congr rfl fun i _ => ?_
    have : ∀ a b : ℝ, (c * a - s * b) ^ 2 + (s * a + c * b) ^ 2 = (c ^ 2 + s ^ 2) * (a ^ 2 + b ^ 2) := by
      intro a b; ring
    rw [this, hcs, one_mul]
  rw [mul_div_assoc', div_le_iff₀ hj0]
  have : e * (∑ k ∈ Finset.Ico 0 (j + 1), u k ^ 2 + ∑ i ∈ Finset.Ico 0 (j + 1), v i ^ 2) * j
      = e * (∑ k ∈ Finset.Ico 0 j, (√((j : ℝ) - k) * u k) ^ 2
          + ∑ i ∈ Finset.Ico 0 j, (c * (√((j : ℝ) - i) * v i) - s * (√((i : ℝ) + 1) * v (i + 1))) ^ 2)
        + e * (∑ k ∈ Finset.Ico 0 j, (√((k : ℝ) + 1) * u (k + 1)) ^ 2
          + ∑ i ∈ Finset.Ico 0 j, (s * (√((j : ℝ) - i) * v i)
            + c * (√((i : ℝ) + 1) * v (i + 1))) ^ 2) := by
    have e1 := congrArg (fun x => e * x) su
    have e2 := congrArg (fun x => e * x) sv'
    linarith
  rw [this]
  linarith

/-- The exact planes are contractions. -/
theorem opLe_U {c s : ℝ} (hcs : c ^ 2 + s ^ 2 = 1) (j : ℤ) (hj : 0 ≤ j) :
    OpLe (j + 1) (fun k i => U c s (-s) c j k i) 1 := by
  induction j, hj using Int.le_induction with
  | base =>
    intro u v
    have e0 : U c s (-s) c 0 0 0 = 1 := by
      rw [U_of _ _ _ _ _ _ _ le_rfl le_rfl]
      simp [nrm, fact, qf]
    rw [show (0 : ℤ) + 1 = 1 by norm_num, show Finset.Ico (0 : ℤ) 1 = {0} by rfl]
    simp only [Finset.sum_singleton, e0, one_mul]
    rw [abs_mul, ← sq_abs (u 0), ← sq_abs (v 0)]
    nlinarith [sq_nonneg (|u 0| - |v 0|)]
  | succ n hn ih =>
    have h := (ih.halfStep (c := -c) (s := s) (by omega) (by rw [neg_sq]; exact hcs)).neg
    refine h.congr fun k i h1 h2 h3 h4 => ?_
    have hn0 : ((n + 1 : ℤ) : ℝ) ≠ 0 := by exact_mod_cast (by omega : n + 1 ≠ 0)
    rw [halfStep_U (n + 1) (by omega) _ c s (1 / ((n + 1 : ℤ) : ℝ)) ?_ k i h1 (by omega) h3 (by omega)]
    · field_simp
    · intro k i _ _ _ _
      rw [add_sub_cancel_right]; ring

/-- One half-step in double precision: the norm of the error grows by at most the square root of the
size of the matrix times a rounding error. -/
theorem halfStepF_opLe (F : DoubleLib) {j : ℤ} {D : ℤ → ℤ → ℝ} {c s c' s' e ε : ℝ} (hj1 : 1 ≤ j)
    (hj : j ≤ 2 ^ 30) (hcs : c ^ 2 + s ^ 2 = 1) (hc' : |c' - c| ≤ 1 / 2 ^ 49)
    (hs' : |s' - s| ≤ 1 / 2 ^ 49) (hε : ε = 1 ∨ ε = -1) (he : e ≤ 1 / 2)
    (h : OpLe j (fun k i => D k i - ε * U c s (-s) c (j - 1) k i) e) :
    OpLe (j + 1) (fun k i => halfStepF F j (fun k i => F.fl (D k i / F.fl j)) (-c') s' k i 0
      - -ε * U c s (-s) c j k i) (e + √(j : ℝ) / 2 ^ 45) := by
  have hj0 : (0 : ℝ) < j := by exact_mod_cast (by omega : 0 < j)
  have hc1 : |c| ≤ 1 := by rw [abs_le]; constructor <;> nlinarith [sq_nonneg s]
  have hs1 : |s| ≤ 1 := by rw [abs_le]; constructor <;> nlinarith [sq_nonneg c]
  have hU := opLe_U hcs (j - 1) (by omega)
  rw [sub_add_cancel] at hU
  have hεU : OpLe j (fun k i => ε * U c s (-s) c (j - 1) k i) 1 := by
    rcases hε with rfl | rfl
    · exact hU.congr fun k i _ _ _ _ => (one_mul _).symm
    · exact hU.neg.congr fun k i _ _ _ _ => by ring
  have hD : OpLe j D (3 / 2) :=
    ((h.add hεU).mono (by linarith)).congr fun k i _ _ _ _ => by ring
  have l : OpLe (j + 1) (fun k i =>
      halfStepF F j (fun k i => F.fl (D k i / F.fl j)) (-c') s' k i 0
        - halfStep j (fun k i => D k i / j) (-c) s k i) (√(j : ℝ) / 2 ^ 45) := by
    refine OpLe.of_sq (by positivity) ?_
    have near := halfStepF_near F D (j := j) (by omega) (c := -c) (c' := -c') (by rwa [abs_neg]) hs1
      (by rw [neg_sub_neg, abs_sub_comm]; exact hc') hs'
    have b1 := sum_blockAbs hj1 hj (a := 1) (b := 1) (Or.inr rfl) (Or.inr rfl) hD le_rfl
    have b2 := sum_blockAbs hj1 hj (a := 1) (b := 0) (Or.inr rfl) (Or.inl rfl) hD le_rfl
    have b3 := sum_blockAbs hj1 hj (a := 0) (b := 1) (Or.inl rfl) (Or.inr rfl) hD le_rfl
    have b4 := sum_blockAbs hj1 hj (a := 0) (b := 0) (Or.inl rfl) (Or.inl rfl) hD le_rfl
    simp only [sub_zero] at b1 b2 b3 b4
    have sq : ∀ k i, (halfStepF F j (fun k i => F.fl (D k i / F.fl j)) (-c') s' k i 0
        - halfStep j (fun k i => D k i / j) (-c) s k i) ^ 2
        ≤ (33 / 2 ^ 53) ^ 2 * 4 * (blockAbs j D (k - 1) (i - 1) ^ 2 + blockAbs j D (k - 1) i ^ 2
          + blockAbs j D k (i - 1) ^ 2 + blockAbs j D k i ^ 2) := by
      intro k i
      rw [← sq_abs]
      have h1 := near k i
      refine le_trans (pow_le_pow_left₀ (abs_nonneg _) h1 2) ?_
      generalize blockAbs j D (k - 1) (i - 1) = x
      generalize blockAbs j D (k - 1) i = y
      generalize blockAbs j D k (i - 1) = z
      generalize blockAbs j D k i = w
      rw [show (33 * (x + y + z + w) / 2 ^ 53) ^ 2 = (33 / 2 ^ 53) ^ 2 * (x + y + z + w) ^ 2 by ring,
        mul_assoc]
      refine mul_le_mul_of_nonneg_left ?_ (by positivity)
      nlinarith [sq_nonneg (x - y), sq_nonneg (x - z), sq_nonneg (x - w), sq_nonneg (y - z),
        sq_nonneg (y - w), sq_nonneg (z - w)]
    refine le_trans (Finset.sum_le_sum fun k _ => Finset.sum_le_sum fun i _ => sq k i) ?_
    simp only [← Finset.mul_sum, Finset.sum_add_distrib]
    rw [div_pow √(j : ℝ), Real.sq_sqrt hj0.le]
    have : (33 / 2 ^ 53 : ℝ) ^ 2 * 4 * (3 * j + 3 * j + 3 * j + 3 * j) ≤ j / (2 ^ 45) ^ 2 := by
      norm_num
      linarith
    refine le_trans (mul_le_mul_of_nonneg_left ?_ (by positivity)) this
    linarith
  have t := h.halfStep (c := -c) (s := s) hj1 (by rw [neg_sq]; exact hcs)
  refine (t.add l).congr fun k i h1 h2 h3 h4 => ?_
  have hlin : halfStep j (fun k i => (D k i - ε * U c s (-s) c (j - 1) k i) / j) (-c) s k i
      = halfStep j (fun k i => D k i / j) (-c) s k i - -(ε * U c s (-s) c j k i) := by
    have hUj : halfStep j (fun k i => ε * U c s (-s) c (j - 1) k i / j) (-c) s k i
        = -(ε * U c s (-s) c j k i) := by
      rw [halfStep_U j hj1 _ c s (ε / j) (fun k i _ _ _ _ => by ring) k i h1 (by omega) h3 (by omega)]
      field_simp
    rw [← hUj]
    unfold halfStep
    split_ifs <;> ring
  beta_reduce
  rw [hlin]
  ring

theorem halfAngleF (F : DoubleLib) {b β : ℝ} (hb : |b| ≤ 4) (hβ : |b - β| ≤ 1 / 2 ^ 50) :
    |F.cos (F.fl (b / 2)) - Real.cos (β / 2)| ≤ 1 / 2 ^ 49 ∧
      |F.sin (F.fl (b / 2)) - Real.sin (β / 2)| ≤ 1 / 2 ^ 49 := by
  have hhalf : |F.fl (b / 2) - β / 2| ≤ 2 / 2 ^ 53 + 1 / 2 ^ 51 := by
    have h1 : |F.fl (b / 2) - b / 2| ≤ 2 / 2 ^ 53 := by
      refine fl_near F.nearest ?_
      rw [abs_div, abs_two]; linarith
    have h2 : |b / 2 - β / 2| ≤ 1 / 2 ^ 51 := by
      rw [← sub_div, abs_div, abs_two]; norm_num at hβ ⊢; linarith
    have := abs_sub_le (F.fl (b / 2)) (b / 2) (β / 2)
    linarith
  constructor
  · have a := F.cos_near (F.fl (b / 2))
    have b' := Real.abs_cos_sub_cos_le (F.fl (b / 2)) (β / 2)
    have := abs_sub_le (F.cos (F.fl (b / 2))) (Real.cos (F.fl (b / 2))) (Real.cos (β / 2))
    norm_num at a hhalf ⊢; linarith
  · have a := F.sin_near (F.fl (b / 2))
    have b' := Real.abs_sin_sub_sin_le (F.fl (b / 2)) (β / 2)
    have := abs_sub_le (F.sin (F.fl (b / 2))) (Real.sin (F.fl (b / 2))) (Real.sin (β / 2))
    norm_num at a hhalf ⊢; linarith

/-- One step of the recursion in double precision. -/
theorem risboStepF_opLe (F : DoubleLib) {dl : ℤ → ℤ → ℝ} {b β e : ℝ} {L el : ℤ} (h2 : 2 ≤ el)
    (hel : 2 * el ≤ 2 ^ 30) (hb : |b| ≤ 4) (hβ : |b - β| ≤ 1 / 2 ^ 50)
    (he : e + √(2 * el : ℝ) / 2 ^ 45 ≤ 1 / 2)
    (h : OpLe (2 * el - 1) (fun k i => dl (k - (el - 1) + L - 1) (i - (el - 1) + L - 1)
      - U (Real.cos (β / 2)) (Real.sin (β / 2)) (-Real.sin (β / 2)) (Real.cos (β / 2))
        (2 * (el - 1)) k i) e) :
    OpLe (2 * el + 1) (fun k i => risboStepF F dl b L el (k - el + L - 1) (i - el + L - 1)
      - U (Real.cos (β / 2)) (Real.sin (β / 2)) (-Real.sin (β / 2)) (Real.cos (β / 2)) (2 * el) k i)
      (e + 2 * √(2 * el : ℝ) / 2 ^ 45) := by
  have hel0 : (0 : ℝ) < el := by exact_mod_cast (by omega : 0 < el)
  have hcs : Real.cos (β / 2) ^ 2 + Real.sin (β / 2) ^ 2 = 1 := Real.cos_sq_add_sin_sq _
  obtain ⟨hc', hs'⟩ := halfAngleF F hb hβ
  unfold risboStepF
  rw [if_neg (by omega), if_neg (by omega)]
  generalize F.cos (F.fl (b / 2)) = c' at hc'
  generalize F.sin (F.fl (b / 2)) = s' at hs'
  generalize Real.cos (β / 2) = c at *
  generalize Real.sin (β / 2) = s at *
  have first := (halfStepF_opLe F (j := 2 * el - 1) (ε := 1)
    (D := fun k i => dl (k - (el - 1) + L - 1) (i - (el - 1) + L - 1)) (by omega) (by omega) hcs hc' hs'
    (Or.inl rfl) (le_trans (le_add_of_nonneg_right (by positivity)) he)
    (by
      refine h.congr fun k i _ _ _ _ => ?_
      rw [one_mul, show 2 * el - 1 - 1 = 2 * (el - 1) by ring])).mono
    (e' := e + √(2 * el : ℝ) / 2 ^ 45) (by
      gcongr
      push_cast; linarith)
  rw [show 2 * el - 1 + 1 = 2 * el by ring] at first
  have second := halfStepF_opLe F (j := 2 * el) (ε := -1)
    (e := e + √(2 * el : ℝ) / 2 ^ 45)
    (D := fun k i => risboFirstF F dl (-c') s' L el i k) (by omega) hel hcs hc' hs'
    (Or.inr rfl) he
    (by
      refine first.congr fun k i _ _ _ _ => ?_
      rw [risboFirstF_eq])
  refine (second.mono (e' := e + 2 * √(2 * el : ℝ) / 2 ^ 45) (le_of_eq (by push_cast; ring))).congr
    fun k i h1 h3 h4 h5 => ?_
  rw [risboSecondF_eq, risboClear, if_pos (by omega), show k - el + L - 1 + el - L + 1 = k by ring,
    show i - el + L - 1 + el - L + 1 = i by ring]
  ring

/-- Entries outside the new block are untouched. -/
theorem risboStepF_frame (F : DoubleLib) (dl : ℤ → ℤ → ℝ) (β : ℝ) (L el : ℤ) (h0 : 0 ≤ el) (m n : ℤ)
    (h : el < |m| ∨ el < |n|) :
    risboStepF F dl β L el (m + L - 1) (n + L - 1) = dl (m + L - 1) (n + L - 1) := by
  rw [lt_abs, lt_abs] at h
  unfold risboStepF
  by_cases e0 : el = 0
  · rw [if_pos e0, set2, if_neg (by omega)]
  rw [if_neg e0]
  by_cases e1 : el = 1
  · rw [if_pos e1]
    simp only [risboOneF, set2]
    repeat rw [if_neg (by omega)]
  rw [if_neg e1]
  rw [risboSecondF_eq, risboClear, if_neg (by omega), halfStepF, updF, if_neg (by omega), updF,
    if_neg (by omega), updF, if_neg (by omega), updF, if_neg (by omega)]

theorem quotF_near (F : DoubleLib) {a a' b b' : ℝ} (ha : |a' - a| ≤ 1 / 2 ^ 49) (ha1 : |a| ≤ 1)
    (hb : 1 ≤ b) (hb' : |b' - b| ≤ 2 / 2 ^ 53) : |F.fl (a' / b') - a / b| ≤ 1 / 2 ^ 47 := by
  obtain ⟨h1, h2⟩ := abs_le.1 hb'
  have hb1 : 1 / 2 ≤ b' := by norm_num at h1; linarith
  have hq : |a / b| ≤ 1 := by
    rw [abs_div, div_le_one (by rw [abs_pos]; linarith), abs_of_pos (by linarith : 0 < b)]; linarith
  have h3 : |a' / b' - a / b| ≤ 3 / 2 ^ 49 := by
    have e : a' / b' - a / b = ((a' - a) - a / b * (b' - b)) / b' := by field_simp; ring
    rw [e, abs_div, abs_of_pos (by linarith : 0 < b'), div_le_iff₀ (by linarith)]
    have h4 : |a / b * (b' - b)| ≤ 1 * (2 / 2 ^ 53) := by
      rw [abs_mul]; exact mul_le_mul hq hb' (abs_nonneg _) (by norm_num)
    have h5 := abs_sub (a' - a) (a / b * (b' - b))
    have h6 : 3 / 2 ^ 49 * (1 / 2) ≤ 3 / 2 ^ 49 * b' := by gcongr
    have h7 : (1 : ℝ) / 2 ^ 49 + 1 * (2 / 2 ^ 53) ≤ 3 / 2 ^ 49 * (1 / 2) := by norm_num
    linarith
  refine le_trans (fl_step F.nearest h3 (B := 2) ?_) (by norm_num)
  linarith [show (3 : ℝ) / 2 ^ 49 ≤ 1 by norm_num]

theorem squareF_near (F : DoubleLib) {a a' : ℝ} (ha : |a' - a| ≤ 1 / 2 ^ 49) (ha1 : |a| ≤ 1) :
    |F.fl (a' ^ 2) - a ^ 2| ≤ 1 / 2 ^ 47 := by
  have h1 : |a' + a| ≤ 3 := by
    have := abs_add_le (a' - a) (2 * a)
    rw [abs_mul, abs_two, show a' - a + 2 * a = a' + a by ring] at this
    norm_num at ha; linarith
  have h2 : |a' ^ 2 - a ^ 2| ≤ 3 * (1 / 2 ^ 49) := by
    rw [show a' ^ 2 - a ^ 2 = (a' + a) * (a' - a) by ring, abs_mul]
    exact mul_le_mul h1 ha (abs_nonneg _) (by norm_num)
  have h3 : |a ^ 2| ≤ 1 := by rw [abs_pow]; exact pow_le_one₀ (abs_nonneg _) ha1
  refine le_trans (fl_step F.nearest h2 (B := 2) ?_) (by norm_num)
  linarith [show (3 : ℝ) * (1 / 2 ^ 49) ≤ 1 by norm_num]

/-- The explicit plane of degree 1. -/
theorem risboOneF_near (F : DoubleLib) (dl : ℤ → ℤ → ℝ) {b β : ℝ} (hb : |b| ≤ 4)
    (hβ : |b - β| ≤ 1 / 2 ^ 50) (L : ℤ) {m n : ℤ} (hm : |m| ≤ 1) (hn : |n| ≤ 1) :
    |risboOneF F dl b L (m + L - 1) (n + L - 1) - wignerd 1 m n β| ≤ 1 / 2 ^ 47 := by
  rw [abs_le] at hm hn
  obtain ⟨hc, hs⟩ := halfAngleF F hb hβ
  have hq := squareF_near F hc (Real.abs_cos_le_one _)
  have hr := squareF_near F hs (Real.abs_sin_le_one _)
  have s2 : |F.fl √2 - √2| ≤ 2 / 2 ^ 53 := by
    refine fl_near F.nearest ?_
    rw [abs_of_nonneg (Real.sqrt_nonneg _), Real.sqrt_le_iff]; norm_num
  have s1 : (1 : ℝ) ≤ √2 := by rw [Real.one_le_sqrt]; norm_num
  have hsb : |F.sin b - Real.sin β| ≤ 1 / 2 ^ 49 := by
    have a := F.sin_near b
    have b' := Real.abs_sin_sub_sin_le b β
    have := abs_sub_le (F.sin b) (Real.sin b) (Real.sin β)
    norm_num at a hβ ⊢; linarith
  have ht : |F.cos b - Real.cos β| ≤ 1 / 2 ^ 47 := by
    have a := F.cos_near b
    have b' := Real.abs_cos_sub_cos_le b β
    have := abs_sub_le (F.cos b) (Real.cos b) (Real.cos β)
    norm_num at a hβ ⊢; linarith
  have hp := quotF_near F hsb (Real.abs_sin_le_one β) s1 s2
  have hp' := quotF_near F (a := -Real.sin β) (a' := -F.sin b)
    (by rw [neg_sub_neg, abs_sub_comm]; exact hsb)
    (by rw [abs_neg]; exact Real.abs_sin_le_one β) s1 s2
  obtain ⟨w1, w2, w3, w4, w5, w6, w7, w8, w9⟩ := wignerd_one β
  obtain rfl | rfl | rfl : m = -1 ∨ m = 0 ∨ m = 1 := by omega
  all_goals
    obtain rfl | rfl | rfl : n = -1 ∨ n = 0 ∨ n = 1 := by omega
  all_goals
    simp only [risboOneF, set2, w1, w2, w3, w4, w5, w6, w7, w8, w9, add_sub_assoc, add_left_inj,
      true_and, and_true, false_and, and_false, if_true, if_false,
      show ¬ ((-1 : ℤ) = 0) by decide, show ¬ ((-1 : ℤ) = 1) by decide,
      show ¬ ((0 : ℤ) = -1) by decide, show ¬ ((0 : ℤ) = 1) by decide,
      show ¬ ((1 : ℤ) = -1) by decide, show ¬ ((1 : ℤ) = 0) by decide, and_self]
    assumption

/-- The norm of the error of the plane of degree `el`. -/
noncomputable def risboErr (el : ℤ) : ℝ := (el + 1) * √((el : ℝ) + 1) / 2 ^ 44

theorem risboErr_le {el : ℤ} (h0 : 0 ≤ el) {n : ℤ} (h : el + 1 ≤ n ^ 2) (hn : 0 ≤ n) :
    risboErr el ≤ n ^ 3 / 2 ^ 44 := by
  have h1 : (el : ℝ) + 1 ≤ n ^ 2 := by exact_mod_cast h
  have hn' : (0 : ℝ) ≤ n := by exact_mod_cast hn
  have h2 : √((el : ℝ) + 1) ≤ n := by rw [Real.sqrt_le_iff]; exact ⟨hn', h1⟩
  have h3 : (0 : ℝ) ≤ el := by exact_mod_cast h0
  unfold risboErr
  gcongr
  calc ((el : ℝ) + 1) * √((el : ℝ) + 1) ≤ n ^ 2 * n := by gcongr
    _ = n ^ 3 := by ring

theorem risboErr_nonneg {el : ℤ} (h0 : 0 ≤ el) : 0 ≤ risboErr el := by
  have : (0 : ℝ) ≤ el := by exact_mod_cast h0
  unfold risboErr; positivity

/-- The bound grows by more than a step of the recursion adds. -/
theorem risboErr_step {el : ℤ} (h : 1 ≤ el) :
    risboErr (el - 1) + 2 * √(2 * el : ℝ) / 2 ^ 45 ≤ risboErr el := by
  have h1 : (1 : ℝ) ≤ el := by exact_mod_cast h
  unfold risboErr
  push_cast
  rw [sub_add_cancel, show (2 : ℝ) ^ 45 = 2 * 2 ^ 44 by norm_num, mul_div_mul_left _ _ (by norm_num),
    ← add_div]
  gcongr
  have e2 : √(2 * el : ℝ) = √2 * √(el : ℝ) := Real.sqrt_mul (by norm_num) _
  have a : √2 ≤ 3 / 2 := by rw [Real.sqrt_le_iff]; norm_num
  have hx := Real.sq_sqrt (show (0 : ℝ) ≤ el by linarith)
  have hy := Real.sq_sqrt (show (0 : ℝ) ≤ (el : ℝ) + 1 by linarith)
  have x0 := Real.sqrt_nonneg (el : ℝ)
  have y0 := Real.sqrt_nonneg ((el : ℝ) + 1)
  have xy : √(el : ℝ) ≤ √((el : ℝ) + 1) := Real.sqrt_le_sqrt (by linarith)
  rw [e2]
  generalize √(el : ℝ) = x at *
  generalize √((el : ℝ) + 1) = y at *
  have h3 : √2 * x ≤ 3 / 2 * x := by gcongr
  refine le_trans (add_le_add le_rfl h3) ?_
  have e3 : (el : ℝ) = x ^ 2 := hx.symm
  rw [e3] at hy ⊢
  have hd : (y - x) * (y + x) = 1 := by nlinarith
  -- `y³ - x³ - 3/2 x = (y - x) (x² + x y + y²) - 3/2 x (y - x) (y + x)`
  have : (x ^ 2 + 1) * y - (x ^ 2 * x + 3 / 2 * x) = (y - x) * (y - x) * (y + x / 2) := by
    rw [← hy]
    have : 3 / 2 * x = 3 / 2 * x * ((y - x) * (y + x)) := by rw [hd, mul_one]
    rw [this]; ring
  have h4 : 0 ≤ (y - x) * (y - x) * (y + x / 2) := mul_nonneg (mul_self_nonneg _) (by linarith)
  linarith

/-- `dl` holds an approximation of the plane of degree `el`, zeros elsewhere. -/
def HoldsNear (dl : ℤ → ℤ → ℝ) (L el : ℤ) (β : ℝ) : Prop :=
  OpLe (2 * el + 1) (fun k i => dl (k - el + L - 1) (i - el + L - 1)
      - U (Real.cos (β / 2)) (Real.sin (β / 2)) (-Real.sin (β / 2)) (Real.cos (β / 2)) (2 * el) k i)
    (risboErr el) ∧
  ∀ m n : ℤ, el < |m| ∨ el < |n| → dl (m + L - 1) (n + L - 1) = 0

theorem risboStepF_near (F : DoubleLib) {dl : ℤ → ℤ → ℝ} {b β : ℝ} {L el : ℤ} (h0 : 0 ≤ el)
    (hel : el < 2 ^ 28) (hb : |b| ≤ 4) (hβ : |b - β| ≤ 1 / 2 ^ 50)
    (hdl : if el = 0 then ∀ m n : ℤ, dl (m + L - 1) (n + L - 1) = 0 else HoldsNear dl L (el - 1) β) :
    HoldsNear (risboStepF F dl b L el) L el β := by
  constructor
  · by_cases e0 : el = 0
    · subst e0
      have : OpLe (2 * 0 + 1) (fun k i => risboStepF F dl b L 0 (k - 0 + L - 1) (i - 0 + L - 1)
        - U (Real.cos (β / 2)) (Real.sin (β / 2)) (-Real.sin (β / 2)) (Real.cos (β / 2)) (2 * 0) k i)
          ((2 * 0 + 1 : ℤ) * 0) := by
        refine OpLe.of_entries (by norm_num) fun k i h1 h2 h3 h4 => ?_
        have hk : k = 0 := by omega
        have hi : i = 0 := by omega
        subst hk hi
        have := wignerd_eq_U 0 0 0 β
        rw [wignerd_zero] at this
        simp only [mul_zero, add_zero] at this
        rw [mul_zero, ← this, risboStepF, if_pos rfl]
        simp [set2]
      exact this.mono (by rw [mul_zero]; exact risboErr_nonneg le_rfl)
    rw [if_neg e0] at hdl
    by_cases e1 : el = 1
    · subst e1
      have : OpLe (2 * 1 + 1) (fun k i => risboStepF F dl b L 1 (k - 1 + L - 1) (i - 1 + L - 1)
        - U (Real.cos (β / 2)) (Real.sin (β / 2)) (-Real.sin (β / 2)) (Real.cos (β / 2)) (2 * 1) k i)
          ((2 * 1 + 1 : ℤ) * (1 / 2 ^ 47)) := by
        refine OpLe.of_entries (by norm_num) fun k i h1 h2 h3 h4 => ?_
        have := risboOneF_near F dl hb hβ L (m := k - 1) (n := i - 1) (by rw [abs_le]; omega)
          (by rw [abs_le]; omega)
        rw [wignerd_eq_U] at this
        rw [risboStepF, if_neg (by norm_num), if_pos rfl]
        rwa [show 1 + (k - 1) = k by ring, show 1 + (i - 1) = i by ring] at this
      refine this.mono ?_
      have h1 : (1 : ℝ) ≤ √(((1 : ℤ) : ℝ) + 1) := by rw [Real.one_le_sqrt]; norm_num
      unfold risboErr
      generalize √(((1 : ℤ) : ℝ) + 1) = x at h1 ⊢
      norm_num
      linarith
    have h := hdl.1
    rw [show 2 * (el - 1) + 1 = 2 * el - 1 by ring] at h
    have step := risboErr_step (el := el) (by omega)
    have half : risboErr el ≤ 1 / 2 :=
      le_trans (risboErr_le h0 (n := 2 ^ 14) (by omega) (by norm_num)) (by norm_num)
    have pos : 0 ≤ √(2 * el : ℝ) / 2 ^ 45 := by positivity
    refine (risboStepF_opLe F (by omega) (by omega) hb hβ ?_ h).mono step
    rw [mul_div_assoc] at step
    linarith
  · intro m n h
    rw [risboStepF_frame F dl b L el h0 m n h]
    by_cases e0 : el = 0
    · rw [if_pos e0] at hdl; exact hdl m n
    · rw [if_neg e0] at hdl
      exact hdl.2 m n (by omega)

/-- Every entry of the plane is close to the Wigner d-function. -/
theorem HoldsNear.entry {dl : ℤ → ℤ → ℝ} {β : ℝ} {L el : ℤ} (h0 : 0 ≤ el) (h : HoldsNear dl L el β)
    (m n : ℤ) : |dl (m + L - 1) (n + L - 1) - wignerd el m n β| ≤ risboErr el := by
  have hpos : 0 ≤ risboErr el := risboErr_nonneg h0
  by_cases hb : |m| ≤ el ∧ |n| ≤ el
  · have hm := abs_le.1 hb.1
    have hn := abs_le.1 hb.2
    have := h.1.entry (k := el + m) (i := el + n) (by omega) (by omega) (by omega) (by omega)
    rw [← wignerd_eq_U, show el + m - el + L - 1 = m + L - 1 by ring,
      show el + n - el + L - 1 = n + L - 1 by ring] at this
    exact this
  · have hb' : el < |m| ∨ el < |n| := by omega
    rw [h.2 m n hb', wignerd_outside _ _ _ _ hb', sub_zero, abs_zero]
    exact hpos

/-! ## All angles at once -/

theorem addAllF_at (F : DoubleLib) (a : ℤ → ℤ → ℤ → ℝ) (i k : ℤ) (v : ℤ → ℝ) (b : ℤ) :
    addAllF F a i k v b = add2F F (a b) i k (v b) := rfl

theorem risboFirstVecF_at (F : DoubleLib) (dl : ℤ → ℤ → ℤ → ℝ) (c s : ℤ → ℝ) (L el b : ℤ) :
    risboFirstVecF F dl c s L el b = risboFirstF F (dl b) (c b) (s b) L el := by
  unfold risboFirstVecF risboFirstF
  refine forRange_map _ _ _ _ _ (fun a : ℤ → ℤ → ℤ → ℝ => a b) (fun k a _ _ => ?_)
  refine forRange_map _ _ _ _ _ (fun a : ℤ → ℤ → ℤ → ℝ => a b) (fun i a _ _ => ?_)
  rfl

theorem risboSecondVecF_at (F : DoubleLib) (dl dd : ℤ → ℤ → ℤ → ℝ) (c s : ℤ → ℝ) (L el b : ℤ) :
    risboSecondVecF F dl dd c s L el b = risboSecondF F (dl b) (dd b) (c b) (s b) L el := by
  unfold risboSecondVecF risboSecondF
  refine forRange_map _ _ _ _ _ (fun a : ℤ → ℤ → ℤ → ℝ => a b) (fun k a _ _ => ?_)
  refine forRange_map _ _ _ _ _ (fun a : ℤ → ℤ → ℤ → ℝ => a b) (fun i a _ _ => ?_)
  rfl

theorem risboFullVecF_at (F : DoubleLib) (dl : ℤ → ℤ → ℤ → ℝ) (beta : ℤ → ℝ) (L el b : ℤ) :
    risboFullVecF F dl beta L el b = risboStepF F (dl b) (beta b) L el := by
  unfold risboFullVecF risboStepF
  split_ifs
  · rfl
  · rfl
  · simp only
    rw [risboSecondVecF_at, risboFirstVecF_at]

end S2fft
