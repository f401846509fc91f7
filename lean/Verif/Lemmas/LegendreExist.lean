import Verif.Lemmas.LegendreNodes

/-!
# Legendre polynomials have as many real roots as their degree
-/

namespace S2fft
open Set Polynomial

theorem poly_root_between (q : ℝ[X]) {s a b : ℝ} (hab : a < b) (ha : s * q.eval a < 0)
    (hb : 0 < s * q.eval b) : ∃ w ∈ Ioo a b, q.eval w = 0 := by
  have hc : ContinuousOn (fun y => s * q.eval y) (Icc a b) :=
    (continuous_const.mul q.continuous).continuousOn
  obtain ⟨w, hw, e⟩ := intermediate_value_Ioo hab.le hc ⟨ha, hb⟩
  refine ⟨w, hw, ?_⟩
  rcases mul_eq_zero.1 e with h | h
  · rw [h, zero_mul] at ha; exact absurd ha (lt_irrefl _)
  · exact h

theorem poly_same_sign (q : ℝ[X]) {s a b : ℝ} (ha : 0 < s * q.eval a)
    (h : ∀ w ∈ uIcc a b, w ≠ a → q.eval w ≠ 0) : 0 < s * q.eval b := by
  by_contra hneg
  push Not at hneg
  have hc : ContinuousOn (fun y => s * q.eval y) (uIcc a b) :=
    (continuous_const.mul q.continuous).continuousOn
  obtain ⟨w, hw, e⟩ := intermediate_value_uIcc hc (show (0 : ℝ) ∈ uIcc _ _ by
    rw [mem_uIcc]; right; exact ⟨hneg, ha.le⟩)
  have hs : s ≠ 0 := by rintro rfl; simp at ha
  have hq := (mul_eq_zero.1 e).resolve_left hs
  refine h w hw ?_ hq
  rintro rfl
  rw [hq, mul_zero] at ha
  exact lt_irrefl _ ha

/-- The interlacing property: `x 1 < … < x n` are roots of `P n` between `x 0 = -1` and
`x (n + 1) = 1`; the signs alternate. -/
structure Interlace (n : ℕ) (x : ℕ → ℝ) : Prop where
  left : x 0 = -1
  right : x (n + 1) = 1
  mono : ∀ k ≤ n, x k < x (k + 1)
  root : ∀ k < n, (Legendre.P n).eval (x (k + 1)) = 0
  sgn : ∀ k ≤ n + 1, 0 < (-1) ^ (n + 1 + k) * (Legendre.P (n + 1)).eval (x k)
  bet : ∀ k ≤ n, ∀ y ∈ Ioo (x k) (x (k + 1)), 0 < (-1) ^ (n + k) * (Legendre.P n).eval y

theorem mono_of_step {y : ℕ → ℝ} {m : ℕ} (h : ∀ k ≤ m, y k < y (k + 1)) (i j : ℕ) (hij : i < j)
    (hj : j ≤ m + 1) : y i < y j := by
  induction j with
  | zero => omega
  | succ j ih =>
    rcases Nat.lt_or_ge i j with h1 | h1
    · exact (ih h1 (by omega)).trans (h j (by omega))
    · have : i = j := by omega
      subst this
      exact h i (by omega)

theorem legendre_at_neg_one (n : ℕ) : 0 < (-1) ^ n * (Legendre.P n).eval (-1 : ℝ) := by
  rw [legendre_parity, ← mul_assoc, ← pow_add, ← two_mul, pow_mul]
  have := (legendre_mono n 1 le_rfl).1
  norm_num
  linarith

theorem interlace_exists (n : ℕ) : ∃ x, Interlace n x := by
  induction n with
  | zero =>
    refine ⟨fun k => if k = 0 then -1 else 1, by simp, by simp, ?_, by simp, ?_, ?_⟩
    · intro k hk
      have : k = 0 := by omega
      subst this; norm_num
    · intro k hk
      rcases (show k = 0 ∨ k = 1 by omega) with rfl | rfl <;> norm_num [Legendre.P]
    · intro k hk y _
      have : k = 0 := by omega
      subst this; simp [Legendre.P]
  | succ n ih =>
    obtain ⟨x, hx⟩ := ih
    have hw : ∀ k, ∃ w, k ≤ n → w ∈ Ioo (x k) (x (k + 1)) ∧ (Legendre.P (n + 1)).eval w = 0 := by
      intro k
      by_cases hk : k ≤ n
      · have h1 := hx.sgn k (by omega)
        have h2 := hx.sgn (k + 1) (by omega)
        obtain ⟨w, h⟩ := poly_root_between (Legendre.P (n + 1)) (s := (-1) ^ (n + 1 + (k + 1)))
          (hx.mono k hk) (by rw [← add_assoc, pow_succ]; linarith) h2
        exact ⟨w, fun _ => h⟩
      · exact ⟨0, fun h => absurd h hk⟩
    choose w hw using hw
    let y : ℕ → ℝ := fun k => if k = 0 then -1 else if k ≤ n + 1 then w (k - 1) else 1
    have y0 : y 0 = -1 := by simp [y]
    have yw : ∀ k ≤ n, y (k + 1) = w k := by
      intro k hk; simp only [y]; rw [if_neg (by omega), if_pos (by omega), Nat.add_sub_cancel]
    have y1 : y (n + 1 + 1) = 1 := by
      simp only [y]; rw [if_neg (by omega), if_neg (by omega)]
    -- the old nodes lie between the new ones
    have hbet : ∀ k ≤ n + 1, y k ≤ x k ∧ x k ≤ y (k + 1) ∧ y k < y (k + 1) := by
      intro k hk
      have lo : y k ≤ x k ∧ (k ≠ 0 → y k < x k) := by
        rcases k with _ | k
        · rw [y0, hx.left]; exact ⟨le_rfl, fun h => absurd rfl h⟩
        · rw [yw k (by omega)]
          have := (hw k (by omega)).1.2
          exact ⟨this.le, fun _ => this⟩
      have hi : x k ≤ y (k + 1) ∧ (k ≠ n + 1 → x k < y (k + 1)) := by
        rcases Nat.lt_or_ge k (n + 1) with h | h
        · rw [yw k (by omega)]
          have := (hw k (by omega)).1.1
          exact ⟨this.le, fun _ => this⟩
        · have : k = n + 1 := by omega
          subst this
          rw [y1, hx.right]; exact ⟨le_rfl, fun h => absurd rfl h⟩
      refine ⟨lo.1, hi.1, ?_⟩
      by_cases h0 : k = 0
      · exact lt_of_le_of_lt lo.1 (hi.2 (by omega))
      · exact lt_of_lt_of_le (lo.2 h0) hi.1
    have hmono : ∀ k ≤ n + 1, y k < y (k + 1) := fun k hk => (hbet k hk).2.2
    have hroot : ∀ k < n + 1, (Legendre.P (n + 1)).eval (y (k + 1)) = 0 := by
      intro k hk; rw [yw k (by omega)]; exact (hw k (by omega)).2
    have hlt := mono_of_step hmono
    -- no other roots
    have hno : ∀ k ≤ n + 1, ∀ t ∈ Ioo (y k) (y (k + 1)), (Legendre.P (n + 1)).eval t ≠ 0 := by
      intro k hk t ht h0
      obtain ⟨i, a, b, e⟩ := legendre_root_mem n (fun i : ℤ => y (i.toNat + 1))
        (fun i j a b c => hlt _ _ (by omega) (by omega))
        (fun i a b => hroot _ (by omega)) t h0
      rw [← e] at ht
      rcases Nat.lt_or_ge (i.toNat + 1) (k + 1) with h | h
      · rcases (show i.toNat + 1 < k ∨ i.toNat + 1 = k by omega) with h' | h'
        · linarith [ht.1, hlt _ _ h' (by omega)]
        · rw [h'] at ht; exact lt_irrefl _ ht.1
      · rcases (show k + 1 < i.toNat + 1 ∨ k + 1 = i.toNat + 1 by omega) with h' | h'
        · linarith [ht.2, hlt _ _ h' (by omega)]
        · rw [h'] at ht; exact lt_irrefl _ ht.2
    refine ⟨y, y0, y1, hmono, hroot, ?_, ?_⟩
    · intro k hk
      rcases k with _ | k
      · rw [y0]; exact legendre_at_neg_one _
      · rcases Nat.lt_or_ge k (n + 1) with h | h
        · rw [yw k (by omega)]
          have h1 := hx.bet k (by omega) (w k) (hw k (by omega)).1
          have r := congrArg (eval (w k)) (Legendre.rec n)
          simp only [eval_mul, eval_sub, eval_C, eval_X, (hw k (by omega)).2, mul_zero, zero_sub] at r
          have hn : (0 : ℝ) < n + 2 := by positivity
          have hn1 : (0 : ℝ) < n + 1 := by positivity
          have e : (-1 : ℝ) ^ (n + 1 + 1 + (k + 1)) = -(-1) ^ (n + k) := by
            rw [show n + 1 + 1 + (k + 1) = n + k + 3 by ring, pow_add]; norm_num
          rw [e]
          have h2 : 0 < ((n : ℝ) + 2) * (-(-1) ^ (n + k) * (Legendre.P (n + 2)).eval (w k)) := by
            have : ((n : ℝ) + 2) * (-(-1) ^ (n + k) * (Legendre.P (n + 2)).eval (w k))
                = (n + 1) * ((-1) ^ (n + k) * (Legendre.P n).eval (w k)) := by
              linear_combination (-(-1) ^ (n + k)) * r
            rw [this]
            exact mul_pos hn1 h1
          exact (mul_pos_iff_of_pos_left hn).1 h2
        · have : k = n + 1 := by omega
          subst this
          rw [y1, ← two_mul, pow_mul]
          have := (legendre_mono (n + 1 + 1) 1 le_rfl).1
          norm_num
          linarith
    · intro k hk t ht
      have h1 := hx.sgn k hk
      obtain ⟨b1, b2, -⟩ := hbet k hk
      refine poly_same_sign _ h1 ?_
      intro v hv hne
      rw [mem_uIcc] at hv
      refine hno k hk v ?_
      rcases hv with ⟨c, d⟩ | ⟨c, d⟩
      · exact ⟨lt_of_le_of_lt b1 (lt_of_le_of_ne c hne.symm), lt_of_le_of_lt d ht.2⟩
      · exact ⟨lt_of_lt_of_le ht.1 c, lt_of_lt_of_le (lt_of_le_of_ne d hne) b2⟩

/-- The roots of `P (N + 1)` in increasing order. -/
theorem legendre_roots_exist (N : ℕ) : ∃ x : ℤ → ℝ,
    (∀ i j : ℤ, 0 ≤ i → i < j → j < N + 1 → x i < x j) ∧
    ∀ i : ℤ, 0 ≤ i → i < N + 1 → (Legendre.P (N + 1)).eval (x i) = 0 := by
  obtain ⟨x, hx⟩ := interlace_exists (N + 1)
  exact ⟨fun i => x (i.toNat + 1),
    fun i j a b c => mono_of_step hx.mono _ _ (by omega) (by omega),
    fun i a b => hx.root _ (by omega)⟩

end S2fft
