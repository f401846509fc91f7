import Verif.Model.Reindex
import Verif.Lemmas.Loops

/-! # Helper lemmas for the index maps and coefficient conversions -/

namespace S2fft

theorem floor_sqrt_eq {ind el : ℤ} (h0 : 0 ≤ el) (h1 : el ^ 2 ≤ ind) (h2 : ind < (el + 1) ^ 2) :
    ⌊Real.sqrt ind⌋ = el := by
  rw [Int.floor_eq_iff]
  constructor
  · apply Real.le_sqrt_of_sq_le
    exact_mod_cast h1
  · rw [Real.sqrt_lt' (by positivity)]
    exact_mod_cast h2

theorem elm2ind_inj {el m el' m' : ℤ} (h1 : |m| ≤ el) (h2 : |m'| ≤ el')
    (h : elm2ind el m = elm2ind el' m') : el = el' ∧ m = m' := by
  unfold elm2ind at h
  rw [abs_le] at h1 h2
  have : el = el' := by
    rcases lt_trichotomy el el' with hlt | rfl | hlt
    · nlinarith
    · rfl
    · nlinarith
  subst this
  exact ⟨rfl, by linarith⟩

theorem ncoeff_eq (L : ℤ) : ncoeff L = L ^ 2 := by unfold ncoeff elm2ind; ring

/-- `m(2L-1-m)` is even. -/
theorem hp_even (L m : ℤ) : 2 ∣ m * (2 * L - 1 - m) := by
  rcases Int.even_or_odd' m with ⟨k, rfl | rfl⟩
  · exact ⟨k * (2 * L - 1 - 2 * k), by ring⟩
  · exact ⟨(2 * k + 1) * (L - 1 - k), by ring⟩

theorem hp_getidx_two (L el m : ℤ) : 2 * hp_getidx L el m = m * (2 * L - 1 - m) + 2 * el := by
  unfold hp_getidx
  have := Int.mul_ediv_cancel' (hp_even L m)
  linarith

theorem hp_getidx_inj {L el m el' m' : ℤ} (h0 : 0 ≤ m) (h1 : m ≤ el) (h2 : el < L)
    (h0' : 0 ≤ m') (h1' : m' ≤ el') (h2' : el' < L)
    (h : hp_getidx L el m = hp_getidx L el' m') : el = el' ∧ m = m' := by
  have e1 := hp_getidx_two L el m
  have e2 := hp_getidx_two L el' m'
  rw [h] at e1
  have : m = m' := by
    rcases lt_trichotomy m m' with hlt | rfl | hlt
    · exfalso
      have : (m' - m) * (2 * L - 1 - m - m') = 2 * (el - el') := by linarith
      nlinarith
    · rfl
    · exfalso
      have : (m - m') * (2 * L - 1 - m - m') = 2 * (el' - el) := by linarith
      nlinarith
  subst this
  exact ⟨by linarith, rfl⟩

theorem elmn2ind_eq (el m n L N : ℤ) :
    elmn2ind el m n L N = (N - 1 + n) * L ^ 2 + elm2ind el m := by
  unfold elmn2ind elm2ind; ring

theorem elm2ind_range {L el m : ℤ} (h1 : |m| ≤ el) (h2 : el < L) :
    0 ≤ elm2ind el m ∧ elm2ind el m < L ^ 2 := by
  unfold elm2ind
  rw [abs_le] at h1
  constructor <;> nlinarith

theorem elmn2ind_inj {L N el m n el' m' n' : ℤ}
    (h1 : |m| ≤ el) (h2 : el < L) (h1' : |m'| ≤ el') (h2' : el' < L)
    (h : elmn2ind el m n L N = elmn2ind el' m' n' L N) : el = el' ∧ m = m' ∧ n = n' := by
  rw [elmn2ind_eq, elmn2ind_eq] at h
  have r1 := elm2ind_range h1 h2
  have r2 := elm2ind_range h1' h2'
  have : n = n' := by
    rcases lt_trichotomy n n' with hlt | rfl | hlt
    · nlinarith
    · rfl
    · nlinarith
  subst this
  obtain ⟨a, b⟩ := elm2ind_inj h1 h1' (by linarith)
  exact ⟨a, b, rfl⟩

/-! ## Loop results -/

/-- The loop of `flm_1d_to_2d`. -/
theorem loop_1d_to_2d (L : ℤ) (a : ℤ → ℂ) (x y : ℤ) :
    forRange 0 L (fun el s =>
        forRange (-el) (el + 1) (fun m s => set2 s el (L - 1 + m) (a (elm2ind el m))) s)
      (fun _ _ => (0 : ℂ)) x y
    = if 0 ≤ x ∧ x < L ∧ |y - (L - 1)| ≤ x then a (elm2ind x (y - (L - 1))) else 0 := by
  split_ifs with h
  · obtain ⟨h1, h2, h3⟩ := h
    rw [abs_le] at h3
    refine forRange2_write 0 L (fun el => -el) (fun el => el + 1)
      (fun el m (s : ℤ → ℤ → ℂ) => set2 s el (L - 1 + m) (a (elm2ind el m))) _
      (fun s => s x y) x (y - (L - 1)) _ h1 h2 h3.1 (by omega) ?_ ?_
    · intro s; simp [set2]
    · intro i j s _ _ _ _ hne
      have : ¬ (x = i ∧ y = L - 1 + j) := by omega
      simp [set2, this]
  · refine forRange2_frame 0 L (fun el => -el) (fun el => el + 1)
      (fun el m (s : ℤ → ℤ → ℂ) => set2 s el (L - 1 + m) (a (elm2ind el m))) _
      (fun s => s x y) ?_
    intro i j s h1 h2 h3 h4
    have : ¬ (x = i ∧ y = L - 1 + j) := by
      rintro ⟨rfl, rfl⟩
      apply h
      refine ⟨h1, h2, ?_⟩
      rw [abs_le]; constructor <;> omega
    simp [set2, this]

/-- The loop of `flm_2d_to_1d`, at a valid index. -/
theorem loop_2d_to_1d (L : ℤ) (a : ℤ → ℤ → ℂ) (el m : ℤ) (h1 : el < L) (h2 : |m| ≤ el) :
    forRange 0 L (fun el s =>
        forRange (-el) (el + 1) (fun m s => set1 s (elm2ind el m) (a el (L - 1 + m))) s)
      (fun _ => (0 : ℂ)) (elm2ind el m) = a el (L - 1 + m) := by
  have h2' := abs_le.1 h2
  refine forRange2_write 0 L (fun el => -el) (fun el => el + 1)
    (fun el m (s : ℤ → ℂ) => set1 s (elm2ind el m) (a el (L - 1 + m))) _
    (fun s => s (elm2ind el m)) el m _ (by omega) h1 h2'.1 (by omega) ?_ ?_
  · intro s; simp [set1]
  · intro i j s _ _ h3 h4 hne
    apply set1_ne
    intro h
    have := elm2ind_inj h2 (abs_le.2 ⟨h3, by omega⟩ : |j| ≤ i) h
    omega

theorem loop_2d_to_hp {L : ℤ} (f : ℤ → ℤ → ℂ) (el m : ℤ) (h0 : 0 ≤ m) (h1 : m ≤ el) (h2 : el < L) :
    forRange 0 L (fun el s =>
        forRange 0 (el + 1) (fun m s => set1 s (hp_getidx L el m) (f el m)) s)
      (fun _ => (0 : ℂ)) (hp_getidx L el m) = f el m := by
  refine forRange2_write 0 L (fun _ => 0) (fun el => el + 1)
    (fun el m (s : ℤ → ℂ) => set1 s (hp_getidx L el m) (f el m)) _
    (fun s => s (hp_getidx L el m)) el m _ (by omega) h2 h0 (by omega) ?_ ?_
  · intro s; simp [set1]
  · intro i j s _ _ h3 h4 hne
    apply set1_ne
    intro h
    have := hp_getidx_inj h0 h1 h2 h3 (by omega) (by omega) h
    omega

/-- The loop of `flm_hp_to_2d`. -/
theorem loop_hp_to_2d (L : ℤ) (a : ℤ → ℂ) (x y : ℤ) :
    forRange 0 L (fun el s =>
        forRange 1 (el + 1) (fun m s =>
            let s := set2 s el (L - 1 + m) (a (hp_getidx L el m))
            set2 s el (L - 1 - m) ((-1) ^ m.toNat * (starRingEnd ℂ) (s el (L - 1 + m))))
          (set2 s el (L - 1 + 0) (a (hp_getidx L el 0))))
      (fun _ _ => (0 : ℂ)) x y
    = if 0 ≤ x ∧ x < L ∧ |y - (L - 1)| ≤ x then
        (if L - 1 ≤ y then a (hp_getidx L x (y - (L - 1)))
         else (-1) ^ (L - 1 - y).toNat * (starRingEnd ℂ) (a (hp_getidx L x (L - 1 - y)))) else 0 := by
  split_ifs with h hy
  · obtain ⟨h1, h2, h3⟩ := h
    rw [abs_le] at h3
    refine forRange_write (τ := ℂ) 0 L _ _ (fun s : ℤ → ℤ → ℂ => s x y) x _ h1 h2 ?_ ?_
    · intro s
      rcases eq_or_lt_of_le hy with rfl | hy'
      · refine (forRange_frame (τ := ℂ) 1 (x + 1) _ _ (fun s : ℤ → ℤ → ℂ => s x (L - 1)) ?_).trans ?_
        · intro i s' h4 h5
          simp only [set2]
          rw [if_neg (by omega), if_neg (by omega)]
        · simp [set2]
      · refine forRange_write (τ := ℂ) 1 (x + 1) _ _ (fun s : ℤ → ℤ → ℂ => s x y) (y - (L - 1)) _
          (by omega) (by omega) ?_ ?_
        · intro s'
          simp only [set2]
          rw [if_neg (by omega), if_pos ⟨by trivial, by omega⟩]
        · intro i s' h4 h5 h6
          simp only [set2]
          rw [if_neg (by omega), if_neg (by omega)]
    · intro i s h4 h5 h6
      refine (forRange_frame (τ := ℂ) 1 (i + 1) _ _ (fun s : ℤ → ℤ → ℂ => s x y) ?_).trans ?_
      · intro j s' h7 h8
        simp only [set2]
        rw [if_neg (by omega), if_neg (by omega)]
      · simp only [set2]; rw [if_neg (by omega)]
  · obtain ⟨h1, h2, h3⟩ := h
    rw [abs_le] at h3
    refine forRange_write (τ := ℂ) 0 L _ _ (fun s : ℤ → ℤ → ℂ => s x y) x _ h1 h2 ?_ ?_
    · intro s
      refine forRange_write (τ := ℂ) 1 (x + 1) _ _ (fun s : ℤ → ℤ → ℂ => s x y) (L - 1 - y) _
        (by omega) (by omega) ?_ ?_
      · intro s'
        simp only [set2]
        rw [if_pos ⟨by trivial, by omega⟩, if_pos ⟨by trivial, by trivial⟩]
      · intro i s' h4 h5 h6
        simp only [set2]
        rw [if_neg (by omega), if_neg (by omega)]
    · intro i s h4 h5 h6
      refine (forRange_frame (τ := ℂ) 1 (i + 1) _ _ (fun s : ℤ → ℤ → ℂ => s x y) ?_).trans ?_
      · intro j s' h7 h8
        simp only [set2]
        rw [if_neg (by omega), if_neg (by omega)]
      · simp only [set2]; rw [if_neg (by omega)]
  · refine (forRange_frame (τ := ℂ) 0 L _ _ (fun s : ℤ → ℤ → ℂ => s x y) ?_).trans rfl
    intro i s h4 h5
    have hx : ¬ (x = i ∧ -i ≤ y - (L - 1) ∧ y - (L - 1) ≤ i) := by
      rintro ⟨rfl, ha, hb⟩
      exact h ⟨h4, h5, abs_le.2 ⟨ha, hb⟩⟩
    refine (forRange_frame (τ := ℂ) 1 (i + 1) _ _ (fun s : ℤ → ℤ → ℂ => s x y) ?_).trans ?_
    · intro j s' h7 h8
      simp only [set2]
      rw [if_neg (by omega), if_neg (by omega)]
    · simp only [set2]; rw [if_neg (by omega)]

theorem loop_3d_to_1d (L N : ℤ) (a : ℤ → ℤ → ℤ → ℂ) (el m n : ℤ) (h1 : el < L) (h2 : |m| ≤ el)
    (h3 : |n| < N) :
    forRange (-N + 1) N (fun n s =>
      forRange 0 L (fun el s =>
        forRange (-el) (el + 1) (fun m s =>
          set1 s (elmn2ind el m n L N) (a (N - 1 + n) el (L - 1 + m))) s) s)
      (fun _ => (0 : ℂ)) (elmn2ind el m n L N) = a (N - 1 + n) el (L - 1 + m) := by
  have h2' := abs_le.1 h2
  have h3' := abs_lt.1 h3
  refine forRange3_write (-N + 1) N (fun _ => 0) (fun _ => L) (fun _ el => -el)
    (fun _ el => el + 1)
    (fun n el m (s : ℤ → ℂ) => set1 s (elmn2ind el m n L N) (a (N - 1 + n) el (L - 1 + m))) _
    (fun s => s (elmn2ind el m n L N)) n el m _ (by omega) (by omega) (by omega) h1 h2'.1
    (by omega) ?_ ?_
  · intro s; simp [set1]
  · intro i j k s _ _ h4 h5 h6 h7 hne
    apply set1_ne
    intro h
    have := elmn2ind_inj h2 h1 (abs_le.2 ⟨h6, by omega⟩ : |k| ≤ j) h5 h
    omega

theorem loop_1d_to_3d (L N : ℤ) (a : ℤ → ℂ) (x y z : ℤ) :
    forRange (-N + 1) N (fun n s =>
      forRange 0 L (fun el s =>
        forRange (-el) (el + 1) (fun m s =>
          set3 s (N - 1 + n) el (L - 1 + m) (a (elmn2ind el m n L N))) s) s)
      (fun _ _ _ => (0 : ℂ)) x y z
    = if |x - (N - 1)| < N ∧ 0 ≤ y ∧ y < L ∧ |z - (L - 1)| ≤ y then
        a (elmn2ind y (z - (L - 1)) (x - (N - 1)) L N) else 0 := by
  split_ifs with h
  · obtain ⟨h0, h1, h2, h3⟩ := h
    rw [abs_le] at h3
    rw [abs_lt] at h0
    refine forRange3_write (-N + 1) N (fun _ => 0) (fun _ => L) (fun _ el => -el)
      (fun _ el => el + 1)
      (fun n el m (s : ℤ → ℤ → ℤ → ℂ) =>
        set3 s (N - 1 + n) el (L - 1 + m) (a (elmn2ind el m n L N))) _
      (fun s => s x y z) (x - (N - 1)) y (z - (L - 1)) _ (by omega) (by omega) h1 h2 h3.1
      (by omega) ?_ ?_
    · intro s
      simp only [set3]
      rw [if_pos ⟨by omega, by trivial, by omega⟩]
    · intro i j k s _ _ _ _ _ _ hne
      simp only [set3]
      rw [if_neg (by omega)]
  · refine forRange3_frame (-N + 1) N (fun _ => 0) (fun _ => L) (fun _ el => -el)
      (fun _ el => el + 1)
      (fun n el m (s : ℤ → ℤ → ℤ → ℂ) =>
        set3 s (N - 1 + n) el (L - 1 + m) (a (elmn2ind el m n L N))) _
      (fun s => s x y z) ?_
    intro i j k s h1 h2 h3 h4 h5 h6
    simp only [set3]
    rw [if_neg]
    rintro ⟨rfl, rfl, rfl⟩
    apply h
    refine ⟨by rw [abs_lt]; omega, h3, h4, by rw [abs_le]; omega⟩

end S2fft
