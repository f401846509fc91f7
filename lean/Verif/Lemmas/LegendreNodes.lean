import Verif.Lemmas.Sturm
import Mathlib.Analysis.SpecialFunctions.Trigonometric.Bounds
import Mathlib.Analysis.Real.Pi.Bounds

/-!
# How far the Legendre nodes are from the starting values of the Newton iteration
-/

namespace S2fft
open Set Polynomial

section nodes
variable (N : ℕ) (x : ℤ → ℝ)

/-- The angle of the `i`-th largest node, `1 ≤ i ≤ N + 1`. -/
noncomputable def glθ (i : ℤ) : ℝ := Real.arccos (x (N + 1 - i))

/-- The angle the iteration for it starts from. -/
noncomputable def glφ (i : ℤ) : ℝ := Real.pi * ((i : ℝ) - 0.25) / ((N : ℝ) + 3 / 2)

theorem glφ_succ (i : ℤ) : glφ N (i + 1) = glφ N i + Real.pi / ((N : ℝ) + 3 / 2) := by
  unfold glφ
  have : (N : ℝ) + 3 / 2 ≠ 0 := by positivity
  push_cast
  field_simp
  ring

theorem glφ_symm (i : ℤ) : glφ N (N + 2 - i) = Real.pi - glφ N i := by
  unfold glφ
  have : (N : ℝ) + 3 / 2 ≠ 0 := by positivity
  push_cast
  field_simp
  ring

variable (hmono : ∀ i j : ℤ, 0 ≤ i → i < j → j < N + 1 → x i < x j)
  (hroot : ∀ i : ℤ, 0 ≤ i → i < N + 1 → (Legendre.P (N + 1)).eval (x i) = 0)
include hmono hroot

omit hmono in
theorem glθ_cos (i : ℤ) (h1 : 1 ≤ i) (h2 : i ≤ N + 1) : Real.cos (glθ N x i) = x (N + 1 - i) := by
  have := legendre_root_abs _ _ (hroot (N + 1 - i) (by omega) (by omega))
  exact Real.cos_arccos this.1.le this.2.le

omit hmono in
theorem glθ_pos (i : ℤ) (h1 : 1 ≤ i) (h2 : i ≤ N + 1) : 0 < glθ N x i ∧ glθ N x i < Real.pi := by
  have := legendre_root_abs _ _ (hroot (N + 1 - i) (by omega) (by omega))
  refine ⟨Real.arccos_pos.2 this.2, lt_of_le_of_ne (Real.arccos_le_pi _) fun h => ?_⟩
  rw [glθ, Real.arccos_eq_pi] at h
  linarith

theorem glθ_mono (i j : ℤ) (h1 : 1 ≤ i) (hij : i < j) (h2 : j ≤ N + 1) :
    glθ N x i < glθ N x j := by
  have a := legendre_root_abs _ _ (hroot (N + 1 - i) (by omega) (by omega))
  have b := legendre_root_abs _ _ (hroot (N + 1 - j) (by omega) (by omega))
  exact Real.strictAntiOn_arccos ⟨b.1.le, b.2.le⟩ ⟨a.1.le, a.2.le⟩
    (hmono _ _ (by omega) (by omega) (by omega))

theorem glθ_symm (i : ℤ) (h1 : 1 ≤ i) (h2 : i ≤ N + 1) :
    glθ N x (N + 2 - i) = Real.pi - glθ N x i := by
  have h := legendre_nodes_symm N x hmono hroot (N + 1 - i) (by omega) (by omega)
  unfold glθ
  rw [show (N : ℤ) + 1 - (N + 2 - i) = N - (N + 1 - i) by ring, h, Real.arccos_neg]

theorem glθ_root (i : ℤ) (h1 : 1 ≤ i) (h2 : i ≤ N + 1) :
    (Legendre.P (N + 1)).eval (Real.cos (glθ N x i)) = 0 ∧
      (derivative (Legendre.P (N + 1))).eval (Real.cos (glθ N x i)) ≠ 0 := by
  rw [glθ_cos N x hroot i h1 h2]
  exact ⟨hroot _ (by omega) (by omega),
    (gl_node_ne N x hmono hroot (N + 1 - i) (by omega) (by omega)).2⟩

/-- Every root is one of the nodes. -/
theorem legendre_root_mem (y : ℝ) (hy : (Legendre.P (N + 1)).eval y = 0) :
    ∃ i : ℤ, 0 ≤ i ∧ i < N + 1 ∧ x i = y := by
  by_contra hc
  push Not at hc
  have hinj : Set.InjOn x (Finset.Ico (0 : ℤ) (N + 1)) := by
    intro s hs t ht h
    simp only [Finset.coe_Ico, Set.mem_Ico] at hs ht
    exact nodes_inj N x hmono s t hs.1 hs.2 ht.1 ht.2 h
  have hnot : y ∉ (Finset.Ico (0 : ℤ) (N + 1)).image x := by
    intro h
    rw [Finset.mem_image] at h
    obtain ⟨i, hi, e⟩ := h
    rw [Finset.mem_Ico] at hi
    exact hc i hi.1 hi.2 e
  have hcard : (insert y ((Finset.Ico (0 : ℤ) (N + 1)).image x)).card = N + 2 := by
    rw [Finset.card_insert_of_notMem hnot, Finset.card_image_of_injOn hinj]
    simp
  apply Legendre.P_ne_zero (N + 1)
  apply eq_zero_of_natDegree_lt_card_of_eval_eq_zero' _ (insert y ((Finset.Ico (0 : ℤ) (N + 1)).image x))
  · intro z hz
    rw [Finset.mem_insert, Finset.mem_image] at hz
    rcases hz with rfl | ⟨i, hi, rfl⟩
    · exact hy
    · rw [Finset.mem_Ico] at hi; exact hroot i hi.1 hi.2
  · rw [hcard, Legendre.P_natDegree]; omega

theorem glθ_between (i : ℤ) (h1 : 1 ≤ i) (h2 : i + 1 ≤ N + 1) :
    ∀ θ ∈ Ioo (glθ N x i) (glθ N x (i + 1)), (Legendre.P (N + 1)).eval (Real.cos θ) ≠ 0 := by
  intro θ h h0
  obtain ⟨j, a, b, e⟩ := legendre_root_mem N x hmono hroot _ h0
  have p1 := (glθ_pos N x hroot i h1 (by omega)).1
  have p2 := (glθ_pos N x hroot (i + 1) (by omega) h2).2
  have hθ : glθ N x (N + 1 - j) = θ := by
    unfold glθ
    rw [show (N : ℤ) + 1 - (N + 1 - j) = j by ring, e, Real.arccos_cos (by linarith [h.1])
      (by linarith [h.2])]
  rcases le_or_gt ((N : ℤ) + 1 - j) i with h3 | h3
  · rcases h3.lt_or_eq with h4 | h4
    · have := glθ_mono N x hmono hroot _ _ (by omega) h4 (by omega)
      rw [hθ] at this
      linarith [h.1]
    · rw [h4] at hθ; linarith [h.1]
  · rcases (show i + 1 ≤ N + 1 - j by omega).lt_or_eq with h4 | h4
    · have := glθ_mono N x hmono hroot _ _ (by omega) h4 (by omega)
      rw [hθ] at this
      linarith [h.2]
    · rw [← h4] at hθ; linarith [h.2]

/-- Upper bound for the distance of consecutive nodes. -/
theorem glθ_gap_le (i : ℤ) (h1 : 1 ≤ i) (h2 : i + 1 ≤ N + 1) :
    glθ N x (i + 1) - glθ N x i ≤ Real.pi / ((N : ℝ) + 3 / 2) := by
  have := legendre_gap_le (N + 1) (glθ_pos N x hroot i h1 (by omega)).1
    (glθ_pos N x hroot (i + 1) (by omega) h2).2 (glθ_root N x hmono hroot i h1 (by omega)).1
    (glθ_mono N x hmono hroot i (i + 1) h1 (by omega) h2) (glθ_between N x hmono hroot i h1 h2)
  rw [show ((N + 1 : ℕ) : ℝ) + 1 / 2 = N + 3 / 2 by push_cast; ring] at this
  exact this

theorem glθ_half (i : ℤ) (h1 : 1 ≤ i) (h2 : 2 * i ≤ N + 2) : glθ N x i ≤ Real.pi / 2 := by
  rcases h2.lt_or_eq with h | h
  · have := glθ_mono N x hmono hroot i (N + 2 - i) h1 (by omega) (by omega)
    rw [glθ_symm N x hmono hroot i h1 (by omega)] at this
    linarith
  · have := glθ_symm N x hmono hroot i h1 (by omega)
    rw [show (N : ℤ) + 2 - i = i by omega] at this
    linarith

theorem glθ_half_lt (i : ℤ) (h1 : 1 ≤ i) (h2 : 2 * i ≤ N + 1) : glθ N x i < Real.pi / 2 := by
  have := glθ_mono N x hmono hroot i (N + 2 - i) h1 (by omega) (by omega)
  rw [glθ_symm N x hmono hroot i h1 (by omega)] at this
  linarith

/-- Lower bound for the distance of consecutive nodes in the upper half. -/
theorem glθ_gap_ge (i : ℤ) (h1 : 1 ≤ i) (h2 : 2 * i ≤ N + 1) :
    Real.pi / √(((N : ℝ) + 3 / 2) ^ 2 + 1 / (4 * Real.sin (glθ N x i) ^ 2))
      ≤ glθ N x (i + 1) - glθ N x i := by
  have hb : glθ N x (i + 1) ≤ Real.pi - glθ N x i := by
    rw [← glθ_symm N x hmono hroot i h1 (by omega)]
    rcases (show i + 1 ≤ N + 2 - i by omega).lt_or_eq with h | h
    · exact (glθ_mono N x hmono hroot _ _ (by omega) h (by omega)).le
    · rw [h]
  have hr := glθ_root N x hmono hroot (i + 1) (by omega) (by omega)
  have := legendre_gap_ge (N + 1) (glθ_pos N x hroot i h1 (by omega)).1
    (glθ_half N x hmono hroot i h1 (by omega)) hb
    (glθ_mono N x hmono hroot i (i + 1) h1 (by omega) (by omega))
    (glθ_root N x hmono hroot i h1 (by omega)).1 hr.1 hr.2
    (glθ_between N x hmono hroot i h1 (by omega))
  rw [show ((N + 1 : ℕ) : ℝ) + 1 / 2 = N + 3 / 2 by push_cast; ring] at this
  exact this

theorem glδ_anti (i j : ℤ) (h1 : 1 ≤ i) (hij : i ≤ j) (h2 : j ≤ N + 1) :
    glθ N x j - glφ N j ≤ glθ N x i - glφ N i := by
  obtain ⟨k, rfl⟩ : ∃ k : ℕ, j = i + k := ⟨(j - i).toNat, by omega⟩
  clear hij
  induction k with
  | zero => simp
  | succ k ih =>
    have h3 := ih (by push_cast at h2 ⊢; omega)
    have h4 := glθ_gap_le N x hmono hroot (i + k) (by omega) (by push_cast at h2; omega)
    have h5 := glφ_succ N (i + k)
    push_cast
    rw [← add_assoc]
    linarith

/-- The iteration starts to the right of the node. -/
theorem glδ_nonneg (i : ℤ) (h1 : 1 ≤ i) (h2 : 2 * i ≤ N + 2) : glφ N i ≤ glθ N x i := by
  have h := glδ_anti N x hmono hroot i (N + 2 - i) h1 (by omega) (by omega)
  rw [glθ_symm N x hmono hroot i h1 (by omega), glφ_symm] at h
  linarith

/-- One step of the comparison between nodes and starting angles. -/
theorem glδ_step (i : ℤ) (h1 : 1 ≤ i) (h2 : 2 * i ≤ N + 1) :
    glθ N x i - glφ N i ≤ glθ N x (i + 1) - glφ N (i + 1)
      + 1 / (8 * ((N : ℝ) + 3 / 2) ^ 2) * (Real.pi / ((N : ℝ) + 3 / 2) / Real.sin (glφ N i) ^ 2) := by
  have hge := glθ_gap_ge N x hmono hroot i h1 h2
  have hφθ := glδ_nonneg N x hmono hroot i h1 (by omega)
  have hhalf := glθ_half N x hmono hroot i h1 (by omega)
  have hφ0 : 0 < glφ N i := by
    unfold glφ
    have : (1 : ℝ) ≤ i := by exact_mod_cast h1
    have := Real.pi_pos
    apply div_pos (mul_pos this (by norm_num; linarith)) (by positivity)
  have hφ1 : 0 < Real.sin (glφ N i) :=
    Real.sin_pos_of_pos_of_lt_pi hφ0 (by linarith [Real.pi_pos])
  have hs : Real.sin (glφ N i) ≤ Real.sin (glθ N x i) :=
    Real.sin_le_sin_of_le_of_le_pi_div_two (by linarith) hhalf hφθ
  have hsθ : 0 < Real.sin (glθ N x i) := lt_of_lt_of_le hφ1 hs
  rw [glφ_succ]
  set ν : ℝ := (N : ℝ) + 3 / 2 with hν
  have hν0 : 0 < ν := by positivity
  set s := Real.sin (glθ N x i)
  set M := √(ν ^ 2 + 1 / (4 * s ^ 2)) with hM
  have hM2 : M ^ 2 = ν ^ 2 + 1 / (4 * s ^ 2) := Real.sq_sqrt (by positivity)
  have hM0 : ν ≤ M := by
    apply Real.le_sqrt_of_sq_le
    have : 0 ≤ 1 / (4 * s ^ 2) := by positivity
    linarith
  have hMp : 0 < M := lt_of_lt_of_le hν0 hM0
  have key : Real.pi / ν - Real.pi / M ≤ 1 / (8 * ν ^ 2) * (Real.pi / ν / s ^ 2) := by
    have e1 : Real.pi / ν - Real.pi / M = Real.pi * (M ^ 2 - ν ^ 2) / (ν * M * (M + ν)) := by
      field_simp
      ring
    have e2 : 1 / (8 * ν ^ 2) * (Real.pi / ν / s ^ 2)
        = Real.pi * (1 / (4 * s ^ 2)) / (ν * ν * (ν + ν)) := by
      field_simp
      ring
    rw [e1, e2, hM2, add_sub_cancel_left]
    apply div_le_div_of_nonneg_left
    · have := Real.pi_pos; positivity
    · positivity
    · gcongr
  have key2 : Real.pi / ν / s ^ 2 ≤ Real.pi / ν / Real.sin (glφ N i) ^ 2 := by
    apply div_le_div_of_nonneg_left
    · have := Real.pi_pos; positivity
    · positivity
    · gcongr
  have := mul_le_mul_of_nonneg_left key2 (show 0 ≤ 1 / (8 * ν ^ 2) by positivity)
  linarith

end nodes

/-- The cotangent falls at least as fast as its last slope. -/
theorem cot_sub_cot {a b : ℝ} (ha : 0 < a) (hab : a < b) (hb : b ≤ Real.pi / 2) :
    (b - a) / Real.sin b ^ 2 ≤ Real.cos a / Real.sin a - Real.cos b / Real.sin b := by
  have hpos : ∀ t ∈ Icc a b, 0 < Real.sin t := fun t h =>
    Real.sin_pos_of_pos_of_lt_pi (by linarith [h.1]) (by linarith [h.2, Real.pi_pos])
  have hd : ∀ t ∈ Icc a b, HasDerivAt (fun t => Real.cos t / Real.sin t) (-(1 / Real.sin t ^ 2)) t := by
    intro t h
    refine ((Real.hasDerivAt_cos t).div (Real.hasDerivAt_sin t) (hpos t h).ne').congr_deriv ?_
    have := hpos t h
    field_simp
    have := Real.sin_sq_add_cos_sq t
    linarith
  obtain ⟨c, hc, e⟩ := exists_hasDerivAt_eq_slope (fun t => Real.cos t / Real.sin t)
    (fun t => -(1 / Real.sin t ^ 2)) hab (fun t h => (hd t h).continuousAt.continuousWithinAt)
    (fun t h => hd t ⟨h.1.le, h.2.le⟩)
  rw [eq_div_iff (by linarith)] at e
  have hs : 1 / Real.sin b ^ 2 ≤ 1 / Real.sin c ^ 2 := by
    have h1 := hpos c ⟨hc.1.le, hc.2.le⟩
    apply one_div_le_one_div_of_le (by positivity)
    exact pow_le_pow_left₀ h1.le
      (Real.sin_le_sin_of_le_of_le_pi_div_two (by linarith [hc.1]) hb hc.2.le) 2
  have := mul_le_mul_of_nonneg_right hs (show 0 ≤ b - a by linarith)
  calc (b - a) / Real.sin b ^ 2 = 1 / Real.sin b ^ 2 * (b - a) := by ring
    _ ≤ _ := by linarith

/-- The bound for the angle, simplified. -/
theorem start_angle {ν φ θ : ℝ} (hν0 : 5 / 2 ≤ ν) (hφl : 3 * Real.pi / (4 * ν) ≤ φ)
    (hφu : φ ≤ Real.pi / 2 - Real.pi / (2 * ν))
    (hδ : θ - φ ≤ 1 / (8 * ν ^ 2) *
      (Real.cos φ / Real.sin φ + Real.pi / ν / Real.sin φ ^ 2)) :
    3 / (2 * ν) ≤ Real.sin φ ∧ 0 < Real.cos φ ∧
      θ - φ ≤ 0.52 * (Real.cos φ / (Real.sin φ * ν ^ 2)) := by
  have hpi := Real.pi_pos
  have hνp : 0 < ν := by linarith
  have hφ0 : 0 < φ := lt_of_lt_of_le (by positivity) hφl
  have hq0 : 0 < Real.pi / (2 * ν) := by positivity
  have hsin2 : 2 / ν ≤ Real.sin (2 * φ) := by
    have hj : 2 / ν ≤ Real.sin (Real.pi / ν) := by
      have := Real.mul_le_sin (x := Real.pi / ν) (by positivity) (by
        rw [div_le_div_iff₀ hνp two_pos]; nlinarith)
      refine le_trans (le_of_eq ?_) this
      field_simp
    have hl : Real.pi / ν ≤ 2 * φ := by
      have : Real.pi / ν ≤ 2 * (3 * Real.pi / (4 * ν)) := by
        rw [← mul_div_assoc, div_le_div_iff₀ hνp (by positivity)]; nlinarith
      linarith
    have hu : 2 * φ ≤ Real.pi - Real.pi / ν := by
      have : Real.pi / (2 * ν) = Real.pi / ν / 2 := by field_simp
      linarith
    have hq : 0 < Real.pi / ν := by positivity
    rcases le_total (2 * φ) (Real.pi / 2) with h | h
    · exact hj.trans (Real.sin_le_sin_of_le_of_le_pi_div_two (by linarith) h hl)
    · rw [← Real.sin_pi_sub (2 * φ)]
      exact hj.trans (Real.sin_le_sin_of_le_of_le_pi_div_two (by linarith) (by linarith) (by linarith))
  rw [Real.sin_two_mul] at hsin2
  have hs32 : 3 / (2 * ν) ≤ Real.sin φ := by
    have := Real.mul_le_sin (x := φ) hφ0.le (by linarith)
    refine le_trans ?_ this
    have : 2 / Real.pi * (3 * Real.pi / (4 * ν)) ≤ 2 / Real.pi * φ := by gcongr
    refine le_trans (le_of_eq ?_) this
    field_simp
    norm_num
  set s := Real.sin φ with hs
  set c := Real.cos φ with hc
  have hs0 : 0 < s := lt_of_lt_of_le (by positivity) hs32
  have hc0 : 0 < c := Real.cos_pos_of_mem_Ioo ⟨by linarith, by linarith⟩
  have hc1 : c ≤ 1 := Real.cos_le_one _
  have hsc : 1 / ν ≤ s * c := by
    have : 2 / ν = 2 * (1 / ν) := by ring
    linarith
  -- the angle
  have hδ2 : θ - φ ≤ 0.52 * (c / (s * ν ^ 2)) := by
    refine hδ.trans ?_
    have a : Real.pi / ν / s ^ 2 ≤ Real.pi * (c / s) := by
      rw [div_le_iff₀ (by positivity)]
      have : Real.pi * (c / s) * s ^ 2 = Real.pi * (s * c) := by field_simp
      rw [this]
      calc Real.pi / ν = Real.pi * (1 / ν) := by ring
        _ ≤ _ := mul_le_mul_of_nonneg_left hsc hpi.le
    calc 1 / (8 * ν ^ 2) * (c / s + Real.pi / ν / s ^ 2)
        ≤ 1 / (8 * ν ^ 2) * (c / s + Real.pi * (c / s)) := by gcongr
      _ = (1 + Real.pi) / 8 * (c / (s * ν ^ 2)) := by field_simp
      _ ≤ 0.52 * (c / (s * ν ^ 2)) := by
        apply mul_le_mul_of_nonneg_right _ (by positivity)
        have := Real.pi_lt_d2
        norm_num at this ⊢
        linarith
  exact ⟨hs32, hc0, hδ2⟩

/-- The node seen from the starting value. -/
theorem start_bound {ν φ θ : ℝ} (hν0 : 5 / 2 ≤ ν) (hφ0 : 0 < φ) (hφθ : φ ≤ θ)
    (hθ : θ < Real.pi / 2) (hs32 : 3 / (2 * ν) ≤ Real.sin φ) (hc0 : 0 < Real.cos φ)
    (hδ2 : θ - φ ≤ 0.52 * (Real.cos φ / (Real.sin φ * ν ^ 2))) :
    Real.sin θ ≤ 1.24 * Real.sin φ ∧ 0 < Real.cos θ ∧ Real.cos θ ≤ Real.cos φ ∧
      ν ^ 2 * (Real.cos φ - Real.cos θ) ≤ 0.65 * Real.cos φ := by
  have hpi := Real.pi_pos
  have hνp : 0 < ν := by linarith
  set s := Real.sin φ with hs
  set c := Real.cos φ with hc
  have hs0 : 0 < s := lt_of_lt_of_le (by positivity) hs32
  have hc1 : c ≤ 1 := Real.cos_le_one _
  have hν2 : 1 / ν ^ 2 ≤ 4 / 9 * s ^ 2 := by
    have := pow_le_pow_left₀ (by positivity) hs32 2
    have e : (3 / (2 * ν)) ^ 2 = 9 / 4 * (1 / ν ^ 2) := by field_simp; norm_num
    rw [e] at this
    linarith
  have hδ3 : θ - φ ≤ 0.24 * s := by
    refine hδ2.trans ?_
    calc 0.52 * (c / (s * ν ^ 2)) ≤ 0.52 * (1 / (s * ν ^ 2)) := by gcongr
      _ = 0.52 * (1 / ν ^ 2) / s := by field_simp
      _ ≤ 0.52 * (4 / 9 * s ^ 2) / s := by gcongr
      _ = 0.52 * 4 / 9 * s := by field_simp
      _ ≤ 0.24 * s := by
        apply mul_le_mul_of_nonneg_right _ hs0.le
        norm_num
  have hsθ : Real.sin θ ≤ 1.24 * s := by
    have e := Real.sin_sub_sin θ φ
    have a := Real.sin_le (x := (θ - φ) / 2) (by linarith)
    have b := Real.cos_le_one ((θ + φ) / 2)
    have a0 : 0 ≤ Real.sin ((θ - φ) / 2) := Real.sin_nonneg_of_nonneg_of_le_pi (by linarith) (by linarith)
    have : 2 * Real.sin ((θ - φ) / 2) * Real.cos ((θ + φ) / 2) ≤ 2 * Real.sin ((θ - φ) / 2) * 1 :=
      mul_le_mul_of_nonneg_left b (by linarith)
    norm_num at hδ3 ⊢
    linarith
  have hx0 : 0 < Real.cos θ := Real.cos_pos_of_mem_Ioo ⟨by linarith, by linarith⟩
  have hxz : Real.cos θ ≤ c :=
    Real.cos_le_cos_of_nonneg_of_le_pi hφ0.le (by linarith) hφθ
  have hdiff : c - Real.cos θ ≤ (θ - φ) * Real.sin θ := by
    rw [hc, Real.cos_sub_cos, show (φ - θ) / 2 = -((θ - φ) / 2) by ring, Real.sin_neg]
    have a := Real.sin_le (x := (θ - φ) / 2) (by linarith)
    have a0 : 0 ≤ Real.sin ((θ - φ) / 2) := Real.sin_nonneg_of_nonneg_of_le_pi (by linarith) (by linarith)
    have b : Real.sin ((φ + θ) / 2) ≤ Real.sin θ :=
      Real.sin_le_sin_of_le_of_le_pi_div_two (by linarith) hθ.le (by linarith)
    have b0 : 0 ≤ Real.sin ((φ + θ) / 2) :=
      Real.sin_nonneg_of_nonneg_of_le_pi (by linarith) (by linarith)
    have := mul_le_mul b a a0 (b0.trans b)
    nlinarith
  have hdiff2 : ν ^ 2 * (c - Real.cos θ) ≤ 0.65 * c := by
    have h3 : (θ - φ) * Real.sin θ ≤ 0.52 * (c / (s * ν ^ 2)) * (1.24 * s) := by
      apply mul_le_mul hδ2 hsθ _ (by positivity)
      exact Real.sin_nonneg_of_nonneg_of_le_pi (by linarith) (by linarith)
    have h4 : 0.52 * (c / (s * ν ^ 2)) * (1.24 * s) = 0.6448 * c / ν ^ 2 := by
      field_simp
      norm_num
    rw [h4] at h3
    have h5 := hdiff.trans h3
    rw [le_div_iff₀ (by positivity)] at h5
    norm_num at h5 ⊢
    linarith
  exact ⟨hsθ, hx0, hxz, hdiff2⟩

section nodes
variable (N : ℕ) (x : ℤ → ℝ)

theorem glφ_pos (i : ℤ) (h1 : 1 ≤ i) : 0 < glφ N i := by
  unfold glφ
  have : (1 : ℝ) ≤ i := by exact_mod_cast h1
  have := Real.pi_pos
  apply div_pos (mul_pos this (by norm_num; linarith)) (by positivity)

theorem glφ_half (i : ℤ) (h2 : 2 * i ≤ N + 2) : glφ N i ≤ Real.pi / 2 := by
  have h := glφ_symm N i
  have : glφ N i ≤ glφ N (N + 2 - i) := by
    unfold glφ
    have := Real.pi_pos
    have : (i : ℝ) ≤ ((N + 2 - i : ℤ) : ℝ) := by exact_mod_cast (by omega)
    gcongr
  linarith

variable (hmono : ∀ i j : ℤ, 0 ≤ i → i < j → j < N + 1 → x i < x j)
  (hroot : ∀ i : ℤ, 0 ≤ i → i < N + 1 → (Legendre.P (N + 1)).eval (x i) = 0)
include hmono hroot

/-- Upper bound for the angle between a node and its starting value. -/
theorem glδ_le (i : ℤ) (h1 : 1 ≤ i) (h2 : 2 * i ≤ N + 2) :
    glθ N x i - glφ N i ≤ 1 / (8 * ((N : ℝ) + 3 / 2) ^ 2) *
      (Real.cos (glφ N i) / Real.sin (glφ N i)
        + Real.pi / ((N : ℝ) + 3 / 2) / Real.sin (glφ N i) ^ 2) := by
  obtain ⟨k, hk⟩ : ∃ k : ℕ, (N : ℤ) + 2 - 2 * i = k := ⟨(N + 2 - 2 * i).toNat, by omega⟩
  have hν : (0 : ℝ) < (N : ℝ) + 3 / 2 := by positivity
  have hpi := Real.pi_pos
  induction k using Nat.strong_induction_on generalizing i with
  | _ k ih =>
    have a0 := glφ_pos N i h1
    have a1 := glφ_half N i h2
    have s0 : 0 < Real.sin (glφ N i) := Real.sin_pos_of_pos_of_lt_pi a0 (by linarith)
    have c0 : 0 ≤ Real.cos (glφ N i) := Real.cos_nonneg_of_neg_pi_div_two_le_of_le (by linarith) a1
    rcases k with _ | _ | k
    · have e1 := glθ_symm N x hmono hroot i h1 (by omega)
      have e2 := glφ_symm N i
      rw [show (N : ℤ) + 2 - i = i by push_cast at hk; omega] at e1 e2
      have : glθ N x i - glφ N i = 0 := by linarith
      rw [this]
      positivity
    · have e1 := glθ_symm N x hmono hroot i h1 (by omega)
      have e2 := glφ_symm N i
      rw [show (N : ℤ) + 2 - i = i + 1 by push_cast at hk; omega] at e1 e2
      have h := glδ_step N x hmono hroot i h1 (by omega)
      have hn := glδ_nonneg N x hmono hroot i h1 h2
      have : 0 ≤ 1 / (8 * ((N : ℝ) + 3 / 2) ^ 2) * (Real.cos (glφ N i) / Real.sin (glφ N i)) := by
        positivity
      rw [mul_add]
      linarith
    · have h := glδ_step N x hmono hroot i h1 (by omega)
      have h' := ih k (by omega) (i + 1) (by omega) (by omega) (by push_cast at hk ⊢; omega)
      have hc := cot_sub_cot a0 (b := glφ N (i + 1)) (by rw [glφ_succ]; have : 0 < Real.pi / ((N : ℝ) + 3 / 2) := by positivity
                                                         linarith) (glφ_half N (i + 1) (by omega))
      rw [show glφ N (i + 1) - glφ N i = Real.pi / ((N : ℝ) + 3 / 2) by rw [glφ_succ]; ring] at hc
      have := mul_le_mul_of_nonneg_left hc (show 0 ≤ 1 / (8 * ((N : ℝ) + 3 / 2) ^ 2) by positivity)
      rw [mul_sub] at this
      rw [mul_add] at h' ⊢
      linarith

/-- Where the Newton iteration for a positive node starts, relative to that node. -/
theorem gl_start (i : ℤ) (h1 : 1 ≤ i) (h2 : 2 * i ≤ N + 1) :
    0 < x (N + 1 - i) ∧ x (N + 1 - i) ≤ Real.cos (glφ N i) ∧
    ((N : ℝ) + 1) * (N + 2) * (Real.cos (glφ N i) - x (N + 1 - i)) < 2 * x (N + 1 - i) ∧
    3 / (2 * ((N : ℝ) + 3 / 2)) ≤ Real.sin (glφ N i) ∧
    Real.sin (glθ N x i) ≤ 1.24 * Real.sin (glφ N i) := by
  have hcos := glθ_cos N x hroot i h1 (by omega)
  have hN : (1 : ℝ) ≤ N := by exact_mod_cast (by omega : (1 : ℤ) ≤ N)
  have hδ := glδ_le N x hmono hroot i h1 (by omega)
  have hφθ := glδ_nonneg N x hmono hroot i h1 (by omega)
  have hθ := glθ_half_lt N x hmono hroot i h1 h2
  have hφ0 := glφ_pos N i h1
  have hpi := Real.pi_pos
  set ν : ℝ := (N : ℝ) + 3 / 2 with hν
  have hν0 : 5 / 2 ≤ ν := by linarith
  have hνp : 0 < ν := by linarith
  set φ := glφ N i with hφ
  set θ := glθ N x i with hθd
  have hφl : 3 * Real.pi / (4 * ν) ≤ φ := by
    rw [hφ, glφ, div_le_div_iff₀ (by positivity) (by positivity)]
    have : (1 : ℝ) ≤ i := by exact_mod_cast h1
    have : 3 * Real.pi ≤ 4 * (Real.pi * ((i : ℝ) - 0.25)) := by norm_num; nlinarith
    nlinarith
  have hφu : φ ≤ Real.pi / 2 - Real.pi / (2 * ν) := by
    have : (2 : ℝ) * i ≤ N + 1 := by exact_mod_cast h2
    have e : Real.pi / 2 - Real.pi / (2 * ν) = Real.pi * ((ν - 1) / 2) / ν := by field_simp
    rw [e, hφ, glφ]
    gcongr
    norm_num
    linarith
  obtain ⟨hs32, hc0, hδ2⟩ := start_angle hν0 hφl hφu hδ
  obtain ⟨hsθ, hx0, hxz, hdiff2⟩ := start_bound hν0 hφ0 hφθ hθ hs32 hc0 hδ2
  set c := Real.cos φ
  rw [hcos] at hx0 hxz hdiff2
  refine ⟨hx0, hxz, ?_, hs32, hsθ⟩
  have e : ((N : ℝ) + 1) * (N + 2) = ν ^ 2 - 1 / 4 := by rw [hν]; ring
  rw [e]
  have hcx : c ≤ 1.2 * x (N + 1 - i) := by
    have h6 : (25 / 4 : ℝ) ≤ ν ^ 2 := by nlinarith
    have h7 : 25 / 4 * (c - x (N + 1 - i)) ≤ ν ^ 2 * (c - x (N + 1 - i)) :=
      mul_le_mul_of_nonneg_right h6 (by linarith)
    norm_num at hdiff2 ⊢
    linarith
  norm_num at hcx hdiff2 ⊢
  nlinarith

end nodes

end S2fft
