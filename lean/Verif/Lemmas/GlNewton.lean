import Verif.Lemmas.LegendreNodes

/-!
# The Newton iteration for the Gauss–Legendre nodes converges
-/

namespace S2fft
open Set Polynomial Filter Topology

section newton
variable {p : ℝ[X]} {m x b : ℝ}

theorem poly_mono {q : ℝ[X]} {s t : ℝ} (hst : s ≤ t)
    (h : ∀ y ∈ Ioo s t, 0 ≤ (derivative q).eval y) : q.eval s ≤ q.eval t := by
  have : MonotoneOn (fun y => q.eval y) (Icc s t) := by
    apply monotoneOn_of_deriv_nonneg (convex_Icc s t) q.continuous.continuousOn
      q.differentiable.differentiableOn
    intro y hy
    rw [interior_Icc] at hy
    rw [Polynomial.deriv]
    exact h y hy
  exact this ⟨le_rfl, hst⟩ ⟨hst, le_rfl⟩ hst

/-- A function with increasing derivative lies below its last tangent. -/
theorem poly_tangent {q : ℝ[X]} {s t : ℝ} (hst : s ≤ t)
    (h : ∀ y ∈ Ioo s t, 0 ≤ (derivative (derivative q)).eval y) :
    q.eval t - q.eval s ≤ (derivative q).eval t * (t - s) ∧
      (derivative q).eval s * (t - s) ≤ q.eval t - q.eval s := by
  rcases hst.lt_or_eq with hlt | rfl
  · obtain ⟨c, hc, e⟩ := exists_hasDerivAt_eq_slope (fun y => q.eval y)
      (fun y => (derivative q).eval y) hlt q.continuous.continuousOn (fun y _ => q.hasDerivAt y)
    rw [eq_div_iff (by linarith)] at e
    have h1 := poly_mono hc.2.le (q := derivative q) (fun y hy => h y ⟨hc.1.trans hy.1, hy.2⟩)
    have h2 := poly_mono hc.1.le (q := derivative q) (fun y hy => h y ⟨hy.1, hy.2.trans hc.2⟩)
    rw [← e]
    constructor <;> apply mul_le_mul_of_nonneg_right _ (by linarith) <;> assumption
  · simp

variable (hode : ∀ y, (y ^ 2 - 1) * (derivative (derivative p)).eval y
    + 2 * y * (derivative p).eval y = m * p.eval y)
  (hm : 0 ≤ m) (hx0 : 0 < x) (hxb : x ≤ b) (hb1 : b < 1) (hroot : p.eval x = 0)
  (hpos : 0 < (derivative p).eval x) (hclose : m * (b - x) < 2 * x)
include hode hm hx0 hxb hb1 hroot hpos hclose

/-- Between the root and the starting value the polynomial is convex. -/
theorem newton_convex (y : ℝ) (hy : y ∈ Icc x b) : 0 < (derivative (derivative p)).eval y := by
  by_contra hneg
  push Not at hneg
  set S := Icc x b ∩ {y | (derivative (derivative p)).eval y ≤ 0} with hS
  have hcl : IsCompact S :=
    isCompact_Icc.inter_right (isClosed_le (derivative (derivative p)).continuous continuous_const)
  obtain ⟨t, ht, hmin⟩ := hcl.exists_isLeast ⟨y, hy, hneg⟩
  have hbefore : ∀ w ∈ Ioo x t, 0 ≤ (derivative (derivative p)).eval w := by
    intro w hw
    by_contra hc
    push Not at hc
    have := hmin (show w ∈ S from ⟨⟨hw.1.le, hw.2.le.trans ht.1.2⟩, hc.le⟩)
    linarith [hw.2]
  have h1 := poly_mono ht.1.1 hbefore
  have h2 := (poly_tangent ht.1.1 hbefore).1
  rw [hroot, sub_zero] at h2
  have ht2 : (derivative (derivative p)).eval t ≤ 0 := ht.2
  have h3 := hode t
  have htx := ht.1.1
  have htb := ht.1.2
  have h4 : m * p.eval t ≤ m * ((derivative p).eval t * (t - x)) := mul_le_mul_of_nonneg_left h2 hm
  have h5 : m * (t - x) ≤ m * (b - x) := mul_le_mul_of_nonneg_left (by linarith) hm
  have h6 : 0 < (derivative p).eval t * (2 * t - m * (t - x)) :=
    mul_pos (by linarith) (by linarith)
  have h7 : 0 ≤ (t ^ 2 - 1) * (derivative (derivative p)).eval t :=
    mul_nonneg_of_nonpos_of_nonpos (by nlinarith) ht2
  linarith

theorem newton_deriv_pos (y : ℝ) (hy : y ∈ Icc x b) :
    (derivative p).eval x ≤ (derivative p).eval y := by
  have hc := newton_convex hode hm hx0 hxb hb1 hroot hpos hclose
  exact poly_mono hy.1 (fun w hw => (hc w ⟨hw.1.le, hw.2.le.trans hy.2⟩).le)

theorem newton_value (y : ℝ) (hy : y ∈ Icc x b) :
    0 ≤ p.eval y ∧ p.eval y ≤ (derivative p).eval y * (y - x) ∧
      (derivative p).eval x * (y - x) ≤ p.eval y := by
  have hc := newton_convex hode hm hx0 hxb hb1 hroot hpos hclose
  have h := poly_tangent (q := p) hy.1 (fun w hw => (hc w ⟨hw.1.le, hw.2.le.trans hy.2⟩).le)
  rw [hroot, sub_zero] at h
  refine ⟨le_trans (mul_nonneg hpos.le (by linarith [hy.1])) h.2, h⟩

/-- `(1 - y^2) p'` decreases. -/
theorem newton_ratio (y : ℝ) (hy : y ∈ Icc x b) :
    (1 - y ^ 2) * (derivative p).eval y ≤ (1 - x ^ 2) * (derivative p).eval x := by
  have h := poly_mono (q := (X ^ 2 - 1) * derivative p) hy.1 (fun w hw => by
    have hv := (newton_value hode hm hx0 hxb hb1 hroot hpos hclose w ⟨hw.1.le, hw.2.le.trans hy.2⟩).1
    have ho := hode w
    simp only [derivative_mul, derivative_sub, derivative_X_pow, derivative_one, eval_add, eval_mul,
      eval_sub, eval_pow, eval_X, eval_one, eval_C, Nat.cast_ofNat, sub_zero, map_ofNat, eval_ofNat]
    have : 0 ≤ m * p.eval w := mul_nonneg hm hv
    rw [show (w ^ (2 - 1) : ℝ) = w by norm_num]
    linarith)
  simp only [eval_mul, eval_sub, eval_pow, eval_X, eval_one] at h
  linarith

variable {z : ℕ → ℝ} (hz0 : z 0 = b)
  (hz : ∀ k, z k ∈ Icc x b → z (k + 1) = z k - p.eval (z k) / (derivative p).eval (z k))
include hz0 hz

theorem newton_mem (k : ℕ) : z k ∈ Icc x b := by
  induction k with
  | zero => rw [hz0]; exact ⟨hxb, le_rfl⟩
  | succ k ih =>
    rw [hz k ih]
    have h1 := newton_deriv_pos hode hm hx0 hxb hb1 hroot hpos hclose _ ih
    have h2 := newton_value hode hm hx0 hxb hb1 hroot hpos hclose _ ih
    have h3 : 0 < (derivative p).eval (z k) := by linarith
    have h4 : 0 ≤ p.eval (z k) / (derivative p).eval (z k) := div_nonneg h2.1 h3.le
    have h5 : p.eval (z k) / (derivative p).eval (z k) ≤ z k - x := by
      rw [div_le_iff₀ h3]; linarith [h2.2.1]
    exact ⟨by linarith, by linarith [ih.2]⟩

theorem newton_anti : Antitone z := by
  apply antitone_nat_of_succ_le
  intro k
  have ih := newton_mem hode hm hx0 hxb hb1 hroot hpos hclose hz0 hz k
  rw [hz k ih]
  have h1 := newton_deriv_pos hode hm hx0 hxb hb1 hroot hpos hclose _ ih
  have h2 := newton_value hode hm hx0 hxb hb1 hroot hpos hclose _ ih
  have h4 : 0 ≤ p.eval (z k) / (derivative p).eval (z k) := div_nonneg h2.1 (by linarith)
  linarith

/-- The last step bounds the distance from the root. -/
theorem newton_error (k : ℕ) :
    (z k - x) * (1 - z k ^ 2) ≤ (z k - z (k + 1)) * (1 - x ^ 2) := by
  have ih := newton_mem hode hm hx0 hxb hb1 hroot hpos hclose hz0 hz k
  have h1 := newton_deriv_pos hode hm hx0 hxb hb1 hroot hpos hclose _ ih
  have h2 := newton_value hode hm hx0 hxb hb1 hroot hpos hclose _ ih
  have h3 := newton_ratio hode hm hx0 hxb hb1 hroot hpos hclose _ ih
  have hd : 0 < (derivative p).eval (z k) := by linarith
  have e : p.eval (z k) = (z k - z (k + 1)) * (derivative p).eval (z k) := by
    rw [hz k ih]; field_simp; ring
  have hzz : 0 ≤ 1 - z k ^ 2 := by nlinarith [ih.1, ih.2]
  have hs : 0 ≤ z k - z (k + 1) := by
    have := newton_anti hode hm hx0 hxb hb1 hroot hpos hclose hz0 hz (Nat.le_succ k)
    linarith
  have a := mul_le_mul_of_nonneg_right h2.2.2 hzz
  have c := mul_le_mul_of_nonneg_left h3 hs
  rw [e] at a
  have : (derivative p).eval x * ((z k - x) * (1 - z k ^ 2))
      ≤ (derivative p).eval x * ((z k - z (k + 1)) * (1 - x ^ 2)) := by linarith
  exact le_of_mul_le_mul_left this hpos

theorem newton_tendsto : Tendsto z atTop (𝓝 x) := by
  have hmem := newton_mem hode hm hx0 hxb hb1 hroot hpos hclose hz0 hz
  have hanti := newton_anti hode hm hx0 hxb hb1 hroot hpos hclose hz0 hz
  have hbdd : BddBelow (range z) := ⟨x, by rintro _ ⟨k, rfl⟩; exact (hmem k).1⟩
  have hlim := tendsto_atTop_ciInf hanti hbdd
  set l := ⨅ k, z k with hl
  have hstep : Tendsto (fun k => z k - z (k + 1)) atTop (𝓝 0) := by
    have := hlim.sub (hlim.comp (tendsto_add_atTop_nat 1))
    simpa using this
  -- the distance from the root is at most a multiple of the step
  have hb : 0 < 1 - b ^ 2 := by nlinarith
  have hbound : ∀ k, z k - x ≤ (z k - z (k + 1)) * (1 - x ^ 2) / (1 - b ^ 2) := by
    intro k
    rw [le_div_iff₀ hb]
    refine le_trans ?_ (newton_error hode hm hx0 hxb hb1 hroot hpos hclose hz0 hz k)
    apply mul_le_mul_of_nonneg_left _ (by linarith [(hmem k).1])
    nlinarith [(hmem k).1, (hmem k).2]
  have h0 : Tendsto (fun k => z k - x) atTop (𝓝 0) := by
    refine squeeze_zero (fun k => by linarith [(hmem k).1]) hbound ?_
    have := (hstep.mul_const (1 - x ^ 2)).div_const (1 - b ^ 2)
    simpa using this
  have := h0.add_const x
  simpa using this

end newton

theorem weight_ratio {A B B' p q η : ℝ} (hB0 : 0 < B) (hBB' : B ≤ B') (hB'A : B' ≤ A)
    (hη : A - B ≤ η * B) (hη0 : 0 ≤ η) (p0 : 0 < p) (hq : p ≤ q) (hBq : B * q ≤ A * p) :
    |2 / (B' * q ^ 2) - 2 / (A * p ^ 2)| ≤ 2 * η * (2 / (A * p ^ 2)) := by
  have hB'0 : 0 < B' := by linarith
  have hA0 : 0 < A := by linarith
  have hq0 : 0 < q := by linarith
  have hW0 : 0 < 2 / (A * p ^ 2) := by positivity
  have hid : 2 / (B' * q ^ 2) - 2 / (A * p ^ 2)
      = (A * p ^ 2 / (B' * q ^ 2) - 1) * (2 / (A * p ^ 2)) := by
    field_simp
  have hup : A * p ^ 2 / (B' * q ^ 2) ≤ 1 + η := by
    rw [div_le_iff₀ (by positivity)]
    have h1 : A ≤ (1 + η) * B' := by
      have := mul_le_mul_of_nonneg_left hBB' (show 0 ≤ 1 + η by linarith)
      linarith
    have h2 : p ^ 2 ≤ q ^ 2 := pow_le_pow_left₀ p0.le hq 2
    calc A * p ^ 2 ≤ ((1 + η) * B') * q ^ 2 := mul_le_mul h1 h2 (by positivity) (by positivity)
      _ = _ := by ring
  have hlow : 1 - 2 * η ≤ A * p ^ 2 / (B' * q ^ 2) := by
    rw [le_div_iff₀ (by positivity)]
    -- `q ≤ (1 + η) p`
    have h1 : q ≤ (1 + η) * p := by
      have : B * q ≤ B * ((1 + η) * p) := by
        refine hBq.trans ?_
        have : A ≤ (1 + η) * B := by linarith
        have := mul_le_mul_of_nonneg_right this p0.le
        linarith
      exact le_of_mul_le_mul_left this hB0
    have h2 : q ^ 2 ≤ (1 + η) ^ 2 * p ^ 2 := by
      rw [← mul_pow]; exact pow_le_pow_left₀ hq0.le h1 2
    rcases le_or_gt (1 - 2 * η) 0 with h3 | h3
    · exact le_trans (mul_nonpos_of_nonpos_of_nonneg h3 (by positivity)) (by positivity)
    · calc (1 - 2 * η) * (B' * q ^ 2) ≤ (1 - 2 * η) * (A * ((1 + η) ^ 2 * p ^ 2)) := by gcongr
        _ = ((1 - 2 * η) * (1 + η) ^ 2) * (A * p ^ 2) := by ring
        _ ≤ 1 * (A * p ^ 2) := by
          apply mul_le_mul_of_nonneg_right _ (by positivity)
          have e : (1 - 2 * η) * (1 + η) ^ 2 = 1 - 3 * η ^ 2 - 2 * η ^ 3 := by ring
          have : 0 ≤ η ^ 2 := by positivity
          have : 0 ≤ η ^ 3 := by positivity
          linarith
        _ = _ := one_mul _
  rw [hid, abs_mul, abs_of_pos hW0]
  apply mul_le_mul_of_nonneg_right _ hW0.le
  rw [abs_le]
  constructor <;> linarith

section gl
variable (N : ℕ) (x : ℤ → ℝ)
  (hmono : ∀ i j : ℤ, 0 ≤ i → i < j → j < N + 1 → x i < x j)
  (hroot : ∀ i : ℤ, 0 ≤ i → i < N + 1 → (Legendre.P (N + 1)).eval (x i) = 0)

theorem gl_z_zero (i : ℤ) : gl_z (N + 1) i 0 = Real.cos (glφ N i) := by
  rw [gl_z, glφ]
  congr 2
  push_cast
  ring

theorem gl_z_succ (i : ℤ) (k : ℕ) (h : 1 - gl_z (N + 1) i k ^ 2 ≠ 0) :
    gl_z (N + 1) i (k + 1) = gl_z (N + 1) i k - (Legendre.P (N + 1)).eval (gl_z (N + 1) i k) /
      (derivative (Legendre.P (N + 1))).eval (gl_z (N + 1) i k) := by
  rw [gl_z, gl_pp_eq N _ h, gl_p_eq]

/-- What the iteration does for one node `X`: it comes down to `X`, the last step bounds the
distance, and the derivative is under control. -/
structure NewtonRun (N : ℕ) (X : ℝ) (z : ℕ → ℝ) : Prop where
  ge : ∀ k, X ≤ z k
  anti : Antitone z
  lt_one : z 0 < 1
  nonneg : 0 ≤ X
  lim : Tendsto z atTop (𝓝 X)
  error : ∀ k, (z k - X) * (1 - z k ^ 2) ≤ (z k - z (k + 1)) * (1 - X ^ 2)
  slope_ge : ∀ k, |(derivative (Legendre.P (N + 1))).eval X|
    ≤ |(derivative (Legendre.P (N + 1))).eval (z k)|
  slope_le : ∀ k, (1 - z k ^ 2) * |(derivative (Legendre.P (N + 1))).eval (z k)|
    ≤ (1 - X ^ 2) * |(derivative (Legendre.P (N + 1))).eval X|
  start : 1 - X ^ 2 ≤ 1.24 ^ 2 * (1 - z 0 ^ 2)
  away : (3 / (2 * ((N : ℝ) + 3 / 2))) ^ 2 ≤ 1 - z 0 ^ 2

include hmono hroot

theorem gl_newton_pos (i : ℤ) (h1 : 1 ≤ i) (h2 : 2 * i ≤ N + 1) :
    NewtonRun N (x (N + 1 - i)) (gl_z (N + 1) i) := by
  obtain ⟨a1, a2, a3, a4, a5⟩ := gl_start N x hmono hroot i h1 h2
  have hcos := glθ_cos N x hroot i h1 (by omega)
  have hr := hroot (N + 1 - i) (by omega) (by omega)
  have hne := (gl_node_ne N x hmono hroot (N + 1 - i) (by omega) (by omega)).2
  set X := x (N + 1 - i) with hX
  set b := Real.cos (glφ N i) with hb
  set p := Legendre.P (N + 1) with hp
  have hs0 : 0 < Real.sin (glφ N i) := lt_of_lt_of_le (by positivity) a4
  have hb2 : 1 - b ^ 2 = Real.sin (glφ N i) ^ 2 := by
    have := Real.sin_sq_add_cos_sq (glφ N i); linarith
  have hX2 : 1 - X ^ 2 = Real.sin (glθ N x i) ^ 2 := by
    have := Real.sin_sq_add_cos_sq (glθ N x i); rw [hcos] at this; linarith
  have hb1 : b < 1 := by
    have : 0 < 1 - b ^ 2 := by rw [hb2]; positivity
    nlinarith
  have hsθ : 0 ≤ Real.sin (glθ N x i) :=
    Real.sin_nonneg_of_nonneg_of_le_pi (glθ_pos N x hroot i h1 (by omega)).1.le
      (glθ_pos N x hroot i h1 (by omega)).2.le
  -- choose the sign
  obtain ⟨σ, hσ, hσp⟩ : ∃ σ : ℝ, (σ = 1 ∨ σ = -1) ∧ 0 < σ * (derivative p).eval X := by
    rcases lt_or_gt_of_ne hne with h | h
    · exact ⟨-1, Or.inr rfl, by linarith⟩
    · exact ⟨1, Or.inl rfl, by linarith⟩
  have hσ0 : σ ≠ 0 := by rcases hσ with rfl | rfl <;> norm_num
  have hσa : ∀ y, 0 < σ * y → |y| = σ * y := by
    intro y hy
    rcases hσ with rfl | rfl
    · rw [abs_of_pos (by linarith)]; ring
    · rw [abs_of_neg (by linarith)]; ring
  have e0 : ∀ y, (C σ * p).eval y = σ * p.eval y := by intro y; simp
  have e1 : ∀ y, (derivative (C σ * p)).eval y = σ * (derivative p).eval y := by
    intro y; simp
  have e2 : ∀ y, (derivative (derivative (C σ * p))).eval y
      = σ * (derivative (derivative p)).eval y := by intro y; simp
  have hode : ∀ y, (y ^ 2 - 1) * (derivative (derivative (C σ * p))).eval y
      + 2 * y * (derivative (C σ * p)).eval y = (((N : ℝ) + 1) * (N + 2)) * (C σ * p).eval y := by
    intro y
    rw [e0, e1, e2]
    have := legendre_ode (N + 1) y
    push_cast at this
    rw [← hp] at this
    linear_combination σ * this
  have hm : (0 : ℝ) ≤ ((N : ℝ) + 1) * (N + 2) := by positivity
  have hroot' : (C σ * p).eval X = 0 := by rw [e0, hr, mul_zero]
  have hpos : 0 < (derivative (C σ * p)).eval X := by rw [e1]; exact hσp
  have hz0 : gl_z (N + 1) i 0 = b := gl_z_zero N i
  have hz : ∀ k, gl_z (N + 1) i k ∈ Icc X b → gl_z (N + 1) i (k + 1) = gl_z (N + 1) i k -
      (C σ * p).eval (gl_z (N + 1) i k) / (derivative (C σ * p)).eval (gl_z (N + 1) i k) := by
    intro k hk
    rw [gl_z_succ N i k (by nlinarith [hk.1, hk.2]), e0, e1, mul_div_mul_left _ _ hσ0]
  have hmem := newton_mem hode hm a1 a2 hb1 hroot' hpos a3 hz0 hz
  have hdp := fun k => newton_deriv_pos hode hm a1 a2 hb1 hroot' hpos a3 _ (hmem k)
  have hra := fun k => newton_ratio hode hm a1 a2 hb1 hroot' hpos a3 _ (hmem k)
  simp only [e1] at hdp hra
  refine ⟨fun k => (hmem k).1, newton_anti hode hm a1 a2 hb1 hroot' hpos a3 hz0 hz, ?_, a1.le,
    newton_tendsto hode hm a1 a2 hb1 hroot' hpos a3 hz0 hz,
    newton_error hode hm a1 a2 hb1 hroot' hpos a3 hz0 hz, ?_, ?_, ?_, ?_⟩
  · rw [hz0]; exact hb1
  · intro k
    rw [hσa _ hσp, hσa _ (lt_of_lt_of_le hσp (hdp k))]
    exact hdp k
  · intro k
    rw [hσa _ hσp, hσa _ (lt_of_lt_of_le hσp (hdp k))]
    exact hra k
  · rw [hz0, hb2, hX2, ← mul_pow]
    exact pow_le_pow_left₀ hsθ a5 2
  · rw [hz0, hb2]
    exact pow_le_pow_left₀ (by positivity) a4 2

theorem gl_newton_mid (i : ℤ) (h2 : 2 * i = N + 2) :
    NewtonRun N (x (N + 1 - i)) (gl_z (N + 1) i) := by
  have hx0 : x (N + 1 - i) = 0 := by
    have := legendre_nodes_symm N x hmono hroot (N + 1 - i) (by omega) (by omega)
    rw [show (N : ℤ) - (N + 1 - i) = N + 1 - i by omega] at this
    linarith
  have hr := hroot (N + 1 - i) (by omega) (by omega)
  rw [hx0] at hr
  have hz : ∀ k, gl_z (N + 1) i k = 0 := by
    intro k
    induction k with
    | zero =>
      rw [gl_z_zero]
      have h := glφ_symm N i
      rw [show (N : ℤ) + 2 - i = i by omega] at h
      rw [show glφ N i = Real.pi / 2 by linarith, Real.cos_pi_div_two]
    | succ k ih =>
      rw [gl_z_succ N i k (by rw [ih]; norm_num), ih, hr]
      simp
  have hν : (3 / 2 : ℝ) ≤ (N : ℝ) + 3 / 2 := by
    have : (0 : ℝ) ≤ N := by positivity
    linarith
  rw [hx0]
  refine ⟨fun k => (hz k).ge, fun j k _ => by rw [hz, hz], by rw [hz]; norm_num, le_rfl, ?_, ?_, ?_,
    ?_, ?_, ?_⟩
  · rw [show gl_z (N + 1) i = fun _ => 0 from funext hz]; exact tendsto_const_nhds
  · intro k; rw [hz, hz]
  · intro k; rw [hz]
  · intro k; rw [hz]
  · rw [hz]; norm_num
  · rw [hz]
    have : 3 / (2 * ((N : ℝ) + 3 / 2)) ≤ 1 := by
      rw [div_le_one (by positivity)]; linarith
    have := pow_le_pow_left₀ (by positivity) this 2
    norm_num at this ⊢
    linarith

/-- The iteration for every node. -/
theorem gl_newton (i : ℤ) (h1 : 1 ≤ i) (h2 : i ≤ gl_m (N + 1)) :
    NewtonRun N (x (N + 1 - i)) (gl_z (N + 1) i) := by
  unfold gl_m at h2
  rcases (show 2 * i ≤ N + 2 by omega).lt_or_eq with h | h
  · exact gl_newton_pos N x hmono hroot i h1 (by omega)
  · exact gl_newton_mid N x hmono hroot i h

/-- The `while` loop ends. -/
theorem gl_exits_exists : ∃ n, gl_exits (N + 1) n := by
  classical
  have hstop : ∃ n, ¬ gl_continue (N + 1) n := by
    have h : ∀ i ∈ Finset.Icc (1 : ℤ) (gl_m (N + 1)), ∀ᶠ k in atTop,
        |gl_z (N + 1) i (k + 1) - gl_z1 (N + 1) i (k + 1)| ≤ 1e-14 := by
      intro i hi
      rw [Finset.mem_Icc] at hi
      have hl := (gl_newton N x hmono hroot i hi.1 hi.2).lim
      have h2 := ((hl.comp (tendsto_add_atTop_nat 1)).sub hl).abs
      simp only [sub_self, abs_zero] at h2
      exact (h2.eventually (ge_mem_nhds (show (0 : ℝ) < 1e-14 by norm_num)))
    have h' := (Filter.eventually_all_finset _).2 h
    obtain ⟨k, hk⟩ := h'.exists
    refine ⟨k + 1, ?_⟩
    rintro ⟨i, a, b, c⟩
    have := hk i (Finset.mem_Icc.2 ⟨a, b⟩)
    linarith
  exact ⟨Nat.find hstop, Nat.find_spec hstop, fun k hk => not_not.1 (Nat.find_min hstop hk)⟩

omit hmono hroot in
/-- When the loop has ended, every weight is the exact one up to a small relative error. -/
theorem gl_weight_error {N : ℕ} {X : ℝ} {z : ℕ → ℝ} (h : NewtonRun N X z) {ε : ℝ} (hε0 : 0 ≤ ε)
    (hX : (derivative (Legendre.P (N + 1))).eval X ≠ 0) (k : ℕ) (hε : |z (k + 1) - z k| ≤ ε) :
    |2 / ((1 - z (k + 1) ^ 2) * (derivative (Legendre.P (N + 1))).eval (z k) ^ 2)
      - 2 / ((1 - X ^ 2) * (derivative (Legendre.P (N + 1))).eval X ^ 2)|
    ≤ 3 * ((N : ℝ) + 3 / 2) ^ 2 * ε *
      (2 / ((1 - X ^ 2) * (derivative (Legendre.P (N + 1))).eval X ^ 2)) := by
  set P' := derivative (Legendre.P (N + 1)) with hP'
  rw [← sq_abs (P'.eval X), ← sq_abs (P'.eval (z k))]
  have p0 : 0 < |P'.eval X| := abs_pos.2 hX
  have hq := h.slope_ge k
  have hBq := h.slope_le k
  have herr := h.error k
  rw [← hP'] at hq hBq
  set p := |P'.eval X|
  set q := |P'.eval (z k)|
  have hzz : z (k + 1) ≤ z k := h.anti (Nat.le_succ k)
  have hz0 : z k ≤ z 0 := h.anti (Nat.zero_le k)
  have hX0 := h.nonneg
  have hge := h.ge (k + 1)
  have hge0 := h.ge k
  have hlt := h.lt_one
  have hst := h.start
  have haw := h.away
  rw [abs_sub_comm, abs_of_nonneg (by linarith)] at hε
  set ν : ℝ := (N : ℝ) + 3 / 2 with hν
  have hνp : 0 < ν := by positivity
  set A := 1 - X ^ 2 with hA
  set B := 1 - z k ^ 2 with hB
  set B' := 1 - z (k + 1) ^ 2 with hB'
  have hS : 1 - z 0 ^ 2 ≤ B := by rw [hB]; nlinarith
  have hS0 : 0 < 1 - z 0 ^ 2 := by nlinarith
  have hB0 : 0 < B := by linarith
  have hBB' : B ≤ B' := by rw [hB, hB']; nlinarith
  have hB'A : B' ≤ A := by rw [hA, hB']; nlinarith
  have hAB : A ≤ 1.24 ^ 2 * B := hst.trans (mul_le_mul_of_nonneg_left hS (by norm_num))
  have hd : z k - X ≤ 1.24 ^ 2 * ε := by
    have h1 : (z k - X) * B ≤ ε * (1.24 ^ 2 * B) :=
      herr.trans (mul_le_mul hε hAB (by linarith) hε0)
    have : (z k - X) * B ≤ (1.24 ^ 2 * ε) * B := by linarith
    exact le_of_mul_le_mul_right this hB0
  have hd2 : A - B ≤ 3.08 * ε := by
    have : A - B = (z k - X) * (z k + X) := by rw [hA, hB]; ring
    rw [this]
    have h1 : (z k - X) * (z k + X) ≤ (1.24 ^ 2 * ε) * 2 :=
      mul_le_mul hd (by linarith) (by linarith) (by positivity)
    norm_num at h1 ⊢
    linarith
  have hone : 9 ≤ 4 * ν ^ 2 * B := by
    have h1 := haw.trans hS
    rw [div_pow, div_le_iff₀ (by positivity)] at h1
    norm_num at h1
    linarith
  have hη : A - B ≤ 1.37 * ν ^ 2 * ε * B := by
    have := mul_le_mul_of_nonneg_left hone (show 0 ≤ 3.08 / 9 * ε by positivity)
    have e0 : 0 ≤ ν ^ 2 * ε * B := by positivity
    norm_num at this hd2 ⊢
    nlinarith
  set η := 1.37 * ν ^ 2 * ε with hηd
  have hη0 : 0 ≤ η := by positivity
  refine (weight_ratio hB0 hBB' hB'A hη hη0 p0 hq hBq).trans ?_
  have hA0 : 0 < A := by linarith
  apply mul_le_mul_of_nonneg_right _ (by positivity)
  rw [hηd]
  have : 0 ≤ ν ^ 2 * ε := by positivity
  norm_num
  linarith

/-- The weights of the code, when its loop has ended, against those of the exact rule. -/
theorem gl_code_weight (n : ℕ) (hn : gl_exits (N + 1) n) (t : ℤ) (a : 0 ≤ t) (b : t < N + 1) :
    |quad_weights_gl (N + 1) n t
      - 2 / ((1 - x (N + 1 - 1 - t) ^ 2) *
          (derivative (Legendre.P (N + 1))).eval (x (N + 1 - 1 - t)) ^ 2)
          * (2 * Real.pi / (2 * (((N : ℤ) + 1 : ℤ) : ℝ) - 1))|
    ≤ 3e-14 * ((N : ℝ) + 3 / 2) ^ 2 *
      (2 / ((1 - x (N + 1 - 1 - t) ^ 2) *
          (derivative (Legendre.P (N + 1))).eval (x (N + 1 - 1 - t)) ^ 2)
          * (2 * Real.pi / (2 * (((N : ℤ) + 1 : ℤ) : ℝ) - 1))) := by
  obtain ⟨k, rfl⟩ : ∃ k, n = k + 1 := by
    rcases n with _ | k
    · exact absurd (gl_first_pass (by omega)) hn.1
    · exact ⟨k, rfl⟩
  rw [quad_weights_gl_get (by omega) (k + 1) t a b, Nat.add_sub_cancel,
    ← gl_weight_fold N x hmono hroot t a b]
  set i : ℤ := min (t + 1) (N + 1 - t) with hi
  have hi1 : 1 ≤ i := by omega
  have hi2 : i ≤ gl_m (N + 1) := by unfold gl_m; omega
  have hrun := gl_newton N x hmono hroot i hi1 hi2
  have hstep : |gl_z (N + 1) i (k + 1) - gl_z (N + 1) i k| ≤ 1e-14 := by
    by_contra hc
    push Not at hc
    exact hn.1 ⟨i, hi1, hi2, hc⟩
  have hzk : 1 - gl_z (N + 1) i k ^ 2 ≠ 0 := by
    have h1 := hrun.anti (Nat.zero_le k)
    have h2 := hrun.ge k
    have h3 := hrun.nonneg
    have h4 := hrun.lt_one
    nlinarith
  have h := gl_weight_error hrun (by norm_num)
    (gl_node_ne N x hmono hroot (N + 1 - i) (by omega) (by omega)).2 k hstep
  rw [gl_pp_eq N _ hzk]
  have hc : 0 ≤ 2 * Real.pi / (2 * (((N : ℤ) + 1 : ℤ) : ℝ) - 1) := by
    have : (0 : ℝ) ≤ N := by positivity
    have := Real.pi_pos
    push_cast
    apply div_nonneg (by linarith) (by linarith)
  have := mul_le_mul_of_nonneg_right h hc
  rw [← abs_of_nonneg hc, ← abs_mul, abs_of_nonneg hc, sub_mul] at this
  refine le_trans (le_of_eq ?_) (this.trans (le_of_eq ?_))
  · congr 2; ring
  · ring

end gl

end S2fft
