import Verif.Props.C48
import Verif.Lemmas.GlNodesDouble
import Verif.Props.C24

/-! # C48: the colatitudes of the Gauss–Legendre grid as stored in double precision

The code takes the nodes from a table, `numpy.polynomial.legendre.leggauss`; how accurate it is, is a
parameter. -/

namespace S2fft
open Spec

/-- For a table with an error of at most `e` the colatitudes are correct up to `2⁻⁵⁰ + 4 L e`, they are
strictly increasing, and they lie strictly between `0` and `np.pi`. -/
theorem C48_colatitudes_gl (F : DoubleLib) (lg nodes : ℤ → ℤ → ℝ) (s : PyStr) (hs : lower s = sGL) (L : ℤ)
    (nside : Option ℤ) (hL : 1 ≤ L) (hL1 : L ≤ 2 ^ 40) (hz : LegendreZeros (nodes L) L) (e : ℝ)
    (he : ∀ i, 0 ≤ i → i < L → |lg L i - nodes L i| ≤ e) (he1 : 16 * L * L * e ≤ 1) :
    ∃ T, thetasF F lg (some L) s nside = .ok (L, T) ∧
      (∀ t, 0 ≤ t → t < L →
        |T t - Scheme.gl.theta nodes L 0 t| ≤ 1 / 2 ^ 50 + 4 * L * e ∧ 0 < T t ∧ T t < F.fl Real.pi) ∧
      (∀ t u, 0 ≤ t → t < u → u < L → T t < T u) := by
  have hL' : (1 : ℝ) ≤ L := by exact_mod_cast hL
  have hL2 : (L : ℝ) ≤ 2 ^ 40 := by exact_mod_cast hL1
  have hnear : ∀ t, 0 ≤ t → t < L →
      |F.arccos (lg L (L - 1 - t)) - Real.arccos (nodes L (L - 1 - t))| ≤ 1 / 2 ^ 50 + 4 * L * e :=
    fun t t0 t1 => arccosF_gl F hz he he1 t t0 t1
  have hsmall : 1 / 2 ^ 50 + 4 * L * e ≤ 3 / 8 * (1 / (L : ℝ)) := by
    have h1 : 4 * L * e ≤ 1 / 4 * (1 / (L : ℝ)) := by
      rw [mul_one_div, le_div_iff₀ (by linarith)]
      linarith
    have h2 : (1 : ℝ) / 2 ^ 50 ≤ 1 / 8 * (1 / (L : ℝ)) := by
      rw [mul_one_div, div_div, div_le_div_iff₀ (by norm_num) (by positivity)]
      norm_num at hL2 ⊢
      linarith
    linarith
  have hpi := Real.pi_gt_three
  have hLp : 1 / (L : ℝ) ≤ Real.pi / (2 * L) := by
    rw [div_le_div_iff₀ (by linarith) (by linarith)]
    nlinarith
  have hLi : 0 < 1 / (L : ℝ) := by positivity
  have hLi1 : 1 / 2 ^ 40 ≤ 1 / (L : ℝ) := by gcongr
  have hP := fl_near F.nearest (x := Real.pi) (B := 4) (by rw [abs_of_pos Real.pi_pos]; exact Real.pi_le_four)
  have hP1 := (abs_le.1 hP).1
  refine ⟨fun t => F.arccos (lg L (L - 1 - t)), ?_, fun t t0 t1 => ⟨hnear t t0 t1, ?_, ?_⟩, ?_⟩
  · unfold thetasF
    rw [if_pos hs]
  · have h1 := (abs_le.1 (hnear t t0 t1)).1
    have h2 := (hz.theta_mem t t0 t1).1
    linarith
  · have h1 := (abs_le.1 (hnear t t0 t1)).2
    have h2 := (hz.theta_mem t t0 t1).2
    norm_num at hP1 hLi1
    norm_num at hsmall hLp h1 h2 ⊢
    linarith
  · intro t u t0 htu u1
    have key : ∀ k : ℕ, t + k < L → F.arccos (lg L (L - 1 - t)) ≤ F.arccos (lg L (L - 1 - (t + k))) ∧
        (1 ≤ k → F.arccos (lg L (L - 1 - t)) < F.arccos (lg L (L - 1 - (t + k)))) := by
      intro k
      induction k with
      | zero => intro _; simp
      | succ k ih =>
        intro hk
        push_cast at hk ⊢
        have h1 := (ih (by omega)).1
        have h2 := hz.gap (t + k) (by omega) (by omega)
        have h3 := (abs_le.1 (hnear (t + k) (by omega) (by omega))).2
        have h4 := (abs_le.1 (hnear (t + k + 1) (by omega) (by omega))).1
        rw [show t + ((k : ℤ) + 1) = t + k + 1 by ring]
        have : F.arccos (lg L (L - 1 - t)) < F.arccos (lg L (L - 1 - (t + k + 1))) := by linarith
        exact ⟨this.le, fun _ => this⟩
    have := (key (u - t).toNat (by omega)).2 (by omega)
    rwa [show t + ((u - t).toNat : ℤ) = u by omega] at this

/-- No stored colatitude passes the tests for the poles, for band-limits up to `2¹⁴`. -/
theorem C48_poles_gl (F : DoubleLib) (lg nodes : ℤ → ℤ → ℝ) (s : PyStr) (hs : lower s = sGL) (L : ℤ)
    (nside : Option ℤ) (hL : 1 ≤ L) (hL1 : L ≤ 2 ^ 14) (hz : LegendreZeros (nodes L) L) (e : ℝ)
    (he : ∀ i, 0 ≤ i → i < L → |lg L i - nodes L i| ≤ e) (he1 : 16 * L * L * e ≤ 1) :
    ∃ T, thetasF F lg (some L) s nside = .ok (L, T) ∧
      ∀ t, 0 ≤ t → t < L → ¬iscloseF F (T t) 0 1e-8 ∧ ¬iscloseF F (T t) (F.fl Real.pi) 1e-8 ∧
        ¬|T t| < F.fl 1e-10 ∧ ¬|F.fl (T t - F.fl Real.pi)| < F.fl 1e-10 := by
  have hf := F.nearest
  obtain ⟨T, hT, h, -⟩ := C48_colatitudes_gl F lg nodes s hs L nside hL (by omega) hz e he he1
  refine ⟨T, hT, fun t t0 t1 => ?_⟩
  obtain ⟨hN, hT0, hT1⟩ := h t t0 t1
  have hL' : (1 : ℝ) ≤ L := by exact_mod_cast hL
  have hL2 : (L : ℝ) ≤ 2 ^ 14 := by exact_mod_cast hL1
  have hpi1 := Real.pi_gt_d2
  have hpi2 := Real.pi_lt_d2
  have hLi : 1 / 2 ^ 14 ≤ 1 / (L : ℝ) := by gcongr
  have hsmall : 4 * L * e ≤ 1 / 4 * (1 / (L : ℝ)) := by
    rw [mul_one_div, le_div_iff₀ (by linarith)]
    linarith
  have hLp : 3 / 2 * (1 / (L : ℝ)) ≤ Real.pi / (2 * L) := by
    rw [mul_one_div, div_le_div_iff₀ (by linarith) (by linarith)]
    nlinarith
  obtain ⟨m1, m2⟩ := hz.theta_mem t t0 t1
  rw [show Real.arccos (nodes L (L - 1 - t)) = Scheme.gl.theta nodes L 0 t from rfl] at m1 m2
  unfold iscloseF
  rw [sub_zero]
  generalize Scheme.gl.theta nodes L 0 t = θ at *
  generalize T t = x at *
  have hP := fl_near hf (x := Real.pi) (B := 4) (by rw [abs_of_pos Real.pi_pos]; exact Real.pi_le_four)
  have hP1 := flPi_pos F
  generalize F.fl Real.pi = P at *
  obtain ⟨p1, p2⟩ := abs_le.1 hP
  obtain ⟨x1, x2⟩ := abs_le.1 hN
  generalize Real.pi / (2 * (L : ℝ)) = y at *
  generalize 4 * (L : ℝ) * e = d at *
  generalize 1 / (L : ℝ) = k at *
  have t1 := abs_le.1 (fl_near hf (x := 1e-8) (B := 1) (by norm_num [abs_of_pos]))
  have t2 := abs_le.1 (fl_near hf (x := 1e-5) (B := 1) (by norm_num [abs_of_pos]))
  have t3 := abs_le.1 (fl_near hf (x := 1e-10) (B := 1) (by norm_num [abs_of_pos]))
  generalize F.fl 1e-8 = A at *
  generalize F.fl 1e-5 = R at *
  generalize F.fl 1e-10 = S at *
  norm_num at t1 t2 t3 p1 p2 x1 x2 hLi
  have xb : |x| ≤ 4 := by rw [abs_le]; constructor <;> linarith
  have tol0 : F.fl (A + F.fl (R * |(0 : ℝ)|)) ≤ 2e-8 := by
    rw [abs_zero, mul_zero, fl_zero hf, add_zero]
    have := abs_le.1 (fl_near hf (x := A) (B := 1) (by rw [abs_le]; constructor <;> linarith))
    norm_num at this ⊢
    linarith
  have tolP : F.fl (A + F.fl (R * |P|)) ≤ 33e-6 := by
    rw [abs_of_pos hP1]
    have hRP : 3e-5 ≤ R * P ∧ R * P ≤ 32e-6 := by constructor <;> norm_num <;> nlinarith
    have q1 := abs_le.1 (fl_near hf (x := R * P) (B := 1) (by
      norm_num at hRP; rw [abs_le]; constructor <;> linarith))
    generalize F.fl (R * P) = Q at *
    norm_num at q1 hRP
    have q2 := abs_le.1 (fl_near hf (x := A + Q) (B := 1) (by
      rw [abs_le]; constructor <;> linarith))
    norm_num at q2 ⊢
    linarith
  have hfx := abs_le.1 (fl_near hf (x := x) (B := 4) xb)
  have hfP := abs_le.1 (fl_near hf (x := x - P) (B := 8) (by
    obtain ⟨b1, b2⟩ := abs_le.1 xb
    rw [abs_le]; constructor <;> linarith))
  generalize F.fl (A + F.fl (R * |(0 : ℝ)|)) = U at *
  generalize F.fl (A + F.fl (R * |P|)) = V at *
  norm_num at hfx hfP tol0 tolP
  refine ⟨fun h => ?_, fun h => ?_, fun h => ?_, fun h => ?_⟩
  · have := (abs_le.1 h).2
    linarith
  · have := (abs_le.1 h).1
    linarith
  · have := (abs_lt.1 h).2
    linarith
  · have := (abs_lt.1 h).1
    linarith

/-- A table with an error in the last place. -/
example : ∃ lg : ℤ → ℤ → ℝ, ∃ T, thetasF exactLib lg (some 512) sGL none = .ok (512, T) ∧
    ∀ t u, 0 ≤ t → t < u → u < 512 → T t < T u := by
  obtain ⟨nodes, _, h⟩ := C24_gl_tables
  have hG := (h 512 (by norm_num)).1
  obtain ⟨T, e, -, h⟩ := C48_colatitudes_gl exactLib (fun L i => nodes L i + 1 / 2 ^ 53) nodes
    sGL rfl 512 none (by norm_num) (by norm_num) ⟨hG.mono, hG.root⟩ (1 / 2 ^ 53)
    (fun i _ _ => by rw [add_sub_cancel_left, abs_of_pos (by positivity)]) (by norm_num)
  exact ⟨_, T, e, h⟩

end S2fft
