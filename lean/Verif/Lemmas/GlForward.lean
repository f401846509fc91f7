import Verif.Lemmas.RoundTrip
import Verif.Lemmas.GlGrid
import Verif.Lemmas.GlNewton
import Verif.Lemmas.TurokJax

/-! # The forward transform with the Gauss–Legendre weights the code computes -/

namespace S2fft
open Spec

/-- The Gauss–Legendre tables the code works with: the nodes of an exact `leggauss` (the zeros of
the Legendre polynomial in increasing order) and the array `quad_weights_gl` returns when its loop
has ended. -/
structure GlCode (nodes weights : ℤ → ℤ → ℝ) (L : ℤ) : Prop where
  mono : ∀ i j, 0 ≤ i → i < j → j < L → nodes L i < nodes L j
  root : ∀ i, 0 ≤ i → i < L → (Legendre.P L.toNat).eval (nodes L i) = 0
  weight : ∃ n, gl_exits L n ∧ ∀ t, 0 ≤ t → t < L → weights L t = quad_weights_gl L n t

/-- The weights of a rule with positive weights: mean absolute value of a Wigner function. -/
theorem ThetaRule.mean_abs {L nt : ℤ} {θ q : ℤ → ℝ} (h : ThetaRule (2 * L) nt θ q)
    (hq : ∀ t, 0 ≤ t → t < nt → 0 ≤ q t) {l m n : ℤ} (hl0 : 0 ≤ l) (hl : l < L) (hn : |n| ≤ l) :
    ∑ t ∈ Finset.Ico 0 nt, q t * |wignerd l m n (θ t)| ≤ 2 / √(2 * (l : ℝ) + 1) := by
  have hl1 : (0 : ℝ) < 2 * (l : ℝ) + 1 := by
    have : (0 : ℝ) ≤ l := by exact_mod_cast hl0
    linarith
  by_cases hm : |m| ≤ l
  · have h1 : ∑ t ∈ Finset.Ico 0 nt, q t = 2 := by
      have := h.ortho (l := 0) (l' := 0) (m := 0) (n := 0) (by omega) (by omega) (by simp) (by simp)
      simp only [wignerd_zero] at this
      norm_num at this
      exact_mod_cast this
    have h2 : ∑ t ∈ Finset.Ico 0 nt, q t * wignerd l m n (θ t) ^ 2 = 2 / (2 * (l : ℝ) + 1) := by
      have := h.ortho hl hl hm hn
      rw [if_pos rfl] at this
      have e : ((∑ t ∈ Finset.Ico 0 nt, q t * wignerd l m n (θ t) ^ 2 : ℝ) : ℂ)
          = ((2 / (2 * (l : ℝ) + 1) : ℝ) : ℂ) := by
        push_cast
        rw [← this]
        apply Finset.sum_congr rfl; intro t _; ring
      exact_mod_cast e
    have hcs := Finset.sum_mul_sq_le_sq_mul_sq (Finset.Ico 0 nt) (fun t => √(q t))
      (fun t => √(q t) * |wignerd l m n (θ t)|)
    have e1 : ∑ t ∈ Finset.Ico 0 nt, √(q t) ^ 2 = 2 := by
      rw [← h1]
      apply Finset.sum_congr rfl; intro t ht
      rw [Finset.mem_Ico] at ht
      exact Real.sq_sqrt (hq t ht.1 ht.2)
    have e2 : ∑ t ∈ Finset.Ico 0 nt, (√(q t) * |wignerd l m n (θ t)|) ^ 2
        = 2 / (2 * (l : ℝ) + 1) := by
      rw [← h2]
      apply Finset.sum_congr rfl; intro t ht
      rw [Finset.mem_Ico] at ht
      rw [mul_pow, Real.sq_sqrt (hq t ht.1 ht.2), sq_abs]
    have e3 : ∑ t ∈ Finset.Ico 0 nt, √(q t) * (√(q t) * |wignerd l m n (θ t)|)
        = ∑ t ∈ Finset.Ico 0 nt, q t * |wignerd l m n (θ t)| := by
      apply Finset.sum_congr rfl; intro t ht
      rw [Finset.mem_Ico] at ht
      rw [← mul_assoc, Real.mul_self_sqrt (hq t ht.1 ht.2)]
    rw [e1, e2, e3] at hcs
    have e4 : (2 / √(2 * (l : ℝ) + 1)) ^ 2 = 2 * (2 / (2 * (l : ℝ) + 1)) := by
      rw [div_pow, Real.sq_sqrt hl1.le]; ring
    rw [← e4] at hcs
    exact (sq_le_sq₀ (Finset.sum_nonneg fun t ht => by
      rw [Finset.mem_Ico] at ht
      exact mul_nonneg (hq t ht.1 ht.2) (abs_nonneg _)) (by positivity)).1 hcs
  · have : ∀ t ∈ Finset.Ico 0 nt, q t * |wignerd l m n (θ t)| = 0 := by
      intro t _
      rw [wignerd_outside _ _ _ _ (Or.inl (by omega))]; simp
    rw [Finset.sum_eq_zero this]
    positivity

/-- What a relative error of the weights does to a coefficient. -/
theorem fVal_weight_error {A : ℤ → ℤ → ℂ} {L spin nt : ℤ} {θ w w' q : ℤ → ℝ} {n ε B : ℝ}
    (hn : 0 < n) (hε : 0 ≤ ε) (hB0 : 0 ≤ B) (hw : ∀ t, 0 ≤ t → t < nt → w t = q t * (2 * Real.pi / n))
    (hq : ThetaRule (2 * L) nt θ q) (hq0 : ∀ t, 0 ≤ t → t < nt → 0 ≤ q t)
    (hw' : ∀ t, 0 ≤ t → t < nt → |w' t - w t| ≤ ε * w t)
    (hex : ∀ t, 0 ≤ t → t < nt → snapAngle (θ t) = θ t) {el m : ℤ}
    (hA : ∀ t, 0 ≤ t → t < nt → ‖A t m‖ ≤ n * B) (h0 : 0 ≤ el)
    (h2 : |spin| ≤ el) (h3 : el < L) :
    ‖fVal A spin nt θ w' el m - fVal A spin nt θ w el m‖ ≤ ε * √(4 * Real.pi) * B := by
  have hpi := Real.pi_pos
  have hl1 : (0 : ℝ) < 2 * (el : ℝ) + 1 := by
    have : (0 : ℝ) ≤ el := by exact_mod_cast h0
    linarith
  have he : 0 ≤ elfactor el := Real.sqrt_nonneg _
  unfold fVal
  rw [← Finset.sum_sub_distrib]
  calc ‖∑ t ∈ Finset.Ico 0 nt, ((w' t : ℂ) * (-1) ^ spin * elfactor el
          * wignerd el m (-spin) (snapAngle (θ t)) * A t m - (w t : ℂ) * (-1) ^ spin * elfactor el
          * wignerd el m (-spin) (snapAngle (θ t)) * A t m)‖
      ≤ ∑ t ∈ Finset.Ico 0 nt, (ε * (2 * Real.pi) * elfactor el * B)
          * (q t * |wignerd el m (-spin) (θ t)|) := by
        refine (norm_sum_le _ _).trans (Finset.sum_le_sum fun t ht => ?_)
        rw [Finset.mem_Ico] at ht
        rw [hex t ht.1 ht.2]
        have e : (w' t : ℂ) * (-1) ^ spin * elfactor el * wignerd el m (-spin) (θ t) * A t m
            - (w t : ℂ) * (-1) ^ spin * elfactor el * wignerd el m (-spin) (θ t) * A t m
            = ((w' t - w t : ℝ) : ℂ) * (-1) ^ spin * elfactor el * wignerd el m (-spin) (θ t) * A t m := by
          push_cast; ring
        rw [e]
        simp only [norm_mul, norm_zpow, norm_neg, norm_one, one_zpow, mul_one, Complex.norm_real,
          Real.norm_eq_abs, abs_of_nonneg he]
        have h1 := hw' t ht.1 ht.2
        rw [hw t ht.1 ht.2] at h1
        calc |w' t - w t| * elfactor el * |wignerd el m (-spin) (θ t)| * ‖A t m‖
            ≤ (ε * (q t * (2 * Real.pi / n))) * elfactor el * |wignerd el m (-spin) (θ t)|
                * (n * B) := by
              have := hA t ht.1 ht.2
              have := hq0 t ht.1 ht.2
              rw [hw t ht.1 ht.2]
              gcongr
          _ = _ := by field_simp
    _ = (ε * (2 * Real.pi) * elfactor el * B) *
          ∑ t ∈ Finset.Ico 0 nt, q t * |wignerd el m (-spin) (θ t)| := by rw [Finset.mul_sum]
    _ ≤ (ε * (2 * Real.pi) * elfactor el * B) * (2 / √(2 * (el : ℝ) + 1)) := by
        apply mul_le_mul_of_nonneg_left (hq.mean_abs hq0 h0 h3 (by rwa [abs_neg])) (by positivity)
    _ = ε * √(4 * Real.pi) * B := by
        have hs : (0 : ℝ) < √(2 * (el : ℝ) + 1) := Real.sqrt_pos.2 hl1
        have hs4 : (0 : ℝ) < √(4 * Real.pi) := Real.sqrt_pos.2 (by positivity)
        have hsq : √(4 * Real.pi) * √(4 * Real.pi) = 4 * Real.pi := Real.mul_self_sqrt (by positivity)
        unfold elfactor
        have hl2 : √(2 * (el : ℝ) + 1) ≠ 0 := hs.ne'
        rw [Real.sqrt_div hl1.le]
        calc ε * (2 * Real.pi) * (√(2 * (el : ℝ) + 1) / √(4 * Real.pi)) * B
              * (2 / √(2 * (el : ℝ) + 1))
            = ε * ((4 * Real.pi) / √(4 * Real.pi)) * B := by field_simp; ring
          _ = _ := by rw [Real.div_sqrt]

/-- The weights of the exact rule for given nodes. -/
noncomputable def glWeights (nodes : ℤ → ℤ → ℝ) (L t : ℤ) : ℝ :=
  2 / ((1 - nodes L (L - 1 - t) ^ 2) *
    (Polynomial.derivative (Legendre.P L.toNat)).eval (nodes L (L - 1 - t)) ^ 2)
    * (2 * Real.pi / (2 * (L : ℝ) - 1))

theorem GlCode.exact {nodes weights : ℤ → ℤ → ℝ} {L : ℤ} (h : GlCode nodes weights L) :
    GlExact nodes (glWeights nodes) L :=
  ⟨h.mono, h.root, fun _ _ _ => rfl⟩

theorem GlCode.close {nodes weights : ℤ → ℤ → ℝ} {L : ℤ} (hL : 1 ≤ L) (h : GlCode nodes weights L)
    (t : ℤ) (a : 0 ≤ t) (b : t < L) :
    0 ≤ glWeights nodes L t ∧
    |weights L t - glWeights nodes L t| ≤ 3e-14 * ((L : ℝ) + 1 / 2) ^ 2 * glWeights nodes L t := by
  obtain ⟨hmono, hroot, n, hn, hw⟩ := h
  obtain ⟨N, rfl⟩ : ∃ N : ℕ, L = N + 1 := ⟨(L - 1).toNat, by omega⟩
  have hr := hroot
  rw [show ((N : ℤ) + 1).toNat = N + 1 by omega] at hr
  have hN : (0 : ℝ) ≤ N := by positivity
  have hν : (((N : ℤ) + 1 : ℤ) : ℝ) + 1 / 2 = (N : ℝ) + 3 / 2 := by push_cast; ring
  constructor
  · have := legendre_root_abs _ _ (hroot (N + 1 - 1 - t) (by omega) (by omega))
    have h1 : 0 < 1 - nodes (N + 1) (N + 1 - 1 - t) ^ 2 := by nlinarith
    have h2 : (0 : ℝ) < 2 * (((N : ℤ) + 1 : ℤ) : ℝ) - 1 := by push_cast; linarith
    have := Real.pi_pos
    unfold glWeights; positivity
  · rw [hw t a b, hν]
    exact gl_code_weight N _ hmono hr n hn t a b

theorem ringSum_gl_bound {L nside : ℤ} (hL : 1 ≤ L) {f : ℤ → ℤ → ℂ} {B : ℝ} {t m : ℤ} (a : 0 ≤ t)
    (b : t < L) (hf : ∀ t p, 0 ≤ t → t < L → 0 ≤ p → p < 2 * L - 1 → ‖f t p‖ ≤ B) :
    ‖ringSum .gl L nside f t m‖ ≤ (2 * (L : ℝ) - 1) * B := by
  unfold ringSum
  refine (norm_sum_le _ _).trans ((Finset.sum_le_card_nsmul _ _ B ?_).trans ?_)
  · intro p hp
    rw [Finset.mem_Ico] at hp
    rw [norm_mul, cis, Complex.norm_exp_ofReal_mul_I, mul_one]
    exact hf t p a b hp.1 hp.2
  · rw [Int.card_Ico, nsmul_eq_mul]
    simp only [Scheme.ringLen]
    have : (((2 * L - 1 - 0).toNat : ℕ) : ℝ) = 2 * (L : ℝ) - 1 := by
      have h := Int.toNat_of_nonneg (show 0 ≤ 2 * L - 1 - 0 by omega)
      have h2 : (((2 * L - 1 - 0).toNat : ℤ) : ℝ) = ((2 * L - 1 : ℤ) : ℝ) := by rw [h, sub_zero]
      push_cast at h2
      exact h2
    rw [this]

/-- With the weights of the code every coefficient is within `3e-14 (L + 1/2)² √(4π)` times a bound
for the samples of the coefficient the exact rule gives. -/
theorem gl_forward_error (G : GlTables) {L spin Ll : ℤ} (hL : 1 ≤ L) (hL2 : L ≤ 20000)
    (hG : GlCode G.nodes G.weights L) (nside : Option ℤ) {method : PyStr}
    (hmt : method ∈ baseMethods) (f : Nd ℂ) (hf : f.shape = [L, 2 * L - 1]) (reality : Bool)
    (h0 : 0 ≤ Ll) (h1 : Ll < L)
    (hre : reality = true → spin = 0 → ∀ t p, 0 ≤ t → t < L → 0 ≤ p → p < 2 * L - 1 →
      (f.get2 t p).im = 0) {B : ℝ}
    (hB : ∀ t p, 0 ≤ t → t < L → 0 ≤ p → p < 2 * L - 1 → ‖f.get2 t p‖ ≤ B) :
    ∃ g g', baseForwardWith G f L spin sGL method nside reality Ll = .ok (.d2 L (2 * L - 1) g) ∧
      baseForwardWith ⟨G.nodes, glWeights G.nodes⟩ f L spin sGL method nside reality Ll
        = .ok (.d2 L (2 * L - 1) g') ∧
      ∀ el m, 0 ≤ el → el < L → -L < m → m < L → ‖g el (m + L - 1) - g' el (m + L - 1)‖
        ≤ 3e-14 * ((L : ℝ) + 1 / 2) ^ 2 * √(4 * Real.pi) * B := by
  have hv : Scheme.gl.Valid L (nside.getD 0) := ⟨hL, fun h => nomatch h⟩
  have hR : ¬ Scheme.gl.Resampled := by decide
  have hB0 : 0 ≤ B := (norm_nonneg _).trans (hB 0 0 le_rfl (by omega) le_rfl (by omega))
  have hri : innerRings .gl L (nside.getD 0) = L := by
    unfold innerRings; rw [if_neg hR]; rfl
  have hreal : method = bSovFft ∨ method = bVec → reality = true → spin = 0 →
      RealRings Scheme.gl.inner L (nside.getD 0) (innerRings .gl L (nside.getD 0))
        (innerSignal .gl L spin f.get2) := by
    intro _ hr hs t p a b c d
    rw [hri] at b
    exact hre hr hs t p a b c d
  obtain ⟨g, e, hg, hz⟩ := baseForwardWith_values G (σ := .gl) (s := sGL) (by decide) hmt
    (fun _ h => nomatch h) (spin := spin) hv (fun _ h => nomatch h) f hf reality h0 h1 hreal
  obtain ⟨g', e', hg', hz'⟩ := baseForwardWith_values ⟨G.nodes, glWeights G.nodes⟩ (σ := .gl)
    (s := sGL) (by decide) hmt
    (fun _ h => nomatch h) (spin := spin) hv (fun _ h => nomatch h) f hf reality h0 h1 hreal
  refine ⟨g, g', e, e', fun el m a b c d => ?_⟩
  have hε : (0 : ℝ) ≤ 3e-14 * ((L : ℝ) + 1 / 2) ^ 2 := by positivity
  by_cases hel : elStart Ll spin ≤ el
  · rw [hg el m hel b c d, hg' el m hel b c d]
    have hLr : (1 : ℝ) ≤ L := by exact_mod_cast hL
    have hpi := Real.pi_pos
    have key : ∀ m, ‖fVal (ringSum Scheme.gl.inner L (nside.getD 0) (innerSignal .gl L spin f.get2))
          spin (innerRings .gl L (nside.getD 0)) (innerTheta G.nodes .gl L (nside.getD 0))
          (innerWeight G .gl L (nside.getD 0)) el m
        - fVal (ringSum Scheme.gl.inner L (nside.getD 0) (innerSignal .gl L spin f.get2))
          spin (innerRings .gl L (nside.getD 0)) (innerTheta G.nodes .gl L (nside.getD 0))
          (innerWeight ⟨G.nodes, glWeights G.nodes⟩ .gl L (nside.getD 0)) el m‖
        ≤ 3e-14 * ((L : ℝ) + 1 / 2) ^ 2 * √(4 * Real.pi) * B := by
      intro m
      have hth : innerTheta G.nodes .gl L (nside.getD 0)
          = fun t => Real.arccos (G.nodes L (L - 1 - t)) := by
        funext t; unfold innerTheta; rw [if_neg hR]; rfl
      rw [hri, hth]
      refine fVal_weight_error (L := L) (n := 2 * (L : ℝ) - 1)
        (q := fun t => glWeights G.nodes L t * (2 * (L : ℝ) - 1) / (2 * Real.pi)) (by linarith) hε hB0
        ?_ (thetaRule_gl hL hG.exact) ?_ (fun t t0 t1 => (hG.close hL t t0 t1).2) ?_ ?_ a
        (le_trans (le_max_right _ _) hel) b
      · intro t _ _
        have : (2 * (L : ℝ) - 1) ≠ 0 := by linarith
        change glWeights G.nodes L t = _
        field_simp
      · intro t t0 t1
        have := (hG.close hL t t0 t1).1
        have h3 : (0 : ℝ) ≤ 2 * (L : ℝ) - 1 := by linarith
        positivity
      · intro t t0 t1
        exact snapAngle_eq _ (gl_gridExact (nodes := G.nodes) 0 hL hL2 hG.mono hG.root t t0 t1)
      · intro t t0 t1
        exact ringSum_gl_bound hL t0 t1 hB
    unfold symm
    split_ifs with hr
    · rw [← mul_sub, ← map_sub, norm_mul, norm_zpow, norm_neg, norm_one, one_zpow, one_mul,
        RCLike.norm_conj]
      exact key _
    · exact key _
  · rw [hz el _ (by omega), hz' el _ (by omega), sub_zero, norm_zero]
    positivity

end S2fft
