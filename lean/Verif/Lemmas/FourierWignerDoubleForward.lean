import Verif.Lemmas.FourierWignerDoubleInverse
import Verif.Lemmas.FourierWignerForward
import Verif.Lemmas.ResamplingDouble2
import Verif.Lemmas.WeightsDouble
import Verif.Lemmas.QuadratureSize

/-! # The forward Fourier-Wigner transform in double precision -/

namespace S2fft
open Spec

/-! ## Transforms of bounded vectors -/

theorem fftF_sup (F : FftLib) {n : ℤ} (hn : 0 < n) {x x' : ℤ → ℂ} {e M : ℝ}
    (h : ∀ j, 0 ≤ j → j < n → ‖x' j - x j‖ ≤ e) (hM : ∀ j, 0 ≤ j → j < n → ‖x' j‖ ≤ M) {k : ℤ}
    (k0 : 0 ≤ k) (k1 : k < n) :
    ‖F.fft n x' k - fft n x k‖ ≤ n * (e + (n / 2 ^ 50 * M + 1 / 2 ^ 1000)) ∧
      ‖F.fft n x' k‖ ≤ n * (M + (n / 2 ^ 50 * M + 1 / 2 ^ 1000)) := by
  have hn' : (0 : ℝ) < n := by exact_mod_cast hn
  have h1 := F.fft_near n x' k k0 k1
  have hsum : ∑ j ∈ Finset.Ico 0 n, ‖x' j‖ ≤ n * M := by
    have hcard : ((Finset.Ico 0 n).card : ℝ) = n := by
      rw [Int.card_Ico]
      have : ((n - 0).toNat : ℤ) = n := by omega
      exact_mod_cast this
    rw [← hcard, ← nsmul_eq_mul]
    refine Finset.sum_le_card_nsmul _ _ _ fun p hp => ?_
    rw [Finset.mem_Ico] at hp
    exact hM p hp.1 hp.2
  have h2 := norm_fft_le hn.le (x := fun j => x' j - x j) h k
  have h3 := norm_fft_le hn.le hM k
  rw [fft_sub_at] at h2
  have h4 : ‖F.fft n x' k - fft n x' k‖ ≤ n * (n / 2 ^ 50 * M + 1 / 2 ^ 1000) := by
    refine h1.trans ?_
    have := mul_le_mul_of_nonneg_left hsum (a := (n : ℝ) / 2 ^ 50) (by positivity)
    refine (add_le_add this le_rfl).trans (le_of_eq ?_)
    ring
  constructor
  · refine (norm_sub_le_norm_sub_add_norm_sub _ _ _).trans ((add_le_add h4 h2).trans (le_of_eq ?_))
    ring
  · have := norm_le_norm_add_norm_sub' (F.fft n x' k) (fft n x' k)
    rw [mul_add]
    linarith

theorem rfftF_sup (F : FftLib) {n : ℤ} (hn : 0 < n) {x x' : ℤ → ℝ} {e M : ℝ}
    (h : ∀ j, 0 ≤ j → j < n → |x' j - x j| ≤ e) (hM : ∀ j, 0 ≤ j → j < n → |x' j| ≤ M) {k : ℤ}
    (k0 : 0 ≤ k) (k1 : 2 * k ≤ n) :
    ‖F.rfft n x' k - rfft n x k‖ ≤ n * (e + (n / 2 ^ 50 * M + 1 / 2 ^ 1000)) ∧
      ‖F.rfft n x' k‖ ≤ n * (M + (n / 2 ^ 50 * M + 1 / 2 ^ 1000)) := by
  have hn' : (0 : ℝ) < n := by exact_mod_cast hn
  have h1 := F.rfft_near n x' k k0 k1 hn
  have hsum : ∑ j ∈ Finset.Ico 0 n, |x' j| ≤ n * M := by
    have hcard : ((Finset.Ico 0 n).card : ℝ) = n := by
      rw [Int.card_Ico]
      have : ((n - 0).toNat : ℤ) = n := by omega
      exact_mod_cast this
    rw [← hcard, ← nsmul_eq_mul]
    refine Finset.sum_le_card_nsmul _ _ _ fun p hp => ?_
    rw [Finset.mem_Ico] at hp
    exact hM p hp.1 hp.2
  have h2 := norm_fft_le hn.le (x := fun j => ((x' j : ℝ) : ℂ) - ((x j : ℝ) : ℂ)) (M := e) (fun j j0 j1 => by
    rw [← Complex.ofReal_sub, Complex.norm_real]; exact h j j0 j1) k
  have h3 := norm_fft_le hn.le (x := fun j => ((x' j : ℝ) : ℂ)) (M := M) (fun j j0 j1 => by
    rw [Complex.norm_real]; exact hM j j0 j1) k
  rw [fft_sub_at] at h2
  have h4 : ‖F.rfft n x' k - rfft n x' k‖ ≤ n * (n / 2 ^ 50 * M + 1 / 2 ^ 1000) := by
    refine h1.trans ?_
    have := mul_le_mul_of_nonneg_left hsum (a := (n : ℝ) / 2 ^ 50) (by positivity)
    refine (add_le_add this le_rfl).trans (le_of_eq ?_)
    ring
  unfold rfft at *
  constructor
  · refine (norm_sub_le_norm_sub_add_norm_sub _ _ _).trans ((add_le_add h4 h2).trans (le_of_eq ?_))
    ring
  · have := norm_le_norm_add_norm_sub' (F.rfft n x' k) (fft n (fun j => (x' j : ℂ)) k)
    rw [mul_add]
    linarith

theorem scaleF_sup (F : FftLib) {n : ℝ} (h1 : 1 ≤ n) (h2 : n ≤ 2 ^ 60) {y y' : ℂ} {e M : ℝ}
    (h : ‖y' - y‖ ≤ n * e) (hM : ‖y'‖ ≤ n * M) :
    ‖F.mul ((F.fl (1 / n) : ℝ) : ℂ) y' - y / n‖ ≤ e + 2 / 2 ^ 50 * M + 1 / 2 ^ 1000 ∧
      ‖F.mul ((F.fl (1 / n) : ℝ) : ℂ) y'‖ ≤ M + 2 / 2 ^ 50 * M + 1 / 2 ^ 1000 := by
  have hn : 0 < n := by linarith
  have hM0 : 0 ≤ M := by
    have := (norm_nonneg _).trans hM
    exact nonneg_of_mul_nonneg_right this hn
  have hs := fl_near F.nearest (x := 1 / n) (B := 1 / n) (by rw [abs_of_pos (by positivity)])
    (by rw [div_le_div_iff₀ (by positivity) (by positivity)]; norm_num at h2 ⊢; linarith)
  have hm := F.mul_near ((F.fl (1 / n) : ℝ) : ℂ) y'
  generalize F.fl (1 / n) = s at hs hm ⊢
  rw [Complex.norm_real, Real.norm_eq_abs] at hm
  have hs1 : |s| ≤ 1 / n * (1 + 1 / 2 ^ 53) := by
    have := abs_sub_abs_le_abs_sub s (1 / n)
    rw [abs_of_pos (by positivity : 0 < 1 / n)] at this
    have e1 : 1 / n * (1 + 1 / 2 ^ 53) = 1 / n + 1 / n / 2 ^ 53 := by ring
    rw [e1]
    linarith
  have a1 : |s| * ‖y'‖ ≤ 2 * M := by
    calc |s| * ‖y'‖ ≤ 1 / n * (1 + 1 / 2 ^ 53) * (n * M) := by gcongr
      _ = (1 + 1 / 2 ^ 53) * M := by field_simp
      _ ≤ 2 * M := by gcongr; norm_num
  have a2 : ‖(s : ℂ) * y' - y' / n‖ ≤ M / 2 ^ 53 := by
    rw [show (s : ℂ) * y' - y' / n = ((s - 1 / n : ℝ) : ℂ) * y' by push_cast; ring, norm_mul,
      Complex.norm_real, Real.norm_eq_abs]
    calc |s - 1 / n| * ‖y'‖ ≤ 1 / n / 2 ^ 53 * (n * M) := by gcongr
      _ = M / 2 ^ 53 := by field_simp
  have a3 : ‖y' / n - y / n‖ ≤ e := by
    rw [← sub_div, norm_div, Complex.norm_real, Real.norm_eq_abs, abs_of_pos hn, div_le_iff₀ hn]
    linarith
  have a4 : ‖y' / n‖ ≤ M := by
    rw [norm_div, Complex.norm_real, Real.norm_eq_abs, abs_of_pos hn, div_le_iff₀ hn]
    linarith
  -- the sharp bound of the product
  have a5 : |s| * ‖y'‖ / 2 ^ 50 ≤ 15 / 8 / 2 ^ 50 * M := by
    have : |s| * ‖y'‖ ≤ 15 / 8 * M := by
      calc |s| * ‖y'‖ ≤ 1 / n * (1 + 1 / 2 ^ 53) * (n * M) := by gcongr
        _ = (1 + 1 / 2 ^ 53) * M := by field_simp
        _ ≤ 15 / 8 * M := by gcongr; norm_num
    calc |s| * ‖y'‖ / 2 ^ 50 ≤ 15 / 8 * M / 2 ^ 50 := by gcongr
      _ = 15 / 8 / 2 ^ 50 * M := by ring
  have a6 : ‖F.mul (s : ℂ) y' - y' / n‖ ≤ 2 / 2 ^ 50 * M + 1 / 2 ^ 1000 := by
    refine (norm_sub_le_norm_sub_add_norm_sub _ ((s : ℂ) * y') _).trans ((add_le_add hm a2).trans ?_)
    have : M / 2 ^ 53 = 1 / 8 / 2 ^ 50 * M := by ring
    rw [this]
    have e2 : 2 / 2 ^ 50 * M = 15 / 8 / 2 ^ 50 * M + 1 / 8 / 2 ^ 50 * M := by ring
    rw [e2]
    linarith
  constructor
  · refine (norm_sub_le_norm_sub_add_norm_sub _ (y' / n) _).trans ((add_le_add a6 a3).trans (le_of_eq ?_))
    ring
  · have := norm_le_norm_add_norm_sub' (F.mul (s : ℂ) y') (y' / n)
    linarith

/-- A transform and its scaling. -/
theorem sup_scale (F : FftLib) {n : ℝ} (h1 : 1 ≤ n) (h2 : n ≤ 2 ^ 28) {y y' : ℂ} {e M : ℝ}
    (hM0 : 0 ≤ M) (h : ‖y' - y‖ ≤ n * (e + (n / 2 ^ 50 * M + 1 / 2 ^ 1000)))
    (hM : ‖y'‖ ≤ n * (M + (n / 2 ^ 50 * M + 1 / 2 ^ 1000))) :
    ‖F.mul ((F.fl (1 / n) : ℝ) : ℂ) y' - y / n‖ ≤ e + (4 * n / 2 ^ 50 * M + 3 / 2 ^ 1000) ∧
      ‖F.mul ((F.fl (1 / n) : ℝ) : ℂ) y'‖ ≤ M + (4 * n / 2 ^ 50 * M + 3 / 2 ^ 1000) := by
  obtain ⟨a, b⟩ := scaleF_sup F h1 (h2.trans (by norm_num)) h hM
  have hu : (0 : ℝ) ≤ 1 / 2 ^ 1000 := by positivity
  rw [show (3 : ℝ) / 2 ^ 1000 = 3 * (1 / 2 ^ 1000) by ring]
  generalize (1 : ℝ) / 2 ^ 1000 = u at *
  have k : n / 2 ^ 50 * M + u + 2 / 2 ^ 50 * (M + (n / 2 ^ 50 * M + u)) + u
      ≤ 4 * n / 2 ^ 50 * M + 3 * u := by
    have c1 : n / 2 ^ 50 * M ≤ 1 / 2 * M := by
      refine mul_le_mul_of_nonneg_right ?_ hM0
      rw [div_le_div_iff₀ (by norm_num) (by norm_num)]; norm_num at h2 ⊢; linarith
    have c2 : M ≤ n * M := le_mul_of_one_le_left hM0 h1
    have e1 : n / 2 ^ 50 * M = 1 / 2 ^ 50 * (n * M) := by ring
    have e2 : 4 * n / 2 ^ 50 * M = 4 / 2 ^ 50 * (n * M) := by ring
    rw [e2]
    have c3 : 2 / 2 ^ 50 * (M + (n / 2 ^ 50 * M + u)) ≤ 2 / 2 ^ 50 * (3 / 2 * (n * M) + u) := by
      refine mul_le_mul_of_nonneg_left ?_ (by norm_num)
      linarith
    rw [e1] at c3 ⊢
    norm_num at c3 ⊢
    linarith
  exact ⟨by linarith, by linarith⟩

theorem fftFwdF_sup (F : FftLib) {n : ℤ} (hn : 0 < n) (h28 : n ≤ 2 ^ 28) {x x' : ℤ → ℂ} {e M : ℝ}
    (h : ∀ j, 0 ≤ j → j < n → ‖x' j - x j‖ ≤ e) (hM : ∀ j, 0 ≤ j → j < n → ‖x' j‖ ≤ M) {k : ℤ}
    (k0 : 0 ≤ k) (k1 : k < n) :
    ‖fftFwdF F n x' k - fft_fwd n x k‖ ≤ e + (4 * n / 2 ^ 50 * M + 3 / 2 ^ 1000) ∧
      ‖fftFwdF F n x' k‖ ≤ M + (4 * n / 2 ^ 50 * M + 3 / 2 ^ 1000) := by
  have hM0 : 0 ≤ M := (norm_nonneg _).trans (hM 0 le_rfl hn)
  obtain ⟨a, b⟩ := fftF_sup F hn h hM k0 k1
  have := sup_scale F (n := (n : ℝ)) (by exact_mod_cast hn) (by exact_mod_cast h28) hM0 a b
  unfold fftFwdF fft_fwd
  rw [Complex.ofReal_intCast] at this
  exact this

theorem norm_fft_fwd_le {n : ℤ} (hn : 0 < n) {x : ℤ → ℂ} {M : ℝ}
    (h : ∀ j, 0 ≤ j → j < n → ‖x j‖ ≤ M) (k : ℤ) : ‖fft_fwd n x k‖ ≤ M := by
  have hn' : (0 : ℝ) < n := by exact_mod_cast hn
  have := norm_fft_le hn.le h k
  unfold fft_fwd
  rw [norm_div, ← Complex.ofReal_intCast, Complex.norm_real, Real.norm_eq_abs, abs_of_pos hn',
    div_le_iff₀ hn']
  linarith

/-! ## The rings -/

/-- The double transform with one scaling. -/
theorem fft2F_sup (F : FftLib) {n n' : ℤ} (hn : 0 < n) (hn' : 0 < n') (h28 : n ≤ 2 ^ 28)
    (h28' : n' ≤ 2 ^ 28) {x x' : ℤ → ℤ → ℂ} {e M : ℝ}
    (h : ∀ g p, 0 ≤ g → g < n → 0 ≤ p → p < n' → ‖x' g p - x g p‖ ≤ e)
    (hM : ∀ g p, 0 ≤ g → g < n → 0 ≤ p → p < n' → ‖x' g p‖ ≤ M) {k j : ℤ}
    (k0 : 0 ≤ k) (k1 : k < n) (j0 : 0 ≤ j) (j1 : j < n') :
    ‖F.mul ((F.fl (1 / ((n * n' : ℤ) : ℝ)) : ℝ) : ℂ) (F.fft n (fun g => F.fft n' (x' g) j) k)
        - fft_fwd n (fun g => fft_fwd n' (x g) j) k‖
      ≤ e + (6 * (n + n') / 2 ^ 50 * M + 8 / 2 ^ 1000) := by
  have hM0 : 0 ≤ M := (norm_nonneg _).trans (hM 0 0 le_rfl hn le_rfl hn')
  have hr : (1 : ℝ) ≤ n := by exact_mod_cast hn
  have hr' : (1 : ℝ) ≤ n' := by exact_mod_cast hn'
  have hb : (n : ℝ) ≤ 2 ^ 28 := by exact_mod_cast h28
  have hb' : (n' : ℝ) ≤ 2 ^ 28 := by exact_mod_cast h28'
  have h1 := fun g (g0 : 0 ≤ g) (g1 : g < n) => fftF_sup F hn' (x := x g) (x' := x' g)
    (fun p p0 p1 => h g p g0 g1 p0 p1) (fun p p0 p1 => hM g p g0 g1 p0 p1) j0 j1
  obtain ⟨a, b⟩ := fftF_sup F hn (fun g g0 g1 => (h1 g g0 g1).1) (fun g g0 g1 => (h1 g g0 g1).2) k0 k1
  have hu : (0 : ℝ) ≤ 1 / 2 ^ 1000 := by positivity
  have key : ∀ w : ℝ, (n : ℝ) * (n' * (w + (n' / 2 ^ 50 * M + 1 / 2 ^ 1000))
      + (n / 2 ^ 50 * (n' * (M + (n' / 2 ^ 50 * M + 1 / 2 ^ 1000))) + 1 / 2 ^ 1000))
      ≤ (n * n' : ℝ) * (w + ((n' / 2 ^ 50 * M + 1 / 2 ^ 1000)
        + (n / 2 ^ 50 * (M + (n' / 2 ^ 50 * M + 1 / 2 ^ 1000)) + 1 / 2 ^ 1000))) := by
    intro w
    have c1 : (n : ℝ) * (1 / 2 ^ 1000) ≤ n * n' * (1 / 2 ^ 1000) := by
      refine mul_le_mul_of_nonneg_right ?_ hu
      exact le_mul_of_one_le_right (by linarith) hr'
    generalize (1 : ℝ) / 2 ^ 1000 = u at *
    have e1 : (n : ℝ) * (n' * (w + (n' / 2 ^ 50 * M + u))
      + (n / 2 ^ 50 * (n' * (M + (n' / 2 ^ 50 * M + u))) + u))
      = (n * n' : ℝ) * (w + ((n' / 2 ^ 50 * M + u)
        + (n / 2 ^ 50 * (M + (n' / 2 ^ 50 * M + u))))) + n * u := by ring
    rw [e1]
    have e2 : (n * n' : ℝ) * (w + ((n' / 2 ^ 50 * M + u)
        + (n / 2 ^ 50 * (M + (n' / 2 ^ 50 * M + u)) + u)))
      = (n * n' : ℝ) * (w + ((n' / 2 ^ 50 * M + u)
        + (n / 2 ^ 50 * (M + (n' / 2 ^ 50 * M + u))))) + n * n' * u := by ring
    rw [e2]
    linarith
  obtain ⟨c, -⟩ := scaleF_sup F (n := (n : ℝ) * n') (one_le_mul_of_one_le_of_one_le hr hr')
    ((mul_le_mul hb hb' (by linarith) (by norm_num)).trans (by norm_num))
    (a.trans (key e)) (b.trans (key M))
  have e3 : fft_fwd n (fun g => fft_fwd n' (x g) j) k
      = fft n (fun g => fft n' (x g) j) k / ((n * n' : ℝ) : ℂ) := by
    unfold fft_fwd
    have e : ∀ g, fft n' (x g) j / (n' : ℂ) = fft n' (x g) j * (n' : ℂ)⁻¹ := fun g => div_eq_mul_inv _ _
    simp only [e]
    rw [congrFun (fft_smul n (fun g => fft n' (x g) j) _) k]
    push_cast
    rw [div_mul_eq_div_div_swap, div_eq_mul_inv (fft n (fun g => fft n' (x g) j) k) (n' : ℂ)]
  rw [e3, Int.cast_mul]
  refine c.trans ?_
  rw [show (8 : ℝ) / 2 ^ 1000 = 8 * (1 / 2 ^ 1000) by ring]
  generalize (1 : ℝ) / 2 ^ 1000 = u at *
  have d1 : (n' : ℝ) / 2 ^ 50 * M ≤ 1 / 2 * M := by
    refine mul_le_mul_of_nonneg_right ?_ hM0
    rw [div_le_div_iff₀ (by norm_num) (by norm_num)]; norm_num at hb' ⊢; linarith
  have d2 : (n : ℝ) / 2 ^ 50 ≤ 1 / 2 := by
    rw [div_le_div_iff₀ (by norm_num) (by norm_num)]; norm_num at hb ⊢; linarith
  have d3 : (n : ℝ) / 2 ^ 50 * (M + (n' / 2 ^ 50 * M + u)) ≤ 3 / 2 * (n / 2 ^ 50 * M) + u := by
    have t1 : (n : ℝ) / 2 ^ 50 * (M + (n' / 2 ^ 50 * M + u)) ≤ n / 2 ^ 50 * (3 / 2 * M + u) := by
      refine mul_le_mul_of_nonneg_left (by linarith) (by positivity)
    have t2 : (n : ℝ) / 2 ^ 50 * u ≤ 1 / 2 * u := mul_le_mul_of_nonneg_right d2 hu
    nlinarith
  have d4 : (n : ℝ) / 2 ^ 50 * M ≤ 1 / 2 * M := mul_le_mul_of_nonneg_right d2 hM0
  have d5 : (2 : ℝ) / 2 ^ 50 * M ≤ (n + n') / 2 ^ 50 * M := by
    refine mul_le_mul_of_nonneg_right ?_ hM0
    gcongr
    linarith
  have d6 : 2 / 2 ^ 50 * (M + (n' / 2 ^ 50 * M + u + (n / 2 ^ 50 * (M + (n' / 2 ^ 50 * M + u)) + u)))
      ≤ 2 / 2 ^ 50 * (3 * M + 4 * u) := by
    refine mul_le_mul_of_nonneg_left (by linarith) (by norm_num)
  have e4 : 6 * ((n : ℝ) + n') / 2 ^ 50 * M = 3 * (n / 2 ^ 50 * M) + 3 * (n' / 2 ^ 50 * M)
    + 3 * ((n + n') / 2 ^ 50 * M) := by ring
  have e5 : (2 : ℝ) / 2 ^ 50 * (3 * M + 4 * u) = 3 * (2 / 2 ^ 50 * M) + 8 / 2 ^ 50 * u := by ring
  rw [e4]
  rw [e5] at d6
  have d7 : (8 : ℝ) / 2 ^ 50 * u ≤ 1 * u := mul_le_mul_of_nonneg_right (by norm_num) hu
  have d8 : 0 ≤ (n : ℝ) / 2 ^ 50 * M := by positivity
  have d9 : 0 ≤ (n' : ℝ) / 2 ^ 50 * M := by positivity
  linarith

/-- Two transforms, each scaled. -/
theorem sup_twice {n n' e M : ℝ} (h1 : 1 ≤ n) (h1' : 1 ≤ n') (hn' : n' ≤ 2 ^ 28) (hn : n ≤ 2 ^ 28)
    (hM : 0 ≤ M) :
    e + (4 * n / 2 ^ 50 * M + 3 / 2 ^ 1000)
      + (4 * n' / 2 ^ 50 * (M + (4 * n / 2 ^ 50 * M + 3 / 2 ^ 1000)) + 3 / 2 ^ 1000)
      ≤ e + (6 * (n + n') / 2 ^ 50 * M + 8 / 2 ^ 1000) := by
  rw [show (3 : ℝ) / 2 ^ 1000 = 3 * (1 / 2 ^ 1000) by ring,
    show (8 : ℝ) / 2 ^ 1000 = 8 * (1 / 2 ^ 1000) by ring]
  have hu : (0 : ℝ) ≤ 1 / 2 ^ 1000 := by positivity
  generalize (1 : ℝ) / 2 ^ 1000 = u at *
  have d1 : 4 * n / 2 ^ 50 * M ≤ 1 / 2 * M := by
    refine mul_le_mul_of_nonneg_right ?_ hM
    rw [div_le_div_iff₀ (by norm_num) (by norm_num)]; norm_num at hn ⊢; linarith
  have d2 : 4 * n' / 2 ^ 50 ≤ 1 / 2 := by
    rw [div_le_div_iff₀ (by norm_num) (by norm_num)]; norm_num at hn' ⊢; linarith
  have d3 : 4 * n' / 2 ^ 50 * (M + (4 * n / 2 ^ 50 * M + 3 * u)) ≤ 6 * n' / 2 ^ 50 * M + 2 * u := by
    have t1 : 4 * n' / 2 ^ 50 * (M + (4 * n / 2 ^ 50 * M + 3 * u)) ≤ 4 * n' / 2 ^ 50 * (3 / 2 * M + 3 * u) :=
      mul_le_mul_of_nonneg_left (by linarith) (by positivity)
    have t2 : 4 * n' / 2 ^ 50 * u ≤ 1 / 2 * u := mul_le_mul_of_nonneg_right d2 hu
    have t3 : 4 * n' / 2 ^ 50 * (3 / 2 * M + 3 * u) = 6 * n' / 2 ^ 50 * M + 3 * (4 * n' / 2 ^ 50 * u) := by ring
    linarith
  have d4 : 6 * (n + n') / 2 ^ 50 * M = 3 / 2 * (4 * n / 2 ^ 50 * M) + 6 * n' / 2 ^ 50 * M := by ring
  have d5 : 0 ≤ 4 * n / 2 ^ 50 * M := by positivity
  linarith

theorem fwRingsF_near (F : FftLib) (method : PyStr) {L N off : ℤ} (hL : 1 ≤ L) (hN : 1 ≤ N) (hNL : N ≤ L)
    (hL26 : L ≤ 2 ^ 26) (ho : off = 0 ∨ off = 1) (f f' : ℤ → ℤ → ℤ → ℂ) (reality : Bool) (t : ℤ) {η M : ℝ}
    (h : ∀ g p, 0 ≤ g → g < 2 * N - 1 → 0 ≤ p → p < 2 * L - 1 + off → ‖f' g t p - f g t p‖ ≤ η)
    (hM : ∀ g p, 0 ≤ g → g < 2 * N - 1 → 0 ≤ p → p < 2 * L - 1 + off → ‖f' g t p‖ ≤ M) {n m : ℤ}
    (n0 : nFirst N reality ≤ n) (n1 : n < N) :
    ‖fwRingsF F method f' N (2 * L - 1 + off) off reality (n - nFirst N reality) t (m + L - 1)
        - fwRings f N (2 * L - 1 + off) off reality (n - nFirst N reality) t (m + L - 1)‖
      ≤ η + (24 * L / 2 ^ 50 * M + 8 / 2 ^ 1000) := by
  have hnp : 0 < 2 * L - 1 + off := by omega
  have hng : 0 < 2 * N - 1 := by omega
  have hM0 : 0 ≤ M := (norm_nonneg _).trans (hM 0 0 le_rfl hng le_rfl hnp)
  have hfin : η + (6 * (((2 * N - 1 : ℤ) : ℝ) + ((2 * L - 1 + off : ℤ) : ℝ)) / 2 ^ 50 * M + 8 / 2 ^ 1000)
      ≤ η + (24 * L / 2 ^ 50 * M + 8 / 2 ^ 1000) := by
    have : ((2 * N - 1 : ℤ) : ℝ) + ((2 * L - 1 + off : ℤ) : ℝ) ≤ 4 * L := by
      exact_mod_cast (by omega : (2 * N - 1) + (2 * L - 1 + off) ≤ 4 * L)
    have h2 : 6 * (((2 * N - 1 : ℤ) : ℝ) + ((2 * L - 1 + off : ℤ) : ℝ)) / 2 ^ 50 ≤ 24 * L / 2 ^ 50 :=
      div_le_div_of_nonneg_right (by linarith) (by norm_num)
    have h3 := mul_le_mul_of_nonneg_right h2 hM0
    linarith
  refine le_trans ?_ hfin
  have hj0 : ∀ a : ℤ, 0 ≤ a % (2 * L - 1 + off) := fun a => Int.emod_nonneg _ (by omega)
  have hj1 : ∀ a : ℤ, a % (2 * L - 1 + off) < 2 * L - 1 + off := fun a => Int.emod_lt_of_pos _ hnp
  have hk0 : ∀ a : ℤ, 0 ≤ a % (2 * N - 1) := fun a => Int.emod_nonneg _ (by omega)
  have hk1 : ∀ a : ℤ, a % (2 * N - 1) < 2 * N - 1 := fun a => Int.emod_lt_of_pos _ hng
  have b1 : (1 : ℝ) ≤ ((2 * N - 1 : ℤ) : ℝ) := by exact_mod_cast (by omega : 1 ≤ 2 * N - 1)
  have b2 : (1 : ℝ) ≤ ((2 * L - 1 + off : ℤ) : ℝ) := by exact_mod_cast (by omega : 1 ≤ 2 * L - 1 + off)
  have b3 : ((2 * N - 1 : ℤ) : ℝ) ≤ 2 ^ 28 := by exact_mod_cast (by omega : 2 * N - 1 ≤ 2 ^ 28)
  have b4 : ((2 * L - 1 + off : ℤ) : ℝ) ≤ 2 ^ 28 := by exact_mod_cast (by omega : 2 * L - 1 + off ≤ 2 ^ 28)
  unfold fwRingsF fwRings
  cases reality
  · rw [if_neg Bool.false_ne_true, if_neg Bool.false_ne_true]
    simp only [fftshift]
    by_cases hm : method = mNumpy
    · simp only [if_pos hm]
      have s1 := fun g (g0 : 0 ≤ g) (g1 : g < 2 * N - 1) => fftFwdF_sup F hnp (by omega) (x := f g t)
        (x' := f' g t) (fun p p0 p1 => h g p g0 g1 p0 p1) (fun p p0 p1 => hM g p g0 g1 p0 p1)
        (hj0 (off + (m + L - 1) - (2 * L - 1 + off) / 2)) (hj1 _)
      have s2 := fftFwdF_sup F hng (by omega) (fun g g0 g1 => (s1 g g0 g1).1) (fun g g0 g1 => (s1 g g0 g1).2)
        (hk0 (n - nFirst N false - (2 * N - 1) / 2)) (hk1 _)
      refine s2.1.trans ((sup_twice b2 b1 b3 b4 hM0).trans (le_of_eq ?_))
      rw [add_comm ((2 * L - 1 + off : ℤ) : ℝ)]
    · simp only [if_neg hm]
      exact fft2F_sup F hng hnp (by omega) (by omega) (x := fun g => f g t) (x' := fun g => f' g t)
        h hM (hk0 _) (hk1 _) (hj0 _) (hj1 _)
  · rw [if_pos rfl, if_pos rfl, nFirst_true, sub_zero]
    rw [nFirst_true] at n0
    simp only [fftshift]
    have s1 : ∀ p, 0 ≤ p → p < 2 * L - 1 + off → _ := fun p p0 p1 => sup_scale F b1 b3 hM0
      (rfftF_sup F hng (x := fun g => (f g t p).re) (x' := fun g => (f' g t p).re) (e := η) (M := M)
        (fun g g0 g1 => by
          have := (Complex.abs_re_le_norm (f' g t p - f g t p)).trans (h g p g0 g1 p0 p1)
          rwa [Complex.sub_re] at this)
        (fun g g0 g1 => (Complex.abs_re_le_norm _).trans (hM g p g0 g1 p0 p1)) n0 (by omega)).1
      (rfftF_sup F hng (x := fun g => (f g t p).re) (x' := fun g => (f' g t p).re) (e := η) (M := M)
        (fun g g0 g1 => by
          have := (Complex.abs_re_le_norm (f' g t p - f g t p)).trans (h g p g0 g1 p0 p1)
          rwa [Complex.sub_re] at this)
        (fun g g0 g1 => (Complex.abs_re_le_norm _).trans (hM g p g0 g1 p0 p1)) n0 (by omega)).2
    have e : (2 * (N : ℂ) - 1) = (((2 * N - 1 : ℤ) : ℝ) : ℂ) := by push_cast; ring
    simp only [e]
    have s2 := fftFwdF_sup F hnp (by omega) (fun p p0 p1 => (s1 p p0 p1).1)
      (fun p p0 p1 => (s1 p p0 p1).2) (hj0 (off + (m + L - 1) - (2 * L - 1 + off) / 2)) (hj1 _)
    exact s2.1.trans (sup_twice b1 b2 b4 b3 hM0)

end S2fft
