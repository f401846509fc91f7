import Verif.Lemmas.RootSum
import Verif.Lemmas.StableWigner
import Verif.Lemmas.PrecomputeDouble
import Verif.Model.ResamplingDouble
/-! # The error of the resampling in double precision -/
namespace S2fft
open Spec

/-- Relative error of a Fourier transform of length `n`. -/
noncomputable def ftErr (n : ℤ) : ℝ := n * √(n : ℝ) / 2 ^ 50

/-- Numbers so small that they do not matter. -/
noncomputable def tn : ℝ := 1 / 2 ^ 900

theorem tn_pos : 0 < tn := by unfold tn; positivity

theorem tiny_tn : (1 : ℝ) / 2 ^ 1000 = tn / 2 ^ 100 := by
  unfold tn; rw [div_div, ← pow_add]

theorem sqrt_ge_one {n : ℤ} (hn : 0 < n) : 1 ≤ √(n : ℝ) := by
  rw [Real.le_sqrt' (by norm_num)]
  have : (1 : ℝ) ≤ n := by exact_mod_cast hn
  linarith

theorem ftErr_nonneg {n : ℤ} (hn : 0 < n) : 0 ≤ ftErr n := by
  have : (0 : ℝ) ≤ n := by exact_mod_cast hn.le
  unfold ftErr; positivity

theorem ftErr_ge {n : ℤ} (hn : 0 < n) : 1 / 2 ^ 50 ≤ ftErr n := by
  have h1 := sqrt_ge_one hn
  have h2 : (1 : ℝ) ≤ n := by exact_mod_cast hn
  unfold ftErr
  refine div_le_div_of_nonneg_right ?_ (by norm_num)
  nlinarith

theorem ftErr_mono {n k : ℤ} (hn : 0 < n) (h : n ≤ k) : ftErr n ≤ ftErr k := by
  have h1 : (n : ℝ) ≤ k := by exact_mod_cast h
  have h2 : (0 : ℝ) ≤ n := by exact_mod_cast hn.le
  have h3 : (0 : ℝ) ≤ k := h2.trans h1
  unfold ftErr
  gcongr

theorem ftErr_small {n : ℤ} (hn : 0 < n) (h : n ≤ 2 ^ 28) : ftErr n ≤ 1 / 2 ^ 8 := by
  refine (ftErr_mono hn h).trans (le_of_eq ?_)
  unfold ftErr
  push_cast
  norm_num

theorem sqrt_small {n : ℤ} (h : n ≤ 2 ^ 28) : √(n : ℝ) ≤ 2 ^ 14 := by
  rw [Real.sqrt_le_left (by norm_num)]
  have : (n : ℝ) ≤ 2 ^ 28 := by exact_mod_cast h
  norm_num at this ⊢; exact this

/-- Terms of gradual underflow. -/
theorem tiny_ft {n : ℤ} (hn : 0 < n) : (n : ℝ) / 2 ^ 1000 ≤ ftErr n * (tn / 2 ^ 50) := by
  have h1 := sqrt_ge_one hn
  have h2 : (0 : ℝ) < n := by exact_mod_cast hn
  have h3 := tn_pos
  have e : ftErr n * (tn / 2 ^ 50) = n * (tn / 2 ^ 100) * √(n : ℝ) := by
    unfold ftErr; rw [show (2 : ℝ) ^ 100 = 2 ^ 50 * 2 ^ 50 by norm_num]; field_simp
  rw [e, div_eq_mul_one_div, tiny_tn]
  exact le_mul_of_one_le_right (by positivity) h1

/-- The error of a transform of a fixed vector. -/
theorem fftF_err (F : FftLib) {n : ℤ} (hn : 0 < n) (x : ℤ → ℂ) :
    rr n (fun k => ‖F.fft n x k - fft n x k‖)
      ≤ √n * (ftErr n * (rr n (fun j => ‖x j‖) + tn / 2 ^ 50)) := by
  have hn' : (0 : ℝ) < n := by exact_mod_cast hn
  have h := sum_le_rr hn.le (fun j => ‖x j‖)
  have ht := tiny_ft hn
  have h0 := rr_nonneg n (fun j => ‖x j‖)
  refine (rr_le_rr (b := fun _ => ftErr n * (rr n (fun j => ‖x j‖) + tn / 2 ^ 50)) fun k k0 k1 => ?_).trans
    (le_of_eq (rr_const hn.le (mul_nonneg (ftErr_nonneg hn) (by have := tn_pos; positivity))))
  rw [abs_norm]
  refine (F.fft_near n x k k0 k1).trans ?_
  rw [mul_add]
  refine add_le_add ?_ ht
  calc (n : ℝ) / 2 ^ 50 * (∑ j ∈ Finset.Ico 0 n, ‖x j‖)
      ≤ n / 2 ^ 50 * (√n * rr n (fun j => ‖x j‖)) := by gcongr
    _ = ftErr n * rr n (fun j => ‖x j‖) := by unfold ftErr; ring

theorem ifftF_err (F : FftLib) {n : ℤ} (hn : 0 < n) (x : ℤ → ℂ) :
    rr n (fun k => ‖F.ifft n x k - ifft_fwd n x k‖)
      ≤ √n * (ftErr n * (rr n (fun j => ‖x j‖) + tn / 2 ^ 50)) := by
  have hn' : (0 : ℝ) < n := by exact_mod_cast hn
  have h := sum_le_rr hn.le (fun j => ‖x j‖)
  have ht := tiny_ft hn
  have h0 := rr_nonneg n (fun j => ‖x j‖)
  refine (rr_le_rr (b := fun _ => ftErr n * (rr n (fun j => ‖x j‖) + tn / 2 ^ 50)) fun k k0 k1 => ?_).trans
    (le_of_eq (rr_const hn.le (mul_nonneg (ftErr_nonneg hn) (by have := tn_pos; positivity))))
  rw [abs_norm]
  refine (F.ifft_near n x k k0 k1).trans ?_
  rw [mul_add]
  refine add_le_add ?_ ht
  calc (n : ℝ) / 2 ^ 50 * (∑ j ∈ Finset.Ico 0 n, ‖x j‖)
      ≤ n / 2 ^ 50 * (√n * rr n (fun j => ‖x j‖)) := by gcongr
    _ = ftErr n * rr n (fun j => ‖x j‖) := by unfold ftErr; ring

theorem rr_tri (n : ℤ) (x y z : ℤ → ℂ) : rr n (fun j => ‖x j - z j‖)
    ≤ rr n (fun j => ‖x j - y j‖) + rr n (fun j => ‖y j - z j‖) :=
  (rr_le_rr fun j _ _ => by rw [abs_norm]; exact norm_sub_le_norm_sub_add_norm_sub _ _ _).trans
    (rr_add _ _ _)

theorem rr_size (n : ℤ) (x y : ℤ → ℂ) : rr n (fun j => ‖x j‖)
    ≤ rr n (fun j => ‖y j‖) + rr n (fun j => ‖x j - y j‖) :=
  (rr_le_rr fun j _ _ => by
    rw [abs_norm]; exact norm_le_norm_add_norm_sub' _ _).trans (rr_add _ _ _)

theorem ifft_fwd_sub_at (n : ℤ) (x y : ℤ → ℂ) (k : ℤ) :
    ifft_fwd n (fun j => x j - y j) k = ifft_fwd n x k - ifft_fwd n y k := by
  unfold ifft_fwd
  rw [← Finset.sum_sub_distrib]
  exact Finset.sum_congr rfl fun j _ => by ring

/-- The error of a transform, on top of one in its argument. -/
theorem fftF_step (F : FftLib) {n : ℤ} (hn : 0 < n) (x x' : ℤ → ℂ) :
    rr n (fun k => ‖F.fft n x' k - fft n x k‖)
      ≤ √n * (rr n (fun j => ‖x' j - x j‖) + ftErr n * (rr n (fun j => ‖x j‖)
        + rr n (fun j => ‖x' j - x j‖) + tn / 2 ^ 50)) := by
  have h1 := fftF_err F hn x'
  have h2 := rr_tri n (F.fft n x') (fft n x') (fft n x)
  have h3 : rr n (fun k => ‖fft n x' k - fft n x k‖) = √n * rr n (fun j => ‖x' j - x j‖) := by
    rw [← rr_fft hn]
    exact rr_congr fun k _ _ => by rw [fft_sub_at]
  have h4 := rr_size n x' x
  have h5 : √(n : ℝ) * (ftErr n * (rr n (fun j => ‖x' j‖) + tn / 2 ^ 50))
      ≤ √n * (ftErr n * (rr n (fun j => ‖x j‖) + rr n (fun j => ‖x' j - x j‖) + tn / 2 ^ 50)) := by
    have := ftErr_nonneg hn
    gcongr
  rw [mul_add]
  linarith

theorem ifftF_step (F : FftLib) {n : ℤ} (hn : 0 < n) (x x' : ℤ → ℂ) :
    rr n (fun k => ‖F.ifft n x' k - ifft_fwd n x k‖)
      ≤ √n * (rr n (fun j => ‖x' j - x j‖) + ftErr n * (rr n (fun j => ‖x j‖)
        + rr n (fun j => ‖x' j - x j‖) + tn / 2 ^ 50)) := by
  have h1 := ifftF_err F hn x'
  have h2 := rr_tri n (F.ifft n x') (ifft_fwd n x') (ifft_fwd n x)
  have h3 : rr n (fun k => ‖ifft_fwd n x' k - ifft_fwd n x k‖) = √n * rr n (fun j => ‖x' j - x j‖) := by
    rw [← rr_ifft_fwd hn]
    exact rr_congr fun k _ _ => by rw [ifft_fwd_sub_at]
  have h4 := rr_size n x' x
  have h5 : √(n : ℝ) * (ftErr n * (rr n (fun j => ‖x' j‖) + tn / 2 ^ 50))
      ≤ √n * (ftErr n * (rr n (fun j => ‖x j‖) + rr n (fun j => ‖x' j - x j‖) + tn / 2 ^ 50)) := by
    have := ftErr_nonneg hn
    gcongr
  rw [mul_add]
  linarith

/-- An operation that scales by `1 / n` up to rounding. -/
def ScaleNear (n : ℤ) (S : ℂ → ℂ) : Prop :=
  ∀ y' y : ℂ, ‖S y' - y / n‖
    ≤ 1 / n * (1 + 1 / 2 ^ 48) * ‖y' - y‖ + 1 / n * (1 / 2 ^ 48) * ‖y‖ + 1 / 2 ^ 1000

/-- Multiplication with the rounded reciprocal. -/
theorem mulInv_near (F : FftLib) {n : ℤ} (hn : 0 < n) (h28 : n ≤ 2 ^ 28) :
    ScaleNear n (F.mul ((F.fl (1 / n) : ℝ) : ℂ)) := by
  have hn' : (0 : ℝ) < n := by exact_mod_cast hn
  have hn28 : (n : ℝ) ≤ 2 ^ 28 := by exact_mod_cast h28
  have hs := fl_near F.nearest (x := 1 / (n : ℝ)) (B := 1 / n)
    (by rw [abs_of_pos (by positivity)])
    (one_div_le_one_div_of_le hn' (hn28.trans (by norm_num)))
  intro y' y
  set s := F.fl (1 / (n : ℝ)) with hsd
  have h1 := F.mul_near (s : ℂ) y'
  have hsn : ‖(s : ℂ)‖ ≤ 2 / n := by
    rw [Complex.norm_real, Real.norm_eq_abs]
    have := abs_sub_abs_le_abs_sub s (1 / (n : ℝ))
    rw [abs_of_pos (by positivity : (0 : ℝ) < 1 / n)] at this
    have h2 : (1 / (n : ℝ)) / 2 ^ 53 ≤ 1 / n := div_le_self (by positivity) (by norm_num)
    have e : (2 : ℝ) / n = 1 / n + 1 / n := by ring
    linarith
  have h2 : ‖(s : ℂ) * y' - y / n‖ ≤ 1 / n / 2 ^ 53 * ‖y'‖ + 1 / n * ‖y' - y‖ := by
    have e : (s : ℂ) * y' - y / n = ((s - 1 / n : ℝ) : ℂ) * y' + ((1 / n : ℝ) : ℂ) * (y' - y) := by
      push_cast; ring
    rw [e]
    refine (norm_add_le _ _).trans (add_le_add ?_ (le_of_eq ?_))
    · rw [norm_mul, Complex.norm_real, Real.norm_eq_abs]
      gcongr
    · rw [norm_mul, Complex.norm_real, Real.norm_eq_abs, abs_of_pos (by positivity)]
  have h3 : ‖(s : ℂ)‖ * ‖y'‖ / 2 ^ 50 ≤ 2 / n * ‖y'‖ / 2 ^ 50 := by gcongr
  have h4 := norm_sub_le_norm_sub_add_norm_sub (F.mul (s : ℂ) y') ((s : ℂ) * y') (y / n)
  have h5 := norm_le_norm_add_norm_sub' y' y
  have h6 : 2 / n * ‖y'‖ / 2 ^ 50 + 1 / n / 2 ^ 53 * ‖y'‖ ≤ 1 / n * (1 / 2 ^ 48) * (‖y‖ + ‖y' - y‖) := by
    calc 2 / n * ‖y'‖ / 2 ^ 50 + 1 / n / 2 ^ 53 * ‖y'‖
        = 1 / n * (2 / 2 ^ 50 + 1 / 2 ^ 53) * ‖y'‖ := by ring
      _ ≤ 1 / n * (1 / 2 ^ 48) * (‖y‖ + ‖y' - y‖) := by gcongr; norm_num
  have e : 1 / (n : ℝ) * (1 + 1 / 2 ^ 48) * ‖y' - y‖ + 1 / n * (1 / 2 ^ 48) * ‖y‖
    = 1 / n * ‖y' - y‖ + 1 / n * (1 / 2 ^ 48) * (‖y‖ + ‖y' - y‖) := by ring
  rw [e]
  linarith

/-- Scaling by `1 / n`. -/
theorem scale_step {n : ℤ} (hn : 0 < n) {S : ℤ → ℂ → ℂ} (hS : ∀ k, ScaleNear n (S k)) (y y' : ℤ → ℂ) :
    rr n (fun k => ‖S k (y' k) - y k / n‖)
      ≤ 1 / n * ((1 + 1 / 2 ^ 48) * rr n (fun k => ‖y' k - y k‖) + 1 / 2 ^ 48 * rr n (fun k => ‖y k‖))
        + √n * (1 / 2 ^ 1000) := by
  have hn' : (0 : ℝ) < n := by exact_mod_cast hn
  have h := rr_bound (n := n) hn.le (e := fun k => ‖S k (y' k) - y k / n‖)
    (b := fun k => ‖y' k - y k‖) (c := fun k => ‖y k‖) (p := 1 / n * (1 + 1 / 2 ^ 48))
    (q := 1 / n * (1 / 2 ^ 48)) (r := 1 / 2 ^ 1000) (by positivity) (by positivity) (by positivity)
    (fun k _ _ => by rw [abs_norm]; exact hS k (y' k) (y k))
  refine h.trans (le_of_eq ?_); ring

theorem scaleF_step (F : FftLib) {n : ℤ} (hn : 0 < n) (h28 : n ≤ 2 ^ 28) (y y' : ℤ → ℂ) :
    rr n (fun k => ‖F.mul ((F.fl (1 / n) : ℝ) : ℂ) (y' k) - y k / n‖)
      ≤ 1 / n * ((1 + 1 / 2 ^ 48) * rr n (fun k => ‖y' k - y k‖) + 1 / 2 ^ 48 * rr n (fun k => ‖y k‖))
        + √n * (1 / 2 ^ 1000) :=
  scale_step hn (fun _ => mulInv_near F hn h28) y y'

/-- The forward normalisation. -/
theorem fftFwdF_step (F : FftLib) {n : ℤ} (hn : 0 < n) (h28 : n ≤ 2 ^ 28) (x x' : ℤ → ℂ) :
    rr n (fun k => ‖fftFwdF F n x' k - fft_fwd n x k‖)
      ≤ 1 / √n * (rr n (fun j => ‖x' j - x j‖) + 6 * ftErr n * (rr n (fun j => ‖x j‖)
        + rr n (fun j => ‖x' j - x j‖) + tn)) := by
  have hn' : (0 : ℝ) < n := by exact_mod_cast hn
  have hsq := Real.sq_sqrt hn'.le
  have hs1 := sqrt_ge_one hn
  have h1 := scaleF_step F hn h28 (fft n x) (F.fft n x')
  have h2 := fftF_step F hn x x'
  have h3 := rr_fft hn x
  have hu := ftErr_ge hn
  have htn := tn_pos
  have ht := tiny_ft hn
  have ha := rr_nonneg n (fun j => ‖x j‖)
  have hd := rr_nonneg n (fun j => ‖x' j - x j‖)
  refine h1.trans ?_
  rw [h3]
  generalize rr n (fun j => ‖x j‖) = a at *
  generalize rr n (fun j => ‖x' j - x j‖) = d at *
  generalize rr n (fun k => ‖F.fft n x' k - fft n x k‖) = D at *
  set u := ftErr n with hud
  set s := √(n : ℝ) with hsd
  rw [← hsq]
  have hs0 : 0 < s := by linarith
  have e : 1 / s ^ 2 * ((1 + 1 / 2 ^ 48) * D + 1 / 2 ^ 48 * (s * a)) + s * (1 / 2 ^ 1000)
      = 1 / s * ((1 + 1 / 2 ^ 48) * (D / s) + 1 / 2 ^ 48 * a + s ^ 2 / 2 ^ 1000) := by
    field_simp
  rw [e, hsq]
  refine mul_le_mul_of_nonneg_left ?_ (by positivity)
  have hD : D / s ≤ d + u * (a + d + tn / 2 ^ 50) := by
    rw [div_le_iff₀ hs0]; linarith
  have h48 : (1 / 2 ^ 48 : ℝ) ≤ 4 * u := by
    have : (1 / 2 ^ 48 : ℝ) = 4 * (1 / 2 ^ 50) := by norm_num
    linarith
  have hu0 : 0 ≤ u := by linarith [show (0 : ℝ) ≤ 1 / 2 ^ 50 by positivity]
  have htn2 : tn / 2 ^ 50 ≤ tn / 2 := by
    exact div_le_div_of_nonneg_left htn.le (by norm_num) (by norm_num)
  have b1 : (1 + 1 / 2 ^ 48) * (D / s) ≤ (1 + 1 / 2 ^ 48) * (d + u * (a + d + tn / 2)) := by
    refine mul_le_mul_of_nonneg_left (hD.trans ?_) (by norm_num)
    gcongr
  have b2 : 1 / 2 ^ 48 * (a + d) ≤ 4 * u * (a + d) := by gcongr
  have b3 : 1 / 2 ^ 48 * (u * (a + d + tn / 2)) ≤ 1 / 2 * (u * (a + d + tn / 2)) := by
    gcongr; norm_num
  have b4 : u * (tn / 2 ^ 50) ≤ u * (tn / 2) := by gcongr
  nlinarith [mul_nonneg hu0 ha, mul_nonneg hu0 hd, mul_nonneg hu0 htn.le]

/-- The step from `n` to `n'` points: spectrum, phases, zero padding, inverse transform. The
spectrum `z'` is computed from the computed transform up to a relative error `ν`. -/
theorem interpF_step (F : FftLib) {n n' s : ℤ} (hn : 0 < n) (hs : 0 ≤ s) (h : n + s ≤ n')
    (h28 : n' ≤ 2 ^ 28) (x x' z z' : ℤ → ℂ) {ν : ℝ} (hν0 : 0 ≤ ν) (hν : ν ≤ 1 / 2 ^ 8)
    (hz : ∀ j, s ≤ j → j < n + s →
      ‖z j‖ = ‖fftshift n (fft_fwd n x) (j - s)‖ ∧
      ‖z' j - z j‖ ≤ ‖fftshift n (fftFwdF F n x') (j - s) - fftshift n (fft_fwd n x) (j - s)‖
        + ν * ‖fftshift n (fftFwdF F n x') (j - s)‖ + 1 / 2 ^ 1000)
    (hz0 : ∀ j, ¬ (s ≤ j ∧ j < n + s) → 0 ≤ j → j < n' → z j = 0 ∧ z' j = 0) :
    rr n' (fun p => ‖ifft_fwd n' (ifftshift n' z) p‖) = √n' / √n * rr n (fun j => ‖x j‖) ∧
    rr n' (fun p => ‖F.ifft n' (ifftshift n' z') p - ifft_fwd n' (ifftshift n' z) p‖)
      ≤ √n' / √n * (rr n (fun j => ‖x' j - x j‖) + (9 * ftErr n' + 2 * ν) * (rr n (fun j => ‖x j‖)
        + rr n (fun j => ‖x' j - x j‖) + tn)) := by
  have hn0 : 0 < n' := by omega
  have hn' : (0 : ℝ) < n := by exact_mod_cast hn
  have hsq := Real.sq_sqrt hn'.le
  have hs1 := sqrt_ge_one hn
  have hs2 := sqrt_small (n := n) (by omega)
  have hQ : rr n (fun k => ‖fft_fwd n x k‖) = 1 / √n * rr n (fun j => ‖x j‖) := by
    rw [rr_energy, rr_energy, energy_fft_fwd hn, Real.sqrt_div (energy_nonneg _ _)]; ring
  have hb : rr n' (fun j => ‖z j‖) = 1 / √n * rr n (fun j => ‖x j‖) := by
    rw [← hQ, ← rr_fftshift hn (fun k => ‖fft_fwd n x k‖), ← rr_pad hs h]
    refine rr_congr fun j j0 j1 => ?_
    by_cases hj : s ≤ j ∧ j < n + s
    · rw [if_pos hj, (hz j hj.1 hj.2).1]; rfl
    · rw [if_neg hj, (hz0 j hj j0 j1).1, norm_zero]
  have hdq := fftFwdF_step F hn (by omega) x x'
  have hdz : rr n' (fun j => ‖z' j - z j‖) ≤ (1 + ν) * rr n (fun k => ‖fftFwdF F n x' k - fft_fwd n x k‖)
      + ν * rr n (fun k => ‖fft_fwd n x k‖) + √n * (1 / 2 ^ 1000) := by
    refine le_trans ?_ (rr_bound hn.le (e := fun k => ‖fftFwdF F n x' k - fft_fwd n x k‖
      + ν * ‖fftFwdF F n x' k‖ + 1 / 2 ^ 1000) (by positivity) hν0 (by positivity) fun k _ _ => ?_)
    · rw [← rr_fftshift hn, ← rr_pad hs h]
      refine rr_le_rr fun j j0 j1 => ?_
      rw [abs_norm]
      by_cases hj : s ≤ j ∧ j < n + s
      · rw [if_pos hj]; exact (hz j hj.1 hj.2).2
      · rw [if_neg hj, (hz0 j hj j0 j1).1, (hz0 j hj j0 j1).2, sub_zero, norm_zero]
    · have h1 := norm_le_norm_add_norm_sub' (fftFwdF F n x' k) (fft_fwd n x k)
      have h2 := mul_le_mul_of_nonneg_left h1 hν0
      rw [abs_of_nonneg (by positivity)]
      linarith
  have e1 : rr n' (fun j => ‖ifftshift n' z' j - ifftshift n' z j‖) = rr n' (fun j => ‖z' j - z j‖) :=
    rr_ifftshift hn0 (fun j => ‖z' j - z j‖)
  have e2 : rr n' (fun j => ‖ifftshift n' z j‖) = rr n' (fun j => ‖z j‖) :=
    rr_ifftshift hn0 (fun j => ‖z j‖)
  have h3 := ifftF_step F hn0 (ifftshift n' z) (ifftshift n' z')
  rw [e1, e2, hb] at h3
  refine ⟨by rw [rr_ifft_fwd hn0, e2, hb]; ring, h3.trans ?_⟩
  rw [hQ] at hdz
  have hu0 := ftErr_nonneg hn
  have hu1 := ftErr_mono hn (by omega : n ≤ n')
  have hu2 := ftErr_small hn0 h28
  have ht := tiny_ft hn
  have htn := tn_pos
  have ha := rr_nonneg n (fun j => ‖x j‖)
  have hd := rr_nonneg n (fun j => ‖x' j - x j‖)
  generalize rr n (fun j => ‖x j‖) = a at *
  generalize rr n (fun j => ‖x' j - x j‖) = d at *
  generalize rr n (fun k => ‖fftFwdF F n x' k - fft_fwd n x k‖) = D at *
  generalize rr n' (fun j => ‖z' j - z j‖) = Z at *
  generalize ftErr n = u at *
  generalize ftErr n' = u' at *
  set r := √(n : ℝ) with hr
  have hr0 : 0 < r := by linarith
  obtain ⟨X, hX⟩ : ∃ X, X = a + d + tn := ⟨_, rfl⟩
  rw [← hX] at hdq ⊢
  have hX0 : 0 ≤ X := by linarith
  have hD : r * D ≤ d + 6 * u * X := by
    have := mul_le_mul_of_nonneg_left hdq hr0.le
    rwa [← mul_assoc, mul_one_div_cancel hr0.ne', one_mul] at this
  have hZ : r * Z ≤ d + (7 * u + ν) * X := by
    have h1 := mul_le_mul_of_nonneg_left hdz hr0.le
    have e : r * ((1 + ν) * D + ν * (1 / r * a) + r * (1 / 2 ^ 1000))
        = (1 + ν) * (r * D) + ν * a + r ^ 2 / 2 ^ 1000 := by field_simp
    rw [e, hsq] at h1
    have h2 : (1 + ν) * (r * D) ≤ (1 + ν) * (d + 6 * u * X) := by gcongr
    have h4 : u * (tn / 2 ^ 50) ≤ u * (tn / 2) := by
      refine mul_le_mul_of_nonneg_left (div_le_div_of_nonneg_left htn.le (by norm_num) (by norm_num)) hu0
    have h5 : ν * (6 * u * X) ≤ 1 / 2 ^ 8 * (6 * u * X) := by gcongr
    have h6 : u * tn ≤ u * X := by gcongr; linarith
    have h7 : ν * (a + d) ≤ ν * X := by gcongr; linarith
    have h8 := mul_nonneg hu0 hX0
    nlinarith
  have hT : r * (tn / 2 ^ 50) ≤ tn := by
    calc r * (tn / 2 ^ 50) ≤ 2 ^ 14 * (tn / 2 ^ 50) := by gcongr
      _ = tn * (2 ^ 14 / 2 ^ 50) := by ring
      _ ≤ tn * 1 := by gcongr; norm_num
      _ = tn := mul_one _
  have hS : r * (Z + u' * (1 / r * a + Z + tn / 2 ^ 50)) ≤ d + (9 * u' + 2 * ν) * X := by
    have e : r * (Z + u' * (1 / r * a + Z + tn / 2 ^ 50))
        = r * Z + u' * (a + r * Z + r * (tn / 2 ^ 50)) := by field_simp
    rw [e]
    have hu'0 : 0 ≤ u' := hu0.trans hu1
    have h1 : a + r * Z + r * (tn / 2 ^ 50) ≤ 2 * X := by
      have : (7 * u + ν) * X ≤ 1 * X := by
        gcongr
        norm_num at hu2 hν ⊢; linarith
      linarith
    have h2 := mul_le_mul_of_nonneg_left h1 hu'0
    have h3 : (7 * u + ν) * X ≤ (7 * u' + ν) * X := by gcongr
    have h4 := mul_nonneg hν0 hX0
    nlinarith
  calc √(n' : ℝ) * (Z + u' * (1 / r * a + Z + tn / 2 ^ 50))
      = √n' / r * (r * (Z + u' * (1 / r * a + Z + tn / 2 ^ 50))) := by field_simp
    _ ≤ _ := by gcongr

/-- The periodic extension of a row. -/
theorem extF_step (F : FftLib) {n : ℤ} (hn : 0 < n) (h28 : n ≤ 2 ^ 28) {S : ℤ → ℂ → ℂ}
    (hS : ∀ k, ScaleNear n (S k)) (x x' z z' : ℤ → ℂ)
    (hz : ∀ j, 0 ≤ j → j < n → ‖z j‖ = ‖fftshift n (fft n x) j‖ ∧
      ‖z' j - z j‖ = ‖fftshift n (F.fft n x') j - fftshift n (fft n x) j‖) :
    rr n (fun p => ‖ifft n (ifftshift n z) p‖) = rr n (fun j => ‖x j‖) ∧
    rr n (fun p => ‖S p (F.ifft n (ifftshift n z') p) - ifft n (ifftshift n z) p‖)
      ≤ rr n (fun j => ‖x' j - x j‖) + 9 * ftErr n * (rr n (fun j => ‖x j‖)
        + rr n (fun j => ‖x' j - x j‖) + tn) := by
  have hn' : (0 : ℝ) < n := by exact_mod_cast hn
  have hsq := Real.sq_sqrt hn'.le
  have hs1 := sqrt_ge_one hn
  have hs2 := sqrt_small (n := n) (by omega)
  have hb : rr n (fun j => ‖ifftshift n z j‖) = √n * rr n (fun j => ‖x j‖) := by
    rw [← rr_fft hn, ← rr_fftshift hn (fun k => ‖fft n x k‖)]
    refine (rr_ifftshift hn (fun j => ‖z j‖)).trans (rr_congr fun j j0 j1 => ?_)
    exact (hz j j0 j1).1
  have hdz : rr n (fun j => ‖ifftshift n z' j - ifftshift n z j‖)
      = rr n (fun k => ‖F.fft n x' k - fft n x k‖) := by
    rw [← rr_fftshift hn (fun k => ‖F.fft n x' k - fft n x k‖)]
    refine (rr_ifftshift hn (fun j => ‖z' j - z j‖)).trans (rr_congr fun j j0 j1 => ?_)
    exact (hz j j0 j1).2
  have h1 := fftF_step F hn x x'
  have h2 := ifftF_step F hn (ifftshift n z) (ifftshift n z')
  have h3 := scale_step hn hS (ifft_fwd n (ifftshift n z)) (F.ifft n (ifftshift n z'))
  have h4 := rr_ifft_fwd hn (ifftshift n z)
  rw [hb, hdz] at h2
  rw [hb] at h4
  refine ⟨?_, ?_⟩
  · have e : (fun p => ‖ifft n (ifftshift n z) p‖) = fun p => 1 / (n : ℝ) * ‖ifft_fwd n (ifftshift n z) p‖ := by
      funext p
      unfold ifft
      rw [norm_div, Complex.norm_intCast, abs_of_pos hn']; ring
    rw [e, rr_mul n (by positivity), h4, ← mul_assoc, ← mul_assoc]
    rw [mul_assoc (1 / (n : ℝ)), ← sq, hsq, one_div_mul_cancel hn'.ne', one_mul]
  refine h3.trans ?_
  rw [h4]
  have hu := ftErr_ge hn
  have hu2 := ftErr_small hn h28
  have ht := tiny_ft hn
  have htn := tn_pos
  have ha := rr_nonneg n (fun j => ‖x j‖)
  have hd := rr_nonneg n (fun j => ‖x' j - x j‖)
  generalize rr n (fun j => ‖x j‖) = a at *
  generalize rr n (fun j => ‖x' j - x j‖) = d at *
  generalize rr n (fun k => ‖F.fft n x' k - fft n x k‖) = D at *
  generalize rr n (fun p => ‖F.ifft n (ifftshift n z') p - ifft_fwd n (ifftshift n z) p‖) = E at *
  generalize ftErr n = u at *
  have hu0 : 0 ≤ u := by linarith [show (0 : ℝ) ≤ 1 / 2 ^ 50 by positivity]
  set r := √(n : ℝ) with hr
  have hr0 : 0 < r := by linarith
  obtain ⟨X, hX⟩ : ∃ X, X = a + d + tn := ⟨_, rfl⟩
  rw [← hX]
  have hX0 : 0 ≤ X := by linarith
  have htn2 : tn / 2 ^ 50 ≤ tn := div_le_self htn.le (by norm_num)
  have htn3 : tn / 2 ^ 50 ≤ r * tn := htn2.trans (le_mul_of_one_le_left htn.le hs1)
  have hD : D ≤ r * (d + u * X) := by
    refine h1.trans ?_
    gcongr
    linarith
  have hE : E ≤ n * (d + 3 * u * X) := by
    refine h2.trans ?_
    have a1 : r * a + D + tn / 2 ^ 50 ≤ r * (2 * X) := by
      have : u * X ≤ 1 / 2 ^ 8 * X := by gcongr
      have h5 : r * (u * X) ≤ r * (1 / 2 ^ 8 * X) := by gcongr
      have h6 : r * (a + d + tn) = r * X := by rw [hX]
      have h7 : 0 ≤ r * X := by positivity
      nlinarith
    have a2 := mul_le_mul_of_nonneg_left a1 hu0
    calc r * (D + u * (r * a + D + tn / 2 ^ 50)) ≤ r * (r * (d + u * X) + u * (r * (2 * X))) := by
          gcongr
      _ = r ^ 2 * (d + 3 * u * X) := by ring
      _ = _ := by rw [hsq]
  have h48 : (1 / 2 ^ 48 : ℝ) ≤ 4 * u := by
    have : (1 / 2 ^ 48 : ℝ) = 4 * (1 / 2 ^ 50) := by norm_num
    linarith
  have e : 1 / (n : ℝ) * ((1 + 1 / 2 ^ 48) * E + 1 / 2 ^ 48 * (r * (r * a)))
      = (1 + 1 / 2 ^ 48) * (1 / n * E) + 1 / 2 ^ 48 * a := by
    rw [← mul_assoc r r a, ← sq, hsq]; field_simp
  rw [e]
  have hE2 : 1 / (n : ℝ) * E ≤ d + 3 * u * X := by
    rw [one_div_mul_eq_div, div_le_iff₀ hn']; linarith
  have b1 : (1 + 1 / 2 ^ 48) * (1 / (n : ℝ) * E) ≤ (1 + 1 / 2 ^ 48) * (d + 3 * u * X) := by gcongr
  have b2 : 1 / 2 ^ 48 * (a + d) ≤ 4 * u * X := by
    have : a + d ≤ X := by linarith
    exact mul_le_mul h48 this (by linarith) (by linarith)
  have b3 : 1 / 2 ^ 48 * (3 * u * X) ≤ 1 / 3 * (3 * u * X) := by gcongr; norm_num
  have b4 : r * (1 / 2 ^ 1000) ≤ u * X := by
    have : r * (1 / 2 ^ 1000) ≤ n * (1 / 2 ^ 1000) := by
      gcongr
      nlinarith
    refine this.trans ((le_of_eq (by ring)).trans (ht.trans ?_))
    gcongr
    linarith
  have h9 := mul_nonneg hu0 hX0
  linarith

end S2fft
