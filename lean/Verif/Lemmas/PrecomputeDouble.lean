import Verif.Model.PrecomputeDouble
import Verif.Props.C48
import Verif.Lemmas.RisboDouble
import Verif.Lemmas.GridDouble
import Verif.Lemmas.Precompute
import Verif.Lemmas.KernelSum
import Verif.Lemmas.TurokJax
import Mathlib.Analysis.InnerProductSpace.Basic

/-! # Accuracy of the precomputed kernels and transforms in double precision -/

namespace S2fft
open Spec

/-! ## Columns of the planes -/

/-- The squares in half a column of a matrix of bounded norm. -/
theorem OpLe.half_col {el L n : ℤ} (hel : 0 ≤ el) (hL : el < L) {X : ℤ → ℤ → ℝ} {e : ℝ}
    (h : OpLe (2 * el + 1) X e) (hn : |n| ≤ el) {g : ℤ → ℝ}
    (hg : ∀ a, 0 ≤ a → a ≤ el → g a = X (a + el) (n + el)) (hz : ∀ a, el < a → g a = 0) :
    ∑ a ∈ Finset.Ico 0 L, g a ^ 2 ≤ e ^ 2 := by
  have hn' := abs_le.1 hn
  have e1 : ∑ a ∈ Finset.Ico 0 L, g a ^ 2 = ∑ a ∈ Finset.Ico 0 (el + 1), g a ^ 2 := by
    symm
    refine Finset.sum_subset (fun x hx => ?_) (fun x _ hx => ?_)
    · rw [Finset.mem_Ico] at hx ⊢; omega
    · rw [Finset.mem_Ico] at *
      rw [hz x (by omega)]; norm_num
  have e2 : ∑ a ∈ Finset.Ico 0 (el + 1), g a ^ 2
      = ∑ k ∈ Finset.Ico el (2 * el + 1), X k (n + el) ^ 2 := by
    rw [show Finset.Ico el (2 * el + 1) = Finset.Ico (0 + el) (el + 1 + el) by congr 1 <;> ring,
      ← Finset.map_add_right_Ico, Finset.sum_map]
    refine Finset.sum_congr rfl fun a ha => ?_
    rw [Finset.mem_Ico] at ha
    rw [hg a ha.1 (by omega)]; rfl
  rw [e1, e2]
  refine le_trans (Finset.sum_le_sum_of_subset_of_nonneg (fun x hx => ?_) fun _ _ _ => sq_nonneg _)
    (h.col (i := n + el) (by omega) (by omega))
  rw [Finset.mem_Ico] at hx ⊢; omega

/-- Columns of a computed plane: the error, the column itself and the exact column. -/
theorem HoldsNear.cols {dl : ℤ → ℤ → ℝ} {β : ℝ} {L el : ℤ} (h0 : 0 ≤ el) (hL : el < L)
    (h : HoldsNear dl L el β) (n : ℤ) :
    ∑ a ∈ Finset.Ico 0 L, (dl (a + L - 1) (n + L - 1) - wignerd el a n β) ^ 2 ≤ risboErr el ^ 2 ∧
    ∑ a ∈ Finset.Ico 0 L, dl (a + L - 1) (n + L - 1) ^ 2 ≤ (risboErr el + 1) ^ 2 ∧
    ∑ a ∈ Finset.Ico 0 L, wignerd el a n β ^ 2 ≤ 1 ^ 2 := by
  have hpos := risboErr_nonneg h0
  by_cases hn : |n| ≤ el
  · have hU := opLe_U (Real.cos_sq_add_sin_sq (β / 2)) (2 * el) (by omega)
    have ha : ∀ a, el < a → el < |a| := fun a ha => lt_of_lt_of_le ha (le_abs_self a)
    refine ⟨h.1.half_col h0 hL hn (fun a h1 h2 => ?_) (fun a h1 => ?_),
      (h.1.add hU).half_col h0 hL hn (fun a h1 h2 => ?_) (fun a h1 => ?_),
      hU.half_col h0 hL hn (fun a h1 h2 => ?_) (fun a h1 => ?_)⟩
    · rw [wignerd_eq_U, show a + el - el + L - 1 = a + L - 1 by ring,
        show n + el - el + L - 1 = n + L - 1 by ring, add_comm el a, add_comm el n]
    · rw [h.2 a n (Or.inl (ha a h1)), wignerd_outside _ _ _ _ (Or.inl (ha a h1)), sub_zero]
    · rw [sub_add_cancel, show a + el - el + L - 1 = a + L - 1 by ring,
        show n + el - el + L - 1 = n + L - 1 by ring]
    · exact h.2 a n (Or.inl (ha a h1))
    · rw [wignerd_eq_U, add_comm el a, add_comm el n]
    · exact wignerd_outside _ _ _ _ (Or.inl (ha a h1))
  · have hz : ∀ a, dl (a + L - 1) (n + L - 1) = 0 := fun a => h.2 a n (Or.inr (by omega))
    have hw : ∀ a, wignerd el a n β = 0 := fun a => wignerd_outside _ _ _ _ (Or.inr (by omega))
    simp only [hz, hw, sub_zero]
    norm_num
    exact ⟨sq_nonneg _, by positivity⟩

theorem sum_abs_mul_le {n : ℤ} {x y : ℤ → ℝ} {p q : ℝ} (hp : 0 ≤ p) (hq : 0 ≤ q)
    (hx : ∑ a ∈ Finset.Ico 0 n, x a ^ 2 ≤ p ^ 2) (hy : ∑ a ∈ Finset.Ico 0 n, y a ^ 2 ≤ q ^ 2) :
    ∑ a ∈ Finset.Ico 0 n, |x a| * |y a| ≤ p * q := by
  refine le_trans (Real.sum_mul_le_sqrt_mul_sqrt _ _ _) ?_
  simp only [sq_abs]
  exact mul_le_mul (by rw [← Real.sqrt_sq hp]; exact Real.sqrt_le_sqrt hx)
    (by rw [← Real.sqrt_sq hq]; exact Real.sqrt_le_sqrt hy) (Real.sqrt_nonneg _) hp

/-- The products of two columns, in the mean. -/
theorem HoldsNear.products {dl : ℤ → ℤ → ℝ} {β E : ℝ} {L el : ℤ} (h0 : 0 ≤ el) (hL : el < L)
    (h : HoldsNear dl L el β) (hE : risboErr el ≤ E) (m n : ℤ) :
    ∑ a ∈ Finset.Ico 0 L, |dl (a + L - 1) (m + L - 1) * dl (a + L - 1) (n + L - 1)
      - wignerd el a m β * wignerd el a n β| ≤ E * (E + 1) + E ∧
    ∑ a ∈ Finset.Ico 0 L, |dl (a + L - 1) (m + L - 1) * dl (a + L - 1) (n + L - 1)| ≤ (E + 1) ^ 2 := by
  have hpos := risboErr_nonneg h0
  have hE0 : 0 ≤ E := le_trans hpos hE
  obtain ⟨m1, m2, m3⟩ := h.cols h0 hL m
  obtain ⟨n1, n2, n3⟩ := h.cols h0 hL n
  have up : ∀ {x y z : ℝ}, 0 ≤ x → x ≤ y → z ≤ x ^ 2 → z ≤ y ^ 2 := fun hx hxy hz =>
    le_trans hz (pow_le_pow_left₀ hx hxy 2)
  have m1' := up hpos hE m1
  have n1' := up hpos hE n1
  have m2' := up (by linarith) (add_le_add_left hE 1) m2
  have n2' := up (by linarith) (add_le_add_left hE 1) n2
  constructor
  · have a1 := sum_abs_mul_le hE0 (by linarith : 0 ≤ E + 1) m1' n2'
    have a2 := sum_abs_mul_le (by norm_num : (0 : ℝ) ≤ 1) hE0 m3 n1'
    rw [one_mul] at a2
    refine le_trans (Finset.sum_le_sum fun a _ => ?_)
      (le_trans (le_of_eq Finset.sum_add_distrib) (add_le_add a1 a2))
    rw [← abs_mul, ← abs_mul]
    refine le_trans (le_of_eq ?_) (abs_add_le _ _)
    congr 1; ring
  · have := sum_abs_mul_le (by linarith : 0 ≤ E + 1) (by linarith : 0 ≤ E + 1) m2' n2'
    rw [← sq] at this
    simpa only [abs_mul] using this

/-- Products of exact columns. -/
theorem wignerd_products {el : ℤ} (h0 : 0 ≤ el) {L : ℤ} (hL : el < L) (β : ℝ) (m n : ℤ) :
    ∑ a ∈ Finset.Ico 0 L, |wignerd el a m β * wignerd el a n β| ≤ 1 := by
  have col : ∀ n, ∑ a ∈ Finset.Ico 0 L, wignerd el a n β ^ 2 ≤ 1 ^ 2 := by
    intro n
    by_cases hn : |n| ≤ el
    · have hU := opLe_U (Real.cos_sq_add_sin_sq (β / 2)) (2 * el) (by omega)
      refine hU.half_col h0 hL hn (fun a h1 h2 => ?_) (fun a h1 => ?_)
      · rw [wignerd_eq_U, add_comm el a, add_comm el n]
      · exact wignerd_outside _ _ _ _ (Or.inl (lt_of_lt_of_le h1 (le_abs_self a)))
    · simp only [wignerd_outside _ _ _ _ (Or.inr (by omega : el < |n|))]
      norm_num
  have := sum_abs_mul_le zero_le_one zero_le_one (col m) (col n)
  simpa only [abs_mul, one_mul] using this

/-! ## The Fourier coefficients -/

theorem norm_cis (x : ℝ) : ‖cis x‖ = 1 := by
  unfold cis; exact Complex.norm_exp_ofReal_mul_I x

theorem norm_I_zpow (k : ℤ) : ‖(Complex.I : ℂ) ^ k‖ = 1 := by
  rw [norm_zpow, Complex.norm_I, one_zpow]

/-- One product by a number of modulus one. -/
theorem mul_stepF (F : FftLib) {x y X Y : ℂ} {e d : ℝ} (hx : ‖x - X‖ ≤ e) (hy : ‖y - Y‖ ≤ d)
    (hY : ‖Y‖ = 1) :
    ‖F.mul x y - X * Y‖ ≤ (‖X‖ + e) * (1 + d) / 2 ^ 50 + 1 / 2 ^ 1000 + e * (1 + d) + ‖X‖ * d := by
  have he : 0 ≤ e := le_trans (norm_nonneg _) hx
  have hd : 0 ≤ d := le_trans (norm_nonneg _) hy
  have h1 : ‖x‖ ≤ ‖X‖ + e := by
    have := norm_sub_norm_le x X
    linarith
  have h2 : ‖y‖ ≤ 1 + d := by
    have := norm_sub_norm_le y Y
    linarith
  have e1 : F.mul x y - X * Y = (F.mul x y - x * y) + ((x - X) * y + X * (y - Y)) := by ring
  rw [e1]
  refine le_trans (norm_add_le _ _) ?_
  have a1 : ‖F.mul x y - x * y‖ ≤ (‖X‖ + e) * (1 + d) / 2 ^ 50 + 1 / 2 ^ 1000 := by
    refine le_trans (F.mul_near x y) ?_
    gcongr
  have a2 : ‖(x - X) * y + X * (y - Y)‖ ≤ e * (1 + d) + ‖X‖ * d := by
    refine le_trans (norm_add_le _ _) ?_
    rw [norm_mul, norm_mul]
    gcongr
  linarith

/-- The phase of the first sample. -/
theorem expIF_near (F : DoubleLib) {m : ℤ} {θ' θ : ℝ} (hm0 : 0 ≤ m) (hm : m ≤ 2 ^ 53) (hθ0 : 0 ≤ θ)
    (hmθ : m * θ ≤ Real.pi) (hθ : |θ' - θ| ≤ θ / 2 ^ 51) :
    ‖expIF F m θ' - cis (m * θ)‖ ≤ 8 / 2 ^ 50 := by
  have hm0' : (0 : ℝ) ≤ m := by exact_mod_cast hm0
  have hpi := Real.pi_le_four
  unfold expIF
  rw [fl_int F.nearest (by rw [abs_of_nonneg hm0]; exact hm)]
  have h1 : |m * θ' - m * θ| ≤ 4 / 2 ^ 51 := by
    rw [← mul_sub, abs_mul, abs_of_nonneg hm0']
    calc (m : ℝ) * |θ' - θ| ≤ m * (θ / 2 ^ 51) := by gcongr
      _ = m * θ / 2 ^ 51 := by ring
      _ ≤ 4 / 2 ^ 51 := by gcongr; linarith
  have h2 := fl_step F.nearest h1 (B := 5) (by
    rw [abs_of_nonneg (by positivity)]
    norm_num; linarith)
  generalize F.fl (m * θ') = x at h2
  have hc := le_trans (Real.abs_cos_sub_cos_le x (m * θ)) h2
  have hs := le_trans (Real.abs_sin_sub_sin_le x (m * θ)) h2
  have hc' : |F.cos x - Real.cos (m * θ)| ≤ 4 / 2 ^ 50 := by
    have e : F.cos x - Real.cos (m * θ) = (F.cos x - Real.cos x) + (Real.cos x - Real.cos (m * θ)) := by
      ring
    rw [e]
    refine le_trans (abs_add_le _ _) (le_trans (add_le_add (F.cos_near x) hc) ?_)
    norm_num
  have hs' : |F.sin x - Real.sin (m * θ)| ≤ 4 / 2 ^ 50 := by
    have e : F.sin x - Real.sin (m * θ) = (F.sin x - Real.sin x) + (Real.sin x - Real.sin (m * θ)) := by
      ring
    rw [e]
    refine le_trans (abs_add_le _ _) (le_trans (add_le_add (F.sin_near x) hs) ?_)
    norm_num
  refine le_trans (Complex.norm_le_abs_re_add_abs_im _) ?_
  rw [Complex.sub_re, Complex.sub_im, cis_re, cis_im]
  norm_num at hc' hs' ⊢
  linarith

/-- One Fourier coefficient, relative to the product of the entries of the plane. -/
theorem kernelFourierF_near (F : FftLib) {L spin m a : ℤ} {θ' θ : ℝ} {reality : Bool}
    (hL1 : L ≤ 2 ^ 26) (hs : |spin| < L) (hm : |m| < L) (a0 : 0 ≤ a) (a1 : a < L) (hθ0 : 0 ≤ θ)
    (hLθ : (L - 1 : ℝ) * θ ≤ Real.pi) (hθ : |θ' - θ| ≤ θ / 2 ^ 51) (delta : ℤ → ℤ → ℝ) :
    ‖kernelFourierF F L spin (L - 1 - spin) θ' reality delta a (m + L - 1 - mStart L reality)
      - (delta (a + L - 1) (m + L - 1) * delta (a + L - 1) (-spin + L - 1) : ℝ)
        * Complex.I ^ (-spin - m) * cis (a * θ)‖
      ≤ 15 * L / 2 ^ 50 * |delta (a + L - 1) (m + L - 1) * delta (a + L - 1) (-spin + L - 1)|
        + 5 / 2 ^ 1000 := by
  have hL : 1 ≤ L := by have := abs_nonneg m; omega
  have hL' : (1 : ℝ) ≤ L := by exact_mod_cast hL
  have hL2 : (L : ℝ) ≤ 2 ^ 26 := by exact_mod_cast hL1
  unfold kernelFourierF
  rw [show mStart L reality + (m + L - 1 - mStart L reality) = m + L - 1 by ring,
    show L - 1 - spin = -spin + L - 1 by ring, show L - 1 + a = a + L - 1 by ring,
    show -spin - (-L + 1 + (m + L - 1)) = -spin - m by ring,
    show -L + 1 + (a + L - 1) = a by ring]
  generalize delta (a + L - 1) (m + L - 1) = x
  generalize delta (a + L - 1) (-spin + L - 1) = y
  have s0 := F.mul_near (x : ℂ) (y : ℂ)
  rw [← Complex.ofReal_mul, ← norm_mul, ← Complex.ofReal_mul, Complex.norm_real, Real.norm_eq_abs] at s0
  have hk : |((-spin - m : ℤ) : ℝ)| + 1 ≤ 2 * L := by
    have h1 := abs_lt.1 hs
    have h2 := abs_lt.1 hm
    rw [← Int.cast_abs]
    have : |(-spin - m)| + 1 ≤ 2 * L := by
      have : |(-spin - m)| ≤ 2 * L - 1 := by rw [abs_le]; omega
      omega
    exact_mod_cast this
  have hip : ‖F.ipow (-spin - m) - Complex.I ^ (-spin - m)‖ ≤ 2 * L / 2 ^ 50 := by
    refine le_trans (F.ipow_near _) ?_
    gcongr
  have s1 := mul_stepF F s0 hip (norm_I_zpow _)
  have ha : (a : ℝ) * θ ≤ Real.pi := by
    have : (a : ℝ) ≤ L - 1 := by
      have : a ≤ L - 1 := by omega
      exact_mod_cast this
    exact le_trans (mul_le_mul_of_nonneg_right this hθ0) hLθ
  have s2 := mul_stepF F s1 (expIF_near F.toDoubleLib a0 (by omega) hθ0 ha hθ) (norm_cis _)
  refine le_trans s2 ?_
  rw [norm_mul, norm_I_zpow, mul_one, Complex.norm_real, Real.norm_eq_abs]
  have hτ := abs_nonneg (x * y)
  generalize |x * y| = τ at hτ
  have hu : (0 : ℝ) ≤ 1 / 2 ^ 1000 := by positivity
  rw [show (5 : ℝ) / 2 ^ 1000 = 5 * (1 / 2 ^ 1000) by ring]
  generalize (1 : ℝ) / 2 ^ 1000 = u at hu
  -- the error after the second product
  have b1 : (τ + (τ / 2 ^ 50 + u)) * (1 + 2 * L / 2 ^ 50) / 2 ^ 50 + u
      + (τ / 2 ^ 50 + u) * (1 + 2 * L / 2 ^ 50) + τ * (2 * L / 2 ^ 50)
      ≤ (2 * L + 3) / 2 ^ 50 * τ + 3 * u := by
    have hd : (2 : ℝ) * L / 2 ^ 50 ≤ 1 / 8 := by
      rw [div_le_div_iff₀ (by positivity) (by positivity)]; norm_num at hL2 ⊢; linarith
    have hd0 : (0 : ℝ) ≤ 2 * L / 2 ^ 50 := by positivity
    have e3 : (2 * (L : ℝ) + 3) / 2 ^ 50 * τ = 2 * L / 2 ^ 50 * τ + 3 / 2 ^ 50 * τ := by ring
    rw [e3]
    generalize (2 : ℝ) * L / 2 ^ 50 = d at hd hd0
    have c1 : (τ + (τ / 2 ^ 50 + u)) * (1 + d) / 2 ^ 50 ≤ (τ + (τ / 2 ^ 50 + u)) * (1 + 1 / 8) / 2 ^ 50 := by
      gcongr
    have c2 : (τ / 2 ^ 50 + u) * (1 + d) ≤ (τ / 2 ^ 50 + u) * (1 + 1 / 8) := by gcongr
    norm_num at c1 c2 ⊢
    linarith
  generalize (τ + (τ / 2 ^ 50 + u)) * (1 + 2 * L / 2 ^ 50) / 2 ^ 50 + u
      + (τ / 2 ^ 50 + u) * (1 + 2 * L / 2 ^ 50) + τ * (2 * L / 2 ^ 50) = r at b1
  have b2 : (2 * (L : ℝ) + 3) / 2 ^ 50 * τ ≤ 5 * L / 2 ^ 50 * τ := by gcongr; linarith
  have b3 : (5 : ℝ) * L / 2 ^ 50 * τ ≤ 5 * 2 ^ 26 / 2 ^ 50 * τ := by gcongr
  have b4 : (1 : ℝ) / 2 ^ 50 * τ ≤ L / 2 ^ 50 * τ := by gcongr
  have e5 : (5 : ℝ) * L / 2 ^ 50 * τ = 5 * (L / 2 ^ 50 * τ) := by ring
  have e6 : (15 : ℝ) * L / 2 ^ 50 * τ = 15 * (L / 2 ^ 50 * τ) := by ring
  have e7 : (2 * (L : ℝ) + 3) / 2 ^ 50 * τ = 2 * (L / 2 ^ 50 * τ) + 3 * (1 / 2 ^ 50 * τ) := by ring
  rw [e6]
  rw [e5] at b2 b3
  rw [e7] at b1 b2
  generalize (L : ℝ) / 2 ^ 50 * τ = w at *
  norm_num at *
  linarith

/-- `irfft` is bounded in the mean of its coefficients. -/
theorem irfft_fwd_near {h n : ℤ} (hh : 1 ≤ h) (hn : 2 * h ≤ n + 1) (hn' : n % 2 = 0 → 2 * h ≤ n)
    (a b : ℤ → ℂ) (p : ℤ) : |(irfft_fwd h a n p).re - (irfft_fwd h b n p).re|
      ≤ 2 * ∑ k ∈ Finset.Ico 0 h, ‖a k - b k‖ := by
  rw [irfft_fwd_short hh hn hn', irfft_fwd_short hh hn hn', sum_Ico_bot (by omega : (0 : ℤ) < h)]
  have e : (a 0).re + ∑ k ∈ Finset.Ico 1 h, 2 * (a k * cis (2 * Real.pi * k * p / n)).re
      - ((b 0).re + ∑ k ∈ Finset.Ico 1 h, 2 * (b k * cis (2 * Real.pi * k * p / n)).re)
      = (a 0 - b 0).re + ∑ k ∈ Finset.Ico 1 h, 2 * ((a k - b k) * cis (2 * Real.pi * k * p / n)).re := by
    simp only [sub_mul, Complex.sub_re, mul_sub, Finset.sum_sub_distrib]; ring
  rw [e, mul_add, Finset.mul_sum]
  refine le_trans (abs_add_le _ _) (add_le_add ?_ (le_trans (Finset.abs_sum_le_sum_abs _ _)
    (Finset.sum_le_sum fun k _ => ?_)))
  · linarith [Complex.abs_re_le_norm (a 0 - b 0), norm_nonneg (a 0 - b 0)]
  · rw [abs_mul, abs_two]
    have := Complex.abs_re_le_norm ((a k - b k) * cis (2 * Real.pi * k * p / n))
    rw [norm_mul, norm_cis, mul_one] at this
    linarith

/-- The assumptions on the accuracy `E`: it covers the planes of the Risbo recursion and a rounding
error for each order. -/
def Covers (L : ℤ) (E : ℝ) : Prop :=
  (∀ el, 0 ≤ el → el < L → risboErr el ≤ E) ∧ (L : ℝ) / 2 ^ 44 ≤ E ∧ E ≤ 1 / 16

/-- One row of the kernel, before the normalisation. -/
theorem kernelDlF_near (F : FftLib) {L spin nt n : ℤ} {θ : ℤ → ℝ} {θ' E : ℝ} {reality : Bool}
    (hL : 1 ≤ L) (hL1 : L ≤ 2 ^ 26) (hE : Covers L E) (hg : UniformGrid L nt n θ) (hn : n ≤ 4 * L)
    (hnt : nt ≤ n) (hθ0 : 0 ≤ θ 0) (hLθ : (L - 1 : ℝ) * θ 0 ≤ Real.pi) (hθ : |θ' - θ 0| ≤ θ 0 / 2 ^ 51)
    {delta : ℤ → ℤ → ℝ} {el : ℤ} (h0 : 0 ≤ el) (h1 : el < L)
    (hd : HoldsNear delta L el (Real.pi / 2)) (hs : |spin| < L) {t m : ℤ} (t0 : 0 ≤ t) (t1 : t < nt)
    (hm : |m| < L) :
    |F.irfft L (fun a => kernelFourierF F L spin (L - 1 - spin) θ' reality delta a
      (m + L - 1 - mStart L reality)) n t - wignerd el m (-spin) (θ t)| ≤ 5 * E := by
  obtain ⟨hE1, hE2, hE3⟩ := hE
  have hL' : (1 : ℝ) ≤ L := by exact_mod_cast hL
  have hm' := abs_lt.1 hm
  have hE0 : 0 < E := lt_of_lt_of_le (by positivity) hE2
  have exact : (irfft_fwd L (fun a => kernelFourier L spin (L - 1 - spin) (θ 0) reality
      (fun x y => wignerd el (x - L + 1) (y - L + 1) (Real.pi / 2)) a
      (m + L - 1 - mStart L reality)) n t).re = wignerd el m (-spin) (θ t) :=
    kernelFourier_is hL hg h0 h1 (fun x y _ _ => by
      rw [show x + L - 1 - L + 1 = x by ring, show y + L - 1 - L + 1 = y by ring]) hs t0 t1 hm'.1 hm'.2
  have hval : ∀ a : ℤ, kernelFourier L spin (L - 1 - spin) (θ 0) reality
      (fun x y => wignerd el (x - L + 1) (y - L + 1) (Real.pi / 2)) a (m + L - 1 - mStart L reality)
      = (wignerd el a m (Real.pi / 2) * wignerd el a (-spin) (Real.pi / 2) : ℝ)
        * Complex.I ^ (-spin - m) * cis (a * θ 0) := by
    intro a
    unfold kernelFourier
    beta_reduce
    rw [show mStart L reality + (m + L - 1 - mStart L reality) = m + L - 1 by ring,
      show L - 1 - spin - L + 1 = -spin by ring, show L - 1 + a - L + 1 = a by ring,
      show m + L - 1 - L + 1 = m by ring,
      show -spin - (-L + 1 + (m + L - 1)) = -spin - m by ring,
      show -L + 1 + (L - 1 + a) = a by ring]
    push_cast; ring
  have hprod := hd.products h0 h1 (hE1 el h0 h1) m (-spin)
  have hex := wignerd_products h0 h1 (Real.pi / 2) m (-spin)
  set P : ℤ → ℂ := fun a => kernelFourierF F L spin (L - 1 - spin) θ' reality delta a
      (m + L - 1 - mStart L reality) with hP
  set Q : ℤ → ℂ := fun a => (wignerd el a m (Real.pi / 2) * wignerd el a (-spin) (Real.pi / 2) : ℝ)
        * Complex.I ^ (-spin - m) * cis (a * θ 0) with hQ
  have exact' : (irfft_fwd L Q n t).re = wignerd el m (-spin) (θ t) := by
    rw [← exact]
    congr 2
    funext a
    exact (hval a).symm
  have term : ∀ a ∈ Finset.Ico 0 L, ‖P a - Q a‖ ≤
      15 * L / 2 ^ 50 * |delta (a + L - 1) (m + L - 1) * delta (a + L - 1) (-spin + L - 1)|
        + 5 / 2 ^ 1000 + |delta (a + L - 1) (m + L - 1) * delta (a + L - 1) (-spin + L - 1)
          - wignerd el a m (Real.pi / 2) * wignerd el a (-spin) (Real.pi / 2)| := by
    intro a ha
    rw [Finset.mem_Ico] at ha
    have k1 := kernelFourierF_near F (reality := reality) hL1 hs hm ha.1 ha.2 hθ0 hLθ hθ delta
    have e : P a - Q a = (P a - (delta (a + L - 1) (m + L - 1) * delta (a + L - 1) (-spin + L - 1) : ℝ)
        * Complex.I ^ (-spin - m) * cis (a * θ 0))
        + ((delta (a + L - 1) (m + L - 1) * delta (a + L - 1) (-spin + L - 1)
          - wignerd el a m (Real.pi / 2) * wignerd el a (-spin) (Real.pi / 2) : ℝ)
          * Complex.I ^ (-spin - m) * cis (a * θ 0)) := by
      simp only [hQ]; push_cast; ring
    rw [e]
    refine le_trans (norm_add_le _ _) (add_le_add k1 (le_of_eq ?_))
    rw [norm_mul, norm_mul, norm_cis, norm_I_zpow, mul_one, mul_one, Complex.norm_real, Real.norm_eq_abs]
  have hcard : ((Finset.Ico 0 L).card : ℝ) = L := by
    rw [Int.card_Ico, sub_zero]
    exact_mod_cast Int.toNat_of_nonneg (by omega : 0 ≤ L)
  have hu : (L : ℝ) / 2 ^ 1000 ≤ E / 2 ^ 900 := by
    have : (L : ℝ) / 2 ^ 1000 = L / 2 ^ 44 / 2 ^ 956 := by rw [div_div, ← pow_add]
    rw [this]
    gcongr
    · norm_num
    · norm_num
  have hu2 : E / 2 ^ 900 ≤ E / 2 ^ 10 := by
    gcongr
    · norm_num
    · norm_num
  have sumPQ : ∑ a ∈ Finset.Ico 0 L, ‖P a - Q a‖ ≤ 12 / 5 * E := by
    refine le_trans (Finset.sum_le_sum term) ?_
    rw [Finset.sum_add_distrib, Finset.sum_add_distrib, ← Finset.mul_sum, Finset.sum_const,
      nsmul_eq_mul, hcard]
    have c1 : 15 * (L : ℝ) / 2 ^ 50 * ∑ a ∈ Finset.Ico 0 L,
        |delta (a + L - 1) (m + L - 1) * delta (a + L - 1) (-spin + L - 1)| ≤ 15 / 64 * E * (1 / 16 + 1) ^ 2 := by
      refine mul_le_mul ?_ (le_trans hprod.2 (by gcongr)) (Finset.sum_nonneg fun _ _ => abs_nonneg _)
        (by positivity)
      norm_num at hE2 ⊢
      linarith
    have c2 : (L : ℝ) * (5 / 2 ^ 1000) = 5 * (L / 2 ^ 1000) := by ring
    rw [c2]
    have c3 := hprod.1
    have c4 : E * (E + 1) + E ≤ E * (1 / 16 + 1) + E := by gcongr
    norm_num at c1 hu2 ⊢
    linarith
  have sumQ : ∑ a ∈ Finset.Ico 0 L, ‖Q a‖ ≤ 1 := by
    refine le_trans (le_of_eq (Finset.sum_congr rfl fun a _ => ?_)) hex
    simp only [hQ]
    rw [norm_mul, norm_mul, norm_cis, norm_I_zpow, mul_one, mul_one, Complex.norm_real, Real.norm_eq_abs]
  have sumP : ∑ a ∈ Finset.Ico 0 L, 2 * ‖P a‖ ≤ 23 / 10 := by
    rw [← Finset.mul_sum]
    have : ∑ a ∈ Finset.Ico 0 L, ‖P a‖ ≤ ∑ a ∈ Finset.Ico 0 L, (‖Q a‖ + ‖P a - Q a‖) := by
      refine Finset.sum_le_sum fun a _ => ?_
      have := norm_sub_norm_le (P a) (Q a)
      linarith
    rw [Finset.sum_add_distrib] at this
    linarith
  have i1 := irfft_fwd_near hL hg.1 hg.2.1 P Q t
  have i2 := F.irfft_near L P n t (by omega) t0 (by omega)
  rw [exact'] at i1
  have hn' : (n : ℝ) ≤ 4 * L := by exact_mod_cast hn
  have i3 : (n : ℝ) / 2 ^ 50 * (∑ k ∈ Finset.Ico 0 L, 2 * ‖P k‖) ≤ 4 / 64 * E * (23 / 10) := by
    refine mul_le_mul ?_ sumP (Finset.sum_nonneg fun _ _ => by positivity) (by positivity)
    norm_num at hE2 ⊢
    linarith
  have i4 : (n : ℝ) / 2 ^ 1000 ≤ 4 * (L / 2 ^ 1000) := by
    rw [← mul_div_assoc]; gcongr
  have tri := abs_sub_le (F.irfft L P n t) (irfft_fwd L P n t).re (wignerd el m (-spin) (θ t))
  norm_num at hu2 i3 ⊢
  linarith

/-! ## The kernel -/

/-- The normalisation in double precision. -/
theorem elfactorF_near (F : DoubleLib) {el : ℤ} (h0 : 0 ≤ el) (h1 : el ≤ 2 ^ 40) :
    |elfactorF F el - elfactor el| ≤ elfactor el / 2 ^ 50 := by
  have hf := F.nearest
  have hel : (0 : ℝ) ≤ el := by exact_mod_cast h0
  have hpi := Real.pi_pos
  have hpi2 := Real.two_le_pi
  have hpi4 := Real.pi_le_four
  unfold elfactorF elfactor
  rw [fl_int hf (by rw [abs_of_nonneg (by omega)]; omega)]
  obtain ⟨x, hx, ex, lx⟩ := fl_rel_pos hf (x := Real.pi) (c := 2) hpi2 (by norm_num)
  obtain ⟨y, hy, ey, ly⟩ := fl_rel_pos hf (x := 4 * F.fl Real.pi) (c := 4) (by linarith) (by norm_num)
  have y1 := rel_step (X := 1) (e := 0) (by simp) (by norm_num) hx
  have y2 := rel_step y1 (by norm_num) hy
  have hY : F.fl (4 * F.fl Real.pi) = 4 * Real.pi * (1 * (1 + x) * (1 + y)) := by rw [ey, ex]; ring
  rw [hY]
  generalize 1 * (1 + x) * (1 + y) = Y at y2
  have hY1 := abs_le.1 y2
  have hY2 : (7 : ℝ) / 8 ≤ Y := by norm_num at hY1 ⊢; linarith
  have hY3 : Y ≤ 9 / 8 := by norm_num at hY1 ⊢; linarith
  have hr : (1 : ℝ) / 16 ≤ (2 * el + 1 : ℝ) / (4 * Real.pi) := by
    rw [div_le_div_iff₀ (by norm_num) (by positivity)]; linarith
  have e1 : ((2 * el + 1 : ℤ) : ℝ) / (4 * Real.pi * Y) = (2 * el + 1 : ℝ) / (4 * Real.pi) / Y := by
    push_cast; rw [div_div]
  rw [e1]
  generalize (2 * el + 1 : ℝ) / (4 * Real.pi) = r at hr
  obtain ⟨z, hz, ez, -⟩ := fl_rel_pos hf (x := r / Y) (c := 1 / 32) (by
    rw [div_le_div_iff₀ (by norm_num) (by linarith)]; linarith) (by norm_num)
  rw [ez, show r / Y * (1 + z) = r * ((1 + z) / Y) by ring, Real.sqrt_mul (by linarith)]
  have hX : |(1 + z) / Y - 1| ≤ 5 / 2 ^ 53 := by
    rw [div_sub_one (by linarith), abs_div, abs_of_pos (by linarith : 0 < Y), div_le_iff₀ (by linarith)]
    have : |1 + z - Y| ≤ 1 / 2 ^ 53 + (0 + 5 / 4 * (1 / 2 ^ 53) + 5 / 4 * (1 / 2 ^ 53)) := by
      rw [show 1 + z - Y = z + -(Y - 1) by ring]
      refine le_trans (abs_add_le _ _) ?_
      rw [abs_neg]
      exact add_le_add hz y2
    norm_num at this ⊢
    linarith
  generalize (1 + z) / Y = X at hX
  have hX1 := abs_le.1 hX
  have hX2 : (1 : ℝ) / 4 ≤ X := by norm_num at hX1 ⊢; linarith
  have hsX : |√X - 1| ≤ 5 / 2 ^ 53 := by
    have h0 := Real.sqrt_nonneg X
    have h2 : (√X - 1) * (√X + 1) = X - 1 := by
      have := Real.mul_self_sqrt (by linarith : 0 ≤ X)
      linarith
    have h3 : |√X - 1| * (√X + 1) = |X - 1| := by
      rw [← h2, abs_mul, abs_of_nonneg (by linarith : 0 ≤ √X + 1)]
    have h4 : |√X - 1| ≤ |√X - 1| * (√X + 1) := le_mul_of_one_le_right (abs_nonneg _) (by linarith)
    linarith
  have hsr : (1 : ℝ) / 4 ≤ √r := by
    rw [Real.le_sqrt' (by norm_num)]; norm_num; linarith
  have hsX2 : (1 : ℝ) / 2 ≤ √X := by
    rw [Real.le_sqrt' (by norm_num)]; norm_num; linarith
  obtain ⟨w, hw, ew, -⟩ := fl_rel_pos hf (x := √r * √X) (c := 1 / 8) (by nlinarith) (by norm_num)
  have y3 := rel_step hsX (by norm_num) hw
  rw [ew, show √r * √X * (1 + w) - √r = √r * (√X * (1 + w) - 1) by ring, abs_mul,
    abs_of_nonneg (Real.sqrt_nonneg r), div_eq_mul_inv]
  refine mul_le_mul_of_nonneg_left (le_trans y3 (by norm_num)) (Real.sqrt_nonneg r)

theorem elfactor_ge {el : ℤ} (h0 : 0 ≤ el) : 1 / 4 ≤ elfactor el := by
  have hel : (0 : ℝ) ≤ el := by exact_mod_cast h0
  have hpi4 := Real.pi_le_four
  unfold elfactor
  rw [Real.le_sqrt' (by norm_num), div_pow, div_le_div_iff₀ (by norm_num) (by positivity)]
  linarith

/-- A kernel of the exact values up to `ε`, relative to the normalisation. -/
def KernelNearF (K : ℤ → ℤ → ℤ → ℝ) (L spin nt : ℤ) (reality : Bool) (θ : ℤ → ℝ) (ε : ℝ) : Prop :=
  ∀ t el m, 0 ≤ t → t < nt → 0 ≤ el → el < L → |m| < L →
    |K t el (m + L - 1 - mStart L reality) - elfactor el * wignerd el m (-spin) (θ t)|
      ≤ elfactor el * ε

/-- The functions before the normalisation, for the degrees below `hi`. -/
def DlNear (dl : ℤ → ℤ → ℤ → ℝ) (L spin nt : ℤ) (reality : Bool) (θ : ℤ → ℝ) (ε : ℝ) (hi : ℤ) : Prop :=
  ∀ t el m, 0 ≤ t → t < nt → 0 ≤ el → el < hi → |m| < L →
    |dl t el (m + L - 1 - mStart L reality) - wignerd el m (-spin) (θ t)| ≤ ε

theorem DlNear.step {dl : ℤ → ℤ → ℤ → ℝ} {L spin nt hi : ℤ} {reality : Bool} {θ : ℤ → ℝ} {ε : ℝ}
    (h : DlNear dl L spin nt reality θ ε hi) {v : ℤ → ℤ → ℝ}
    (hv : ∀ t m, 0 ≤ t → t < nt → |m| < L →
      |v t (m + L - 1 - mStart L reality) - wignerd hi m (-spin) (θ t)| ≤ ε) :
    DlNear (setDegree dl hi v) L spin nt reality θ ε (hi + 1) := by
  intro t el m t0 t1 e0 e1 hm
  unfold setDegree
  split_ifs with he
  · subst he; exact hv t m t0 t1 hm
  · exact h t el m t0 t1 e0 (by omega) hm

theorem Covers.pos {L : ℤ} {E : ℝ} (hL : 1 ≤ L) (h : Covers L E) : 1 / 2 ^ 44 ≤ E := by
  have hL' : (1 : ℝ) ≤ L := by exact_mod_cast hL
  refine le_trans ?_ h.2.1
  gcongr

/-- The normalisation of the functions. -/
theorem DlNear.kernel (F : DoubleLib) {dl : ℤ → ℤ → ℤ → ℝ} {L spin nt : ℤ} {reality : Bool}
    {θ : ℤ → ℝ} {ε : ℝ} (hL1 : L ≤ 2 ^ 40) (hε : ε ≤ 1 / 2) (h : DlNear dl L spin nt reality θ ε L) :
    KernelNearF (fun t el j => F.fl (dl t el j * elfactorF F el)) L spin nt reality θ
      (ε + 4 / 2 ^ 50) := by
  intro t el m t0 t1 e0 e1 hm
  have h1 := h t el m t0 t1 e0 e1 hm
  have h2 := elfactorF_near F e0 (by omega)
  have hg := elfactor_ge e0
  have hw := wignerd_abs_le_one el m (-spin) (θ t)
  beta_reduce
  generalize dl t el (m + L - 1 - mStart L reality) = x at *
  generalize wignerd el m (-spin) (θ t) = d at *
  generalize elfactorF F el = g' at *
  generalize elfactor el = g at *
  have hx : |x| ≤ 3 / 2 := by
    have := abs_sub_abs_le_abs_sub x d
    linarith
  have h3 : |x * g' - g * d| ≤ g * ε + 3 / 2 * (g / 2 ^ 50) := by
    rw [show x * g' - g * d = x * (g' - g) + g * (x - d) by ring]
    refine le_trans (abs_add_le _ _) ?_
    rw [abs_mul, abs_mul, abs_of_pos (by linarith : 0 < g)]
    have a1 : |x| * |g' - g| ≤ 3 / 2 * (g / 2 ^ 50) := by gcongr
    have a2 : g * |x - d| ≤ g * ε := by gcongr
    linarith
  have h4 := fl_step F.nearest h3 (B := 2 * g) (by
    rw [abs_mul, abs_of_pos (by linarith : 0 < g)]
    have a1 : g * |d| ≤ g * 1 := by gcongr
    have a2 : g * ε ≤ g * (1 / 2) := by gcongr
    norm_num
    linarith) (by norm_num; linarith)
  refine le_trans h4 ?_
  rw [mul_add]
  norm_num
  linarith

/-- The angle `np.pi / 2`. -/
theorem halfPiF (F : DoubleLib) : 0 ≤ F.fl (F.fl Real.pi / 2) ∧
    F.fl (F.fl Real.pi / 2) ≤ F.fl Real.pi ∧ |F.fl (F.fl Real.pi / 2)| ≤ 4 ∧
    |F.fl (F.fl Real.pi / 2) - Real.pi / 2| ≤ 1 / 2 ^ 50 := by
  obtain ⟨p1, p2⟩ := flPi_bounds F
  have hpi : |F.fl Real.pi - Real.pi| ≤ 4 / 2 ^ 53 := by
    refine fl_near F.nearest ?_
    rw [abs_of_pos Real.pi_pos]; exact Real.pi_le_four
  have h4 := flPi_le_four F
  have hhalf : |F.fl (F.fl Real.pi / 2) - F.fl Real.pi / 2| ≤ 2 / 2 ^ 53 := by
    refine fl_near F.nearest ?_
    rw [abs_of_pos (by linarith)]; linarith
  obtain ⟨q1, q2⟩ := abs_le.1 hhalf
  have hb0 : 0 ≤ F.fl (F.fl Real.pi / 2) := fl_nonneg F.nearest (by linarith)
  have hb' : F.fl (F.fl Real.pi / 2) ≤ F.fl Real.pi := by norm_num at q2; linarith
  refine ⟨hb0, hb', by rw [abs_of_nonneg hb0]; linarith, ?_⟩
  obtain ⟨r1, r2⟩ := abs_le.1 hpi
  rw [abs_le]
  norm_num at q1 q2 r1 r2 ⊢
  constructor <;> linarith

/-- The uniform branch. -/
theorem kernelRisboFourierF_near (F : FftLib) {L spin nt : ℤ} {s : PyStr} {θ θ' : ℤ → ℝ} {E : ℝ}
    {reality : Bool} (hL : 1 ≤ L) (hL1 : L ≤ 2 ^ 26) (hE : Covers L E)
    (hg : UniformGrid L nt (kernelSamps s nt) θ) (hn : kernelSamps s nt ≤ 4 * L)
    (hnt : nt ≤ kernelSamps s nt) (hθ0 : 0 ≤ θ 0) (hLθ : (L - 1 : ℝ) * θ 0 ≤ Real.pi)
    (hθ : |θ' 0 - θ 0| ≤ θ 0 / 2 ^ 51) (hs : |spin| < L) :
    ∃ dl, kernelRisboFourierF F L spin (L - 1 - spin) s nt θ' reality = .ok dl ∧
      DlNear dl L spin nt reality θ (5 * E) L := by
  obtain ⟨b0, b1, b2, b3⟩ := halfPiF F.toDoubleLib
  unfold kernelRisboFourierF
  obtain ⟨s', e, h⟩ := forRangeM_ind (show (0 : ℤ) ≤ L by omega)
    (fun el (st : (ℤ → ℤ → ℝ) × (ℤ → ℤ → ℤ → ℝ)) => do
      let delta ← risboFullF F.toDoubleLib (2 * L - 1) (2 * L - 1) st.1 (F.fl (F.fl Real.pi / 2)) L el
      pure (delta, setDegree st.2 el (fun t j =>
        F.irfft L (fun a => kernelFourierF F L spin (L - 1 - spin) (θ' 0) reality delta a j)
          (kernelSamps s nt) t)))
    (fun _ _ => 0, fun _ _ _ => 0)
    (fun el st => (if el = 0 then ∀ m n : ℤ, st.1 (m + L - 1) (n + L - 1) = 0
        else HoldsNear st.1 L (el - 1) (Real.pi / 2)) ∧
      DlNear st.2 L spin nt reality θ (5 * E) el)
    ⟨by simp, fun t el m _ _ a b => absurd a (by omega)⟩
    (fun el st h1 h2 h3 => by
      have hs' := risboStepF_near F.toDoubleLib h1 (by omega) b2 b3 h3.1
      refine ⟨(risboStepF F.toDoubleLib st.1 (F.fl (F.fl Real.pi / 2)) L el, setDegree st.2 el
        (fun t j => F.irfft L (fun a => kernelFourierF F L spin (L - 1 - spin) (θ' 0) reality
          (risboStepF F.toDoubleLib st.1 (F.fl (F.fl Real.pi / 2)) L el) a j)
          (kernelSamps s nt) t)), ?_, ?_, ?_⟩
      · simp [risboFullF, risboArgChecksF, h1, h2, b0, b1, bind, Except.bind, pure, Except.pure]
      · rw [if_neg (by omega), add_sub_cancel_right]; exact hs'
      · exact h3.2.step fun t m t0 t1 hm =>
          kernelDlF_near F hL hL1 hE hg hn hnt hθ0 hLθ hθ h1 h2 hs' hs t0 t1 hm)
  exact ⟨s'.2, by rw [e]; rfl, h.2⟩

/-- The direct branch, at the angles given. -/
theorem kernelRisboDirectF_near (F : DoubleLib) {L spin nt : ℤ} {θ' : ℤ → ℝ} {E : ℝ} {reality : Bool}
    (hL : 1 ≤ L) (hL1 : L ≤ 2 ^ 26) (hE : Covers L E)
    (hθ : ∀ t, 0 ≤ t → t < nt → |θ' t| ≤ 4) :
    DlNear (kernelRisboDirectF F L (L - 1 - spin) θ' reality) L spin nt reality θ' E L := by
  unfold kernelRisboDirectF
  have := forRange_ind (show (0 : ℤ) ≤ L by omega)
    (fun el (st : (ℤ → ℤ → ℤ → ℝ) × (ℤ → ℤ → ℤ → ℝ)) =>
      let delta := risboFullVecF F st.1 θ' L el
      (delta, setDegree st.2 el (fun t j => delta t (mStart L reality + j) (L - 1 - spin))))
    (fun _ _ _ => 0, fun _ _ _ => 0)
    (fun el st => (∀ t, 0 ≤ t → t < nt → if el = 0 then ∀ m n : ℤ, st.1 t (m + L - 1) (n + L - 1) = 0
        else HoldsNear (st.1 t) L (el - 1) (θ' t)) ∧
      DlNear st.2 L spin nt reality θ' E el)
    ⟨by simp, fun t el m _ _ a b => absurd a (by omega)⟩
    (fun el st h1 h2 h3 => by
      have hs' : ∀ t, 0 ≤ t → t < nt → HoldsNear (risboFullVecF F st.1 θ' L el t) L el (θ' t) := by
        intro t t0 t1
        rw [risboFullVecF_at]
        exact risboStepF_near F h1 (by omega) (hθ t t0 t1) (by simp) (h3.1 t t0 t1)
      refine ⟨fun t t0 t1 => ?_, h3.2.step fun t m t0 t1 hm => ?_⟩
      · rw [if_neg (by omega), add_sub_cancel_right]; exact hs' t t0 t1
      · rw [show mStart L reality + (m + L - 1 - mStart L reality) = m + L - 1 by ring,
          show L - 1 - spin = -spin + L - 1 by ring]
        exact le_trans ((hs' t t0 t1).entry h1 m (-spin)) (hE.1 el h1 h2))
  exact this.2

theorem covers_sqrt {L : ℤ} (hL : 1 ≤ L) (hL1 : L ≤ 2 ^ 26) : Covers L (L * √L / 2 ^ 44) := by
  have hL' : (1 : ℝ) ≤ L := by exact_mod_cast hL
  have hL2 : (L : ℝ) ≤ 2 ^ 26 := by exact_mod_cast hL1
  have h1 : 1 ≤ √(L : ℝ) := by rw [Real.le_sqrt' (by norm_num)]; linarith
  have h2 : √(L : ℝ) ≤ 2 ^ 13 := by
    rw [Real.sqrt_le_left (by norm_num)]; norm_num at hL2 ⊢; exact hL2
  refine ⟨fun el h0 h => ?_, ?_, ?_⟩
  · unfold risboErr
    have : (el : ℝ) + 1 ≤ L := by exact_mod_cast (by omega : el + 1 ≤ L)
    have h0' : (0 : ℝ) ≤ el := by exact_mod_cast h0
    gcongr
  · gcongr; nlinarith
  · rw [div_le_iff₀ (by norm_num)]
    have : (L : ℝ) * √L ≤ 2 ^ 26 * 2 ^ 13 := by gcongr
    norm_num at this ⊢
    linarith

/-- The kernel on the uniform grids. -/
theorem kernelRisboF_near (F : FftLib) {L spin nt : ℤ} {s : PyStr} {θ θ' : ℤ → ℝ} {E : ℝ}
    {reality : Bool} (hs' : lower s = sMW ∨ lower s = sMWSS ∨ lower s = sDH) (hL : 1 ≤ L)
    (hL1 : L ≤ 2 ^ 26) (hE : Covers L E) (hg : UniformGrid L nt (kernelSamps s nt) θ)
    (hn : kernelSamps s nt ≤ 4 * L) (hnt : nt ≤ kernelSamps s nt) (hθ0 : 0 ≤ θ 0)
    (hLθ : (L - 1 : ℝ) * θ 0 ≤ Real.pi) (hθ : |θ' 0 - θ 0| ≤ θ 0 / 2 ^ 51) (hs : |spin| < L) :
    ∃ K, kernelRisboF F L spin s nt θ' reality = .ok K ∧
      KernelNearF K L spin nt reality θ (6 * E) := by
  obtain ⟨dl, e, h⟩ := kernelRisboFourierF_near F (reality := reality) hL hL1 hE hg hn hnt hθ0 hLθ hθ hs
  have hp := hE.pos hL
  have c1 : ¬ (lower s = sHP ∨ lower s = sGL) := by
    rcases hs' with h | h | h <;> rw [h] <;> decide
  refine ⟨fun t el j => F.fl (dl t el j * elfactorF F.toDoubleLib el), ?_,
    fun t el m t0 t1 e0 e1 hm => le_trans (h.kernel F.toDoubleLib (by omega) (by linarith [hE.2.2]) t el m t0 t1 e0 e1 hm) ?_⟩
  · unfold kernelRisboF
    rw [pyIndex_spin hs]
    simp only [bind, Except.bind, pure, Except.pure]
    rw [if_pos hs', e]
  · refine mul_le_mul_of_nonneg_left ?_ (by linarith [elfactor_ge e0])
    norm_num at hp ⊢
    linarith

/-- The kernel on the Gauss-Legendre grid, with colatitudes off by `τ`. -/
theorem kernelRisboF_near_gl (F : FftLib) {L spin nt : ℤ} {s : PyStr} {θ θ' : ℤ → ℝ} {E τ : ℝ}
    {reality : Bool} (hs' : lower s = sGL) (hL : 1 ≤ L)
    (hL1 : L ≤ 2 ^ 26) (hE : Covers L E) (hθ4 : ∀ t, 0 ≤ t → t < nt → |θ' t| ≤ 4)
    (hθ : ∀ t, 0 ≤ t → t < nt → |θ' t - θ t| ≤ τ) (hτ : L * τ ≤ 1 / 4) (hs : |spin| < L) :
    ∃ K, kernelRisboF F L spin s nt θ' reality = .ok K ∧
      KernelNearF K L spin nt reality θ (2 * E + L * τ) := by
  have h := kernelRisboDirectF_near F.toDoubleLib (spin := spin) (reality := reality) hL hL1 hE hθ4
  have hp := hE.pos hL
  have c1 : ¬ (lower s = sMW ∨ lower s = sMWSS ∨ lower s = sDH) := by rw [hs']; decide
  have h' : DlNear (kernelRisboDirectF F.toDoubleLib L (L - 1 - spin) θ' reality) L spin nt reality θ
      (E + L * τ) L := by
    intro t el m t0 t1 e0 e1 hm
    have h1 := h t el m t0 t1 e0 e1 hm
    have h2 := wignerd_lipschitz el m (-spin) e0 (θ' t) (θ t)
    have h3 : ((el : ℝ) + 1) * |θ' t - θ t| ≤ L * τ := by
      have : (el : ℝ) + 1 ≤ L := by exact_mod_cast (by omega : el + 1 ≤ L)
      have h0' : (0 : ℝ) ≤ el := by exact_mod_cast e0
      exact mul_le_mul this (hθ t t0 t1) (abs_nonneg _) (by linarith)
    have := abs_add_le (kernelRisboDirectF F.toDoubleLib L (L - 1 - spin) θ' reality t el
        (m + L - 1 - mStart L reality) - wignerd el m (-spin) (θ' t))
      (wignerd el m (-spin) (θ' t) - wignerd el m (-spin) (θ t))
    rw [sub_add_sub_cancel] at this
    linarith
  refine ⟨fun t el j => F.fl (kernelRisboDirectF F.toDoubleLib L (L - 1 - spin) θ' reality t el j
      * elfactorF F.toDoubleLib el), ?_,
    fun t el m t0 t1 e0 e1 hm => le_trans (h'.kernel F.toDoubleLib (by omega) (by linarith [hE.2.2]) t el m t0 t1 e0 e1 hm) ?_⟩
  · unfold kernelRisboF
    rw [pyIndex_spin hs]
    simp only [bind, Except.bind, pure, Except.pure]
    rw [if_neg c1, if_pos (Or.inr hs')]
  · refine mul_le_mul_of_nonneg_left ?_ (by linarith [elfactor_ge e0])
    norm_num at hp ⊢
    linarith

/-- The angles of the kernel. -/
theorem kernelThetasF_ok (F : DoubleLib) (lg nodes : ℤ → ℤ → ℝ) {σ : Scheme}
    (hσ : σ = .mw ∨ σ = .mwss ∨ σ = .dh) {s : PyStr} (hs : lower s = σ.name) {L n : ℤ}
    (hL : 1 ≤ L) (hL1 : L ≤ 2 ^ 39) (forward : Bool) :
    ∃ T, kernelThetasF F lg L s forward = .ok (kName σ s forward, kRings σ L n forward, T) ∧
      ∀ t, 0 ≤ t → t < kRings σ L n forward →
        |T t - kTheta nodes σ L n forward t| ≤ kTheta nodes σ L n forward t / 2 ^ 51 := by
  obtain ⟨T, e, h, -⟩ := C48_colatitudes F lg nodes σ hσ s hs L n none hL (by omega)
  cases forward with
  | false =>
    refine ⟨T, ?_, h⟩
    unfold kernelThetasF
    rw [if_neg (by simp), e]; rfl
  | true =>
    unfold kernelThetasF
    by_cases hR : σ.Resampled
    · obtain ⟨T', e', h', -⟩ := C48_colatitudes F lg nodes .mwss (by simp) sMWSS rfl (2 * L) n none
        (by omega) (by omega)
      have hc : lower s = sMW ∨ lower s = sMWSS := by
        rw [hs]; revert hR; cases σ <;> decide
      refine ⟨T', ?_, ?_⟩
      · rw [if_pos ⟨rfl, hc⟩, e']
        simp only [kName, kRings, if_true, innerName, innerRings, if_pos hR]
        rfl
      · simp only [kRings, kTheta, if_true, innerRings, innerTheta, if_pos hR]
        have hLr : (L : ℝ) ≠ 0 := by
          have : (1 : ℝ) ≤ L := by exact_mod_cast hL
          linarith
        have e2 : ∀ t, Scheme.theta nodes (2 * L) n t .mwss = t * Real.pi / (2 * L) := by
          intro t
          simp only [Scheme.theta]
          push_cast
          field_simp
        intro t t0 t1
        rw [← e2]
        exact h' t t0 t1
    · have hc : ¬ (lower s = sMW ∨ lower s = sMWSS) := by
        rw [hs]; revert hR; cases σ <;> decide
      refine ⟨T, ?_, ?_⟩
      · rw [if_neg (by tauto), e]
        simp only [kName, kRings, if_true, innerName, innerRings, if_neg hR]
        rfl
      · simp only [kRings, kTheta, if_true, innerRings, innerTheta, if_neg hR]
        exact h

theorem kGrid_bounds (nodes : ℤ → ℤ → ℝ) {σ : Scheme} (hσ : σ = .mw ∨ σ = .mwss ∨ σ = .dh)
    {s : PyStr} (hs : lower s = σ.name) {L : ℤ} (n : ℤ) (hL : 1 ≤ L) (forward : Bool) :
    kernelSamps (kName σ s forward) (kRings σ L n forward) ≤ 4 * L ∧
    kRings σ L n forward ≤ kernelSamps (kName σ s forward) (kRings σ L n forward) ∧
    0 ≤ kTheta nodes σ L n forward 0 ∧ (L - 1 : ℝ) * kTheta nodes σ L n forward 0 ≤ Real.pi ∧
    (lower (kName σ s forward) = sMW ∨ lower (kName σ s forward) = sMWSS
      ∨ lower (kName σ s forward) = sDH) := by
  have hLr : (1 : ℝ) ≤ L := by exact_mod_cast hL
  have hpi := Real.pi_pos
  have e1 : ¬ sMWSS = sMW := by decide
  have e2 : ¬ sDH = sMW := by decide
  have e3 : ¬ sDH = sMWSS := by decide
  have hR1 : Scheme.mw.Resampled := by decide
  have hR2 : Scheme.mwss.Resampled := by decide
  have hR3 : ¬ Scheme.dh.Resampled := by decide
  have n1 : Scheme.mw.name = sMW := rfl
  have n2 : Scheme.mwss.name = sMWSS := rfl
  have n3 : Scheme.dh.name = sDH := rfl
  have hmss : ∀ x : ℝ, Scheme.theta nodes L n 0 .mwss = 0 := by
    intro x; simp [Scheme.theta]
  have ls : lower sMWSS = sMWSS := rfl
  unfold kernelSamps
  rcases hσ with rfl | rfl | rfl <;> cases forward <;>
    simp only [kName, kRings, kTheta, innerName, innerRings, innerTheta, if_true, if_false,
      Bool.false_eq_true, if_pos hR1, if_pos hR2, if_neg hR3, hs, n1, n2, n3, e1, e2, e3, ls,
      Scheme.rings, Scheme.theta, Int.cast_zero, mul_zero, zero_mul, zero_div, zero_add, true_or,
      or_true, and_true, one_mul]
  · refine ⟨by omega, by omega, div_nonneg hpi.le (by linarith), ?_⟩
    rw [mul_div_assoc', div_le_iff₀ (by linarith)]
    nlinarith
  · exact ⟨by omega, by omega, le_rfl, hpi.le⟩
  · exact ⟨by omega, by omega, le_rfl, hpi.le⟩
  · exact ⟨by omega, by omega, le_rfl, hpi.le⟩
  · refine ⟨by omega, by omega, by positivity, ?_⟩
    rw [mul_div_assoc', div_le_iff₀ (by linarith)]
    nlinarith
  · refine ⟨by omega, by omega, by positivity, ?_⟩
    rw [mul_div_assoc', div_le_iff₀ (by linarith)]
    nlinarith

/-- The kernel before the weights, on the uniform grids. -/
theorem spinSphericalKernelF_near (F : FftLib) (lg nodes : ℤ → ℤ → ℝ) (w : ℤ → ℝ) {σ : Scheme}
    (hσ : σ = .mw ∨ σ = .mwss ∨ σ = .dh) {s : PyStr} (hs : lower s = σ.name) {L spin n : ℤ} {E : ℝ}
    (hv : σ.Valid L n) (hL1 : L ≤ 2 ^ 26) (hE : Covers L E) (hsp : |spin| < L) (reality forward : Bool) :
    ∃ K, spinSphericalKernelF F lg w L spin reality s forward
        = .ok (.d3 (kRings σ L n forward) L (mDim L (effReality reality spin))
            (if forward then fun t el j => F.fl (K t el j * w t) else K)) ∧
      KernelNearF K L spin (kRings σ L n forward) (effReality reality spin)
        (kTheta nodes σ L n forward) (6 * E) := by
  have hL := hv.1
  obtain ⟨T, e, h⟩ := kernelThetasF_ok F.toDoubleLib lg nodes hσ hs (n := n) hL (by omega) forward
  obtain ⟨g1, g2, g3, g4, g5⟩ := kGrid_bounds nodes hσ hs n hL forward
  have hu := kTheta_uniform nodes hs hv forward (by rintro rfl; simp at hσ) (by rintro rfl; simp at hσ)
  obtain ⟨K, eK, hK⟩ := kernelRisboF_near F (reality := effReality reality spin) (θ' := T) g5 hL hL1 hE hu
    g1 g2 g3 g4 (h 0 le_rfl (kRings_pos hv forward)) hsp
  refine ⟨K, ?_, hK⟩
  unfold spinSphericalKernelF
  rw [e]
  simp only [bind, Except.bind, pure, Except.pure]
  rw [show (if reality = true ∧ spin ≠ 0 then false else reality) = effReality reality spin from rfl,
    eK]

end S2fft
