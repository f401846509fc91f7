import Verif.Lemmas.Stable
import Verif.Spec.So3Size
import Verif.Props.C38
/-! # The Wigner coefficients depend on samples and angles with moderate constants -/
namespace S2fft
open Spec

theorem fft_sub_at (n : ℤ) (x y : ℤ → ℂ) (k : ℤ) : fft n (fun j => x j - y j) k = fft n x k - fft n y k := by
  unfold fft
  rw [← Finset.sum_sub_distrib]
  exact Finset.sum_congr rfl fun j _ => by ring

theorem norm_fft_le {n : ℤ} (hn : 0 ≤ n) {x : ℤ → ℂ} {M : ℝ} (h : ∀ j, 0 ≤ j → j < n → ‖x j‖ ≤ M) (k : ℤ) :
    ‖fft n x k‖ ≤ n * M := by
  unfold fft
  refine (norm_sum_le _ _).trans ?_
  calc _ ≤ ∑ _j ∈ Finset.Ico 0 n, M := by
        refine Finset.sum_le_sum fun j hj => ?_
        rw [Finset.mem_Ico] at hj
        rw [norm_mul, norm_cis, mul_one]
        exact h j hj.1 hj.2
    _ = _ := by
        rw [Finset.sum_const, Int.card_Ico, nsmul_eq_mul, sub_zero]
        congr 1
        exact_mod_cast Int.toNat_of_nonneg hn

theorem fban_sub (f h : ℤ → ℤ → ℤ → ℂ) (N : ℤ) (reality : Bool) (k i j : ℤ) :
    wignerBaseFban (fun g i j => f g i j - h g i j) N reality k i j
      = wignerBaseFban f N reality k i j - wignerBaseFban h N reality k i j := by
  unfold wignerBaseFban fftshift rfft
  split_ifs
  · rw [← sub_mul, ← fft_sub_at]
    congr 2
    funext g
    beta_reduce
    rw [Complex.sub_re, Complex.ofReal_sub]
  · rw [← sub_mul, ← fft_sub_at]

theorem norm_fban_le {f : ℤ → ℤ → ℤ → ℂ} {N : ℤ} (hN : 1 ≤ N) {i j : ℤ} {M : ℝ}
    (h : ∀ g, 0 ≤ g → g < 2 * N - 1 → ‖f g i j‖ ≤ M) (reality : Bool) (k : ℤ) :
    ‖wignerBaseFban f N reality k i j‖ ≤ 2 * Real.pi * M := by
  have hn : (0 : ℝ) < 2 * (N : ℝ) - 1 := by
    have : (1 : ℝ) ≤ N := by exact_mod_cast hN
    linarith
  have hpi := Real.pi_pos
  have e : ‖(2 * Real.pi / (2 * (N : ℂ) - 1) : ℂ)‖ = 2 * Real.pi / (2 * (N : ℝ) - 1) := by
    rw [show (2 * Real.pi / (2 * (N : ℂ) - 1) : ℂ) = ((2 * Real.pi / (2 * (N : ℝ) - 1) : ℝ) : ℂ) by
      push_cast; rfl, Complex.norm_real, Real.norm_eq_abs, abs_of_nonneg (by positivity)]
  have key : ‖(if reality then rfft (ngamma N) (fun g => (f g i j).re) k
      else fftshift (ngamma N) (fft (ngamma N) (fun g => f g i j)) k)‖ ≤ (2 * (N : ℝ) - 1) * M := by
    have hng : ((ngamma N : ℤ) : ℝ) = 2 * (N : ℝ) - 1 := by unfold ngamma; push_cast; ring
    split_ifs
    · unfold rfft
      rw [← hng]
      refine norm_fft_le (n := ngamma N) (by unfold ngamma; omega) (fun g a b => ?_) _
      rw [Complex.norm_real]
      exact (Complex.abs_re_le_norm _).trans (h g a b)
    · unfold fftshift
      rw [← hng]
      exact norm_fft_le (n := ngamma N) (by unfold ngamma; omega) h _
  unfold wignerBaseFban
  rw [norm_mul, e]
  calc _ ≤ (2 * (N : ℝ) - 1) * M * (2 * Real.pi / (2 * (N : ℝ) - 1)) := by gcongr
    _ = _ := by field_simp

theorem so3Size_nonneg (L N : ℤ) (c : ℤ → ℤ → ℤ → ℂ) : 0 ≤ so3Size L N c := by
  unfold so3Size
  refine Finset.sum_nonneg fun n _ => Finset.sum_nonneg fun l hl => Finset.sum_nonneg fun m _ => ?_
  rw [Finset.mem_Ico] at hl
  have hl0 : (0 : ℝ) ≤ l := by exact_mod_cast hl.1
  positivity

theorem norm_wignerSum_term {l m n : ℤ} (hl : 0 ≤ l) (z : ℂ) (α γ x : ℝ) :
    ‖(2 * (l : ℂ) + 1) / (8 * (Real.pi : ℂ) ^ 2) * z
      * (starRingEnd ℂ) (cis (-(m * α)) * (x : ℝ) * cis (-(n * γ)))‖
      = (2 * (l : ℝ) + 1) / (8 * Real.pi ^ 2) * ‖z‖ * |x| := by
  have hl' : (0 : ℝ) ≤ l := by exact_mod_cast hl
  rw [norm_mul, norm_mul, Complex.norm_conj, norm_mul, norm_mul, norm_cis, norm_cis, one_mul, mul_one,
    Complex.norm_real, Real.norm_eq_abs,
    show (2 * (l : ℂ) + 1) / (8 * (Real.pi : ℂ) ^ 2) = (((2 * (l : ℝ) + 1) / (8 * Real.pi ^ 2) : ℝ) : ℂ)
      by push_cast; rfl, Complex.norm_real, Real.norm_eq_abs, abs_of_nonneg (by positivity)]

theorem norm_wignerSum_le {lo : ℤ} (hlo : 0 ≤ lo) (L N : ℤ) (c : ℤ → ℤ → ℤ → ℂ) (α β γ : ℝ) :
    ‖wignerSum lo L N c α β γ‖ ≤ so3Size L N c := by
  unfold wignerSum so3Size
  refine (norm_sum_le _ _).trans (Finset.sum_le_sum fun n _ => ?_)
  refine (norm_sum_le _ _).trans ?_
  refine le_trans (Finset.sum_le_sum (g := fun l : ℤ => ∑ m ∈ Finset.Ico (-l) (l + 1),
    (2 * (l : ℝ) + 1) / (8 * Real.pi ^ 2) * ‖c n l m‖) fun l hl => ?_)
    (Finset.sum_le_sum_of_subset_of_nonneg (Finset.Ico_subset_Ico_left hlo) fun l hl _ => ?_)
  · rw [Finset.mem_Ico] at hl
    have hl0 : (0 : ℝ) ≤ l := by exact_mod_cast (by omega : 0 ≤ l)
    refine (norm_sum_le _ _).trans (Finset.sum_le_sum fun m _ => ?_)
    unfold wignerD
    rw [norm_wignerSum_term (by omega)]
    exact mul_le_of_le_one_right (by positivity) (wignerd_abs_le_one l m n β)
  · rw [Finset.mem_Ico] at hl
    have hl0 : (0 : ℝ) ≤ l := by exact_mod_cast hl.1
    positivity

/-- Moving the angle of a Wigner expansion. -/
theorem wignerSum_move {lo : ℤ} (hlo : 0 ≤ lo) (L N : ℤ) (c : ℤ → ℤ → ℤ → ℂ) (α β β' γ : ℝ) :
    ‖wignerSum lo L N c α β γ - wignerSum lo L N c α β' γ‖ ≤ L * |β - β'| * so3Size L N c := by
  unfold wignerSum so3Size
  rw [← Finset.sum_sub_distrib, Finset.mul_sum]
  refine (norm_sum_le _ _).trans (Finset.sum_le_sum fun n _ => ?_)
  rw [← Finset.sum_sub_distrib, Finset.mul_sum]
  refine (norm_sum_le _ _).trans ?_
  refine le_trans (Finset.sum_le_sum (g := fun l : ℤ => L * |β - β'| * ∑ m ∈ Finset.Ico (-l) (l + 1),
    (2 * (l : ℝ) + 1) / (8 * Real.pi ^ 2) * ‖c n l m‖) fun l hl => ?_)
    (Finset.sum_le_sum_of_subset_of_nonneg (Finset.Ico_subset_Ico_left hlo) fun l hl _ => ?_)
  · rw [Finset.mem_Ico] at hl
    have hl0 : (0 : ℝ) ≤ l := by exact_mod_cast (by omega : 0 ≤ l)
    have hl1 : (l : ℝ) + 1 ≤ L := by exact_mod_cast hl.2
    rw [← Finset.sum_sub_distrib, Finset.mul_sum]
    refine (norm_sum_le _ _).trans (Finset.sum_le_sum fun m _ => ?_)
    unfold wignerD
    rw [← mul_sub, ← map_sub, ← sub_mul, ← mul_sub, ← Complex.ofReal_sub, norm_wignerSum_term (by omega)]
    have := (wignerd_lipschitz l m n (by omega) β β').trans
      (mul_le_mul_of_nonneg_right hl1 (abs_nonneg (β - β')))
    calc _ ≤ (2 * (l : ℝ) + 1) / (8 * Real.pi ^ 2) * ‖c n l m‖ * (L * |β - β'|) := by gcongr
      _ = _ := by ring
  · rw [Finset.mem_Ico] at hl
    have hl0 : (0 : ℝ) ≤ l := by exact_mod_cast hl.1
    have : (0 : ℝ) ≤ L := by exact_mod_cast (by omega : 0 ≤ L)
    positivity

theorem wignerSum_sub (lo L N : ℤ) (c d : ℤ → ℤ → ℤ → ℂ) (α β γ : ℝ) :
    wignerSum lo L N (fun n l m => c n l m - d n l m) α β γ
      = wignerSum lo L N c α β γ - wignerSum lo L N d α β γ := by
  simp only [wignerSum, mul_sub, sub_mul, Finset.sum_sub_distrib]

theorem elfactor_unscale {el : ℤ} (h0 : 0 ≤ el) :
    elfactor el * √(4 * Real.pi / (2 * (el : ℝ) + 1)) = 1 := by
  have hel : (0 : ℝ) ≤ el := by exact_mod_cast h0
  have hpi := Real.pi_pos
  unfold elfactor
  rw [← Real.sqrt_mul (by positivity)]
  rw [show (2 * (el : ℝ) + 1) / (4 * Real.pi) * (4 * Real.pi / (2 * el + 1)) = 1 by field_simp]
  exact Real.sqrt_one

section
variable (T : GlTables) (σ : Scheme) (L N lo : ℤ) (nside : Option ℤ)

theorem wigRings_get (hσ : σ ≠ .healpix) (f : Nd ℂ) (reality : Bool) (n t p : ℤ) :
    (planeOf ((2 * N - 1) :: σ.shape L (nside.getD 0))
      (wignerBaseFban f.get3 N reality (n - wigStart N reality))).get2 t p
      = wignerBaseFban f.get3 N reality (n - wigStart N reality) t p := by
  cases σ <;> first | rfl | exact absurd rfl hσ

/-- The coefficients of one direction, from samples near those of an expansion. -/
theorem wigFwdVal_near (hv : σ.Valid L (nside.getD 0)) (hN : 1 ≤ N)
    (hσ : SamplingTheorem T σ L) {c : ℤ → ℤ → ℤ → ℂ} {f : Nd ℂ} {η ε M : ℝ} {α : ℤ → ℝ} (hε : 0 ≤ ε)
    (hα : ∀ t, 0 ≤ t → t < innerRings σ L (nside.getD 0) →
      |α t - innerTheta T.nodes σ L (nside.getD 0) t| ≤ ε)
    (hM : ∀ g t p, 0 ≤ g → g < 2 * N - 1 → σ.Has L (nside.getD 0) t p → ‖f.get3 g t p‖ ≤ M)
    (hs : ∀ g t p, 0 ≤ g → g < 2 * N - 1 → σ.Has L (nside.getD 0) t p →
      ‖f.get3 g t p - wignerSum 0 L N c (σ.phi L (nside.getD 0) t p)
        (σ.theta T.nodes L (nside.getD 0) t) (gammaAt N g)‖ ≤ η) (reality : Bool)
    (hre : reality = true → RealWigner c 0 L) {n el m : ℤ} (n0 : wigStart N reality ≤ n) (n1 : n < N)
    (a : 0 ≤ el) (b : el < L) (m0 : -L < m) (m1 : m < L) :
    ‖wigFwdVal σ L N lo nside T f reality α n el m
      - (if max |n| lo ≤ el ∧ |m| ≤ el then c n el m * wigW el else 0)‖
      ≤ 160 * Real.pi ^ 2 * elfactor el * (η + (el + 1) * ε * M) := by
  have hs1 := wigStart_lt hN reality
  have h00 := has_zero hv hσ
  have hη0 : 0 ≤ η := (norm_nonneg _).trans (hs 0 0 0 le_rfl (by omega) h00)
  have hM0 : 0 ≤ M := (norm_nonneg _).trans (hM 0 0 0 le_rfl (by omega) h00)
  have he := elfactor_nonneg el
  have hpi := Real.pi_pos
  have hel : (0 : ℝ) ≤ el := by exact_mod_cast a
  unfold wigFwdVal
  by_cases hl : el < max |n| lo
  · rw [if_pos hl, if_neg (by rintro ⟨h, -⟩; omega), mul_zero, sub_zero, norm_zero]
    positivity
  have key := analysis_near hv hσ (spin := -n) (c := fun l m => (-1) ^ n * (c n l m * wigW l))
    (f := (planeOf ((2 * N - 1) :: σ.shape L (nside.getD 0))
      (wignerBaseFban f.get3 N reality (n - wigStart N reality))).get2)
    (η := 2 * Real.pi * η) (ε := ε) (M := 2 * Real.pi * M) hα
    (fun t p ht => by
      rw [wigRings_get σ L N nside hσ.1]
      exact norm_fban_le hN (fun g g0 g1 => hM g t p g0 g1 ht) reality _)
    (fun t p ht => by
      rw [wigRings_get σ L N nside hσ.1]
      have := fban_plane hN (c := c) (lo := 0) (L := L) (i := t) (j := p)
        (f := fun g i j => wignerSum 0 L N c (σ.phi L (nside.getD 0) i j)
          (σ.theta T.nodes L (nside.getD 0) i) (gammaAt N g)) reality hre (fun g _ _ => rfl)
        (n := n) (by omega) n1
      rw [wigPlane_scaled le_rfl] at this
      rw [← this]
      unfold wigStart
      rw [← fban_sub]
      exact norm_fban_le hN (fun g g0 g1 => hs g t p g0 g1 ht) reality _)
    (reality := false) (fun h => by cases h) a b m0 m1
  have hn : |n| ≤ el := by have := le_max_left |n| lo; omega
  have hn' : max |n| lo ≤ el := not_lt.1 hl
  rw [if_neg hl]
  unfold symm at key
  rw [if_neg (by simp), abs_neg] at key
  simp only [hn, true_and] at key
  simp only [hn', true_and]
  change ‖fAt (ringSum σ.inner L (nside.getD 0) (wigRings σ L N nside f reality n)) (-n) _ _ _ _ _ - _‖ ≤ _
    at key
  rw [show (if |m| ≤ el then c n el m * (wigW el : ℂ) else 0)
    = (-1) ^ n * (if |m| ≤ el then (-1) ^ n * (c n el m * (wigW el : ℂ)) else 0) by
      split_ifs
      · rw [← mul_assoc, neg_one_zpow_sq, one_mul]
      · rw [mul_zero], ← mul_sub, norm_mul, norm_neg_one_zpow, one_mul]
  refine key.trans (le_of_eq ?_)
  ring

/-- Samples that differ by at most `η`. -/
theorem wigForward_stable (hv : σ.Valid L (nside.getD 0)) (hN : 1 ≤ N)
    (hσ : SamplingTheorem T σ L) {f f' : Nd ℂ} {η : ℝ}
    (hs : ∀ g t p, 0 ≤ g → g < 2 * N - 1 → σ.Has L (nside.getD 0) t p →
      ‖f.get3 g t p - f'.get3 g t p‖ ≤ η) (α : ℤ → ℝ) (reality : Bool) {n el m : ℤ} (a : 0 ≤ el) :
    ‖mirrored reality (wigFwdVal σ L N lo nside T f reality α) n el m
        * (√(4 * Real.pi / (2 * (el : ℝ) + 1)) : ℝ)
      - mirrored reality (wigFwdVal σ L N lo nside T f' reality α) n el m
        * (√(4 * Real.pi / (2 * (el : ℝ) + 1)) : ℝ)‖ ≤ 160 * Real.pi ^ 2 * η := by
  have h00 := has_zero hv hσ
  have hη0 : 0 ≤ η := (norm_nonneg _).trans (hs 0 0 0 le_rfl (by omega) h00)
  have he := elfactor_nonneg el
  have hpi := Real.pi_pos
  have hone := elfactor_unscale a
  have hsq := Real.sqrt_nonneg (4 * Real.pi / (2 * (el : ℝ) + 1))
  have key : ∀ n m, ‖wigFwdVal σ L N lo nside T f reality α n el m
      - wigFwdVal σ L N lo nside T f' reality α n el m‖ ≤ 160 * Real.pi ^ 2 * elfactor el * η := by
    intro n m
    unfold wigFwdVal
    rw [← mul_sub, norm_mul, norm_neg_one_zpow, one_mul]
    split_ifs
    · rw [sub_zero, norm_zero]; positivity
    · have := symm_fAt_stable hv hσ (-n) (η := 2 * Real.pi * η)
        (f := (planeOf ((2 * N - 1) :: σ.shape L (nside.getD 0))
          (wignerBaseFban f.get3 N reality (n - wigStart N reality))).get2)
        (f' := (planeOf ((2 * N - 1) :: σ.shape L (nside.getD 0))
          (wignerBaseFban f'.get3 N reality (n - wigStart N reality))).get2)
        (fun t p ht => by
          rw [wigRings_get σ L N nside hσ.1, wigRings_get σ L N nside hσ.1, ← fban_sub]
          exact norm_fban_le hN (fun g g0 g1 => hs g t p g0 g1 ht) reality _) α false el m
      unfold symm at this
      rw [if_neg (by simp), if_neg (by simp)] at this
      refine this.trans (le_of_eq ?_)
      ring
  rw [← sub_mul, norm_mul, Complex.norm_real, Real.norm_eq_abs, abs_of_nonneg hsq]
  have h1 : ‖mirrored reality (wigFwdVal σ L N lo nside T f reality α) n el m
      - mirrored reality (wigFwdVal σ L N lo nside T f' reality α) n el m‖
      ≤ 160 * Real.pi ^ 2 * elfactor el * η := by
    unfold mirrored
    split_ifs
    · rw [← mul_sub, ← map_sub, norm_mul, norm_neg_one_zpow, one_mul, Complex.norm_conj]
      exact key _ _
    · exact key n m
  refine (mul_le_mul_of_nonneg_right h1 hsq).trans (le_of_eq ?_)
  linear_combination 160 * Real.pi ^ 2 * η * hone

/-- All the coefficients, mirrored with the flag and scaled. -/
theorem wigForward_near (hv : σ.Valid L (nside.getD 0)) (hN : 1 ≤ N)
    (hσ : SamplingTheorem T σ L) (h0 : 0 ≤ lo) {c : ℤ → ℤ → ℤ → ℂ} {f : Nd ℂ} {η ε M : ℝ} {α : ℤ → ℝ}
    (hε : 0 ≤ ε)
    (hα : ∀ t, 0 ≤ t → t < innerRings σ L (nside.getD 0) →
      |α t - innerTheta T.nodes σ L (nside.getD 0) t| ≤ ε)
    (hM : ∀ g t p, 0 ≤ g → g < 2 * N - 1 → σ.Has L (nside.getD 0) t p → ‖f.get3 g t p‖ ≤ M)
    (hs : ∀ g t p, 0 ≤ g → g < 2 * N - 1 → σ.Has L (nside.getD 0) t p →
      ‖f.get3 g t p - wignerSum 0 L N c (σ.phi L (nside.getD 0) t p)
        (σ.theta T.nodes L (nside.getD 0) t) (gammaAt N g)‖ ≤ η) (reality : Bool)
    (hre : reality = true → RealWigner c 0 L) {n el m : ℤ} (hn : |n| < N)
    (a : 0 ≤ el) (b : el < L) (m0 : -L < m) (m1 : m < L) :
    ‖mirrored reality (wigFwdVal σ L N lo nside T f reality α) n el m
        * (√(4 * Real.pi / (2 * (el : ℝ) + 1)) : ℝ)
      - (if max |n| lo ≤ el ∧ |m| ≤ el then c n el m else 0)‖
      ≤ 160 * Real.pi ^ 2 * (η + (el + 1) * ε * M) := by
  rw [abs_lt] at hn
  have hone := elfactor_unscale a
  have hw := wigW_mul a
  have hsq := Real.sqrt_nonneg (4 * Real.pi / (2 * (el : ℝ) + 1))
  have h1 : ‖mirrored reality (wigFwdVal σ L N lo nside T f reality α) n el m
      - mirrored reality (fun n el m => if max |n| lo ≤ el ∧ |m| ≤ el then c n el m * wigW el else 0)
          n el m‖ ≤ 160 * Real.pi ^ 2 * elfactor el * (η + (el + 1) * ε * M) := by
    unfold mirrored
    by_cases hc : reality = true ∧ n < 0
    · rw [if_pos hc, if_pos hc, ← mul_sub, ← map_sub, norm_mul, norm_neg_one_zpow, one_mul,
        Complex.norm_conj]
      exact wigFwdVal_near T σ L N lo nside hv hN hσ hε hα hM hs reality hre
        (by unfold wigStart; rw [if_pos hc.1]; omega) (by omega) a b (by omega) (by omega)
    · rw [if_neg hc, if_neg hc]
      exact wigFwdVal_near T σ L N lo nside hv hN hσ hε hα hM hs reality hre
        (by unfold wigStart; split_ifs with h
            · by_contra h'; exact hc ⟨h, by omega⟩
            · omega) (by omega) a b (by omega) (by omega)
  rw [mirrored_real reality hre h0 b] at h1
  rw [show (if max |n| lo ≤ el ∧ |m| ≤ el then c n el m else 0)
    = (if max |n| lo ≤ el ∧ |m| ≤ el then c n el m * (wigW el : ℂ) else 0)
      * (√(4 * Real.pi / (2 * (el : ℝ) + 1)) : ℝ) by
        split_ifs
        · rw [mul_assoc, ← Complex.ofReal_mul, hw, Complex.ofReal_one, mul_one]
        · rw [zero_mul], ← sub_mul, norm_mul, Complex.norm_real, Real.norm_eq_abs, abs_of_nonneg hsq]
  refine (mul_le_mul_of_nonneg_right h1 hsq).trans (le_of_eq ?_)
  linear_combination 160 * Real.pi ^ 2 * (η + (el + 1) * ε * M) * hone

end
end S2fft
