import Verif.Lemmas.ResamplingEnergy
import Mathlib.Algebra.Order.Chebyshev
import Verif.Lemmas.RoundTrip
import Verif.Lemmas.KernelSum
import Verif.Lemmas.PrecomputeDoubleForward
/-! # The size of the quadrature weights, and of the integrals they give -/
namespace S2fft
open Spec

theorem norm_mw_weights_neg (m : ℤ) : ‖mw_weights (-m)‖ = ‖mw_weights m‖ := by
  rw [← conj_mw_weights, Complex.norm_conj]

theorem norm_mw_weights_odd {m : ℤ} (h : 2 ≤ m) (ho : m % 2 = 1) : ‖mw_weights m‖ = 0 := by
  unfold mw_weights
  rw [if_neg (by omega), if_neg (by omega), if_neg (by omega), norm_zero]

theorem norm_mw_weights_even {m : ℤ} (h : 2 ≤ m) (he : m % 2 = 0) :
    ‖mw_weights m‖ = 1 / (m - 1 : ℝ) - 1 / (m + 1) := by
  have hm : (2 : ℝ) ≤ m := by exact_mod_cast h
  unfold mw_weights
  rw [if_neg (by omega), if_neg (by omega), if_pos he, norm_div,
    show (1 - (m : ℂ) ^ 2) = ((1 - (m : ℝ) ^ 2 : ℝ) : ℂ) by push_cast; rfl, Complex.norm_real,
    Real.norm_eq_abs, abs_of_nonpos (by nlinarith), div_sub_div _ _ (by linarith) (by linarith)]
  rw [show ‖(2 : ℂ)‖ = 2 by simp]
  congr 1 <;> ring

theorem mw_weights_sum_odd (j : ℕ) :
    ∑ k ∈ Finset.Ioo (-(2 * (j : ℤ) + 2)) (2 * (j : ℤ) + 2), ‖mw_weights k‖
      ≤ Real.pi + 4 - 2 / (2 * j + 1) := by
  induction j with
  | zero =>
    have h : Finset.Ioo (-(2 * ((0 : ℕ) : ℤ) + 2)) (2 * ((0 : ℕ) : ℤ) + 2) = {-1, 0, 1} := by decide
    rw [h, Finset.sum_insert (by decide), Finset.sum_insert (by decide), Finset.sum_singleton]
    have h1 : ‖mw_weights 1‖ = Real.pi / 2 := by
      simp [mw_weights, abs_of_pos Real.pi_pos]
    have h2 : ‖mw_weights 0‖ = 2 := by simp [mw_weights]
    rw [norm_mw_weights_neg, h1, h2]
    norm_num
    linarith
  | succ j ih =>
    have e : (2 * ((j + 1 : ℕ) : ℤ) + 2) = 2 * (j : ℤ) + 2 + 1 + 1 := by push_cast; ring
    rw [e, sum_Ioo_succ (by omega), sum_Ioo_succ (by omega), norm_mw_weights_neg,
      norm_mw_weights_neg, norm_mw_weights_odd (m := 2 * (j : ℤ) + 2 + 1) (by omega) (by omega),
      norm_mw_weights_even (by omega) (by omega)]
    push_cast
    have hj : (0 : ℝ) ≤ j := by positivity
    have e1 : (2 * (j : ℝ) + 2 - 1) = 2 * j + 1 := by ring
    have e2 : (2 * (j : ℝ) + 2 + 1) = 2 * (j + 1) + 1 := by ring
    rw [e1, e2]
    have e3 : 2 / (2 * (j : ℝ) + 1) = 2 * (1 / (2 * (j : ℝ) + 1)) := by ring
    have e4 : 2 / (2 * ((j : ℝ) + 1) + 1) = 2 * (1 / (2 * ((j : ℝ) + 1) + 1)) := by ring
    rw [e3] at ih
    rw [e4]
    linarith

theorem mw_weights_sum (n : ℤ) :
    ∑ k ∈ Finset.Ioo (-n) n, ‖mw_weights k‖ ≤ Real.pi + 4 := by
  refine le_trans (Finset.sum_le_sum_of_subset_of_nonneg
    (Finset.Ioo_subset_Ioo (by omega : -(2 * (n.toNat : ℤ) + 2) ≤ -n) (by omega))
    fun _ _ _ => norm_nonneg _) ((mw_weights_sum_odd n.toNat).trans ?_)
  have : (0 : ℝ) ≤ 2 / (2 * (n.toNat : ℝ) + 1) := by positivity
  linarith

theorem abs_mwss_wr_le {L : ℤ} (hL : 1 ≤ L) (t : ℤ) : |mwss_wr L t| ≤ (Real.pi + 4) / (2 * L) := by
  have hLr : (1 : ℝ) ≤ L := by exact_mod_cast hL
  have h : |mwss_wr L t| = ‖(mwss_wr L t : ℂ)‖ := by rw [Complex.norm_real, Real.norm_eq_abs]
  rw [h, mwss_wr_eq hL, norm_div, show (2 * (L : ℂ)) = ((2 * L : ℝ) : ℂ) by push_cast; rfl,
    Complex.norm_real, Real.norm_eq_abs, abs_of_pos (by linarith)]
  refine div_le_div_of_nonneg_right ((norm_sum_le _ _).trans ?_) (by linarith)
  refine le_trans (le_of_eq ?_) (mw_weights_sum L)
  refine Finset.sum_congr rfl fun k _ => ?_
  rw [norm_mul, norm_cis, mul_one]

theorem innerWeight_resampled {G : GlTables} {σ : Scheme} (hσ : σ.Resampled) {L : ℤ} (hL : 1 ≤ L)
    (nside t : ℤ) : |innerWeight G σ L nside t| ≤ Real.pi * (Real.pi + 4) / (2 * L ^ 2) := by
  have hLr : (1 : ℝ) ≤ L := by exact_mod_cast hL
  have hpi := Real.pi_pos
  have h0 : |quad_weights_mwss_theta_only (2 * L) 0 t| ≤ (Real.pi + 4) / (2 * L) := by
    have hb : ∀ t, |mwss_wr (2 * L) t| ≤ (Real.pi + 4) / (4 * L) := fun t => by
      refine (abs_mwss_wr_le (by omega) t).trans (le_of_eq ?_)
      push_cast; ring_nf
    have e : (Real.pi + 4) / (2 * (L : ℝ)) = (Real.pi + 4) / (4 * L) + (Real.pi + 4) / (4 * L) := by
      field_simp; norm_num
    have hnn : 0 ≤ (Real.pi + 4) / (4 * (L : ℝ)) := by positivity
    unfold quad_weights_mwss_theta_only
    split_ifs
    · rw [zpow_zero, one_mul, e]
      exact (abs_add_le _ _).trans (add_le_add (hb _) (hb _))
    · linarith [hb t]
  have e : innerWeight G σ L nside t
      = quad_weights_mwss_theta_only (2 * L) 0 t * (2 * Real.pi / (2 * L)) := by
    rcases hσ with rfl | rfl <;> · unfold innerWeight; ring
  rw [e, abs_mul, abs_of_nonneg (by positivity : 0 ≤ 2 * Real.pi / (2 * (L : ℝ)))]
  refine (mul_le_mul_of_nonneg_right h0 (by positivity)).trans (le_of_eq ?_)
  field_simp

/-- The integrals over the rings are bounded by the samples. -/
theorem weighted_rings_resampled {G : GlTables} {σ : Scheme} (hσ : σ.Resampled) {L : ℤ}
    (hL : 1 ≤ L) (spin nside : ℤ) {f : ℤ → ℤ → ℂ} {M : ℝ} (hM : 0 ≤ M)
    (h : ∀ t p, σ.Has L nside t p → ‖f t p‖ ≤ M) (m : ℤ) :
    ∑ t ∈ Finset.Ico 0 (innerRings σ L nside), |innerWeight G σ L nside t|
      * ‖ringSum σ.inner L nside (innerSignal σ L spin f) t m‖ ≤ 80 * Real.pi * M := by
  have hLr : (1 : ℝ) ≤ L := by exact_mod_cast hL
  have hpi := Real.pi_pos
  set g := innerSignal σ L spin f with hg
  have hin : σ.inner = .mwss := by rcases hσ with rfl | rfl <;> rfl
  have hr : innerRings σ L nside = 2 * L + 1 := by unfold innerRings; rw [if_pos hσ]
  rw [hin, hr]
  have hring : ∀ t, ‖ringSum .mwss L nside g t m‖ ≤ ∑ p ∈ Finset.Ico 0 (2 * L), ‖g t p‖ := by
    intro t
    unfold ringSum
    refine (norm_sum_le _ _).trans (le_of_eq ?_)
    refine Finset.sum_congr rfl fun p _ => ?_
    rw [norm_mul, norm_cis, mul_one]
    rfl
  have hcs : (∑ t ∈ Finset.Ico 0 (2 * L + 1), ∑ p ∈ Finset.Ico 0 (2 * L), ‖g t p‖) ^ 2
      ≤ (2 * L + 1) * (2 * L) * energy2 (2 * L + 1) (2 * L) g := by
    rw [← Finset.sum_product', energy2]
    unfold energy
    rw [← Finset.sum_product']
    refine sq_sum_le_card_mul_sum_sq.trans (le_of_eq ?_)
    rw [Finset.card_product, Int.card_Ico, Int.card_Ico]
    congr 1
    have e1 : (((2 * L + 1 - 0).toNat : ℕ) : ℝ) = 2 * L + 1 := by
      have := Int.toNat_of_nonneg (by omega : 0 ≤ 2 * L + 1 - 0)
      have h2 := congrArg (Int.cast : ℤ → ℝ) this
      push_cast at h2; rw [h2]; ring
    have e2 : (((2 * L - 0).toNat : ℕ) : ℝ) = 2 * L := by
      have := Int.toNat_of_nonneg (by omega : 0 ≤ 2 * L - 0)
      have h2 := congrArg (Int.cast : ℤ → ℝ) this
      push_cast at h2; rw [h2]; ring
    push_cast
    rw [e1, e2]
  have hen := innerSignal_energy hσ hL spin nside h
  have hsum : ∑ t ∈ Finset.Ico 0 (2 * L + 1), ∑ p ∈ Finset.Ico 0 (2 * L), ‖g t p‖
      ≤ 20 * L ^ 2 * M := by
    refine abs_le_of_sq_le_sq' ?_ (by positivity) |>.2
    refine hcs.trans ((mul_le_mul_of_nonneg_left hen (by positivity)).trans ?_)
    have hM2 := sq_nonneg M
    have : (2 * (L : ℝ) + 1) * (2 * L) * (64 * L ^ 2) ≤ (20 * L ^ 2) ^ 2 := by
      nlinarith [pow_le_pow_right₀ hLr (by norm_num : 3 ≤ 4)]
    calc (2 * (L : ℝ) + 1) * (2 * L) * (64 * L ^ 2 * M ^ 2)
        = (2 * (L : ℝ) + 1) * (2 * L) * (64 * L ^ 2) * M ^ 2 := by ring
      _ ≤ (20 * L ^ 2) ^ 2 * M ^ 2 := mul_le_mul_of_nonneg_right this hM2
      _ = (20 * L ^ 2 * M) ^ 2 := by ring
  have hW : (0 : ℝ) ≤ Real.pi * (Real.pi + 4) / (2 * L ^ 2) := by positivity
  calc ∑ t ∈ Finset.Ico 0 (2 * L + 1), |innerWeight G σ L nside t| * ‖ringSum .mwss L nside g t m‖
      ≤ ∑ t ∈ Finset.Ico 0 (2 * L + 1), Real.pi * (Real.pi + 4) / (2 * L ^ 2)
          * ∑ p ∈ Finset.Ico 0 (2 * L), ‖g t p‖ :=
        Finset.sum_le_sum fun t _ => mul_le_mul (innerWeight_resampled hσ hL nside t) (hring t)
          (norm_nonneg _) hW
    _ = Real.pi * (Real.pi + 4) / (2 * L ^ 2)
          * ∑ t ∈ Finset.Ico 0 (2 * L + 1), ∑ p ∈ Finset.Ico 0 (2 * L), ‖g t p‖ := by
        rw [Finset.mul_sum]
    _ ≤ Real.pi * (Real.pi + 4) / (2 * L ^ 2) * (20 * L ^ 2 * M) :=
        mul_le_mul_of_nonneg_left hsum hW
    _ = 10 * (Real.pi + 4) * (Real.pi * M) := by field_simp; ring
    _ ≤ 80 * Real.pi * M := by
        have := Real.pi_le_four
        have h2 : 0 ≤ Real.pi * M := by positivity
        nlinarith

/-- On all schemes with a sampling theorem. -/
theorem weighted_rings {G : GlTables} {σ : Scheme} {L nside : ℤ} (hv : σ.Valid L nside)
    (hσ : SamplingTheorem G σ L) (spin : ℤ) {f : ℤ → ℤ → ℂ} {M : ℝ} (hM : 0 ≤ M)
    (h : ∀ t p, σ.Has L nside t p → ‖f t p‖ ≤ M) (m : ℤ) :
    ∑ t ∈ Finset.Ico 0 (innerRings σ L nside), |innerWeight G σ L nside t|
      * ‖ringSum σ.inner L nside (innerSignal σ L spin f) t m‖ ≤ 80 * Real.pi * M := by
  have hL := hv.1
  have hLr : (1 : ℝ) ≤ L := by exact_mod_cast hL
  have hpi := Real.pi_pos
  by_cases hr : σ.Resampled
  · exact weighted_rings_resampled hr hL spin nside hM h m
  have hR : RingRule σ G.nodes L (innerWeight G σ L nside) := by
    cases σ with
    | mw => exact absurd (Or.inl rfl) hr
    | mwss => exact absurd (Or.inr rfl) hr
    | dh => exact ringRule_dh _ hL
    | gl => exact ringRule_gl hL (hσ.2 rfl)
    | healpix => exact absurd rfl hσ.1
  have hsg : innerSignal σ L spin f = f ∧ σ.inner = σ ∧ innerRings σ L nside = σ.rings L 0 ∧
      (∀ t, σ.ringLen L nside t = 2 * L - 1) ∧ (∀ t p, σ.pos nside t p = (t, p)) ∧
      (∀ t p, 0 ≤ t → t < σ.rings L 0 → 0 ≤ p → p < 2 * L - 1 → σ.Has L nside t p) := by
    rcases hR.scheme with rfl | rfl
    · exact ⟨rfl, rfl, rfl, fun _ => rfl, fun _ _ => rfl, fun t p a b c d => ⟨a, b, c, d⟩⟩
    · exact ⟨rfl, rfl, rfl, fun _ => rfl, fun _ _ => rfl, fun t p a b c d => ⟨a, b, c, d⟩⟩
  obtain ⟨e1, e2, e3, e4, e5, e6⟩ := hsg
  rw [e1, e2, e3]
  have hring : ∀ t, 0 ≤ t → t < σ.rings L 0 → ‖ringSum σ L nside f t m‖ ≤ (2 * L - 1) * M := by
    intro t t0 t1
    unfold ringSum
    rw [e4]
    refine (norm_sum_le _ _).trans ?_
    refine (Finset.sum_le_card_nsmul _ _ M fun p hp => ?_).trans ?_
    · rw [Finset.mem_Ico] at hp
      rw [norm_mul, norm_cis, mul_one, e5]
      exact h t p (e6 t p t0 t1 hp.1 hp.2)
    · rw [Int.card_Ico, nsmul_eq_mul, sub_zero]
      have h2 := congrArg (Int.cast : ℤ → ℝ) (Int.toNat_of_nonneg (by omega : 0 ≤ 2 * L - 1))
      push_cast at h2; rw [h2]
  have htot := hR.total hL
  calc ∑ t ∈ Finset.Ico 0 (σ.rings L 0), |innerWeight G σ L nside t| * ‖ringSum σ L nside f t m‖
      ≤ ∑ t ∈ Finset.Ico 0 (σ.rings L 0), innerWeight G σ L nside t * ((2 * L - 1) * M) :=
        Finset.sum_le_sum fun t ht => by
          rw [Finset.mem_Ico] at ht
          rw [abs_of_nonneg (hR.nonneg t ht.1 ht.2)]
          exact mul_le_mul_of_nonneg_left (hring t ht.1 ht.2) (hR.nonneg t ht.1 ht.2)
    _ = (2 * L - 1) * (∑ t ∈ Finset.Ico 0 (σ.rings L 0), innerWeight G σ L nside t) * M := by
        rw [← Finset.sum_mul]; ring
    _ = 4 * Real.pi * M := by rw [htot]
    _ ≤ 80 * Real.pi * M := by nlinarith [mul_nonneg hpi.le hM]

end S2fft
