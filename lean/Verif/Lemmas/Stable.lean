import Verif.Lemmas.QuadratureSize
/-! # The coefficients depend on samples and angles with moderate constants -/
namespace S2fft
open Spec

theorem fAt_sub (A B : ℤ → ℤ → ℂ) (spin nt : ℤ) (α w : ℤ → ℝ) (el m : ℤ) :
    fAt (fun t m => A t m - B t m) spin nt α w el m = fAt A spin nt α w el m - fAt B spin nt α w el m := by
  simp only [fAt, mul_sub, Finset.sum_sub_distrib]

section
variable {G : GlTables} {σ : Scheme} {L ns : ℤ} (hv : σ.Valid L ns) (hσ : SamplingTheorem G σ L)
include hv hσ

/-- Bounded samples give bounded coefficients, at whatever angles. -/
theorem fAt_inner_le (spin : ℤ) {f : ℤ → ℤ → ℂ} {M : ℝ} (hM : 0 ≤ M)
    (h : ∀ t p, σ.Has L ns t p → ‖f t p‖ ≤ M) (α : ℤ → ℝ) (el m : ℤ) :
    ‖fAt (ringSum σ.inner L ns (innerSignal σ L spin f)) spin (innerRings σ L ns) α
      (innerWeight G σ L ns) el m‖ ≤ 80 * Real.pi * elfactor el * M := by
  have hw := weighted_rings hv hσ spin hM h m
  have he := elfactor_nonneg el
  unfold fAt
  refine (norm_sum_le _ _).trans ?_
  calc _ ≤ ∑ t ∈ Finset.Ico 0 (innerRings σ L ns), elfactor el * (|innerWeight G σ L ns t|
        * ‖ringSum σ.inner L ns (innerSignal σ L spin f) t m‖) := by
        refine Finset.sum_le_sum fun t _ => ?_
        have hd := wignerd_abs_le_one el m (-spin) (α t)
        rw [norm_mul, norm_mul, norm_mul, norm_mul, norm_neg_one_zpow, mul_one, Complex.norm_real,
          Complex.norm_real, Complex.norm_real, Real.norm_eq_abs, Real.norm_eq_abs, Real.norm_eq_abs,
          abs_of_nonneg he]
        have h0 : 0 ≤ elfactor el * (|innerWeight G σ L ns t|
          * ‖ringSum σ.inner L ns (innerSignal σ L spin f) t m‖) := by positivity
        nlinarith
    _ ≤ elfactor el * (80 * Real.pi * M) := by
        rw [← Finset.mul_sum]; exact mul_le_mul_of_nonneg_left hw he
    _ = _ := by ring

/-- Moving the angles. -/
theorem fAt_inner_move (spin : ℤ) {f : ℤ → ℤ → ℂ} {M : ℝ} (hM : 0 ≤ M)
    (h : ∀ t p, σ.Has L ns t p → ‖f t p‖ ≤ M) {α β : ℤ → ℝ} {ε : ℝ}
    (hαβ : ∀ t, 0 ≤ t → t < innerRings σ L ns → |α t - β t| ≤ ε) {el : ℤ} (h0 : 0 ≤ el) (m : ℤ) :
    ‖fAt (ringSum σ.inner L ns (innerSignal σ L spin f)) spin (innerRings σ L ns) α
        (innerWeight G σ L ns) el m
      - fAt (ringSum σ.inner L ns (innerSignal σ L spin f)) spin (innerRings σ L ns) β
        (innerWeight G σ L ns) el m‖ ≤ 80 * Real.pi * elfactor el * ((el + 1) * ε * M) := by
  have hw := weighted_rings hv hσ spin hM h m
  have he := elfactor_nonneg el
  have hel : (0 : ℝ) ≤ el := by exact_mod_cast h0
  unfold fAt
  rw [← Finset.sum_sub_distrib]
  refine (norm_sum_le _ _).trans ?_
  by_cases hε : 0 ≤ ε
  swap
  · have hr : innerRings σ L ns ≤ 0 := by
      by_contra hc
      exact hε ((abs_nonneg _).trans (hαβ 0 le_rfl (by omega)))
    exfalso
    have hL := hv.1
    unfold innerRings at hr
    split_ifs at hr with hR
    · omega
    · have := hv.2
      cases σ <;> simp [Scheme.rings, Scheme.Resampled] at hr hR <;> first | omega | exact hσ.1 rfl
  calc _ ≤ ∑ t ∈ Finset.Ico 0 (innerRings σ L ns), elfactor el * ((el + 1) * ε)
        * (|innerWeight G σ L ns t|
          * ‖ringSum σ.inner L ns (innerSignal σ L spin f) t m‖) := by
        refine Finset.sum_le_sum fun t ht => ?_
        rw [Finset.mem_Ico] at ht
        have hd : |wignerd el m (-spin) (α t) - wignerd el m (-spin) (β t)| ≤ (el + 1) * ε :=
          (wignerd_lipschitz el m (-spin) h0 (α t) (β t)).trans
            (mul_le_mul_of_nonneg_left (hαβ t ht.1 ht.2) (by linarith))
        rw [show ∀ a b c d d' A : ℂ, a * b * c * d * A - a * b * c * d' * A
          = b * (c * (d - d') * (a * A)) from fun a b c d d' A => by ring]
        rw [norm_mul, norm_mul, norm_mul, norm_mul, norm_neg_one_zpow, one_mul, ← Complex.ofReal_sub,
          Complex.norm_real, Complex.norm_real, Complex.norm_real, Real.norm_eq_abs, Real.norm_eq_abs,
          Real.norm_eq_abs, abs_of_nonneg he]
        gcongr
    _ ≤ elfactor el * ((el + 1) * ε) * (80 * Real.pi * M) := by
        rw [← Finset.mul_sum]; exact mul_le_mul_of_nonneg_left hw (by positivity)
    _ = _ := by ring

theorem has_zero : σ.Has L ns 0 0 := by
  have hL := hv.1
  cases σ <;> simp [Scheme.Has, Scheme.rings, Scheme.ringLen] <;> first | omega | exact absurd rfl hσ.1

omit hv in
theorem pos_of_sampling (t p : ℤ) : σ.pos ns t p = (t, p) := by
  cases σ <;> first | rfl | exact absurd rfl hσ.1

/-- Samples that differ by at most `η` give coefficients that differ by a multiple of `η`. -/
theorem symm_fAt_stable (spin : ℤ) {f f' : ℤ → ℤ → ℂ} {η : ℝ}
    (h : ∀ t p, σ.Has L ns t p → ‖f t p - f' t p‖ ≤ η) (α : ℤ → ℝ) (reality : Bool) (el m : ℤ) :
    ‖symm reality (fAt (ringSum σ.inner L ns (innerSignal σ L spin f)) spin (innerRings σ L ns) α
        (innerWeight G σ L ns) el) m
      - symm reality (fAt (ringSum σ.inner L ns (innerSignal σ L spin f')) spin (innerRings σ L ns) α
        (innerWeight G σ L ns) el) m‖ ≤ 80 * Real.pi * elfactor el * η := by
  have hη : 0 ≤ η := (norm_nonneg _).trans (h 0 0 (has_zero hv hσ))
  have key : ∀ m, ‖fAt (ringSum σ.inner L ns (innerSignal σ L spin f)) spin (innerRings σ L ns) α
        (innerWeight G σ L ns) el m
      - fAt (ringSum σ.inner L ns (innerSignal σ L spin f')) spin (innerRings σ L ns) α
        (innerWeight G σ L ns) el m‖ ≤ 80 * Real.pi * elfactor el * η := by
    intro m
    rw [← fAt_sub, ← ringSum_sub, ← innerSignal_sub]
    exact fAt_inner_le hv hσ spin hη h α el m
  unfold symm
  split_ifs
  · rw [← mul_sub, ← map_sub, norm_mul, norm_neg_one_zpow, one_mul, Complex.norm_conj]
    exact key _
  · exact key m

/-- Analysis of the samples of an expansion. -/
theorem fAt_inner_exact {spin : ℤ} {c g : ℤ → ℤ → ℂ}
    (hs : SamplesOf G.nodes σ L ns g (harmonicSum 0 L spin c)) {el m : ℤ} (e0 : 0 ≤ el) (e1 : el < L)
    (hsp : |spin| ≤ el) (m0 : -L < m) (m1 : m < L) :
    fAt (ringSum σ.inner L ns (innerSignal σ L spin g)) spin (innerRings σ L ns)
      (innerTheta G.nodes σ L ns) (innerWeight G σ L ns) el m = if |m| ≤ el then c el m else 0 := by
  have hL := hv.1
  obtain ⟨q, n, hn, hlen, hw, hq⟩ := inner_rule G (nside := ns) hL hσ
  refine fAt_exact (lo := 0) (n := n) (by exact_mod_cast (by omega : n ≠ 0)) ?_ hw hq e0 e0 hsp e1
    m0 m1
  intro t m t0 t1 m0 m1
  exact ringSum_harm hL hσ.1 hs hn hlen t0 t1 m0 m1

/-- Analysis of samples near those of an expansion, at the exact angles. -/
theorem fAt_inner_near {spin : ℤ} {c f : ℤ → ℤ → ℂ} {η : ℝ}
    (hf : ∀ t p, σ.Has L ns t p → ‖f t p - harmonicSum 0 L spin c (σ.theta G.nodes L ns t)
      (σ.phi L ns t p)‖ ≤ η) {el m : ℤ} (e0 : 0 ≤ el) (e1 : el < L) (m0 : -L < m) (m1 : m < L) :
    ‖fAt (ringSum σ.inner L ns (innerSignal σ L spin f)) spin (innerRings σ L ns)
        (innerTheta G.nodes σ L ns) (innerWeight G σ L ns) el m
      - (if |spin| ≤ el ∧ |m| ≤ el then c el m else 0)‖ ≤ 80 * Real.pi * elfactor el * η := by
  have hη : 0 ≤ η := (norm_nonneg _).trans (hf 0 0 (has_zero hv hσ))
  by_cases hsp : |spin| ≤ el
  swap
  · rw [if_neg (fun h => hsp h.1), fAt_outside (Or.inr (by omega)), sub_zero, norm_zero]
    have := elfactor_nonneg el
    positivity
  obtain ⟨g, hg⟩ : ∃ g : ℤ → ℤ → ℂ, ∀ t p, g t p
    = harmonicSum 0 L spin c (σ.theta G.nodes L ns t) (σ.phi L ns t p) := ⟨_, fun _ _ => rfl⟩
  have hs : SamplesOf G.nodes σ L ns g (harmonicSum 0 L spin c) := fun t p _ => by
    rw [pos_of_sampling hσ, hg]
  have hle := fAt_inner_le hv hσ spin (f := fun t p => f t p - g t p) hη
    (fun t p h => by rw [hg]; exact hf t p h) (innerTheta G.nodes σ L ns) el m
  rw [innerSignal_sub, ringSum_sub, fAt_sub, fAt_inner_exact hv hσ hs e0 e1 hsp m0 m1] at hle
  simp only [hsp, true_and]
  exact hle

/-- Analysis of samples near those of an expansion, at angles near those of the grid. -/
theorem analysis_near {spin : ℤ} {c f : ℤ → ℤ → ℂ} {η ε M : ℝ} {α : ℤ → ℝ}
    (hα : ∀ t, 0 ≤ t → t < innerRings σ L ns → |α t - innerTheta G.nodes σ L ns t| ≤ ε)
    (hM : ∀ t p, σ.Has L ns t p → ‖f t p‖ ≤ M)
    (hf : ∀ t p, σ.Has L ns t p → ‖f t p - harmonicSum 0 L spin c (σ.theta G.nodes L ns t)
      (σ.phi L ns t p)‖ ≤ η) {reality : Bool} (hre : reality = true → RealHarmonics c 0 L)
    {el m : ℤ} (e0 : 0 ≤ el) (e1 : el < L) (m0 : -L < m) (m1 : m < L) :
    ‖symm reality (fAt (ringSum σ.inner L ns (innerSignal σ L spin f)) spin (innerRings σ L ns) α
        (innerWeight G σ L ns) el) m
      - (if |spin| ≤ el ∧ |m| ≤ el then c el m else 0)‖
      ≤ 80 * Real.pi * elfactor el * (η + (el + 1) * ε * M) := by
  have hL := hv.1
  have hM0 : 0 ≤ M := (norm_nonneg _).trans (hM 0 0 (has_zero hv hσ))
  have key : ∀ m, -L < m → m < L →
      ‖fAt (ringSum σ.inner L ns (innerSignal σ L spin f)) spin (innerRings σ L ns) α
        (innerWeight G σ L ns) el m - (if |spin| ≤ el ∧ |m| ≤ el then c el m else 0)‖
      ≤ 80 * Real.pi * elfactor el * (η + (el + 1) * ε * M) := by
    intro m m0 m1
    have h1 := fAt_inner_near hv hσ hf e0 e1 m0 m1
    have h2 := fAt_inner_move hv hσ spin hM0 hM hα e0 m
    refine (norm_sub_le_norm_sub_add_norm_sub _ _ _).trans ((add_le_add h2 h1).trans (le_of_eq ?_))
    ring
  unfold symm
  split_ifs with hr hc hc
  · have h1 := key (-m) (by omega) (by omega)
    have h3 := hre hr.1 el (-m) e0 e1 (by rw [abs_neg]; exact hc.2)
    rw [neg_neg, zpow_neg, ← inv_zpow, inv_neg, inv_one] at h3
    rw [if_pos ⟨hc.1, by rw [abs_neg]; exact hc.2⟩] at h1
    rw [h3, ← mul_sub, ← map_sub, norm_mul, norm_neg_one_zpow, one_mul, Complex.norm_conj]
    exact h1
  · have h1 := key (-m) (by omega) (by omega)
    rw [if_neg (by rw [abs_neg]; exact hc), sub_zero] at h1
    rw [sub_zero, norm_mul, norm_neg_one_zpow, one_mul, Complex.norm_conj]
    exact h1
  · have h1 := key m m0 m1; rwa [if_pos hc] at h1
  · have h1 := key m m0 m1; rwa [if_neg hc] at h1

end

theorem harmonicSum_sub (lo L spin : ℤ) (c d : ℤ → ℤ → ℂ) (θ φ : ℝ) :
    harmonicSum lo L spin (fun l m => c l m - d l m) θ φ
      = harmonicSum lo L spin c θ φ - harmonicSum lo L spin d θ φ := by
  simp only [harmonicSum, sub_mul, Finset.sum_sub_distrib]

/-- The size of the coefficients bounds the expansion. -/
theorem harmonicSum_lower_le {lo : ℤ} (hlo : 0 ≤ lo) (L spin : ℤ) (c : ℤ → ℤ → ℂ) (θ φ : ℝ) :
    ‖harmonicSum lo L spin c θ φ‖ ≤ coeffSize L c := by
  unfold harmonicSum coeffSize
  refine (norm_sum_le _ _).trans ?_
  refine le_trans (Finset.sum_le_sum (g := fun l : ℤ => ∑ m ∈ Finset.Ioo (-L) L,
    √((2 * (l : ℝ) + 1) / (4 * Real.pi)) * ‖c l m‖) fun l hl => ?_)
    (Finset.sum_le_sum_of_subset_of_nonneg (Finset.Ico_subset_Ico_left hlo) fun l hl _ => by positivity)
  rw [Finset.mem_Ico] at hl
  refine (norm_sum_le _ _).trans ?_
  refine le_trans (Finset.sum_le_sum (g := fun m =>
    √((2 * (l : ℝ) + 1) / (4 * Real.pi)) * ‖c l m‖) fun m _ => ?_)
    (Finset.sum_le_sum_of_subset_of_nonneg (fun m hm => ?_) fun m _ _ => by positivity)
  · unfold sYlm
    rw [norm_mul, norm_mul, norm_cis, mul_one, norm_mul, norm_neg_one_zpow, one_mul,
      Complex.norm_real, Real.norm_eq_abs, abs_mul, abs_of_nonneg (Real.sqrt_nonneg _), mul_comm]
    have := wignerd_abs_le_one l m (-spin) θ
    have h0 := Real.sqrt_nonneg ((2 * (l : ℝ) + 1) / (4 * Real.pi))
    gcongr
    nlinarith
  · rw [Finset.mem_Ico] at hm; rw [Finset.mem_Ioo]; omega

/-- Moving the angle of an expansion. -/
theorem harmonicSum_move {lo : ℤ} (hlo : 0 ≤ lo) (L spin : ℤ) (c : ℤ → ℤ → ℂ) (θ θ' φ : ℝ) :
    ‖harmonicSum lo L spin c θ φ - harmonicSum lo L spin c θ' φ‖ ≤ L * |θ - θ'| * coeffSize L c := by
  unfold harmonicSum coeffSize
  rw [← Finset.sum_sub_distrib]
  refine (norm_sum_le _ _).trans ?_
  rw [Finset.mul_sum]
  refine le_trans (Finset.sum_le_sum (g := fun l : ℤ => L * |θ - θ'| * ∑ m ∈ Finset.Ioo (-L) L,
    √((2 * (l : ℝ) + 1) / (4 * Real.pi)) * ‖c l m‖) fun l hl => ?_)
    (Finset.sum_le_sum_of_subset_of_nonneg (Finset.Ico_subset_Ico_left hlo) fun l hl _ => ?_)
  · rw [Finset.mem_Ico] at hl
    have hl1 : (l : ℝ) + 1 ≤ L := by exact_mod_cast hl.2
    have hl0 : (0 : ℝ) ≤ l := by exact_mod_cast (by omega : 0 ≤ l)
    rw [← Finset.sum_sub_distrib, Finset.mul_sum]
    refine (norm_sum_le _ _).trans ?_
    refine le_trans (Finset.sum_le_sum (g := fun m => L * |θ - θ'|
      * (√((2 * (l : ℝ) + 1) / (4 * Real.pi)) * ‖c l m‖)) fun m _ => ?_)
      (Finset.sum_le_sum_of_subset_of_nonneg (fun m hm => ?_) fun m _ _ => ?_)
    · unfold sYlm
      rw [show ∀ a b d e z : ℂ, a * (b * d * z) - a * (b * e * z) = b * (a * (d - e) * z) from
        fun a b d e z => by ring, norm_mul, norm_neg_one_zpow, one_mul, norm_mul, norm_cis, mul_one,
        norm_mul, ← Complex.ofReal_sub, ← mul_sub, Complex.norm_real, Real.norm_eq_abs, abs_mul,
        abs_of_nonneg (Real.sqrt_nonneg _)]
      have := (wignerd_lipschitz l m (-spin) (by omega) θ θ').trans
        (mul_le_mul_of_nonneg_right hl1 (abs_nonneg (θ - θ')))
      calc ‖c l m‖ * (√((2 * (l : ℝ) + 1) / (4 * Real.pi))
            * |wignerd l m (-spin) θ - wignerd l m (-spin) θ'|)
          ≤ ‖c l m‖ * (√((2 * (l : ℝ) + 1) / (4 * Real.pi)) * (L * |θ - θ'|)) := by gcongr
        _ = _ := by ring
    · rw [Finset.mem_Ico] at hm; rw [Finset.mem_Ioo]; omega
    · have : (0 : ℝ) ≤ L := by linarith
      positivity
  · rw [Finset.mem_Ico] at hl
    have : (0 : ℝ) ≤ L := by exact_mod_cast (by omega : 0 ≤ L)
    positivity

end S2fft
