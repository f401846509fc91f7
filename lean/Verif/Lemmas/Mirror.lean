import Verif.Spec.Mirror
import Verif.Lemmas.Adjoint

/-! # Conjugates and mirror images -/

namespace S2fft
open Spec

/-! ## Harmonics -/

theorem negOne_zpow_neg (n : ℤ) : ((-1 : ℂ)) ^ (-n) = (-1) ^ n := by
  rw [zpow_neg, ← inv_zpow, inv_neg, inv_one]

theorem sYlm_conj (s l m : ℤ) (θ φ : ℝ) :
    sYlm (-s) l m θ φ = (-1) ^ (s + m) * (starRingEnd ℂ) (sYlm s l (-m) θ φ) := by
  unfold sYlm
  have h := wignerd_neg_neg l (-m) (-s) θ
  rw [neg_neg] at h
  rw [h]
  simp only [map_mul, map_zpow₀, map_neg, map_one, Complex.conj_ofReal, conj_cis]
  push_cast
  have e : ((-1 : ℂ)) ^ (-m + -s) = (-1) ^ (s + m) := by
    rw [← negOne_zpow_neg]; congr 1; ring
  rw [e, negOne_zpow_neg, show -(-(m : ℝ) * φ) = m * φ by ring]
  ring

theorem sYlm_mirror (s l m : ℤ) (θ φ : ℝ) :
    sYlm (-s) l m (Real.pi - θ) φ = (-1) ^ (l + m) * sYlm s l m θ φ := by
  unfold sYlm
  have h := wignerd_pi_sub l m (-(-s)) θ
  have h2 := wignerd_neg_neg l m (-s) θ
  rw [h, show wignerd l (-m) (- -s) θ = (-1) ^ (m + -s) * wignerd l m (-s) θ from h2]
  push_cast
  have e : ((-1 : ℂ)) ^ (l + - -s) * (-1) ^ (m + -s) = (-1) ^ (l + m) := by
    rw [← zpow_add₀ (by norm_num)]; congr 1; ring
  rw [negOne_zpow_neg, ← e]
  ring

theorem harmonicSum_conj (lo L s : ℤ) {c c' : ℤ → ℤ → ℂ} (θ φ : ℝ)
    (h : ∀ l m, lo ≤ l → l < L → |m| ≤ l → c' l m = (-1) ^ (s + m) * (starRingEnd ℂ) (c l (-m))) :
    harmonicSum lo L (-s) c' θ φ = (starRingEnd ℂ) (harmonicSum lo L s c θ φ) := by
  unfold harmonicSum
  rw [map_sum]
  refine Finset.sum_congr rfl fun l hl => ?_
  rw [Finset.mem_Ico] at hl
  rw [map_sum]
  refine Finset.sum_bij (fun m _ => -m) ?_ ?_ ?_ ?_
  · intro m hm; rw [Finset.mem_Ico] at hm ⊢; omega
  · intro a _ b _ h; exact neg_injective h
  · intro m hm; rw [Finset.mem_Ico] at hm
    exact ⟨-m, by rw [Finset.mem_Ico]; omega, by ring⟩
  · intro m hm
    rw [Finset.mem_Ico] at hm
    rw [h l m hl.1 hl.2 (abs_le.2 ⟨hm.1, by omega⟩), sYlm_conj, map_mul]
    have e : ((-1 : ℂ)) ^ (s + m) * (-1) ^ (s + m) = 1 := by
      rw [← mul_zpow]; norm_num
    linear_combination ((starRingEnd ℂ) (c l (-m)) * (starRingEnd ℂ) (sYlm s l (-m) θ φ)) * e

theorem harmonicSum_mirror (lo L s : ℤ) {c c' : ℤ → ℤ → ℂ} (θ φ : ℝ)
    (h : ∀ l m, lo ≤ l → l < L → |m| ≤ l → c' l m = (-1) ^ (l + m) * c l m) :
    harmonicSum lo L (-s) c' (Real.pi - θ) φ = harmonicSum lo L s c θ φ := by
  unfold harmonicSum
  refine Finset.sum_congr rfl fun l hl => Finset.sum_congr rfl fun m hm => ?_
  rw [Finset.mem_Ico] at hl hm
  rw [h l m hl.1 hl.2 (abs_le.2 ⟨hm.1, by omega⟩), sYlm_mirror]
  have e : ((-1 : ℂ)) ^ (l + m) * (-1) ^ (l + m) = 1 := by
    rw [← mul_zpow]; norm_num
  linear_combination (c l m * sYlm s l m θ φ) * e

/-! ## Grids -/

/-- Grids that are their own mirror image; for `gl` this is a property of the table of nodes. -/
def MirrorGrid (nodes : ℤ → ℤ → ℝ) (σ : Scheme) (L : ℤ) : Prop :=
  σ ≠ .mw ∧ (σ = .gl → ∀ t, 0 ≤ t → t < L → nodes L (L - 1 - t) = -nodes L t)

theorem mirror_ringSize {ns t : ℤ} : ringSize ns (4 * ns - 1 - 1 - t) = ringSize ns t := by
  unfold ringSize
  congr 1
  omega

theorem mirror_ringLen {σ : Scheme} {L ns t : ℤ} :
    σ.ringLen L ns (σ.rings L ns - 1 - t) = σ.ringLen L ns t := by
  cases σ <;> first | rfl | exact mirror_ringSize

theorem mirror_shift {σ : Scheme} {L ns t : ℤ} :
    σ.shift ns (σ.rings L ns - 1 - t) = σ.shift ns t := by
  cases σ
  case healpix =>
    simp only [Scheme.shift, Scheme.rings]
    have h1 : (4 * ns - 1 - 1 - t + 1 < ns ∨ 3 * ns < 4 * ns - 1 - 1 - t + 1)
        ↔ (t + 1 < ns ∨ 3 * ns < t + 1) := by omega
    have h2 : ((4 * ns - 1 - 1 - t + 1 - ns) % 2 = 0) ↔ ((t + 1 - ns) % 2 = 0) := by omega
    simp only [h1, h2]
  all_goals rfl

theorem mirror_phi {σ : Scheme} {L ns t p : ℤ} :
    σ.phi L ns (σ.rings L ns - 1 - t) p = σ.phi L ns t p := by
  unfold Scheme.phi
  rw [mirror_ringLen, mirror_shift]

theorem mirror_has {σ : Scheme} {L ns t p : ℤ} (h : σ.Has L ns t p) :
    σ.Has L ns (σ.rings L ns - 1 - t) p := by
  obtain ⟨a, b, c, d⟩ := h
  exact ⟨by omega, by omega, c, by rw [mirror_ringLen]; exact d⟩

theorem mirror_theta {nodes : ℤ → ℤ → ℝ} {σ : Scheme} {L ns t : ℤ} (hv : σ.Valid L ns)
    (hg : MirrorGrid nodes σ L) (t0 : 0 ≤ t) (t1 : t < σ.rings L ns) :
    σ.theta nodes L ns (σ.rings L ns - 1 - t) = Real.pi - σ.theta nodes L ns t := by
  have hL : (L : ℝ) ≠ 0 := by exact_mod_cast (by have := hv.1; omega : L ≠ 0)
  cases σ with
  | mw => exact absurd rfl hg.1
  | mwss =>
    simp only [Scheme.theta, Scheme.rings]
    push_cast
    field_simp
    ring
  | dh =>
    simp only [Scheme.theta, Scheme.rings]
    push_cast
    field_simp
    ring
  | gl =>
    simp only [Scheme.theta, Scheme.rings] at t1 ⊢
    rw [hg.2 rfl t t0 t1, ← Real.arccos_neg, show L - 1 - (L - 1 - t) = t by ring, neg_neg]
  | healpix =>
    simp only [Scheme.theta, Scheme.rings] at t1 ⊢
    have hn : (1 : ℝ) ≤ ns := by exact_mod_cast hv.2 rfl
    have hn' : (ns : ℝ) ≠ 0 := by positivity
    rw [← Real.arccos_neg]
    congr 1
    unfold Scheme.healpixZ
    split_ifs with h1 h2 h3 h4 h5 h6 h7 h8
    all_goals try omega
    · obtain rfl : t = 3 * ns - 1 := by omega
      push_cast; field_simp; ring
    · push_cast; field_simp; ring
    · obtain rfl : t = ns - 1 := by omega
      push_cast; field_simp; ring
    · push_cast; field_simp; ring
    · push_cast; field_simp; ring

/-- The weights of the rings are symmetric. -/
theorem mirror_weight {G : GlTables} {σ : Scheme} {L ns t : ℤ} (hL : 1 ≤ L) (hR : ¬ σ.Resampled)
    (hg : σ = .gl → ∀ t, 0 ≤ t → t < L → G.weights L (L - 1 - t) = G.weights L t)
    (t0 : 0 ≤ t) (t1 : t < σ.rings L ns) :
    innerWeight G σ L ns (σ.rings L ns - 1 - t) = innerWeight G σ L ns t := by
  cases σ with
  | mw => exact absurd (Or.inl rfl) hR
  | mwss => exact absurd (Or.inr rfl) hR
  | dh =>
    have hL' : (L : ℝ) ≠ 0 := by exact_mod_cast (by omega : L ≠ 0)
    simp only [innerWeight, Scheme.rings, quad_weights_dh]
    rw [show (2 * ((2 * L - 1 - t : ℤ) : ℝ) + 1) * Real.pi / (4 * (L : ℝ))
      = Real.pi - (2 * (t : ℝ) + 1) * Real.pi / (4 * (L : ℝ)) by push_cast; field_simp; ring]
    congr 3
    unfold quad_weight_dh_theta_only
    rw [Real.sin_pi_sub]
    simp only
    congr 2
    funext k w
    rw [show (2 * (k : ℝ) + 1) * (Real.pi - (2 * (t : ℝ) + 1) * Real.pi / (4 * (L : ℝ)))
      = Real.pi - (2 * (k : ℝ) + 1) * ((2 * (t : ℝ) + 1) * Real.pi / (4 * (L : ℝ)))
        + (k : ℝ) * (2 * Real.pi) by ring,
      Real.sin_add_int_mul_two_pi, Real.sin_pi_sub]
  | gl => exact hg rfl t t0 t1
  | healpix => rfl

theorem glExact_mirror {nodes weights : ℤ → ℤ → ℝ} {L : ℤ} (hL : 1 ≤ L)
    (h : GlExact nodes weights L) : ∀ t, 0 ≤ t → t < L →
      nodes L (L - 1 - t) = -nodes L t ∧ weights L (L - 1 - t) = weights L t := by
  obtain ⟨N, rfl⟩ : ∃ N : ℕ, L = N + 1 := ⟨(L - 1).toNat, by omega⟩
  intro t t0 t1
  have hs : ∀ t, 0 ≤ t → t < (N : ℤ) + 1 → nodes (N + 1) (N + 1 - 1 - t) = -nodes (N + 1) t := by
    intro t t0 t1
    rw [show (N : ℤ) + 1 - 1 - t = N - t by ring]
    exact legendre_nodes_symm N (nodes (N + 1)) h.mono (by simpa using h.root) t t0 t1
  refine ⟨hs t t0 t1, ?_⟩
  rw [h.weight _ (by omega) (by omega), h.weight t t0 t1, show (N : ℤ) + 1 - 1 - (N + 1 - 1 - t) = t by ring,
    hs t t0 t1, legendre_deriv_sq, neg_sq]

/-! ## Analysis -/

theorem fAt_conj {σ : Scheme} {L ns s : ℤ} {θ w : ℤ → ℝ} {f f' : ℤ → ℤ → ℂ}
    (h : Conjugates σ L ns f f') (el m : ℤ) :
    fAt (ringSum σ L ns f') (-s) (σ.rings L ns) θ w el m
      = (-1) ^ (s + m) * (starRingEnd ℂ) (fAt (ringSum σ L ns f) s (σ.rings L ns) θ w el (-m)) := by
  rw [fAt_ringSum, fAt_ringSum]
  unfold gridSum
  rw [map_sum, Finset.mul_sum]
  refine Finset.sum_congr rfl fun t ht => ?_
  rw [map_sum, Finset.mul_sum]
  refine Finset.sum_congr rfl fun p hp => ?_
  rw [Finset.mem_Ico] at ht hp
  beta_reduce
  rw [h t p ⟨ht.1, ht.2, hp.1, hp.2⟩, sYlm_conj]
  simp only [map_mul, map_zpow₀, map_neg, map_one, Complex.conj_ofReal, Complex.conj_conj]
  ring

theorem sum_mirror (n : ℤ) (a : ℤ → ℂ) :
    ∑ t ∈ Finset.Ico 0 n, a (n - 1 - t) = ∑ t ∈ Finset.Ico 0 n, a t := by
  refine Finset.sum_bij (fun t _ => n - 1 - t) ?_ ?_ ?_ ?_
  · intro t ht; rw [Finset.mem_Ico] at ht ⊢; omega
  · intro a _ b _ h; omega
  · intro t ht; rw [Finset.mem_Ico] at ht
    exact ⟨n - 1 - t, by rw [Finset.mem_Ico]; omega, by ring⟩
  · intro t _; rfl

theorem fAt_mirror {σ : Scheme} {L ns s : ℤ} {θ w : ℤ → ℝ} {f f' : ℤ → ℤ → ℂ}
    (h : Mirrored σ L ns f f')
    (hθ : ∀ t, 0 ≤ t → t < σ.rings L ns → θ (σ.rings L ns - 1 - t) = Real.pi - θ t)
    (hw : ∀ t, 0 ≤ t → t < σ.rings L ns → w (σ.rings L ns - 1 - t) = w t) (el m : ℤ) :
    fAt (ringSum σ L ns f') (-s) (σ.rings L ns) θ w el m
      = (-1) ^ (el + m) * fAt (ringSum σ L ns f) s (σ.rings L ns) θ w el m := by
  rw [fAt_ringSum, fAt_ringSum]
  unfold gridSum
  rw [← sum_mirror, Finset.mul_sum]
  refine Finset.sum_congr rfl fun t ht => ?_
  rw [Finset.mul_sum, mirror_ringLen]
  refine Finset.sum_congr rfl fun p hp => ?_
  rw [Finset.mem_Ico] at ht hp
  beta_reduce
  rw [h t p ⟨ht.1, ht.2, hp.1, hp.2⟩, hθ t ht.1 ht.2, hw t ht.1 ht.2, mirror_phi, sYlm_mirror]
  simp only [map_mul, map_zpow₀, map_neg, map_one]
  ring

theorem realInput_conj {nodes : ℤ → ℤ → ℝ} {σ : Scheme} (hR : ¬ σ.Resampled) {L ns : ℤ}
    {f f' : ℤ → ℤ → ℂ} (h : Conjugates σ L ns f f') (hf : RealInput nodes σ L ns f) :
    RealInput nodes σ L ns f' := by
  have hR' : ¬ (σ = .mw ∨ σ = .mwss) := hR
  unfold RealInput at hf ⊢
  rw [if_neg hR'] at hf ⊢
  intro t p ht
  rw [h t p ht, Complex.conj_im, hf t p ht, neg_zero]

theorem realInput_mirror {nodes : ℤ → ℤ → ℝ} {σ : Scheme} (hR : ¬ σ.Resampled) {L ns : ℤ}
    {f f' : ℤ → ℤ → ℂ} (h : Mirrored σ L ns f f') (hf : RealInput nodes σ L ns f) :
    RealInput nodes σ L ns f' := by
  have hR' : ¬ (σ = .mw ∨ σ = .mwss) := hR
  unfold RealInput at hf ⊢
  rw [if_neg hR'] at hf ⊢
  intro t p ht
  have e := h _ p (mirror_has ht)
  rw [show σ.rings L ns - 1 - (σ.rings L ns - 1 - t) = t by ring] at e
  rw [e]
  exact hf _ p (mirror_has ht)

/-- Symmetrising the coefficients of real samples changes nothing. -/
theorem symm_plain {σ : Scheme} (hR : ¬ σ.Resampled) {L ns s : ℤ} {θ w : ℤ → ℝ} {f : ℤ → ℤ → ℂ}
    {r : Bool} (hr : r = true → s = 0)
    (hre : r = true → RealRings σ.inner L ns (innerRings σ L ns) (innerSignal σ L s f)) (l m : ℤ) :
    symm r (fAt (ringSum σ.inner L ns (innerSignal σ L s f)) s (innerRings σ L ns) θ w l) m
      = fAt (ringSum σ L ns f) s (σ.rings L ns) θ w l m := by
  have key : symm r (fAt (ringSum σ.inner L ns (innerSignal σ L s f)) s (innerRings σ L ns) θ w l) m
      = fAt (ringSum σ.inner L ns (innerSignal σ L s f)) s (innerRings σ L ns) θ w l m := by
    by_cases hr' : r = true
    · have := hr hr'
      subst this
      exact symm_realRings (hre hr') _ _ _ _ _
    · unfold symm
      rw [if_neg (by tauto)]
  rw [key, plain_inner hR, plain_signal hR, plain_rings hR]

end S2fft
