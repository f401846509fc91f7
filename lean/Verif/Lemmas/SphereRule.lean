import Verif.Lemmas.WignerOrtho
import Verif.Lemmas.WignerFourier
import Verif.Lemmas.GaussLegendre
import Verif.Spec.Harmonic

/-! # Discrete orthogonality of the Wigner functions on the sampling grids -/

namespace S2fft
open Spec

/-- Fourier coefficients of `d^l_{mn}`. -/
noncomputable def wigF (l m n k : ℤ) : ℂ :=
  Complex.I ^ (n - m) * (wignerd l k m (Real.pi / 2) * wignerd l k n (Real.pi / 2))

theorem wigF_outside {l m n : ℤ} (h : l < |m| ∨ l < |n|) (k : ℤ) : wigF l m n k = 0 := by
  unfold wigF
  rcases h with h | h
  · rw [wignerd_outside l k m _ (Or.inr h)]; simp
  · rw [wignerd_outside l k n _ (Or.inr h)]; simp

theorem wigF_large {l m n k : ℤ} (h : l < |k|) : wigF l m n k = 0 := by
  unfold wigF
  rw [wignerd_outside l k m _ (Or.inl h)]; simp

theorem wigF_parity (l m n k : ℤ) : wigF l m n (-k) = (-1) ^ (m + n) * wigF l m n k := by
  have h : ∀ m, wignerd l (-k) m (Real.pi / 2) = (-1) ^ (l + m) * wignerd l k m (Real.pi / 2) := by
    intro m
    have := wignerd_pi_sub l (-k) m (Real.pi / 2)
    rw [show Real.pi - Real.pi / 2 = Real.pi / 2 by ring, neg_neg] at this
    exact this
  unfold wigF
  rw [h m, h n]
  have e : ((-1 : ℂ)) ^ (l + m) * (-1) ^ (l + n) = (-1) ^ (m + n) := by
    rw [← zpow_add₀ (by norm_num), show l + m + (l + n) = 2 * l + (m + n) by ring,
      zpow_add₀ (by norm_num), zpow_mul]
    norm_num
  push_cast
  linear_combination (Complex.I ^ (n - m) * wignerd l k m (Real.pi / 2)
    * wignerd l k n (Real.pi / 2)) * e

theorem wignerd_trig {l L : ℤ} (hl : l < L) (m n : ℤ) (β : ℝ) :
    (wignerd l m n β : ℂ) = trigPoly L (wigF l m n) β := by
  rw [wignerd_fourier, Finset.mul_sum]
  unfold trigPoly
  symm
  rw [← Finset.sum_subset (s₁ := Finset.Ico (-l) (l + 1))]
  · apply Finset.sum_congr rfl
    intro k _
    unfold wigF; ring
  · intro k; simp only [Finset.mem_Ico, Finset.mem_Ioo]; omega
  · intro k _ hk
    rw [Finset.mem_Ico] at hk
    rw [wigF_large (by rw [lt_abs]; omega), zero_mul]

/-- Coefficients of the product of two trigonometric polynomials. -/
noncomputable def convC (L : ℤ) (c d : ℤ → ℂ) (k : ℤ) : ℂ :=
  ∑ j ∈ Finset.Ioo (-L) L, if -L < k - j ∧ k - j < L then c j * d (k - j) else 0

theorem trigPoly_mul (L : ℤ) (c d : ℤ → ℂ) (θ : ℝ) :
    trigPoly L c θ * trigPoly L d θ = trigPoly (2 * L) (convC L c d) θ := by
  unfold trigPoly convC
  rw [Finset.sum_mul_sum]
  simp only [Finset.sum_mul]
  rw [Finset.sum_comm (s := Finset.Ioo (-(2 * L)) (2 * L))]
  apply Finset.sum_congr rfl
  intro j hj
  rw [Finset.mem_Ioo] at hj
  simp only [ite_mul, zero_mul]
  rw [← Finset.sum_filter]
  apply Finset.sum_bij (fun i _ => i + j)
  · intro i hi
    rw [Finset.mem_Ioo] at hi
    simp only [Finset.mem_filter, Finset.mem_Ioo]; omega
  · intro a _ b _ h; simpa using h
  · intro b hb
    simp only [Finset.mem_filter, Finset.mem_Ioo] at hb
    exact ⟨b - j, by rw [Finset.mem_Ioo]; omega, by ring⟩
  · intro i _
    rw [show i + j - j = i by ring, show (((i + j : ℤ) : ℝ) * θ) = j * θ + i * θ by push_cast; ring,
      cis_add]
    ring

theorem convC_even {L e : ℤ} {c d : ℤ → ℂ} (hc : ∀ k, c (-k) = (-1) ^ e * c k)
    (hd : ∀ k, d (-k) = (-1) ^ e * d k) (k : ℤ) : convC L c d (-k) = convC L c d k := by
  unfold convC
  rw [← sum_Ioo_neg]
  apply Finset.sum_congr rfl
  intro j _
  have he : ((-1 : ℂ)) ^ e * (-1) ^ e = 1 := by
    rw [← zpow_add₀ (by norm_num), show e + e = 2 * e by ring, zpow_mul]; norm_num
  rw [show -k - -j = -(k - j) by ring, hc, hd]
  have : (-L < -(k - j) ∧ -(k - j) < L) ↔ (-L < k - j ∧ k - j < L) := by omega
  simp only [this]
  split_ifs
  · linear_combination (c j * d (k - j)) * he
  · rfl

/-- A rule for the colatitude that integrates even trigonometric polynomials of degree `< K`. -/
def ThetaRule (K nt : ℤ) (θ q : ℤ → ℝ) : Prop :=
  ∀ c : ℤ → ℂ, (∀ k, c (-k) = c k) →
    ∑ t ∈ Finset.Ico 0 nt, (q t : ℂ) * trigPoly K c (θ t)
      = ∫ x in (0 : ℝ)..Real.pi, trigPoly K c x * (Real.sin x : ℂ)

theorem ThetaRule.wigner {L nt : ℤ} {θ q : ℤ → ℝ} (h : ThetaRule (2 * L) nt θ q) {l l' m n : ℤ}
    (hl : l < L) (hl' : l' < L) :
    ∑ t ∈ Finset.Ico 0 nt, (q t : ℂ) * (wignerd l m n (θ t) * wignerd l' m n (θ t))
      = (wigInt l l' m n : ℂ) := by
  have h1 := h (convC L (wigF l m n) (wigF l' m n))
    (convC_even (wigF_parity l m n) (wigF_parity l' m n))
  simp only [← trigPoly_mul, ← wignerd_trig hl, ← wignerd_trig hl'] at h1
  rw [h1]
  unfold wigInt
  rw [← intervalIntegral.integral_ofReal]
  congr 1
  funext x
  push_cast
  ring

/-- Discrete orthogonality. -/
theorem ThetaRule.ortho {L nt : ℤ} {θ q : ℤ → ℝ} (h : ThetaRule (2 * L) nt θ q) {l l' m n : ℤ}
    (hl : l < L) (hl' : l' < L) (hm : |m| ≤ l) (hn : |n| ≤ l) :
    ∑ t ∈ Finset.Ico 0 nt, (q t : ℂ) * (wignerd l m n (θ t) * wignerd l' m n (θ t))
      = if l = l' then 2 / (2 * (l : ℂ) + 1) else 0 := by
  by_cases hm' : |m| ≤ l'
  · by_cases hn' : |n| ≤ l'
    · rw [h.wigner hl hl', wigInt_eq hm hm' hn hn']
      split_ifs <;> push_cast <;> rfl
    · rw [if_neg (by omega)]
      apply Finset.sum_eq_zero
      intro t _
      rw [wignerd_outside l' _ _ _ (Or.inr (by omega))]; simp
  · rw [if_neg (by omega)]
    apply Finset.sum_eq_zero
    intro t _
    rw [wignerd_outside l' _ _ _ (Or.inl (by omega))]; simp

theorem thetaRule_mwss {L : ℤ} (hL : 1 ≤ L) :
    ThetaRule L (L + 1) (fun t => t * Real.pi / L) (quad_weights_mwss_theta_only L 0) := by
  intro c hc
  rw [← quad_mwss_exact hL 0 c (by simpa using hc)]
  apply Finset.sum_congr rfl
  intro t _
  have : (L : ℝ) ≠ 0 := by exact_mod_cast (by omega : L ≠ 0)
  congr 2
  field_simp

theorem thetaRule_dh {L : ℤ} (hL : 1 ≤ L) :
    ThetaRule (2 * L) (2 * L) (fun t => (2 * t + 1) * Real.pi / (4 * L))
      (fun t => quad_weight_dh_theta_only ((2 * t + 1) * Real.pi / (4 * L)) L) :=
  fun c hc => quad_dh_exact hL c hc

/-- Exact Gauss–Legendre tables for band-limit `L`: `nodes` are the zeros of the Legendre polynomial
in increasing order, `weights` (in order of colatitude) `2 / ((1 - x²) P'(x)²)` times the azimuthal
factor `2π / (2L - 1)`. -/
structure GlExact (nodes weights : ℤ → ℤ → ℝ) (L : ℤ) : Prop where
  mono : ∀ i j, 0 ≤ i → i < j → j < L → nodes L i < nodes L j
  root : ∀ i, 0 ≤ i → i < L → (Legendre.P L.toNat).eval (nodes L i) = 0
  weight : ∀ t, 0 ≤ t → t < L → weights L t = 2 / ((1 - nodes L (L - 1 - t) ^ 2) *
    (Polynomial.derivative (Legendre.P L.toNat)).eval (nodes L (L - 1 - t)) ^ 2)
    * (2 * Real.pi / (2 * (L : ℝ) - 1))

theorem thetaRule_gl {nodes weights : ℤ → ℤ → ℝ} {L : ℤ} (hL : 1 ≤ L)
    (h : GlExact nodes weights L) :
    ThetaRule (2 * L) L (fun t => Real.arccos (nodes L (L - 1 - t)))
      (fun t => weights L t * (2 * (L : ℝ) - 1) / (2 * Real.pi)) := by
  obtain ⟨N, rfl⟩ : ∃ N : ℕ, L = N + 1 := ⟨(L - 1).toNat, by omega⟩
  obtain ⟨hmono, hroot, hw⟩ := h
  rw [show ((N : ℤ) + 1).toNat = N + 1 by omega] at hroot hw
  have habs : ∀ i : ℤ, 0 ≤ i → i < (N : ℤ) + 1 → -1 ≤ nodes (N + 1) i ∧ nodes (N + 1) i ≤ 1 := by
    intro i a b
    have := legendre_root_abs _ _ (hroot i a b)
    exact ⟨this.1.le, this.2.le⟩
  intro c hc
  have := gauss_trig N (fun t => nodes (N + 1) (N + 1 - 1 - t))
    (fun t => Real.arccos (nodes (N + 1) (N + 1 - 1 - t)))
      (fun t a b => Real.cos_arccos (habs _ (by omega) (by omega)).1
        (habs _ (by omega) (by omega)).2)
      (fun s t a b c d h => by
        have := nodes_inj N _ hmono _ _ (by omega) (by omega) (by omega) (by omega) h
        omega)
      (fun t a b => hroot _ (by omega) (by omega)) c hc
  rw [← this]
  apply Finset.sum_congr rfl
  intro t ht
  rw [Finset.mem_Ico] at ht
  congr 2
  have h1 := hw t ht.1 ht.2
  have hpi := Real.pi_ne_zero
  have h2 : (2 * (((N : ℤ) + 1 : ℤ) : ℝ) - 1) ≠ 0 := by
    push_cast
    have : (0 : ℝ) ≤ N := Nat.cast_nonneg N
    intro h; linarith
  beta_reduce
  rw [h1]
  field_simp

/-! ### Harmonic expansions are band-limited signals -/

/-- Fourier coefficients of a harmonic expansion. -/
noncomputable def harmF (lo L s : ℤ) (c : ℤ → ℤ → ℂ) (m k : ℤ) : ℂ :=
  ∑ l ∈ Finset.Ico lo L, c l m * ((-1) ^ s * (√((2 * (l : ℝ) + 1) / (4 * Real.pi)) : ℝ))
    * wigF l m (-s) k

theorem harmF_parity (lo L s : ℤ) (c : ℤ → ℤ → ℂ) : PoleParity s (harmF lo L s c) := by
  intro m k
  unfold harmF
  rw [Finset.mul_sum]
  apply Finset.sum_congr rfl
  intro l _
  rw [wigF_parity]
  have : ((-1 : ℂ)) ^ (m + -s) = (-1) ^ (m + s) := by
    rw [zpow_add₀ (by norm_num), zpow_add₀ (by norm_num), zpow_neg, ← inv_zpow, inv_neg, inv_one]
  rw [this]; ring

theorem trigPoly_harmF {lo L s : ℤ} (c : ℤ → ℤ → ℂ) (m : ℤ) (θ : ℝ) :
    trigPoly L (harmF lo L s c m) θ = ∑ l ∈ Finset.Ico lo L, c l m * ((-1) ^ s *
      (√((2 * (l : ℝ) + 1) / (4 * Real.pi)) : ℝ)) * (wignerd l m (-s) θ : ℂ) := by
  have : ∀ l ∈ Finset.Ico lo L, c l m * ((-1) ^ s *
      (√((2 * (l : ℝ) + 1) / (4 * Real.pi)) : ℝ)) * (wignerd l m (-s) θ : ℂ)
      = ∑ k ∈ Finset.Ioo (-L) L, c l m * ((-1) ^ s *
      (√((2 * (l : ℝ) + 1) / (4 * Real.pi)) : ℝ)) * wigF l m (-s) k * cis (k * θ) := by
    intro l hl
    rw [Finset.mem_Ico] at hl
    rw [wignerd_trig hl.2, trigPoly, Finset.mul_sum]
    apply Finset.sum_congr rfl
    intro k _; ring
  rw [Finset.sum_congr rfl this, Finset.sum_comm]
  unfold trigPoly harmF
  apply Finset.sum_congr rfl
  intro k _
  rw [Finset.sum_mul]

theorem harmonicSum_sph {lo L s : ℤ} (c : ℤ → ℤ → ℂ) (θ φ : ℝ) :
    harmonicSum lo L s c θ φ = sphSignal L L (harmF lo L s c) θ φ := by
  unfold sphSignal harmonicSum
  simp only [trigPoly_harmF, Finset.sum_mul]
  rw [Finset.sum_comm (s := Finset.Ioo (-L) L)]
  apply Finset.sum_congr rfl
  intro l hl
  rw [Finset.mem_Ico] at hl
  rw [← Finset.sum_subset (s₁ := Finset.Ico (-l) (l + 1)) (s₂ := Finset.Ioo (-L) L)]
  · apply Finset.sum_congr rfl
    intro m _
    unfold sYlm
    push_cast; ring
  · intro k; simp only [Finset.mem_Ico, Finset.mem_Ioo]; omega
  · intro m _ hm
    rw [Finset.mem_Ico] at hm
    rw [wignerd_outside _ _ _ _ (Or.inl (by rw [lt_abs]; omega))]; simp

/-- Fourier analysis of a band-limited signal on a ring of equidistant samples. -/
theorem ring_fourier {K M n : ℤ} (hM : 1 ≤ M) (hn : 2 * M - 1 ≤ n) (F : ℤ → ℤ → ℂ) (θ : ℝ) {m : ℤ}
    (h0 : -M < m) (h1 : m < M) :
    ∑ p ∈ Finset.Ico 0 n, sphSignal K M F θ (2 * Real.pi * p / n)
        * cis (-(m * (2 * Real.pi * p / n))) = n * trigPoly K (F m) θ := by
  have hn0 : (0 : ℤ) < n := by omega
  unfold sphSignal
  simp only [Finset.sum_mul]
  rw [Finset.sum_comm]
  have h : ∀ m' ∈ Finset.Ioo (-M) M, ∑ p ∈ Finset.Ico 0 n, trigPoly K (F m') θ *
      cis (m' * (2 * Real.pi * p / n)) * cis (-(m * (2 * Real.pi * p / n)))
      = if m' = m then n * trigPoly K (F m) θ else 0 := by
    intro m' hm'
    rw [Finset.mem_Ioo] at hm'
    have := grid_orth hn0 0 m' m
    simp only [zero_add] at this
    simp only [mul_assoc (trigPoly K (F m') θ), ← Finset.mul_sum]
    rw [this]
    by_cases e : m' = m
    · subst e; simp; ring
    · rw [if_neg e, if_neg, mul_zero]
      intro hd
      have := Int.eq_zero_of_abs_lt_dvd hd (by rw [abs_lt]; omega)
      omega
  rw [Finset.sum_congr rfl h, Finset.sum_ite_eq' (Finset.Ioo (-M) M) m, if_pos (by simp; omega)]

end S2fft
