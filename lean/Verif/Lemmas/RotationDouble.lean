import Verif.Lemmas.RisboJaxDouble
import Verif.Lemmas.Rotation
import Verif.Spec.DegreeNorm
import Mathlib.Analysis.InnerProductSpace.PiL2

/-! # Rotation in double precision: helper lemmas -/

namespace S2fft
open Spec

/-! ## The Euclidean norm -/

/-- Euclidean norm of the values on a finite set. -/
noncomputable def l2 (S : Finset ℤ) (f : ℤ → ℂ) : ℝ := √(∑ i ∈ S, ‖f i‖ ^ 2)

theorem l2_eq (S : Finset ℤ) (f : ℤ → ℂ) :
    l2 S f = ‖(WithLp.toLp 2 (fun i : S => f i) : EuclideanSpace ℂ S)‖ := by
  rw [EuclideanSpace.norm_eq, l2]
  congr 1
  exact (Finset.sum_coe_sort S (fun i => ‖f i‖ ^ 2)).symm

theorem l2_nonneg (S : Finset ℤ) (f : ℤ → ℂ) : 0 ≤ l2 S f := Real.sqrt_nonneg _

theorem l2_add (S : Finset ℤ) (f g : ℤ → ℂ) : l2 S (fun i => f i + g i) ≤ l2 S f + l2 S g := by
  rw [l2_eq, l2_eq, l2_eq]
  exact norm_add_le (WithLp.toLp 2 (fun i : S => f i) : EuclideanSpace ℂ S)
    (WithLp.toLp 2 (fun i : S => g i))

theorem l2_congr {S : Finset ℤ} {f g : ℤ → ℂ} (h : ∀ i ∈ S, ‖f i‖ = ‖g i‖) : l2 S f = l2 S g := by
  unfold l2
  rw [Finset.sum_congr rfl fun i hi => by rw [h i hi]]

theorem l2_mono {S : Finset ℤ} {f g : ℤ → ℂ} (h : ∀ i ∈ S, ‖f i‖ ≤ ‖g i‖) : l2 S f ≤ l2 S g := by
  unfold l2
  exact Real.sqrt_le_sqrt (Finset.sum_le_sum fun i hi => by
    have := h i hi
    have h0 := norm_nonneg (f i)
    gcongr)

theorem l2_le {S : Finset ℤ} {f : ℤ → ℂ} {B : ℝ} (hB : 0 ≤ B) (h : ∑ i ∈ S, ‖f i‖ ^ 2 ≤ B ^ 2) :
    l2 S f ≤ B := by
  unfold l2
  rw [Real.sqrt_le_iff]
  exact ⟨hB, h⟩

theorem l2_sq (S : Finset ℤ) (f : ℤ → ℂ) : l2 S f ^ 2 = ∑ i ∈ S, ‖f i‖ ^ 2 :=
  Real.sq_sqrt (Finset.sum_nonneg fun _ _ => sq_nonneg _)

/-- A matrix applied to a real vector. -/
theorem OpLe.vec {n : ℤ} {X : ℤ → ℤ → ℝ} {e : ℝ} (h : OpLe n X e) (he : 0 ≤ e) (v : ℤ → ℝ) :
    ∑ k ∈ Finset.Ico 0 n, (∑ i ∈ Finset.Ico 0 n, X k i * v i) ^ 2
      ≤ e ^ 2 * ∑ i ∈ Finset.Ico 0 n, v i ^ 2 := by
  have key : ∀ s : ℝ, 2 * (s * ∑ k ∈ Finset.Ico 0 n, (∑ i ∈ Finset.Ico 0 n, X k i * v i) ^ 2)
      ≤ e * (s ^ 2 * ∑ k ∈ Finset.Ico 0 n, (∑ i ∈ Finset.Ico 0 n, X k i * v i) ^ 2
        + ∑ i ∈ Finset.Ico 0 n, v i ^ 2) := by
    intro s
    have := h (fun k => s * ∑ i ∈ Finset.Ico 0 n, X k i * v i) v
    have e1 : ∑ k ∈ Finset.Ico 0 n, ∑ i ∈ Finset.Ico 0 n,
        X k i * ((s * ∑ i ∈ Finset.Ico 0 n, X k i * v i) * v i)
        = s * ∑ k ∈ Finset.Ico 0 n, (∑ i ∈ Finset.Ico 0 n, X k i * v i) ^ 2 := by
      rw [Finset.mul_sum]
      refine Finset.sum_congr rfl fun k _ => ?_
      have : ∀ c : ℝ, ∑ i ∈ Finset.Ico 0 n, X k i * (c * v i) = c * ∑ i ∈ Finset.Ico 0 n, X k i * v i :=
        fun c => by
          rw [Finset.mul_sum]
          exact Finset.sum_congr rfl fun i _ => by ring
      rw [this]
      ring
    have e2 : ∑ k ∈ Finset.Ico 0 n, (s * ∑ i ∈ Finset.Ico 0 n, X k i * v i) ^ 2
        = s ^ 2 * ∑ k ∈ Finset.Ico 0 n, (∑ i ∈ Finset.Ico 0 n, X k i * v i) ^ 2 := by
      rw [Finset.mul_sum]
      exact Finset.sum_congr rfl fun i _ => by ring
    rw [e1, e2] at this
    exact le_trans (mul_le_mul_of_nonneg_left (le_abs_self _) (by norm_num)) this
  have hS : 0 ≤ ∑ k ∈ Finset.Ico 0 n, (∑ i ∈ Finset.Ico 0 n, X k i * v i) ^ 2 :=
    Finset.sum_nonneg fun _ _ => sq_nonneg _
  generalize ∑ k ∈ Finset.Ico 0 n, (∑ i ∈ Finset.Ico 0 n, X k i * v i) ^ 2 = S at *
  generalize ∑ i ∈ Finset.Ico 0 n, v i ^ 2 = V at *
  rcases eq_or_lt_of_le he with h0 | h0
  · have := key 1
    rw [← h0] at this ⊢
    linarith
  · have := key (1 / e)
    have e1 : e * ((1 / e) ^ 2 * S + V) = 1 / e * S + e * V := by field_simp
    rw [e1] at this
    have h2 : 1 / e * S ≤ e * V := by linarith
    rw [one_div, inv_mul_le_iff₀ h0] at h2
    linarith [h2, show e * (e * V) = e ^ 2 * V by ring]

/-- A real matrix applied to a complex vector. -/
theorem OpLe.l2 {n : ℤ} {X : ℤ → ℤ → ℝ} {e : ℝ} (h : OpLe n X e) (he : 0 ≤ e) (v : ℤ → ℂ) :
    S2fft.l2 (Finset.Ico 0 n) (fun k => ∑ i ∈ Finset.Ico 0 n, (X k i : ℂ) * v i)
      ≤ e * S2fft.l2 (Finset.Ico 0 n) v := by
  refine l2_le (mul_nonneg he (l2_nonneg _ _)) ?_
  rw [mul_pow, l2_sq]
  have a := h.vec he (fun i => (v i).re)
  have b := h.vec he (fun i => (v i).im)
  have e1 : ∀ z : ℂ, ‖z‖ ^ 2 = z.re ^ 2 + z.im ^ 2 := fun z => by
    rw [← Complex.normSq_eq_norm_sq, Complex.normSq_apply]; ring
  simp only [e1, Complex.re_sum, Complex.im_sum, Complex.re_ofReal_mul, Complex.im_ofReal_mul,
    Finset.sum_add_distrib]
  linarith

/-- A matrix with small entries applied to a vector. -/
theorem l2_matrix {n : ℤ} {W : ℤ → ℤ → ℝ} {y : ℤ → ℂ} {K κ : ℝ} (hκ : 0 ≤ κ)
    (hW : ∑ k ∈ Finset.Ico 0 n, ∑ i ∈ Finset.Ico 0 n, W k i ^ 2 ≤ K) :
    S2fft.l2 (Finset.Ico 0 n) (fun k => ((κ * ∑ i ∈ Finset.Ico 0 n, W k i * ‖y i‖ : ℝ) : ℂ))
      ≤ κ * √K * S2fft.l2 (Finset.Ico 0 n) y := by
  have hK : 0 ≤ K := le_trans (Finset.sum_nonneg fun _ _ => Finset.sum_nonneg fun _ _ => sq_nonneg _) hW
  refine l2_le (by have := l2_nonneg (Finset.Ico 0 n) y; positivity) ?_
  rw [mul_pow, mul_pow, l2_sq, Real.sq_sqrt hK]
  have h1 : ∀ k ∈ Finset.Ico 0 n, ‖((κ * ∑ i ∈ Finset.Ico 0 n, W k i * ‖y i‖ : ℝ) : ℂ)‖ ^ 2
      ≤ κ ^ 2 * ((∑ i ∈ Finset.Ico 0 n, W k i ^ 2) * ∑ i ∈ Finset.Ico 0 n, ‖y i‖ ^ 2) := by
    intro k _
    rw [Complex.norm_real, Real.norm_eq_abs, sq_abs, mul_pow]
    exact mul_le_mul_of_nonneg_left (Finset.sum_mul_sq_le_sq_mul_sq _ _ _) (sq_nonneg _)
  refine le_trans (Finset.sum_le_sum h1) ?_
  rw [← Finset.mul_sum, ← Finset.sum_mul, mul_assoc]
  exact mul_le_mul_of_nonneg_left (mul_le_mul_of_nonneg_right hW
    (Finset.sum_nonneg fun _ _ => sq_nonneg _)) (sq_nonneg _)

/-! ## One degree -/

theorem expArrayF_near (F : FftLib) {L m : ℤ} {x : ℝ} (hL : 1 ≤ L) (hm : |m| ≤ L) (hx : |x| ≤ 8) :
    ‖expArrayF F L x (m + L - 1) - cis (-(m * x))‖ ≤ 4 * L / 2 ^ 50 := by
  have hL0 : (1 : ℝ) ≤ L := by exact_mod_cast hL
  unfold expArrayF
  simp only [show -L + 1 + (m + L - 1) = m by ring]
  have hy : |-(m : ℝ) * x| ≤ 8 * L := by
    rw [abs_mul, abs_neg]
    have : |(m : ℝ)| ≤ L := by exact_mod_cast hm
    calc |(m : ℝ)| * |x| ≤ L * 8 := by gcongr
      _ = 8 * L := by ring
  have h1 := fl_near F.nearest hy (le_trans (by norm_num : (1 : ℝ) / 2 ^ 200 ≤ 8) (by linarith))
  generalize F.fl (-(m : ℝ) * x) = y at h1
  have e : cis (-(m * x)) = ⟨Real.cos (-(m : ℝ) * x), Real.sin (-(m : ℝ) * x)⟩ := by
    rw [neg_mul]
    generalize -((m : ℝ) * x) = z
    unfold cis
    apply Complex.ext
    · exact Complex.exp_ofReal_mul_I_re z
    · exact Complex.exp_ofReal_mul_I_im z
  rw [e]
  generalize -(m : ℝ) * x = z at h1
  refine le_trans (Complex.norm_le_abs_re_add_abs_im _) ?_
  simp only [Complex.sub_re, Complex.sub_im]
  have c1 := F.cos_near y
  have c2 := Real.abs_cos_sub_cos_le y z
  have c3 := abs_sub_le (F.cos y) (Real.cos y) (Real.cos z)
  have s1 := F.sin_near y
  have s2 := Real.abs_sin_sub_sin_le y z
  have s3 := abs_sub_le (F.sin y) (Real.sin y) (Real.sin z)
  norm_num at c1 s1 h1 ⊢
  linarith

/-- Errors of the factors of one term. -/
theorem rotTerm_near {d q t : ℝ} {a b A G f : ℂ} (hA : ‖A‖ = 1) (hG : ‖G‖ = 1) (hd : |d| ≤ 2)
    (hq : 1 / 2 ^ 60 ≤ q) (hq' : q ≤ 1 / 2) (ht : 0 ≤ t) (ht' : t ≤ 1 / 2 ^ 300)
    (ha : ‖a - d * A‖ ≤ q * |d| + t) (hb : ‖b - G * f‖ ≤ q * ‖f‖ + t) :
    ‖a * b - d * A * (G * f)‖ ≤ 3 * q * ((|d| + 1 / 2 ^ 140) * ‖f‖) + 4 * t ∧
      ‖a‖ * ‖b‖ ≤ 4 * ((|d| + 1 / 2 ^ 140) * ‖f‖) + 4 * t := by
  have h1 : ‖(d : ℂ) * A‖ = |d| := by rw [norm_mul, hA, mul_one, Complex.norm_real, Real.norm_eq_abs]
  have h2 : ‖G * f‖ = ‖f‖ := by rw [norm_mul, hG, one_mul]
  have hna : ‖a‖ ≤ (1 + q) * |d| + t := by
    have := norm_sub_norm_le a (d * A)
    rw [h1] at this; linarith
  have hnb : ‖b‖ ≤ (1 + q) * ‖f‖ + t := by
    have := norm_sub_norm_le b (G * f)
    rw [h2] at this; linarith
  have hx := abs_nonneg d
  have hy := norm_nonneg f
  have hmain : ‖a * b - d * A * (G * f)‖ ≤ (q * |d| + t) * ((1 + q) * ‖f‖ + t) + |d| * (q * ‖f‖ + t) := by
    rw [show a * b - d * A * (G * f) = (a - d * A) * b + d * A * (b - G * f) by ring]
    refine le_trans (norm_add_le _ _) ?_
    rw [norm_mul, norm_mul (↑d * A), h1]
    have : 0 ≤ q := le_trans (by positivity) hq
    gcongr
  have hprod : ‖a‖ * ‖b‖ ≤ ((1 + q) * |d| + t) * ((1 + q) * ‖f‖ + t) := by
    have : 0 ≤ q := le_trans (by positivity) hq
    exact mul_le_mul hna hnb (norm_nonneg _) (by positivity)
  generalize ‖a‖ * ‖b‖ = P at *
  generalize ‖a * b - d * A * (G * f)‖ = Q at *
  generalize |d| = x at *
  generalize ‖f‖ = y at *
  have q0 : 0 ≤ q := le_trans (by positivity) hq
  have tη : t ≤ q * (1 / 2 ^ 140) := by
    refine le_trans ht' (le_trans (b := 1 / 2 ^ 60 * (1 / 2 ^ 140)) ?_ (by gcongr))
    rw [one_div_mul_one_div, ← pow_add]
    exact one_div_le_one_div_of_le (by positivity) (pow_le_pow_right₀ (by norm_num) (by norm_num))
  have t1 : t ≤ 1 := le_trans ht' (by rw [div_le_one (by positivity)]; exact one_le_pow₀ (by norm_num))
  have η0 : (0 : ℝ) ≤ 1 / 2 ^ 140 := by positivity
  generalize (1 : ℝ) / 2 ^ 140 = η at *
  clear ht' hq ha hb hna hnb h1 h2 hA hG
  have xy : 0 ≤ x * y := mul_nonneg hx hy
  have ty : 0 ≤ t * y := mul_nonneg ht hy
  have tx : t * x ≤ t * 2 := by gcongr
  have tq : t * y * q ≤ t * y * (1 / 2) := by gcongr
  have qxy : q * (x * y) * q ≤ q * (x * y) * (1 / 2) := by gcongr
  have tqx : t * x * q ≤ t * 2 * (1 / 2) := by gcongr
  have tt : t * t ≤ t * 1 := by gcongr
  have ty2 : t * y ≤ q * η * y := by gcongr
  have qq : q * (x * y) ≤ 1 / 2 * (x * y) := by gcongr
  have ηy : q * η * y ≤ 1 / 2 * η * y := by gcongr
  have ηy0 : 0 ≤ η * y := mul_nonneg η0 hy
  constructor
  · refine le_trans hmain ?_
    have e1 : (q * x + t) * ((1 + q) * y + t) + x * (q * y + t)
        = 2 * (q * (x * y)) + q * (x * y) * q + t * x * q + t * y + t * y * q + t * t + t * x := by ring
    have e2 : 3 * q * ((x + η) * y) + 4 * t = 3 * (q * (x * y)) + 3 * (q * η * y) + 4 * t := by ring
    have q1 : 0 ≤ q * (x * y) := mul_nonneg q0 xy
    rw [e1, e2]
    linarith
  · refine le_trans hprod ?_
    have e1 : ((1 + q) * x + t) * ((1 + q) * y + t)
        = x * y + 2 * (q * (x * y)) + q * (x * y) * q + t * x + t * x * q + t * y + t * y * q + t * t := by
      ring
    have e2 : 4 * ((x + η) * y) + 4 * t = 4 * (x * y) + 4 * (η * y) + 4 * t := by ring
    rw [e1, e2]
    linarith

/-- One entry of the rotated degree. -/
theorem rotateDegreeF_near (F : FftLib) {plane : ℤ → ℤ → ℝ} {L l m : ℤ} {α γ : ℝ} (h0 : 0 ≤ l)
    (hl : l < L) (hL : L ≤ 2 ^ 28) (hm : |m| ≤ l) (hα : |α| ≤ 8) (hγ : |γ| ≤ 8)
    (hp : ∀ i, 0 ≤ i → i < 2 * l + 1 → |plane (m + L - 1) (i - l + L - 1)| ≤ 2) (flm : ℤ → ℤ → ℂ) :
    ‖rotateDegreeF F plane (expArrayF F L α) (expArrayF F L γ) flm L l m
      - ∑ i ∈ Finset.Ico 0 (2 * l + 1), (plane (m + L - 1) (i - l + L - 1) : ℂ) * cis (-(m * α))
        * (cis (-((i - l : ℤ) * γ)) * flm l (i - l + L - 1))‖
      ≤ L / 2 ^ 45 * (∑ i ∈ Finset.Ico 0 (2 * l + 1), (|plane (m + L - 1) (i - l + L - 1)|
        + 1 / 2 ^ 140) * ‖flm l (i - l + L - 1)‖) + 6 * (2 * l + 1 : ℤ) * (1 / 2 ^ 1000) := by
  have hL1 : (1 : ℝ) ≤ L := by exact_mod_cast (by omega : 1 ≤ L)
  have hL2 : (L : ℝ) ≤ 2 ^ 28 := by exact_mod_cast hL
  unfold rotateDegreeF
  simp only [min_eq_left (show l ≤ L - 1 by omega)]
  obtain ⟨t, ht⟩ : ∃ t : ℝ, t = 1 / 2 ^ 1000 := ⟨_, rfl⟩
  have t0 : 0 ≤ t := by rw [ht]; positivity
  have t1 : t ≤ 1 / 2 ^ 300 := by
    rw [ht]
    exact one_div_le_one_div_of_le (by positivity) (pow_le_pow_right₀ (by norm_num) (by norm_num))
  obtain ⟨q, hq⟩ : ∃ q : ℝ, q = L / 2 ^ 47 := ⟨_, rfl⟩
  have q0 : 1 / 2 ^ 60 ≤ q := by rw [hq]; norm_num; linarith
  have q1 : q ≤ 1 / 2 := by rw [hq]; norm_num at hL2 ⊢; linarith
  have unit : ∀ x : ℝ, ‖cis x‖ = 1 := fun x => by
    unfold cis; exact Complex.norm_exp_ofReal_mul_I x
  have hmul : ∀ (u v w : ℂ), ‖w‖ = 1 → ‖v - w‖ ≤ 4 * L / 2 ^ 50 →
      ‖F.mul u v - u * w‖ ≤ q * ‖u‖ + t := by
    intro u v w hw hv
    have h1 := F.mul_near u v
    rw [← ht] at h1
    have h2 : ‖v‖ ≤ 2 := by
      have := norm_sub_norm_le v w
      rw [hw] at this
      norm_num at hv hL2
      linarith
    have h3 : ‖u * v - u * w‖ ≤ ‖u‖ * (4 * L / 2 ^ 50) := by
      rw [← mul_sub, norm_mul]; gcongr
    have h4 := norm_sub_le_norm_sub_add_norm_sub (F.mul u v) (u * v) (u * w)
    have h5 : ‖u‖ * ‖v‖ / 2 ^ 50 ≤ ‖u‖ * 2 / 2 ^ 50 := by gcongr
    have h6 : ‖u‖ * 2 ≤ ‖u‖ * (2 * L) := by gcongr; linarith
    rw [hq]
    have hu := norm_nonneg u
    have h7 : 0 ≤ ‖u‖ * L := by positivity
    clear t1 ht q0 q1
    norm_num at h5 h3 h1 ⊢
    linarith
  have hmul' : ∀ (u v w : ℂ), ‖w‖ = 1 → ‖v - w‖ ≤ 4 * L / 2 ^ 50 →
      ‖F.mul v u - w * u‖ ≤ q * ‖u‖ + t := by
    intro u v w hw hv
    have h1 := F.mul_near v u
    rw [← ht] at h1
    have h2 : ‖v‖ ≤ 2 := by
      have := norm_sub_norm_le v w
      rw [hw] at this
      norm_num at hv hL2
      linarith
    have h3 : ‖v * u - w * u‖ ≤ ‖u‖ * (4 * L / 2 ^ 50) := by
      rw [← sub_mul, norm_mul, mul_comm]; gcongr
    have h4 := norm_sub_le_norm_sub_add_norm_sub (F.mul v u) (v * u) (w * u)
    have h5 : ‖v‖ * ‖u‖ / 2 ^ 50 ≤ 2 * ‖u‖ / 2 ^ 50 := by gcongr
    have h6 : ‖u‖ * 2 ≤ ‖u‖ * (2 * L) := by gcongr; linarith
    rw [hq]
    have hu := norm_nonneg u
    have h7 : 0 ≤ ‖u‖ * L := by positivity
    clear t1 ht q0 q1
    norm_num at h5 h3 h1 ⊢
    linarith
  have term : ∀ i ∈ Finset.Ico 0 (2 * l + 1),
      ‖F.mul (plane (m + L - 1) (i - l + L - 1) : ℂ) (expArrayF F L α (m + L - 1))
          * F.mul (expArrayF F L γ (i - l + L - 1)) (flm l (i - l + L - 1))
        - (plane (m + L - 1) (i - l + L - 1) : ℂ) * cis (-(m * α))
          * (cis (-((i - l : ℤ) * γ)) * flm l (i - l + L - 1))‖
        ≤ 3 * q * ((|plane (m + L - 1) (i - l + L - 1)| + 1 / 2 ^ 140) * ‖flm l (i - l + L - 1)‖)
          + 4 * t ∧
      ‖F.mul (plane (m + L - 1) (i - l + L - 1) : ℂ) (expArrayF F L α (m + L - 1))‖
          * ‖F.mul (expArrayF F L γ (i - l + L - 1)) (flm l (i - l + L - 1))‖
        ≤ 4 * ((|plane (m + L - 1) (i - l + L - 1)| + 1 / 2 ^ 140) * ‖flm l (i - l + L - 1)‖)
          + 4 * t := by
    intro i hi
    rw [Finset.mem_Ico] at hi
    refine rotTerm_near (unit _) (unit _) (hp i hi.1 hi.2) q0 q1 t0 t1 ?_ ?_
    · have := hmul (plane (m + L - 1) (i - l + L - 1) : ℂ) _ _ (unit _)
        (expArrayF_near F (by omega) (m := m) (by omega) hα)
      rwa [Complex.norm_real, Real.norm_eq_abs] at this
    · exact hmul' _ _ _ (unit _) (expArrayF_near F (by omega) (m := i - l) (by rw [abs_le]; omega) hγ)
  have dot := F.dot_near (2 * l + 1)
    (fun i => F.mul (plane (m + L - 1) (i - l + L - 1) : ℂ) (expArrayF F L α (m + L - 1)))
    (fun i => F.mul (expArrayF F L γ (i - l + L - 1)) (flm l (i - l + L - 1))) (by omega)
  have hcard : ((Finset.Ico 0 (2 * l + 1)).card : ℝ) = (2 * l + 1 : ℤ) := by
    rw [Int.card_Ico, sub_zero]
    exact_mod_cast Int.toNat_of_nonneg (by omega)
  have s1 : ‖∑ i ∈ Finset.Ico 0 (2 * l + 1),
        F.mul (plane (m + L - 1) (i - l + L - 1) : ℂ) (expArrayF F L α (m + L - 1))
          * F.mul (expArrayF F L γ (i - l + L - 1)) (flm l (i - l + L - 1))
      - ∑ i ∈ Finset.Ico 0 (2 * l + 1), (plane (m + L - 1) (i - l + L - 1) : ℂ) * cis (-(m * α))
          * (cis (-((i - l : ℤ) * γ)) * flm l (i - l + L - 1))‖
      ≤ 3 * q * (∑ i ∈ Finset.Ico 0 (2 * l + 1), (|plane (m + L - 1) (i - l + L - 1)|
        + 1 / 2 ^ 140) * ‖flm l (i - l + L - 1)‖) + (2 * l + 1 : ℤ) * (4 * t) := by
    rw [← Finset.sum_sub_distrib]
    refine le_trans (norm_sum_le _ _) (le_trans (Finset.sum_le_sum fun i hi => (term i hi).1) ?_)
    rw [Finset.sum_add_distrib, ← Finset.mul_sum, Finset.sum_const, nsmul_eq_mul, hcard]
  have s2 : ∑ i ∈ Finset.Ico 0 (2 * l + 1),
        ‖F.mul (plane (m + L - 1) (i - l + L - 1) : ℂ) (expArrayF F L α (m + L - 1))‖
          * ‖F.mul (expArrayF F L γ (i - l + L - 1)) (flm l (i - l + L - 1))‖
      ≤ 4 * (∑ i ∈ Finset.Ico 0 (2 * l + 1), (|plane (m + L - 1) (i - l + L - 1)|
        + 1 / 2 ^ 140) * ‖flm l (i - l + L - 1)‖) + (2 * l + 1 : ℤ) * (4 * t) := by
    refine le_trans (Finset.sum_le_sum fun i hi => (term i hi).2) ?_
    rw [Finset.sum_add_distrib, ← Finset.mul_sum, Finset.sum_const, nsmul_eq_mul, hcard]
  have hS0 : 0 ≤ ∑ i ∈ Finset.Ico 0 (2 * l + 1), (|plane (m + L - 1) (i - l + L - 1)|
        + 1 / 2 ^ 140) * ‖flm l (i - l + L - 1)‖ := Finset.sum_nonneg fun _ _ => by positivity
  generalize ∑ i ∈ Finset.Ico 0 (2 * l + 1), (|plane (m + L - 1) (i - l + L - 1)|
        + 1 / 2 ^ 140) * ‖flm l (i - l + L - 1)‖ = S at *
  have hN : ((2 * l + 1 : ℤ) : ℝ) ≤ 2 * L := by exact_mod_cast (by omega : 2 * l + 1 ≤ 2 * L)
  have hN0 : (0 : ℝ) ≤ (2 * l + 1 : ℤ) := by exact_mod_cast (by omega : 0 ≤ 2 * l + 1)
  rw [show ((2 * l + 1 : ℤ) : ℝ) / 2 ^ 1000 = (2 * l + 1 : ℤ) * t by rw [ht]; ring] at dot
  rw [← ht]
  generalize ((2 * l + 1 : ℤ) : ℝ) = N at *
  refine le_trans (norm_sub_le_norm_sub_add_norm_sub _ _ _) (le_trans (add_le_add dot s1) ?_)
  have s3 := mul_le_mul_of_nonneg_left s2 (show 0 ≤ N / 2 ^ 50 by positivity)
  refine le_trans (add_le_add (add_le_add s3 le_rfl) le_rfl) ?_
  have e1 : N / 2 ^ 50 * (4 * S + N * (4 * t)) = 4 / 2 ^ 50 * (N * S) + 4 * N / 2 ^ 50 * (N * t) := by
    ring
  have h1 : N * S ≤ 2 * L * S := by gcongr
  have h2 : 4 * N / 2 ^ 50 * (N * t) ≤ 1 * (N * t) := by
    refine mul_le_mul_of_nonneg_right ?_ (by positivity)
    rw [div_le_one (by positivity)]
    norm_num at hL2 ⊢; linarith
  rw [e1, hq]
  clear t1 ht q0 q1 term hmul hmul' dot s1 s2 s3
  have h3 : 0 ≤ L * S := by positivity
  norm_num at h1 h2 ⊢
  linarith

/-- The Euclidean norm of the error in one degree. -/
theorem rotateDegreeF_l2 (F : FftLib) {plane : ℤ → ℤ → ℝ} {L l : ℤ} {α β γ : ℝ} (h0 : 0 ≤ l)
    (hl : l < L) (hL : L ≤ 2 ^ 28) (hα : |α| ≤ 8) (hγ : |γ| ≤ 8) (hp : HoldsNear plane L l β)
    (flm : ℤ → ℤ → ℂ) :
    l2 (Finset.Ico 0 (2 * l + 1)) (fun k =>
        rotateDegreeF F plane (expArrayF F L α) (expArrayF F L γ) flm L l (k - l)
          - rotCoef α β γ (fun l n => flm l (n + L - 1)) l (k - l))
      ≤ L * √(L : ℝ) / 2 ^ 42 * l2 (Finset.Ico 0 (2 * l + 1)) (fun i => flm l (i - l + L - 1))
        + 1 / 2 ^ 900 := by
  have hL1 : (1 : ℝ) ≤ L := by exact_mod_cast (by omega : 1 ≤ L)
  have hN1 : (1 : ℝ) ≤ (2 * l + 1 : ℤ) := by exact_mod_cast (by omega : 1 ≤ 2 * l + 1)
  have hN : ((2 * l + 1 : ℤ) : ℝ) ≤ 2 * L := by exact_mod_cast (by omega : 2 * l + 1 ≤ 2 * L)
  have hN2 : ((2 * l + 1 : ℤ) : ℝ) ≤ 2 ^ 29 := by exact_mod_cast (by omega : 2 * l + 1 ≤ 2 ^ 29)
  have half : risboErr l ≤ 1 / 2 :=
    le_trans (risboErr_le h0 (n := 2 ^ 14) (by omega) (by norm_num)) (by norm_num)
  have unit : ∀ x : ℝ, ‖cis x‖ = 1 := fun x => by
    unfold cis; exact Complex.norm_exp_ofReal_mul_I x
  obtain ⟨D, hD⟩ : ∃ D : ℤ → ℤ → ℝ, D = fun k i => plane (k - l + L - 1) (i - l + L - 1) := ⟨_, rfl⟩
  have hDle : OpLe (2 * l + 1) D (3 / 2) := by
    have hU := opLe_U (Real.cos_sq_add_sin_sq (β / 2)) (2 * l) (by omega)
    refine ((hp.1.add hU).mono (by linarith)).congr fun k i _ _ _ _ => ?_
    rw [hD]; ring
  -- the sums with the computed plane
  have near : ∀ k ∈ Finset.Ico 0 (2 * l + 1),
      ‖rotateDegreeF F plane (expArrayF F L α) (expArrayF F L γ) flm L l (k - l)
        - ∑ i ∈ Finset.Ico 0 (2 * l + 1), (D k i : ℂ) * cis (-((k - l : ℤ) * α))
          * (cis (-((i - l : ℤ) * γ)) * flm l (i - l + L - 1))‖
      ≤ ‖((L / 2 ^ 45 * ∑ i ∈ Finset.Ico 0 (2 * l + 1), blockAbs (2 * l + 1) D k i
          * ‖flm l (i - l + L - 1)‖ : ℝ) : ℂ) + ((6 * (2 * l + 1 : ℤ) * (1 / 2 ^ 1000) : ℝ) : ℂ)‖ := by
    intro k hk
    rw [Finset.mem_Ico] at hk
    have h := rotateDegreeF_near F (plane := plane) (m := k - l) h0 hl hL (by rw [abs_le]; omega) hα hγ
      (fun i h1 h2 => by
        have := hDle.entry hk.1 hk.2 h1 h2
        rw [hD] at this
        linarith) flm
    have e1 : ∀ i ∈ Finset.Ico 0 (2 * l + 1),
        (|plane (k - l + L - 1) (i - l + L - 1)| + 1 / 2 ^ 140) * ‖flm l (i - l + L - 1)‖
          = blockAbs (2 * l + 1) D k i * ‖flm l (i - l + L - 1)‖ := by
      intro i hi
      rw [Finset.mem_Ico] at hi
      rw [blockAbs, if_pos ⟨hk, hi⟩, hD]
    rw [Finset.sum_congr rfl e1] at h
    rw [← Complex.ofReal_add, Complex.norm_real, Real.norm_eq_abs]
    rw [hD]
    rw [hD] at h
    exact le_trans h (le_abs_self _)
  have n1 := le_trans (l2_mono near) (l2_add _ _ _)
  -- the first part of the bound
  have sq := sum_blockAbs (j := 2 * l + 1) (a := 0) (b := 0) (by omega) (by omega) (Or.inl rfl)
    (Or.inl rfl) hDle le_rfl
  simp only [sub_zero] at sq
  have sq' : ∑ k ∈ Finset.Ico 0 (2 * l + 1), ∑ i ∈ Finset.Ico 0 (2 * l + 1),
      blockAbs (2 * l + 1) D k i ^ 2 ≤ 3 * (2 * l + 1 : ℤ) := by
    refine le_trans ?_ sq
    have sub : Finset.Ico 0 (2 * l + 1) ⊆ Finset.Ico 0 (2 * l + 1 + 1) :=
      Finset.Ico_subset_Ico_right (by omega)
    refine le_trans (Finset.sum_le_sum fun k _ =>
      Finset.sum_le_sum_of_subset_of_nonneg sub fun _ _ _ => sq_nonneg _) ?_
    exact Finset.sum_le_sum_of_subset_of_nonneg sub fun _ _ _ =>
      Finset.sum_nonneg fun _ _ => sq_nonneg _
  have n2 := l2_matrix (y := fun i => flm l (i - l + L - 1)) (κ := (L : ℝ) / 2 ^ 45) (by positivity) sq'
  have root : √(3 * (2 * l + 1 : ℤ) : ℝ) ≤ 3 * √(L : ℝ) := by
    rw [show 3 * √(L : ℝ) = √(9 * L) by
      rw [Real.sqrt_mul (by norm_num), show (9 : ℝ) = 3 ^ 2 by norm_num, Real.sqrt_sq (by norm_num)]]
    exact Real.sqrt_le_sqrt (by linarith)
  -- the second
  have n3 : l2 (Finset.Ico 0 (2 * l + 1))
      (fun _ => ((6 * (2 * l + 1 : ℤ) * (1 / 2 ^ 1000) : ℝ) : ℂ)) ≤ 1 / 2 ^ 900 := by
    have hcard : ((Finset.Ico 0 (2 * l + 1)).card : ℝ) = (2 * l + 1 : ℤ) := by
      rw [Int.card_Ico, sub_zero]
      exact_mod_cast Int.toNat_of_nonneg (by omega)
    refine l2_le (by positivity) ?_
    rw [Finset.sum_const, nsmul_eq_mul, hcard, Complex.norm_real, Real.norm_eq_abs, sq_abs]
    generalize ((2 * l + 1 : ℤ) : ℝ) = N at *
    have e : ((1 : ℝ) / 2 ^ 1000) = 1 / 2 ^ 900 * (1 / 2 ^ 100) := by
      rw [one_div_mul_one_div, ← pow_add]
    rw [e, show N * (6 * N * (1 / 2 ^ 900 * (1 / 2 ^ 100))) ^ 2
      = (1 / 2 ^ 900) ^ 2 * (36 * N ^ 3 * (1 / 2 ^ 100) ^ 2) by ring]
    refine mul_le_of_le_one_right (by positivity) ?_
    have : N ^ 3 ≤ (2 ^ 29) ^ 3 := by gcongr
    norm_num at this ⊢
    linarith
  -- the error of the plane
  have n4 : l2 (Finset.Ico 0 (2 * l + 1)) (fun k =>
      ∑ i ∈ Finset.Ico 0 (2 * l + 1), (D k i : ℂ) * cis (-((k - l : ℤ) * α))
          * (cis (-((i - l : ℤ) * γ)) * flm l (i - l + L - 1))
        - rotCoef α β γ (fun l n => flm l (n + L - 1)) l (k - l))
      ≤ risboErr l * l2 (Finset.Ico 0 (2 * l + 1)) (fun i => flm l (i - l + L - 1)) := by
    have e1 := hp.1.l2 (risboErr_nonneg h0)
      (fun i => cis (-((i - l : ℤ) * γ)) * flm l (i - l + L - 1))
    rw [l2_congr (f := fun i => cis (-((i - l : ℤ) * γ)) * flm l (i - l + L - 1))
      (g := fun i => flm l (i - l + L - 1)) (fun i _ => by rw [norm_mul, unit, one_mul])] at e1
    refine le_trans (le_of_eq (l2_congr fun k hk => ?_)) e1
    have e2 : rotCoef α β γ (fun l n => flm l (n + L - 1)) l (k - l)
        = ∑ i ∈ Finset.Ico 0 (2 * l + 1), cis (-((k - l : ℤ) * α))
          * wignerd l (k - l) (i - l) β * cis (-((i - l : ℤ) * γ)) * flm l (i - l + L - 1) := by
      unfold rotCoef
      have := sum_Ico_shift 0 (2 * l + 1) (-l) (fun n => cis (-((k - l : ℤ) * α))
        * wignerd l (k - l) n β * cis (-(n * γ)) * flm l (n + L - 1))
      rw [show 0 + -l = -l by ring, show 2 * l + 1 + -l = l + 1 by ring] at this
      rw [this]
      rfl
    rw [e2, ← Finset.sum_sub_distrib]
    have e3 : ∀ i ∈ Finset.Ico 0 (2 * l + 1),
        (D k i : ℂ) * cis (-((k - l : ℤ) * α)) * (cis (-((i - l : ℤ) * γ)) * flm l (i - l + L - 1))
          - cis (-((k - l : ℤ) * α)) * wignerd l (k - l) (i - l) β * cis (-((i - l : ℤ) * γ))
            * flm l (i - l + L - 1)
        = cis (-((k - l : ℤ) * α)) * (((plane (k - l + L - 1) (i - l + L - 1)
          - U (Real.cos (β / 2)) (Real.sin (β / 2)) (-Real.sin (β / 2)) (Real.cos (β / 2)) (2 * l) k i
            : ℝ) : ℂ) * (cis (-((i - l : ℤ) * γ)) * flm l (i - l + L - 1))) := by
      intro i _
      rw [wignerd_eq_U, show l + (k - l) = k by ring, show l + (i - l) = i by ring, hD]
      push_cast
      ring
    rw [Finset.sum_congr rfl e3, ← Finset.mul_sum, norm_mul, unit, one_mul]
  have tri := l2_add (Finset.Ico 0 (2 * l + 1))
    (fun k => rotateDegreeF F plane (expArrayF F L α) (expArrayF F L γ) flm L l (k - l)
        - ∑ i ∈ Finset.Ico 0 (2 * l + 1), (D k i : ℂ) * cis (-((k - l : ℤ) * α))
          * (cis (-((i - l : ℤ) * γ)) * flm l (i - l + L - 1)))
    (fun k => ∑ i ∈ Finset.Ico 0 (2 * l + 1), (D k i : ℂ) * cis (-((k - l : ℤ) * α))
          * (cis (-((i - l : ℤ) * γ)) * flm l (i - l + L - 1))
        - rotCoef α β γ (fun l n => flm l (n + L - 1)) l (k - l))
  simp only [sub_add_sub_cancel] at tri
  refine le_trans tri (le_trans (add_le_add n1 n4) ?_)
  have y0 := l2_nonneg (Finset.Ico 0 (2 * l + 1)) (fun i => flm l (i - l + L - 1))
  have r1 : risboErr l ≤ L * √(L : ℝ) / 2 ^ 44 := by
    unfold risboErr
    have : (l : ℝ) + 1 ≤ L := by exact_mod_cast (by omega : l + 1 ≤ L)
    have : (0 : ℝ) ≤ l := by exact_mod_cast h0
    gcongr
  have r2 : (L : ℝ) / 2 ^ 45 * √(3 * (2 * l + 1 : ℤ) : ℝ) ≤ L / 2 ^ 45 * (3 * √(L : ℝ)) := by gcongr
  generalize l2 (Finset.Ico 0 (2 * l + 1)) (fun i => flm l (i - l + L - 1)) = y at *
  have r3 : (L : ℝ) / 2 ^ 45 * √(3 * (2 * l + 1 : ℤ) : ℝ) + risboErr l ≤ L * √(L : ℝ) / 2 ^ 42 := by
    have : 0 ≤ L * √(L : ℝ) := by positivity
    refine le_trans (add_le_add r2 r1) ?_
    norm_num
    linarith
  have r4 := mul_le_mul_of_nonneg_right r3 y0
  rw [add_mul] at r4
  have := add_le_add n2 n3
  linarith

/-! ## The loops -/

theorem addOrders_of (a : ℤ → ℤ → ℂ) (el L : ℤ) (v : ℤ → ℂ) (l m : ℤ) :
    addOrders a el L v l (m + L - 1)
      = if l = el ∧ |m| ≤ el then a l (m + L - 1) + v m else a l (m + L - 1) := by
  unfold addOrders
  rw [show m + L - 1 - (L - 1) = m by ring]
  have : (l = el ∧ (L - 1 - el ≤ m + L - 1 ∧ m + L - 1 < L + el)) ↔ (l = el ∧ |m| ≤ el) := by
    rw [abs_le]; omega
  simp only [this]

/-- The planes met by the loops. -/
def PlanesNear (s : ℤ → ℤ → ℝ) (L el : ℤ) (β : ℝ) : Prop :=
  if el = 0 then ∀ m n : ℤ, s (m + L - 1) (n + L - 1) = 0 else HoldsNear s L (el - 1) β

theorem PlanesNear.step (F : XlaLib) {s : ℤ → ℤ → ℝ} {L el : ℤ} {β : ℝ} (h : PlanesNear s L el β)
    (h0 : 0 ≤ el) (hel : el < L) (hL : L ≤ 2 ^ 28) (hβ : |β| ≤ 4) :
    HoldsNear (risboFullJ F s β L el) L el β :=
  risboFullJ_near F h0 (by omega) hβ (by rw [sub_self, abs_zero]; positivity) h

theorem HoldsNear.next {s : ℤ → ℤ → ℝ} {L el : ℤ} {β : ℝ} (h0 : 0 ≤ el) (h : HoldsNear s L el β) :
    PlanesNear s L (el + 1) β := by
  unfold PlanesNear
  rw [if_neg (by omega), add_sub_cancel_right]
  exact h

theorem rotateFlmsF_none (F : XlaLib) (flm : ℤ → ℤ → ℂ) {L l : ℤ} {α β γ : ℝ} (h0 : 0 ≤ l)
    (hl : l < L) (hL : L ≤ 2 ^ 28) (hβ : |β| ≤ 4) :
    ∃ plane, HoldsNear plane L l β ∧ ∀ m, rotateFlmsF F flm L (α, β, γ) none l (m + L - 1)
      = if |m| ≤ l then rotateDegreeF F.toFftLib plane (expArrayF F.toFftLib L α)
        (expArrayF F.toFftLib L γ) flm L l m else 0 := by
  unfold rotateFlmsF
  simp only
  have := forRange_ind (by omega : (0 : ℤ) ≤ L)
    (fun el (s : (ℤ → ℤ → ℝ) × (ℤ → ℤ → ℂ)) =>
      (risboFullJ F s.1 β L el, addOrders s.2 el L
        (rotateDegreeF F.toFftLib (risboFullJ F s.1 β L el) (expArrayF F.toFftLib L α)
          (expArrayF F.toFftLib L γ) flm L el)))
    (fun _ _ => 0, fun _ _ => 0)
    (fun el s => PlanesNear s.1 L el β ∧
      if l < el then ∃ plane, HoldsNear plane L l β ∧ ∀ m, s.2 l (m + L - 1)
        = if |m| ≤ l then rotateDegreeF F.toFftLib plane (expArrayF F.toFftLib L α)
          (expArrayF F.toFftLib L γ) flm L l m else 0
      else ∀ m, s.2 l (m + L - 1) = 0)
    ⟨by unfold PlanesNear; rw [if_pos rfl]; exact fun _ _ => rfl, by
      rw [if_neg (by omega)]; exact fun _ => rfl⟩
    (by
      rintro el ⟨d, o⟩ a b ⟨hd, ho⟩
      simp only at hd ho ⊢
      have hp := hd.step F a b hL hβ
      refine ⟨hp.next a, ?_⟩
      rcases lt_trichotomy l el with h | h | h
      · rw [if_pos h] at ho
        rw [if_pos (by omega)]
        obtain ⟨plane, hn, hv⟩ := ho
        refine ⟨plane, hn, fun m => ?_⟩
        rw [addOrders_of, if_neg (by omega), hv]
      · subst h
        rw [if_neg (by omega)] at ho
        rw [if_pos (by omega)]
        refine ⟨_, hp, fun m => ?_⟩
        rw [addOrders_of, ho, zero_add]
        simp only [true_and]
      · rw [if_neg (by omega)] at ho
        rw [if_neg (by omega)]
        intro m
        rw [addOrders_of, if_neg (by omega), ho])
  have h2 := this.2
  rw [if_pos hl] at h2
  exact h2

theorem rotateFlmsF_some (F : XlaLib) (flm : ℤ → ℤ → ℂ) (dls : ℤ → ℤ → ℤ → ℝ) {L l : ℤ}
    {α β γ : ℝ} (h0 : 0 ≤ l) (hl : l < L) (m : ℤ) :
    rotateFlmsF F flm L (α, β, γ) (some dls) l (m + L - 1)
      = if |m| ≤ l then rotateDegreeF F.toFftLib (dls l) (expArrayF F.toFftLib L α)
        (expArrayF F.toFftLib L γ) flm L l m else 0 := by
  unfold rotateFlmsF
  simp only
  have := forRange_ind (by omega : (0 : ℤ) ≤ L)
    (fun el out => addOrders out el L
        (rotateDegreeF F.toFftLib (dls el) (expArrayF F.toFftLib L α)
          (expArrayF F.toFftLib L γ) flm L el))
    (fun _ _ => 0)
    (fun el s => s l (m + L - 1) = if l < el then
        (if |m| ≤ l then rotateDegreeF F.toFftLib (dls l) (expArrayF F.toFftLib L α)
          (expArrayF F.toFftLib L γ) flm L l m else 0) else 0)
    (by rw [if_neg (by omega)])
    (by
      intro el o a b ho
      rw [addOrders_of, ho]
      rcases lt_trichotomy l el with h | h | h
      · rw [if_neg (by omega : ¬ (l = el ∧ |m| ≤ el)), if_pos h,
          if_pos (by omega : l < el + 1)]
      · subst h
        rw [if_neg (by omega : ¬ l < l), if_pos (by omega : l < l + 1), zero_add]
        simp only [true_and]
      · rw [if_neg (by omega), if_neg (by omega), if_neg (by omega)])
  rw [this, if_pos hl]

theorem generateRotateDlsF_near (F : XlaLib) {L l : ℤ} {β : ℝ} (h0 : 0 ≤ l) (hl : l < L)
    (hL : L ≤ 2 ^ 28) (hβ : |β| ≤ 4) : HoldsNear (generateRotateDlsF F L β l) L l β := by
  unfold generateRotateDlsF
  have := forRange_ind (by omega : (0 : ℤ) ≤ L)
    (fun el (s : (ℤ → ℤ → ℝ) × (ℤ → ℤ → ℤ → ℝ)) =>
      (risboFullJ F s.1 β L el, fun p x y => if p = el then s.2 p x y + risboFullJ F s.1 β L el x y
        else s.2 p x y))
    (fun _ _ => 0, fun _ _ _ => 0)
    (fun el s => PlanesNear s.1 L el β ∧
      if l < el then HoldsNear (s.2 l) L l β else ∀ x y, s.2 l x y = 0)
    ⟨by unfold PlanesNear; rw [if_pos rfl]; exact fun _ _ => rfl, by
      rw [if_neg (by omega)]; exact fun _ _ => rfl⟩
    (by
      rintro el ⟨d, o⟩ a b ⟨hd, ho⟩
      simp only at hd ho ⊢
      have hp := hd.step F a b hL hβ
      refine ⟨hp.next a, ?_⟩
      rcases lt_trichotomy l el with h | h | h
      · rw [if_pos h] at ho
        rw [if_pos (by omega)]
        simp only [if_neg (by omega : ¬ l = el)]
        exact ho
      · subst h
        rw [if_neg (by omega)] at ho
        rw [if_pos (by omega)]
        simp only [ho, zero_add, if_true]
        exact hp
      · rw [if_neg (by omega)] at ho
        rw [if_neg (by omega)]
        simp only [if_neg (by omega : ¬ l = el)]
        exact ho)
  have h2 := this.2
  rw [if_pos hl] at h2
  exact h2

theorem degreeNorm_eq (L : ℤ) (f : ℤ → ℤ → ℂ) (l : ℤ) :
    degreeNorm L f l = l2 (Finset.Ico 0 (2 * l + 1)) (fun k => f l (k - l + L - 1)) := by
  unfold degreeNorm l2
  have := sum_Ico_shift 0 (2 * l + 1) (-l) (fun m => ‖f l (m + L - 1)‖ ^ 2)
  rw [show 0 + -l = -l by ring, show 2 * l + 1 + -l = l + 1 by ring] at this
  rw [this]
  rfl

end S2fft
