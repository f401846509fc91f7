import Verif.Lemmas.PrecomputeDoubleInverse
import Verif.Lemmas.DhWeightsDouble
import Verif.Lemmas.DhWeights
import Verif.Props.C24

/-! # Accuracy of the precomputed forward transform in double precision -/

namespace S2fft
open Spec

/-- A computed sum of products of approximate numbers. -/
theorem dot_pert (F : FftLib) {nt : ℤ} (hnt : 0 ≤ nt) {a a' b b' : ℤ → ℂ} {κ α : ℤ → ℝ} {N ρ : ℝ}
    (hρ : 0 ≤ ρ) (ha : ∀ t, 0 ≤ t → t < nt → ‖a' t - a t‖ ≤ κ t)
    (ha' : ∀ t, 0 ≤ t → t < nt → ‖a' t‖ ≤ α t) (hb : ∀ t, 0 ≤ t → t < nt → ‖b t‖ ≤ N)
    (hb' : ∀ t, 0 ≤ t → t < nt → ‖b' t - b t‖ ≤ ρ) :
    ‖F.dot nt a' b' - ∑ t ∈ Finset.Ico 0 nt, a t * b t‖
      ≤ (∑ t ∈ Finset.Ico 0 nt, κ t) * N + (∑ t ∈ Finset.Ico 0 nt, α t) * ρ
        + nt / 2 ^ 50 * ((∑ t ∈ Finset.Ico 0 nt, α t) * (N + ρ)) + nt / 2 ^ 1000 := by
  have hnt' : (0 : ℝ) ≤ nt := by exact_mod_cast hnt
  have h1 := F.dot_near nt a' b' hnt
  have h2 : ‖∑ t ∈ Finset.Ico 0 nt, a' t * b' t - ∑ t ∈ Finset.Ico 0 nt, a t * b t‖
      ≤ (∑ t ∈ Finset.Ico 0 nt, κ t) * N + (∑ t ∈ Finset.Ico 0 nt, α t) * ρ := by
    rw [← Finset.sum_sub_distrib, Finset.sum_mul, Finset.sum_mul, ← Finset.sum_add_distrib]
    refine le_trans (norm_sum_le _ _) (Finset.sum_le_sum fun t ht => ?_)
    rw [Finset.mem_Ico] at ht
    rw [show a' t * b' t - a t * b t = (a' t - a t) * b t + a' t * (b' t - b t) by ring]
    refine le_trans (norm_add_le _ _) ?_
    rw [norm_mul, norm_mul]
    have c1 := ha t ht.1 ht.2
    have c2 := ha' t ht.1 ht.2
    exact add_le_add (mul_le_mul c1 (hb t ht.1 ht.2) (norm_nonneg _) (le_trans (norm_nonneg _) c1))
      (mul_le_mul c2 (hb' t ht.1 ht.2) (norm_nonneg _) (le_trans (norm_nonneg _) c2))
  have h3 : ∑ t ∈ Finset.Ico 0 nt, ‖a' t‖ * ‖b' t‖ ≤ (∑ t ∈ Finset.Ico 0 nt, α t) * (N + ρ) := by
    rw [Finset.sum_mul]
    refine Finset.sum_le_sum fun t ht => ?_
    rw [Finset.mem_Ico] at ht
    have c2 := ha' t ht.1 ht.2
    refine mul_le_mul c2 ?_ (norm_nonneg _) (le_trans (norm_nonneg _) c2)
    have := norm_le_norm_add_norm_sub' (b' t) (b t)
    linarith [hb t ht.1 ht.2, hb' t ht.1 ht.2]
  have h4 : (nt : ℝ) / 2 ^ 50 * (∑ t ∈ Finset.Ico 0 nt, ‖a' t‖ * ‖b' t‖)
      ≤ nt / 2 ^ 50 * ((∑ t ∈ Finset.Ico 0 nt, α t) * (N + ρ)) := by gcongr
  have h5 := norm_sub_le_norm_sub_add_norm_sub (F.dot nt a' b')
    (∑ t ∈ Finset.Ico 0 nt, a' t * b' t) (∑ t ∈ Finset.Ico 0 nt, a t * b t)
  linarith

/-- The Fourier sums of a ring. -/
theorem fftF_near (F : FftLib) {σ : Scheme} (hh : σ ≠ .healpix) (ho : σ.off = 0) {L nt : ℤ} (hL : 1 ≤ L)
    {f : ℤ → ℤ → ℂ} {M : ℝ} (hM : 1 / 2 ^ 900 ≤ M)
    (hf : ∀ t p, 0 ≤ t → t < nt → 0 ≤ p → p < 2 * L - 1 → ‖f t p‖ ≤ M) {reality : Bool}
    (hre : reality = true → ∀ t p, 0 ≤ t → t < nt → 0 ≤ p → p < 2 * L - 1 → (f t p).im = 0)
    {t m : ℤ} (t0 : 0 ≤ t) (t1 : t < nt) (m0 : -L < m) (m1 : m < L) (hm : reality = true → 0 ≤ m) :
    ‖ringSum σ L 0 f t m‖ ≤ (2 * L - 1) * M ∧
    ‖precomputeFftF F f σ.name (2 * L - 1) reality t (m + L - 1 - mStart L reality)
        - ringSum σ L 0 f t m‖ ≤ 2 * (2 * L - 1) / 2 ^ 50 * ((2 * L - 1) * M) := by
  have hL' : (1 : ℝ) ≤ L := by exact_mod_cast hL
  have hM0 : 0 ≤ M := le_trans (by positivity) hM
  have hpt : ∀ t p, σ.pos 0 t p = (t, p) := by
    intro t p; cases σ <;> first | rfl | exact absurd rfl hh
  have hlen : ∀ t, σ.ringLen L 0 t = 2 * L - 1 := by intro t; rw [ringLen_equi hh, ho, add_zero]
  have hsum : fft (2 * L - 1) (f t) m = ringSum σ L 0 f t m := by
    unfold fft ringSum
    rw [hlen]
    refine Finset.sum_congr rfl fun p _ => ?_
    rw [hpt, phi_equi hh, hlen]
    congr 2; ring
  have hcard : ((Finset.Ico 0 (2 * L - 1)).card : ℝ) = 2 * L - 1 := by
    rw [Int.card_Ico]
    have : ((2 * L - 1 - 0).toNat : ℤ) = 2 * L - 1 := by omega
    exact_mod_cast this
  have hsz : ∑ p ∈ Finset.Ico 0 (2 * L - 1), ‖f t p‖ ≤ (2 * L - 1) * M := by
    rw [← hcard, ← nsmul_eq_mul]
    refine Finset.sum_le_card_nsmul _ _ _ fun p hp => ?_
    rw [Finset.mem_Ico] at hp
    exact hf t p t0 t1 hp.1 hp.2
  have hn1 : (1 : ℝ) ≤ 2 * L - 1 := by linarith
  have htiny : ((2 * L - 1 : ℤ) : ℝ) / 2 ^ 1000 ≤ (2 * L - 1) / 2 ^ 50 * ((2 * L - 1) * M) := by
    push_cast
    calc (2 * (L : ℝ) - 1) / 2 ^ 1000 ≤ (2 * L - 1) / 2 ^ 50 * (1 * (1 / 2 ^ 900)) := by
          rw [div_eq_mul_inv, div_eq_mul_inv, mul_assoc]
          refine mul_le_mul_of_nonneg_left ?_ (by linarith)
          rw [one_mul, ← one_div, ← one_div, div_mul_div_comm, one_mul, ← pow_add]
          exact one_div_le_one_div_of_le (by positivity) (pow_le_pow_right₀ (by norm_num) (by norm_num))
      _ ≤ _ := by gcongr
  have hfin : ∀ {X : ℝ}, X ≤ ((2 * L - 1 : ℤ) : ℝ) / 2 ^ 50 * (∑ p ∈ Finset.Ico 0 (2 * L - 1), ‖f t p‖)
      + ((2 * L - 1 : ℤ) : ℝ) / 2 ^ 1000 → X ≤ 2 * (2 * L - 1) / 2 ^ 50 * ((2 * L - 1) * M) := by
    intro X hX
    have a : ((2 * L - 1 : ℤ) : ℝ) / 2 ^ 50 * (∑ p ∈ Finset.Ico 0 (2 * L - 1), ‖f t p‖)
        ≤ (2 * L - 1) / 2 ^ 50 * ((2 * L - 1) * M) := by
      push_cast; gcongr
    have e : 2 * (2 * (L : ℝ) - 1) / 2 ^ 50 * ((2 * L - 1) * M)
      = (2 * L - 1) / 2 ^ 50 * ((2 * L - 1) * M) + (2 * L - 1) / 2 ^ 50 * ((2 * L - 1) * M) := by ring
    rw [e]
    linarith
  refine ⟨?_, hfin ?_⟩
  · rw [← hsum]
    unfold fft
    refine le_trans (norm_sum_le _ _) (le_trans (le_of_eq ?_) hsz)
    refine Finset.sum_congr rfl fun p _ => ?_
    rw [norm_mul, norm_cis, mul_one]
  · rw [← hsum]
    unfold precomputeFftF
    cases reality with
    | true =>
      have hm' := hm rfl
      rw [if_pos rfl, mStart_true, show m + L - 1 - (L - 1) = m by ring]
      have h := F.rfft_near (2 * L - 1) (fun p => (f t p).re) m hm' (by omega) (by omega)
      have e : rfft (2 * L - 1) (fun p => (f t p).re) m = fft (2 * L - 1) (f t) m := by
        unfold rfft fft
        refine Finset.sum_congr rfl fun p hp => ?_
        rw [Finset.mem_Ico] at hp
        congr 1
        exact ofReal_re_of_im (hre rfl t p t0 t1 hp.1 hp.2)
      rw [e] at h
      refine le_trans h (add_le_add (mul_le_mul_of_nonneg_left ?_ ?_) le_rfl)
      · exact Finset.sum_le_sum fun p _ => Complex.abs_re_le_norm _
      · push_cast; exact div_nonneg (by linarith) (by norm_num)
    | false =>
      rw [if_neg (by simp), mStart_false]
      have h := F.fft_near (2 * L - 1) (f t) (m % (2 * L - 1)) (Int.emod_nonneg _ (by omega))
        (Int.emod_lt_of_pos _ (by omega))
      rw [fft_periodic (by omega)] at h
      have e : mOffset σ.name + (m + L - 1 - 0) - (2 * L - 1) / 2 = m := by
        rw [mOffset_name, ho]; omega
      unfold fftshift
      rw [e]
      exact h

/-- An element of the forward kernel: the weight multiplied in. -/
theorem weightF_near {fl : ℝ → ℝ} (hf : RoundsToNearest fl) {k d e w w' ε δ : ℝ} (he : 1 / 4 ≤ e)
    (hk : |k - e * d| ≤ e * ε) (hd : |d| ≤ 1) (hε0 : 0 ≤ ε) (hε : ε ≤ 1 / 4) (hw : 0 ≤ w)
    (hw' : |w' - w| ≤ δ) (hδ : 1 / 2 ^ 190 ≤ δ) :
    |fl (k * w') - e * d * w| ≤ e * ((ε + 1 / 2 ^ 52) * w + 2 * δ) ∧
      |fl (k * w')| ≤ 2 * e * (w + δ) := by
  have he0 : 0 < e := by linarith
  have hδ0 : 0 < δ := lt_of_lt_of_le (by positivity) hδ
  have h1 : |w'| ≤ w + δ := by
    have := abs_sub_abs_le_abs_sub w' w
    rw [abs_of_nonneg hw] at this
    linarith
  have h2 : |k * w' - e * d * w| ≤ e * ε * (w + δ) + e * δ := by
    rw [show k * w' - e * d * w = (k - e * d) * w' + e * d * (w' - w) by ring]
    refine le_trans (abs_add_le _ _) (add_le_add ?_ ?_)
    · rw [abs_mul]; exact mul_le_mul hk h1 (abs_nonneg _) (by positivity)
    · rw [abs_mul, abs_mul, abs_of_pos he0]
      have : e * |d| ≤ e * 1 := mul_le_mul_of_nonneg_left hd he0.le
      rw [mul_one] at this
      exact mul_le_mul this hw' (abs_nonneg _) he0.le
  have h3 : |e * d * w| ≤ e * w := by
    rw [abs_mul, abs_mul, abs_of_pos he0, abs_of_nonneg hw]
    have : e * |d| ≤ e * 1 := mul_le_mul_of_nonneg_left hd he0.le
    rw [mul_one] at this
    exact mul_le_mul_of_nonneg_right this hw
  have hew : 0 ≤ e * w := by positivity
  have hed : 0 < e * δ := by positivity
  have q1 : e * ε * w ≤ 1 / 4 * (e * w) := by nlinarith
  have q2 : e * ε * δ ≤ 1 / 4 * (e * δ) := by nlinarith
  have h4 := fl_step hf h2 (B := 2 * (e * w + e * δ)) (by
    rw [mul_add]; linarith) (by
    have : 1 / 4 * (1 / 2 ^ 190) ≤ e * δ := mul_le_mul he hδ (by positivity) he0.le
    norm_num at this ⊢
    linarith)
  have h5 : |fl (k * w') - e * d * w| ≤ e * ((ε + 1 / 2 ^ 52) * w + 2 * δ) := by
    refine le_trans h4 ?_
    have e1 : e * ε * (w + δ) + e * δ + 2 * (e * w + e * δ) / 2 ^ 53
      = e * ε * w + 1 / 2 ^ 52 * (e * w) + (e * ε * δ + e * δ + 1 / 2 ^ 52 * (e * δ)) := by ring
    have e2 : e * ((ε + 1 / 2 ^ 52) * w + 2 * δ) = e * ε * w + 1 / 2 ^ 52 * (e * w) + 2 * (e * δ) := by
      ring
    rw [e1, e2]
    norm_num
    linarith
  refine ⟨h5, ?_⟩
  have h6 := abs_sub_abs_le_abs_sub (fl (k * w')) (e * d * w)
  have e2 : e * ((ε + 1 / 2 ^ 52) * w + 2 * δ) = e * ε * w + 1 / 2 ^ 52 * (e * w) + 2 * (e * δ) := by
    ring
  rw [e2] at h5
  generalize |fl (k * w') - e * d * w| = z at *
  generalize |e * d * w| = z' at *
  norm_num at *
  linarith

/-- One coefficient, from the computed Fourier sums and the computed kernel. -/
theorem coeffF_near (F : FftLib) {L spin nt : ℤ} {reality : Bool} {θ w w' : ℤ → ℝ} {ε δ Δ P M : ℝ}
    {K : ℤ → ℤ → ℤ → ℝ} (hL : 1 ≤ L) (hL1 : L ≤ 2 ^ 26) (hnt : 0 ≤ nt) (hnt1 : nt ≤ 2 * L)
    (hK : KernelNearF K L spin nt reality θ ε)
    (hε0 : 0 ≤ ε) (hε : ε ≤ 1 / 4) (hw : ∀ t, 0 ≤ t → t < nt → 0 ≤ w t)
    (hw' : ∀ t, 0 ≤ t → t < nt → |w' t - w t| ≤ δ) (hδ : 1 / 2 ^ 190 ≤ δ)
    (hP : (2 * L - 1) * ∑ t ∈ Finset.Ico 0 nt, w t = P) (hΔ : (2 * L - 1) * (nt * δ) ≤ Δ) (hΔ1 : Δ ≤ 1)
    (hM : 0 ≤ M) {A ftm : ℤ → ℂ} (hA : ∀ t, 0 ≤ t → t < nt → ‖A t‖ ≤ (2 * L - 1) * M)
    (hA' : ∀ t, 0 ≤ t → t < nt → ‖ftm t - A t‖ ≤ 2 * (2 * L - 1) / 2 ^ 50 * ((2 * L - 1) * M))
    {el m : ℤ} (e0 : 0 ≤ el) (e1 : el < L) (hm : |m| < L) :
    ‖F.dot nt (fun t => ((F.fl (K t el (m + L - 1 - mStart L reality) * w' t) : ℝ) : ℂ)) ftm
        - ∑ t ∈ Finset.Ico 0 nt, ((elfactor el * wignerd el m (-spin) (θ t) * w t : ℝ) : ℂ) * A t‖
      ≤ elfactor el * M * (P * (ε + L / 2 ^ 45) + 3 * Δ) + 1 / 2 ^ 900 := by
  have hL' : (1 : ℝ) ≤ L := by exact_mod_cast hL
  have hL2 : (L : ℝ) ≤ 2 ^ 26 := by exact_mod_cast hL1
  have hnt' : (0 : ℝ) ≤ nt := by exact_mod_cast hnt
  have hnt2 : (nt : ℝ) ≤ 2 * L := by exact_mod_cast hnt1
  have he := elfactor_ge e0
  have he0 := elfactor_nonneg el
  have hn1 : (1 : ℝ) ≤ 2 * L - 1 := by linarith
  have hel : ∀ t, 0 ≤ t → t < nt → _ := fun t t0 t1 =>
    weightF_near F.nearest he (hK t el m t0 t1 e0 e1 hm) (wignerd_abs_le_one el m (-spin) (θ t)) hε0 hε
      (hw t t0 t1) (hw' t t0 t1) hδ
  have h := dot_pert F hnt (a := fun t => ((elfactor el * wignerd el m (-spin) (θ t) * w t : ℝ) : ℂ))
    (a' := fun t => ((F.fl (K t el (m + L - 1 - mStart L reality) * w' t) : ℝ) : ℂ)) (b := A) (b' := ftm)
    (κ := fun t => elfactor el * ((ε + 1 / 2 ^ 52) * w t + 2 * δ))
    (α := fun t => 2 * elfactor el * (w t + δ))
    (N := (2 * L - 1) * M) (ρ := 2 * (2 * L - 1) / 2 ^ 50 * ((2 * L - 1) * M)) (by positivity)
    (fun t t0 t1 => by
      rw [← Complex.ofReal_sub, Complex.norm_real, Real.norm_eq_abs]; exact (hel t t0 t1).1)
    (fun t t0 t1 => by rw [Complex.norm_real, Real.norm_eq_abs]; exact (hel t t0 t1).2) hA hA'
  refine le_trans h ?_
  have hcard : ((Finset.Ico 0 nt).card : ℝ) = nt := by
    rw [Int.card_Ico]
    have : ((nt - 0).toNat : ℤ) = nt := by omega
    exact_mod_cast this
  have hW0 : 0 ≤ ∑ t ∈ Finset.Ico 0 nt, w t := Finset.sum_nonneg fun t ht => by
    rw [Finset.mem_Ico] at ht; exact hw t ht.1 ht.2
  rw [← Finset.mul_sum, ← Finset.mul_sum, Finset.sum_add_distrib, Finset.sum_add_distrib,
    ← Finset.mul_sum, Finset.sum_const, Finset.sum_const, nsmul_eq_mul, nsmul_eq_mul, hcard]
  have htiny := tiny_bound hL' hL2 (x := nt) (by nlinarith)
  have hδ0 : 0 < δ := lt_of_lt_of_le (by positivity) hδ
  have hΔ0 : 0 ≤ (2 * (L : ℝ) - 1) * (nt * δ) := by positivity
  generalize ∑ t ∈ Finset.Ico 0 nt, w t = W at *
  generalize hD : (2 * (L : ℝ) - 1) * (nt * δ) = D at *
  have hP0 : 0 ≤ P := by rw [← hP]; positivity
  have hr1 : 4 * (2 * (L : ℝ) - 1) / 2 ^ 50 ≤ 8 * L / 2 ^ 50 :=
    div_le_div_of_nonneg_right (by linarith) (by norm_num)
  have hr2 : (nt : ℝ) / 2 ^ 50 * 2 * (1 + 2 * (2 * L - 1) / 2 ^ 50) ≤ 8 * L / 2 ^ 50 := by
    have a1 : 1 + 2 * (2 * (L : ℝ) - 1) / 2 ^ 50 ≤ 2 := by
      have : 2 * (2 * (L : ℝ) - 1) / 2 ^ 50 ≤ 1 := by
        rw [div_le_one (by norm_num)]
        norm_num at hL2 ⊢; linarith
      linarith
    calc (nt : ℝ) / 2 ^ 50 * 2 * (1 + 2 * (2 * L - 1) / 2 ^ 50) ≤ (2 * L / 2 ^ 50 * 2 * 2 : ℝ) := by gcongr
      _ = 8 * L / 2 ^ 50 := by ring
  have hL46 : (8 * L / 2 ^ 50 : ℝ) + 8 * L / 2 ^ 50 = L / 2 ^ 46 := by ring
  have hL1' : (L : ℝ) / 2 ^ 46 ≤ 1 := by
    rw [div_le_one (by norm_num)]
    norm_num at hL2 ⊢; linarith
  have hL52 : (1 / 2 ^ 52 : ℝ) + L / 2 ^ 46 ≤ L / 2 ^ 45 := by norm_num; linarith
  have eT : elfactor el * ((ε + 1 / 2 ^ 52) * W + nt * (2 * δ)) * ((2 * L - 1) * M)
      + 2 * elfactor el * (W + nt * δ) * (2 * (2 * L - 1) / 2 ^ 50 * ((2 * L - 1) * M))
      + nt / 2 ^ 50 * (2 * elfactor el * (W + nt * δ)
        * ((2 * L - 1) * M + 2 * (2 * L - 1) / 2 ^ 50 * ((2 * L - 1) * M)))
      = elfactor el * M * ((ε + 1 / 2 ^ 52) * P + 2 * D + (P + D) * (4 * (2 * L - 1) / 2 ^ 50)
        + (P + D) * (nt / 2 ^ 50 * 2 * (1 + 2 * (2 * L - 1) / 2 ^ 50))) := by
    rw [← hP, ← hD]; ring
  rw [eT]
  refine add_le_add (mul_le_mul_of_nonneg_left ?_ (mul_nonneg he0 hM)) htiny
  have hPD : 0 ≤ P + D := by linarith
  have b1 := mul_le_mul_of_nonneg_left hr1 hPD
  have b2 := mul_le_mul_of_nonneg_left hr2 hPD
  have b3 : (P + D) * (8 * L / 2 ^ 50) + (P + D) * (8 * L / 2 ^ 50) = P * (L / 2 ^ 46) + D * (L / 2 ^ 46) := by
    rw [← mul_add, hL46, add_mul]
  have b4 : D * ((L : ℝ) / 2 ^ 46) ≤ D * 1 := mul_le_mul_of_nonneg_left hL1' hΔ0
  have b5 := mul_le_mul_of_nonneg_left hL52 hP0
  have e5 : P * (1 / 2 ^ 52 + L / 2 ^ 46) = 1 / 2 ^ 52 * P + P * (L / 2 ^ 46) := by ring
  rw [e5] at b5
  rw [add_mul, mul_add]
  linarith

/-- The coefficients returned by the transform. -/
theorem precomputeFlmF_near (F : FftLib) {L spin nt : ℤ} {reality : Bool} {θ w w' : ℤ → ℝ}
    {ε δ Δ P M : ℝ} {K : ℤ → ℤ → ℤ → ℝ} (hL : 1 ≤ L) (hL1 : L ≤ 2 ^ 26) (hnt : 0 ≤ nt)
    (hnt1 : nt ≤ 2 * L) (hK : KernelNearF K L spin nt reality θ ε)
    (hε0 : 0 ≤ ε) (hε : ε ≤ 1 / 4) (hw : ∀ t, 0 ≤ t → t < nt → 0 ≤ w t)
    (hw' : ∀ t, 0 ≤ t → t < nt → |w' t - w t| ≤ δ) (hδ : 1 / 2 ^ 190 ≤ δ)
    (hP : (2 * L - 1) * ∑ t ∈ Finset.Ico 0 nt, w t = P) (hΔ : (2 * L - 1) * (nt * δ) ≤ Δ) (hΔ1 : Δ ≤ 1)
    (hM : 0 ≤ M) (hr : reality = true → spin = 0) {A ftm : ℤ → ℤ → ℂ}
    (hA : ∀ t m, 0 ≤ t → t < nt → -L < m → m < L → (reality = true → 0 ≤ m) →
      ‖A t m‖ ≤ (2 * L - 1) * M ∧ ‖ftm t (m + L - 1 - mStart L reality) - A t m‖
        ≤ 2 * (2 * L - 1) / 2 ^ 50 * ((2 * L - 1) * M))
    {el m : ℤ} (e0 : 0 ≤ el) (e1 : el < L) (m0 : -L < m) (m1 : m < L) :
    ‖precomputeFlmF F ftm (fun t el j => F.fl (K t el j * w' t)) L nt reality spin el (m + L - 1)
        - symm reality (fAt A spin nt θ w el) m‖
      ≤ elfactor el * M * (P * (ε + L / 2 ^ 45) + 3 * Δ) + 1 / 2 ^ 900 := by
  have plain : ∀ m, -L < m → m < L → (reality = true → 0 ≤ m) →
      ‖(if mStart L reality ≤ m + L - 1 then F.dot nt
        (fun t => ((F.fl (K t el (m + L - 1 - mStart L reality) * w' t) : ℝ) : ℂ))
        (fun t => ftm t (m + L - 1 - mStart L reality)) else 0) * (-1) ^ spin
        - fAt A spin nt θ w el m‖
      ≤ elfactor el * M * (P * (ε + L / 2 ^ 45) + 3 * Δ) + 1 / 2 ^ 900 := by
    intro m m0 m1 hm
    have hle : mStart L reality ≤ m + L - 1 := by
      cases reality with
      | true => have := hm rfl; rw [mStart_true]; omega
      | false => rw [mStart_false]; omega
    rw [if_pos hle]
    have ef : fAt A spin nt θ w el m = (∑ t ∈ Finset.Ico 0 nt,
        ((elfactor el * wignerd el m (-spin) (θ t) * w t : ℝ) : ℂ) * A t m) * (-1) ^ spin := by
      unfold fAt
      rw [Finset.sum_mul]
      refine Finset.sum_congr rfl fun t _ => ?_
      push_cast; ring
    rw [ef, ← sub_mul, norm_mul, norm_neg_one_zpow, mul_one]
    exact coeffF_near F hL hL1 hnt hnt1 hK hε0 hε hw hw' hδ hP hΔ hΔ1 hM
      (fun t t0 t1 => (hA t m t0 t1 m0 m1 hm).1) (fun t t0 t1 => (hA t m t0 t1 m0 m1 hm).2) e0 e1
      (abs_lt.2 ⟨m0, m1⟩)
  unfold precomputeFlmF
  simp only
  by_cases hm : reality = true → 0 ≤ m
  · rw [show symm reality (fAt A spin nt θ w el) m = fAt A spin nt θ w el m by
      unfold symm; rw [if_neg (by intro h; have := hm h.1; omega)]]
    refine le_trans (le_of_eq ?_) (plain m m0 m1 hm)
    congr 3
    by_cases h1 : reality = true
    · have := hm h1
      subst h1
      rw [if_pos rfl]
      beta_reduce
      rw [if_neg (c := 0 ≤ m + L - 1 ∧ _) (by rw [mStart_true]; omega)]
    · rw [if_neg h1]
  · have hre' : reality = true := by by_contra h; exact hm (fun h' => absurd h' h)
    have hm0 : m < 0 := by by_contra h; exact hm (fun _ => by omega)
    subst hre'
    have hsp := hr rfl
    subst hsp
    have pl := plain (-m) (by omega) (by omega) (fun _ => by omega)
    unfold symm
    rw [if_pos rfl, if_pos (c := true = true ∧ m < 0) ⟨rfl, hm0⟩]
    beta_reduce
    rw [if_pos (c := 0 ≤ m + L - 1 ∧ _) (by rw [mStart_true]; omega),
      show mStart L true + 1 + (L - 2 - (m + L - 1)) = -m + L - 1 by rw [mStart_true]; ring,
      show L - 2 - (m + L - 1) + 1 = -m by ring]
    have e2 : ((-1 : ℂ)) ^ ((-m) % 2).toNat = (-1) ^ m := by
      have e2 : ((-1 : ℂ)) ^ m = (-1) ^ (-m) := by rw [zpow_neg, ← inv_zpow]; norm_num
      rw [e2]
      rcases Int.emod_two_eq_zero_or_one (-m) with h | h
      · rw [h, (Int.even_iff.2 h).neg_one_zpow]; rfl
      · rw [h, (Int.odd_iff.2 h).neg_one_zpow]; simp
    rw [e2]
    simp only [zpow_zero, mul_one] at pl ⊢
    rw [← mul_sub, norm_mul, norm_neg_one_zpow, one_mul, ← map_sub, RCLike.norm_conj]
    exact pl

/-- The rule of a scheme whose rings have `2 L - 1` samples. -/
structure RingRule (σ : Scheme) (nodes : ℤ → ℤ → ℝ) (L : ℤ) (w : ℤ → ℝ) : Prop where
  scheme : σ = .dh ∨ σ = .gl
  rule : ∃ q, ThetaRule (2 * L) (σ.rings L 0) (σ.theta nodes L 0) q ∧
    ∀ t, 0 ≤ t → t < σ.rings L 0 → w t = q t * (2 * Real.pi / (2 * L - 1))
  nonneg : ∀ t, 0 ≤ t → t < σ.rings L 0 → 0 ≤ w t

theorem ringRule_dh (nodes : ℤ → ℤ → ℝ) {L : ℤ} (hL : 1 ≤ L) :
    RingRule .dh nodes L (quad_weights_dh L) :=
  ⟨Or.inl rfl, ⟨_, thetaRule_dh hL, fun t _ _ => by unfold quad_weights_dh; ring⟩,
    fun _ h0 h1 => (dh_weight_pos hL h0 h1).le⟩

theorem ringRule_gl {nodes weights : ℤ → ℤ → ℝ} {L : ℤ} (hL : 1 ≤ L) (h : GlExact nodes weights L) :
    RingRule .gl nodes L (weights L) := by
  have hLr : (1 : ℝ) ≤ L := by exact_mod_cast hL
  have hpi := Real.pi_pos
  have hn : (0 : ℝ) < 2 * L - 1 := by linarith
  refine ⟨Or.inr rfl, ⟨_, thetaRule_gl hL h, fun t _ _ => ?_⟩, fun t h0 h1 => ?_⟩
  · field_simp
  · rw [h.weight t h0 h1]
    have hr := h.root (L - 1 - t) (by simp [Scheme.rings] at h1; omega) (by omega)
    have := legendre_root_abs _ _ hr
    have h2 : 0 ≤ 1 - nodes L (L - 1 - t) ^ 2 := by nlinarith [this.1, this.2]
    positivity

theorem RingRule.total {σ : Scheme} {nodes : ℤ → ℤ → ℝ} {L : ℤ} {w : ℤ → ℝ} (hL : 1 ≤ L)
    (h : RingRule σ nodes L w) :
    (2 * L - 1) * ∑ t ∈ Finset.Ico 0 (σ.rings L 0), w t = 4 * Real.pi := by
  have hLr : (1 : ℝ) ≤ L := by exact_mod_cast hL
  obtain ⟨q, hq, hw⟩ := h.rule
  have h := hq (fun k => if k = 0 then 1 else 0) (fun k => by simp)
  have hone : ∀ x : ℝ, trigPoly (2 * L) (fun k => if k = 0 then (1 : ℂ) else 0) x = 1 := by
    intro x
    unfold trigPoly
    rw [Finset.sum_eq_single 0]
    · simp [cis_zero]
    · intro k _ hk; simp [hk]
    · intro h; simp at h; omega
  simp only [hone, mul_one, one_mul] at h
  rw [intervalIntegral.integral_ofReal, integral_sin, ← Complex.ofReal_sum, Complex.ofReal_inj] at h
  have e : ∑ t ∈ Finset.Ico 0 (σ.rings L 0), w t
      = (∑ t ∈ Finset.Ico 0 (σ.rings L 0), q t) * (2 * Real.pi / (2 * L - 1)) := by
    rw [Finset.sum_mul]
    refine Finset.sum_congr rfl fun t ht => ?_
    rw [Finset.mem_Ico] at ht
    exact hw t ht.1 ht.2
  rw [e, h, Real.cos_zero, Real.cos_pi]
  have : (2 * (L : ℝ) - 1) ≠ 0 := by intro h; linarith
  field_simp
  norm_num

theorem RingRule.facts {σ : Scheme} {nodes : ℤ → ℤ → ℝ} {L : ℤ} {w : ℤ → ℝ} (hL : 1 ≤ L)
    (h : RingRule σ nodes L w) : σ ≠ .healpix ∧ σ.off = 0 ∧ σ.inner = σ ∧
      (∀ t, σ.ringLen L 0 t = 2 * L - 1) ∧ innerRings σ L 0 = σ.rings L 0 ∧
      innerTheta nodes σ L 0 = σ.theta nodes L 0 ∧ (∀ spin f, innerSignal σ L spin f = f) ∧
      1 ≤ σ.rings L 0 ∧ σ.rings L 0 ≤ 2 * L ∧ (∀ t p, σ.pos 0 t p = (t, p)) ∧
      σ.shape L 0 = [σ.rings L 0, 2 * L - 1] := by
  rcases h.scheme with rfl | rfl
  · exact ⟨by decide, rfl, rfl, fun _ => rfl, rfl, rfl, fun _ _ => rfl, by simp [Scheme.rings]; omega,
      by simp [Scheme.rings], fun _ _ => rfl, rfl⟩
  · exact ⟨by decide, rfl, rfl, fun _ => rfl, rfl, rfl, fun _ _ => rfl, by simp [Scheme.rings]; omega,
      by simp [Scheme.rings]; omega, fun _ _ => rfl, rfl⟩

/-- Samples that are nearly those of an expansion give nearly its coefficients, exact arithmetic. -/
theorem fAt_near {σ : Scheme} {L spin : ℤ} {nodes : ℤ → ℤ → ℝ} {w : ℤ → ℝ} (hL : 1 ≤ L)
    (hR : RingRule σ nodes L w) {c f : ℤ → ℤ → ℂ} {η : ℝ}
    (hf : ∀ t p, σ.Has L 0 t p → ‖f t p - harmonicSum 0 L spin c
      (σ.theta nodes L 0 t) (σ.phi L 0 t p)‖ ≤ η)
    {el m : ℤ} (e0 : 0 ≤ el) (e1 : el < L) (m0 : -L < m) (m1 : m < L) :
    ‖fAt (ringSum σ L 0 f) spin (σ.rings L 0) (σ.theta nodes L 0) w el m
        - (if |spin| ≤ el ∧ |m| ≤ el then c el m else 0)‖ ≤ 4 * Real.pi * elfactor el * η := by
  have hLr : (1 : ℝ) ≤ L := by exact_mod_cast hL
  obtain ⟨hh, -, hin, hlen, hir, hit, his, hr1, -, hpos, -⟩ := hR.facts hL
  obtain ⟨q, hq, hw⟩ := hR.rule
  have hη : 0 ≤ η := le_trans (norm_nonneg _) (hf 0 0 ⟨le_rfl, by omega,
    le_rfl, by rw [hlen]; omega⟩)
  by_cases hsp : |spin| ≤ el
  swap
  · rw [if_neg (fun h => hsp h.1), fAt_outside (Or.inr (by omega)), sub_zero, norm_zero]
    exact mul_nonneg (mul_nonneg (by positivity) (elfactor_nonneg el)) hη
  set g : ℤ → ℤ → ℂ := fun t p => harmonicSum 0 L spin c (σ.theta nodes L 0 t)
    (σ.phi L 0 t p) with hg
  have hs : SamplesOf nodes σ L 0 g (harmonicSum 0 L spin c) := fun t p _ => by rw [hpos]
  have hex : fAt (ringSum σ L 0 g) spin (σ.rings L 0) (σ.theta nodes L 0) w el m
      = if |m| ≤ el then c el m else 0 := by
    refine fAt_exact (lo := 0) (n := 2 * L - 1) (c := c) (by intro h; linarith)
      (fun t m t0 t1 m0 m1 => ?_) hw hq e0 e0 hsp e1 m0 m1
    have := ringSum_harm (σ := σ) hL hh hs (n := 2 * L - 1) le_rfl (by rw [hin]; exact hlen) t0
      (by rw [hir]; exact t1) m0 m1
    rw [hin, his, hit] at this
    push_cast at this ⊢
    exact this
  have hc : (if |spin| ≤ el ∧ |m| ≤ el then c el m else 0) = if |m| ≤ el then c el m else 0 := by
    simp [hsp]
  rw [hc, ← hex]
  unfold fAt
  rw [← Finset.sum_sub_distrib]
  refine le_trans (norm_sum_le _ _) ?_
  have hring : ∀ t, 0 ≤ t → t < σ.rings L 0 →
      ‖ringSum σ L 0 f t m - ringSum σ L 0 g t m‖ ≤ (2 * L - 1) * η := by
    intro t t0 t1
    unfold ringSum
    rw [← Finset.sum_sub_distrib, hlen]
    refine le_trans (norm_sum_le _ _) ?_
    have hcard : ((Finset.Ico 0 (2 * L - 1)).card : ℝ) = 2 * L - 1 := by
      rw [Int.card_Ico]
      have : ((2 * L - 1 - 0).toNat : ℤ) = 2 * L - 1 := by omega
      exact_mod_cast this
    rw [← hcard, ← nsmul_eq_mul]
    refine Finset.sum_le_card_nsmul _ _ _ fun p hp => ?_
    rw [Finset.mem_Ico] at hp
    rw [← sub_mul, norm_mul, norm_cis, mul_one, hpos]
    exact hf t p ⟨t0, t1, hp.1, by rw [hlen]; exact hp.2⟩
  calc _ ≤ ∑ t ∈ Finset.Ico 0 (σ.rings L 0), w t * (elfactor el * ((2 * L - 1) * η)) := by
        refine Finset.sum_le_sum fun t ht => ?_
        rw [Finset.mem_Ico] at ht
        have hw := hR.nonneg t ht.1 ht.2
        rw [← mul_sub, norm_mul, norm_mul, norm_mul, norm_mul, norm_neg_one_zpow, mul_one,
          Complex.norm_real, Complex.norm_real, Complex.norm_real, Real.norm_eq_abs, Real.norm_eq_abs,
          Real.norm_eq_abs, abs_of_nonneg hw, abs_of_nonneg (elfactor_nonneg el), mul_assoc, mul_assoc]
        refine mul_le_mul_of_nonneg_left ?_ hw
        refine mul_le_mul_of_nonneg_left ?_ (elfactor_nonneg el)
        calc _ ≤ 1 * ((2 * (L : ℝ) - 1) * η) := by
              refine mul_le_mul (wignerd_abs_le_one _ _ _ _) (hring t ht.1 ht.2) (norm_nonneg _)
                zero_le_one
          _ = _ := one_mul _
    _ = 4 * Real.pi * elfactor el * η := by
        rw [← Finset.sum_mul, ← hR.total hL]; ring

/-- The forward transform of approximate samples of an expansion. -/
theorem precomputeForwardF_near (F : FftLib) {σ : Scheme} {L spin : ℤ} {nodes : ℤ → ℤ → ℝ}
    {w w' : ℤ → ℝ} (hL : 1 ≤ L) (hL1 : L ≤ 2 ^ 26) (hR : RingRule σ nodes L w) {reality : Bool}
    (hr : reality = true → spin = 0) {K : ℤ → ℤ → ℤ → ℝ} {ε δ Δ M η : ℝ}
    (hK : KernelNearF K L spin (σ.rings L 0) reality (σ.theta nodes L 0) ε)
    (hε0 : 0 ≤ ε) (hε : ε ≤ 1 / 4)
    (hw' : ∀ t, 0 ≤ t → t < σ.rings L 0 → |w' t - w t| ≤ δ) (hδ : 1 / 2 ^ 190 ≤ δ)
    (hΔ : (2 * L - 1) * (σ.rings L 0 * δ) ≤ Δ) (hΔ1 : Δ ≤ 1) {c : ℤ → ℤ → ℂ} (f : Nd ℂ)
    (hsh : f.shape = σ.shape L 0)
    (hM : ∀ t p, σ.Has L 0 t p → ‖f.get2 t p‖ ≤ M) (hM1 : 1 / 2 ^ 900 ≤ M)
    (hf : ∀ t p, σ.Has L 0 t p → ‖f.get2 t p - harmonicSum 0 L spin c
      (σ.theta nodes L 0 t) (σ.phi L 0 t p)‖ ≤ η)
    (hre : reality = true → RealHarmonics c 0 L ∧ ∀ t p, σ.Has L 0 t p → (f.get2 t p).im = 0) :
    ∃ out, precomputeForwardF F f (.d3 (σ.rings L 0) L (mDim L reality)
        (fun t el j => F.fl (K t el j * w' t))) L σ.name reality spin = .ok (.d2 L (2 * L - 1) out) ∧
      ∀ el m, 0 ≤ el → el < L → |m| < L →
        ‖out el (m + L - 1) - (if |spin| ≤ el ∧ |m| ≤ el then c el m else 0)‖
          ≤ elfactor el * M * (4 * Real.pi * (ε + L / 2 ^ 45) + 3 * Δ) + 1 / 2 ^ 900
            + 4 * Real.pi * elfactor el * η := by
  obtain ⟨hh, hoff, hin, hlen, hir, hit, his, hr1, hr2, hpos, hshape⟩ := hR.facts hL
  have hM0 : 0 ≤ M := le_trans (by positivity) hM1
  refine ⟨precomputeFlmF F (precomputeFftF F f.get2 σ.name (2 * L - 1) reality)
    (fun t el j => F.fl (K t el j * w' t)) L (σ.rings L 0) reality spin, ?_, fun el m e0 e1 hm => ?_⟩
  · unfold precomputeForwardF
    rw [if_neg (by rw [lower_hp_iff (lower_name σ)]; exact hh)]
    simp only
    rw [if_neg (by simp), if_neg (by rw [hsh, hshape]; simp), hsh, hshape]
    rfl
  · obtain ⟨m0, m1⟩ := abs_lt.1 hm
    have h := precomputeFlmF_near F hL hL1 (by omega) hr2 hK hε0 hε hR.nonneg hw' hδ (hR.total hL) hΔ hΔ1
      hM0 hr (A := ringSum σ L 0 f.get2)
      (ftm := precomputeFftF F f.get2 σ.name (2 * L - 1) reality)
      (fun t m t0 t1 m0 m1 hm => fftF_near F hh hoff hL hM1
        (fun t p t0 t1 p0 p1 => hM t p ⟨t0, t1, p0, by rw [hlen]; exact p1⟩)
        (fun h t p t0 t1 p0 p1 => (hre h).2 t p ⟨t0, t1, p0, by rw [hlen]; exact p1⟩)
        t0 t1 m0 m1 hm) e0 e1 m0 m1
    have h2 : ‖symm reality (fAt (ringSum σ L 0 f.get2) spin (σ.rings L 0) (σ.theta nodes L 0) w el) m
        - (if |spin| ≤ el ∧ |m| ≤ el then c el m else 0)‖ ≤ 4 * Real.pi * elfactor el * η := by
      unfold symm
      split_ifs with hrm hc hc
      · have := fAt_near hL hR hf e0 e1 (m := -m) (by omega) (by omega)
        rw [if_pos (by rw [abs_neg]; exact hc)] at this
        have h3 := (hre hrm.1).1 el m e0 e1 hc.2
        have e : c el m = (-1) ^ m * (starRingEnd ℂ) (c el (-m)) := by
          rw [h3]
          simp only [map_mul, map_zpow₀, map_neg, map_one, Complex.conj_conj]
          rw [← mul_assoc, ← zpow_add₀ (by norm_num), show m + m = 2 * m by ring, zpow_mul]; norm_num
        rw [e, ← mul_sub, norm_mul, norm_neg_one_zpow, one_mul, ← map_sub, RCLike.norm_conj]
        exact this
      · have := fAt_near hL hR hf e0 e1 (m := -m) (by omega) (by omega)
        rw [if_neg (by rw [abs_neg]; exact hc), sub_zero] at this
        rw [sub_zero, norm_mul, norm_neg_one_zpow, one_mul, RCLike.norm_conj]
        exact this
      · have := fAt_near hL hR hf e0 e1 m0 m1
        rwa [if_pos hc] at this
      · have := fAt_near hL hR hf e0 e1 m0 m1
        rwa [if_neg hc] at this
    have h3 := norm_sub_le_norm_sub_add_norm_sub
      (precomputeFlmF F (precomputeFftF F f.get2 σ.name (2 * L - 1) reality)
        (fun t el j => F.fl (K t el j * w' t)) L (σ.rings L 0) reality spin el (m + L - 1))
      (symm reality (fAt (ringSum σ L 0 f.get2) spin (σ.rings L 0) (σ.theta nodes L 0) w el) m)
      (if |spin| ≤ el ∧ |m| ≤ el then c el m else 0)
    linarith

/-! ## Sizes -/

theorem effReality_eq {reality : Bool} {spin : ℤ} (h : reality = true → spin = 0) :
    effReality reality spin = reality := by
  unfold effReality
  rw [if_neg (fun h' => h'.2 (h h'.1))]

/-- The errors in terms of the band-limit. -/
theorem sizeE {L : ℤ} (hL : 1 ≤ L) (hL1 : L ≤ 2 ^ 26) :
    0 ≤ (L : ℝ) * √L / 2 ^ 44 ∧ (L : ℝ) * √L / 2 ^ 44 ≤ 1 / 32 ∧
      (L : ℝ) / 2 ^ 44 ≤ (L : ℝ) * √L / 2 ^ 44 := by
  have hL' : (1 : ℝ) ≤ L := by exact_mod_cast hL
  have hL2 : (L : ℝ) ≤ 2 ^ 26 := by exact_mod_cast hL1
  have h1 : 1 ≤ √(L : ℝ) := by rw [Real.le_sqrt' (by norm_num)]; linarith
  have h2 : √(L : ℝ) ≤ 2 ^ 13 := by
    rw [Real.sqrt_le_left (by norm_num)]; norm_num at hL2 ⊢; exact hL2
  refine ⟨by positivity, ?_, ?_⟩
  · rw [div_le_div_iff₀ (by norm_num) (by norm_num)]
    have : (L : ℝ) * √L ≤ 2 ^ 26 * 2 ^ 13 := by gcongr
    norm_num at this ⊢
    linarith
  · gcongr
    nlinarith

/-- Underflow. -/
theorem elfactor_small {L el : ℤ} (h0 : 0 ≤ el) (h1 : el < L) (hL1 : L ≤ 2 ^ 26) :
    4 * Real.pi * elfactor el * (1 / 2 ^ 900) ≤ 1 / 2 ^ 880 := by
  have hpi := Real.pi_le_four
  have hpi3 := Real.pi_gt_three
  have hel : (el : ℝ) + 1 ≤ 2 ^ 26 := by exact_mod_cast (by omega : el + 1 ≤ 2 ^ 26)
  have hel0 : (0 : ℝ) ≤ el := by exact_mod_cast h0
  have h2 : elfactor el ≤ 2 ^ 13 := by
    unfold elfactor
    rw [Real.sqrt_le_left (by norm_num), div_le_iff₀ (by positivity)]
    norm_num at hel ⊢
    nlinarith
  have h3 : 4 * Real.pi * elfactor el ≤ 2 ^ 20 := by
    have := elfactor_nonneg el
    calc 4 * Real.pi * elfactor el ≤ 4 * 4 * 2 ^ 13 := by gcongr
      _ ≤ 2 ^ 20 := by norm_num
  calc 4 * Real.pi * elfactor el * (1 / 2 ^ 900) ≤ 2 ^ 20 * (1 / 2 ^ 900) := by gcongr
    _ = 1 / 2 ^ 880 := by
      rw [show (2 : ℝ) ^ 900 = 2 ^ 20 * 2 ^ 880 by rw [← pow_add]]
      field_simp

/-- The expansion is at most the size of its coefficients. -/
theorem harmonicSum_le (L spin : ℤ) (c : ℤ → ℤ → ℂ) (θ φ : ℝ) :
    ‖harmonicSum 0 L spin c θ φ‖ ≤ coeffSize L c := by
  unfold harmonicSum coeffSize
  refine le_trans (norm_sum_le _ _) (Finset.sum_le_sum fun l hl => ?_)
  rw [Finset.mem_Ico] at hl
  refine le_trans (norm_sum_le _ _) ?_
  refine le_trans (Finset.sum_le_sum (g := fun m => √((2 * (l : ℝ) + 1) / (4 * Real.pi)) * ‖c l m‖)
    fun m _ => ?_) (Finset.sum_le_sum_of_subset_of_nonneg (fun m hm => ?_) fun m _ _ =>
      mul_nonneg (Real.sqrt_nonneg _) (norm_nonneg _))
  · unfold sYlm
    rw [norm_mul, norm_mul, norm_mul, norm_neg_one_zpow, norm_cis, one_mul, mul_one, mul_comm,
      Complex.norm_real, Real.norm_eq_abs, abs_mul, abs_of_nonneg (Real.sqrt_nonneg _)]
    refine mul_le_mul_of_nonneg_right ?_ (norm_nonneg _)
    have := mul_le_mul_of_nonneg_left (wignerd_abs_le_one l m (-spin) θ)
      (Real.sqrt_nonneg ((2 * (l : ℝ) + 1) / (4 * Real.pi)))
    linarith
  · rw [Finset.mem_Ico] at hm
    rw [Finset.mem_Ioo]
    omega

/-- A library with exact sums and transforms meets the assumptions. -/
noncomputable def exactFftLib : FftLib where
  toDoubleLib := exactLib
  mul a b := a * b
  ipow k := Complex.I ^ k
  dot n a b := ∑ k ∈ Finset.Ico 0 n, a k * b k
  fft := fft
  ifft := ifft_fwd
  rfft := rfft
  irfft len a n p := (irfft_fwd len a n p).re
  mul_near a b := by simp; positivity
  ipow_near k := by simp; positivity
  dot_near n a b hn := by
    have : (0 : ℝ) ≤ n := by exact_mod_cast hn
    rw [sub_self, norm_zero]; positivity
  fft_near n x k h0 h1 := by
    have : (0 : ℝ) ≤ n := by exact_mod_cast (by omega : 0 ≤ n)
    rw [sub_self, norm_zero]; positivity
  ifft_near n x k h0 h1 := by
    have : (0 : ℝ) ≤ n := by exact_mod_cast (by omega : 0 ≤ n)
    rw [sub_self, norm_zero]; positivity
  rfft_near n x k h0 h1 h2 := by
    have : (0 : ℝ) ≤ n := by exact_mod_cast h2.le
    rw [sub_self, norm_zero]; positivity
  irfft_near len a n p h h0 h1 := by
    have : (0 : ℝ) ≤ n := by exact_mod_cast (by omega : 0 ≤ n)
    rw [sub_self, abs_zero]; positivity

end S2fft
