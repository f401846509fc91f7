import Verif.Lemmas.WeightsDouble
import Verif.Lemmas.Stable
/-! # The forward transform from MW and MWSS samples in double precision -/
namespace S2fft
open Spec

theorem rhoF_le {L : ℤ} (hL : 1 ≤ L) : rhoF L ≤ 11 / 8 * (L * √L / 2 ^ 44) := by
  have hL' : (1 : ℝ) ≤ L := by exact_mod_cast hL
  have h1 : 1 ≤ √(L : ℝ) := Real.one_le_sqrt.2 hL'
  have e : √((2 * (2 * L) : ℤ) : ℝ) = 2 * √L := by
    push_cast
    rw [show 2 * (2 * (L : ℝ)) = 2 ^ 2 * L by ring, Real.sqrt_mul (by norm_num), Real.sqrt_sq (by norm_num)]
  unfold rhoF ftErr
  rw [e]
  push_cast
  have : 1 ≤ (L : ℝ) * √L := one_le_mul_of_one_le_of_one_le hL' h1
  norm_num
  linarith

/-- The signal handed to the Fourier transforms along the rings. -/
noncomputable def resF (F : FftLib) (σ : Scheme) (L : ℤ) (f : ℤ → ℤ → ℂ) (spin : ℤ) : ℤ → ℤ → ℂ :=
  match σ with
  | .mw => upsampleF F L (mwToMwssF F L f spin) spin
  | .mwss => upsampleF F L f spin
  | _ => f

theorem rr2_le_sup {r c L : ℤ} (hr : 0 ≤ r) (hc : 0 ≤ c) (hL : 0 ≤ L) (h : r * c ≤ (2 * L) ^ 2)
    {f : ℤ → ℤ → ℝ} {M : ℝ} (hM : 0 ≤ M)
    (hf : ∀ t p, 0 ≤ t → t < r → 0 ≤ p → p < c → |f t p| ≤ M) : rr2 r c f ≤ 2 * L * M := by
  have hL' : (0 : ℝ) ≤ L := by exact_mod_cast hL
  refine (rr2_le_rr2 hf).trans ?_
  unfold rr2
  beta_reduce
  rw [rr_const hc hM, rr_const hr (by positivity), ← mul_assoc, ← Real.sqrt_mul (by exact_mod_cast hr)]
  refine mul_le_mul_of_nonneg_right ?_ hM
  rw [Real.sqrt_le_left (by positivity)]
  exact_mod_cast h

/-- Powers of one plus a small number. -/
theorem pow4_le {ρ : ℝ} (h0 : 0 ≤ ρ) (h1 : ρ ≤ 1 / 16) : (1 + ρ) ^ 4 ≤ 1 + 5 * ρ := by
  have h2 : ρ ^ 2 ≤ 1 / 16 * ρ := by nlinarith
  have h3 : ρ ^ 3 ≤ 1 / 16 * ρ := by nlinarith [mul_nonneg h0 h0, pow_nonneg h0 3]
  have h4 : ρ ^ 4 ≤ 1 / 16 * ρ := by nlinarith [mul_nonneg h0 h0, pow_nonneg h0 3, pow_nonneg h0 4]
  nlinarith

/-- The same, with any way to scale and any phases. -/
noncomputable def resG (F : FftLib) (S : ℤ → ℤ → ℂ → ℂ) (ph : ℤ → ℂ) (σ : Scheme) (L : ℤ)
    (f : ℤ → ℤ → ℂ) (spin : ℤ) : ℤ → ℤ → ℂ :=
  match σ with
  | .mw => upsampleF F L (mwssPhiF F L (thetaF F ph L (extG F S L f spin))) spin
  | .mwss => upsampleF F L f spin
  | _ => f

/-- A resampling that is as accurate as it should be. -/
def ResampleNear (σ : Scheme) (L : ℤ) (R : (ℤ → ℤ → ℂ) → ℤ → ℤ → ℤ → ℂ) : Prop :=
  ∀ (f g : ℤ → ℤ → ℂ) (spin ns : ℤ) {M η : ℝ}, 0 ≤ M → 0 ≤ η →
    (∀ t p, σ.Has L ns t p → ‖g t p‖ ≤ M) → (∀ t p, σ.Has L ns t p → ‖f t p - g t p‖ ≤ η) →
    rr2 (2 * L + 1) (2 * L) (fun t p => ‖R f spin t p - innerSignal σ L spin g t p‖)
      ≤ 12 * L * (η + 7 * (L * √L / 2 ^ 44) * (η + (M + tn)))

theorem resG_near (F : FftLib) {σ : Scheme} (hσ : σ.Resampled) {L : ℤ} (hL : 1 ≤ L) (hL1 : L ≤ 2 ^ 26)
    {S : ℤ → ℤ → ℂ → ℂ} (hS : ∀ t p, ScaleNear (2 * L - 1) (S t p)) {ph : ℤ → ℂ}
    (hph : ∀ m, |m| < L → ‖ph m - cis (-((m : ℝ) * Real.pi / (2 * L - 1)))‖ ≤ 6 / 2 ^ 50) :
    ResampleNear σ L (resG F S ph σ L) := by
  intro f g spin ns M η hM hη hg hf
  have hL' : (1 : ℝ) ≤ L := by exact_mod_cast hL
  have htn := tn_pos
  obtain ⟨s1, s2, -⟩ := sizeE hL hL1
  have hρ := rhoF_le hL
  have hρ0 : 0 ≤ rhoF L := by
    have := ftErr_nonneg (n := 2 * (2 * L)) (by omega)
    unfold rhoF; positivity
  have hT : √(2 * L : ℤ) * tn ≤ 2 * L * tn := by
    refine mul_le_mul_of_nonneg_right ?_ htn.le
    push_cast
    rw [Real.sqrt_le_left (by positivity)]
    nlinarith
  have hT0 : 0 ≤ √(2 * L : ℤ) * tn := by positivity
  have fin : ∀ {κ P : ℝ}, 0 ≤ κ → κ ≤ 6 → P ≤ (1 + rhoF L) ^ 4 →
      κ * (P * (2 * L * η + (2 * L * M + √(2 * L : ℤ) * tn)) - (2 * L * M + √(2 * L : ℤ) * tn))
        ≤ 12 * L * (η + 7 * (L * √L / 2 ^ 44) * (η + (M + tn))) := by
    intro κ P k0 k6 hP
    generalize (L : ℝ) * √L / 2 ^ 44 = E at *
    have hP' : P ≤ 1 + 7 * E := by
      refine hP.trans ((pow4_le hρ0 (by linarith)).trans (by linarith))
    generalize √(2 * L : ℤ) * tn = T at *
    have hW : 0 ≤ 2 * L * η + (2 * L * M + T) := by positivity
    have h1 := mul_le_mul_of_nonneg_right hP' hW
    have h2 : P * (2 * L * η + (2 * L * M + T)) - (2 * L * M + T)
        ≤ 2 * L * (η + 7 * E * (η + (M + tn))) := by
      have h3 : 7 * E * T ≤ 7 * E * (2 * L * tn) := by gcongr
      nlinarith
    have h4 : 0 ≤ 2 * L * (η + 7 * E * (η + (M + tn))) := by positivity
    calc κ * (P * (2 * L * η + (2 * L * M + T)) - (2 * L * M + T))
        ≤ κ * (2 * L * (η + 7 * E * (η + (M + tn)))) := mul_le_mul_of_nonneg_left h2 k0
      _ ≤ 6 * (2 * L * (η + 7 * E * (η + (M + tn)))) := mul_le_mul_of_nonneg_right k6 h4
      _ = _ := by ring
  rcases hσ with rfl | rfl
  · refine (mwInner_near F hL hL1 hS hph g f spin (A0 := 2 * L * M) (D0 := 2 * L * η)
      (rr2_le_sup (by omega) (by omega) (by omega) (by nlinarith) hM fun t p t0 t1 p0 p1 => by
        rw [abs_norm]; exact hg t p ⟨t0, t1, p0, p1⟩)
      (rr2_le_sup (by omega) (by omega) (by omega) (by nlinarith) hη fun t p t0 t1 p0 p1 => by
        rw [abs_norm]; exact hf t p ⟨t0, t1, p0, p1⟩)).trans (fin (by positivity) ?_ le_rfl)
    have h2 := Real.sq_sqrt (show (0 : ℝ) ≤ 2 by norm_num)
    have h3 : √2 ≤ 3 / 2 := by rw [Real.sqrt_le_left (by norm_num)]; norm_num
    calc √2 ^ 5 = √2 ^ 2 * √2 ^ 2 * √2 := by ring
      _ ≤ 6 := by rw [h2]; linarith
  · refine (mwssInner_near F hL hL1 g f spin (A0 := 2 * L * M) (D0 := 2 * L * η)
      (rr2_le_sup (by omega) (by omega) (by omega) (by nlinarith) hM fun t p t0 t1 p0 p1 => by
        rw [abs_norm]; exact hg t p ⟨t0, t1, p0, p1⟩)
      (rr2_le_sup (by omega) (by omega) (by omega) (by nlinarith) hη fun t p t0 t1 p0 p1 => by
        rw [abs_norm]; exact hf t p ⟨t0, t1, p0, p1⟩)).trans (fin (by positivity) ?_ ?_)
    · rw [Real.sq_sqrt (by norm_num)]; norm_num
    · nlinarith [pow_nonneg hρ0 2, pow_nonneg hρ0 3, pow_nonneg hρ0 4]

theorem resF_near (F : FftLib) {σ : Scheme} (hσ : σ.Resampled) {L : ℤ} (hL : 1 ≤ L) (hL1 : L ≤ 2 ^ 26) :
    ResampleNear σ L (resF F σ L) := by
  have h := resG_near F hσ hL hL1 (S := fun _ _ => F.mul ((F.fl (1 / ((2 * L - 1 : ℤ) : ℝ)) : ℝ) : ℂ))
    (fun _ _ => mulInv_near F (by omega) (by omega)) (ph := mwssPhaseF F L)
    (fun m hm => mwssPhaseF_near F hL hL1 hm)
  rcases hσ with rfl | rfl <;> exact h

/-- Sums over the samples. -/
theorem sum2_le_rr2 {L : ℤ} (hL : 1 ≤ L) (a : ℤ → ℤ → ℝ) :
    ∑ t ∈ Finset.Ico 0 (2 * L + 1), ∑ p ∈ Finset.Ico 0 (2 * L), a t p
      ≤ 3 * L * rr2 (2 * L + 1) (2 * L) a := by
  have hL' : (1 : ℝ) ≤ L := by exact_mod_cast hL
  calc ∑ t ∈ Finset.Ico 0 (2 * L + 1), ∑ p ∈ Finset.Ico 0 (2 * L), a t p
      ≤ ∑ t ∈ Finset.Ico 0 (2 * L + 1), √(2 * L : ℤ) * rr (2 * L) (a t) :=
        Finset.sum_le_sum fun t _ => sum_le_rr (by omega) _
    _ ≤ √(2 * L : ℤ) * (√(2 * L + 1 : ℤ) * rr2 (2 * L + 1) (2 * L) a) := by
        rw [← Finset.mul_sum]
        exact mul_le_mul_of_nonneg_left (sum_le_rr (by omega) _) (Real.sqrt_nonneg _)
    _ ≤ 3 * L * rr2 (2 * L + 1) (2 * L) a := by
        rw [← mul_assoc, ← Real.sqrt_mul (by push_cast; positivity)]
        refine mul_le_mul_of_nonneg_right ?_ (rr2_nonneg _ _ _)
        rw [Real.sqrt_le_left (by positivity)]
        push_cast
        nlinarith

/-- A computed sum of products, the second factors bounded in the sum. -/
theorem dot_l1 (F : FftLib) {nt : ℤ} (hnt : 0 ≤ nt) {a a' b b' : ℤ → ℂ} {κ α S D : ℝ} (hκ : 0 ≤ κ)
    (hα : 0 ≤ α)
    (ha : ∀ t, 0 ≤ t → t < nt → ‖a' t - a t‖ ≤ κ) (ha' : ∀ t, 0 ≤ t → t < nt → ‖a' t‖ ≤ α)
    (hb : ∑ t ∈ Finset.Ico 0 nt, ‖b t‖ ≤ S) (hb' : ∑ t ∈ Finset.Ico 0 nt, ‖b' t - b t‖ ≤ D) :
    ‖F.dot nt a' b' - ∑ t ∈ Finset.Ico 0 nt, a t * b t‖
      ≤ κ * S + α * D + nt / 2 ^ 50 * (α * (S + D)) + nt / 2 ^ 1000 := by
  have hnt' : (0 : ℝ) ≤ nt := by exact_mod_cast hnt
  have h1 := F.dot_near nt a' b' hnt
  have h2 : ‖∑ t ∈ Finset.Ico 0 nt, a' t * b' t - ∑ t ∈ Finset.Ico 0 nt, a t * b t‖ ≤ κ * S + α * D := by
    refine le_trans ?_ (add_le_add (mul_le_mul_of_nonneg_left hb hκ) (mul_le_mul_of_nonneg_left hb' hα))
    rw [← Finset.sum_sub_distrib, Finset.mul_sum, Finset.mul_sum, ← Finset.sum_add_distrib]
    refine le_trans (norm_sum_le _ _) (Finset.sum_le_sum fun t ht => ?_)
    rw [Finset.mem_Ico] at ht
    rw [show a' t * b' t - a t * b t = (a' t - a t) * b t + a' t * (b' t - b t) by ring]
    refine le_trans (norm_add_le _ _) ?_
    rw [norm_mul, norm_mul]
    exact add_le_add (mul_le_mul_of_nonneg_right (ha t ht.1 ht.2) (norm_nonneg _))
      (mul_le_mul_of_nonneg_right (ha' t ht.1 ht.2) (norm_nonneg _))
  have h3 : ∑ t ∈ Finset.Ico 0 nt, ‖a' t‖ * ‖b' t‖ ≤ α * (S + D) := by
    refine le_trans ?_ (mul_le_mul_of_nonneg_left (add_le_add hb hb') hα)
    rw [← Finset.sum_add_distrib, Finset.mul_sum]
    refine Finset.sum_le_sum fun t ht => ?_
    rw [Finset.mem_Ico] at ht
    refine mul_le_mul (ha' t ht.1 ht.2) ?_ (norm_nonneg _) hα
    have := norm_add_le (b t) (b' t - b t)
    rwa [add_sub_cancel] at this
  have h4 : (nt : ℝ) / 2 ^ 50 * ∑ t ∈ Finset.Ico 0 nt, ‖a' t‖ * ‖b' t‖ ≤ nt / 2 ^ 50 * (α * (S + D)) := by
    gcongr
  have := norm_sub_le_norm_sub_add_norm_sub (F.dot nt a' b') (∑ t ∈ Finset.Ico 0 nt, a' t * b' t)
    (∑ t ∈ Finset.Ico 0 nt, a t * b t)
  linarith

/-- An element of the forward kernel, the weight of any sign. -/
theorem weightF_near' {fl : ℝ → ℝ} (hf : RoundsToNearest fl) {k d e w w' ε δ W : ℝ} (he : 1 / 4 ≤ e)
    (hk : |k - e * d| ≤ e * ε) (hd : |d| ≤ 1) (hε0 : 0 ≤ ε) (hε : ε ≤ 1 / 4) (hw : |w| ≤ W)
    (hw' : |w' - w| ≤ δ) (hδ : 1 / 2 ^ 190 ≤ δ) :
    |fl (k * w') - e * d * w| ≤ e * ((ε + 1 / 2 ^ 52) * W + 2 * δ) := by
  have he0 : 0 < e := by linarith
  have hδ0 : 0 < δ := lt_of_lt_of_le (by positivity) hδ
  have hW : 0 ≤ W := (abs_nonneg _).trans hw
  have h1 : |w'| ≤ W + δ := by
    have := abs_sub_abs_le_abs_sub w' w
    linarith
  have hed1 : e * |d| ≤ e := by nlinarith
  have h2 : |k * w' - e * d * w| ≤ e * ε * (W + δ) + e * δ := by
    rw [show k * w' - e * d * w = (k - e * d) * w' + e * d * (w' - w) by ring]
    refine le_trans (abs_add_le _ _) (add_le_add ?_ ?_)
    · rw [abs_mul]; exact mul_le_mul hk h1 (abs_nonneg _) (by positivity)
    · rw [abs_mul, abs_mul, abs_of_pos he0]
      exact mul_le_mul hed1 hw' (abs_nonneg _) he0.le
  have h3 : |e * d * w| ≤ e * W := by
    rw [abs_mul, abs_mul, abs_of_pos he0]
    exact mul_le_mul hed1 hw (abs_nonneg _) he0.le
  have hew : 0 ≤ e * W := by positivity
  have hed : 0 < e * δ := by positivity
  have q1 : e * ε * W ≤ 1 / 4 * (e * W) := by nlinarith
  have q2 : e * ε * δ ≤ 1 / 4 * (e * δ) := by nlinarith
  have h4 := fl_step hf h2 (B := 2 * (e * W + e * δ)) (by rw [mul_add]; linarith) (by
    have : 1 / 4 * (1 / 2 ^ 190) ≤ e * δ := mul_le_mul he hδ (by positivity) he0.le
    norm_num at this ⊢
    linarith)
  refine le_trans h4 ?_
  have e1 : e * ε * (W + δ) + e * δ + 2 * (e * W + e * δ) / 2 ^ 53
    = e * ε * W + 1 / 2 ^ 52 * (e * W) + (e * ε * δ + e * δ + 1 / 2 ^ 52 * (e * δ)) := by ring
  have e2 : e * ((ε + 1 / 2 ^ 52) * W + 2 * δ) = e * ε * W + 1 / 2 ^ 52 * (e * W) + 2 * (e * δ) := by
    ring
  rw [e1, e2]
  norm_num
  linarith

end S2fft
