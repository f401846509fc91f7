import Verif.Lemmas.PrecomputeWignerDouble
import Verif.Lemmas.PrecomputeDoubleForward
import Verif.Lemmas.ResamplingDouble4
import Verif.Lemmas.StableWigner

/-! # Accuracy of the precomputed forward Wigner transform in double precision -/

namespace S2fft
open Spec

/-- One coefficient, from the computed Fourier sums and the computed kernel. -/
theorem coeffF_gen (F : FftLib) {L nt : ℤ} {d w a : ℤ → ℝ} {e ε δ Δ P M : ℝ} (he0 : 0 ≤ e)
    (hL : 1 ≤ L) (hL1 : L ≤ 2 ^ 26) (hnt : 0 ≤ nt) (hnt1 : nt ≤ 2 * L)
    (hw : ∀ t, 0 ≤ t → t < nt → 0 ≤ w t)
    (hel : ∀ t, 0 ≤ t → t < nt → |a t - e * d t * w t| ≤ e * ((ε + 1 / 2 ^ 52) * w t + 2 * δ) ∧
      |a t| ≤ 2 * e * (w t + δ)) (hδ : 1 / 2 ^ 190 ≤ δ)
    (hP : (2 * L - 1) * ∑ t ∈ Finset.Ico 0 nt, w t = P) (hΔ : (2 * L - 1) * (nt * δ) ≤ Δ)
    (hM : 0 ≤ M) {A ftm : ℤ → ℂ} (hA : ∀ t, 0 ≤ t → t < nt → ‖A t‖ ≤ (2 * L - 1) * M)
    (hA' : ∀ t, 0 ≤ t → t < nt → ‖ftm t - A t‖ ≤ 2 * (2 * L - 1) / 2 ^ 50 * ((2 * L - 1) * M)) :
    ‖F.dot nt (fun t => (a t : ℂ)) ftm
        - ∑ t ∈ Finset.Ico 0 nt, ((e * d t * w t : ℝ) : ℂ) * A t‖
      ≤ e * M * (P * (ε + L / 2 ^ 45) + 3 * Δ) + 1 / 2 ^ 900 := by
  have hL' : (1 : ℝ) ≤ L := by exact_mod_cast hL
  have hL2 : (L : ℝ) ≤ 2 ^ 26 := by exact_mod_cast hL1
  have hnt' : (0 : ℝ) ≤ nt := by exact_mod_cast hnt
  have hnt2 : (nt : ℝ) ≤ 2 * L := by exact_mod_cast hnt1
  have hn1 : (1 : ℝ) ≤ 2 * L - 1 := by linarith
  have h := dot_pert F hnt (a := fun t => ((e * d t * w t : ℝ) : ℂ))
    (a' := fun t => (a t : ℂ)) (b := A) (b' := ftm)
    (κ := fun t => e * ((ε + 1 / 2 ^ 52) * w t + 2 * δ))
    (α := fun t => 2 * e * (w t + δ))
    (N := (2 * L - 1) * M) (ρ := 2 * (2 * L - 1) / 2 ^ 50 * ((2 * L - 1) * M)) (by positivity)
    (fun t t0 t1 => by
      rw [← Complex.ofReal_sub, Complex.norm_real, Real.norm_eq_abs]; exact (hel t t0 t1).1)
    (fun t t0 t1 => by rw [Complex.norm_real, Real.norm_eq_abs]; exact (hel t t0 t1).2) hA hA'
  refine le_trans h ?_
  have hcard : ((Finset.Ico 0 nt).card : ℝ) = nt := by
    rw [Int.card_Ico]
    have : ((nt - 0).toNat : ℤ) = nt := by omega
    exact_mod_cast this
  have hW0 : 0 ≤ ∑ t ∈ Finset.Ico 0 nt, w t := Finset.sum_nonneg fun t ht => by
    rw [Finset.mem_Ico] at ht; exact hw t ht.1 ht.2
  rw [← Finset.mul_sum, ← Finset.mul_sum, Finset.sum_add_distrib, Finset.sum_add_distrib,
    ← Finset.mul_sum, Finset.sum_const, Finset.sum_const, nsmul_eq_mul, nsmul_eq_mul, hcard]
  have htiny := tiny_bound hL' hL2 (x := nt) (by nlinarith)
  have hδ0 : 0 < δ := lt_of_lt_of_le (by positivity) hδ
  have hΔ0 : 0 ≤ (2 * (L : ℝ) - 1) * (nt * δ) := by positivity
  generalize ∑ t ∈ Finset.Ico 0 nt, w t = W at *
  generalize hD : (2 * (L : ℝ) - 1) * (nt * δ) = D at *
  have hP0 : 0 ≤ P := by rw [← hP]; positivity
  have hr1 : 4 * (2 * (L : ℝ) - 1) / 2 ^ 50 ≤ 8 * L / 2 ^ 50 :=
    div_le_div_of_nonneg_right (by linarith) (by norm_num)
  have hr2 : (nt : ℝ) / 2 ^ 50 * 2 * (1 + 2 * (2 * L - 1) / 2 ^ 50) ≤ 8 * L / 2 ^ 50 := by
    have a1 : 1 + 2 * (2 * (L : ℝ) - 1) / 2 ^ 50 ≤ 2 := by
      have : 2 * (2 * (L : ℝ) - 1) / 2 ^ 50 ≤ 1 := by
        rw [div_le_one (by norm_num)]
        norm_num at hL2 ⊢; linarith
      linarith
    calc (nt : ℝ) / 2 ^ 50 * 2 * (1 + 2 * (2 * L - 1) / 2 ^ 50) ≤ (2 * L / 2 ^ 50 * 2 * 2 : ℝ) := by gcongr
      _ = 8 * L / 2 ^ 50 := by ring
  have hL46 : (8 * L / 2 ^ 50 : ℝ) + 8 * L / 2 ^ 50 = L / 2 ^ 46 := by ring
  have hL1' : (L : ℝ) / 2 ^ 46 ≤ 1 := by
    rw [div_le_one (by norm_num)]
    norm_num at hL2 ⊢; linarith
  have hL52 : (1 / 2 ^ 52 : ℝ) + L / 2 ^ 46 ≤ L / 2 ^ 45 := by norm_num; linarith
  have eT : e * ((ε + 1 / 2 ^ 52) * W + nt * (2 * δ)) * ((2 * L - 1) * M)
      + 2 * e * (W + nt * δ) * (2 * (2 * L - 1) / 2 ^ 50 * ((2 * L - 1) * M))
      + nt / 2 ^ 50 * (2 * e * (W + nt * δ)
        * ((2 * L - 1) * M + 2 * (2 * L - 1) / 2 ^ 50 * ((2 * L - 1) * M)))
      = e * M * ((ε + 1 / 2 ^ 52) * P + 2 * D + (P + D) * (4 * (2 * L - 1) / 2 ^ 50)
        + (P + D) * (nt / 2 ^ 50 * 2 * (1 + 2 * (2 * L - 1) / 2 ^ 50))) := by
    rw [← hP, ← hD]; ring
  rw [eT]
  refine add_le_add (mul_le_mul_of_nonneg_left ?_ (mul_nonneg he0 hM)) htiny
  have hPD : 0 ≤ P + D := by linarith
  have b1 := mul_le_mul_of_nonneg_left hr1 hPD
  have b2 := mul_le_mul_of_nonneg_left hr2 hPD
  have b3 : (P + D) * (8 * L / 2 ^ 50) + (P + D) * (8 * L / 2 ^ 50) = P * (L / 2 ^ 46) + D * (L / 2 ^ 46) := by
    rw [← mul_add, hL46, add_mul]
  have b4 : D * ((L : ℝ) / 2 ^ 46) ≤ D * 1 := mul_le_mul_of_nonneg_left hL1' hΔ0
  have b5 := mul_le_mul_of_nonneg_left hL52 hP0
  have e5 : P * (1 / 2 ^ 52 + L / 2 ^ 46) = 1 / 2 ^ 52 * P + P * (L / 2 ^ 46) := by ring
  rw [e5] at b5
  rw [add_mul, mul_add]
  linarith

/-- One coefficient. -/
theorem resampledF_gen (F : FftLib) (G : GlTables) {σ : Scheme} (hσ : σ.Resampled) {L spin : ℤ}
    (hL : 1 ≤ L) (hL1 : L ≤ 2 ^ 26) {R : (ℤ → ℤ → ℂ) → ℤ → ℤ → ℤ → ℂ} (hR : ResampleNear σ L R)
    {a d : ℤ → ℝ} {e : ℝ} (he0 : 0 ≤ e)
    (hd1 : ∀ t, |d t| ≤ 1) (ka : ∀ t, 0 ≤ t → t < 2 * L + 1 → |a t - e * d t * innerWeight G σ L 0 t|
      ≤ e * ((6 * (L * √L / 2 ^ 44) + 1 / 2 ^ 52) * (12 / (L : ℝ) ^ 2) + 2 * (1 / 2 ^ 43 / L)))
    {f g : ℤ → ℤ → ℂ} {M η : ℝ} (hM : 0 ≤ M) (hη : 0 ≤ η)
    (hg : ∀ t p, σ.Has L 0 t p → ‖g t p‖ ≤ M) (hf : ∀ t p, σ.Has L 0 t p → ‖f t p - g t p‖ ≤ η)
    {m : ℤ} (m1 : m < L) :
    ‖F.dot (2 * L + 1) (fun t => (a t : ℂ))
        (fun t => precomputeFftF F (R f spin) sMWSS (2 * L) false t
          (m + L - 1))
      - ∑ t ∈ Finset.Ico 0 (2 * L + 1), ((e * d t * innerWeight G σ L 0 t : ℝ) : ℂ) * ringSum .mwss L 0 (innerSignal σ L spin g) t m‖
      ≤ e * (5700 * (L * √L / 2 ^ 44) * (M + tn) + 661 * η) + 3 * L / 2 ^ 1000 := by
  have hL' : (1 : ℝ) ≤ L := by exact_mod_cast hL
  have hL2 : (L : ℝ) ≤ 2 ^ 26 := by exact_mod_cast hL1
  have htn := tn_pos
  obtain ⟨s1, s2, s3⟩ := sizeE hL hL1
  have hres := hR f g spin 0 hM hη hg hf
  have hen := innerSignal_energy hσ hL spin 0 hg
  have hsz : rr2 (2 * L + 1) (2 * L) (fun t p => ‖innerSignal σ L spin g t p‖) ≤ 8 * L * M := by
    rw [rr2_energy, Real.sqrt_le_left (by positivity)]
    refine hen.trans (le_of_eq (by ring))
  have hS := (sum2_le_rr2 hL (fun t p => ‖innerSignal σ L spin g t p‖)).trans
    (mul_le_mul_of_nonneg_left hsz (by positivity))
  have hD := (sum2_le_rr2 hL (fun t p => ‖R f spin t p - innerSignal σ L spin g t p‖)).trans
    (mul_le_mul_of_nonneg_left hres (by positivity))
  have ring' : ∀ t, 0 ≤ t → t < 2 * L + 1 → _ := fun t t0 t1 =>
    fftF_ring F hL (u := innerSignal σ L spin g) (u' := R f spin) (t := t) (m := m)
      (reality := false) (by simp) m1 (by simp)
  simp only [mStart_false, sub_zero] at ring'
  generalize innerSignal σ L spin g = u at *
  generalize R f spin = u' at *
  have hw : ∀ t, |innerWeight G σ L 0 t| ≤ 12 / L ^ 2 := fun t => by
    refine (innerWeight_resampled hσ hL 0 t).trans ?_
    rw [div_le_div_iff₀ (by positivity) (by positivity)]
    have h1 := Real.pi_lt_d2
    have h2 := Real.pi_pos
    have h3 : Real.pi * (Real.pi + 4) ≤ 24 := by norm_num at h1; nlinarith
    nlinarith [sq_nonneg (L : ℝ)]
  have hδ : (1 : ℝ) / 2 ^ 190 ≤ 1 / 2 ^ 43 / L := by
    rw [div_div, div_le_div_iff₀ (by positivity) (by positivity)]
    norm_num at hL2 ⊢; linarith
  obtain ⟨κ, hκ⟩ : ∃ κ, κ = e * ((6 * (L * √L / 2 ^ 44) + 1 / 2 ^ 52) * (12 / (L : ℝ) ^ 2)
    + 2 * (1 / 2 ^ 43 / L)) := ⟨_, rfl⟩
  rw [← hκ] at ka
  have hκ0 : 0 ≤ κ := by rw [hκ]; positivity
  have hd := dot_l1 F (nt := 2 * L + 1) (by omega)
    (a := fun t => ((e * d t * innerWeight G σ L 0 t : ℝ) : ℂ))
    (a' := fun t => (a t : ℂ))
    (b := fun t => ringSum .mwss L 0 u t m)
    (b' := fun t => precomputeFftF F u' sMWSS (2 * L) false t (m + L - 1))
    (κ := κ) (α := e * (12 / (L : ℝ) ^ 2) + κ) (S := 24 * (L : ℝ) ^ 2 * (M + tn))
    (D := 36 * (L : ℝ) ^ 2 * (η + 7 * (L * √L / 2 ^ 44) * (η + (M + tn)))
      + 2 * L / 2 ^ 50 * (24 * (L : ℝ) ^ 2 * (M + tn)
        + 36 * (L : ℝ) ^ 2 * (η + 7 * (L * √L / 2 ^ 44) * (η + (M + tn))) + 3 * L ^ 2 * (M + tn)))
    hκ0 (by positivity)
    (fun t t0 t1 => by
      rw [← Complex.ofReal_sub, Complex.norm_real, Real.norm_eq_abs]; exact ka t t0 t1)
    (fun t t0 t1 => by
      rw [Complex.norm_real, Real.norm_eq_abs]
      have h1 := ka t t0 t1
      have h2 : |e * d t * innerWeight G σ L 0 t|
          ≤ e * (12 / (L : ℝ) ^ 2) := by
        rw [abs_mul, abs_mul, abs_of_nonneg he0]
        refine mul_le_mul ?_ (hw t) (abs_nonneg _) he0
        exact mul_le_of_le_one_right he0 (hd1 t)
      have h3 := abs_sub_abs_le_abs_sub (a t) (e * d t * innerWeight G σ L 0 t)
      linarith)
    (by
      refine (Finset.sum_le_sum fun t ht => ?_).trans (hS.trans ?_)
      · rw [Finset.mem_Ico] at ht
        exact (ring' t ht.1 ht.2).1
      · nlinarith [mul_nonneg (sq_nonneg (L : ℝ)) htn.le])
    (by
      refine (Finset.sum_le_sum (g := fun t => ∑ p ∈ Finset.Ico 0 (2 * L), ‖u' t p - u t p‖
          + 2 * L / 2 ^ 50 * (∑ p ∈ Finset.Ico 0 (2 * L), ‖u t p‖
          + ∑ p ∈ Finset.Ico 0 (2 * L), ‖u' t p - u t p‖ + tn)) fun t ht => ?_).trans ?_
      · rw [Finset.mem_Ico] at ht
        exact (ring' t ht.1 ht.2).2
      · rw [Finset.sum_add_distrib, ← Finset.mul_sum, Finset.sum_add_distrib, Finset.sum_add_distrib,
          Finset.sum_const, Int.card_Ico, nsmul_eq_mul]
        have hc : (((2 * L + 1 - 0).toNat : ℕ) : ℝ) ≤ 3 * L := by
          have : ((2 * L + 1 - 0).toNat : ℤ) ≤ 3 * L := by omega
          exact_mod_cast this
        have hD' : 3 * (L : ℝ) * (12 * L * (η + 7 * (L * √L / 2 ^ 44) * (η + (M + tn))))
          = 36 * (L : ℝ) ^ 2 * (η + 7 * (L * √L / 2 ^ 44) * (η + (M + tn))) := by ring
        rw [hD'] at hD
        refine add_le_add hD (mul_le_mul_of_nonneg_left (add_le_add (add_le_add (hS.trans ?_) hD) ?_)
          (by positivity))
        · nlinarith [mul_nonneg (sq_nonneg (L : ℝ)) htn.le]
        · refine (mul_le_mul_of_nonneg_right hc htn.le).trans ?_
          have h1 : (L : ℝ) * tn ≤ L ^ 2 * tn := mul_le_mul_of_nonneg_right (by nlinarith) htn.le
          nlinarith [mul_nonneg (sq_nonneg (L : ℝ)) hM])
  refine hd.trans (add_le_add (coeff_const (nt := ((2 * L + 1 : ℤ) : ℝ)) he0 hL' s3 s2 (by positivity)
    hη (by push_cast; positivity) (by push_cast; linarith) hκ rfl rfl rfl rfl) ?_)
  refine div_le_div_of_nonneg_right ?_ (by positivity)
  push_cast; linarith


/-! ## The transform over `γ` -/

theorem fbanF_near (F : FftLib) {L N : ℤ} (h1 : 1 ≤ N) {c : ℤ → ℤ → ℤ → ℂ} {a : ℤ → ℤ → ℤ → ℂ}
    {i j : ℤ} {θ φ M η : ℝ} {reality : Bool} (hre : reality = true → RealWigner c 0 L)
    (hM : ∀ g, 0 ≤ g → g < 2 * N - 1 → ‖a g i j‖ ≤ M)
    (hf : ∀ g, 0 ≤ g → g < 2 * N - 1 → ‖a g i j - wignerSum 0 L N c φ θ (gammaAt N g)‖ ≤ η)
    {n : ℤ} (n0 : nFirst N reality ≤ n) (n1 : n < N) :
    ‖wignerFbanF F a (2 * N - 1) reality (n - nFirst N reality) i j
        - (2 * (N : ℂ) - 1) * wigPlane 0 L c n θ φ‖
      ≤ (2 * N - 1) * (η + ((2 * N - 1) / 2 ^ 50 * M + 1 / 2 ^ 1000)) ∧
    ‖wignerFbanF F a (2 * N - 1) reality (n - nFirst N reality) i j‖
      ≤ (2 * N - 1) * (M + ((2 * N - 1) / 2 ^ 50 * M + 1 / 2 ^ 1000)) := by
  have h1' : (1 : ℝ) ≤ N := by exact_mod_cast h1
  have hb := nFirst_bounds h1 reality
  obtain ⟨x, hx⟩ : ∃ x : ℤ → ℂ, x = fun g => if reality then ((a g i j).re : ℂ) else a g i j := ⟨_, rfl⟩
  have hxM : ∀ g, 0 ≤ g → g < 2 * N - 1 → ‖x g‖ ≤ M := fun g g0 g1 => by
    rw [hx]
    dsimp only
    split
    · rw [Complex.norm_real]
      exact (Complex.abs_re_le_norm _).trans (hM g g0 g1)
    · exact hM g g0 g1
  have hxf : ∀ g, 0 ≤ g → g < 2 * N - 1 → ‖x g - wignerSum 0 L N c φ θ (gammaAt N g)‖ ≤ η :=
      fun g g0 g1 => by
    rw [hx]
    dsimp only
    split
    · rename_i hr
      have hz := wignerSum_real (hre hr) N φ θ (gammaAt N g)
      rw [← ofReal_re_of_im hz, ← Complex.ofReal_sub, Complex.norm_real, ← Complex.sub_re]
      exact (Complex.abs_re_le_norm _).trans (hf g g0 g1)
    · exact hf g g0 g1
  have hsum : ∑ g ∈ Finset.Ico 0 (2 * N - 1), ‖x g‖ ≤ (2 * N - 1) * M := by
    have hcard : ((Finset.Ico 0 (2 * N - 1)).card : ℝ) = 2 * N - 1 := by
      rw [Int.card_Ico]
      have : ((2 * N - 1 - 0).toNat : ℤ) = 2 * N - 1 := by omega
      exact_mod_cast this
    rw [← hcard, ← nsmul_eq_mul]
    refine Finset.sum_le_card_nsmul _ _ _ fun p hp => ?_
    rw [Finset.mem_Ico] at hp
    exact hxM p hp.1 hp.2
  have key : ‖wignerFbanF F a (2 * N - 1) reality (n - nFirst N reality) i j - fft (2 * N - 1) x n‖
      ≤ ((2 * N - 1 : ℤ) : ℝ) / 2 ^ 50 * (∑ g ∈ Finset.Ico 0 (2 * N - 1), ‖x g‖)
        + ((2 * N - 1 : ℤ) : ℝ) / 2 ^ 1000 := by
    unfold wignerFbanF
    cases reality with
    | true =>
      rw [if_pos rfl, nFirst_true] at *
      rw [sub_zero]
      have h := F.rfft_near (2 * N - 1) (fun g => (a g i j).re) n n0 (by omega) (by omega)
      have e : rfft (2 * N - 1) (fun g => (a g i j).re) n = fft (2 * N - 1) x n := by
        rw [hx]; rfl
      rw [e] at h
      refine h.trans (le_of_eq ?_)
      rw [hx]
      simp
    | false =>
      rw [if_neg (by simp), nFirst_false] at *
      have ex : x = fun g => a g i j := by rw [hx]; simp
      rw [← ex]
      have h := F.fft_near (2 * N - 1) x (n % (2 * N - 1)) (Int.emod_nonneg _ (by omega))
        (Int.emod_lt_of_pos _ (by omega))
      rw [fft_periodic (by omega)] at h
      unfold fftshift
      rw [show n - (-N + 1) - (2 * N - 1) / 2 = n by omega]
      exact h
  have hn0 : (0 : ℝ) ≤ 2 * N - 1 := by linarith
  have key' : ‖wignerFbanF F a (2 * N - 1) reality (n - nFirst N reality) i j - fft (2 * N - 1) x n‖
      ≤ (2 * N - 1) * ((2 * N - 1) / 2 ^ 50 * M + 1 / 2 ^ 1000) := by
    refine key.trans ?_
    push_cast
    have := mul_le_mul_of_nonneg_left hsum (a := (2 * (N : ℝ) - 1) / 2 ^ 50) (by positivity)
    refine (add_le_add this le_rfl).trans (le_of_eq ?_)
    ring
  have hy := fft_gamma h1 (fun n => wigPlane 0 L c n θ φ) (k := n) (by omega) n1
    (fun g => wignerSum 0 L N c φ θ (gammaAt N g)) (fun g _ _ => wignerSum_planes 0 L N c φ θ _)
  have h2 := norm_fft_le (n := 2 * N - 1) (by omega) (x := fun g => x g - wignerSum 0 L N c φ θ (gammaAt N g))
    hxf n
  have h3 := norm_fft_le (n := 2 * N - 1) (by omega) hxM n
  rw [fft_sub_at] at h2
  unfold ngamma at hy
  rw [hy] at h2
  push_cast at h2 h3
  constructor
  · refine (norm_sub_le_norm_sub_add_norm_sub _ _ _).trans ((add_le_add key' h2).trans (le_of_eq ?_))
    ring
  · have := norm_le_norm_add_norm_sub' (wignerFbanF F a (2 * N - 1) reality (n - nFirst N reality) i j)
      (fft (2 * N - 1) x n)
    rw [mul_add]
    linarith

/-! ## One coefficient -/

theorem wigW_eq {l : ℤ} (hl : 0 ≤ l) : wigW l = elfactor l := by
  have hl' : (0 : ℝ) ≤ l := by exact_mod_cast hl
  have hpi := Real.pi_pos
  have h1 := wigW_mul hl
  have h2 : elfactor l * √(4 * Real.pi / (2 * (l : ℝ) + 1)) = 1 := by
    unfold elfactor
    rw [← Real.sqrt_mul (by positivity), show (2 * (l : ℝ) + 1) / (4 * Real.pi) * (4 * Real.pi / (2 * l + 1)) = 1 by
      field_simp, Real.sqrt_one]
  have h3 : √(4 * Real.pi / (2 * (l : ℝ) + 1)) ≠ 0 := by positivity
  exact mul_right_cancel₀ h3 (h1.trans h2.symm)

/-- The harmonic coefficients of a plane that has been summed over `γ`. -/
noncomputable def planeCoef (c : ℤ → ℤ → ℤ → ℂ) (N n l m : ℤ) : ℂ :=
  (2 * (N : ℂ) - 1) / (2 * Real.pi) * ((-1) ^ n * (c n l m * wigW l))

theorem planeCoef_sum (c : ℤ → ℤ → ℤ → ℂ) (L N n : ℤ) (θ φ : ℝ) :
    harmonicSum 0 L (-n) (planeCoef c N n) θ φ = (2 * (N : ℂ) - 1) * wigPlane 0 L c n θ φ := by
  have h := wigPlane_scaled (L := L) le_rfl c n θ φ
  have hpi : (Real.pi : ℂ) ≠ 0 := by exact_mod_cast Real.pi_ne_zero
  have e : harmonicSum 0 L (-n) (planeCoef c N n) θ φ = (2 * (N : ℂ) - 1) / (2 * Real.pi)
      * harmonicSum 0 L (-n) (fun l m => (-1) ^ n * (c n l m * wigW l)) θ φ := by
    unfold harmonicSum planeCoef
    simp only [Finset.mul_sum]
    exact Finset.sum_congr rfl fun l _ => Finset.sum_congr rfl fun m _ => by ring
  rw [e, ← h]
  field_simp

/-- The quadrature sum of a plane, in the notation of the spherical transform. -/
theorem planeSum_fAt {N : ℤ} (h1 : 1 ≤ N) (A : ℤ → ℤ → ℂ) (n nt : ℤ) (θ w : ℤ → ℝ) {el : ℤ}
    (e0 : 0 ≤ el) (m : ℤ) (c : ℤ → ℤ → ℤ → ℂ) {X : ℝ}
    (h : ‖fAt A (-n) nt θ w el m - (if |(-n)| ≤ el ∧ |m| ≤ el then planeCoef c N n el m else 0)‖
      ≤ elfactor el * X) :
    ‖∑ t ∈ Finset.Ico 0 nt, ((2 * Real.pi / (2 * N - 1) * wignerd el m n (θ t) * w t : ℝ) : ℂ) * A t m
        - (if |n| ≤ el ∧ |m| ≤ el then c n el m else 0)‖ ≤ 2 * Real.pi / (2 * N - 1) * X := by
  have h1' : (1 : ℝ) ≤ N := by exact_mod_cast h1
  have he : 0 < elfactor el := lt_of_lt_of_le (by norm_num) (elfactor_ge e0)
  have hpi := Real.pi_pos
  have hn : (0 : ℝ) < 2 * N - 1 := by linarith
  have hec : (elfactor el : ℂ) ≠ 0 := by exact_mod_cast he.ne'
  have hnc : (2 * (N : ℂ) - 1) ≠ 0 := by exact_mod_cast (by omega : 2 * N - 1 ≠ 0)
  have hpc : (Real.pi : ℂ) ≠ 0 := by exact_mod_cast Real.pi_ne_zero
  have e1 : ∑ t ∈ Finset.Ico 0 nt, ((2 * Real.pi / (2 * N - 1) * wignerd el m n (θ t) * w t : ℝ) : ℂ)
      * A t m = ((2 * Real.pi / (2 * N - 1) / elfactor el : ℝ) : ℂ) * (-1) ^ n * fAt A (-n) nt θ w el m := by
    unfold fAt
    rw [Finset.mul_sum]
    refine Finset.sum_congr rfl fun t _ => ?_
    have h2 := neg_one_zpow_sq n
    rw [neg_neg, neg_one_zpow_neg]
    push_cast
    generalize ((-1 : ℂ)) ^ n = s at h2 ⊢
    field_simp
    linear_combination (-((wignerd el m n (θ t) : ℝ) : ℂ) * w t * A t m) * h2
  have e2 : (if |n| ≤ el ∧ |m| ≤ el then c n el m else 0)
      = ((2 * Real.pi / (2 * N - 1) / elfactor el : ℝ) : ℂ) * (-1) ^ n
        * (if |(-n)| ≤ el ∧ |m| ≤ el then planeCoef c N n el m else 0) := by
    rw [abs_neg]
    split_ifs
    · unfold planeCoef
      rw [wigW_eq e0]
      have h2 := neg_one_zpow_sq n
      push_cast
      generalize ((-1 : ℂ)) ^ n = s at h2 ⊢
      field_simp
      linear_combination (-(c n el m)) * h2
    · rw [mul_zero]
  rw [e1, e2, ← mul_sub, norm_mul, norm_mul, norm_neg_one_zpow, mul_one, Complex.norm_real,
    Real.norm_eq_abs, abs_of_nonneg (by positivity)]
  refine (mul_le_mul_of_nonneg_left h (by positivity)).trans (le_of_eq ?_)
  field_simp

/-- On a grid that is not resampled. -/
theorem planeCoeff_rule (F : FftLib) {σ : Scheme} {nodes : ℤ → ℤ → ℝ} {L N : ℤ} (hL : 1 ≤ L)
    (hL1 : L ≤ 2 ^ 26) (h1 : 1 ≤ N) {w : ℤ → ℝ} (hR : RingRule σ nodes L w) {c : ℤ → ℤ → ℤ → ℂ} {n : ℤ}
    {f : ℤ → ℤ → ℂ} {M η ε δ Δ : ℝ} (hM : 1 / 2 ^ 900 ≤ M)
    (hf : ∀ t p, σ.Has L 0 t p → ‖f t p - (2 * (N : ℂ) - 1)
      * wigPlane 0 L c n (σ.theta nodes L 0 t) (σ.phi L 0 t p)‖ ≤ (2 * N - 1) * η)
    (hfM : ∀ t p, σ.Has L 0 t p → ‖f t p‖ ≤ (2 * N - 1) * M) (hδ : 1 / 2 ^ 190 ≤ δ)
    (hΔ : (2 * L - 1) * ((σ.rings L 0 : ℤ) * δ) ≤ Δ) {el m : ℤ} {a : ℤ → ℝ}
    (ha : ∀ t, 0 ≤ t → t < σ.rings L 0 → |a t - 2 * Real.pi / (2 * N - 1)
        * wignerd el m n (σ.theta nodes L 0 t) * w t|
        ≤ 2 * Real.pi / (2 * N - 1) * ((ε + 1 / 2 ^ 52) * w t + 2 * δ) ∧
      |a t| ≤ 2 * (2 * Real.pi / (2 * N - 1)) * (w t + δ))
    (e0 : 0 ≤ el) (e1 : el < L) (m0 : -L < m) (m1 : m < L) :
    ‖F.dot (σ.rings L 0) (fun t => (a t : ℂ))
        (fun t => precomputeFftF F f σ.name (2 * L - 1) false t (m + L - 1))
      - (if |n| ≤ el ∧ |m| ≤ el then c n el m else 0)‖
      ≤ 2 * Real.pi * M * (4 * Real.pi * (ε + L / 2 ^ 45) + 3 * Δ) + 1 / 2 ^ 900
        + 8 * Real.pi ^ 2 * η := by
  have h1' : (1 : ℝ) ≤ N := by exact_mod_cast h1
  have hn : (0 : ℝ) < 2 * N - 1 := by linarith
  have hpi := Real.pi_pos
  obtain ⟨hh, ho, hin, hlen, hir, hit, his, hr1, hr2, hpos, -⟩ := hR.facts hL
  have hM0 : 0 ≤ M := le_trans (by positivity) hM
  have hMN : 1 / 2 ^ 900 ≤ (2 * (N : ℝ) - 1) * M := hM.trans (le_mul_of_one_le_left hM0 (by linarith))
  have hA := fun t t0 t1 => fftF_near F hh ho (nt := σ.rings L 0) hL hMN
    (fun t p t0 t1 p0 p1 => hfM t p ⟨t0, t1, p0, by rw [hlen]; exact p1⟩) (reality := false)
    (by simp) (t := t) (m := m) t0 t1 m0 m1 (by simp)
  simp only [mStart_false, sub_zero] at hA
  have h2 := coeffF_gen F (L := L) (nt := σ.rings L 0) (d := fun t => wignerd el m n (σ.theta nodes L 0 t))
    (w := w) (a := a) (e := 2 * Real.pi / (2 * N - 1)) (by positivity) hL hL1 (by omega) hr2 hR.nonneg ha hδ
    (hR.total hL) hΔ (by positivity : 0 ≤ (2 * (N : ℝ) - 1) * M)
    (A := fun t => ringSum σ L 0 f t m) (fun t t0 t1 => (hA t t0 t1).1) (fun t t0 t1 => (hA t t0 t1).2)
  have h3 := fAt_near hL hR (spin := -n) (c := planeCoef c N n) (f := f) (η := (2 * N - 1) * η)
    (fun t p hp => by rw [planeCoef_sum]; exact hf t p hp) e0 e1 m0 m1
  have h4 := planeSum_fAt h1 (ringSum σ L 0 f) n (σ.rings L 0) (σ.theta nodes L 0) w e0 m c
    (X := 4 * Real.pi * ((2 * N - 1) * η)) (h3.trans (le_of_eq (by ring)))
  refine (norm_sub_le_norm_sub_add_norm_sub _ _ _).trans ((add_le_add h2 h4).trans (le_of_eq ?_))
  generalize (1 : ℝ) / 2 ^ 900 = z
  generalize (L : ℝ) / 2 ^ 45 = y
  field_simp
  ring

/-- On a grid that is resampled. -/
theorem planeCoeff_resampled (F : FftLib) (G : GlTables) {σ : Scheme} (hσ : σ.Resampled) {L N : ℤ}
    (hL : 1 ≤ L) (hL1 : L ≤ 2 ^ 26) {R : (ℤ → ℤ → ℂ) → ℤ → ℤ → ℤ → ℂ} (hR : ResampleNear σ L R)
    (h1 : 1 ≤ N) {c : ℤ → ℤ → ℤ → ℂ} {n : ℤ} {f : ℤ → ℤ → ℂ} {M η : ℝ}
    (hM : 0 ≤ M) (hη : 0 ≤ η)
    (hf : ∀ t p, σ.Has L 0 t p → ‖f t p - (2 * (N : ℂ) - 1)
      * wigPlane 0 L c n (σ.theta G.nodes L 0 t) (σ.phi L 0 t p)‖ ≤ (2 * N - 1) * η)
    (hgM : ∀ t p, σ.Has L 0 t p → ‖(2 * (N : ℂ) - 1)
      * wigPlane 0 L c n (σ.theta G.nodes L 0 t) (σ.phi L 0 t p)‖ ≤ (2 * N - 1) * M) {el m : ℤ} {a : ℤ → ℝ}
    (ha : ∀ t, 0 ≤ t → t < 2 * L + 1 → |a t - 2 * Real.pi / (2 * N - 1)
        * wignerd el m n (innerTheta G.nodes σ L 0 t) * innerWeight G σ L 0 t|
        ≤ 2 * Real.pi / (2 * N - 1) * ((6 * (L * √L / 2 ^ 44) + 1 / 2 ^ 52) * (12 / (L : ℝ) ^ 2)
          + 2 * (1 / 2 ^ 43 / L)))
    (e0 : 0 ≤ el) (e1 : el < L) (m0 : -L < m) (m1 : m < L) :
    ‖F.dot (2 * L + 1) (fun t => (a t : ℂ))
        (fun t => precomputeFftF F (R f (-n)) sMWSS (2 * L) false t (m + L - 1))
      - (if |n| ≤ el ∧ |m| ≤ el then c n el m else 0)‖
      ≤ 2 * Real.pi * (5700 * (L * √L / 2 ^ 44) * (M + tn) + 661 * η) + 3 * L / 2 ^ 1000 := by
  have h1' : (1 : ℝ) ≤ N := by exact_mod_cast h1
  have hn : (0 : ℝ) < 2 * N - 1 := by linarith
  have hpi := Real.pi_pos
  have htn := tn_pos
  obtain ⟨s1, s2, s3⟩ := sizeE hL hL1
  have hh : σ ≠ .healpix := by rintro rfl; simp [Scheme.Resampled] at hσ
  have hv : σ.Valid L 0 := ⟨hL, fun h => absurd h hh⟩
  have hST : SamplingTheorem G σ L := ⟨hh, fun h => by subst h; simp [Scheme.Resampled] at hσ⟩
  obtain ⟨g, hg⟩ : ∃ g : ℤ → ℤ → ℂ, g = fun t p => (2 * (N : ℂ) - 1)
      * wigPlane 0 L c n (σ.theta G.nodes L 0 t) (σ.phi L 0 t p) := ⟨_, rfl⟩
  have h2 := resampledF_gen F G hσ (spin := -n) hL hL1 hR (a := a)
    (d := fun t => wignerd el m n (innerTheta G.nodes σ L 0 t)) (e := 2 * Real.pi / (2 * N - 1))
    (by positivity) (fun t => wignerd_abs_le_one _ _ _ _) ha (f := f) (g := g)
    (M := (2 * N - 1) * M) (η := (2 * N - 1) * η) (by positivity) (by positivity)
    (fun t p hp => by rw [hg]; exact hgM t p hp) (fun t p hp => by rw [hg]; exact hf t p hp) m1
  have h3 := analysis_near hv hST (ns := 0) (spin := -n) (c := planeCoef c N n) (f := g) (η := 0) (ε := 0)
    (α := innerTheta G.nodes σ L 0) (M := (2 * N - 1) * M) (by intro t _ _; rw [sub_self, abs_zero])
    (fun t p hp => by rw [hg]; exact hgM t p hp)
    (fun t p hp => by rw [hg, planeCoef_sum, sub_self, norm_zero]) (reality := false) (by simp) e0 e1 m0 m1
  rw [show innerRings σ L 0 = 2 * L + 1 by unfold innerRings; rw [if_pos hσ],
    show σ.inner = .mwss by rcases hσ with rfl | rfl <;> rfl, mul_zero, zero_mul, add_zero, mul_zero] at h3
  unfold symm at h3
  rw [if_neg (by simp)] at h3
  have h4 := planeSum_fAt h1 (ringSum .mwss L 0 (innerSignal σ L (-n) g)) n (2 * L + 1)
    (innerTheta G.nodes σ L 0) (innerWeight G σ L 0) e0 m c (X := 0) (h3.trans (le_of_eq (by ring)))
  refine (norm_sub_le_norm_sub_add_norm_sub _ _ _).trans ((add_le_add h2 h4).trans ?_)
  rw [mul_zero, add_zero]
  refine add_le_add ?_ le_rfl
  have e3 : 2 * Real.pi / (2 * N - 1) * (5700 * (L * √L / 2 ^ 44) * ((2 * N - 1) * M + tn)
      + 661 * ((2 * N - 1) * η)) = 2 * Real.pi * (5700 * (L * √L / 2 ^ 44) * (M + tn / (2 * N - 1))
      + 661 * η) := by
    field_simp
  rw [e3]
  have : tn / (2 * N - 1) ≤ tn := div_le_self htn.le (by linarith)
  gcongr

/-! ## All directions -/

/-- From the directions that are computed to all. -/
theorem wignerFlmnF_full (F : FftLib) {L N nt : ℤ} {c : ℤ → ℤ → ℤ → ℂ} {A : ℤ → ℤ → ℤ → ℂ}
    {K : ℤ → ℤ → ℤ → ℤ → ℂ} {reality : Bool} (hre : reality = true → RealWigner c 0 L) {B : ℝ}
    (h : ∀ n el m, nFirst N reality ≤ n → n < N → 0 ≤ el → el < L → -L < m → m < L →
      ‖F.dot nt (fun t => K (n - nFirst N reality) t el (m + L - 1))
          (fun t => A (n - nFirst N reality) t (m + L - 1))
        - (if |n| ≤ el ∧ |m| ≤ el then c n el m else 0)‖ ≤ B)
    {n el m : ℤ} (hn : |n| < N) (e0 : 0 ≤ el) (e1 : el < L) (hm : |m| < L) :
    ‖wignerFlmnF F A K L N nt reality (N - 1 + n) el (m + L - 1)
        - (if |n| ≤ el ∧ |m| ≤ el then c n el m else 0)‖ ≤ B := by
  obtain ⟨n0, n1⟩ := abs_lt.1 hn
  obtain ⟨m0, m1⟩ := abs_lt.1 hm
  have hns := nStart_eq N reality
  have plain : ∀ n m, nFirst N reality ≤ n → n < N → -L < m → m < L →
      ‖(if nStart N reality ≤ N - 1 + n then F.dot nt (fun t => K (N - 1 + n - nStart N reality) t el (m + L - 1))
          (fun t => A (N - 1 + n - nStart N reality) t (m + L - 1)) else 0)
        - (if |n| ≤ el ∧ |m| ≤ el then c n el m else 0)‖ ≤ B := fun n m n0 n1 m0 m1 => by
    rw [if_pos (by omega), show N - 1 + n - nStart N reality = n - nFirst N reality by omega]
    exact h n el m n0 n1 e0 e1 m0 m1
  unfold wignerFlmnF
  cases reality with
  | false =>
    rw [if_neg (by simp)]
    exact plain n m (by rw [nFirst_false]; omega) n1 m0 m1
  | true =>
    rw [nFirst_true] at hns
    rw [if_pos rfl]
    by_cases hn0 : 0 ≤ n
    · rw [if_neg (by omega)]
      exact plain n m (by rw [nFirst_true]; omega) n1 m0 m1
    · rw [if_pos (by omega)]
      have h2 := plain (-n) (-m) (by rw [nFirst_true]; omega) (by omega) (by omega) (by omega)
      rw [show nStart N true + 1 + (N - 2 - (N - 1 + n)) = N - 1 + -n by omega,
        show 2 * L - 2 - (m + L - 1) = -m + L - 1 by ring,
        show -L + 1 + (m + L - 1) = m by ring, show -N + 1 + (N - 1 + n) = n by ring]
      have e : (if |n| ≤ el ∧ |m| ≤ el then c n el m else 0)
          = (starRingEnd ℂ) (if |(-n)| ≤ el ∧ |(-m)| ≤ el then c (-n) el (-m) else 0)
            * (-1) ^ |m| * (-1) ^ |n| := by
        rw [abs_neg, abs_neg]
        split_ifs with hc
        · have h3 := hre rfl (-n) el (-m) e0 e1 (by rw [abs_neg]; exact hc.2)
          rw [neg_neg, neg_neg] at h3
          have e4 : ∀ k : ℤ, ((-1 : ℂ)) ^ |k| = (-1) ^ k := fun k => by
            rcases abs_choice k with h | h <;> rw [h]
            exact neg_one_zpow_neg k
          rw [h3, e4, e4, show -m + -n = -(m + n) by ring, neg_one_zpow_neg, zpow_add₀ (by norm_num)]
          ring
        · simp
      rw [e, ← sub_mul, ← sub_mul, norm_mul, norm_mul, norm_neg_one_zpow, norm_neg_one_zpow, mul_one, mul_one,
        ← map_sub, RCLike.norm_conj]
      exact h2

end S2fft
