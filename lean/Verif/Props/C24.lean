import Verif.Lemmas.GlForward
import Verif.Props.C18

/-! # C24: the round trip is the identity -/

namespace S2fft
open Spec

/-- Coefficients of a real signal. -/
def RealHarmonics (c : ℤ → ℤ → ℂ) (lo L : ℤ) : Prop :=
  ∀ l m, lo ≤ l → l < L → |m| ≤ l → c l (-m) = (-1) ^ m * (starRingEnd ℂ) (c l m)

theorem realCoeffs_real (c : ℤ → ℤ → ℂ) {lo L : ℤ}
    (h : ∀ l, lo ≤ l → l < L → (c l 0).im = 0) : RealHarmonics (realCoeffs c) lo L := by
  intro l m h0 h1 _
  have hz : ((-1 : ℂ)) ^ m * (-1) ^ m = 1 := by
    rw [← zpow_add₀ (by norm_num), show m + m = 2 * m by ring, zpow_mul]; norm_num
  have hinv : ((-1 : ℂ)) ^ (-m) = (-1) ^ m := by rw [zpow_neg, ← inv_zpow, inv_neg, inv_one]
  unfold realCoeffs
  rcases lt_trichotomy m 0 with hm | rfl | hm
  · rw [if_neg (by omega), if_pos hm]
    simp only [map_mul, map_zpow₀, map_neg, map_one, Complex.conj_conj]
    rw [← mul_assoc, hz, one_mul]
  · simp [Complex.conj_eq_iff_im.2 (h l h0 h1)]
  · rw [if_pos (by omega), if_neg (by omega), neg_neg, hinv]

theorem harmonicSum_real {c : ℤ → ℤ → ℂ} {lo L : ℤ} (h : RealHarmonics c lo L) (θ φ : ℝ) :
    (harmonicSum lo L 0 c θ φ).im = 0 := by
  rw [← Complex.conj_eq_iff_im]
  unfold harmonicSum
  rw [map_sum]
  apply Finset.sum_congr rfl
  intro l hl
  rw [Finset.mem_Ico] at hl
  rw [map_sum, show Finset.Ico (-l) (l + 1) = Finset.Ioo (-(l + 1)) (l + 1) by
    ext x; simp only [Finset.mem_Ico, Finset.mem_Ioo]; omega,
    ← sum_Ioo_neg (l + 1) (fun m => c l m * sYlm 0 l m θ φ)]
  apply Finset.sum_congr rfl
  intro m hm
  rw [Finset.mem_Ioo] at hm
  rw [h l m hl.1 hl.2 (by rw [abs_le]; omega)]
  unfold sYlm
  have := wignerd_neg_neg l m (-0) θ
  rw [neg_neg, neg_zero, add_zero] at this
  have hz : ((-1 : ℂ)) ^ m * (-1) ^ m = 1 := by
    rw [← zpow_add₀ (by norm_num), show m + m = 2 * m by ring, zpow_mul]; norm_num
  rw [neg_zero, this]
  simp only [map_mul, Complex.conj_ofReal, conj_cis, zpow_zero, map_one, one_mul]
  rw [show (((-m : ℤ) : ℝ) * φ) = -(m * φ) by push_cast; ring]
  push_cast
  generalize (-1 : ℂ) ^ m = s at hz
  linear_combination (-((starRingEnd ℂ) (c l m) * √((2 * (l : ℝ) + 1) / (4 * Real.pi))
    * wignerd l m 0 θ * cis (-(m * φ))) : ℂ) * hz

/-- Analysis: applied to the samples of the harmonic expansion with coefficients `c`, `forward`
returns `c` (zero outside the degrees asked for and outside `|m| ≤ l`), with each of the four
methods. -/
theorem C24_forward (G : GlTables) (σ : Scheme) (L spin L_lower lo : ℤ) (nside : Option ℤ)
    (hv : σ.Valid L (nside.getD 0)) (hσ : SamplingTheorem G σ L)
    (hex : InnerExact G.nodes σ L (nside.getD 0)) (h0 : 0 ≤ L_lower) (h1 : L_lower < L)
    (hlo : lo ≤ L_lower) (method : PyStr) (hμ : method ∈ [bDirect, bSov, bSovFft, bVec])
    (c : ℤ → ℤ → ℂ) (f : Nd ℂ) (hf : f.shape = σ.shape L (nside.getD 0))
    (hs : SamplesOf G.nodes σ L (nside.getD 0) f.get2 (harmonicSum lo L spin c))
    (reality : Bool) (hre : reality = true → spin = 0 → RealHarmonics c lo L) :
    ∃ g, baseForwardWith G f L spin σ.name method nside reality L_lower
        = .ok (.d2 L (2 * L - 1) g) ∧
      ∀ el m, 0 ≤ el → el < L → -L < m → m < L →
        g el (m + L - 1) = if max |spin| L_lower ≤ el ∧ |m| ≤ el then c el m else 0 := by
  have hL := hv.1
  have hreal : reality = true → spin = 0 → RealInput G.nodes σ L (nside.getD 0) f.get2 := by
    rintro hr rfl
    have him := harmonicSum_real (hre hr rfl)
    unfold RealInput
    split_ifs with hR
    · refine ⟨harmF lo L 0 c, harmF_parity lo L 0 c, fun θ φ => ?_, fun t p h => ?_⟩
      · rw [← harmonicSum_sph]; exact him θ φ
      · rw [← harmonicSum_sph]; exact hs t p h
    · intro t p h
      rw [hs t p h]; exact him _ _
  obtain ⟨g, e, hg, hz⟩ := baseForwardWith_values G (lower_name σ) (method := method) hμ
    (fun _ h => absurd h hσ.1) (spin := spin) hv (fun _ h => absurd h hσ.1) f hf reality h0 h1
    (by rintro _ hr rfl; exact realInput_rings hL (hreal hr rfl))
  refine ⟨g, e, fun el m a b m0 m1 => ?_⟩
  have hst : elStart L_lower spin = max |spin| L_lower := max_comm _ _
  by_cases hel : max |spin| L_lower ≤ el
  · rw [hg el m (by rw [hst]; exact hel) b m0 m1]
    obtain ⟨q, n, hn, hlen, hw, hq⟩ := inner_rule G (nside := nside.getD 0) hL hσ
    have key : ∀ m, -L < m → m < L → fVal (ringSum σ.inner L (nside.getD 0)
        (innerSignal σ L spin f.get2)) spin (innerRings σ L (nside.getD 0))
        (innerTheta G.nodes σ L (nside.getD 0)) (innerWeight G σ L (nside.getD 0)) el m
        = if |m| ≤ el then c el m else 0 := by
      intro m m0 m1
      refine fVal_exact (lo := lo) (n := n) (by exact_mod_cast (by omega : n ≠ 0)) ?_ hw hq
        (fun t t0 t1 => snapAngle_eq _ (hex t t0 t1)) a (by omega)
        (le_trans (le_max_left _ _) hel) b m0 m1
      intro t m t0 t1 m0 m1
      exact ringSum_harm hL hσ.1 hs hn hlen t0 t1 m0 m1
    unfold symm
    split_ifs with hr hc hc
    · rw [key _ (by omega) (by omega), if_pos (by rw [abs_neg]; exact hc.2)]
      have h3 := hre (effReality_true hr.1) (effReality_spin hr.1) el (-m) (by omega) b
        (by rw [abs_neg]; exact hc.2)
      rw [neg_neg] at h3
      rw [h3, zpow_neg, ← inv_zpow, inv_neg, inv_one]
    · rw [key _ (by omega) (by omega), if_neg (by rw [abs_neg]; tauto)]; simp
    · rw [key _ m0 m1, if_pos hc.2]
    · rw [key _ m0 m1, if_neg (by tauto)]
  · rw [hz el _ (by rw [hst]; omega), if_neg (by tauto)]

/-- Round trip: `forward (inverse flm) = flm` at every degree `≥ max (|spin|, L_lower)` and order
`|m| ≤ l`, zero elsewhere; the two transforms may use different methods. -/
theorem C24_round_trip (G : GlTables) (σ : Scheme) (L spin L_lower : ℤ) (nside : Option ℤ)
    (hv : σ.Valid L (nside.getD 0)) (hσ : SamplingTheorem G σ L)
    (hex : GridExact G.nodes σ L (nside.getD 0)) (hex' : InnerExact G.nodes σ L (nside.getD 0))
    (h0 : 0 ≤ L_lower) (h1 : L_lower < L) (μ ν : PyStr)
    (hμ : μ ∈ [bDirect, bSov, bSovFft, bVec]) (hν : ν ∈ [bDirect, bSov, bSovFft, bVec])
    (flm : ℤ → ℤ → ℂ) (reality : Bool) (hre : RealOrderZero flm L spin reality L_lower) :
    ∃ f g, baseInverseWith G (.d2 L (2 * L - 1) flm) L spin σ.name μ nside reality L_lower = .ok f ∧
      baseForwardWith G f L spin σ.name ν nside reality L_lower = .ok (.d2 L (2 * L - 1) g) ∧
      ∀ el m, 0 ≤ el → el < L → -L < m → m < L →
        g el (m + L - 1) = if max |spin| L_lower ≤ el ∧ |m| ≤ el
          then coeffs flm L spin reality el m else 0 := by
  obtain ⟨f, e, hs, hf⟩ := C18_inverse_close G σ L spin L_lower nside μ hμ hv
    (fun _ h => absurd h hσ.1) h0 h1 flm reality (fun _ => hre)
  obtain ⟨g, e', hg⟩ := C24_forward G σ L spin L_lower L_lower nside hv hσ hex' h0 h1 le_rfl ν hν
    (coeffs flm L spin reality) f hs (by
      intro t p h
      obtain ⟨θ', -, h2, h3⟩ := hf t p h
      rw [h3, h2 (hex t h.1 h.2.1)]) reality (by
      intro hr hz
      unfold coeffs
      rw [if_pos ⟨hr, hz⟩]
      apply realCoeffs_real
      intro l a b
      rw [zero_add]; exact hre hr hz l a b)
  exact ⟨f, g, e, e', hg⟩

/-- Grids on which the round trip is exact: every `L ≤ 10000` for `mw`, `mwss` and `dh`. -/
theorem C24_grids (nodes : ℤ → ℤ → ℝ) (σ : Scheme) (L nside : ℤ)
    (hσ : σ = .mw ∨ σ = .mwss ∨ σ = .dh) (h0 : 1 ≤ L) (h1 : L ≤ 10000) :
    GridExact nodes σ L nside ∧ InnerExact nodes σ L nside := by
  have hv : σ.Valid L nside := ⟨h0, by rcases hσ with rfl | rfl | rfl <;> exact fun h => nomatch h⟩
  have hg : σ ≠ .gl := by rcases hσ with rfl | rfl | rfl <;> exact fun h => nomatch h
  have hz : ∀ τ : Scheme, τ ≠ .healpix → ∀ L t, τ.theta nodes L nside t = τ.theta nodes L 0 t := by
    intro τ h L t; cases τ <;> first | rfl | exact absurd rfl h
  have hz' : ∀ τ : Scheme, τ ≠ .healpix → ∀ L, τ.rings L nside = τ.rings L 0 := by
    intro τ h L; cases τ <;> first | rfl | exact absurd rfl h
  have key : ∀ τ : Scheme, τ ≠ .healpix → τ ≠ .gl → ∀ L, 1 ≤ L → L ≤ 20000 →
      GridExact nodes τ L nside := by
    intro τ h h2 L a b t t0 t1
    rw [hz τ h]
    exact C18_grids nodes τ L 0 ⟨a, fun h' => absurd h' h⟩ h2 b (by norm_num) t t0
      (by rwa [← hz' τ h])
  have hσ' : σ ≠ .healpix := by rcases hσ with rfl | rfl | rfl <;> exact fun h => nomatch h
  refine ⟨key σ hσ' hg L h0 (by omega), ?_⟩
  intro t t0 t1
  unfold innerRings at t1
  unfold innerTheta
  split_ifs at t1 ⊢ with hR
  · have := key .mwss (fun h => nomatch h) (fun h => nomatch h) (2 * L) (by omega) (by omega) t t0
      (by simpa [Scheme.rings] using t1)
    simpa [Scheme.theta] using this
  · exact key σ hσ' hg L h0 (by omega) t t0 t1

/-- For `gl` exact tables exist for every band-limit, and so do the tables of the code: the nodes of
an exact `leggauss` and the array returned by `quad_weights_gl`. -/
theorem C24_gl_tables : ∃ nodes weights : ℤ → ℤ → ℝ, ∀ L, 1 ≤ L →
    GlExact nodes (glWeights nodes) L ∧ GlCode nodes weights L := by
  choose x hx using legendre_roots_exist
  have hex : ∀ N : ℕ, ∃ n, gl_exits ((N : ℤ) + 1) n :=
    fun N => gl_exits_exists N (x N) (hx N).1 (hx N).2
  choose n hn using hex
  refine ⟨fun L => x (L - 1).toNat, fun L => quad_weights_gl L (n (L - 1).toNat), fun L hL => ?_⟩
  have key : GlCode (fun L => x (L - 1).toNat) (fun L => quad_weights_gl L (n (L - 1).toNat)) L := by
    obtain ⟨N, rfl⟩ : ∃ N : ℕ, L = N + 1 := ⟨(L - 1).toNat, by omega⟩
    have e : ((N : ℤ) + 1 - 1).toNat = N := by omega
    refine ⟨?_, ?_, n N, hn N, fun t _ _ => by rw [e]⟩
    · rw [e]; exact (hx N).1
    · rw [e, show ((N : ℤ) + 1).toNat = N + 1 by omega]; exact (hx N).2
  exact ⟨key.exact, key⟩

theorem gl_inner_exact {nodes : ℤ → ℤ → ℝ} {L nside : ℤ} (h : GridExact nodes .gl L nside) :
    InnerExact nodes .gl L nside := by
  have hR : ¬ Scheme.gl.Resampled := by decide
  intro t t0 t1
  unfold innerRings at t1
  unfold innerTheta
  rw [if_neg hR] at t1 ⊢
  exact h t t0 t1

/-- Analysis of Gauss–Legendre samples with the weights the code computes: every coefficient is
returned up to `3e-14 (L + 1/2)² √(4π)` times a bound for the samples (the tolerance of the Newton
iteration), degrees and orders not asked for up to the same bound zero. -/
theorem C24_gl_forward (G : GlTables) (L spin L_lower lo : ℤ) (nside : Option ℤ) (hL : 1 ≤ L)
    (hL2 : L ≤ 20000) (hG : GlCode G.nodes G.weights L) (h0 : 0 ≤ L_lower) (h1 : L_lower < L)
    (hlo : lo ≤ L_lower) (method : PyStr) (hμ : method ∈ [bDirect, bSov, bSovFft, bVec])
    (c : ℤ → ℤ → ℂ) (f : Nd ℂ) (hf : f.shape = [L, 2 * L - 1])
    (hs : SamplesOf G.nodes .gl L (nside.getD 0) f.get2 (harmonicSum lo L spin c))
    (reality : Bool) (hre : reality = true → spin = 0 → RealHarmonics c lo L) :
    ∃ g, baseForwardWith G f L spin sGL method nside reality L_lower
        = .ok (.d2 L (2 * L - 1) g) ∧
      ∀ B : ℝ, (∀ t p, 0 ≤ t → t < L → 0 ≤ p → p < 2 * L - 1 → ‖f.get2 t p‖ ≤ B) →
      ∀ el m, 0 ≤ el → el < L → -L < m → m < L →
        ‖g el (m + L - 1) - if max |spin| L_lower ≤ el ∧ |m| ≤ el then c el m else 0‖
          ≤ 3e-14 * ((L : ℝ) + 1 / 2) ^ 2 * √(4 * Real.pi) * B := by
  have hv : Scheme.gl.Valid L (nside.getD 0) := ⟨hL, fun h => nomatch h⟩
  have hex := C18_gl_grid G.nodes L (nside.getD 0) hL hL2 hG.mono hG.root
  obtain ⟨g', e', hg'⟩ := C24_forward ⟨G.nodes, glWeights G.nodes⟩ .gl L spin L_lower lo nside hv
    (show SamplingTheorem _ .gl L from ⟨fun h => (nomatch h), fun _ => hG.exact⟩) (gl_inner_exact hex) h0 h1 hlo method hμ c f hf hs
    reality hre
  have him : reality = true → spin = 0 → ∀ t p, 0 ≤ t → t < L → 0 ≤ p → p < 2 * L - 1 →
      (f.get2 t p).im = 0 := by
    rintro hr rfl t p a b c' d
    have := hs t p ⟨a, b, c', d⟩
    rw [pos_plain (σ := .gl) (by decide)] at this
    rw [this]
    exact harmonicSum_real (hre hr rfl) _ _
  have key : ∀ B : ℝ, (∀ t p, 0 ≤ t → t < L → 0 ≤ p → p < 2 * L - 1 → ‖f.get2 t p‖ ≤ B) →
      ∃ g, baseForwardWith G f L spin sGL method nside reality L_lower
        = .ok (.d2 L (2 * L - 1) g) ∧ ∀ el m, 0 ≤ el → el < L → -L < m → m < L →
        ‖g el (m + L - 1) - if max |spin| L_lower ≤ el ∧ |m| ≤ el then c el m else 0‖
          ≤ 3e-14 * ((L : ℝ) + 1 / 2) ^ 2 * √(4 * Real.pi) * B := by
    intro B hB
    obtain ⟨g, g2, e, e2, hg⟩ := gl_forward_error G (spin := spin) hL hL2 hG nside (method := method)
      hμ f hf reality h0 h1 him hB
    have hgg : g2 = g' := by
      have h := e2.symm.trans e'
      injection h with h
      injection h
    refine ⟨g, e, fun el m a b c' d => ?_⟩
    rw [← hg' el m a b c' d, ← hgg]
    exact hg el m a b c' d
  obtain ⟨B, hB⟩ : ∃ B : ℝ, ∀ t p, 0 ≤ t → t < L → 0 ≤ p → p < 2 * L - 1 → ‖f.get2 t p‖ ≤ B := by
    refine ⟨∑ t ∈ Finset.Ico 0 L, ∑ p ∈ Finset.Ico 0 (2 * L - 1), ‖f.get2 t p‖, ?_⟩
    intro t p a b c' d
    refine le_trans ?_ (Finset.single_le_sum (f := fun t => ∑ p ∈ Finset.Ico 0 (2 * L - 1),
      ‖f.get2 t p‖) (fun _ _ => Finset.sum_nonneg fun _ _ => norm_nonneg _)
      (Finset.mem_Ico.2 ⟨a, b⟩))
    exact Finset.single_le_sum (f := fun p => ‖f.get2 t p‖) (fun _ _ => norm_nonneg _)
      (Finset.mem_Ico.2 ⟨c', d⟩)
  obtain ⟨g, e, -⟩ := key B hB
  refine ⟨g, e, fun B hB => ?_⟩
  obtain ⟨g2, e2, hg2⟩ := key B hB
  have hgg : g2 = g := by
    have h := e2.symm.trans e
    injection h with h
    injection h
  rw [← hgg]; exact hg2

/-- Round trip on the Gauss–Legendre grid with the weights the code computes. -/
theorem C24_gl_round_trip (G : GlTables) (L spin L_lower : ℤ) (nside : Option ℤ) (hL : 1 ≤ L)
    (hL2 : L ≤ 20000) (hG : GlCode G.nodes G.weights L)
    (h0 : 0 ≤ L_lower) (h1 : L_lower < L) (μ ν : PyStr)
    (hμ : μ ∈ [bDirect, bSov, bSovFft, bVec]) (hν : ν ∈ [bDirect, bSov, bSovFft, bVec])
    (flm : ℤ → ℤ → ℂ) (reality : Bool) (hre : RealOrderZero flm L spin reality L_lower) :
    ∃ f g, baseInverseWith G (.d2 L (2 * L - 1) flm) L spin sGL μ nside reality L_lower = .ok f ∧
      baseForwardWith G f L spin sGL ν nside reality L_lower = .ok (.d2 L (2 * L - 1) g) ∧
      ∀ B : ℝ, (∀ t p, 0 ≤ t → t < L → 0 ≤ p → p < 2 * L - 1 → ‖f.get2 t p‖ ≤ B) →
      ∀ el m, 0 ≤ el → el < L → -L < m → m < L →
        ‖g el (m + L - 1) - if max |spin| L_lower ≤ el ∧ |m| ≤ el
          then coeffs flm L spin reality el m else 0‖
          ≤ 3e-14 * ((L : ℝ) + 1 / 2) ^ 2 * √(4 * Real.pi) * B := by
  have hv : Scheme.gl.Valid L (nside.getD 0) := ⟨hL, fun h => nomatch h⟩
  have hex := C18_gl_grid G.nodes L (nside.getD 0) hL hL2 hG.mono hG.root
  obtain ⟨f, e, hs, hf⟩ := C18_inverse_close G .gl L spin L_lower nside μ hμ hv
    (fun _ h => nomatch h) h0 h1 flm reality (fun _ => hre)
  obtain ⟨g, e', hg⟩ := C24_gl_forward G L spin L_lower L_lower nside hL hL2 hG h0 h1 le_rfl ν hν
    (coeffs flm L spin reality) f hs (by
      intro t p h
      obtain ⟨θ', -, h2, h3⟩ := hf t p h
      rw [h3, h2 (hex t h.1 h.2.1)]) reality (by
      intro hr hz
      unfold coeffs
      rw [if_pos ⟨hr, hz⟩]
      apply realCoeffs_real
      intro l a b
      rw [zero_add]; exact hre hr hz l a b)
  exact ⟨f, g, e, e', hg⟩

/-- The hypotheses are met, e.g. by spin 2 MW coefficients that are all non-zero, `L = 8`. -/
example (G : GlTables) : Scheme.mw.Valid 8 0 ∧ SamplingTheorem G .mw 8 ∧
    GridExact G.nodes .mw 8 0 ∧ InnerExact G.nodes .mw 8 0 ∧
    RealOrderZero (fun el m => 1 + el * Complex.I) 8 2 true 3 :=
  ⟨⟨by norm_num, by simp⟩, ⟨by simp, by simp⟩,
    (C24_grids G.nodes .mw 8 0 (Or.inl rfl) (by norm_num) (by norm_num)).1,
    (C24_grids G.nodes .mw 8 0 (Or.inl rfl) (by norm_num) (by norm_num)).2,
    fun _ h => absurd h (by norm_num)⟩

end S2fft
