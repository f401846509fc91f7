import Verif.Props.C18

/-! # C19: all base inverse methods agree -/

namespace S2fft
open Spec

/-- The four methods return arrays of the same shape with the same entries, for every scheme,
band-limit, spin, `L_lower`, flag and coefficient array (HEALPix with `2 nside ≤ L`, without which
the FFT methods raise; real coefficients of order zero under the reality flag, see
`C19_reality_needs_real`). No condition on the angles. -/
theorem C19_agree (G : GlTables) (σ : Scheme) (L spin L_lower : ℤ) (nside : Option ℤ)
    (hv : σ.Valid L (nside.getD 0)) (hhp : σ = .healpix → 2 * nside.getD 0 ≤ L)
    (h0 : 0 ≤ L_lower) (h1 : L_lower < L) (flm : ℤ → ℤ → ℂ) (reality : Bool)
    (hre : RealOrderZero flm L spin reality L_lower) (μ ν : PyStr)
    (hμ : μ ∈ [bDirect, bSov, bSovFft, bVec]) (hν : ν ∈ [bDirect, bSov, bSovFft, bVec]) :
    ∃ a b, baseInverseWith G (.d2 L (2 * L - 1) flm) L spin σ.name μ nside reality L_lower = .ok a ∧
      baseInverseWith G (.d2 L (2 * L - 1) flm) L spin σ.name ν nside reality L_lower = .ok b ∧
      a.shape = b.shape ∧
      (σ ≠ .healpix → ∀ t p, 0 ≤ t → t < σ.rings L (nside.getD 0) → 0 ≤ p →
        p < σ.ringLen L (nside.getD 0) 0 → a.get2 t p = b.get2 t p) ∧
      (σ = .healpix → ∀ i, 0 ≤ i → i < 12 * nside.getD 0 ^ 2 → a.get2 0 i = b.get2 0 i) := by
  obtain ⟨a, ea, sa, ha⟩ := baseInverseWith_values G (lower_name σ) (method := μ)
    hμ (fun _ => mOffset_name σ) (spin := spin) hv (fun _ => hhp) flm reality h0 h1 (fun _ => hre)
  obtain ⟨b, eb, sb, hb⟩ := baseInverseWith_values G (lower_name σ) (method := ν)
    hν (fun _ => mOffset_name σ) (spin := spin) hv (fun _ => hhp) flm reality h0 h1 (fun _ => hre)
  refine ⟨a, b, ea, eb, by rw [sa, sb], ?_, ?_⟩
  · intro hh t p c d e f
    obtain ⟨t', p', h, hp⟩ := shape_tile hv (x := t) (y := p) (fun h => absurd h hh)
      (fun _ => ⟨c, d, e, f⟩)
    have := (ha t' p' h).trans (hb t' p' h).symm
    rwa [hp] at this
  · intro hh i c d
    obtain ⟨t', p', h, hp⟩ := shape_tile hv (x := 0) (y := i) (fun _ => ⟨rfl, c, d⟩)
      (fun h => absurd hh h)
    have := (ha t' p' h).trans (hb t' p' h).symm
    rwa [hp] at this

/-- For HEALPix with `L < 2 nside` the two FFT methods raise, the other two do not. -/
theorem C19_healpix_reject (G : GlTables) (L spin L_lower n : ℤ) (hn : 1 ≤ n) (hL : 1 ≤ L)
    (hlt : L < 2 * n) (h0 : 0 ≤ L_lower) (h1 : L_lower < L) (flm : ℤ → ℤ → ℂ) (reality : Bool) :
    baseInverseWith G (.d2 L (2 * L - 1) flm) L spin sHP bSovFft (some n) reality L_lower
      = .error .assertionError ∧
    baseInverseWith G (.d2 L (2 * L - 1) flm) L spin sHP bVec (some n) reality L_lower
      = .error .assertionError ∧
    (∃ a, baseInverseWith G (.d2 L (2 * L - 1) flm) L spin sHP bDirect (some n) reality L_lower
      = .ok a) ∧
    ∃ a, baseInverseWith G (.d2 L (2 * L - 1) flm) L spin sHP bSov (some n) reality L_lower
      = .ok a := by
  have hv : Scheme.healpix.Valid L ((some n).getD 0) := ⟨hL, fun _ => hn⟩
  obtain ⟨θ, e1, -⟩ := thetas_scheme G.nodes (lower_name .healpix) hv
  rw [name_hp] at e1
  have key : ∀ m run, inverseMethod m = .ok run →
      baseInverseWith G (.d2 L (2 * L - 1) flm) L spin sHP m (some n) reality L_lower
        = (run flm L spin sHP (4 * n - 1) θ n (if reality = true ∧ spin ≠ 0 then false else reality)
            L_lower >>= packSignal L sHP (some n)) := by
    intro m run hm
    unfold baseInverseWith
    rw [if_neg (by simp [Nd.shape, flm_shape]), if_neg (by omega), if_neg (by omega), e1]
    show (do
      let run ← inverseMethod m
      let f ← run flm L spin sHP (4 * n - 1) θ n _ L_lower
      packSignal L sHP (some n) f) = _
    rw [hm]; rfl
  have hsh := ftm_shape_scheme (lower_name .healpix) L n
  rw [name_hp] at hsh
  refine ⟨?_, ?_, ?_, ?_⟩
  · rw [key bSovFft inverseSovFft (by rfl)]
    unfold inverseSovFft
    rw [if_pos ⟨by decide, by omega⟩]; rfl
  · rw [key bVec inverseVec (by rfl)]
    unfold inverseVec inverseFft inverseFftM
    rw [hsh]
    have : ∀ ftm r, healpix_ifft noCuda ftm L n mNumpy r = .error .assertionError :=
      fun ftm r => (C08_reject noCuda ftm L n mNumpy r).1 hlt
    simp only [bind, Except.bind, pure, Except.pure]
    rw [if_pos (by decide), this]
  · obtain ⟨a, e, -⟩ := baseInverseWith_values G (lower_name .healpix) (method := bDirect)
      (by simp [baseMethods]) (by intro h; revert h; decide) (spin := spin) hv
      (fun h => absurd h (by decide)) flm reality h0 h1 (fun h => absurd h (by decide))
    exact ⟨a, e⟩
  · obtain ⟨a, e, -⟩ := baseInverseWith_values G (lower_name .healpix) (method := bSov)
      (by simp [baseMethods]) (by intro h; revert h; decide) (spin := spin) hv
      (fun h => absurd h (by decide)) flm reality h0 h1 (fun h => absurd h (by decide))
    exact ⟨a, e⟩

/-- The condition on the coefficients of order zero cannot be dropped: with `L = 1` and the
coefficient `i`, the direct method returns `i √(1/4π)` and the FFT methods return zero. -/
theorem C19_reality_needs_real (G : GlTables) :
    ∃ a b, baseInverseWith G (.d2 1 1 (fun _ _ => Complex.I)) 1 0 sMW bDirect none true 0 = .ok a ∧
      baseInverseWith G (.d2 1 1 (fun _ _ => Complex.I)) 1 0 sMW bVec none true 0 = .ok b ∧
      a.get2 0 0 ≠ b.get2 0 0 := by
  have hv : Scheme.mw.Valid 1 ((none : Option ℤ).getD 0) := ⟨le_rfl, by simp⟩
  have hHas : Scheme.mw.Has 1 0 0 0 := ⟨le_rfl, by simp [Scheme.rings], le_rfl,
    by simp [Scheme.ringLen]⟩
  obtain ⟨a, e, -, ha⟩ := baseInverseWith_values G (lower_name .mw) (method := bDirect)
    (by simp [baseMethods]) (by intro h; revert h; decide) (spin := 0) (Ll := 0) hv
    (by intro h; revert h; decide) (fun _ _ => Complex.I) true le_rfl one_pos
    (by intro h; revert h; decide)
  have ha0 := ha 0 0 hHas
  simp only [Option.getD_none, Scheme.pos, ne_eq, not_true_eq_false, and_false, if_false] at ha0
  obtain ⟨θ, e1, hθ⟩ := thetas_scheme G.nodes (lower_name .mw) hv
  -- the FFT method returns the real part of a Fourier coefficient at the single sample
  have hfft : ∃ f, inverseVec (fun _ _ => Complex.I) 1 0 sMW 1 θ 0 true 0 = .ok f ∧
      (f 0 0).im = 0 := by
    unfold inverseVec
    have := ftm_shape_scheme (lower_name .mw) 1 0
    rw [name_mw] at this
    rw [this]
    refine ⟨_, rfl, ?_⟩
    show (irfft_fwd _ _ _ _).im = 0
    unfold irfft_fwd
    exact Complex.ofReal_im _
  obtain ⟨f, e3, hf⟩ := hfft
  obtain ⟨b, e4, -, hb⟩ := packSignal_scheme (lower_name .mw) hv f
  have hb0 := hb 0 0 hHas
  simp only [Option.getD_none, Scheme.pos] at hb0
  refine ⟨a, b, e, ?_, ?_⟩
  · unfold baseInverseWith
    rw [if_neg (by simp [Nd.shape, flm_shape]), if_neg (by omega), if_neg (by omega)]
    rw [name_mw] at e1 e4
    rw [e1]
    show (inverseVec (fun _ _ => Complex.I) 1 0 sMW 1 θ 0 true 0 >>= packSignal 1 sMW none) = _
    rw [e3]; exact e4
  · intro h
    rw [hb0] at h
    rw [h] at ha0
    have him := congrArg Complex.im ha0
    rw [hf, synth_gVal] at him
    simp only [elStart, abs_zero, max_self, show Finset.Ico (0 : ℤ) 1 = {0} by decide,
      Finset.sum_singleton, shareVal, synth, if_true, Finset.Ico_self, Finset.sum_empty, add_zero,
      neg_zero, zpow_zero, one_mul, wignerd_zero] at him
    rw [← Complex.ofReal_mul, Complex.im_ofReal_mul, Complex.I_im, mul_one] at him
    have : 0 < elfactor 0 := by
      unfold elfactor
      apply Real.sqrt_pos.2
      have := Real.pi_pos
      push_cast; positivity
    simp at him
    rw [← him] at this
    exact lt_irrefl _ this

/-- The hypotheses are met by a non-trivial HEALPix case (`nside = 2`, `L = 4`, reality). -/
example : Scheme.healpix.Valid 4 2 ∧ (2 * (2 : ℤ) ≤ 4) ∧
    RealOrderZero (fun l m => if m = 3 then 1 else Complex.I) 4 0 true 0 := by
  refine ⟨⟨by norm_num, by simp⟩, by norm_num, ?_⟩
  intro _ _ el _ _
  simp

end S2fft
