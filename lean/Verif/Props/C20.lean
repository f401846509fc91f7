import Verif.Lemmas.BaseBandLimit

/-! # C20: all base forward methods agree -/

namespace S2fft
open Spec

/-- The samples are those of a real signal. For MW and MWSS, whose signals are resampled before
they are transformed, of a real band-limited one (see `C20_reality_needs_bandlimit`). -/
def RealInput (nodes : ℤ → ℤ → ℝ) (σ : Scheme) (L nside : ℤ) (f : ℤ → ℤ → ℂ) : Prop :=
  if σ = .mw ∨ σ = .mwss then
    ∃ F, PoleParity 0 F ∧ (∀ θ φ, (sphSignal L L F θ φ).im = 0) ∧
      SamplesOf nodes σ L nside f (sphSignal L L F)
  else ∀ t p, σ.Has L nside t p → (f (σ.pos nside t p).1 (σ.pos nside t p).2).im = 0

theorem realInput_rings {nodes : ℤ → ℤ → ℝ} {σ : Scheme} {L nside : ℤ} (hL : 1 ≤ L)
    {f : ℤ → ℤ → ℂ} (h : RealInput nodes σ L nside f) :
    RealRings σ.inner L nside (innerRings σ L nside) (innerSignal σ L 0 f) := by
  intro t p t0 t1 p0 p1
  unfold RealInput at h
  by_cases hR : σ.Resampled
  · rw [if_pos (show σ = .mw ∨ σ = .mwss from hR)] at h
    obtain ⟨F, hF, hre, hf⟩ := h
    have hpos : σ.inner.pos nside t p = (t, p) := by
      rcases hR with rfl | rfl <;> rfl
    have hlen : σ.inner.ringLen L nside t = 2 * L := by
      rcases hR with rfl | rfl <;> rfl
    rw [hlen] at p1
    rw [hpos, innerSignal_sph hR hL nodes hF hf t p p0 p1]
    exact hre _ _
  · rw [if_neg (show ¬ (σ = .mw ∨ σ = .mwss) from hR)] at h
    unfold innerRings at t1
    rw [if_neg hR] at t1
    have hin : σ.inner = σ := by
      revert hR; cases σ <;> simp [Scheme.Resampled, Scheme.inner]
    rw [hin] at p1 ⊢
    have := h t p ⟨t0, t1, p0, p1⟩
    revert hR; cases σ <;> simp_all [Scheme.Resampled, innerSignal]

/-- The four methods return arrays of the same shape with the same entries, for every scheme,
band-limit, spin, `L_lower` and signal, and for real signals with the flag set. No condition on the
angles. -/
theorem C20_agree (G : GlTables) (σ : Scheme) (L spin L_lower : ℤ) (nside : Option ℤ)
    (hv : σ.Valid L (nside.getD 0)) (hhp : σ = .healpix → 2 * nside.getD 0 ≤ L)
    (h0 : 0 ≤ L_lower) (h1 : L_lower < L) (f : Nd ℂ) (hf : f.shape = σ.shape L (nside.getD 0))
    (reality : Bool)
    (hre : reality = true → spin = 0 → RealInput G.nodes σ L (nside.getD 0) f.get2) (μ ν : PyStr)
    (hμ : μ ∈ [bDirect, bSov, bSovFft, bVec]) (hν : ν ∈ [bDirect, bSov, bSovFft, bVec]) :
    ∃ a b, baseForwardWith G f L spin σ.name μ nside reality L_lower = .ok (.d2 L (2 * L - 1) a) ∧
      baseForwardWith G f L spin σ.name ν nside reality L_lower = .ok (.d2 L (2 * L - 1) b) ∧
      ∀ el j, 0 ≤ el → el < L → 0 ≤ j → j < 2 * L - 1 → a el j = b el j := by
  have hre' : reality = true → spin = 0 → RealRings σ.inner L (nside.getD 0)
      (innerRings σ L (nside.getD 0)) (innerSignal σ L spin f.get2) := by
    rintro a rfl; exact realInput_rings hv.1 (hre a rfl)
  have hsh : σ = .healpix → σ.name = sHP := by rintro rfl; rfl
  obtain ⟨a, ea, ha, ha0⟩ := baseForwardWith_values G (lower_name σ) (method := μ)
    hμ (fun _ => hsh) (spin := spin) hv (fun _ => hhp) f hf reality h0 h1 (fun _ => hre')
  obtain ⟨b, eb, hb, hb0⟩ := baseForwardWith_values G (lower_name σ) (method := ν)
    hν (fun _ => hsh) (spin := spin) hv (fun _ => hhp) f hf reality h0 h1 (fun _ => hre')
  refine ⟨a, b, ea, eb, fun el j c d e g => ?_⟩
  by_cases hel : el < elStart L_lower spin
  · rw [ha0 el j hel, hb0 el j hel]
  · have h2 := ha el (j - L + 1) (by omega) d (by omega) (by omega)
    have h3 := hb el (j - L + 1) (by omega) d (by omega) (by omega)
    rw [show j - L + 1 + L - 1 = j by ring] at h2 h3
    rw [h2, h3]

/-- The hypotheses are met, e.g. by the real HEALPix map that is 1 on the first pixel. -/
example (nodes : ℤ → ℤ → ℝ) : Scheme.healpix.Valid 4 2 ∧ (2 * (2 : ℤ) ≤ 4) ∧
    (Nd.d1 48 (fun i => if i = 0 then (1 : ℂ) else 0)).shape = Scheme.healpix.shape 4 2 ∧
    RealInput nodes .healpix 4 2 (Nd.d1 48 (fun i => if i = 0 then (1 : ℂ) else 0)).get2 := by
  refine ⟨⟨by norm_num, by simp⟩, by norm_num, rfl, ?_⟩
  unfold RealInput
  rw [if_neg (by simp)]
  intro t p _
  simp only [Nd.get2]
  split_ifs <;> simp

/-- They are met by the MWSS samples of the real signal `cos θ`. -/
example (nodes : ℤ → ℤ → ℝ) :
    RealInput nodes .mwss 4 0 (fun t _ => (Real.cos (t * Real.pi / 4) : ℂ)) := by
  unfold RealInput
  rw [if_pos (by simp)]
  have hs : ∀ θ φ, sphSignal 4 4 (fun m k => if m = 0 ∧ (k = 1 ∨ k = -1) then 1 / 2 else 0) θ φ
      = (Real.cos θ : ℂ) := by
    intro θ φ
    have e : Finset.Ioo (-4 : ℤ) 4 = {-3, -2, -1, 0, 1, 2, 3} := by decide
    have e2 : ∀ g : ℤ → ℂ, ∑ m ∈ Finset.Ioo (-4 : ℤ) 4, g m
        = g (-3) + (g (-2) + (g (-1) + (g 0 + (g 1 + (g 2 + g 3))))) := by
      intro g
      rw [e, Finset.sum_insert (by decide), Finset.sum_insert (by decide),
        Finset.sum_insert (by decide), Finset.sum_insert (by decide),
        Finset.sum_insert (by decide), Finset.sum_insert (by decide), Finset.sum_singleton]
    simp only [sphSignal, trigPoly, e2]
    norm_num
    rw [cis, cis, Complex.cos]
    push_cast
    ring_nf
  refine ⟨fun m k => if m = 0 ∧ (k = 1 ∨ k = -1) then 1 / 2 else 0, ?_, ?_, ?_⟩
  · intro m k
    by_cases hm : m = 0
    · subst hm
      have : (-k = 1 ∨ -k = -1) ↔ (k = 1 ∨ k = -1) := by omega
      simp only [this]; simp
    · simp [hm]
  · intro θ φ; rw [hs]; exact Complex.ofReal_im _
  · intro t p _
    rw [hs]
    simp [Scheme.theta, Scheme.pos]

/-- With the flag the FFT methods transform the real part of the resampled signal. -/
theorem forwardVec_re (f : ℤ → ℤ → ℂ) (L spin : ℤ) (s : PyStr) (hs : lower s ≠ sHP) (ncol nt : ℤ)
    (θ w : ℤ → ℝ) (nside L_lower : ℤ) :
    forwardVec f L spin s ncol nt θ w nside true L_lower
      = forwardVec (fun t p => ((f t p).re : ℂ)) L spin s ncol nt θ w nside true L_lower := by
  unfold forwardVec forwardFft forwardFftM
  simp only [if_neg hs, Complex.ofReal_re, if_true]

/-- The signal that is one at the north pole, resampled. -/
theorem up_pole (t p : ℤ) : innerSignal .mwss 1 0 (fun t _ => if t = 0 then 1 else 0) t p
    = 1 / 2 * tw 4 (-t) + 1 / 2 := by
  show upsampleValues _ _ _ _ _ _ = _
  unfold upsampleValues upsample_by_two_mwss_ext
  simp only []
  rw [ifft_fwd_ifftshift (by norm_num)]
  rw [show Finset.Ico (0 : ℤ) (2 * (2 * 1)) = {0, 1, 2, 3} from rfl,
    Finset.sum_insert (by decide), Finset.sum_insert (by decide), Finset.sum_insert (by decide),
    Finset.sum_singleton]
  have hf : ∀ k : ℤ, fft_fwd (2 * 1) (fun t => periodic_extension_spatial_mwss
      (fun _ t _ => if t = 0 then (1 : ℂ) else 0) 1 (fun _ => 0) 0 t p) k = 1 / 2 := by
    intro k
    unfold fft_fwd fft
    rw [show Finset.Ico (0 : ℤ) (2 * 1) = {0, 1} from rfl, Finset.sum_insert (by decide),
      Finset.sum_singleton]
    simp [periodic_extension_spatial_mwss]
  simp only [fftshift, hf]
  norm_num

theorem tw4_1 : tw 4 (-1) = -Complex.I := by
  unfold tw
  rw [show (2 * Real.pi * ((-1 : ℤ) : ℝ) / ((4 : ℤ) : ℝ)) = -(Real.pi / 2) by push_cast; ring, cis_eq]
  simp

theorem tw4_2 : tw 4 (-2) = -1 := by
  unfold tw
  rw [show (2 * Real.pi * ((-2 : ℤ) : ℝ) / ((4 : ℤ) : ℝ)) = -Real.pi by push_cast; ring, cis_eq]
  simp

theorem weight_pole (G : GlTables) : innerWeight G .mwss 1 0 1 = Real.pi := by
  have h : ∀ t : ℤ, (mwss_wr 2 t : ℂ) = (-Complex.I * Real.pi / 2 * tw 4 t + 2
      + Complex.I * Real.pi / 2 * tw 4 (-t)) / 4 := by
    intro t
    rw [mwss_wr_eq (by norm_num), show Finset.Ioo (-2 : ℤ) 2 = {-1, 0, 1} from rfl,
      Finset.sum_insert (by decide), Finset.sum_insert (by decide), Finset.sum_singleton]
    have e1 : cis (-(((-1 : ℤ) : ℝ) * (2 * t * Real.pi / (2 * ((2 : ℤ) : ℝ))))) = tw 4 t := by
      unfold tw; congr 1; push_cast; ring
    have e2 : cis (-(((1 : ℤ) : ℝ) * (2 * t * Real.pi / (2 * ((2 : ℤ) : ℝ))))) = tw 4 (-t) := by
      unfold tw; congr 1; push_cast; ring
    rw [e1, e2]
    simp [mw_weights]
    ring
  have e3 : tw 4 3 = tw 4 (-1) := tw_congr (by norm_num) ⟨1, by norm_num⟩
  have e4 : tw 4 (-3) = tw 4 1 := tw_congr (by norm_num) ⟨-1, by norm_num⟩
  have e5 : tw 4 1 = Complex.I := by
    have := tw_neg 4 1
    rw [tw4_1] at this
    rw [← inv_inv (tw 4 1), ← this, ← Complex.inv_I, inv_inv]
  have h1 := h 1
  have h3 := h 3
  rw [e3, e4] at h3
  rw [tw4_1, e5] at h1 h3
  have key : mwss_wr 2 1 + mwss_wr 2 3 = 1 := by
    apply Complex.ofReal_injective
    push_cast
    rw [h1, h3]; ring
  show quad_weights_mwss_theta_only (2 * 1) 0 1 * 2 * Real.pi / (2 * ((1 : ℤ) : ℝ)) = _
  unfold quad_weights_mwss_theta_only
  rw [if_pos (by norm_num)]
  norm_num
  rw [key]; ring

/-- Real signals on the MWSS grid that are not band-limited cannot be allowed with the flag: for
`L = 1` and the signal that is one at the north pole and zero at the south pole, resampling gives
complex values and the direct and FFT methods return different coefficients. -/
theorem C20_reality_needs_bandlimit (G : GlTables) :
    ∃ a b, baseForwardWith G (.d2 2 2 (fun t _ => if t = 0 then 1 else 0)) 1 0 sMWSS bDirect none
        true 0 = .ok (.d2 1 1 a) ∧
      baseForwardWith G (.d2 2 2 (fun t _ => if t = 0 then 1 else 0)) 1 0 sMWSS bVec none
        true 0 = .ok (.d2 1 1 b) ∧
      a 0 0 ≠ b 0 0 := by
  have hv : Scheme.mwss.Valid 1 ((none : Option ℤ).getD 0) := ⟨le_rfl, by simp⟩
  set f : ℤ → ℤ → ℂ := fun t _ => if t = 0 then 1 else 0 with hfdef
  have hshape : (Nd.d2 2 2 f).shape = Scheme.mwss.shape 1 ((none : Option ℤ).getD 0) := rfl
  obtain ⟨a, ea, ha, -⟩ := baseForwardWith_values G (lower_name .mwss) (method := bDirect)
    (by simp [baseMethods]) (fun h => absurd h (by decide)) (spin := 0) (Ll := 0) hv
    (fun h => absurd h (by decide)) (.d2 2 2 f) hshape true le_rfl one_pos
    (fun h => absurd h (by decide))
  have ha0 := ha 0 0 (by simp [elStart]) one_pos (by norm_num) one_pos
  obtain ⟨f', θ, e1, hf', hn, hθ⟩ := forwardPrepare_ok G (lower_name .mwss) (spin := 0) hv
    (.d2 2 2 f) hshape
  have hR : RingsOk G.nodes .mwss 1 0 3 θ := by
    constructor
    · intro t x y
      rw [hθ t x y]; exact innerTheta_mem _ _ hv x y
    · intro h; cases h
  obtain ⟨b, e3, hb, -⟩ := forwardVec_values (nodes := G.nodes) (lower_name .mwss)
    (mOffset_name .mwss) (nside := 0) (spin := 0) (Ll := 0) (ncol := 2)
    (w := innerWeight G .mwss 1 0) hv
    (fun h => nomatch h) hR (fun _ => rfl)
    (fun t p => ((innerSignal .mwss 1 0 f t p).re : ℂ)) true
    (fun _ t p _ _ _ _ => Complex.ofReal_im _) (fun _ => rfl)
  have hb0 := hb 0 0 (by simp [elStart]) one_pos (by norm_num) one_pos
  rw [name_mwss, ← forwardVec_re _ _ _ _ (by decide)] at e3
  refine ⟨a, b, ea, ?_, ?_⟩
  · unfold baseForwardWith
    have h1 := f_shape_scheme (lower_name .mwss) hv
    rw [name_mwss] at h1 e1
    rw [h1, e1]
    have hnc : f'.shape.getLast?.getD 0 = 2 := hn (fun h => nomatch h)
    have hw := innerWeight_ok G (lower_name .mwss) (L := 1) (nside := (none : Option ℤ).getD 0)
    rw [name_mwss] at hw
    show (do
      let w ← quad_weights_transform G.weights 1 (innerName .mwss sMWSS) ((none : Option ℤ).getD 0)
      let run ← forwardMethod bVec
      let flm ← run f'.get2 1 0 (innerName .mwss sMWSS) (f'.shape.getLast?.getD 0) 3 θ w.2 0 true 0
      pure (Nd.d2 1 1 flm)) = Except.ok (Nd.d2 1 1 b)
    rw [hw, hnc, hf', show innerName .mwss sMWSS = sMWSS from rfl]
    show (do
      let flm ← forwardVec (innerSignal .mwss 1 0 f) 1 0 sMWSS 2 3 θ (innerWeight G .mwss 1 0) 0
        true 0
      pure (Nd.d2 1 1 flm)) = Except.ok (Nd.d2 1 1 b)
    rw [e3]; rfl
  · intro hab
    have hrings : innerRings .mwss 1 0 = 3 := rfl
    simp only [zero_add, sub_self] at ha0 hb0
    rw [ha0, hb0] at hab
    simp only [symm, lt_irrefl, and_false, if_false, fVal, Option.getD_none, hrings,
      show Finset.Ico (0 : ℤ) 3 = {0, 1, 2} by decide] at hab
    have him := congrArg Complex.im hab
    rw [Finset.sum_insert (by decide), Finset.sum_insert (by decide), Finset.sum_singleton,
      Finset.sum_insert (by decide), Finset.sum_insert (by decide), Finset.sum_singleton] at him
    have hrs : ∀ (g : ℤ → ℤ → ℂ) (t : ℤ), ringSum .mwss 1 0 g t 0 = g t 0 + g t 1 := by
      intro g t
      unfold ringSum
      rw [show Finset.Ico (0 : ℤ) (Scheme.ringLen 1 0 t .mwss) = {0, 1} from rfl,
        Finset.sum_insert (by decide), Finset.sum_singleton]
      simp [Scheme.pos]
    have hin : Scheme.mwss.inner = .mwss := rfl
    simp only [hin, hrs, neg_zero, wignerd_zero, zpow_zero, mul_one, Nd.get2] at him
    have hup : ∀ t p, innerSignal .mwss 1 0 f t p = 1 / 2 * tw 4 (-t) + 1 / 2 := up_pole
    simp only [hup, tw4_1, tw4_2, neg_zero, tw_zero] at him
    have hw := weight_pole G
    have hel : elfactor 0 ≠ 0 := by
      unfold elfactor
      have := Real.pi_pos
      apply (Real.sqrt_pos.2 _).ne'
      push_cast; positivity
    norm_num [Complex.add_im, Complex.mul_im] at him
    rw [hw] at him
    rcases him with h | h
    · exact Real.pi_pos.ne' h
    · exact hel h

end S2fft
