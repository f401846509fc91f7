import Verif.Lemmas.LetterCaseShift
import Verif.Lemmas.OtfInverse

/-! # The on-the-fly inverse transforms with a misread name -/

namespace S2fft
open Spec Real

theorem otfPass_rel {α α' : Type*} {P : PmPre} {L mm lo i : ℤ} {β : ℤ → ℝ}
    {emit : ℤ → ℤ → ℤ → (ℤ → ℤ → ℝ) → α → α} {emit' : ℤ → ℤ → ℤ → (ℤ → ℤ → ℝ) → α' → α'}
    (R : α → α' → Prop) {x : α} {y : α'} (h0 : R x y)
    (h : ∀ m f W x y, 0 ≤ m → (m = 0 ∨ m = 1 ∨ m < L - 1 + i) → R x y →
      R (emit i m f W x) (emit' i m f W y)) :
    R (otfPass P L mm lo β i emit x) (otfPass P L mm lo β i emit' y) := by
  unfold otfPass
  simp only
  rw [pmLoop_eq, pmLoop_eq]
  refine forRange_rel R (h 1 _ _ _ _ (by omega) (by simp) (h 0 _ _ _ _ le_rfl (by simp) h0)) ?_
  intro j x y j0 j1 hR
  exact h j _ _ _ _ (by omega) (Or.inr (Or.inr j1)) hR

/-- A misread name moves the columns of negative order by one and leaves the others. -/
theorem otfSynth_misread {L : ℤ} (hL : 3 ≤ L) (P : PmPre) (flm : ℤ → ℤ → ℂ) (β : ℤ → ℝ) (spin lo t : ℤ) :
    (∀ k, k < L - 1 → otfSynth P flm β L spin 0 (2 * L) false lo t k
      = otfSynth P flm β L spin 1 (2 * L) false lo t (k + 1)) ∧
    otfSynth P flm β L spin 0 (2 * L) false lo t (L - 1) = 0 ∧
    (∀ k, L ≤ k → otfSynth P flm β L spin 0 (2 * L) false lo t k
      = otfSynth P flm β L spin 1 (2 * L) false lo t k) := by
  let R : (ℤ → ℤ → ℂ) → (ℤ → ℤ → ℂ) → Prop := fun a b =>
    (∀ k, k < L - 1 → a t k = b t (k + 1)) ∧ a t (L - 1) = 0 ∧ ∀ k, L ≤ k → a t k = b t k
  show R _ _
  unfold otfSynth
  rw [otfRows_eq, otfRows_eq]
  simp only [Bool.false_eq_true, if_false]
  refine otfPass_rel R (otfPass_rel R ⟨fun _ _ => rfl, rfl, fun _ _ => rfl⟩ ?_) ?_
  · rintro m f W x y m0 hm ⟨h1, h2, h3⟩
    refine ⟨fun k hk => ?_, ?_, fun k hk => ?_⟩
    · simp only [otfCol, pmRow, if_true]
      rw [h1 k hk]
      exact if_congr (by omega) rfl rfl
    · simp only [otfCol, pmRow, if_true]
      rw [h2, if_neg (by omega)]
    · simp only [otfCol, pmRow, if_true]
      rw [h3 k hk, if_neg (by omega), if_neg (by omega)]
  · rintro m f W x y m0 hm ⟨h1, h2, h3⟩
    refine ⟨fun k hk => ?_, ?_, fun k hk => ?_⟩
    · simp only [otfCol, pmRow, one_ne_zero, if_false]
      rw [h1 k hk, if_neg (by omega), if_neg (by omega)]
    · simp only [otfCol, pmRow, one_ne_zero, if_false]
      rw [h2, if_neg (by omega)]
    · simp only [otfCol, pmRow, one_ne_zero, if_false]
      rw [h3 k hk]

/-- Coefficients of negative order times `c`. -/
noncomputable def scaleNegative (c : ℂ) (flm : ℤ → ℤ → ℂ) (L : ℤ) : ℤ → ℤ → ℂ :=
  fun l k => flm l k * if k < L - 1 then c else 1

theorem gAt_scaleNegative (c : ℂ) (flm : ℤ → ℤ → ℂ) (L spin lo : ℤ) (α : ℝ) (m : ℤ) :
    gAt (scaleNegative c flm L) L spin lo α m = gAt flm L spin lo α m * if m < 0 then c else 1 := by
  unfold gAt scaleNegative
  rw [Finset.sum_mul]
  apply Finset.sum_congr rfl
  intro el _
  rw [if_congr (show m + L - 1 < L - 1 ↔ m < 0 by omega) rfl rfl]
  ring

/-- A row in which the columns of negative order are one too low. -/
theorem misread_row {L : ℤ} (hL : 3 ≤ L) {x g : ℤ → ℂ}
    (h1 : ∀ m, -L < m → m < 0 → x (m + L - 1) = g m) (h2 : x (L - 1) = 0)
    (h3 : ∀ m, 0 ≤ m → m < L → x (m + L) = g m) (p : ℤ) :
    ifft_fwd (2 * L) (ifftshift (2 * L) x) p = ∑ m ∈ Finset.Ioo (-L) L,
      (g m * if m < 0 then cis (-(π * p / L)) else 1) * cis (m * (π * p / L)) := by
  have hL' : (L : ℝ) ≠ 0 := by exact_mod_cast (by omega : L ≠ 0)
  have htw : ∀ k : ℤ, tw (2 * L) ((k - 2 * L / 2) * p) = cis (((k - L : ℤ) : ℝ) * (π * p / L)) := by
    intro k
    rw [show 2 * L / 2 = L by omega]
    unfold tw
    congr 1
    push_cast
    field_simp
  rw [ifft_fwd_ifftshift (by omega), sum_Ico_consec (b := L - 1) (by omega) (by omega),
    sum_Ico_bot (show L - 1 < 2 * L by omega), h2, zero_mul, zero_add, show L - 1 + 1 = L by ring,
    show Finset.Ioo (-L) L = Finset.Ico (-L + 1) L by
      ext x; simp only [Finset.mem_Ioo, Finset.mem_Ico]; omega,
    sum_Ico_consec (a := -L + 1) (b := 0) (by omega) (by omega)]
  congr 1
  · rw [show (0 : ℤ) = (-L + 1) + (L - 1) by ring, show L - 1 = 0 + (L - 1) by ring,
      show (-L + 1) + (0 + (L - 1)) = (-L + 1) + (L - 1) by ring, sum_Ico_shift]
    rw [show (-L + 1 + (L - 1)) = (0 : ℤ) by ring]
    apply Finset.sum_congr rfl
    intro m hm
    rw [Finset.mem_Ico] at hm
    rw [show m + (L - 1) = m + L - 1 by ring, h1 m (by omega) hm.2, if_pos hm.2, htw, mul_assoc,
      ← cis_add]
    congr 2
    push_cast; ring
  · rw [show 2 * L = L + L by ring, show Finset.Ico L (L + L) = Finset.Ico (0 + L) (L + L) by simp,
      sum_Ico_shift]
    apply Finset.sum_congr rfl
    intro m hm
    rw [Finset.mem_Ico] at hm
    have := htw (m + L)
    rw [show 2 * L = L + L by ring] at this
    rw [h3 m hm.1 hm.2, if_neg (by omega), mul_one, this, show m + L - L = m by ring]

section
variable {s : PyStr} {L spin lo : ℤ} {nside : Option ℤ}

/-- The rows of both inverse transforms with a misread name. -/
theorem otfMisread_row (hL : 3 ≤ L) (hsp : |spin| < L) (h0 : 0 ≤ lo) (hlo : lo < L - 1)
    (flm : ℤ → ℤ → ℂ)
    (hf : ∀ el k, lo ≤ el → el < L → el < |spin| → 0 ≤ k → k < 2 * L - 1 → flm el k = 0)
    {P : PmPre} {θ : ℤ → ℝ} (hP : PmFits P L spin (L + 1) θ) {t : ℤ} (t0 : 0 < t) (t1 : t < L)
    (hr : PmRegular L spin (θ t)) (p : ℤ) :
    ifft_fwd (2 * L) (ifftshift (2 * L) (fun k => poleRings .mwss (otfSynth P (otfNormalise flm lo) θ
        L spin 0 (2 * L) false lo) (otfNormalise flm lo) L spin lo (L + 1) t k * (-1) ^ spin)) p
      = harmonicSum lo L spin (fun l m => flm l (m + L - 1)
          * if m < 0 then cis (-(π * p / L)) else 1) (θ t) (π * p / L) := by
  obtain ⟨a1, a2, a3⟩ := otfSynth_misread hL P (otfNormalise flm lo) θ spin lo t
  have hin : ∀ k, poleRings .mwss (otfSynth P (otfNormalise flm lo) θ
        L spin 0 (2 * L) false lo) (otfNormalise flm lo) L spin lo (L + 1) t k
      = otfSynth P (otfNormalise flm lo) θ L spin 0 (2 * L) false lo t k := by
    intro k
    unfold poleRings northPole southPole
    simp only [if_true, or_true]
    rw [if_neg (by omega), if_neg (by omega)]
  have hf' : ∀ el k, lo ≤ el → el < L → el < |spin| → 0 ≤ k → k < 2 * L - 1 →
      otfNormalise flm lo el k = 0 := by
    intro el k a b c d e
    unfold otfNormalise
    rw [if_pos a, hf el k a b c d e, zero_mul]
  have hy : ∀ m, -L < m → m < L → otfSynth P (otfNormalise flm lo) θ L spin 1 (2 * L) false lo t
      (m + L) * (-1) ^ spin = gAt flm L spin lo (θ t) m := by
    intro m m0 m1
    have := otfSynth_eq hP (Or.inl hlo) h0 (by omega) (otfNormalise flm lo) hf' false (off := 1)
      (t := t) (by omega) (by omega) hr m0 m1 (by simp)
    rw [show 2 * L - 1 + 1 = 2 * L by ring, show m + L - 1 + 1 = m + L by ring] at this
    rw [this, normalised_gAt h0]
  rw [misread_row hL (g := gAt flm L spin lo (θ t))]
  · have e := synth_gAt_harmonic (L := L) (spin := spin) (Ll := lo)
      (scaleNegative (cis (-(π * p / L))) flm L) false h0 (by omega) (by simp) (θ t) (π * p / L)
    rw [synth_eq (by omega)] at e
    simp only [Bool.false_eq_true, if_false] at e
    have e2 : (fun l m => scaleNegative (cis (-(π * p / L))) flm L l (m + L - 1))
        = fun l m => flm l (m + L - 1) * if m < 0 then cis (-(π * p / L)) else 1 := by
      funext l m
      unfold scaleNegative
      rw [if_congr (show m + L - 1 < L - 1 ↔ m < 0 by omega) rfl rfl]
    rw [e2] at e
    rw [← e]
    apply Finset.sum_congr rfl
    intro m _
    rw [show ∀ h : ℤ → ℂ, gEff false h m = h m from fun h => if_neg (by simp), gAt_scaleNegative]
  · intro m m0 m1
    rw [hin, a1 _ (by omega), show m + L - 1 + 1 = m + L by ring, hy m m0 (by omega)]
  · rw [hin, a2, zero_mul]
  · intro m m0 m1
    rw [hin, a3 _ (by omega), hy m (by omega) m1]

theorem otfInverseNumpy_misread (G : Machine) (hs : Misread .mwss s) (hL : 3 ≤ L) (hsp : |spin| < L)
    (h0 : 0 ≤ lo) (hlo : lo < L - 1) (flm : ℤ → ℤ → ℂ)
    (hf : ∀ el k, lo ≤ el → el < L → el < |spin| → 0 ≤ k → k < 2 * L - 1 → flm el k = 0)
    (hr : ∀ t, 0 < t → t < L → PmRegular L spin (G.theta .mwss L (nside.getD 0) t)) :
    ∃ out, otfInverseNumpy G (.d2 L (2 * L - 1) flm) L spin nside s false none lo = .ok out ∧
      out.shape = [L + 1, 2 * L] ∧
      ∀ t p, 0 < t → t < L → 0 ≤ p → p < 2 * L → out.get2 t p
        = harmonicSum lo L spin (fun l m => flm l (m + L - 1)
          * if m < 0 then cis (-(π * p / L)) else 1) (G.theta .mwss L (nside.getD 0) t) (π * p / L) := by
  have hv : Scheme.mwss.Valid L (nside.getD 0) := ⟨by omega, by simp⟩
  have hhp : ¬ lower s = sHP := by rw [hs.name]; decide
  obtain ⟨θ, e1, hθ⟩ := otfThetas_scheme G hs.name hv
  obtain ⟨P, eP, hP⟩ : ∃ P, otfPrecomps G none L spin s nside false = .ok P ∧
      PmFits P L spin (L + 1) θ := by
    refine ⟨generatePrecomputes L spin θ, ?_, pmFits_numpy _ _ _ _⟩
    have : otfKernelThetas G L s nside false = otfThetas G L s nside := by
      unfold otfKernelThetas kernelThetas otfThetas
      rw [if_neg (by simp)]
      cases thetas G.nodes (some L) s nside <;> rfl
    unfold otfPrecomps precomputesNumpy pmAngles
    rw [this, e1]
    simp only [bind, Except.bind, pure, Except.pure, if_neg (show ¬ L < |spin| by omega)]
    rw [if_neg (by simp)]
  set F : ℤ → ℤ → ℂ := poleRings .mwss (otfSynth P (otfNormalise flm lo) θ
    L spin 0 (2 * L) false lo) (otfNormalise flm lo) L spin lo (L + 1) with hF
  obtain ⟨out, e4, hsh, hg⟩ := packSignal_scheme hs.name hv
    (fun t => ifft_fwd (2 * L) (ifftshift (2 * L) (fun k => F t k * (-1) ^ spin)))
  refine ⟨out, ?_, hsh, fun t p t0 t1 p0 p1 => ?_⟩
  · unfold otfInverseNumpy
    rw [requireLower_ok h0, e1]
    simp only [bind, Except.bind, Nd.shape, ne_eq, not_true_eq_false, if_false, Nd.get2]
    unfold inverseLatitudinalStep
    rw [ftm_shape_valid hs.name hv, eP]
    simp only [bind, Except.bind, if_neg (show ¬ L = 1 by omega), pure, Except.pure]
    rw [hs.zero, inversePolesNumpy_eq hs.name _ _ _ _ hsp]
    simp only [hhp, if_false, false_and]
    unfold inverseFftM
    rw [lower_lower, if_neg hhp]
    simp only [Bool.false_eq_true, if_false, pure, Except.pure]
    have e6 : 2 * L - 1 + Scheme.mwss.off = 2 * L := by simp [Scheme.off]
    rw [e6, show Scheme.mwss.rings L (nside.getD 0) = L + 1 from rfl, ← hF]
    exact e4
  · have h := hg t p ⟨by omega, by simp only [Scheme.rings]; omega, p0, by simpa [Scheme.ringLen] using p1⟩
    simp only [Scheme.pos] at h
    rw [h, hF, otfMisread_row hL hsp h0 hlo flm hf hP t0 t1 (by
      rw [hθ t (by omega) (by simp only [Scheme.rings]; omega)]; exact hr t t0 t1),
      hθ t (by omega) (by simp only [Scheme.rings]; omega)]

theorem otfInverseJax_misread (G : Machine) (hs : Misread .mwss s) (hL : 3 ≤ L) (hsp : |spin| < L)
    (h0 : 0 ≤ lo) (hlo : lo < L - 1) (flm : ℤ → ℤ → ℂ)
    (hf : ∀ el k, lo ≤ el → el < L → el < |spin| → 0 ≤ k → k < 2 * L - 1 → flm el k = 0)
    (hr : ∀ t, 0 < t → t < L → PmRegular L spin (G.theta .mwss L (nside.getD 0) t)) :
    ∃ out, otfInverseJax G (.d2 L (2 * L - 1) flm) L spin nside s false none lo = .ok out ∧
      out.shape = [L + 1, 2 * L] ∧
      ∀ t p, 0 < t → t < L → 0 ≤ p → p < 2 * L → out.get2 t p
        = harmonicSum lo L spin (fun l m => flm l (m + L - 1)
          * if m < 0 then cis (-(π * p / L)) else 1) (G.theta .mwss L (nside.getD 0) t) (π * p / L) := by
  have hv : Scheme.mwss.Valid L (nside.getD 0) := ⟨by omega, by simp⟩
  have hhp : ¬ lower s = sHP := by rw [hs.name]; decide
  obtain ⟨θ, e1, hθ⟩ := otfThetas_scheme G hs.name hv
  obtain ⟨P, eP, hP⟩ : ∃ P, (none : Option PmPre).getD (generatePrecomputesJax L spin θ) = P ∧
      PmFits P L spin (L + 1) θ := ⟨_, rfl, pmFits_jax _ _ _ _⟩
  set F : ℤ → ℤ → ℂ := poleRings .mwss (otfSynth P (otfNormalise flm lo) θ
    L spin 0 (2 * L) false lo) (otfNormalise flm lo) L spin lo (L + 1) with hF
  have e6 : 2 * L - 1 + Scheme.mwss.off = 2 * L := by simp [Scheme.off]
  have hstep : inverseLatitudinalStepJax (otfNormalise flm lo) θ (L + 1) L spin s false none lo = F := by
    have hsp' := hsp
    rw [abs_lt] at hsp'
    unfold inverseLatitudinalStepJax
    rw [mOffset_scheme hs.name, hs.zero, eP]
    simp only [lower_mw_iff hs.name, lower_mwss_iff hs.name, e6]
    rw [jaxGet_ok (i := L - 1 + spin) (by omega) (by omega),
      jaxGet_ok (i := L - 1 - spin) (by omega) (by omega)]
    rw [show jaxSet (2 * L) (L - 1 + spin + Scheme.mwss.off) = L - 1 + spin + Scheme.mwss.off from
        if_neg (by simp only [Scheme.off]; omega),
      show jaxSet (2 * L) (L - 1 - spin + Scheme.mwss.off) = L - 1 - spin + Scheme.mwss.off from
        if_neg (by simp only [Scheme.off]; omega), hF]
    rfl
  obtain ⟨out, e4, hsh, hg⟩ := packSignal_scheme hs.name hv
    (fun t => ifft_fwd (2 * L) (ifftshift (2 * L) (fun k => F t k * (-1) ^ spin)))
  refine ⟨out, ?_, hsh, fun t p t0 t1 p0 p1 => ?_⟩
  · have e3 : inverseFftM mJax (fun t k => F t k * (-1) ^ spin) L s (2 * L) (nside.getD 0) false
        = .ok (fun t => ifft_fwd (2 * L) (ifftshift (2 * L) (fun k => F t k * (-1) ^ spin))) := by
      unfold inverseFftM
      rw [if_neg hhp, if_neg (by simp)]
      rfl
    unfold otfInverseJax
    rw [requireLower_ok h0, e1]
    simp only [bind, Except.bind, Nd.shape, ne_eq, not_true_eq_false, if_false, Nd.get2]
    rw [show Scheme.mwss.rings L (nside.getD 0) = L + 1 from rfl, hstep]
    simp only [hhp, if_false, Bool.false_eq_true, negOne_absC]
    rw [mOffset_scheme hs.name, e6, otfSynthesisJax_of e3]
    simp only [Bool.false_eq_true, and_false, if_false]
    exact e4
  · have h := hg t p ⟨by omega, by simp only [Scheme.rings]; omega, p0, by simpa [Scheme.ringLen] using p1⟩
    simp only [Scheme.pos] at h
    rw [h, hF, otfMisread_row hL hsp h0 hlo flm hf hP t0 t1 (by
      rw [hθ t (by omega) (by simp only [Scheme.rings]; omega)]; exact hr t t0 t1),
      hθ t (by omega) (by simp only [Scheme.rings]; omega)]

end

end S2fft
