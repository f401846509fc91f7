import Verif.Lemmas.LetterCaseOtf
import Verif.Props.C18
import Verif.Props.C36
import Verif.Props.C37
import Verif.Props.C39

/-!
# C37: where the letter case of the name changes the result

The width of the Fourier rows is chosen from the lower-cased name, but the column of order zero, the
shape of a signal on the rotation group and the extension of an MWSS signal from the name as given.
-/

namespace S2fft

open Spec

/-- "MWSS" and "HEALPIX" are misread. -/
example : Misread .mwss "MWSS".toList ∧ Misread .healpix "HEALPIX".toList ∧
    Misread .healpix "Healpix".toList :=
  ⟨⟨by decide, rfl, by decide⟩, ⟨by decide, rfl, by decide⟩, ⟨by decide, rfl, by decide⟩⟩

/-! ## Transforms on the rotation group -/

theorem so3_f_shape_refused {σ : Scheme} {s : PyStr} (hs : lower s = σ.name) (hh : σ ≠ .healpix)
    (hn : s ≠ σ.name) (L N : ℤ) (nside : Option ℤ) : so3_f_shape L N s nside = .error .valueError := by
  have h1 : s ≠ sMW := by
    rintro rfl; exact hn (by rw [← hs]; decide)
  have h2 : s ≠ sMWSS := by
    rintro rfl; exact hn (by rw [← hs]; decide)
  have h3 : s ≠ sDH := by
    rintro rfl; exact hn (by rw [← hs]; decide)
  have h4 : s ≠ sGL := by
    rintro rfl; exact hn (by rw [← hs]; decide)
  have h5 : lower s ≠ sHP := fun h => hh ((lower_hp_iff hs).1 h)
  unfold so3_f_shape
  rw [if_neg (by simp [h1, h2, h3, h4]), if_neg h5]

/-- On the rotation group, every spelling of an equiangular or Gauss-Legendre scheme other than the
lower-case one is refused: the shape of the signal, and the base, on-the-fly and SSHT transforms of
all methods. The lower-case names are accepted (C26, C38). -/
theorem C37_not_rotation_group (B : Backends) (G : Machine) {σ : Scheme} {s : PyStr}
    (hs : lower s = σ.name) (hh : σ ≠ .healpix) (hn : s ≠ σ.name) (L N : ℤ) (nside : Option ℤ) :
    so3_f_shape L N s nside = .error .valueError ∧
    (∃ shape, so3_f_shape L N σ.name nside = .ok shape) ∧
    (∀ flmn lo reality, Refused (wignerBaseInverse G.toGlTables flmn L N lo s reality nside)) ∧
    (∀ f lo reality, Refused (wignerBaseForward G.toGlTables f L N lo s reality nside)) ∧
    (∀ flmn method reality ps lo backend,
      Refused (wignerInverse B G flmn L N nside s method reality ps lo backend)) ∧
    (∀ f method reality ps lo backend,
      Refused (wignerForward B G f L N nside s method reality ps lo backend)) := by
  have hr := so3_f_shape_refused hs hh hn L N
  have hrf : ∀ n, Refused (so3_f_shape L N s n) := fun n => ⟨_, hr n⟩
  refine ⟨hr nside, ?_, fun flmn lo reality => ?_, fun f lo reality => ?_,
    fun flmn method reality ps lo b => ?_, fun f method reality ps lo b => ?_⟩
  · cases σ with
    | healpix => exact absurd rfl hh
    | mw => exact ⟨_, rfl⟩
    | mwss => exact ⟨_, rfl⟩
    | dh => exact ⟨_, rfl⟩
    | gl => exact ⟨_, rfl⟩
  · exact Refused.ite (fun _ => ⟨_, rfl⟩) (fun _ => (hrf nside).bind _)
  · exact (hrf nside).bind _
  · unfold wignerInverse
    refine Refused.ite (fun _ => ⟨_, rfl⟩) (fun _ => Refused.ite (fun _ => ⟨_, rfl⟩) (fun _ =>
      Refused.ite (fun _ => Refused.ite (fun _ => ⟨_, rfl⟩) (fun _ => ?_)) (fun _ =>
      Refused.ite (fun _ => ?_) (fun _ => ?_))))
    · exact Refused.lower ((hrf none).bind _)
    · exact Refused.bind_all _ (fun ps => Refused.lower (Refused.bind_all _ (fun _ =>
        (hrf nside).bind _)))
    · exact Refused.bind_all _ (fun ps => Refused.lower (Refused.bind_all _ (fun _ =>
        (hrf nside).bind _)))
  · unfold wignerForward
    refine Refused.ite (fun _ => ⟨_, rfl⟩) (fun _ => Refused.ite (fun _ => ⟨_, rfl⟩) (fun _ =>
      Refused.ite (fun _ => Refused.ite (fun _ => ⟨_, rfl⟩) (fun _ => ?_)) (fun _ =>
      Refused.ite (fun _ => ?_) (fun _ => ?_))))
    · exact Refused.lower ((hrf none).bind _)
    · exact Refused.bind_all _ (fun ps => Refused.lower (Refused.bind_all _ (fun _ =>
        (hrf nside).bind _)))
    · exact Refused.bind_all _ (fun ps => Refused.lower (Refused.bind_all _ (fun _ =>
        (hrf nside).bind _)))

example : lower "MW".toList = Scheme.mw.name ∧ ("MW".toList : PyStr) ≠ Scheme.mw.name := by decide

/-! ## Base inverse transform -/

/-- With another spelling of "mwss" or "healpix" the base inverse transform returns the signal with
every ring multiplied by `exp(-2πip/n)`, `n` being the number of samples of the ring: all orders are
one too low. -/
theorem C37_not_base_inverse (G : GlTables) {σ : Scheme} {s : PyStr} (hs : Misread σ s)
    (L spin lo : ℤ) (nside : Option ℤ) (hv : σ.Valid L (nside.getD 0))
    (hhp : σ = .healpix → 2 * nside.getD 0 ≤ L) (h0 : 0 ≤ lo) (h1 : lo < L) (flm : ℤ → ℤ → ℂ)
    (hex : GridExact G.nodes σ L (nside.getD 0)) :
    ∃ out, baseInverse G (.d2 L (2 * L - 1) flm) L spin s nside false lo = .ok out ∧
      out.shape = σ.shape L (nside.getD 0) ∧
      ∀ t p, σ.Has L (nside.getD 0) t p →
        out.get2 (σ.pos (nside.getD 0) t p).1 (σ.pos (nside.getD 0) t p).2
          = cis (-(2 * Real.pi * p / σ.ringLen L (nside.getD 0) t))
            * harmonicSum lo L spin (fun l m => flm l (m + L - 1))
              (σ.theta G.nodes L (nside.getD 0) t) (σ.phi L (nside.getD 0) t p) := by
  have hL := hv.1
  obtain ⟨out₁, E, _, hv₁⟩ := C18_inverse G σ L spin lo nside hv hhp h0 h1 flm false
    (by intro h; cases h) hex
  obtain ⟨θ, e1, -⟩ := thetas_scheme G.nodes hs.name hv
  have hrun : ∀ s', lower s' = σ.name → ∀ f,
      inverseFftM mNumpy (inverseVecFtm flm L spin s' (σ.rings L (nside.getD 0)) θ (nside.getD 0) false
        lo) L s' (2 * L) (nside.getD 0) false = .ok f →
      thetas G.nodes (some L) s' nside = .ok (σ.rings L (nside.getD 0), θ) →
      baseInverse G (.d2 L (2 * L - 1) flm) L spin s' nside false lo = packSignal L s' nside f := by
    intro s' hs' f hf ht
    unfold baseInverse baseInverseWith
    rw [if_neg (by simp [Nd.shape, flm_shape]), if_neg (by omega), if_neg (by omega), ht]
    show (do
      let f ← inverseVec flm L spin s' (σ.rings L (nside.getD 0)) θ (nside.getD 0)
        (if false = true ∧ spin ≠ 0 then false else false) lo
      packSignal L s' nside f) = _
    rw [ite_self]
    unfold inverseVec
    rw [ftm_shape_scheme hs', hs.off, show 2 * L - 1 + 1 = 2 * L by ring]
    show (do
      let f ← inverseFftM mNumpy (inverseVecFtm flm L spin s' (σ.rings L (nside.getD 0)) θ
        (nside.getD 0) false lo) L s' (2 * L) (nside.getD 0) false
      packSignal L s' nside f) = _
    rw [hf]; rfl
  obtain ⟨f, g, ef, eg, hfg⟩ := inverseFftM_shift hs (method := mNumpy) (by simp) hv hhp
    (x := inverseVecFtm flm L spin s (σ.rings L (nside.getD 0)) θ (nside.getD 0) false lo)
    (y := inverseVecFtm flm L spin σ.name (σ.rings L (nside.getD 0)) θ (nside.getD 0) false lo)
    (fun t k _ _ => inverseVecFtm_shift hs _ _ _ _ _ _ _ _ t k)
    (fun t => inverseVecFtm_last hs.zero _ _ _ _ _ _ _ t hL)
    (fun t => inverseVecFtm_zero (by rw [mOffset_name]; exact hs.off) _ _ _ hL)
  have e1' : thetas G.nodes (some L) σ.name nside = .ok (σ.rings L (nside.getD 0), θ) := by
    rw [← e1, ← hs.name, thetas_lower]
  obtain ⟨out, e4, hsh, hg⟩ := packSignal_scheme hs.name hv f
  obtain ⟨out', e4', _, hg'⟩ := packSignal_scheme (lower_name σ) hv g
  refine ⟨out, by rw [hrun s hs.name f ef e1, e4], hsh, fun t p h => ?_⟩
  have : out₁ = out' := by
    rw [hrun σ.name (lower_name σ) g eg e1', e4'] at E
    injection E with E; exact E.symm
  have hc : coeffs flm L spin false = fun l m => flm l (m + L - 1) := by simp [coeffs]
  rw [hg t p h, hfg t p h, ← hg' t p h, ← this, hv₁ t p h, hc]

/-- The constant signal, for instance, comes out wrong at the second sample of every ring. -/
theorem C37_not_base_inverse_constant (G : GlTables) {σ : Scheme} {s : PyStr} (hs : Misread σ s)
    (L : ℤ) (nside : Option ℤ) (hv : σ.Valid L (nside.getD 0))
    (hhp : σ = .healpix → 2 * nside.getD 0 ≤ L) (hex : GridExact G.nodes σ L (nside.getD 0))
    (flm : ℤ → ℤ → ℂ) (hf : ∀ l k, flm l k = if l = 0 ∧ k = L - 1 then 1 else 0) :
    ∃ out out', baseInverse G (.d2 L (2 * L - 1) flm) L 0 s nside false 0 = .ok out ∧
      baseInverse G (.d2 L (2 * L - 1) flm) L 0 σ.name nside false 0 = .ok out' ∧
      ∀ t, σ.Has L (nside.getD 0) t 1 →
        out.get2 (σ.pos (nside.getD 0) t 1).1 (σ.pos (nside.getD 0) t 1).2
          ≠ out'.get2 (σ.pos (nside.getD 0) t 1).1 (σ.pos (nside.getD 0) t 1).2 := by
  have hL := hv.1
  obtain ⟨out, e, -, h⟩ := C37_not_base_inverse G hs L 0 0 nside hv hhp le_rfl (by omega) flm hex
  obtain ⟨out', e', -, h'⟩ := C18_inverse G σ L 0 0 nside hv hhp le_rfl (by omega) flm false
    (by intro h; cases h) hex
  refine ⟨out, out', e, e', fun t ht => ?_⟩
  have hc : coeffs flm L 0 false = fun l m => flm l (m + L - 1) := by simp [coeffs]
  rw [h t 1 ht, h' t 1 ht, hc]
  set θ := σ.theta G.nodes L (nside.getD 0) t
  set φ := σ.phi L (nside.getD 0) t 1
  have hsum : harmonicSum 0 L 0 (fun l m => flm l (m + L - 1)) θ φ ≠ 0 := by
    unfold harmonicSum
    rw [sum_Ico_bot (by omega), Finset.sum_eq_zero (s := Finset.Ico (0 + 1) L), add_zero]
    · rw [show Finset.Ico (-(0 : ℤ)) (0 + 1) = {0} by decide, Finset.sum_singleton]
      beta_reduce
      rw [hf, if_pos ⟨rfl, by ring⟩, one_mul]
      unfold sYlm
      simp only [neg_zero, wignerd_zero]
      refine mul_ne_zero (mul_ne_zero (by simp) ?_) (cis_ne_zero _)
      rw [Complex.ofReal_ne_zero, mul_one]
      have := Real.pi_pos
      exact (Real.sqrt_pos.2 (by positivity)).ne'
    · intro l hl
      rw [Finset.mem_Ico] at hl
      apply Finset.sum_eq_zero
      intro m _
      beta_reduce
      rw [hf, if_neg (by omega), zero_mul]
  intro heq
  have h1 := mul_right_cancel₀ hsum (heq.trans (one_mul _).symm)
  have hn : (2 : ℤ) ≤ σ.ringLen L (nside.getD 0) t := by have := ht.2.2.2; omega
  have hn' : (2 : ℝ) ≤ σ.ringLen L (nside.getD 0) t := by exact_mod_cast hn
  have h2 := congrArg Complex.re h1
  rw [cis_re, Complex.one_re, Real.cos_neg] at h2
  have hpi := Real.pi_pos
  have hpos : 0 < 2 * Real.pi * ((1 : ℤ) : ℝ) / σ.ringLen L (nside.getD 0) t := by
    push_cast; positivity
  have hle : 2 * Real.pi * ((1 : ℤ) : ℝ) / σ.ringLen L (nside.getD 0) t ≤ Real.pi := by
    rw [div_le_iff₀ (by linarith)]; push_cast; nlinarith
  have := Real.cos_lt_cos_of_nonneg_of_le_pi le_rfl hle hpos
  rw [Real.cos_zero] at this
  linarith

/-! ## On-the-fly inverse transform -/

/-- With another spelling of "mwss" the transform of every method returns, between the poles, a sum
in which the terms of negative order are multiplied by `exp(-iφ)`: these orders, and only these, are
one too low. -/
theorem C37_not_on_the_fly (B : Backends) (G : Machine) {s : PyStr} (hs : Misread .mwss s)
    (L spin lo : ℤ) (nside : Option ℤ) (hL : 3 ≤ L) (method : PyStr)
    (hmt : method ∈ [mNumpy, mJax, mTorch]) (hsp : |spin| < L) (h8 : spin < 8) (h0 : 0 ≤ lo)
    (hlo : lo < L - 1) (flm : ℤ → ℤ → ℂ)
    (hf : ∀ el k, lo ≤ el → el < |spin| → 0 ≤ k → k < 2 * L - 1 → flm el k = 0)
    (hr : OtfRegular G .mwss L (nside.getD 0) spin false) (k : ℤ) :
    ∃ out, sphericalInverse B G (.d2 L (2 * L - 1) flm) L spin nside s method false none lo k
        = .ok out ∧
      out.shape = [L + 1, 2 * L] ∧
      ∀ t p, 0 < t → t < L → 0 ≤ p → p < 2 * L → out.get2 t p
        = harmonicSum lo L spin (fun l m => flm l (m + L - 1)
            * if m < 0 then cis (-Scheme.mwss.phi L (nside.getD 0) t p) else 1)
            (G.rnd (Scheme.mwss.theta G.nodes L (nside.getD 0) t))
            (Scheme.mwss.phi L (nside.getD 0) t p) := by
  have hv : Scheme.mwss.Valid L (nside.getD 0) := ⟨by omega, by simp⟩
  have hL' : (L : ℝ) ≠ 0 := by exact_mod_cast (by omega : L ≠ 0)
  have hr' : ∀ t, 0 < t → t < L → PmRegular L spin (G.theta .mwss L (nside.getD 0) t) := by
    intro t t0 t1
    have := otfRegular_inverse hv hr t (by omega) (by simp only [Scheme.rings]; omega)
    rcases this with h | h | h
    · omega
    · have := h.2.1; simp only [Scheme.rings] at this; omega
    · exact h.2.2
  have hφ : ∀ t p : ℤ, Scheme.mwss.phi L (nside.getD 0) t p = Real.pi * p / L := by
    intro t p
    simp only [Scheme.phi, Scheme.shift, Scheme.ringLen]
    push_cast
    field_simp
    ring
  rw [sphericalInverse_otf B G _ nside _ hmt h8]
  simp only [hφ]
  unfold otfInv
  split_ifs
  · exact otfInverseNumpy_misread G hs hL hsp h0 hlo flm (fun el k a _ b => hf el k a b) hr'
  · exact otfInverseJax_misread G hs hL hsp h0 hlo flm (fun el k a _ b => hf el k a b) hr'

/-! ## Precomputed transforms -/

theorem ftm_shape_misread {σ : Scheme} {s : PyStr} (hs : Misread σ s) {L : ℤ} {nside : Option ℤ}
    {sh : ℤ × ℤ} (h : ftm_shape L s nside = .ok sh) : sh.2 = 2 * L := by
  have h1 : lower s = sMWSS ∨ lower s = sHP := by
    have h1 := hs.name
    have h2 := hs.off
    revert h1 h2
    cases σ <;> simp [Scheme.off, Scheme.name] <;> tauto
  unfold ftm_shape at h
  rw [if_pos h1] at h
  cases hn : ntheta (some L) s nside with
  | error e => rw [hn] at h; cases h
  | ok n => rw [hn] at h; injection h with h; rw [← h]

/-- The precomputed inverse transform refuses the other spellings, whatever the kernel. (For `L = 1`
the single column is repeated instead, which is not modelled.) -/
theorem C37_not_precomputed_inverse (G : GlTables) {σ : Scheme} {s : PyStr} (hs : Misread σ s)
    (flm : Nd ℂ) (L spin : ℤ) (_hL : 2 ≤ L) (kernel : Option (Nd ℂ)) (reality : Bool) (method : PyStr)
    (nside : Option ℤ) : Refused (precomputeInverseTop G flm L spin kernel s reality method nside) := by
  unfold precomputeInverseTop
  refine Refused.ite (fun _ => ⟨_, rfl⟩) (fun _ => Refused.bind_all _ (fun K => ?_))
  unfold precomputeInverse
  cases hsh : ftm_shape L s nside with
  | error e => exact ⟨e, rfl⟩
  | ok sh =>
    have h2 := ftm_shape_misread hs hsh
    cases K with
    | d3 kt kl kj K =>
      refine Refused.ite (fun _ => ⟨_, rfl⟩) (fun _ => Refused.ite (fun _ => ⟨_, rfl⟩) (fun _ =>
        Refused.ite (fun _ => ⟨_, rfl⟩) (fun h => absurd ?_ h)))
      rw [h2, hs.zero]
      unfold mStart mDim
      split_ifs <;> omega
    | d1 => exact ⟨_, rfl⟩
    | d2 => exact ⟨_, rfl⟩
    | other => exact ⟨_, rfl⟩

theorem fnab_shape_misread {σ : Scheme} {s : PyStr} (hs : Misread σ s) {L N : ℤ} {nside : Option ℤ}
    {sh : ℤ × ℤ × ℤ} (h : fnab_shape L N s nside = .ok sh) : sh.2.2 = 2 * L := by
  have h1 : lower s = sMWSS ∨ lower s = sHP := by
    have h1 := hs.name
    have h2 := hs.off
    revert h1 h2
    cases σ <;> simp [Scheme.off, Scheme.name] <;> tauto
  unfold fnab_shape at h
  rw [if_pos h1] at h
  cases hn : ntheta (some L) s nside with
  | error e => rw [hn] at h; cases h
  | ok n => rw [hn] at h; injection h with h; rw [← h]

/-- So does the one on the rotation group. -/
theorem C37_not_precomputed_wigner_inverse (G : GlTables) {σ : Scheme} {s : PyStr} (hs : Misread σ s)
    (flmn : Nd ℂ) (L N : ℤ) (_hL : 2 ≤ L) (hf : flmn.shape = [2 * N - 1, L, 2 * L - 1])
    (kernel : Option Nd4) (reality : Bool) (method : PyStr) (nside : Option ℤ) :
    Refused (precomputeWignerInverseTop G flmn L N kernel s reality method nside) := by
  unfold precomputeWignerInverseTop
  refine Refused.ite (fun _ => ⟨_, rfl⟩) (fun _ => Refused.bind_all _ (fun K => ?_))
  unfold precomputeWignerInverse
  cases hsh : fnab_shape L N s nside with
  | error e => exact ⟨e, rfl⟩
  | ok sh =>
    have h2 := fnab_shape_misread hs hsh
    refine Refused.ite (fun _ => ⟨_, rfl⟩) (fun h => absurd (Or.inr ?_) h)
    rw [hf, h2, hs.zero]
    intro h
    injection h with _ h
    injection h with _ h
    injection h with h _
    omega

/-- The precomputed and the on-the-fly forward transforms refuse the other spellings of "healpix",
with any number of refinement steps. -/
theorem C37_not_healpix_forward (B : Backends) (G : Machine) {s : PyStr} (hs : Misread .healpix s)
    (f : Nd ℂ) (L spin : ℤ) (nside : Option ℤ) (reality : Bool) (lo : ℤ) (_hL : 2 ≤ L) :
    (∀ kernel method iter,
      Refused (precomputeForwardTop G.toGlTables f L spin kernel s reality method nside iter)) ∧
    (∀ method ∈ [mNumpy, mJax, mTorch], ∀ precomps iter k,
      Refused (sphericalForward B G f L spin nside s method reality precomps lo iter k)) := by
  have hname : lower s = sHP := hs.name
  have hmw : ¬ sHP = sMW := by decide
  have hmwss : ¬ sHP = sMWSS := by decide
  have hres : ∀ method, precomputeResample f L spin s method = pure (f, s) := by
    intro method
    unfold precomputeResample
    simp only [hname, if_neg hmw, hmwss, hmw, or_self, if_false]
    rfl
  constructor
  · intro kernel method iter
    have hp : ∀ K r, Refused (precomputeForward f K L s r spin nside method) := by
      intro K r
      unfold precomputeForward
      refine Refused.ite (fun _ => ⟨_, rfl⟩) (fun _ => ?_)
      rw [hres, pure_bind]
      refine Refused.bind_all _ (fun ftm => ?_)
      cases K with
      | d3 kt kl kj K =>
        refine Refused.ite (fun _ => ⟨_, rfl⟩) (fun _ => Refused.ite (fun _ => ⟨_, rfl⟩) (fun _ =>
          Refused.ite (fun _ => ⟨_, rfl⟩) (fun h => absurd ⟨hname, Or.inr ?_⟩ h)))
        rw [hs.zero]; decide
      | d1 => exact ⟨_, rfl⟩
      | d2 => exact ⟨_, rfl⟩
      | other => exact ⟨_, rfl⟩
    unfold precomputeForwardTop
    refine Refused.ite (fun _ => ⟨_, rfl⟩) (fun _ => Refused.bind_all _ (fun K => ?_))
    refine Refused.ite (fun _ => hp _ _) (fun _ => Refused.bind_all _ (fun inv => ?_))
    unfold refine
    exact (hp _ _).bind _
  · intro method hmt precomps iter k
    have ho : ∀ method, Refused (otfFourier G f L spin nside s reality method) := by
      intro method
      unfold otfFourier
      rw [hres, pure_bind]
      refine Refused.bind_all _ (fun _ => Refused.bind_all _ (fun _ => Refused.bind_all _ (fun _ =>
        Refused.ite (fun _ => ⟨_, rfl⟩) (fun h => absurd ⟨hname, ?_⟩ h))))
      rw [hs.zero]; decide
    have hf : Refused (otfForward B G method f L spin nside s reality precomps lo) := by
      unfold otfForward
      simp only [List.mem_cons, List.not_mem_nil, or_false] at hmt
      rcases hmt with rfl | rfl | rfl
      · rw [if_pos rfl]; exact Refused.lower ((ho _).bind _)
      · rw [if_neg (by decide), if_neg (by decide)]; exact Refused.lower ((ho _).bind _)
      · rw [if_neg (by decide), if_neg (by decide)]; exact Refused.lower ((ho _).bind _)
    have h1 : method ≠ mHealpy := by rintro rfl; exact absurd hmt (by decide)
    have h2 : method ≠ mSsht := by rintro rfl; exact absurd hmt (by decide)
    unfold sphericalForward
    simp only [if_neg h1, if_neg h2]
    refine Refused.ite (fun _ => ⟨_, rfl⟩) (fun _ => Refused.ite (fun _ => ⟨_, rfl⟩) (fun _ =>
      Refused.ite (fun _ => ?_) (fun _ => hf)))
    unfold refine
    exact hf.bind _

/-! ## Periodic extension -/

/-- With another spelling of "mwss" the extension overwrites the ring of the south pole: a signal that
is one there and zero elsewhere is extended to zero. -/
theorem C37_not_extension {s : PyStr} (hs : Misread .mwss s) (L : ℤ) (hL : 2 ≤ L) (spin : ℤ → ℤ)
    (f : ℤ → ℤ → ℤ → ℂ) (hf : ∀ b t p, f b t p = if t = L then 1 else 0) :
    (∃ e, periodic_extension f L spin s = .ok (2 * L, e) ∧ ∀ b p, e b L p = 0) ∧
    (∃ e, periodic_extension f L spin sMWSS = .ok (2 * L, e) ∧
      ∀ b p, 0 ≤ p → p < 2 * L → e b L p = 1) := by
  have hname : lower s = sMWSS := hs.name
  have h2 : ¬ sMWSS = sMW := by decide
  have hnot : s ≠ sMWSS := hs.not
  have sz : ∀ s', lower s' = sMWSS → extensionSizes L s'
      = .ok (L + 1, 2 * L, 2 * L, if s' = sMWSS then 1 else 0) := by
    intro s' h
    unfold extensionSizes ntheta nphi_equiang ntheta_extension
    simp only [h]
    simp [show ¬ sMWSS = sMW by decide, show ¬ sMWSS = sGL by decide]
    rfl
  have hpos : (0 : ℤ) < 2 * L := by omega
  have hfft : ∀ b t j, t ≠ L → fftshift (2 * L) (fft (2 * L) (fun p => if t < L + 1 then f b t p
      else 0)) j = 0 := by
    intro b t j ht
    unfold fftshift fft
    apply Finset.sum_eq_zero
    intro p _
    simp only [hf, if_neg ht, ite_self, zero_mul]
  constructor
  · refine ⟨_, by unfold periodic_extension; rw [sz s hname, if_neg hnot]; rfl, fun b p => ?_⟩
    show ifft_fwd (2 * L) (ifftshift (2 * L) (extensionRows L (L + 1) (2 * L) 0 f spin b L)) p
      / ((2 * L : ℤ) : ℂ) = 0
    rw [ifft_fwd_ifftshift hpos, Finset.sum_eq_zero, zero_div]
    intro j hj
    rw [Finset.mem_Ico] at hj
    refine mul_eq_zero_of_left ?_ _
    unfold extensionRows
    by_cases hlast : j < 2 * L - 1
    · have hins : L + 0 ≤ L ∧ L < 2 * L - 1 + 0 ∧ 0 ≤ j ∧ j < 2 * L - 1 + 0 := by omega
      simp only [if_pos hins]
      rw [hfft b _ j (by omega)]
      simp
    · have hins : ¬ (L + 0 ≤ L ∧ L < 2 * L - 1 + 0 ∧ 0 ≤ j ∧ j < 2 * L - 1 + 0) := by omega
      simp only [if_neg hins]
      have hj' : (j - 2 * L / 2) % (2 * L) = L - 1 := by
        rw [show j - 2 * L / 2 = L - 1 by omega]
        exact Int.emod_eq_of_lt (by omega) (by omega)
      unfold fftshift fft
      rw [hj']
      have h := sum_tw hpos (-(L - 1))
      rw [if_neg] at h
      · refine Eq.trans (Finset.sum_congr rfl fun p _ => ?_) h
        beta_reduce
        rw [if_pos (by omega), hf, if_pos rfl, one_mul]
        unfold tw
        congr 1
        push_cast; ring
      · intro hd
        have := Int.le_of_dvd (by omega) ((Int.dvd_neg).1 hd)
        omega
  · refine ⟨_, by unfold periodic_extension; rw [sz sMWSS (by decide), if_pos rfl]; rfl,
      fun b p p0 p1 => ?_⟩
    show ifft_fwd (2 * L) (ifftshift (2 * L) (extensionRows L (L + 1) (2 * L) 1 f spin b L)) p
      / ((2 * L : ℤ) : ℂ) = 1
    have h := ifft_ifftshift_fftshift_fft hpos (f b L) p0 p1
    rw [hf, if_pos rfl] at h
    rw [← h]
    unfold ifft
    rw [ifft_fwd_ifftshift hpos, ifft_fwd_ifftshift hpos]
    congr 1
    apply Finset.sum_congr rfl
    intro j hj
    rw [Finset.mem_Ico] at hj
    rw [extensionRows_mwss L f spin b L j (by omega) (by omega) hj.1 hj.2, if_pos le_rfl]

end S2fft
