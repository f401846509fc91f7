import Verif.Model.Wigner
import Verif.Model.PrecomputeWigner
import Verif.Model.CustomOps
import Verif.Lemmas.Grid
import Verif.Lemmas.Otf

/-!
# Letter case of scheme names

Every function that takes the name of a scheme is compared with itself on the name in lower case.
-/

namespace S2fft

theorem toLower_idem (c : Char) : c.toLower.toLower = c.toLower := by
  grind [Char.toLower]

theorem lower_lower (s : PyStr) : lower (lower s) = lower s := by
  simp only [lower, List.map_map]
  exact List.map_congr_left (fun c _ => toLower_idem c)

theorem ntheta_lower (L : Option ℤ) (sampling : PyStr) (nside : Option ℤ) :
    ntheta L (lower sampling) nside =
      ntheta L sampling nside := by
  simp only [ntheta, lower_lower]

theorem ntheta_extension_lower (L : ℤ) (sampling : PyStr) :
    ntheta_extension L (lower sampling) =
      ntheta_extension L sampling := by
  simp only [ntheta_extension, lower_lower]

theorem nphi_equiang_lower (L : ℤ) (sampling : PyStr) :
    nphi_equiang L (lower sampling) =
      nphi_equiang L sampling := by
  simp only [nphi_equiang, lower_lower]

theorem ftm_shape_lower (L : ℤ) (sampling : PyStr) (nside : Option ℤ) :
    ftm_shape L (lower sampling) nside =
      ftm_shape L sampling nside := by
  simp only [ftm_shape, lower_lower, ntheta_lower]

theorem t2theta_lower (t : ℤ) (L : Option ℤ) (sampling : PyStr) (nside : Option ℤ) :
    t2theta t L (lower sampling) nside =
      t2theta t L sampling nside := by
  simp only [t2theta, lower_lower]

theorem thetas_lower (leggauss : ℤ → ℤ → ℝ) (L : Option ℤ) (sampling : PyStr) (nside : Option ℤ) :
    thetas leggauss L (lower sampling) nside =
      thetas leggauss L sampling nside := by
  simp only [thetas, lower_lower, ntheta_lower, t2theta_lower]

theorem p2phi_equiang_lower (L p : ℤ) (sampling : PyStr) :
    p2phi_equiang L p (lower sampling) =
      p2phi_equiang L p sampling := by
  simp only [p2phi_equiang, lower_lower]

theorem phis_equiang_lower (L : ℤ) (sampling : PyStr) :
    phis_equiang L (lower sampling) =
      phis_equiang L sampling := by
  simp only [phis_equiang, lower_lower, nphi_equiang_lower, p2phi_equiang_lower]

theorem f_shape_lower (L : Option ℤ) (sampling : PyStr) (nside : Option ℤ) :
    f_shape L (lower sampling) nside =
      f_shape L sampling nside := by
  simp only [f_shape, lower_lower, ntheta_lower, nphi_equiang_lower]

theorem nalpha_lower (L : ℤ) (sampling : PyStr) :
    nalpha L (lower sampling) =
      nalpha L sampling := by
  simp only [nalpha, lower_lower]

theorem nbeta_lower (L : ℤ) (sampling : PyStr) :
    nbeta L (lower sampling) =
      nbeta L sampling := by
  simp only [nbeta, lower_lower]

theorem fnab_shape_lower (L N : ℤ) (sampling : PyStr) (nside : Option ℤ) :
    fnab_shape L N (lower sampling) nside =
      fnab_shape L N sampling nside := by
  simp only [fnab_shape, lower_lower, ntheta_lower]

theorem quad_weights_transform_lower (gl : ℤ → ℤ → ℝ) (L : ℤ) (sampling : PyStr) (nside : ℤ) :
    quad_weights_transform gl L (lower sampling) nside =
      quad_weights_transform gl L sampling nside := by
  simp only [quad_weights_transform, lower_lower]

theorem quad_weights_lower (gl : ℤ → ℤ → ℝ) (L : Option ℤ) (sampling : PyStr) (spin : ℤ) (nside
    : Option ℤ) :
    quad_weights gl L (lower sampling) spin nside =
      quad_weights gl L sampling spin nside := by
  simp only [quad_weights, lower_lower]

theorem extensionSizes_lower {sampling : PyStr} (h1 : lower sampling = sMWSS → sampling = sMWSS)
    (L : ℤ) :
    extensionSizes L (lower sampling) =
      extensionSizes L sampling := by
  have e : (lower sampling = sMWSS) = (sampling = sMWSS) :=
    propext ⟨h1, fun h => by rw [h]; exact lower_name .mwss⟩
  simp only [extensionSizes, lower_lower, ntheta_lower, nphi_equiang_lower,
    ntheta_extension_lower, e]

theorem periodic_extension_lower {sampling : PyStr} (h1 : lower sampling = sMWSS → sampling =
    sMWSS) (f : ℤ → ℤ → ℤ → ℂ) (L : ℤ) (spin : ℤ → ℤ) :
    periodic_extension f L spin (lower sampling) =
      periodic_extension f L spin sampling := by
  simp only [periodic_extension, extensionSizes_lower h1]

theorem unextend_lower (rows : ℤ) (f_ext : ℤ → ℤ → ℤ → ℂ) (L : ℤ) (sampling : PyStr) :
    unextend rows f_ext L (lower sampling) =
      unextend rows f_ext L sampling := by
  simp only [unextend, lower_lower, ntheta_extension_lower]

theorem periodic_extension_jax_lower {sampling : PyStr} (h1 : lower sampling = sMWSS → sampling
    = sMWSS) (f : ℤ → ℤ → ℤ → ℂ) (L : ℤ) (spin : ℤ → ℤ) :
    periodic_extension_jax f L spin (lower sampling) =
      periodic_extension_jax f L spin sampling := by
  simp only [periodic_extension_jax, extensionSizes_lower h1]

theorem unextend_jax_lower (f_ext : ℤ → ℤ → ℤ → ℂ) (L : ℤ) (sampling : PyStr) :
    unextend_jax f_ext L (lower sampling) =
      unextend_jax f_ext L sampling := by
  simp only [unextend_jax, lower_lower]

/-- The offset of the orders only depends on the case for two of the schemes. -/
theorem mOffset_lower {s : PyStr} (h1 : lower s = sMWSS → s = sMWSS) (h2 : lower s = sHP → s =
    sHP) :
    mOffset (lower s) = mOffset s := by
  have e : (lower s = sMWSS ∨ lower s = sHP) ↔ (s = sMWSS ∨ s = sHP) := by
    constructor
    · rintro (h | h)
      · exact Or.inl (h1 h)
      · exact Or.inr (h2 h)
    · rintro (rfl | rfl)
      · exact Or.inl (lower_name .mwss)
      · exact Or.inr (lower_name .healpix)
  simp only [mOffset, e]

/-- Forward transforms: the two MW schemes are resampled under a fixed name. -/
theorem mOffset_lower' {s : PyStr} (hf : lower s = sHP → s = sHP)
    (h : ¬ (lower s = sMW ∨ lower s = sMWSS)) : mOffset (lower s) = mOffset s :=
  mOffset_lower (fun e => absurd (Or.inr e) h) hf

theorem phisAt_lower (L : ℤ) (sampling : PyStr) (nside t : ℤ) :
    phisAt L (lower sampling) nside t =
      phisAt L sampling nside t := by
  simp only [phisAt, lower_lower, phis_equiang_lower]

theorem entryAt_lower (sampling : PyStr) (nside t p : ℤ) (θ φ : ℝ) :
    entryAt (lower sampling) nside t p θ φ =
      entryAt sampling nside t p θ φ := by
  simp only [entryAt, lower_lower]

theorem inverseDirect_lower (flm : ℤ → ℤ → ℂ) (L spin : ℤ) (sampling : PyStr) (nt : ℤ) (θ : ℤ →
    ℝ) (nside : ℤ) (reality : Bool) (L_lower : ℤ) :
    inverseDirect flm L spin (lower sampling) nt θ nside reality L_lower =
      inverseDirect flm L spin sampling nt θ nside reality L_lower := by
  simp only [inverseDirect, lower_lower, phisAt_lower, entryAt_lower]

theorem inverseSov_lower (flm : ℤ → ℤ → ℂ) (L spin : ℤ) (sampling : PyStr) (nt : ℤ) (θ : ℤ → ℝ)
    (nside : ℤ) (reality : Bool) (L_lower : ℤ) :
    inverseSov flm L spin (lower sampling) nt θ nside reality L_lower =
      inverseSov flm L spin sampling nt θ nside reality L_lower := by
  simp only [inverseSov, lower_lower, phisAt_lower, entryAt_lower]

theorem inverseFftM_lower {sampling : PyStr} (hm : mOffset (lower sampling) = mOffset sampling)
    (method : PyStr) (ftm : ℤ → ℤ → ℂ) (L : ℤ) (ncol nside : ℤ) (reality : Bool) :
    inverseFftM method ftm L (lower sampling) ncol nside reality =
      inverseFftM method ftm L sampling ncol nside reality := by
  simp only [inverseFftM, lower_lower, nphi_equiang_lower, hm]

theorem inverseFft_lower {sampling : PyStr} (hm : mOffset (lower sampling) = mOffset sampling)
    (ftm : ℤ → ℤ → ℂ) (L : ℤ) (ncol nside : ℤ) (reality : Bool) :
    inverseFft ftm L (lower sampling) ncol nside reality =
      inverseFft ftm L sampling ncol nside reality := by
  simp only [inverseFft, lower_lower, inverseFftM_lower hm]

theorem inverseFftFtm_lower {sampling : PyStr} (hm : mOffset (lower sampling) = mOffset
    sampling) (flm : ℤ → ℤ → ℂ) (L spin : ℤ) (nt : ℤ) (θ : ℤ → ℝ) (nside : ℤ) (reality : Bool)
    (L_lower : ℤ) :
    inverseFftFtm flm L spin (lower sampling) nt θ nside reality L_lower =
      inverseFftFtm flm L spin sampling nt θ nside reality L_lower := by
  simp only [inverseFftFtm, lower_lower, hm]

theorem inverseSovFft_lower {sampling : PyStr} (hm : mOffset (lower sampling) = mOffset
    sampling) (flm : ℤ → ℤ → ℂ) (L spin : ℤ) (nt : ℤ) (θ : ℤ → ℝ) (nside : ℤ) (reality : Bool)
    (L_lower : ℤ) :
    inverseSovFft flm L spin (lower sampling) nt θ nside reality L_lower =
      inverseSovFft flm L spin sampling nt θ nside reality L_lower := by
  simp only [inverseSovFft, lower_lower, ftm_shape_lower, inverseFft_lower hm,
    inverseFftFtm_lower hm]

theorem inverseVecFtm_lower {sampling : PyStr} (hm : mOffset (lower sampling) = mOffset
    sampling) (flm : ℤ → ℤ → ℂ) (L spin : ℤ) (nt : ℤ) (θ : ℤ → ℝ) (nside : ℤ) (reality : Bool)
    (L_lower : ℤ) :
    inverseVecFtm flm L spin (lower sampling) nt θ nside reality L_lower =
      inverseVecFtm flm L spin sampling nt θ nside reality L_lower := by
  simp only [inverseVecFtm, lower_lower, hm]

theorem inverseVec_lower {sampling : PyStr} (hm : mOffset (lower sampling) = mOffset sampling)
    (flm : ℤ → ℤ → ℂ) (L spin : ℤ) (nt : ℤ) (θ : ℤ → ℝ) (nside : ℤ) (reality : Bool) (L_lower :
    ℤ) :
    inverseVec flm L spin (lower sampling) nt θ nside reality L_lower =
      inverseVec flm L spin sampling nt θ nside reality L_lower := by
  simp only [inverseVec, lower_lower, ftm_shape_lower, inverseFft_lower hm, inverseVecFtm_lower hm]

theorem packSignal_lower (L : ℤ) (sampling : PyStr) (nside : Option ℤ) (f : ℤ → ℤ → ℂ) :
    packSignal L (lower sampling) nside f =
      packSignal L sampling nside f := by
  simp only [packSignal, lower_lower, f_shape_lower]

theorem baseInverseWith_lower {sampling : PyStr} (hm : mOffset (lower sampling) = mOffset
    sampling) (G : GlTables) (flm : Nd ℂ) (L spin : ℤ) (method : PyStr) (nside : Option ℤ)
    (reality : Bool) (L_lower : ℤ) :
    baseInverseWith G flm L spin (lower sampling) method nside reality L_lower =
      baseInverseWith G flm L spin sampling method nside reality L_lower := by
  unfold baseInverseWith
  simp only [thetas_lower, packSignal_lower]
  cases h : inverseMethod method with
  | error e => rfl
  | ok g =>
    have hg : ∀ a b c nt θ d e l, g a b c (lower sampling) nt θ d e l =
        g a b c sampling nt θ d e l := by
      unfold inverseMethod at h
      split_ifs at h <;> cases Except.ok.inj h
      · exact fun _ _ _ _ _ _ _ _ => inverseDirect_lower ..
      · exact fun _ _ _ _ _ _ _ _ => inverseSov_lower ..
      · exact fun _ _ _ _ _ _ _ _ => inverseSovFft_lower hm ..
      · exact fun _ _ _ _ _ _ _ _ => inverseVec_lower hm ..
    simp only [Except.bind, bind, hg]

theorem baseInverse_lower {sampling : PyStr} (hm : mOffset (lower sampling) = mOffset sampling)
    (G : GlTables) (flm : Nd ℂ) (L spin : ℤ) (nside : Option ℤ) (reality : Bool) (L_lower : ℤ) :
    baseInverse G flm L spin (lower sampling) nside reality L_lower =
      baseInverse G flm L spin sampling nside reality L_lower := by
  simp only [baseInverse, baseInverseWith_lower hm]

theorem forwardDirect_lower (f : ℤ → ℤ → ℂ) (L spin : ℤ) (sampling : PyStr) (ncol nt : ℤ) (θ w :
    ℤ → ℝ) (nside : ℤ) (reality : Bool) (L_lower : ℤ) :
    forwardDirect f L spin (lower sampling) ncol nt θ w nside reality L_lower =
      forwardDirect f L spin sampling ncol nt θ w nside reality L_lower := by
  simp only [forwardDirect, lower_lower, phisAt_lower, entryAt_lower]

theorem forwardSovFtm_lower (f : ℤ → ℤ → ℂ) (L : ℤ) (sampling : PyStr) (nt : ℤ) (θ : ℤ → ℝ)
    (nside : ℤ) (reality : Bool) :
    forwardSovFtm f L (lower sampling) nt θ nside reality =
      forwardSovFtm f L sampling nt θ nside reality := by
  simp only [forwardSovFtm, lower_lower, phisAt_lower, entryAt_lower]

theorem forwardSov_lower (f : ℤ → ℤ → ℂ) (L spin : ℤ) (sampling : PyStr) (ncol nt : ℤ) (θ w : ℤ
    → ℝ) (nside : ℤ) (reality : Bool) (L_lower : ℤ) :
    forwardSov f L spin (lower sampling) ncol nt θ w nside reality L_lower =
      forwardSov f L spin sampling ncol nt θ w nside reality L_lower := by
  simp only [forwardSov, lower_lower, forwardSovFtm_lower]

theorem forwardFftM_lower {sampling : PyStr} (hm : mOffset (lower sampling) = mOffset sampling)
    (method : PyStr) (f : ℤ → ℤ → ℂ) (L : ℤ) (ncol nside : ℤ) (reality : Bool) :
    forwardFftM method f L (lower sampling) ncol nside reality =
      forwardFftM method f L sampling ncol nside reality := by
  simp only [forwardFftM, lower_lower, hm]

theorem forwardFft_lower {sampling : PyStr} (hm : mOffset (lower sampling) = mOffset sampling)
    (f : ℤ → ℤ → ℂ) (L : ℤ) (ncol nside : ℤ) (reality : Bool) :
    forwardFft f L (lower sampling) ncol nside reality =
      forwardFft f L sampling ncol nside reality := by
  simp only [forwardFft, lower_lower, forwardFftM_lower hm]

theorem forwardSovFft_lower {sampling : PyStr} (hm : mOffset (lower sampling) = mOffset
    sampling) (f : ℤ → ℤ → ℂ) (L spin : ℤ) (ncol nt : ℤ) (θ w : ℤ → ℝ) (nside : ℤ) (reality :
    Bool) (L_lower : ℤ) :
    forwardSovFft f L spin (lower sampling) ncol nt θ w nside reality L_lower =
      forwardSovFft f L spin sampling ncol nt θ w nside reality L_lower := by
  simp only [forwardSovFft, lower_lower, hm, forwardFft_lower hm]

theorem forwardVec_lower {sampling : PyStr} (hm : mOffset (lower sampling) = mOffset sampling)
    (f : ℤ → ℤ → ℂ) (L spin : ℤ) (ncol nt : ℤ) (θ w : ℤ → ℝ) (nside : ℤ) (reality : Bool)
    (L_lower : ℤ) :
    forwardVec f L spin (lower sampling) ncol nt θ w nside reality L_lower =
      forwardVec f L spin sampling ncol nt θ w nside reality L_lower := by
  simp only [forwardVec, lower_lower, hm, forwardFft_lower hm]

theorem baseForwardWith_lower {sampling : PyStr} (hf : lower sampling = sHP → sampling = sHP) (G
    : GlTables) (f : Nd ℂ) (L spin : ℤ) (method : PyStr) (nside : Option ℤ) (reality : Bool)
    (L_lower : ℤ) :
    baseForwardWith G f L spin (lower sampling) method nside reality L_lower =
      baseForwardWith G f L spin sampling method nside reality L_lower := by
  by_cases h : lower sampling = sMW ∨ lower sampling = sMWSS
  · simp only [baseForwardWith, forwardPrepare, lower_lower, f_shape_lower, if_pos h]
  · have hm := mOffset_lower' hf h
    have hmw : ¬ lower sampling = sMW := fun e => h (Or.inl e)
    simp only [baseForwardWith, forwardPrepare, lower_lower, f_shape_lower, if_neg h, if_neg hmw,
      thetas_lower, bind_assoc, pure_bind, quad_weights_transform_lower]
    cases e : forwardMethod method with
    | error e => rfl
    | ok g =>
      have hg : ∀ a b c nc nt θ w d e l, g a b c (lower sampling) nc nt θ w d e l =
          g a b c sampling nc nt θ w d e l := by
        unfold forwardMethod at e
        split_ifs at e <;> cases Except.ok.inj e
        · exact fun _ _ _ _ _ _ _ _ _ _ => forwardDirect_lower ..
        · exact fun _ _ _ _ _ _ _ _ _ _ => forwardSov_lower ..
        · exact fun _ _ _ _ _ _ _ _ _ _ => forwardSovFft_lower hm ..
        · exact fun _ _ _ _ _ _ _ _ _ _ => forwardVec_lower hm ..
      simp only [Except.bind, bind, hg]

theorem baseForward_lower {sampling : PyStr} (hf : lower sampling = sHP → sampling = sHP) {iter
    : ℤ} (hm : iter ≠ 0 → mOffset (lower sampling) = mOffset sampling) (G : GlTables) (f : Nd ℂ)
    (L spin : ℤ) (nside : Option ℤ) (reality : Bool) (L_lower : ℤ) :
    baseForward G f L spin (lower sampling) nside reality L_lower iter =
      baseForward G f L spin sampling nside reality L_lower iter := by
  by_cases hi : iter = 0
  · simp only [baseForward, baseForwardWith_lower hf, if_pos hi]
  · simp only [baseForward, baseForwardWith_lower hf, baseInverseWith_lower (hm hi)]

theorem kernelSamps_lower (sampling : PyStr) (nt : ℤ) :
    kernelSamps (lower sampling) nt =
      kernelSamps sampling nt := by
  simp only [kernelSamps, lower_lower]

theorem kernelRisboFourier_lower (L spin c : ℤ) (sampling : PyStr) (nt : ℤ) (θ : ℤ → ℝ) (reality
    : Bool) :
    kernelRisboFourier L spin c (lower sampling) nt θ reality =
      kernelRisboFourier L spin c sampling nt θ reality := by
  simp only [kernelRisboFourier, lower_lower, kernelSamps_lower]

theorem kernelRisboFourierJax_lower (L spin c : ℤ) (sampling : PyStr) (nt : ℤ) (θ : ℤ → ℝ)
    (reality : Bool) :
    kernelRisboFourierJax L spin c (lower sampling) nt θ reality =
      kernelRisboFourierJax L spin c sampling nt θ reality := by
  simp only [kernelRisboFourierJax, lower_lower, kernelSamps_lower]

theorem kernelRisbo_lower (L spin : ℤ) (sampling : PyStr) (nt : ℤ) (θ : ℤ → ℝ) (reality : Bool) :
    kernelRisbo L spin (lower sampling) nt θ reality =
      kernelRisbo L spin sampling nt θ reality := by
  simp only [kernelRisbo, lower_lower, kernelRisboFourier_lower]

theorem kernelRisboJax_lower (L spin : ℤ) (sampling : PyStr) (nt : ℤ) (θ : ℤ → ℝ) (reality : Bool) :
    kernelRisboJax L spin (lower sampling) nt θ reality =
      kernelRisboJax L spin sampling nt θ reality := by
  simp only [kernelRisboJax, lower_lower, kernelRisboFourierJax_lower]

theorem kernelPmJax_lower (L spin : ℤ) (sampling : PyStr) (nt : ℤ) (θ : ℤ → ℝ) (reality : Bool) :
    kernelPmJax L spin (lower sampling) nt θ reality =
      kernelPmJax L spin sampling nt θ reality := by
  simp only [kernelPmJax, lower_lower]

theorem kernelFold_lower (G : GlTables) (L : ℤ) (s : PyStr) (nt : ℤ) (nside : ℤ) (forward
    reality : Bool) (dl : ℤ → ℤ → ℤ → ℝ) :
    kernelFold G L (lower s) nt nside forward reality dl =
      kernelFold G L s nt nside forward reality dl := by
  simp only [kernelFold, lower_lower, quad_weights_transform_lower]

theorem kernelDl_lower (L spin : ℤ) (sampling : PyStr) (nt : ℤ) (θ : ℤ → ℝ) (reality : Bool)
    (recursion : PyStr) :
    kernelDl L spin (lower sampling) nt θ reality recursion =
      kernelDl L spin sampling nt θ reality recursion := by
  simp only [kernelDl, lower_lower, kernelRisbo_lower]

theorem spinSphericalKernel_lower (G : GlTables) (L spin : ℤ) (reality : Bool) (sampling :
    PyStr) (nside : Option ℤ) (forward : Bool) (recursion : PyStr) :
    spinSphericalKernel G L spin reality (lower sampling) nside forward recursion =
      spinSphericalKernel G L spin reality sampling nside forward recursion := by
  by_cases h : forward = true ∧ (lower sampling = sMW ∨ lower sampling = sMWSS)
  · simp only [spinSphericalKernel, kernelThetas, lower_lower, if_pos h]
  · simp only [spinSphericalKernel, kernelThetas, lower_lower, if_neg h, thetas_lower,
    bind_assoc, pure_bind,
      kernelDl_lower, kernelFold_lower]

theorem kernelDlJax_lower (L spin : ℤ) (sampling : PyStr) (nt : ℤ) (θ : ℤ → ℝ) (reality : Bool)
    (recursion : PyStr) :
    kernelDlJax L spin (lower sampling) nt θ reality recursion =
      kernelDlJax L spin sampling nt θ reality recursion := by
  simp only [kernelDlJax, lower_lower, kernelRisboJax_lower, kernelPmJax_lower]

theorem spinSphericalKernelJax_lower (G : GlTables) (L spin : ℤ) (reality : Bool) (sampling :
    PyStr) (nside : Option ℤ) (forward : Bool) (recursion : PyStr) :
    spinSphericalKernelJax G L spin reality (lower sampling) nside forward recursion =
      spinSphericalKernelJax G L spin reality sampling nside forward recursion := by
  by_cases h : forward = true ∧ (lower sampling = sMW ∨ lower sampling = sMWSS)
  · simp only [spinSphericalKernelJax, kernelThetas, lower_lower, if_pos h]
  · simp only [spinSphericalKernelJax, kernelThetas, lower_lower, if_neg h, thetas_lower,
    bind_assoc, pure_bind,
      kernelDlJax_lower, kernelFold_lower]

theorem precomputeFtm_lower {sampling : PyStr} (hm : mOffset (lower sampling) = mOffset
    sampling) (flm : ℤ → ℤ → ℂ) (K : ℤ → ℤ → ℤ → ℂ) (L : ℤ) (reality : Bool) (spin : ℤ) :
    precomputeFtm flm K L (lower sampling) reality spin =
      precomputeFtm flm K L sampling reality spin := by
  simp only [precomputeFtm, lower_lower, hm]

theorem precomputeInverse_lower {sampling : PyStr} (hm : mOffset (lower sampling) = mOffset
    sampling) (flm kernel : Nd ℂ) (L : ℤ) (reality : Bool) (spin : ℤ) (nside : Option ℤ) (method
    : PyStr) :
    precomputeInverse flm kernel L (lower sampling) reality spin nside method =
      precomputeInverse flm kernel L sampling reality spin nside method := by
  simp only [precomputeInverse, ftm_shape_lower, precomputeFtm_lower hm, inverseFftM_lower hm,
    packSignal_lower, hm]

theorem precomputeFft_lower {sampling : PyStr} (hm : mOffset (lower sampling) = mOffset
    sampling) (f : ℤ → ℤ → ℂ) (L : ℤ) (ncol nside : ℤ) (reality : Bool) (method : PyStr) :
    precomputeFft f L (lower sampling) ncol nside reality method =
      precomputeFft f L sampling ncol nside reality method := by
  simp only [precomputeFft, lower_lower, hm]

theorem precomputeForward_lower {sampling : PyStr} (hf : lower sampling = sHP → sampling = sHP)
    (f kernel : Nd ℂ) (L : ℤ) (reality : Bool) (spin : ℤ) (nside : Option ℤ) (method : PyStr) :
    precomputeForward f kernel L (lower sampling) reality spin nside method =
      precomputeForward f kernel L sampling reality spin nside method := by
  by_cases h : lower sampling = sMW ∨ lower sampling = sMWSS
  · simp only [precomputeForward, precomputeResample, lower_lower, if_pos h]
  · have hmw : ¬ lower sampling = sMW := fun e => h (Or.inl e)
    simp only [precomputeForward, precomputeResample, lower_lower, if_neg h, if_neg hmw, pure_bind,
      precomputeFft_lower (mOffset_lower' hf h), mOffset_lower' hf h]

theorem getKernel_lower (G : GlTables) (kernel : Option (Nd ℂ)) (L spin : ℤ) (reality : Bool)
    (sampling : PyStr) (nside : Option ℤ) (forward : Bool) (method : PyStr) :
    getKernel G kernel L spin reality (lower sampling) nside forward method =
      getKernel G kernel L spin reality sampling nside forward method := by
  unfold getKernel kernelFunction
  split
  · rfl
  · split_ifs <;> simp only [spinSphericalKernel_lower, spinSphericalKernelJax_lower]

theorem precomputeInverseTop_lower {sampling : PyStr} (hm : mOffset (lower sampling) = mOffset
    sampling) (G : GlTables) (flm : Nd ℂ) (L spin : ℤ) (kernel : Option (Nd ℂ)) (reality : Bool)
    (method : PyStr) (nside : Option ℤ) :
    precomputeInverseTop G flm L spin kernel (lower sampling) reality method nside =
      precomputeInverseTop G flm L spin kernel sampling reality method nside := by
  simp only [precomputeInverseTop, getKernel_lower, precomputeInverse_lower hm]

theorem precomputeForwardTop_lower {sampling : PyStr} (hf : lower sampling = sHP → sampling =
    sHP) {iter : ℤ} (hm : iter ≠ 0 → mOffset (lower sampling) = mOffset sampling) (G : GlTables)
    (f : Nd ℂ) (L spin : ℤ) (kernel : Option (Nd ℂ)) (reality : Bool) (method : PyStr) (nside :
    Option ℤ) :
    precomputeForwardTop G f L spin kernel (lower sampling) reality method nside iter =
      precomputeForwardTop G f L spin kernel sampling reality method nside iter := by
  have e : ∀ r, kernelFunction method G L spin r (lower sampling) nside false rAuto =
      kernelFunction method G L spin r sampling nside false rAuto := fun r => by
    unfold kernelFunction
    split_ifs <;> simp only [spinSphericalKernel_lower, spinSphericalKernelJax_lower]
  by_cases hi : iter = 0
  · simp only [precomputeForwardTop, getKernel_lower, precomputeForward_lower hf, if_pos hi]
  · simp only [precomputeForwardTop, getKernel_lower, precomputeForward_lower hf,
      precomputeInverse_lower (hm hi), e]

theorem UniformName_lower (sampling : PyStr) :
    UniformName (lower sampling) =
      UniformName sampling := by
  simp only [UniformName, lower_lower]

theorem chooseMode_lower (L N : ℤ) (sampling mode : PyStr) :
    chooseMode L N (lower sampling) mode =
      chooseMode L N sampling mode := by
  simp only [chooseMode, lower_lower, UniformName_lower]

theorem wignerFourier_lower (L n0 : ℤ) (cols : ℤ → ℤ) (sampling : PyStr) (nt : ℤ) (θ : ℤ → ℝ) :
    wignerFourier L n0 cols (lower sampling) nt θ =
      wignerFourier L n0 cols sampling nt θ := by
  simp only [wignerFourier, lower_lower, kernelSamps_lower]

theorem wignerFourierJax_lower (L n0 : ℤ) (cols : ℤ → ℤ) (sampling : PyStr) (nt : ℤ) (θ : ℤ → ℝ) :
    wignerFourierJax L n0 cols (lower sampling) nt θ =
      wignerFourierJax L n0 cols sampling nt θ := by
  simp only [wignerFourierJax, lower_lower, kernelSamps_lower]

theorem wignerFold_lower (G : GlTables) (L N : ℤ) (s : PyStr) (nt nside : ℤ) (forward reality :
    Bool) (dl : ℤ → ℤ → ℤ → ℤ → ℝ) :
    wignerFold G L N (lower s) nt nside forward reality dl =
      wignerFold G L N s nt nside forward reality dl := by
  simp only [wignerFold, lower_lower, quad_weights_transform_lower]

theorem wignerKernel_lower (G : GlTables) (L N : ℤ) (reality : Bool) (sampling : PyStr) (nside :
    Option ℤ) (forward : Bool) (mode : PyStr) :
    wignerKernel G L N reality (lower sampling) nside forward mode =
      wignerKernel G L N reality sampling nside forward mode := by
  by_cases h : forward = true ∧ (lower sampling = sMW ∨ lower sampling = sMWSS)
  · simp only [wignerKernel, kernelThetas, lower_lower, chooseMode_lower, if_pos h]
  · simp only [wignerKernel, kernelThetas, lower_lower, chooseMode_lower, if_neg h,
    thetas_lower, bind_assoc,
      pure_bind, wignerFourier_lower, wignerFold_lower]

theorem wignerKernelJax_lower (G : GlTables) (L N : ℤ) (reality : Bool) (sampling : PyStr)
    (nside : Option ℤ) (forward : Bool) (mode : PyStr) :
    wignerKernelJax G L N reality (lower sampling) nside forward mode =
      wignerKernelJax G L N reality sampling nside forward mode := by
  by_cases h : forward = true ∧ (lower sampling = sMW ∨ lower sampling = sMWSS)
  · simp only [wignerKernelJax, kernelThetas, lower_lower, chooseMode_lower, if_pos h]
  · simp only [wignerKernelJax, kernelThetas, lower_lower, chooseMode_lower, if_neg h,
    thetas_lower, bind_assoc,
      pure_bind, wignerFourierJax_lower, wignerFold_lower]

theorem inHealpix_lower (sampling : PyStr) :
    inHealpix (lower sampling) =
      inHealpix sampling := by
  simp only [inHealpix, lower_lower]

theorem precomputeWignerInverse_lower {sampling : PyStr} (hm : mOffset (lower sampling) =
    mOffset sampling) (flmn : Nd ℂ) (K : Nd4) (L N : ℤ) (reality : Bool) (nside : Option ℤ)
    (method : PyStr) :
    precomputeWignerInverse flmn K L N (lower sampling) reality nside method =
      precomputeWignerInverse flmn K L N sampling reality nside method := by
  by_cases hh : inHealpix sampling
  · by_cases hs : lower sampling = sHP
    · have e : ∀ x, so3_f_shape L N (lower sampling) x = so3_f_shape L N sampling x := fun x => by
        have hn : ∀ s : PyStr, lower s = sHP →
            ¬ (s = sMW ∨ s = sMWSS ∨ s = sDH ∨ s = sGL) := by
          rintro s h (rfl | rfl | rfl | rfl) <;> revert h <;> decide
        unfold so3_f_shape
        rw [if_neg (hn _ (by rw [lower_lower]; exact hs)), if_neg (hn _ hs)]
        simp only [lower_lower]
      simp only [precomputeWignerInverse, fnab_shape_lower, inHealpix_lower, hm, e]
    · have hf : fnab_shape L N sampling nside = .error .valueError := by
        have hn : ∀ t : PyStr, t <:+: sHP → ¬ t = sHP →
            ¬ (t = sMWSS ∨ t = sHP) ∧ ¬ (t = sMW ∨ t = sDH ∨ t = sGL) := by
          intro t h1 h2
          constructor
          · rintro (rfl | rfl)
            · exact absurd h1 (by decide)
            · exact h2 rfl
          · rintro (rfl | rfl | rfl) <;> exact absurd h1 (by decide)
        obtain ⟨h1, h2⟩ := hn _ hh hs
        unfold fnab_shape
        rw [if_neg h1, if_neg h2]
      simp only [precomputeWignerInverse, fnab_shape_lower, hf]
      rfl
  · have hh' : ¬ inHealpix (lower sampling) := by rw [inHealpix_lower]; exact hh
    simp only [precomputeWignerInverse, fnab_shape_lower, hm, if_neg hh, if_neg hh']

theorem wignerRings_lower {sampling : PyStr} (hm : mOffset (lower sampling) = mOffset sampling)
    (f : Nd ℂ) (L N : ℤ) (reality : Bool) (nside : Option ℤ) (method : PyStr) :
    wignerRings f L N (lower sampling) reality nside method =
      wignerRings f L N sampling reality nside method := by
  simp only [wignerRings, inHealpix_lower, fnab_shape_lower, hm]

theorem wignerFbanNd_lower (f : Nd ℂ) (sampling : PyStr) (reality : Bool) :
    wignerFbanNd f (lower sampling) reality =
      wignerFbanNd f sampling reality := by
  simp only [wignerFbanNd, lower_lower]

theorem precomputeWignerForward_lower {sampling : PyStr} (hf : lower sampling = sHP → sampling =
    sHP) (f : Nd ℂ) (K : Nd4) (L N : ℤ) (reality : Bool) (nside : Option ℤ) (method : PyStr) :
    precomputeWignerForward f K L N (lower sampling) reality nside method =
      precomputeWignerForward f K L N sampling reality nside method := by
  by_cases h : lower sampling = sMW ∨ lower sampling = sMWSS
  · simp only [precomputeWignerForward, wignerResample, wignerFbanNd_lower, lower_lower, if_pos h]
  · have hmw : ¬ lower sampling = sMW := fun e => h (Or.inl e)
    have hm := mOffset_lower' hf h
    simp only [precomputeWignerForward, wignerResample, wignerFbanNd_lower, lower_lower, if_neg h,
      if_neg hmw, pure_bind, wignerRings_lower hm]

theorem getWignerKernel_lower (G : GlTables) (kernel : Option Nd4) (L N : ℤ) (reality : Bool)
    (sampling : PyStr) (nside : Option ℤ) (forward : Bool) (method : PyStr) :
    getWignerKernel G kernel L N reality (lower sampling) nside forward method =
      getWignerKernel G kernel L N reality sampling nside forward method := by
  unfold getWignerKernel wignerKernelFunction
  split
  · rfl
  · split_ifs <;> simp only [wignerKernel_lower, wignerKernelJax_lower]

theorem precomputeWignerInverseTop_lower {sampling : PyStr} (hm : mOffset (lower sampling) =
    mOffset sampling) (G : GlTables) (flmn : Nd ℂ) (L N : ℤ) (kernel : Option Nd4) (reality :
    Bool) (method : PyStr) (nside : Option ℤ) :
    precomputeWignerInverseTop G flmn L N kernel (lower sampling) reality method nside =
      precomputeWignerInverseTop G flmn L N kernel sampling reality method nside := by
  simp only [precomputeWignerInverseTop, getWignerKernel_lower, precomputeWignerInverse_lower hm]

theorem precomputeWignerForwardTop_lower {sampling : PyStr} (hf : lower sampling = sHP →
    sampling = sHP) (G : GlTables) (f : Nd ℂ) (L N : ℤ) (kernel : Option Nd4) (reality : Bool)
    (method : PyStr) (nside : Option ℤ) :
    precomputeWignerForwardTop G f L N kernel (lower sampling) reality method nside =
      precomputeWignerForwardTop G f L N kernel sampling reality method nside := by
  simp only [precomputeWignerForwardTop, getWignerKernel_lower, precomputeWignerForward_lower hf]

theorem fwSupported_lower (sampling : PyStr) :
    fwSupported (lower sampling) =
      fwSupported sampling := by
  simp only [fwSupported, lower_lower]

theorem fwOffset_lower (sampling : PyStr) :
    fwOffset (lower sampling) =
      fwOffset sampling := by
  simp only [fwOffset, lower_lower]

theorem fwNtheta_lower (L : ℤ) (sampling : PyStr) :
    fwNtheta L (lower sampling) =
      fwNtheta L sampling := by
  simp only [fwNtheta, lower_lower]

theorem fwSize_lower (L : ℤ) (sampling : PyStr) :
    fwSize L (lower sampling) =
      fwSize L sampling := by
  simp only [fwSize, lower_lower]

theorem fwTheta0_lower (L : ℤ) (sampling : PyStr) :
    fwTheta0 L (lower sampling) =
      fwTheta0 L sampling := by
  simp only [fwTheta0, lower_lower]

theorem fourierWignerInverse_lower (method : PyStr) (flmn : Nd ℂ) (L N : ℤ) (precomps : Option
    FwTables) (reality : Bool) (sampling : PyStr) :
    fourierWignerInverse method flmn L N precomps reality (lower sampling) =
      fourierWignerInverse method flmn L N precomps reality sampling := by
  simp only [fourierWignerInverse, lower_lower, fwSupported_lower, fwOffset_lower,
    fwNtheta_lower, fwSize_lower, fwTheta0_lower]

theorem fourierWignerForward_lower (method : PyStr) (f : Nd ℂ) (L N : ℤ) (precomps : Option
    FwTables) (reality : Bool) (sampling : PyStr) :
    fourierWignerForward method f L N precomps reality (lower sampling) =
      fourierWignerForward method f L N precomps reality sampling := by
  simp only [fourierWignerForward, lower_lower, fwSupported_lower, fwOffset_lower,
    fwNtheta_lower, fwSize_lower]

theorem wignerSubsetToS2_lower (method : PyStr) (flmn : Nd5 ℂ) (ns : ℤ) (spins : ℤ → ℤ) (DW :
    FwTables) (L : ℤ) (sampling : PyStr) :
    wignerSubsetToS2 method flmn ns spins DW L (lower sampling) =
      wignerSubsetToS2 method flmn ns spins DW L sampling := by
  simp only [wignerSubsetToS2, lower_lower, fwSupported_lower, fwOffset_lower, fwNtheta_lower,
    fwSize_lower, fwTheta0_lower]

theorem s2ToWignerSubset_lower (method : PyStr) (fs : Nd5 ℂ) (ns : ℤ) (spins : ℤ → ℤ) (DW :
    FwTables) (L : ℤ) (sampling : PyStr) :
    s2ToWignerSubset method fs ns spins DW L (lower sampling) =
      s2ToWignerSubset method fs ns spins DW L sampling := by
  simp only [s2ToWignerSubset, lower_lower, fwSupported_lower, fwOffset_lower, fwNtheta_lower,
    fwSize_lower]

theorem so3ToWignerSubset_lower (method : PyStr) (f : Nd5 ℂ) (ns : ℤ) (spins : ℤ → ℤ) (DW :
    FwTables) (L N : ℤ) (sampling : PyStr) :
    so3ToWignerSubset method f ns spins DW L N (lower sampling) =
      so3ToWignerSubset method f ns spins DW L N sampling := by
  simp only [so3ToWignerSubset, lower_lower, s2ToWignerSubset_lower]

theorem otfThetas_lower (G : Machine) (L : ℤ) (sampling : PyStr) (nside : Option ℤ) :
    otfThetas G L (lower sampling) nside =
      otfThetas G L sampling nside := by
  simp only [otfThetas, lower_lower, thetas_lower]

theorem otfKernelThetas_lower (G : Machine) (L : ℤ) (sampling : PyStr) (nside : Option ℤ)
    (forward : Bool) :
    otfKernelThetas G L (lower sampling) nside forward =
      otfKernelThetas G L sampling nside forward := by
  by_cases h : forward = true ∧ (lower sampling = sMW ∨ lower sampling = sMWSS)
  · simp only [otfKernelThetas, kernelThetas, lower_lower, if_pos h]
  · simp only [otfKernelThetas, kernelThetas, lower_lower, if_neg h, thetas_lower, bind_assoc,
      pure_bind]

theorem pmAngles_lower (G : Machine) (L : ℤ) (sampling : PyStr) (nside : Option ℤ) (forward :
    Bool) :
    pmAngles G L (lower sampling) nside forward =
      pmAngles G L sampling nside forward := by
  simp only [pmAngles, lower_lower, otfKernelThetas_lower]

theorem precomputesNumpy_lower (G : Machine) (L spin : ℤ) (sampling : PyStr) (nside : Option ℤ)
    (forward : Bool) :
    precomputesNumpy G L spin (lower sampling) nside forward =
      precomputesNumpy G L spin sampling nside forward := by
  simp only [precomputesNumpy, lower_lower, pmAngles_lower]

theorem precomputesJax_lower (G : Machine) (L spin : ℤ) (sampling : PyStr) (nside : Option ℤ)
    (forward : Bool) :
    precomputesJax G L spin (lower sampling) nside forward =
      precomputesJax G L spin sampling nside forward := by
  simp only [precomputesJax, lower_lower, pmAngles_lower]

theorem otfPrecomps_lower (G : Machine) (precomps : Option PmPre) (L spin : ℤ) (sampling :
    PyStr) (nside : Option ℤ) (forward : Bool) :
    otfPrecomps G precomps L spin (lower sampling) nside forward =
      otfPrecomps G precomps L spin sampling nside forward := by
  simp only [otfPrecomps, lower_lower, precomputesNumpy_lower]

theorem inverseLatitudinalStep_lower {sampling : PyStr} (hm : mOffset (lower sampling) = mOffset
    sampling) (G : Machine) (flm : ℤ → ℤ → ℂ) (β : ℤ → ℝ) (L spin : ℤ) (nside : Option ℤ)
    (reality : Bool) (precomps : Option PmPre) (lo : ℤ) :
    inverseLatitudinalStep G flm β L spin nside (lower sampling) reality precomps lo =
      inverseLatitudinalStep G flm β L spin nside sampling reality precomps lo := by
  simp only [inverseLatitudinalStep, lower_lower, ftm_shape_lower, hm, otfPrecomps_lower]

theorem forwardLatitudinalStep_lower {sampling : PyStr} (hm : mOffset (lower sampling) = mOffset
    sampling) (G : Machine) (ftm : ℤ → ℤ → ℂ) (β : ℤ → ℝ) (nt L spin width : ℤ) (nside : Option
    ℤ) (reality : Bool) (precomps : Option PmPre) (lo : ℤ) :
    forwardLatitudinalStep G ftm β nt L spin width nside (lower sampling) reality precomps lo =
      forwardLatitudinalStep G ftm β nt L spin width nside sampling reality precomps lo := by
  simp only [forwardLatitudinalStep, lower_lower, hm, otfPrecomps_lower]

theorem mOffsetLower_lower (sampling : PyStr) :
    mOffsetLower (lower sampling) =
      mOffsetLower sampling := by
  simp only [mOffsetLower, lower_lower]

theorem inverseLatitudinalStepJax_lower {sampling : PyStr} (hm : mOffset (lower sampling) =
    mOffset sampling) (flm : ℤ → ℤ → ℂ) (β : ℤ → ℝ) (nt L spin : ℤ) (reality : Bool) (precomps :
    Option PmPre) (lo : ℤ) :
    inverseLatitudinalStepJax flm β nt L spin (lower sampling) reality precomps lo =
      inverseLatitudinalStepJax flm β nt L spin sampling reality precomps lo := by
  simp only [inverseLatitudinalStepJax, lower_lower, hm, mOffsetLower_lower]

theorem forwardLatitudinalStepJax_lower {sampling : PyStr} (hm : mOffset (lower sampling) =
    mOffset sampling) (ftm : ℤ → ℤ → ℂ) (β : ℤ → ℝ) (nt L spin width : ℤ) (reality : Bool)
    (precomps : Option PmPre) (lo : ℤ) :
    forwardLatitudinalStepJax ftm β nt L spin width (lower sampling) reality precomps lo =
      forwardLatitudinalStepJax ftm β nt L spin width sampling reality precomps lo := by
  simp only [forwardLatitudinalStepJax, lower_lower, hm, mOffsetLower_lower]

theorem inversePolesNumpy_lower (ftm flm : ℤ → ℤ → ℂ) (L spin lo nt width : ℤ) (sampling : PyStr) :
    inversePolesNumpy ftm flm L spin lo nt width (lower sampling) =
      inversePolesNumpy ftm flm L spin lo nt width sampling := by
  simp only [inversePolesNumpy, lower_lower, mOffsetLower_lower]

theorem otfInverseNumpy_lower {sampling : PyStr} (hm : mOffset (lower sampling) = mOffset
    sampling) (G : Machine) (flm : Nd ℂ) (L spin : ℤ) (nside : Option ℤ) (reality : Bool)
    (precomps : Option PmPre) (lo : ℤ) :
    otfInverseNumpy G flm L spin nside (lower sampling) reality precomps lo =
      otfInverseNumpy G flm L spin nside sampling reality precomps lo := by
  simp only [otfInverseNumpy, lower_lower, ftm_shape_lower, inverseFftM_lower hm,
    packSignal_lower, otfThetas_lower, inverseLatitudinalStep_lower hm, mOffsetLower_lower,
    inversePolesNumpy_lower]

theorem otfSynthesisJax_lower (ftm : ℤ → ℤ → ℂ) (L : ℤ) (sampling : PyStr) (ncol nside : ℤ)
    (reality : Bool) :
    otfSynthesisJax ftm L (lower sampling) ncol nside reality =
      otfSynthesisJax ftm L sampling ncol nside reality := by
  simp only [otfSynthesisJax, lower_lower]

theorem otfInverseJax_lower {sampling : PyStr} (hm : mOffset (lower sampling) = mOffset
    sampling) (G : Machine) (flm : Nd ℂ) (L spin : ℤ) (nside : Option ℤ) (reality : Bool)
    (precomps : Option PmPre) (lo : ℤ) :
    otfInverseJax G flm L spin nside (lower sampling) reality precomps lo =
      otfInverseJax G flm L spin nside sampling reality precomps lo := by
  simp only [otfInverseJax, lower_lower, packSignal_lower, otfThetas_lower,
    mOffsetLower_lower, inverseLatitudinalStepJax_lower hm, otfSynthesisJax_lower]

theorem forwardPolesNumpy_lower {s : PyStr} (hm : mOffset (lower s) = mOffset s) (G : Machine)
    (ftm : ℤ → ℤ → ℂ) (θ : ℤ → ℝ) (nt L spin width : ℤ) (nside : Option ℤ) (reality : Bool)
    (precomps : Option PmPre) (lo : ℤ) :
    forwardPolesNumpy G ftm θ nt L spin width nside (lower s) reality precomps lo =
      forwardPolesNumpy G ftm θ nt L spin width nside s reality precomps lo := by
  simp only [forwardPolesNumpy, lower_lower, hm, forwardLatitudinalStep_lower hm]

theorem otfForwardNumpy_lower {sampling : PyStr} (hf : lower sampling = sHP → sampling = sHP) (G
    : Machine) (f : Nd ℂ) (L spin : ℤ) (nside : Option ℤ) (reality : Bool) (precomps : Option
    PmPre) (lo : ℤ) :
    otfForwardNumpy G f L spin nside (lower sampling) reality precomps lo =
      otfForwardNumpy G f L spin nside sampling reality precomps lo := by
  by_cases h : lower sampling = sMW ∨ lower sampling = sMWSS
  · simp only [otfForwardNumpy, otfFourier, precomputeResample, otfKernelThetas_lower, lower_lower,
      if_pos h]
  · have hmw : ¬ lower sampling = sMW := fun e => h (Or.inl e)
    have hm := mOffset_lower' hf h
    have hc : ¬ (lower sampling = sHP ∧ mOffset sampling ≠ 1) := fun e => e.2 (by
      rw [hf e.1]; decide)
    simp only [otfForwardNumpy, otfFourier, precomputeResample, otfKernelThetas_lower, lower_lower,
      if_neg h, if_neg hmw, pure_bind, bind_assoc, quad_weights_transform_lower, hm,
        if_neg hc, if_neg hc,
      forwardFftM_lower hm, forwardPolesNumpy_lower hm]

theorem otfForwardJax_lower {sampling : PyStr} (hf : lower sampling = sHP → sampling = sHP) (G :
    Machine) (f : Nd ℂ) (L spin : ℤ) (nside : Option ℤ) (reality : Bool) (precomps : Option
    PmPre) (lo : ℤ) :
    otfForwardJax G f L spin nside (lower sampling) reality precomps lo =
      otfForwardJax G f L spin nside sampling reality precomps lo := by
  by_cases h : lower sampling = sMW ∨ lower sampling = sMWSS
  · simp only [otfForwardJax, otfFourier, precomputeResample, otfKernelThetas_lower, lower_lower,
      if_pos h]
  · have hmw : ¬ lower sampling = sMW := fun e => h (Or.inl e)
    have hm := mOffset_lower' hf h
    have hc : ¬ (lower sampling = sHP ∧ mOffset sampling ≠ 1) := fun e => e.2 (by
      rw [hf e.1]; decide)
    simp only [otfForwardJax, otfFourier, precomputeResample, otfKernelThetas_lower, lower_lower,
      if_neg h, if_neg hmw, pure_bind, bind_assoc, quad_weights_transform_lower, hm,
        if_neg hc, if_neg hc,
      forwardFftM_lower hm, forwardLatitudinalStepJax_lower hm]

theorem sshtSampling_lower (sampling : PyStr) :
    sshtSampling (lower sampling) =
      sshtSampling sampling := by
  simp only [sshtSampling, lower_lower]

theorem sphericalInverse_lower {sampling : PyStr} (hm : mOffset (lower sampling) = mOffset
    sampling) {method : PyStr} (hc : method ≠ mJaxCuda) (B : Backends) (G : Machine) (flm : Nd
    ℂ) (L spin : ℤ) (nside : Option ℤ) (reality : Bool) (precomps : Option PmPre) (lo
    sshtBackend : ℤ) :
    sphericalInverse B G flm L spin nside (lower sampling) method reality precomps lo sshtBackend =
      sphericalInverse B G flm L spin nside sampling method reality precomps lo sshtBackend := by
  have e : ∀ flm L spin nside r p lo, otfInverse B G method flm L spin nside (lower sampling)
    r p lo =
      otfInverse B G method flm L spin nside sampling r p lo := fun flm L spin nside r p lo => by
    unfold otfInverse
    rw [if_neg hc]
    split_ifs <;> simp only [otfInverseNumpy_lower hm, otfInverseJax_lower hm]
  simp only [sphericalInverse, lower_lower, sshtSampling_lower, e]

theorem sphericalForward_lower {sampling : PyStr} (hf : lower sampling = sHP → sampling = sHP)
    {iter : Option ℤ} (hm : 0 < iter.getD 0 → mOffset (lower sampling) = mOffset sampling)
    {method : PyStr} (hc : method ≠ mJaxCuda) (B : Backends) (G : Machine) (f : Nd ℂ) (L spin :
    ℤ) (nside : Option ℤ) (reality : Bool) (precomps : Option PmPre) (lo : ℤ) (sshtBackend : ℤ)
    :
    sphericalForward B G f L spin nside (lower sampling) method reality precomps lo iter
      sshtBackend =
      sphericalForward B G f L spin nside sampling method reality precomps lo iter sshtBackend := by
  have e : 0 < iter.getD 0 → ∀ flm L spin nside r p lo, otfInverse B G method flm L spin nside
    (lower sampling) r p lo =
      otfInverse B G method flm L spin nside sampling r p lo := fun hi flm L spin nside r p lo => by
    unfold otfInverse
    rw [if_neg hc]
    split_ifs <;> simp only [otfInverseNumpy_lower (hm hi), otfInverseJax_lower (hm hi)]
  have e' : ∀ f L spin nside r p lo, otfForward B G method f L spin nside (lower sampling) r p lo =
      otfForward B G method f L spin nside sampling r p lo := fun f L spin nside r p lo => by
    unfold otfForward
    rw [if_neg hc]
    split_ifs <;> simp only [otfForwardNumpy_lower hf, otfForwardJax_lower hf]
  by_cases hh : method = mHealpy
  · subst hh
    simp only [sphericalForward, if_true, lower_lower]
  · by_cases hi : 0 < iter.getD 0
    · simp only [sphericalForward, lower_lower, sshtSampling_lower, e hi, e']
    · have hi' : ¬ iter.getD (if lower sampling = sHP ∧ method = mHealpy then 3 else 0) > 0 := by
        rw [if_neg (fun h => hh h.2)]
        exact hi
      simp only [sphericalForward, lower_lower, sshtSampling_lower, e', if_neg hi']

theorem wignerPrecompsNumpy_lower (G : Machine) (L N : ℤ) (sampling : PyStr) (nside : Option ℤ)
    (forward reality : Bool) :
    wignerPrecompsNumpy G L N (lower sampling) nside forward reality =
      wignerPrecompsNumpy G L N sampling nside forward reality := by
  simp only [wignerPrecompsNumpy, lower_lower, precomputesNumpy_lower]

theorem wignerPrecompsJax_lower (G : Machine) (L N : ℤ) (sampling : PyStr) (nside : Option ℤ)
    (forward reality : Bool) :
    wignerPrecompsJax G L N (lower sampling) nside forward reality =
      wignerPrecompsJax G L N sampling nside forward reality := by
  simp only [wignerPrecompsJax, lower_lower, precomputesJax_lower]

/-! ## On-the-fly inverse transforms with the reality flag

The offset read from the unnormalised name is only used for the negative orders. -/

theorem otfSynth_reality (P : PmPre) (flm : ℤ → ℤ → ℂ) (β : ℤ → ℝ) (L spin off off' width lo : ℤ) :
    otfSynth P flm β L spin off width true lo = otfSynth P flm β L spin off' width true lo := by
  unfold otfSynth
  rw [otfRows_eq, otfRows_eq, if_pos rfl, if_pos rfl]
  have e : ∀ m, otfCol width off 1 m = otfCol width off' 1 m := fun m => by simp [otfCol]
  unfold otfPass
  simp only [e]

theorem inverseFftM_lower' (method : PyStr) (ftm : ℤ → ℤ → ℂ) (L : ℤ) (s : PyStr) (ncol nside : ℤ)
    (reality : Bool) : inverseFftM method ftm L (lower (lower s)) ncol nside reality =
      inverseFftM method ftm L (lower s) ncol nside reality := by
  rw [lower_lower]

theorem otfInverseNumpy_reality_lower (G : Machine) (flm : Nd ℂ) (L spin : ℤ) (nside : Option ℤ)
    (s : PyStr) (precomps : Option PmPre) (lo : ℤ) :
    otfInverseNumpy G flm L spin nside (lower s) true precomps lo =
      otfInverseNumpy G flm L spin nside s true precomps lo := by
  have e : ∀ flm β, inverseLatitudinalStep G flm β L spin nside (lower s) true precomps lo =
      inverseLatitudinalStep G flm β L spin nside s true precomps lo := fun flm β => by
    simp only [inverseLatitudinalStep, ftm_shape_lower, otfPrecomps_lower,
      otfSynth_reality _ _ _ _ _ (mOffset (lower s)) 0, otfSynth_reality _ _ _ _ _ (mOffset s) 0]
  simp only [otfInverseNumpy, otfThetas_lower, mOffsetLower_lower, e, ftm_shape_lower,
    inversePolesNumpy_lower, lower_lower, packSignal_lower]

theorem otfInverseJax_reality_lower (G : Machine) (flm : Nd ℂ) (L spin : ℤ) (nside : Option ℤ)
    (s : PyStr) (precomps : Option PmPre) (lo : ℤ) :
    otfInverseJax G flm L spin nside (lower s) true precomps lo =
      otfInverseJax G flm L spin nside s true precomps lo := by
  have e : ∀ flm β nt, inverseLatitudinalStepJax flm β nt L spin (lower s) true precomps lo =
      inverseLatitudinalStepJax flm β nt L spin s true precomps lo := fun flm β nt => by
    simp only [inverseLatitudinalStepJax, mOffsetLower_lower, lower_lower,
      otfSynth_reality _ _ _ _ _ (mOffset (lower s)) 0, otfSynth_reality _ _ _ _ _ (mOffset s) 0]
  simp only [otfInverseJax, otfThetas_lower, mOffsetLower_lower, e, otfSynthesisJax_lower,
    lower_lower, packSignal_lower]

end S2fft
