import Verif.Lemmas.LetterCase

/-!
# C37: letter case of scheme names

`SameLetters s t`: the two names have the same letters up to case. A name is accepted in lower case
if the function succeeds on `lower s`; the theorems below have no such hypothesis and also say that
refused names are refused alike.
-/

namespace S2fft
open Spec

/-- The same letters, each in either case. -/
def SameLetters (s t : PyStr) : Prop := List.Forall₂ (fun a b => Char.toLower a = Char.toLower b) s t

theorem SameLetters.lower_eq {s t : PyStr} (h : SameLetters s t) : lower s = lower t := by
  induction h with
  | nil => rfl
  | cons h _ ih => exact congrArg₂ List.cons h ih

/-- From invariance under `lower` to two spellings. -/
theorem SameLetters.of_lower {α : Sort*} {s t : PyStr} (h : SameLetters s t) {f : PyStr → α}
    (hs : f (lower s) = f s) (ht : f (lower t) = f t) : f s = f t := by
  rw [← hs, ← ht, h.lower_eq]

example : SameLetters "MwSs".toList sMWSS := by
  unfold SameLetters sMWSS
  repeat' constructor

section
variable {s t : PyStr} (h : SameLetters s t)
include h

/-- Sizes, shapes and angles of the samples. -/
theorem C37_samples (L : Option ℤ) (L' N p k : ℤ) (nside : Option ℤ) (gl : ℤ → ℤ → ℝ) :
    ntheta L s nside = ntheta L t nside ∧
    ntheta_extension L' s = ntheta_extension L' t ∧
    nphi_equiang L' s = nphi_equiang L' t ∧
    ftm_shape L' s nside = ftm_shape L' t nside ∧
    t2theta k L s nside = t2theta k L t nside ∧
    thetas gl L s nside = thetas gl L t nside ∧
    p2phi_equiang L' p s = p2phi_equiang L' p t ∧
    phis_equiang L' s = phis_equiang L' t ∧
    f_shape L s nside = f_shape L t nside ∧
    nalpha L' s = nalpha L' t ∧ nbeta L' s = nbeta L' t ∧
    fnab_shape L' N s nside = fnab_shape L' N t nside :=
  ⟨h.of_lower (f := fun s => ntheta L s nside) (ntheta_lower ..) (ntheta_lower ..),
    h.of_lower (f := ntheta_extension L') (ntheta_extension_lower ..) (ntheta_extension_lower ..),
    h.of_lower (f := nphi_equiang L') (nphi_equiang_lower ..) (nphi_equiang_lower ..),
    h.of_lower (f := fun s => ftm_shape L' s nside) (ftm_shape_lower ..) (ftm_shape_lower ..),
    h.of_lower (f := fun s => t2theta k L s nside) (t2theta_lower ..) (t2theta_lower ..),
    h.of_lower (f := fun s => thetas gl L s nside) (thetas_lower ..) (thetas_lower ..),
    h.of_lower (f := p2phi_equiang L' p) (p2phi_equiang_lower ..) (p2phi_equiang_lower ..),
    h.of_lower (f := phis_equiang L') (phis_equiang_lower ..) (phis_equiang_lower ..),
    h.of_lower (f := fun s => f_shape L s nside) (f_shape_lower ..) (f_shape_lower ..),
    h.of_lower (f := nalpha L') (nalpha_lower ..) (nalpha_lower ..),
    h.of_lower (f := nbeta L') (nbeta_lower ..) (nbeta_lower ..),
    h.of_lower (f := fun s => fnab_shape L' N s nside) (fnab_shape_lower ..) (fnab_shape_lower ..)⟩

/-- Quadrature weights. -/
theorem C37_weights (gl : ℤ → ℤ → ℝ) (L : Option ℤ) (L' spin nside : ℤ) (nside' : Option ℤ) :
    quad_weights gl L s spin nside' = quad_weights gl L t spin nside' ∧
    quad_weights_transform gl L' s nside = quad_weights_transform gl L' t nside :=
  ⟨h.of_lower (f := fun s => quad_weights gl L s spin nside') (quad_weights_lower ..)
      (quad_weights_lower ..),
    h.of_lower (f := fun s => quad_weights_transform gl L' s nside)
      (quad_weights_transform_lower ..) (quad_weights_transform_lower ..)⟩

/-- Removal of the periodic extension. -/
theorem C37_unextend (rows L : ℤ) (f : ℤ → ℤ → ℤ → ℂ) :
    unextend rows f L s = unextend rows f L t ∧ unextend_jax f L s = unextend_jax f L t :=
  ⟨h.of_lower (f := unextend rows f L) (unextend_lower ..) (unextend_lower ..),
    h.of_lower (f := unextend_jax f L) (unextend_jax_lower ..) (unextend_jax_lower ..)⟩

/-- Kernels of the precompute transforms and coefficients of the on-the-fly ones. -/
theorem C37_kernels (G : Machine) (L N spin : ℤ) (reality forward : Bool) (nside : Option ℤ)
    (rec mode : PyStr) :
    spinSphericalKernel G.toGlTables L spin reality s nside forward rec
      = spinSphericalKernel G.toGlTables L spin reality t nside forward rec ∧
    spinSphericalKernelJax G.toGlTables L spin reality s nside forward rec
      = spinSphericalKernelJax G.toGlTables L spin reality t nside forward rec ∧
    wignerKernel G.toGlTables L N reality s nside forward mode
      = wignerKernel G.toGlTables L N reality t nside forward mode ∧
    wignerKernelJax G.toGlTables L N reality s nside forward mode
      = wignerKernelJax G.toGlTables L N reality t nside forward mode ∧
    precomputesNumpy G L spin s nside forward = precomputesNumpy G L spin t nside forward ∧
    precomputesJax G L spin s nside forward = precomputesJax G L spin t nside forward ∧
    wignerPrecompsNumpy G L N s nside forward reality
      = wignerPrecompsNumpy G L N t nside forward reality ∧
    wignerPrecompsJax G L N s nside forward reality
      = wignerPrecompsJax G L N t nside forward reality :=
  ⟨h.of_lower (f := fun s => spinSphericalKernel G.toGlTables L spin reality s nside forward rec)
      (spinSphericalKernel_lower ..) (spinSphericalKernel_lower ..),
    h.of_lower (f := fun s => spinSphericalKernelJax G.toGlTables L spin reality s nside forward rec)
      (spinSphericalKernelJax_lower ..) (spinSphericalKernelJax_lower ..),
    h.of_lower (f := fun s => wignerKernel G.toGlTables L N reality s nside forward mode)
      (wignerKernel_lower ..) (wignerKernel_lower ..),
    h.of_lower (f := fun s => wignerKernelJax G.toGlTables L N reality s nside forward mode)
      (wignerKernelJax_lower ..) (wignerKernelJax_lower ..),
    h.of_lower (f := fun s => precomputesNumpy G L spin s nside forward)
      (precomputesNumpy_lower ..) (precomputesNumpy_lower ..),
    h.of_lower (f := fun s => precomputesJax G L spin s nside forward)
      (precomputesJax_lower ..) (precomputesJax_lower ..),
    h.of_lower (f := fun s => wignerPrecompsNumpy G L N s nside forward reality)
      (wignerPrecompsNumpy_lower ..) (wignerPrecompsNumpy_lower ..),
    h.of_lower (f := fun s => wignerPrecompsJax G L N s nside forward reality)
      (wignerPrecompsJax_lower ..) (wignerPrecompsJax_lower ..)⟩

/-- The Fourier–Wigner transforms and their variants for some directions only. -/
theorem C37_fourier_wigner (method : PyStr) (x : Nd ℂ) (L N : ℤ) (pre : Option FwTables)
    (reality : Bool) (y : Nd5 ℂ) (ns : ℤ) (spins : ℤ → ℤ) (DW : FwTables) :
    fourierWignerInverse method x L N pre reality s = fourierWignerInverse method x L N pre reality t ∧
    fourierWignerForward method x L N pre reality s = fourierWignerForward method x L N pre reality t ∧
    wignerSubsetToS2 method y ns spins DW L s = wignerSubsetToS2 method y ns spins DW L t ∧
    s2ToWignerSubset method y ns spins DW L s = s2ToWignerSubset method y ns spins DW L t ∧
    so3ToWignerSubset method y ns spins DW L N s = so3ToWignerSubset method y ns spins DW L N t :=
  ⟨h.of_lower (f := fourierWignerInverse method x L N pre reality)
      (fourierWignerInverse_lower ..) (fourierWignerInverse_lower ..),
    h.of_lower (f := fourierWignerForward method x L N pre reality)
      (fourierWignerForward_lower ..) (fourierWignerForward_lower ..),
    h.of_lower (f := wignerSubsetToS2 method y ns spins DW L)
      (wignerSubsetToS2_lower ..) (wignerSubsetToS2_lower ..),
    h.of_lower (f := s2ToWignerSubset method y ns spins DW L)
      (s2ToWignerSubset_lower ..) (s2ToWignerSubset_lower ..),
    h.of_lower (f := so3ToWignerSubset method y ns spins DW L N)
      (so3ToWignerSubset_lower ..) (so3ToWignerSubset_lower ..)⟩

/-- The base transforms that sum over the samples, rather than use Fourier transforms. -/
theorem C37_base_sums (G : GlTables) (x : Nd ℂ) (L spin lo : ℤ) (nside : Option ℤ) (reality : Bool)
    {method : PyStr} (hm : method = bDirect ∨ method = bSov) :
    baseInverseWith G x L spin s method nside reality lo
      = baseInverseWith G x L spin t method nside reality lo ∧
    baseForwardWith G x L spin s method nside reality lo
      = baseForwardWith G x L spin t method nside reality lo := by
  have key : ∀ s, baseInverseWith G x L spin (lower s) method nside reality lo
      = baseInverseWith G x L spin s method nside reality lo ∧
      baseForwardWith G x L spin (lower s) method nside reality lo
        = baseForwardWith G x L spin s method nside reality lo := by
    intro s
    have n : ¬ bSov = bDirect := by decide
    constructor
    · rcases hm with rfl | rfl
      · simp only [baseInverseWith, inverseMethod, if_true, thetas_lower, packSignal_lower,
          Except.bind, bind, inverseDirect_lower]
      · simp only [baseInverseWith, inverseMethod, if_neg n, if_true, thetas_lower, packSignal_lower,
          Except.bind, bind, inverseSov_lower]
    · by_cases h : lower s = sMW ∨ lower s = sMWSS
      · simp only [baseForwardWith, forwardPrepare, lower_lower, f_shape_lower, if_pos h]
      · have hmw : ¬ lower s = sMW := fun e => h (Or.inl e)
        rcases hm with rfl | rfl
        · simp only [baseForwardWith, forwardPrepare, lower_lower, f_shape_lower, if_neg h,
            if_neg hmw, thetas_lower, bind_assoc, pure_bind, quad_weights_transform_lower]
          simp only [forwardMethod, if_true, Except.bind, bind, forwardDirect_lower]
        · simp only [baseForwardWith, forwardPrepare, lower_lower, f_shape_lower, if_neg h,
            if_neg hmw, thetas_lower, bind_assoc, pure_bind, quad_weights_transform_lower]
          simp only [forwardMethod, if_neg n, if_true, Except.bind, bind, forwardSov_lower]
  exact ⟨h.of_lower (f := fun s => baseInverseWith G x L spin s method nside reality lo)
      (key _).1 (key _).1,
    h.of_lower (f := fun s => baseForwardWith G x L spin s method nside reality lo)
      (key _).2 (key _).2⟩

/-- The on-the-fly inverse transforms of real signals. -/
theorem C37_on_the_fly_real (G : Machine) (flm : Nd ℂ) (L spin : ℤ) (nside : Option ℤ)
    (precomps : Option PmPre) (lo : ℤ) :
    otfInverseNumpy G flm L spin nside s true precomps lo
      = otfInverseNumpy G flm L spin nside t true precomps lo ∧
    otfInverseJax G flm L spin nside s true precomps lo
      = otfInverseJax G flm L spin nside t true precomps lo :=
  ⟨h.of_lower (f := fun s => otfInverseNumpy G flm L spin nside s true precomps lo)
      (otfInverseNumpy_reality_lower ..) (otfInverseNumpy_reality_lower ..),
    h.of_lower (f := fun s => otfInverseJax G flm L spin nside s true precomps lo)
      (otfInverseJax_reality_lower ..) (otfInverseJax_reality_lower ..)⟩

end

/-! ## Transforms that only read some spellings properly

The theorems below are partial: they leave out the spellings of "healpix" (and "mwss", for inverse
transforms) that are not in lower case. The claim fails for those, as shown at the end. -/

/-- A spelling that the inverse transforms read properly: that of any name but "mwss" and "healpix",
which have to be in lower case. -/
def InverseName (s : PyStr) : Prop :=
  (lower s = sMWSS → s = sMWSS) ∧ (lower s = sHP → s = sHP)

/-- The same for the forward transforms: "healpix" has to be in lower case. -/
def ForwardName (s : PyStr) : Prop := lower s = sHP → s = sHP

/-- All spellings of the other names will do. -/
theorem inverseName_of {s : PyStr} (h : lower s = sMW ∨ lower s = sDH ∨ lower s = sGL) :
    InverseName s := by
  constructor <;> intro e <;> rw [e] at h <;> exact absurd h (by decide)

example : InverseName "Mw".toList ∧ InverseName "GL".toList ∧ ForwardName "MWSS".toList ∧
    ¬ InverseName "MWSS".toList ∧ ¬ ForwardName "HEALPix".toList := by
  refine ⟨inverseName_of (by decide), inverseName_of (by decide), fun e => absurd e (by decide),
    fun e => absurd (e.1 (by decide)) (by decide), fun e => absurd (e (by decide)) (by decide)⟩

theorem InverseName.offset {s : PyStr} (h : InverseName s) : mOffset (lower s) = mOffset s :=
  mOffset_lower h.1 h.2

section
variable {s t : PyStr} (h : SameLetters s t) (hs : InverseName s) (ht : InverseName t)
include h hs ht

/-- Inverse transforms of every family, on the sphere, and the periodic extension. -/
theorem C37_inverse_partial (B : Backends) (G : Machine) (x : Nd ℂ) (y : Nd ℂ) (L spin : ℤ)
    (nside : Option ℤ) (method : PyStr) (reality : Bool) (precomps : Option PmPre) (lo backend : ℤ)
    (kernel : Option (Nd ℂ)) :
    baseInverseWith G.toGlTables x L spin s method nside reality lo
      = baseInverseWith G.toGlTables x L spin t method nside reality lo ∧
    baseInverse G.toGlTables x L spin s nside reality lo
      = baseInverse G.toGlTables x L spin t nside reality lo ∧
    precomputeInverse x y L s reality spin nside method
      = precomputeInverse x y L t reality spin nside method ∧
    precomputeInverseTop G.toGlTables x L spin kernel s reality method nside
      = precomputeInverseTop G.toGlTables x L spin kernel t reality method nside ∧
    otfInverseNumpy G x L spin nside s reality precomps lo
      = otfInverseNumpy G x L spin nside t reality precomps lo ∧
    otfInverseJax G x L spin nside s reality precomps lo
      = otfInverseJax G x L spin nside t reality precomps lo ∧
    (method ≠ mJaxCuda → sphericalInverse B G x L spin nside s method reality precomps lo backend
      = sphericalInverse B G x L spin nside t method reality precomps lo backend) :=
  ⟨h.of_lower (f := fun s => baseInverseWith G.toGlTables x L spin s method nside reality lo)
      (baseInverseWith_lower hs.offset ..) (baseInverseWith_lower ht.offset ..),
    h.of_lower (f := fun s => baseInverse G.toGlTables x L spin s nside reality lo)
      (baseInverse_lower hs.offset ..) (baseInverse_lower ht.offset ..),
    h.of_lower (f := fun s => precomputeInverse x y L s reality spin nside method)
      (precomputeInverse_lower hs.offset ..) (precomputeInverse_lower ht.offset ..),
    h.of_lower (f := fun s => precomputeInverseTop G.toGlTables x L spin kernel s reality method nside)
      (precomputeInverseTop_lower hs.offset ..) (precomputeInverseTop_lower ht.offset ..),
    h.of_lower (f := fun s => otfInverseNumpy G x L spin nside s reality precomps lo)
      (otfInverseNumpy_lower hs.offset ..) (otfInverseNumpy_lower ht.offset ..),
    h.of_lower (f := fun s => otfInverseJax G x L spin nside s reality precomps lo)
      (otfInverseJax_lower hs.offset ..) (otfInverseJax_lower ht.offset ..),
    fun hc => h.of_lower
      (f := fun s => sphericalInverse B G x L spin nside s method reality precomps lo backend)
      (sphericalInverse_lower hs.offset hc ..) (sphericalInverse_lower ht.offset hc ..)⟩

/-- The precomputed Wigner inverse. -/
theorem C37_wigner_inverse_partial (G : GlTables) (x : Nd ℂ) (K : Nd4) (L N : ℤ)
    (nside : Option ℤ) (method : PyStr) (reality : Bool) (kernel : Option Nd4) :
    precomputeWignerInverse x K L N s reality nside method
      = precomputeWignerInverse x K L N t reality nside method ∧
    precomputeWignerInverseTop G x L N kernel s reality method nside
      = precomputeWignerInverseTop G x L N kernel t reality method nside :=
  ⟨h.of_lower (f := fun s => precomputeWignerInverse x K L N s reality nside method)
      (precomputeWignerInverse_lower hs.offset ..) (precomputeWignerInverse_lower ht.offset ..),
    h.of_lower (f := fun s => precomputeWignerInverseTop G x L N kernel s reality method nside)
      (precomputeWignerInverseTop_lower hs.offset ..)
      (precomputeWignerInverseTop_lower ht.offset ..)⟩

/-- Forward transforms with iterative refinement, which run the inverse. -/
theorem C37_refined_forward_partial (B : Backends) (G : Machine) (x : Nd ℂ) (L spin : ℤ)
    (nside : Option ℤ) (method : PyStr) (reality : Bool) (precomps : Option PmPre)
    (lo iter backend : ℤ) (iter' : Option ℤ) (kernel : Option (Nd ℂ)) :
    baseForward G.toGlTables x L spin s nside reality lo iter
      = baseForward G.toGlTables x L spin t nside reality lo iter ∧
    precomputeForwardTop G.toGlTables x L spin kernel s reality method nside iter
      = precomputeForwardTop G.toGlTables x L spin kernel t reality method nside iter ∧
    (method ≠ mJaxCuda →
      sphericalForward B G x L spin nside s method reality precomps lo iter' backend
        = sphericalForward B G x L spin nside t method reality precomps lo iter' backend) :=
  ⟨h.of_lower (f := fun s => baseForward G.toGlTables x L spin s nside reality lo iter)
      (baseForward_lower hs.2 (fun _ => hs.offset) ..)
      (baseForward_lower ht.2 (fun _ => ht.offset) ..),
    h.of_lower
      (f := fun s => precomputeForwardTop G.toGlTables x L spin kernel s reality method nside iter)
      (precomputeForwardTop_lower hs.2 (fun _ => hs.offset) ..)
      (precomputeForwardTop_lower ht.2 (fun _ => ht.offset) ..),
    fun hc => h.of_lower
      (f := fun s => sphericalForward B G x L spin nside s method reality precomps lo iter' backend)
      (sphericalForward_lower hs.2 (fun _ => hs.offset) hc ..)
      (sphericalForward_lower ht.2 (fun _ => ht.offset) hc ..)⟩

omit hs ht in
/-- The periodic extension; only "mwss" has to be in lower case. -/
theorem C37_extension_partial (hs : lower s = sMWSS → s = sMWSS) (ht : lower t = sMWSS → t = sMWSS)
    (f : ℤ → ℤ → ℤ → ℂ) (L : ℤ) (spin : ℤ → ℤ) :
    periodic_extension f L spin s = periodic_extension f L spin t ∧
    periodic_extension_jax f L spin s = periodic_extension_jax f L spin t :=
  ⟨h.of_lower (f := fun s => periodic_extension f L spin s)
      (periodic_extension_lower hs ..) (periodic_extension_lower ht ..),
    h.of_lower (f := fun s => periodic_extension_jax f L spin s)
      (periodic_extension_jax_lower hs ..) (periodic_extension_jax_lower ht ..)⟩

end

section
variable {s t : PyStr} (h : SameLetters s t) (hs : ForwardName s) (ht : ForwardName t)
include h hs ht

/-- Forward transforms of every family, without refinement. -/
theorem C37_forward_partial (B : Backends) (G : Machine) (x y : Nd ℂ) (K : Nd4) (L N spin : ℤ)
    (nside : Option ℤ) (method : PyStr) (reality : Bool) (precomps : Option PmPre) (lo backend : ℤ)
    (kernel : Option (Nd ℂ)) (kernel' : Option Nd4) :
    baseForwardWith G.toGlTables x L spin s method nside reality lo
      = baseForwardWith G.toGlTables x L spin t method nside reality lo ∧
    baseForward G.toGlTables x L spin s nside reality lo 0
      = baseForward G.toGlTables x L spin t nside reality lo 0 ∧
    precomputeForward x y L s reality spin nside method
      = precomputeForward x y L t reality spin nside method ∧
    precomputeForwardTop G.toGlTables x L spin kernel s reality method nside 0
      = precomputeForwardTop G.toGlTables x L spin kernel t reality method nside 0 ∧
    otfForwardNumpy G x L spin nside s reality precomps lo
      = otfForwardNumpy G x L spin nside t reality precomps lo ∧
    otfForwardJax G x L spin nside s reality precomps lo
      = otfForwardJax G x L spin nside t reality precomps lo ∧
    (method ≠ mJaxCuda →
      sphericalForward B G x L spin nside s method reality precomps lo none backend
        = sphericalForward B G x L spin nside t method reality precomps lo none backend) ∧
    precomputeWignerForward x K L N s reality nside method
      = precomputeWignerForward x K L N t reality nside method ∧
    precomputeWignerForwardTop G.toGlTables x L N kernel' s reality method nside
      = precomputeWignerForwardTop G.toGlTables x L N kernel' t reality method nside :=
  ⟨h.of_lower (f := fun s => baseForwardWith G.toGlTables x L spin s method nside reality lo)
      (baseForwardWith_lower hs ..) (baseForwardWith_lower ht ..),
    h.of_lower (f := fun s => baseForward G.toGlTables x L spin s nside reality lo 0)
      (baseForward_lower hs (fun e => absurd rfl e) ..)
      (baseForward_lower ht (fun e => absurd rfl e) ..),
    h.of_lower (f := fun s => precomputeForward x y L s reality spin nside method)
      (precomputeForward_lower hs ..) (precomputeForward_lower ht ..),
    h.of_lower
      (f := fun s => precomputeForwardTop G.toGlTables x L spin kernel s reality method nside 0)
      (precomputeForwardTop_lower hs (fun e => absurd rfl e) ..)
      (precomputeForwardTop_lower ht (fun e => absurd rfl e) ..),
    h.of_lower (f := fun s => otfForwardNumpy G x L spin nside s reality precomps lo)
      (otfForwardNumpy_lower hs ..) (otfForwardNumpy_lower ht ..),
    h.of_lower (f := fun s => otfForwardJax G x L spin nside s reality precomps lo)
      (otfForwardJax_lower hs ..) (otfForwardJax_lower ht ..),
    fun hc => h.of_lower
      (f := fun s => sphericalForward B G x L spin nside s method reality precomps lo none backend)
      (sphericalForward_lower hs (fun e => absurd e (by decide)) hc ..)
      (sphericalForward_lower ht (fun e => absurd e (by decide)) hc ..),
    h.of_lower (f := fun s => precomputeWignerForward x K L N s reality nside method)
      (precomputeWignerForward_lower hs ..) (precomputeWignerForward_lower ht ..),
    h.of_lower (f := fun s => precomputeWignerForwardTop G.toGlTables x L N kernel' s reality method nside)
      (precomputeWignerForwardTop_lower hs ..) (precomputeWignerForwardTop_lower ht ..)⟩

end

end S2fft
