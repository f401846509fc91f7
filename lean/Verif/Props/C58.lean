import Verif.Model.Primitives
import Verif.Props.C40
import Verif.Props.C47

/-!
# C58: what the primitives declare

While JAX traces a function it knows only the shape and the type that a primitive declares for its
result. Here: these are the shape and the type of what is computed, and the buffers of the GPU kernels
have the size the kernels work on.
-/

namespace S2fft
open Spec

section Healpy
variable {H : Healpy} (hH : HealpyContract H) {L nside : ℤ} (hL : 1 ≤ L) (hn : 1 ≤ nside)
  (x64 : Bool)

include hH hL hn

/-- `healpy_map2alm` of a real map: the declared shape is that of the result, and for maps in the
precision that JAX is set to so is the type. -/
theorem C58_map2alm (f : ℤ → ℂ) (hf : ∀ i, 0 ≤ i → i < 12 * nside ^ 2 → (f i).im = 0) (t : NpType) :
    ∃ c, healpyMap2almT H x64 ⟨.d1 (12 * nside ^ 2) f, t⟩ L = .ok c ∧
      (healpyMap2almAbstract ⟨[12 * nside ^ 2], t⟩ L nside).shape = c.aval.shape ∧
      (t = NpType.canonical x64 .float64 →
        healpyMap2almAbstract ⟨[12 * nside ^ 2], t⟩ L nside = c.aval) := by
  obtain ⟨c, e, -⟩ := hH.map2alm L nside f hL hn hf
  refine ⟨⟨.d1 (L * (L + 1) / 2) c, NpType.canonical x64 .complex128⟩, ?_, rfl, ?_⟩
  · unfold healpyMap2almT
    rw [e]
    rfl
  · rintro rfl
    cases x64 <;> rfl

/-- The same for `healpy_alm2map`. -/
theorem C58_alm2map (c : ℤ → ℂ) (t : NpType) (ht : t = NpType.canonical x64 .complex128) :
    ∃ f, healpyAlm2mapT H x64 ⟨.d1 (L * (L + 1) / 2) c, t⟩ L nside = .ok f ∧
      healpyAlm2mapAbstract ⟨[L * (L + 1) / 2], t⟩ L nside = .ok f.aval := by
  obtain ⟨f, e, -⟩ := hH.alm2map L nside c hL hn
  refine ⟨⟨.d1 (12 * nside ^ 2) f, NpType.canonical x64 .float64⟩, ?_, ?_⟩
  · unfold healpyAlm2mapT
    rw [e]
    rfl
  · subst ht
    cases x64 <;> rfl

/-- The reverse rules: the cotangent returned has the shape and the type of the argument, as JAX
asks. -/
theorem C58_transposes :
    (∀ dflm : ℤ → ℂ, ∃ f, healpyMap2almTransposeT H x64 ⟨.d1 (L * (L + 1) / 2) dflm,
        NpType.canonical x64 .complex128⟩ L nside = .ok f ∧
      f.aval = ⟨[12 * nside ^ 2], NpType.canonical x64 .float64⟩) ∧
    ∀ df : ℤ → ℂ, (∀ i, 0 ≤ i → i < 12 * nside ^ 2 → (df i).im = 0) →
      ∃ c, healpyAlm2mapTransposeT H x64 ⟨.d1 (12 * nside ^ 2) df,
        NpType.canonical x64 .float64⟩ L nside = .ok c ∧
      c.aval = ⟨[L * (L + 1) / 2], NpType.canonical x64 .complex128⟩ := by
  constructor
  · intro dflm
    obtain ⟨f, e, -⟩ := hH.alm2map L nside (fun i => (starRingEnd ℂ) (dflm i)
      / (healpyScale L nside i : ℂ)) hL hn
    refine ⟨⟨(Nd.d1 (12 * nside ^ 2) f).conj, _⟩, ?_, rfl⟩
    unfold healpyMap2almTransposeT healpyMap2almTranspose
    show (do pure (⟨← (do let f ← H.alm2map (.d1 (L * (L + 1) / 2) (fun i => (starRingEnd ℂ) (dflm i)
      / (healpyScale L nside i : ℂ))) L nside; pure f.conj), _⟩ : TArr)) = _
    rw [e]
    rfl
  · intro df hdf
    obtain ⟨c, e, -⟩ := hH.map2alm L nside (fun i => (starRingEnd ℂ) (df i)) hL hn
      (fun i a b => by rw [Complex.conj_im, hdf i a b, neg_zero])
    refine ⟨⟨.d1 (L * (L + 1) / 2) (fun i => (healpyScale L nside i : ℂ) * (starRingEnd ℂ) (c i)), _⟩,
      ?_, rfl⟩
    unfold healpyAlm2mapTransposeT healpyAlm2mapTranspose
    show (do pure (⟨← (do
      let c ← H.map2alm (.d1 (12 * nside ^ 2) (fun i => (starRingEnd ℂ) (df i))) L
      pure (match c.conj with
        | .d1 n a => Nd.d1 n (fun i => (healpyScale L nside i : ℂ) * a i)
        | c => c)), _⟩ : TArr)) = _
    rw [e]
    rfl

/-- In the other precision the declaration is wrong: in 64-bit mode a map in single precision is said
to have coefficients in single precision, but healpy's are in double precision, and so for the
inverse. -/
theorem C58_single_violated (f c : ℤ → ℂ) (hf : ∀ i, 0 ≤ i → i < 12 * nside ^ 2 → (f i).im = 0) :
    (∃ r, healpyMap2almT H true ⟨.d1 (12 * nside ^ 2) f, .float32⟩ L = .ok r ∧
      r.dtype = .complex128 ∧
      (healpyMap2almAbstract ⟨[12 * nside ^ 2], .float32⟩ L nside).dtype = .complex64) ∧
    ∃ r, healpyAlm2mapT H true ⟨.d1 (L * (L + 1) / 2) c, .complex64⟩ L nside = .ok r ∧
      r.dtype = .float64 ∧
      healpyAlm2mapAbstract ⟨[L * (L + 1) / 2], .complex64⟩ L nside
        = .ok ⟨[12 * nside ^ 2], .float32⟩ := by
  obtain ⟨u, e, -⟩ := hH.map2alm L nside f hL hn hf
  obtain ⟨v, e', -⟩ := hH.alm2map L nside c hL hn
  refine ⟨⟨⟨.d1 (L * (L + 1) / 2) u, .complex128⟩, ?_, rfl, rfl⟩,
    ⟨⟨.d1 (12 * nside ^ 2) v, .float64⟩, ?_, rfl, rfl⟩⟩
  · unfold healpyMap2almT
    rw [e]
    rfl
  · unfold healpyAlm2mapT
    rw [e']
    rfl

end Healpy

section Gpu
open Cuda

/-- The number of elements of an array. -/
def elements (a : Aval) : ℤ := a.shape.prod

/-- The CUDA primitive: a call is refused while it is traced unless the array has the shape the
kernels read, and otherwise the declared array has as many elements as the kernels write, and the
kernels are told the precision of its elements. -/
theorem C58_cuda (forward : Bool) (f : Aval) (L nside : ℤ) (reality : Bool) :
    (f.shape ≠ (if forward then [12 * nside ^ 2] else [4 * nside - 1, 2 * L]) →
      cudaTrace forward f L nside reality none = .error .assertionError) ∧
    (f.shape = (if forward then [12 * nside ^ 2] else [4 * nside - 1, 2 * L]) →
      ∃ out d, cudaTrace forward f L nside reality none = .ok (out, d) ∧
        out.shape = (if forward then [4 * nside - 1, 2 * L] else [12 * nside ^ 2]) ∧
        (out.dtype = .complex64 ∧ d.double_precision = false ∨
          out.dtype = .complex128 ∧ d.double_precision = true) ∧
        (f.dtype = .complex64 ∨ f.dtype = .complex128 → out.dtype = f.dtype) ∧
        d.nside = nside ∧ d.harmonic_band_limit = L ∧ d.forward = forward ∧ d.reality = reality) := by
  have hc : nside ^ 2 * 12 = 12 * nside ^ 2 := by ring
  constructor
  · intro h
    cases forward
    · simp only [Bool.false_eq_true, if_false] at h
      simp [cudaTrace, cudaAbstract, h, bind, Except.bind]
    · simp only [if_true] at h
      simp [cudaTrace, cudaAbstract, hc, h, bind, Except.bind]
  · intro h
    obtain ⟨sh, t⟩ := f
    cases forward
    · simp only [Bool.false_eq_true, if_false] at h
      subst h
      cases t <;>
      simp [cudaTrace, cudaAbstract, hc, bind, Except.bind, cudaLowering, promoteComplex, lowerNorm,
        mkDescriptor, pure, Except.pure]
    · simp only [if_true] at h
      subst h
      cases t <;>
      simp [cudaTrace, cudaAbstract, hc, bind, Except.bind, cudaLowering, promoteComplex, lowerNorm,
        mkDescriptor, pure, Except.pure]

/-- So an accepted call accesses only its buffers, whatever the interleaving of the threads: the
kernels neither read outside the argument nor write outside the result, if the band-limit is at least
twice `nside` and the buffers are of a size `int` can count. -/
theorem C58_cuda_buffers (f : Aval) (L nside : ℤ) (reality : Bool) (hn : 1 ≤ nside)
    (hL : 2 * nside ≤ L) (hB : 2 * L * (4 * nside - 1) + 128 < 2 ^ 31) (data out : ℤ → ℂ)
    (regs : ℤ → Regs) :
    (∀ r, cudaTrace true f L nside reality none = .ok r → elements f = 12 * nside * nside ∧
      ∃ g, launchExtension data r.2.nside r.2.harmonic_band_limit out regs = some g ∧
        ∀ i, ∀ x ∈ g.todo i, 0 ≤ x.addr.1 ∧ x.addr.1 < elements r.1) ∧
    ∀ r, cudaTrace false f L nside reality none = .ok r → elements f = (4 * nside - 1) * (2 * L) ∧
      ∃ g, launchFolding data r.2.nside r.2.harmonic_band_limit true out regs = some g ∧
        ∀ i, ∀ x ∈ g.todo i, 0 ≤ x.addr.1 ∧ x.addr.1 < elements r.1 := by
  constructor
  · intro r hr
    by_cases hs : f.shape = [12 * nside ^ 2]
    · obtain ⟨o, d, e, h1, -, -, h2, h3, -⟩ := (C58_cuda true f L nside reality).2 (by simpa using hs)
      obtain rfl : (o, d) = r := by
        have := e.symm.trans hr
        injection this
      obtain ⟨g, hg, -, ha, -⟩ := C47_extension nside L hn hL hB data out regs
      refine ⟨by unfold elements; rw [hs]; simp; ring, g, ?_, fun i x hx => ?_⟩
      · dsimp only
        rw [h2, h3, hg]
      · unfold elements
        dsimp only
        rw [h1]
        simpa using ha i x hx
    · rw [(C58_cuda true f L nside reality).1 (by simpa using hs)] at hr
      exact absurd hr (by rintro ⟨⟩)
  · intro r hr
    by_cases hs : f.shape = [4 * nside - 1, 2 * L]
    · obtain ⟨o, d, e, h1, -, -, h2, h3, -⟩ := (C58_cuda false f L nside reality).2 (by simpa using hs)
      obtain rfl : (o, d) = r := by
        have := e.symm.trans hr
        injection this
      obtain ⟨g, hg, -, ha, -⟩ := C47_folding nside L hn hL hB data out regs
      refine ⟨by unfold elements; rw [hs]; simp, g, ?_, fun i x hx => ?_⟩
      · dsimp only
        rw [h2, h3, hg]
      · unfold elements
        dsimp only
        rw [h1]
        simpa using ha i x hx
    · rw [(C58_cuda false f L nside reality).1 (by simpa using hs)] at hr
      exact absurd hr (by rintro ⟨⟩)

/-- The bound on the band-limit matters, and the code does not check it: for `L = nside = 1` the call
is accepted and a thread reads in front of its buffer. -/
theorem C58_cuda_short_violated (t : NpType) (reality : Bool) (data out : ℤ → ℂ) (regs : ℤ → Regs) :
    (∃ r, cudaTrace false ⟨[3, 2], t⟩ 1 1 reality none = .ok r) ∧
      launchFolding data 1 1 true out regs = none := by
  refine ⟨?_, ?_⟩
  · obtain ⟨o, d, e, -⟩ := (C58_cuda false ⟨[3, 2], t⟩ 1 1 reality).2 rfl
    exact ⟨_, e⟩
  · have : foldingProg data 1 1 true 0 = none := rfl
    unfold launchFolding
    exact bind_none fun h1 => bind_none fun h2 => launch_none _ (by omega) this out regs

/-- The argument `norm` of `healpix_fft_cuda` and `healpix_ifft_cuda` cannot be given, not even as its
default. -/
theorem C58_cuda_norm_violated (forward : Bool) (f : Aval) (L nside : ℤ) (reality : Bool)
    (norm : PyStr) : cudaTrace forward f L nside reality (some norm) = .error .typeError := rfl

/-- The buffers of `nside = 64`, `L = 128`. -/
example (data out : ℤ → ℂ) (regs : ℤ → Regs) :
    ∃ r, cudaTrace true ⟨[49152], .float32⟩ 128 64 false none = .ok r ∧
      r.1 = ⟨[255, 256], .complex64⟩ ∧
      ∃ g, launchExtension data r.2.nside r.2.harmonic_band_limit out regs = some g := by
  refine ⟨_, rfl, rfl, ?_⟩
  obtain ⟨-, g, hg, -⟩ := (C58_cuda_buffers ⟨[49152], .float32⟩ 128 64 false (by norm_num) (by norm_num)
    (by norm_num) data out regs).1 _ rfl
  exact ⟨g, hg⟩

end Gpu

/-- A library as supposed, in 64-bit mode. -/
example (f : ℤ → ℝ) : ∃ H : Healpy, ∃ c,
    healpyMap2almT H true ⟨.d1 768 fun i => f i, .float64⟩ 16 = .ok c ∧
      healpyMap2almAbstract ⟨[768], .float64⟩ 16 8 = c.aval := by
  obtain ⟨H, hH⟩ := healpyContract_met
  obtain ⟨c, e, -, h⟩ := C58_map2alm hH (L := 16) (nside := 8) (by norm_num) (by norm_num) true
    (fun i => f i) (fun _ _ _ => Complex.ofReal_im _) .float64
  exact ⟨H, c, e, h rfl⟩

end S2fft
