# Formal model of s2fft

Source: `/repo` (Python / C++ / CUDA), read as text. Lean project: `/verif/lean`.

## Semantics of the model

* Python `int` is `ℤ`. Python `float`/`complex128` is `ℝ`/`ℂ` (exact arithmetic; rounding,
  overflow and NaN propagation are outside the model unless a theorem says otherwise). C45, C46, C48,
  C49 and C59–C62 model rounding to double precision (with gradual underflow, without overflow) for the functions that
  compute integers through floats, the NumPy Risbo recursion, the sampling grids and the transforms
  with precomputed kernels. They assume of the library what `Spec/Double.lean` and
  `Spec/DoubleFft.lean` say: rounding to nearest of the basic operations, elementary functions, sums
  and FFTs accurate to a few units in the last place; nothing else about the order of the operations.
* An array is a function from integer indices together with, where the code inspects it, its
  shape. Slices and negative indices are resolved to explicit integer indices in the model.
* `for i in range(a,b)` is `forRange a b body` (a fold), in-place writes are `Function.update`.
* `raise`/`assert` are values of `Except PyErr`.
* Strings are lists of characters, `lower` is `List.map Char.toLower`.
* `numpy.fft` is modelled by its documented formula (finite sums of exponentials).

## Layout

* `Verif/Py/*` – meaning of the Python/NumPy primitives used.
* `Verif/Model/*` – the code, function by function, each definition citing file and lines.
* `Verif/Spec/*` – small independent specifications (Wigner-d by its factorial sum, spin
  spherical harmonics, ring geometry, DFT sums).
* `Verif/Lemmas/*` – helper lemmas.
* `Verif/Props/*` – one file per property, containing the property theorems and, beside each,
  an `example` showing that its hypotheses are met by a concrete case.

## Plan per property

| id | model | proof |
|----|-------|-------|
| C01 | `elm2ind`, `ind2elm`, `ncoeff` | integer square root arithmetic |
| C02 | loop conversions, fast versions via row-major `where` | loop invariant: entry written iff in range, injectivity of C01 |
| C03 | `hp_getidx`, four conversions | triangular-number bijection, loop invariant |
| C04 | `elmn2ind`, 3D/1D conversions | mixed-radix bijection, loop invariant |
| C05 | `s2_samples`, `so3_samples` shape and angle functions | real arithmetic, case analysis on the name |
| C06 | ring functions | induction on rings, monotonicity of arccos |
| C07 | `_hp_zphi2pix` with truncation; pixels as squares of the HEALPix projection (`Spec/HealpixPixels.lean`) | floor arithmetic at any point inside a pixel; covering; negation witnesses for the general form |
| C08/C09 | NumPy ring FFTs with folding/extension | DFT of aliased sequence, orthogonality of characters |
| C10 | JAX and CUDA index maps | pointwise index equality |
| C11 | folding as a state transformer on the caller's buffer | negation witness, partial theorem |
| C12 | Risbo loops | polynomial generating function of Wigner-d, half-step identity |
| C13/C14 | Turok loops with renormalisation | three-term recursion of generating polynomial, scaling invariant |
| C15 | Trapani loops | three-term recursion at pi/2 |
| C16 | Price–McEwen step | as C13, in exact arithmetic under non-vanishing of intermediate values |
| C17 | — | substitution action of 2x2 matrices on binary forms |
| C18–C21 | base transforms | sum manipulations, FFT = DFT |
| C22 | weights | Fourier coefficients of sin on [0,pi], DFT exactness |
| C23 | resampling | DFT interpolation of trigonometric polynomials |
| C24 | composition of the above | orthogonality of Wigner-d by integration by parts |
| C25 | on-the-fly steps | index analysis; negation witness for L_lower = L-1 |
| C26 | base Wigner transforms | C18/C24 per n plus DFT in gamma |
| C27–C29, C34 | kernels and contractions | rewriting kernels to Wigner-d, Fourier expansion of Wigner-d |
| C30 | rotation | C17 |
| C31 | refinement | induction on iterations; convergence to the nearest synthesized signal from an accurate round trip (the round trip is then invertible, the refinement error contracts), with the smallest HEALPix grid computed as an instance; for real samples the reality flag changes no iterate |
| C32 | generator | loop invariant over arbitrary random stream |
| C33 | reverse rules | transposition of finite sums |
| C35 | plan cache and Initialize | state-machine invariant over all histories |
| C36 | dispatch tables and guards | case analysis; negation witnesses |
| C37 | name tests | case analysis; negation witnesses |
| C38 | on-the-fly Wigner transforms | C39 per n plus DFT in gamma |
| C39 | spherical.inverse/forward with the Price–McEwen recursion | C16 plus the FFT lemmas of C18–C24; limits of stored angles |
| C40 | the methods `jax_ssht` and `jax_healpy` of the public transforms | reindexing of C03 plus the contracts of the libraries; a relation kept by the refinement loops |
| C41 | `torch_wrapper.py`: conversions, pytrees, argument binding, wrapping, reverse rule | strides and flags of tensors spelled out; induction over pytrees and signatures |
| C42 | the NumPy transforms once more, with arrays at addresses of a memory, copies and assignments | refinement of the functions on values; induction over histories |
| C43 | the `spmd` branches: blocks of rings or degrees, shapes on a device, the flag of the public functions | a relation between the loop on a block and the loop on the whole array |
| C44 | the functions that keep the data type of their argument, with a conversion at each store | sums and multiples of real numbers are real; the stored values are those of other coefficients |
| C45 | index conversions, HEALPix centres and lookup with a rounding at each operation (`Model/Double.lean`); any rounding to nearest (`Spec/Double.lean`) | relative error of a rounding; arguments of truncations stay within a quarter of half-integers; a nearest rounding is constructed |
| C46 | NumPy Risbo recursion and the Fourier-Wigner table with a rounding at each operation (`Model/RisboDouble.lean`) | each half-step is non-expansive in operator norm (it is a compression of a rotation), its local error is small relative to the entries used, hence at most `√j / 2⁴⁵` in Frobenius norm for a `j × j` block; induction over degrees. The JAX version is left out: its compiler may fuse and reorder operations |
| C47 | the two CUDA kernels access by access: 32-bit `int`, bounds, threads interleaved at single loads and stores (`Model/CudaThreads.lean`) | accesses of a thread stay in its ring (its element); threads on disjoint addresses commute; each thread alone computes what `Model/HealpixCuda.lean` says |
| C48 | the sample angles with every operation rounded (`Model/GridDouble.lean`) | relative error of each operation; `np.pi` computed to its last digit from bounds on `π`; `arccos` is expanding, and Lipschitz away from the poles, from which the GL nodes keep a distance by Sturm comparison (C22) |
| C49 | kernels (Risbo), inverse and forward transforms, DH weights with every operation rounded (`Model/PrecomputeDouble.lean`); sums and FFTs accurate to a few units per term (`Spec/DoubleFft.lean`) | C46 for the recursion; errors carried through the Fourier sum over the rotation at `π/2`, the FFT of each ring and the quadrature, whose weights are positive and add up to `4π`; the sum of the DH weight series is at most `√L`. MW and MWSS (`Model/ResamplingDouble.lean`): each step of the resampling is an isometry up to a factor, so the errors of its Fourier transforms are carried in the sum of squares over the grid |
| C50 | forward transforms (base, precomputed, on the fly; sphere and SO(3)) | energy of the resampled rings (Parseval), sizes of the quadrature weights, Cauchy-Schwarz |
| C51 | all transforms, rotation, refinement | each value lemma (C18-C30, C38, C39) expresses the output through sums linear in the input; the reality branches are linear over the reals |
| C52 | all transforms, rotation, refinement | a turn is a rotation of each ring, which multiplies its Fourier order `m` by a phase (`ring_turned`); resampling acts within each order (`ringSum_inner`), so the phase passes through the value lemmas of C18-C30, C38, C39; the expansions satisfy it term by term |
| C53 | all transforms on `dh`, `gl`, `healpix`; `quad_weights` | Spec/Energy.lean gives the inner products; the value lemmas of the forward transforms write a coefficient as `∑ w conj(Y) f` over the samples and the expansions write a sample as `∑ c Y`; exchanging the sums gives the adjoint, and the quadrature theorem (C22, C24) the conservation of energy. `mw` and `mwss` signals are resampled before they are weighted, so the weights are not those of the samples: not stated there |
| C54 | the calls to CUDA and cuFFT that transforms and the building of descriptors make, interleaved between host threads; streams that run their queues independently; the handles that calls with equal descriptors share (`Model/CudaStreams.lean`) | invariant over interleavings: a job sets the stream of every handle it then uses, nobody else changes it, and the work queued and left of a job composes to the work of the job |
| C55 | all transforms and grids; conjugates and reflections in Spec/Mirror.lean | symmetries of `d^l_{mn}` (`wignerd_neg_neg`, `wignerd_pi_sub`) in the expansions (C18, C26–C29, C38, C39) and in the sums that the forward transforms of C53 compute; the grids and weights are symmetric, for GL because Legendre polynomials are. Forward transforms of arbitrary samples on `mw` and `mwss` do not have the symmetries (the sample at the pole and the Nyquist frequency in theta are not treated symmetrically), so nothing is stated there; for samples of band-limited signals the round trips (C24, C26) give it |
| C56 | the spherical and Wigner transforms on DH and GL (projection: all grids with a sampling theorem); distances in Spec/LeastSquares.lean | Pythagoras from the adjointness and the energy identity of C53 for both `inverse(g)` and `inverse(c)`; the weights are positive (`dh_weight_pos`, Gauss–Legendre by its formula), which gives the cases of equality. The projection is the round trip (C24, C26–C28, C38, C39) applied to the coefficients returned, which vanish at the degrees and orders left out; for the Fourier–Wigner transforms it is C29 (Props/C57FourierWigner.lean). The GL statements need the exact rule (`GlExact`), and the on-the-fly ones stored angles without rounding (`ExactStored`), as in C53 |
| C57 | all transforms, the Fourier–Wigner ones included | the copied array has the same expansion (terms below the spin and beyond either band limit vanish), so the analysis of one grid and the expansion of the other compose |
| C58 | shapes and data types declared while tracing, and the buffers of the kernels | both sides computed for every argument; with C47 for the accesses of the threads |
| C59 | `wigner_kernel`, `inverse_transform` and `forward_transform` of the precomputed Wigner transforms with every operation rounded (`Model/PrecomputeWignerDouble.lean`) | as C49, in both modes of the kernel; the Fourier transform over `γ` adds an error proportional to the size of the signal, and each of its planes is analysed as a signal of spin `-n` |
| C60 | `risbo_jax.compute_full`, `rotate_flms` and `generate_rotate_dls` with every operation rounded and a compiler that may fuse multiplications with additions (`Model/RisboJaxDouble.lean`, `Spec/XlaDouble.lean`) | one step of the recursion is two half steps, each an isometry up to rounding, so the operator norm of the error of a plane grows by a bounded amount; a rotated degree is such a plane between two diagonal unitary matrices; exact rotations from C30 |
| C61 | `fourier_wigner_kernel` and the Fourier-Wigner transforms, NumPy and JAX, with every operation rounded (`Model/FourierWignerDouble.lean`) | planes as in C46 and C60; the coefficients of the Fourier series in `β` are sums of products of two columns of nearly orthogonal matrices, so their errors sum to a multiple of the size of the coefficients over all frequencies; each transform adds an error proportional to that size. Forward: the exact convolution with the weights of the quadrature is at most 8 times the size of the samples, since the absolute values of the weights of MW sampling sum to at most 8, and the products with the planes are again sums over two columns; exact transforms from C29 |
| C62 | `spin_spherical_kernel_jax` (Risbo), `wigner_kernel_jax`, `quad_weights_dh`, `quad_weights_transform` for MWSS and the resampling of JAX and the JAX transforms, with every operation rounded and a compiler that may fuse, fold constants and divide by multiplying (`Model/PrecomputeJaxDouble.lean`, `Model/ResamplingJaxDouble.lean`) | planes as in C60, then as C49 and C59; the bounds on the resampling and its weights are proved once for any scaling by `1/n` and any phases of sufficient accuracy (`ScaleNear`, `ResampleNear`, `WeightNear`); the inverse Wigner transform computes `conj(fft(conj(x)))`, which is as accurate as an inverse FFT (`jaxFft`) |

Nothing is declared not applicable.

## Trusted base

* Lean 4.33.0's kernel, and the Mathlib sources it is given.
* The axioms `propext`, `Classical.choice` and `Quot.sound`. Every property theorem depends on at most
  these three (the ones about strings and integers only, on fewer). No axiom is added, there is no
  `sorry`, `native_decide`, `bv_decide`, `implemented_by` or `unsafe`.
* The reading of the code: that each definition of `Verif/Model` says what the lines it cites do.
  No proof can check this. The comments say where a definition is simpler than the code.
* The reading of the primitives (`Verif/Py`): Python integers, slices and negative indices, NumPy and
  JAX indexing, the discrete Fourier transforms by their defining sums, cuFFT by its documented
  transform with load and store callbacks.
* Exact arithmetic. Floats are real numbers. Theorems speak of the value the code would return if
  it did not round, with three exceptions where rounding is what matters:
  - `Machine.rnd` (`Model/Otf.lean`). The Price-McEwen recursion divides by values of d-functions.
    Some vanish: for spin 0 and an odd `L`, say, at the equator. The code then relies on the stored
    angle not being exactly `π/2`. The model lets an arbitrary function `rnd : ℝ → ℝ` give the stored
    angle. The theorems of C16, C38, C39 hold for each `rnd` under which nothing divided by vanishes
    (`OtfRegular`); this is so for all small perturbations (`C39_nudge`), and the results tend to
    the exact ones as the stored angles tend to the sample angles (`*_limit`). Angles stored as
    doubles always meet the condition (`C16_doubles`, `C39_doubles_regular`): a double is rational, and
    a `d`-function is a Laurent polynomial in `exp(iθ/2)` with algebraic coefficients, which has no
    rational zero other than 0 by the transcendence of `exp` there (`Lemmas/ExpTranscendental.lean`,
    from the analytic part of Lindemann-Weierstrass in Mathlib). `C39_*_doubles_partial` bound the effect of the stored angles, and
    `C39_stored_grid` shows that the angles of the grid functions (C48) qualify.
  - The pole windows of the Turok recursion (`isclose(beta, 0, atol=1e-8)`, `|β| < 1e-10`): modelled
    with their constants.
  - The renormalisation thresholds of the recursions (`1e10`, `log`): modelled with their constants.
* Gauss-Legendre nodes and weights. The nodes of `numpy.polynomial.legendre.leggauss` are a parameter
  (`GlTables`), taken to be the zeros of the Legendre polynomial. The Newton iteration of
  `quad_weights_gl` is modelled with its starting values, its tolerance and its loop condition, in
  exact arithmetic. It is proved to end for every `L`, to reach the right zeros, and to give weights
  within `3e-14 (L + 1/2)²` (relative) of those of the exact rule (`C22_gl_ends`, `C22_gl_nodes`,
  `C22_gl`); the proof goes by Sturm comparison of the Legendre equation (`Lemmas/Sturm.lean`,
  `LegendreNodes.lean`, `GlNewton.lean`). `C24_gl_forward` and `C24_gl_round_trip` carry the error
  through the base transforms. The equalities for `gl` in C18-C39 are about exact tables
  (`GlExact`), which exist for every `L` (`C24_gl_tables`).
* The C libraries. `pyssht` and `healpy` are parameters; `SshtContract` and `HealpyContract`
  (`Spec/Backends.lean`) state what their documentation says they compute, and are hypotheses of the
  theorems of C33 and C40 about the wrappers.
* Reverse-mode differentiation by JAX itself: for a linear map the vector-Jacobian product is the
  transposed map (`C33_transpose_vjp`); that JAX computes it for the primitives is trusted.

## What is modelled

| code | model |
|------|-------|
| `sampling/s2_samples.py`, all functions | `Model/Samples.lean`, `Model/HealpixFft.lean` (phase shifts), `Model/Double.lean` (rounding) |
| `sampling/so3_samples.py`, all | `Model/Samples.lean` |
| `sampling/reindex.py`, all | `Model/Reindex.lean` |
| `recursions/risbo.py`, `risbo_jax.py` | `Model/Risbo.lean` |
| `recursions/turok.py`, `turok_jax.py` | `Model/Turok.lean` |
| `recursions/trapani.py` | `Model/Trapani.lean` |
| `recursions/price_mcewen.py`: both `generate_precomputes`, both `generate_precomputes_wigner`, both `compute_all_slices` | `Model/PriceMcEwen.lean`, `Model/Otf.lean`, `Model/Wigner.lean`, `Model/Memory.lean` |
| `base_transforms/*` | `Model/Base.lean`, `Model/BaseWigner.lean` |
| `transforms/otf_recursions.py`, `transforms/spherical.py`, `transforms/wigner.py` | `Model/Otf.lean`, `Model/Spherical.lean`, `Model/Wigner.lean`, `Model/Gradient.lean` (reverse rules), `Model/Memory.lean` (in-place updates), `Model/Spmd.lean` (several devices), `Model/Dtypes.lean` (data types of the inverse transforms) |
| `transforms/c_backend_spherical.py` | `Model/CBackend.lean`, `Model/Primitives.lean` |
| `precompute_transforms/construct.py`, `spherical.py` | `Model/Precompute.lean`, `Model/PrecomputeWigner.lean`, `Model/FourierWigner.lean` |
| `precompute_transforms/wigner.py`, `fourier_wigner.py`, `custom_ops.py` | `Model/PrecomputeWigner.lean`, `Model/FourierWigner.lean`, `Model/CustomOps.lean`, `Model/Dtypes.lean` |
| `utils/resampling.py`, `resampling_jax.py` | `Model/Resampling.lean` |
| `utils/quadrature.py`, `quadrature_jax.py` | `Model/Quadrature.lean` |
| `utils/healpix_ffts.py` | `Model/HealpixFft.lean`, `Model/HealpixDispatch.lean`, `Model/HealpixCuda.lean`, `Model/Primitives.lean` |
| `utils/rotation.py`, `signal_generator.py`, `iterative_refinement.py` | `Model/Rotation.lean`, `Model/SignalGenerator.lean`, `Model/Base.lean`, `Model/Dtypes.lean` |
| `utils/torch_wrapper.py` except docstrings; signatures of the functions it wraps, `*_torch.py` | `Model/TorchWrapper.lean`, `Model/Gradient.lean` |
| `lib/src/*.cu`, `*.cc`, `lib/include/*.h`: descriptor, plans, callbacks, kernels, plan cache; streams and handles | `Model/HealpixCuda.lean`, `Model/CudaThreads.lean`, `Model/CudaStreams.lean` |

Not modelled: data types other than in `Model/Dtypes.lean`, their widths, sharing of memory between tensors and arrays, `jax_primitive.py` beyond the
declared shapes and types (`Model/Primitives.lean`); `jit`, tracing otherwise and device placement; memory allocation and error
codes of the CUDA runtime; tests, benchmarks, notebooks, documentation. JAX code that differs from NumPy code
only by functional updates shares a definition with it, which the comment then says.

## Findings

Places where the code contradicts the property as written, or its documentation. Each is a
theorem with a concrete or parametrised witness unless marked "note".

* **C07** `hp_ang2pix` does not wrap the azimuth: directions just below `2π` and directions on some
  pixel boundaries get the index of a pixel elsewhere (`C07_inside_turn`, `C07_general_false`, `_wrap`, `_boundary`).
* **C10** `healpix_fft_jax` fails at `nside = 1` (`C10_jax_nside_one`). With `reality`, CUDA
  fills the columns of negative orders that NumPy leaves zero (`C10_cuda_reality_differs`).
* **C11** `healpix_ifft_numpy` and `healpix_fft_cuda` write to the caller's array.
* **C13** Inside the pole windows the recursion returns the value at the pole; and
  `compute_slice` accepts orders below `-el` (`C13_window_inexact`, `C13_low_order_accepted`).
* **C16, C25** At `L_lower = L - 1` the coefficient of degree and order `L - 2` is transformed as if its
  degree were `L - 1`; `L = 1` is an `IndexError` in NumPy (`C16_lower_leak`, `C16_one`, `C25_*_last_differs`). `jax_ssht` does not mask
  degrees below `L_lower` in the Wigner transforms (`C25_ssht_*`).
* **C19, C20** With the reality flag the methods disagree when the order-zero coefficients are not
  real, or the (real) MWSS signal is not band-limited.
* **C23** `downsample_by_two_mwss` on `L + 1` rows loses the south pole (`C23_downsample_drops_pole`).
* **C27** A Risbo kernel for `|spin| ≥ L` silently wraps around (`C27_risbo_spin_wraps`).
* **C28** Forward Wigner transform by precomputed kernel: `N = 1` on MW and MWSS, and `N > L` in NumPy,
  are `IndexError`s; mode "auto" at `L = 1` raises `OverflowError`; with the reality flag the
  result depends on entries of the plane `n = 0` the others do not read.
* **C29** Fourier-Wigner with `N > L`: `IndexError` in NumPy, wrong values in JAX; MWSS forward at
  `L = 1` raises.
* **C33** The SSHT inverse's gradient with the reality flag is wrong for every odd `L`; the SSHT
  forward's gradient with the flag is wrong for non-symmetric cotangents.
* **C34** `|spin| = L` is documented as allowed and fails or wraps; coefficients are scaled as Wigner
  coefficients though documented as harmonic; the argument `N` is not used.
* **C36** The guard on large spin is one-sided; base transforms accept `|spin| ≥ L`; `jax_healpy` ignores
  `spin`; `jax_ssht` and `jax_healpy` ignore `L_lower`; `jax_ssht` with `iter` is a `KeyError`.
* **C37** `m_offset`, `so3_samples.f_shape` and `periodic_extension` compare the scheme name as given
  though others lower it first. With "MWSS" or "HEALPix": base inverses return every order shifted
  by one, the on-the-fly MWSS inverse the negative orders, the extension overwrites a ring,
  precomputed inverses and rotation-group transforms refuse.
* **C39** The on-the-fly inverses do not leave out degrees below `|spin|`: NumPy reads an unfilled row of
  logarithms for half of the orders, JAX replaces the missing logarithms by 0, so a non-zero
  coefficient there is added to the map; the base transforms ignore it (`C39_low_degree_leak`).
* **C41** The docstring of the wrapped transforms promises `precomps` as a list of tensors; tensors in it are
  not converted and JAX refuses them (`C41_precomps_not_converted`). A wrapped function with several
  outputs has no gradient (`C41_gradient_tuple`); no function of the package is such a one.
* **C42** Outside the transforms: the NumPy `compute_all_slices` raises without coefficients (it calls the
  generator with its arguments in the wrong order) and with those of `generate_precomputes` (five arrays,
  it unpacks seven); with seven arrays it assigns into the caller's `lrenorm`, and a second call
  differs (`C42_all_slices_modifies`). For `healpix_ifft` see C11.
* **C43** `forward` with `spmd` raises on two or more devices for every input: the loop body takes the
  degrees from around it, uncut, beside arrays cut by degree. So does the derivative of `inverse`. `inverse` with
  `spmd` raises unless the number of devices divides the number of rings (`C43_forward_violated`,
  `C43_rules_refused`, `C43_inverse_refused`).
* **C44** Arrays of integers: `inverse` on the sphere and on the rotation group (NumPy, JAX, PyTorch) and
  `wigner_subset_to_s2` store scaled coefficients into an array of the given type, which rounds them towards
  zero. The coefficient 1 in degree zero gives the zero signal (`C44_inverse_violated`,
  `C44_wigner_violated`, `C44_subset_violated`). The NumPy Fourier-Wigner `inverse_transform` without
  tables refuses them (`C44_fourier_wigner_refused`). `rotate_flms` drops the imaginary parts if
  the given coefficients are of a real type (`C44_rotation_violated`).
* **C45** (limit) From degree `2²⁸ - 1` on, `ind2elm` can return the next degree, because the index has more digits than a double
  (`C45_index_limit`).
* **C47** (limit) From `12 nside² ≥ 2³¹` on (`nside = 16384`) the kernels overflow an `int`
  (`C47_limit`). Not modelled: `spectral_folding_parallel`, which is never launched (it would pass the
  index of an element for that of a ring).
* **C48** The last colatitude of MW and MWSS, exactly `π`, can be stored as the double after `np.pi`:
  `L = 24, 42, 50, 84, …` (MW), `L = 47, 83, …` (MWSS), and `L = 7`, `L = 13` with ties to even. There
  `risbo.compute_full` raises an assertion error (`C48_beyond_pi`). On the DH grid from about `L = 2¹⁵` on, the last ring
  is within the tolerance of `np.isclose` and the NumPy Turok recursion takes it for the pole
  (`C48_poles_limit`). How accurate `leggauss` is, is not modelled: the bound for
  the GL colatitudes is in terms of the error of its nodes (`C48_colatitudes_gl`), and `C49_round_trip_gl_table`,
  `C59_round_trip_gl_table`, `C62_round_trip_gl_table` and `C62_wigner_round_trip_gl_table` go on from there.
* **C49** (limit) The kernels are those of `recursion="risbo"`, which "auto" chooses for `|spin| > 6`
  only; nothing is proved about rounding in the Price–McEwen recursion. On the HEALPix grid the kernel is modelled
  (`Model/PrecomputeHealpixDouble.lean`, `C49_kernel_healpix`, for `nside ≤ 2¹⁸` and `L nside ≤ 2⁴²`), the transforms
  that use it are not.
* **C59** (limit) MW, MWSS and DH; GL given the accuracy of the tables, as in C49. The forward transform of MW and MWSS needs `N ≥ 2`: with a single direction
  `np.squeeze` removes its axis and the code raises (C28). With `reality` the plane `n = 0` must be that of a
  real signal. HEALPix is not modelled in double precision, of the JAX functions only those of C60–C62 are.
* **C60** (limit) 64-bit mode of JAX, `L ≤ 2^28`, `|α|, |γ| ≤ 8`, `|β| ≤ 4`. XLA may contract a product and a
  sum at any place and may divide by multiplying with a rounded reciprocal; it is assumed not to reassociate.
* **C61** (limit) 64-bit mode, MW and MWSS, `1 ≤ N ≤ L ≤ 2^26`. Where `einsum` multiplies three arrays and sums, any
  two may be multiplied first; where it only multiplies, from left to right. The square in `(2 * np.pi) ** 2` is the rounded product. The forward
  transform needs `L ≥ 2` on MWSS.
* **C62** (limit) 64-bit mode, the Risbo recursion, MW, MWSS and DH; GL with bounds that depend on the accuracy of the
  tables, as in C49; forward Wigner transforms from
  MW and MWSS need `N ≥ 2` (`C62_wigner_forward_single`: with `N = 1` they raise). Of the compiled functions the
  sums are assumed not to be reassociated. A complex number is divided by a real constant part by part, and
  `norm="forward"` multiplies by a rounded reciprocal.
* Note: the CUDA normalisation (`norm` other than the default) is done in single precision.
* Note: `spectral_folding_jax` is right for an even number of samples only (rings have `4 i`).
* Note: `trapani.init` and `compute_full` lower the name of the implementation for "loop" only; they
  divide by zero at `el = 0`.
* Note: `_t2theta_healpix` of an integer array truncates `z` to integers (`zeros_like(t)`); `thetas`
  passes floats. A scalar fails.
* Note: `flm_2d_to_hp` checks the number of axes of its own output.
* Note: the CUDA HEALPix primitive registers no transpose, so reverse mode fails through it.
* **C54** `PlanCache` hands the same executor, and so the same cuFFT handles, to all calls whose
  descriptors are equal, and a handle remembers one stream. Two such calls on two streams, or two
  devices, from two host threads can compute garbage (`C54_two_streams`), and so can a call during which
  another thread builds an equal descriptor (`C54_build_during_call`). There is no lock.
* **C58** In 64-bit mode `healpy_map2alm` and `healpy_alm2map` of a single-precision array are declared in
  single precision and computed in double (`C58_single_violated`). The CUDA FFT is accepted for `L = nside = 1`
  and then reads in front of its buffer (`C58_cuda_short_violated`). Its argument `norm` is not among the
  static arguments of `jit`, so that giving it raises (`C58_cuda_norm_violated`).
