{"id": "C01", "title": "1D harmonic index is a bijection", "statement": "elm2ind maps the pairs (el,m) with 0<=el<L, |m|<=el one-to-one onto 0..ncoeff(L)-1, ind2elm is its exact inverse, and ncoeff(L)=L^2.", "quantifier": "every band-limit L and every pair (el,m) / every index", "why_tests_cant": "L is unbounded; tests try a few L", "anchors": ["s2fft/sampling/s2_samples.py:elm2ind", "s2fft/sampling/s2_samples.py:ind2elm", "s2fft/sampling/s2_samples.py:ncoeff"]}
{"id": "C02", "title": "2D <-> 1D coefficient conversion is lossless", "statement": "flm_1d_to_2d after flm_2d_to_1d gives back every coefficient with |m|<=el and zero elsewhere; the other composition is the identity; both reject inputs of the wrong number of dimensions; the jitted fast versions return the same arrays as the loop versions.", "quantifier": "every L>=1, every coefficient array, every array rank", "why_tests_cant": "all L and all arrays", "anchors": ["s2fft/sampling/s2_samples.py:flm_2d_to_1d", "s2fft/sampling/s2_samples.py:flm_1d_to_2d", "s2fft/sampling/reindex.py:flm_1d_to_2d_fast", "s2fft/sampling/reindex.py:flm_2d_to_1d_fast"]}
{"id": "C03", "title": "HEALPix (healpy) coefficient ordering", "statement": "hp_getidx maps 0<=m<=el<L one-to-one onto 0..L(L+1)/2-1; converting the coefficients of a real signal to healpy order and back returns them unchanged; healpy-ordered input always expands to coefficients with conjugate symmetry; lm2lm_hp and the fast versions agree with the loop versions.", "quantifier": "every L>=1 and every coefficient array (conjugate-symmetric where stated)", "why_tests_cant": "all L and all arrays", "anchors": ["s2fft/sampling/s2_samples.py:hp_getidx", "s2fft/sampling/s2_samples.py:flm_hp_to_2d", "s2fft/sampling/s2_samples.py:flm_2d_to_hp", "s2fft/sampling/s2_samples.py:lm2lm_hp", "s2fft/sampling/reindex.py:flm_hp_to_2d_fast", "s2fft/sampling/reindex.py:flm_2d_to_hp_fast"]}
{"id": "C04", "title": "Wigner coefficient indexing", "statement": "elmn2ind is one-to-one from (n,el,m) with |n|<N, |m|<=el<L onto 0..(2N-1)L^2-1, and the 3D <-> 1D conversions are lossless on those entries and reject wrong ranks.", "quantifier": "every L,N>=1, every flmn array", "why_tests_cant": "all L, N and arrays", "anchors": ["s2fft/sampling/so3_samples.py:elmn2ind", "s2fft/sampling/so3_samples.py:flmn_3d_to_1d", "s2fft/sampling/so3_samples.py:flmn_1d_to_3d", "s2fft/sampling/so3_samples.py:flmn_shape_1d"]}
{"id": "C05", "title": "Sampling grids are well formed", "statement": "For every supported scheme the theta samples lie in [0,pi], are strictly increasing, number ntheta(L); the phi samples lie in [0,2pi), are strictly increasing, number nphi_equiang(L); f_shape, ftm_shape and the Wigner shapes agree with these counts; mwss contains both poles, mw only the south pole, dh neither; unsupported names, missing L or missing nside are rejected.", "quantifier": "every L>=1, every nside>=1, every sampling string (any letter case)", "why_tests_cant": "all L and all strings", "anchors": ["s2fft/sampling/s2_samples.py:ntheta", "s2fft/sampling/s2_samples.py:thetas", "s2fft/sampling/s2_samples.py:t2theta", "s2fft/sampling/s2_samples.py:phis_equiang", "s2fft/sampling/s2_samples.py:f_shape", "s2fft/sampling/s2_samples.py:ftm_shape", "s2fft/sampling/so3_samples.py:f_shape", "s2fft/sampling/so3_samples.py:fnab_shape"]}
{"id": "C06", "title": "HEALPix rings tile the pixel vector", "statement": "The ring sizes nphi_ring(t), 0<=t<4nside-1, are symmetric about the equator and sum to 12 nside^2 = f_shape; each ring's phi samples are nphi_ring equally spaced angles in [0,2pi); ring colatitudes are strictly increasing in (0,pi) and symmetric; rings outside the range are rejected.", "quantifier": "every nside>=1, every ring t", "why_tests_cant": "nside unbounded", "anchors": ["s2fft/sampling/s2_samples.py:nphi_ring", "s2fft/sampling/s2_samples.py:p2phi_ring", "s2fft/sampling/s2_samples.py:_t2theta_healpix", "s2fft/sampling/s2_samples.py:f_shape"]}
{"id": "C07", "title": "HEALPix pixel lookup returns the pixel that contains a direction", "statement": "hp_ang2pix applied to the centre of pixel p of ring t returns (sum of sizes of earlier rings)+p. More generally every direction strictly inside a pixel, as the HEALPix projection defines pixels, is assigned the index of this pixel.", "quantifier": "every nside>=1, every ring, every pixel; for the general form every direction with phi in [0,2pi)", "why_tests_cant": "infinitely many nside and a continuum of angles", "anchors": ["s2fft/sampling/s2_samples.py:hp_ang2pix", "s2fft/sampling/s2_samples.py:_hp_zphi2pix"]}
{"id": "C08", "title": "HEALPix inverse ring FFT evaluates the Fourier series at the pixels", "statement": "healpix_ifft followed by the ring phase shift returns, at every pixel, the sum over all orders |m|<L of the Fourier coefficient times exp(i m phi) at that pixel, although rings hold fewer samples than orders (spectral folding is exact aliasing); with the reality flag the same value is obtained from the non-negative orders of a real signal.", "quantifier": "every nside, every L>=2nside, every coefficient array, every pixel", "why_tests_cant": "continuum of inputs, unbounded nside and L", "anchors": ["s2fft/utils/healpix_ffts.py:healpix_ifft_numpy", "s2fft/utils/healpix_ffts.py:spectral_folding", "s2fft/base_transforms/spherical.py:_compute_inverse_sov_fft"]}
{"id": "C09", "title": "HEALPix forward ring FFT computes every ring's Fourier sums", "statement": "healpix_fft followed by the ring phase shift returns, for every ring and every order |m|<L, the sum over the ring's pixels of f exp(-i m phi) (periodic extension is exact); with the reality flag the non-negative orders are the same.", "quantifier": "every nside, every L>=2nside, every pixel vector", "why_tests_cant": "continuum of inputs, unbounded sizes", "anchors": ["s2fft/utils/healpix_ffts.py:healpix_fft_numpy", "s2fft/utils/healpix_ffts.py:spectral_periodic_extension", "s2fft/base_transforms/spherical.py:_compute_forward_sov_fft"]}
{"id": "C10", "title": "HEALPix FFT backends agree", "statement": "The NumPy and JAX versions of healpix_fft / healpix_ifft, spectral_folding and spectral_periodic_extension return the same arrays, and the CUDA kernels' index arithmetic (ring geometry, FFT shift, folding, extension) computes the same maps.", "quantifier": "every nside, L>=2nside, every input array", "why_tests_cant": "all sizes; the GPU path is not exercised in CI", "anchors": ["s2fft/utils/healpix_ffts.py:healpix_fft_jax", "s2fft/utils/healpix_ffts.py:spectral_folding_jax", "s2fft/utils/healpix_ffts.py:spectral_periodic_extension_jax", "lib/src/s2fft_kernels.cu", "lib/src/s2fft_callbacks.cu"]}
{"id": "C11", "title": "Transforms do not modify their inputs", "statement": "Calling healpix_ifft twice on the same coefficient array gives the same result twice, i.e. the call leaves its argument unchanged.", "quantifier": "every nside, L, coefficient array", "why_tests_cant": "depends on aliasing of views for all inputs", "anchors": ["s2fft/utils/healpix_ffts.py:spectral_folding", "s2fft/utils/healpix_ffts.py:healpix_ifft_numpy"]}
{"id": "C12", "title": "Risbo recursion computes Wigner-d planes", "statement": "Running the recursion from el=0 upwards, after step el the plane holds d^el_{m,mm}(beta) for every |m|,|mm|<=el and zeros elsewhere, in the scalar, vectorised and JAX versions; out-of-range el, beta or shape is rejected by the scalar version.", "quantifier": "every L, every el<L, every beta in [0,pi], every m, mm", "why_tests_cant": "continuum of angles, unbounded degree", "anchors": ["s2fft/recursions/risbo.py:compute_full", "s2fft/recursions/risbo.py:compute_full_vectorised", "s2fft/recursions/risbo_jax.py:compute_full"]}
{"id": "C13", "title": "Turok recursion computes Wigner-d planes and slices", "statement": "compute_full and compute_slice return exactly the Wigner-d values d^el_{m,mm}(beta) for all |m|,|mm|<=el (non-negative m only when asked), at the poles and everywhere outside the two small windows that the code rounds to a pole (within 1e-8 of 0, within 1e-8+1e-5*pi of pi), whatever sequence of overflow renormalisations occurs; inside the windows they return the pole's values, which are within 3.2e-5*(el+1) of the right ones. A degree el>=L or el<mm is rejected.", "quantifier": "every L, el<L, |mm|<=el, m, every beta in [0,pi]", "why_tests_cant": "continuum of angles; renormalisation path depends on all earlier values", "anchors": ["s2fft/recursions/turok.py:compute_full", "s2fft/recursions/turok.py:compute_slice", "s2fft/recursions/turok.py:compute_quarter", "s2fft/recursions/turok.py:fill"]}
{"id": "C14", "title": "JAX Turok slice agrees with the NumPy slice", "statement": "turok_jax.compute_slice returns exactly the Wigner-d values on the orders |m|<=el at the poles and at every angle at least 1e-10 from them, so it equals turok.compute_slice wherever that one is exact; everywhere the two differ by at most 3.3e-5*(el+1). Entries the source leaves as NaN or infinity never reach the result.", "quantifier": "every L, el<L, |mm|<=el, every beta in [0,pi]", "why_tests_cant": "continuum of angles, unbounded degree", "anchors": ["s2fft/recursions/turok_jax.py:compute_slice"]}
{"id": "C15", "title": "Trapani recursion computes Wigner-d at pi/2", "statement": "The Trapani-Navaza routines (full, quarter plus fill-ins, vectorised, JAX) run from el=0 upwards hold d^el_{m,mm}(pi/2) for every |m|,|mm|<=el.", "quantifier": "every L, el<L, m, mm", "why_tests_cant": "unbounded degree", "anchors": ["s2fft/recursions/trapani.py:compute_full", "s2fft/recursions/trapani.py:compute_quarter", "s2fft/recursions/trapani.py:compute_quarter_vectorized"]}
{"id": "C16", "title": "Price-McEwen on-the-fly recursion equals the Wigner-d sums", "statement": "The on-the-fly latitudinal steps of the NumPy transforms return, for every theta sample and order m, the sum over el of coefficient times d^el_{m,-spin}(theta) (inverse) and the sum over theta (forward), at the poles and in between.", "quantifier": "every L, spin, L_lower, theta grid and coefficient array", "why_tests_cant": "continuum of angles/inputs; running renormalisation", "anchors": ["s2fft/recursions/price_mcewen.py:generate_precomputes", "s2fft/transforms/otf_recursions.py:inverse_latitudinal_step", "s2fft/transforms/otf_recursions.py:forward_latitudinal_step"]}
{"id": "C17", "title": "Computed Wigner-d planes are rotations", "statement": "The plane computed for degree el is an orthogonal matrix, equals the identity at beta=0, obeys the reflection symmetries d_{m,n}=(-1)^{m-n}d_{-m,-n}=(-1)^{m-n}d_{n,m}, and planes for two angles multiply to the plane for the sum of the angles.", "quantifier": "every degree, every pair of angles", "why_tests_cant": "continuum of angles, unbounded degree", "anchors": ["s2fft/recursions/risbo.py:compute_full", "s2fft/recursions/turok.py:fill", "s2fft/utils/rotation.py"]}
{"id": "C18", "title": "Inverse spherical transform evaluates the harmonic expansion", "statement": "inverse(flm) equals, at every sample of the chosen grid, the sum over L_lower<=el<L, |m|<=el of flm times the spin spherical harmonic at that sample. With the reality flag (spin 0) the coefficients are those of a real signal, given by the non-negative orders. Rings that fall in the pole windows of the recursion (C13; none for L, nside<=20000) are evaluated at a colatitude within 3.2e-5 of their own.", "quantifier": "every L, spin, L_lower, sampling scheme, coefficient array and sample", "why_tests_cant": "continuum of inputs", "anchors": ["s2fft/base_transforms/spherical.py:inverse", "s2fft/base_transforms/spherical.py:_compute_inverse_direct"]}
{"id": "C19", "title": "All base inverse methods agree", "statement": "The direct, separation-of-variables, FFT and vectorised-FFT inverse methods return the same signal for every sampling scheme they support (with the reality flag, for coefficients whose order-zero entries are real; HEALPix FFT methods reject L<2*nside).", "quantifier": "every L, spin, L_lower, sampling, nside and coefficient array", "why_tests_cant": "continuum of inputs", "anchors": ["s2fft/base_transforms/spherical.py:_compute_inverse_direct", "s2fft/base_transforms/spherical.py:_compute_inverse_sov", "s2fft/base_transforms/spherical.py:_compute_inverse_sov_fft", "s2fft/base_transforms/spherical.py:_compute_inverse_sov_fft_vectorized"]}
{"id": "C20", "title": "All base forward methods agree", "statement": "The direct, separation-of-variables, FFT and vectorised-FFT forward methods return the same coefficients for every signal and every sampling scheme they support (HEALPix: 2 nside <= L). With the reality flag the signal has to be real (for mw and mwss, which are resampled first, real and band-limited).", "quantifier": "every L, spin, L_lower, sampling, nside and signal", "why_tests_cant": "continuum of inputs", "anchors": ["s2fft/base_transforms/spherical.py:_compute_forward_direct", "s2fft/base_transforms/spherical.py:_compute_forward_sov", "s2fft/base_transforms/spherical.py:_compute_forward_sov_fft", "s2fft/base_transforms/spherical.py:_compute_forward_sov_fft_vectorized"]}
{"id": "C21", "title": "The reality flag is only an optimisation", "statement": "For a real spin-0 signal (for mw and mwss, which are resampled first, real and band-limited) the reality=True transforms return the same result as reality=False, and on the grids analysed as they are (DH, GL, HEALPix) so does forward with any number of refinement iterations; when spin is non-zero the base and precompute transforms ignore the flag.", "quantifier": "every L, sampling, real signal / conjugate-symmetric coefficients", "why_tests_cant": "continuum of inputs", "anchors": ["s2fft/base_transforms/spherical.py:_inverse", "s2fft/base_transforms/spherical.py:_forward", "s2fft/precompute_transforms/spherical.py:inverse"]}
{"id": "C22", "title": "Quadrature weights are exact", "statement": "mw_weights(m) is the integral of sin(theta) exp(i m theta) over [0,pi]; the mw, mwss, dh (and HEALPix) weights integrate every band-limited function they are documented for exactly, in particular they sum to 4 pi over the sphere. The Newton iteration behind the gl weights ends for every L, reaches the zeros of the Legendre polynomial, and gives weights that integrate every product of two band-limited functions up to its tolerance.", "quantifier": "every L, every m, every band-limited integrand", "why_tests_cant": "continuum of integrands, unbounded L", "anchors": ["s2fft/utils/quadrature.py:mw_weights", "s2fft/utils/quadrature.py:quad_weights", "s2fft/utils/quadrature.py:quad_weights_transform", "s2fft/utils/quadrature.py:quad_weights_dh", "s2fft/utils/quadrature.py:quad_weights_gl"]}
{"id": "C23", "title": "Resampling is exact on band-limited signals", "statement": "For signals of band-limit L, mw_to_mwss and upsample_by_two_mwss return the signal's true values on the finer grid; upsampling keeps the original samples; periodic extension has the parity (-1)^(m+spin); unextend undoes the extension; unsupported samplings and wrong shapes are rejected; the JAX versions return the same arrays.", "quantifier": "every L, spin, band-limited signal", "why_tests_cant": "continuum of signals, unbounded L", "anchors": ["s2fft/utils/resampling.py:mw_to_mwss", "s2fft/utils/resampling.py:upsample_by_two_mwss", "s2fft/utils/resampling.py:periodic_extension", "s2fft/utils/resampling.py:unextend", "s2fft/utils/resampling.py:downsample_by_two_mwss"]}
{"id": "C24", "title": "Spherical round trip is the identity", "statement": "forward(inverse(flm)) returns flm at every coefficient with max(|spin|,L_lower)<=el<L, |m|<=el (and zero elsewhere) for the mw, mwss and dh schemes, for gl given exact Gauss-Legendre nodes and weights (and up to the tolerance of the Newton iteration with the weights the code computes), on grids without rings in the pole windows of the recursion (C13; none for mw, mwss, dh with L<=10000). More generally forward recovers the coefficients of every band-limited signal.", "quantifier": "every L, spin, L_lower and coefficient array", "why_tests_cant": "continuum of inputs, unbounded L", "anchors": ["s2fft/base_transforms/spherical.py:forward", "s2fft/base_transforms/spherical.py:inverse"]}
{"id": "C25", "title": "L_lower masks low degrees", "statement": "Coefficients below L_lower never influence the inverse transform, and the forward transform returns zero for every degree below max(|spin|,L_lower), in the base, NumPy and JAX on-the-fly transforms.", "quantifier": "every L, 0<=L_lower<L, spin, input", "why_tests_cant": "all band-limits and inputs", "anchors": ["s2fft/transforms/otf_recursions.py:inverse_latitudinal_step", "s2fft/transforms/spherical.py:forward_numpy", "s2fft/transforms/spherical.py:forward_jax", "s2fft/base_transforms/spherical.py:_inverse"]}
{"id": "C26", "title": "Base Wigner (SO(3)) transforms", "statement": "The base Wigner inverse evaluates the Wigner-D expansion at every (alpha,beta,gamma) sample of every grid, the base forward transform recovers the coefficients (mw, mwss, dh, and gl with exact tables), with and without the reality flag, so the round trip is the identity; degrees below max(|n|,L_lower) come back as zero.", "quantifier": "every L, N, sampling, coefficient array", "why_tests_cant": "continuum of inputs", "anchors": ["s2fft/base_transforms/wigner.py:inverse", "s2fft/base_transforms/wigner.py:forward"]}
{"id": "C27", "title": "Precomputed-kernel spherical transforms equal the recursion-based ones", "statement": "precompute_transforms.spherical inverse and forward, with the kernel built by spin_spherical_kernel, return the same result as the base transforms for every supported recursion choice.", "quantifier": "every L, spin, sampling, input", "why_tests_cant": "continuum of inputs", "anchors": ["s2fft/precompute_transforms/spherical.py", "s2fft/precompute_transforms/construct.py:spin_spherical_kernel"]}
{"id": "C28", "title": "Precomputed-kernel Wigner transforms equal the base ones", "statement": "precompute_transforms.wigner inverse and forward, with the kernel built by wigner_kernel, return the same result as the base Wigner transforms for every N>=1.", "quantifier": "every L, N, sampling, input", "why_tests_cant": "continuum of inputs", "anchors": ["s2fft/precompute_transforms/wigner.py", "s2fft/precompute_transforms/construct.py:wigner_kernel"]}
{"id": "C29", "title": "Fourier-Wigner transforms", "statement": "fourier_wigner inverse evaluates the Wigner-D expansion on the mw/mwss grid and fourier_wigner forward recovers the coefficients.", "quantifier": "every L, N>=1, coefficient array", "why_tests_cant": "continuum of inputs", "anchors": ["s2fft/precompute_transforms/fourier_wigner.py", "s2fft/precompute_transforms/construct.py:fourier_wigner_kernel"]}
{"id": "C30", "title": "Rotation of harmonic coefficients", "statement": "rotate_flms returns the coefficients of the rotated signal: the expansion of its output at a direction is the expansion of its input at the direction turned back by the Euler rotation Rz(alpha)Ry(beta)Rz(gamma). Consequently rotations compose as the rotation matrices do, zero angles are the identity, the power of every degree is preserved, z-rotations are phases, rotating by (-gamma,-beta,-alpha) undoes the rotation; using precomputed dls gives the same result and entries with |m|>el stay zero.", "quantifier": "every L, coefficient array, Euler angles", "why_tests_cant": "continuum of angles and inputs", "anchors": ["s2fft/utils/rotation.py:rotate_flms", "s2fft/utils/rotation.py:generate_rotate_dls"]}
{"id": "C31", "title": "Iterative refinement", "statement": "With n iterations forward_with_iterative_refinement returns the analysis A of the residual series, sum over k<=n of A (I - S A)^k f; its residual is (I - S A)^(n+1) f; when analysis inverts synthesis exactly the iterations change nothing; n=0 is the plain forward transform. In particular forward(iter=n) equals forward(iter=0) on the schemes with a sampling theorem. On the grids analysed as they are (DH, GL, HEALPix), whenever a plain round trip changes coefficients by at most a fraction d < 1, forward(iter=n) of any samples converges to the coefficients of the synthesized signal nearest the samples under the quadrature weights, with relative error at most d^(n+1), in the base, precomputed and on-the-fly transforms and with healpy as backend, with or without the reality flag on real samples.", "quantifier": "every pair of linear transforms, every n, every input", "why_tests_cant": "unbounded iteration count, all operators", "anchors": ["s2fft/utils/iterative_refinement.py:forward_with_iterative_refinement", "s2fft/base_transforms/spherical.py:forward", "s2fft/precompute_transforms/spherical.py:forward", "s2fft/transforms/spherical.py:forward"]}
{"id": "C32", "title": "Signal generator respects band-limit, spin and reality", "statement": "generate_flm / generate_flmn produce coefficients that are zero below max(|spin|,L_lower) (|n| in place of |spin| for flmn) and for |m|>el; generate_flm always has real m=0 entries; with reality requested the coefficients satisfy the conjugate symmetry of a real signal, so its harmonic expansion is real; every free coefficient in the requested range gets its own fresh sample(s) of the random stream and no sample is used twice; a request for fewer than no degrees is rejected. All whatever the random stream.", "quantifier": "every L, N, L_lower, spin and every random stream", "why_tests_cant": "all random streams", "anchors": ["s2fft/utils/signal_generator.py:generate_flm", "s2fft/utils/signal_generator.py:generate_flmn"]}
{"id": "C33", "title": "Custom gradients are adjoints", "statement": "The hand-written reverse rules of the JAX transforms and the torch wrapper are the exact transpose/adjoint of the linear maps they differentiate.", "quantifier": "every L, spin, sampling, input and cotangent", "why_tests_cant": "continuum of inputs", "anchors": ["s2fft/transforms/spherical.py:inverse_jax", "s2fft/transforms/spherical.py:forward_jax", "s2fft/transforms/c_backend_spherical.py", "s2fft/utils/torch_wrapper.py"]}
{"id": "C34", "title": "Subset (custom-op) Wigner transforms", "statement": "wigner_subset_to_s2, so3_to_wigner_subset and s2_to_wigner_subset compute, for the selected spins only, the corresponding slices of the full Wigner transforms, for every batch and channel.", "quantifier": "every L, spin subset, batch, input", "why_tests_cant": "continuum of inputs", "anchors": ["s2fft/precompute_transforms/custom_ops.py"]}
{"id": "C35", "title": "CUDA plan cache", "statement": "After any sequence of descriptor builds and executions, the executor obtained for a descriptor uses the ring offsets and ring lengths of that descriptor's nside and normalisation, whether it was freshly built or cached, and rebuilding never changes the result of a transform.", "quantifier": "every history of requests", "why_tests_cant": "all histories", "anchors": ["lib/src/plan_cache.cc", "lib/src/s2fft.cu", "lib/src/extensions.cc", "lib/include/s2fft.h"]}
{"id": "C36", "title": "Argument validation and method dispatch", "statement": "The public transforms reject unknown methods, negative L_lower, |spin| too large and HEALPix without nside; iter>0 works for every method that accepts it; the spin-stability guard treats spin and -spin alike.", "quantifier": "every argument combination", "why_tests_cant": "combinatorial", "anchors": ["s2fft/transforms/spherical.py:inverse", "s2fft/transforms/spherical.py:forward", "s2fft/transforms/wigner.py:inverse", "s2fft/transforms/wigner.py:forward"]}
{"id": "C37", "title": "Sampling names are case-insensitive", "statement": "A scheme name accepted in lower case gives the same result in any other letter case.", "quantifier": "every string and every function that takes a scheme name", "why_tests_cant": "all strings, all entry points", "anchors": ["s2fft/sampling/s2_samples.py", "s2fft/sampling/so3_samples.py:f_shape", "s2fft/base_transforms/spherical.py", "s2fft/utils/resampling.py"]}
{"id": "C38", "title": "On-the-fly Wigner transforms", "statement": "The NumPy and JAX Wigner transforms agree with the base ones: they evaluate the Wigner-D expansion and recover its coefficients.", "quantifier": "every L, N, sampling, coefficient array", "why_tests_cant": "continuum of inputs", "anchors": ["s2fft/transforms/wigner.py:inverse_numpy", "s2fft/transforms/wigner.py:forward_numpy", "s2fft/transforms/wigner.py:inverse_jax", "s2fft/transforms/wigner.py:forward_jax"]}
{"id": "C39", "title": "On-the-fly spherical transforms", "statement": "transforms.spherical.inverse evaluates the spin harmonic expansion at every sample and transforms.spherical.forward recovers the coefficients of a band-limited signal; both agree with the base transforms, whichever of the NumPy, JAX and PyTorch methods is chosen and with or without precomputed recursion coefficients.", "quantifier": "every band-limit, spin below 8, L_lower, sampling scheme, method, coefficient array and signal", "why_tests_cant": "continuum of inputs, all sizes; the recursion is only stable in floating point where tested", "anchors": ["s2fft/transforms/spherical.py:inverse", "s2fft/transforms/spherical.py:forward", "s2fft/transforms/otf_recursions.py"]}
{"id": "C40", "title": "The SSHT and healpy methods are interchangeable with the native ones", "statement": "With method jax_ssht or jax_healpy the public spherical and Wigner transforms evaluate the same expansion and recover the same coefficients as the native methods, iterative refinement included, provided the libraries compute what they document.", "quantifier": "every band-limit, spin, number of directions, sampling scheme, resolution, number of refinement steps, coefficient array and signal, every library meeting its documentation", "why_tests_cant": "continuum of inputs, all sizes, and every version of two external libraries", "anchors": ["s2fft/transforms/spherical.py:inverse", "s2fft/transforms/spherical.py:forward", "s2fft/transforms/wigner.py:inverse_jax_ssht", "s2fft/transforms/wigner.py:forward_jax_ssht", "s2fft/transforms/c_backend_spherical.py"]}
{"id": "C41", "title": "Functions wrapped for Torch do what the JAX functions do", "statement": "Calling the Torch version of a transform returns what the JAX version returns for arrays of the same data, as tensors in the same structure; errors are passed on; tensors of any layout are accepted; only the arguments documented as arrays are converted and all others reach the function as given; gradients are conjugated once before and once after the reverse rule of JAX.", "quantifier": "every JAX function, signature, choice of differentiable names, positional and keyword arguments, nesting of containers, tensor shape, stride, offset and flag", "why_tests_cant": "unbounded space of signatures, call forms, container structures and memory layouts; lazily conjugated or strided views hand over wrong memory silently", "anchors": ["s2fft/utils/torch_wrapper.py: wrap_as_torch_function", "s2fft/utils/torch_wrapper.py: torch_tensor_to_jax_array", "s2fft/utils/torch_wrapper.py: populate_namespace_by_wrapping_functions_in_module"]}
{"id": "C42", "title": "Calls of the NumPy transforms leave the caller's arrays alone and do not interfere", "statement": "A call of a public spherical or Wigner transform with the NumPy method, whether it returns or raises, changes none of the arrays the caller holds: neither the signal or coefficients, nor the precomputed recursion coefficients, nor earlier results. It returns a new array. In any sequence of calls that share arrays and precomputed coefficients, each call gives what it gives on its own, and its result stays as it is.", "quantifier": "every sequence of calls, every band-limit, spin, number of directions, sampling scheme, number of refinement steps, contents of the arrays, and every sharing of arrays and precomputed coefficients between calls", "why_tests_cant": "a property of histories: the recursions update tables in place, and a missing copy shows only in a later call that shares them", "anchors": ["s2fft/transforms/spherical.py:inverse_numpy", "s2fft/transforms/spherical.py:forward_numpy", "s2fft/transforms/wigner.py:inverse_numpy", "s2fft/transforms/wigner.py:forward_numpy", "s2fft/transforms/otf_recursions.py", "s2fft/utils/iterative_refinement.py", "s2fft/recursions/price_mcewen.py:compute_all_slices"]}
{"id": "C43", "title": "Running over several devices does not change results", "statement": "With spmd=True a JAX or PyTorch spherical transform, and its derivative, give on any number of devices what they give without the flag. Methods other than these ignore the flag.", "quantifier": "every number of devices, band-limit, spin, sampling scheme, lower degree, coefficients or signal, with and without precomputed coefficients and refinement steps", "why_tests_cant": "it ranges over the number of devices of the machine; the tests run on the devices at hand, usually one", "anchors": ["s2fft/transforms/otf_recursions.py:inverse_latitudinal_step_jax", "s2fft/transforms/otf_recursions.py:forward_latitudinal_step_jax", "s2fft/transforms/spherical.py:inverse", "s2fft/transforms/spherical.py:forward"]}
{"id": "C44", "title": "Results depend on the numbers in an array, not on its data type", "statement": "A transform or rotation given coefficients in an array of integers or of real numbers returns what it returns for the same numbers in an array of complex numbers.", "quantifier": "every array of integers or real numbers, band-limit, sampling scheme, spin or direction, method, rotation, with and without precomputed tables", "why_tests_cant": "the tests draw complex coefficients; the property ranges over data types and all values they hold", "anchors": ["s2fft/transforms/spherical.py:inverse", "s2fft/transforms/wigner.py:inverse", "s2fft/utils/rotation.py:rotate_flms", "s2fft/precompute_transforms/fourier_wigner.py:inverse_transform", "s2fft/precompute_transforms/custom_ops.py:wigner_subset_to_s2"]}
{"id": "C45", "title": "Integers computed through floats are exact in double precision", "statement": "Functions that compute an integer by way of floating point numbers return the integer that exact arithmetic gives. ind2elm inverts elm2ind. The HEALPix lookup of a pixel centre, with the centre's angles and the lookup computed in double precision, returns the index of this pixel. Lengths and quotients computed as int(a / b) are exact.", "quantifier": "every rounding to nearest in double precision with any rule for ties, every cosine and inverse cosine accurate to 2^-50; degrees below 2^26, nside up to 2^18 and all of its pixels, all integers below 2^53", "why_tests_cant": "rounding errors differ from input to input and from library to library, and the branch taken at the edge of the polar caps depends on the last digit", "anchors": ["s2fft/sampling/s2_samples.py:ind2elm", "s2fft/sampling/s2_samples.py:_t2theta_healpix", "s2fft/sampling/s2_samples.py:p2phi_ring", "s2fft/sampling/s2_samples.py:hp_ang2pix", "s2fft/sampling/s2_samples.py:_hp_zphi2pix"]}
{"id": "C46", "title": "The Risbo recursion is stable in double precision", "statement": "Wigner-d planes computed by the Risbo recursion in double precision, started from an empty plane and run through all degrees up to l, are accepted for every angle and every entry is within (l+1)^(3/2)/2^44 of the exact Wigner d-function; so is every entry of the table of planes at pi/2 used by the Fourier-Wigner transforms, although pi/2 itself is rounded. Up to degree 1000 the error is below 2^-29.", "quantifier": "every rounding to nearest in double precision with any rule for ties and with gradual underflow, every sine and cosine accurate to 2^-50; all angles in [0, pi], all degrees below 2^28, all orders, all band-limits above the degree", "why_tests_cant": "errors of each step feed into all later ones; growth that appears only at some angle, order or degree is not seen in samples, and roundings differ between libraries", "anchors": ["s2fft/recursions/risbo.py:compute_full", "s2fft/recursions/risbo.py:compute_full_vectorised", "s2fft/precompute_transforms/construct.py:fourier_wigner_kernel"]}
{"id": "C47", "title": "The CUDA kernels have no data races and no undefined behaviour", "statement": "The kernels that fold and extend spectra in the CUDA HEALPix transforms never overflow an int, never read outside their input or write outside their output, and no two threads touch the same address; every interleaving of the memory accesses of all threads ends and leaves the same result in every element of the output, namely the folded (resp. periodically extended) spectrum of every ring.", "quantifier": "every nside >= 1, every L >= 2 nside with 2 L (4 nside - 1) + 128 < 2^31, every contents of both buffers and registers, every interleaving of single accesses by all threads of all blocks", "why_tests_cant": "the number of interleavings is astronomical and hardware runs only a few of them; overflow needs maps too large for tests", "anchors": ["lib/src/s2fft_kernels.cu:spectral_folding", "lib/src/s2fft_kernels.cu:spectral_extension", "lib/src/s2fft_kernels.cu:computeNphi", "lib/src/s2fft_kernels.cu:launch_spectral_folding", "lib/src/s2fft_kernels.cu:launch_spectral_extension"]}
{"id": "C48", "title": "The sampling grids stored in double precision are those of the scheme, in order and in range", "statement": "The colatitudes and azimuths that thetas, phis_equiang and phis_ring return as doubles differ from the exact sample positions by at most two units in the last place (HEALPix colatitudes: nside / 2^47; GL colatitudes: 2^-50 + 4 L e for a table of nodes with error e), are strictly increasing, and lie in [0, np.pi] resp. [0, 2 pi), so that every routine that takes a colatitude accepts them; the tests for the poles in the recursions recognise a stored colatitude exactly when the ring is a pole.", "quantifier": "every band-limit up to 2^40 (pole tests: 2^14), every nside up to 2^18, every ring and sample, MW, MWSS, DH, GL and HEALPix, every rule for rounding ties and every inverse cosine accurate to 2^-50", "why_tests_cant": "rounding errors depend on the band-limit in an irregular way; a test at a few band-limits sees only a few of them", "anchors": ["s2fft/sampling/s2_samples.py:thetas", "s2fft/sampling/s2_samples.py:t2theta", "s2fft/sampling/s2_samples.py:phis_equiang", "s2fft/sampling/s2_samples.py:p2phi_equiang", "s2fft/sampling/s2_samples.py:phis_ring", "s2fft/sampling/s2_samples.py:p2phi_ring", "s2fft/recursions/risbo.py:compute_full", "s2fft/recursions/turok.py:compute_slice", "s2fft/recursions/turok_jax.py:compute_slice"]}
{"id": "C49", "title": "The transforms with precomputed kernels are numerically stable", "statement": "With every operation rounded to double precision, the kernels of spin_spherical_kernel with recursion=\"risbo\" differ from the exact ones by at most sqrt((2l+1)/4pi) L^(3/2)/2^41 (on HEALPix by at most sqrt((2l+1)/4pi) (L^(3/2)/2^42 + L nside/2^47), times the weight of the ring for the forward kernel), the inverse transform with such a kernel returns the samples of the harmonic expansion up to L^(3/2)/2^41 times the size of the coefficients, and forward(inverse(flm)) returns flm up to 4 pi sqrt((2l+1)/4pi) L^(3/2)/2^39 times that size on the grids whose forward transform does not resample (DH, GL), and up to 4 pi sqrt((2l+1)/4pi) L^(3/2)/2^33 times that size on MW and MWSS, where the signal is first resampled to twice the band-limit. In particular the error does not grow exponentially with the band-limit or the spin.", "quantifier": "every band-limit up to 2^26, every spin below the band-limit, all coefficients, real and complex signals, MW, MWSS and DH and, given tables of stated accuracy, GL; every rounding to nearest, every summation order and FFT algorithm with an error of a few units in the last place per term", "why_tests_cant": "the tests compare at a few small band-limits with a fixed tolerance; whether errors stay bounded for all band-limits, spins and coefficients is a statement about infinitely many of them", "anchors": ["s2fft/precompute_transforms/construct.py:spin_spherical_kernel", "s2fft/precompute_transforms/spherical.py:inverse_transform", "s2fft/precompute_transforms/spherical.py:forward_transform", "s2fft/utils/quadrature.py:quad_weights_dh", "s2fft/recursions/risbo.py:compute_full", "s2fft/utils/resampling.py:mw_to_mwss", "s2fft/utils/resampling.py:upsample_by_two_mwss", "s2fft/utils/quadrature.py:quad_weights_transform"]}
{"id": "C50", "title": "Analysis and synthesis are stable, uniformly in the band-limit", "statement": "If two arrays of samples differ by at most eta everywhere, the coefficients returned by the forward transforms differ by at most 80 pi sqrt((2l+1)/(4 pi)) eta on the sphere and 160 pi^2 eta on the rotation group, with constants that depend neither on the band-limit nor on the spin or the number of directions; in particular noise of size eta on the samples of a band-limited signal changes its coefficients by no more than that. If two arrays of coefficients differ, the samples returned by the inverse transforms differ by at most the weighted sum of the differences.", "quantifier": "every band-limit, spin, L_lower, number of directions and pair of arrays; MW, MWSS, DH and GL for analysis, HEALPix too for synthesis; the four base methods, the transforms with precomputed kernels and the on-the-fly transforms (NumPy, JAX, torch) on the sphere, the base and on-the-fly transforms on the rotation group", "why_tests_cant": "tests use exactly band-limited random signals at a few band-limits; how errors in the data are amplified, for all data and band-limits, is not sampled", "anchors": ["s2fft/base_transforms/spherical.py:forward", "s2fft/transforms/spherical.py:forward", "s2fft/precompute_transforms/spherical.py:forward", "s2fft/transforms/wigner.py:forward", "s2fft/base_transforms/wigner.py:forward", "s2fft/utils/resampling.py", "s2fft/utils/quadrature.py"]}
{"id": "C51", "title": "The transforms are linear", "statement": "For all inputs x and y of the shape a transform accepts and all scalars a, b (real scalars when the reality flag is in force), the transform of a x + b y is a times the transform of x plus b times the transform of y, entry by entry. For the forward transforms the samples need not come from a band-limited signal.", "quantifier": "every band-limit, spin, L_lower, number of directions, sampling scheme and pair of arrays; the four base methods, the transforms with precomputed kernels, the on-the-fly transforms (NumPy, JAX, torch), forward and inverse, on the sphere and on the rotation group; Fourier-Wigner transforms; rotation of coefficients; HEALPix analysis with any number of refinement iterations", "why_tests_cant": "no test adds two signals; the reality, resampling, pole and south-pole branches could each depend on the data, and only a proof over all pairs of arrays excludes it", "anchors": ["s2fft/base_transforms/spherical.py:forward", "s2fft/base_transforms/spherical.py:inverse", "s2fft/base_transforms/wigner.py", "s2fft/transforms/spherical.py", "s2fft/transforms/wigner.py", "s2fft/precompute_transforms/spherical.py", "s2fft/precompute_transforms/wigner.py", "s2fft/precompute_transforms/fourier_wigner.py", "s2fft/utils/rotation.py:rotate_flms", "s2fft/utils/iterative_refinement.py"]}
{"id": "C52", "title": "The transforms commute with turns about the polar axis", "statement": "Turning the samples of a signal by an angle alpha that takes every sample point to a sample point (rolling the columns of a ring; on HEALPix a quarter turn) multiplies the coefficients of order m returned by the forward transforms by exp(-i m alpha), and the inverse transforms of coefficients so multiplied return the turned samples. On the rotation group the same holds for turns by alpha in the first and gamma in the last angle, with the factor exp(-i (m alpha + n gamma)). rotate_flms by (alpha, 0, 0) applies these factors. For the forward transforms the samples need not come from a band-limited signal.", "quantifier": "every band-limit, spin, L_lower, number of directions, sampling scheme, array and angle taking samples to samples; the four base methods, precomputed kernels, on-the-fly transforms (NumPy, JAX, torch), Fourier-Wigner transforms, HEALPix analysis with any number of refinement iterations", "why_tests_cant": "no test turns a signal; resampling, phase shifts of the HEALPix rings and the pole rows each treat columns separately, and equality for all samples, spins and turns cannot be sampled", "anchors": ["s2fft/base_transforms/spherical.py", "s2fft/base_transforms/wigner.py", "s2fft/transforms/spherical.py", "s2fft/transforms/wigner.py", "s2fft/precompute_transforms/spherical.py", "s2fft/precompute_transforms/wigner.py", "s2fft/precompute_transforms/fourier_wigner.py", "s2fft/utils/resampling.py", "s2fft/utils/healpix_ffts.py", "s2fft/utils/rotation.py:rotate_flms", "s2fft/utils/iterative_refinement.py"]}
{"id": "C53", "title": "Analysis is the adjoint of synthesis, and energy is conserved", "statement": "On the DH, GL and HEALPix grids the forward transform of any array of samples f and the inverse transform of any coefficients c satisfy <forward f, c> = <f, inverse c>, the samples being weighted by quad_weights: the forward transform is the adjoint of the inverse. On the DH and GL grids the inverse transform preserves inner products: the weighted energy of the samples it returns is the energy of the coefficients of the degrees synthesized. On the rotation group the same holds with 2 pi/(2N-1) for each sample of the third angle and (2l+1)/(8 pi^2) for each coefficient. With the Gauss-Legendre weights the code computes by a stopped Newton iteration, energy is conserved to a relative 3e-14 (L+1/2)^2.", "quantifier": "every band-limit, spin, L_lower, number of directions, array of samples and of coefficients; base methods, precomputed kernels, on-the-fly transforms (NumPy, JAX, torch)", "why_tests_cant": "no test takes inner products; the identity quantifies over all samples and coefficients independently, including samples of no band-limited signal", "anchors": ["s2fft/base_transforms/spherical.py", "s2fft/base_transforms/wigner.py", "s2fft/transforms/spherical.py", "s2fft/transforms/wigner.py", "s2fft/precompute_transforms/spherical.py", "s2fft/precompute_transforms/wigner.py", "s2fft/utils/quadrature.py:quad_weights"]}
{"id": "C54", "title": "GPU transforms from several host threads", "statement": "When any number of host threads call the CUDA HEALPix transforms (healpix_fft_cuda, healpix_ifft_cuda) and build their descriptors at the same time, on any streams, every call that has completed has computed what it computes alone, and no interleaving prevents a call from completing.", "quantifier": "every number of threads, every interleaving of their CUDA calls with each other and with the progress of the streams, every history of the plan cache, nside, band-limit, input and order of kernel threads", "why_tests_cant": "tests call from one thread; the failures need a context switch between two adjacent calls to cuFFT", "anchors": ["lib/src/extensions.cc:healpix_forward", "lib/src/extensions.cc:healpix_backward", "lib/src/extensions.cc:build_healpix_fft_descriptor", "lib/src/s2fft.cu:Initialize", "lib/src/s2fft.cu:Forward", "lib/src/s2fft.cu:Backward", "lib/src/plan_cache.cc:GetS2FFTExec", "s2fft/utils/healpix_ffts.py:healpix_fft_cuda"]}
{"id": "C55", "title": "Complex conjugates and mirror images", "statement": "Synthesizing the coefficients (-1)^(s+m) conj(c_{l,-m}) with spin -s returns the complex conjugates of the samples synthesized from c with spin s, on every grid. Synthesizing (-1)^(l+m) c_{lm} with spin -s returns the samples with the rings in reverse order, on every grid that is its own mirror image (all but MW). Analysis maps the conjugates and the mirror image of any samples on the DH, GL and HEALPix grids to these coefficients. On the rotation group the coefficients of the conjugate are (-1)^(m+n) conj(c_{-n,l,-m}) and those of f(alpha, pi-beta, -gamma) are (-1)^(l+m) c_{-n,l,m}. Methods, kernels and recursions of the two calls may differ.", "quantifier": "every band-limit, spin (on the fly below 8), L_lower, number of directions, array of coefficients and of samples; base methods, precomputed kernels, on-the-fly transforms (NumPy, JAX, torch), Fourier-Wigner synthesis", "why_tests_cant": "no test compares the transforms of opposite spins; the identities relate all pairs of inputs of two different transforms, and the code treats negative spins, negative orders and southern rings by separate branches", "anchors": ["s2fft/base_transforms/spherical.py", "s2fft/base_transforms/wigner.py", "s2fft/transforms/spherical.py", "s2fft/transforms/wigner.py", "s2fft/precompute_transforms/spherical.py", "s2fft/precompute_transforms/wigner.py", "s2fft/precompute_transforms/fourier_wigner.py", "s2fft/sampling/s2_samples.py:thetas"]}
{"id": "C56", "title": "Best weighted fit, and projection", "statement": "For any samples f on a DH or GL grid, band-limited or not, let g = forward(f) and F = inverse(g). With the weights w that quad_weights returns, sum w|f - inverse(c)|^2 = sum w|f - F|^2 + sum |g - c|^2 for all coefficients c: F is the closest signal the inverse transform can produce and no other coefficients do as well. Further sum w|f|^2 = sum |g|^2 + sum w|f - F|^2, so the coefficients never have more energy than the samples, and as much only if F meets f at every sample. On every grid with a sampling theorem (MW, MWSS, DH, GL) forward(F) = g: inverse after forward is a projection. The same holds on the rotation group, with the factors 2 pi/(2N-1) and (2l+1)/(8 pi^2).", "quantifier": "every band-limit, spin (on the fly below 8), L_lower (0 for the precomputed and the on-the-fly projection), number of directions, array of samples and of competing coefficients; base methods, precomputed kernels, on-the-fly transforms, and for the projection the Fourier-Wigner transforms", "why_tests_cant": "the tests only transform band-limited signals, on which every one of these is a round trip; best fit is a statement about all competing coefficients of all data", "anchors": ["s2fft/base_transforms/spherical.py", "s2fft/base_transforms/wigner.py", "s2fft/transforms/spherical.py", "s2fft/transforms/wigner.py", "s2fft/precompute_transforms/spherical.py", "s2fft/precompute_transforms/wigner.py", "s2fft/utils/quadrature.py", "s2fft/precompute_transforms/fourier_wigner.py"]}
{"id": "C57", "title": "Changing grid and band limit", "statement": "Analysing a band-limited signal sampled on a grid with a sampling theorem, copying the coefficients into an array for another band limit (zeros where the old array has none) and synthesizing on any grid, HEALPix included, returns the samples there of the same signal, with the degrees (and directions) both band limits have. And a signal sampled for a larger band limit than it needs is analysed into its own coefficients, the rest being zero. This holds for the base, precomputed, on-the-fly and Fourier-Wigner spherical and Wigner transforms, wherever each is itself exact (C24, C26-C29, C38, C39).", "quantifier": "every pair of grids and band limits, spin, number of directions, method and band-limited signal", "why_tests_cant": "pairs of grids and a continuum of signals; a padding or indexing error shows only for some combinations", "anchors": ["s2fft/base_transforms/spherical.py:inverse", "s2fft/base_transforms/spherical.py:forward", "s2fft/precompute_transforms/spherical.py:inverse", "s2fft/transforms/spherical.py:inverse", "s2fft/transforms/wigner.py:inverse", "s2fft/base_transforms/wigner.py:inverse", "s2fft/precompute_transforms/fourier_wigner.py"]}
{"id": "C58", "title": "Declared results of the JAX primitives", "statement": "The shape and the data type that a JAX primitive of the package declares for its result while a function is traced are those of the array it then computes: for healpy_map2alm and healpy_alm2map, whose cotangents moreover have the shape and type of the argument, and for the CUDA HEALPix FFTs, where a call with an array of another shape is refused and for the others the argument and the declared result have as many elements as the kernels read and write, in the precision the kernels are told, so that no thread accesses memory outside the two buffers.", "quantifier": "every map and coefficient array, data type, band limit, nside, mode of JAX, and interleaving of GPU threads", "why_tests_cant": "a wrong declaration shows only under tracing, or as memory corruption on a GPU, for particular sizes, types and schedules", "anchors": ["s2fft/transforms/c_backend_spherical.py:_healpy_map2alm_abstract_eval", "s2fft/transforms/c_backend_spherical.py:_healpy_alm2map_abstract_eval", "s2fft/transforms/c_backend_spherical.py:_healpy_map2alm_transpose", "s2fft/transforms/c_backend_spherical.py:_healpy_alm2map_transpose", "s2fft/utils/healpix_ffts.py:_healpix_fft_cuda_abstract", "s2fft/utils/healpix_ffts.py:_healpix_fft_cuda_lowering", "s2fft/utils/healpix_ffts.py:healpix_fft_cuda", "s2fft/utils/healpix_ffts.py:healpix_ifft_cuda", "s2fft/utils/jax_primitive.py:register_primitive"]}
{"id": "C59", "title": "The Wigner transforms with precomputed kernels are numerically stable", "statement": "With every operation rounded to double precision, the kernels of wigner_kernel differ from the exact ones by at most (2l+1)/(8 pi^2) L^(3/2)/2^41 in each mode, the inverse transform with such a kernel returns the samples of the Wigner expansion up to L^(3/2)/2^41 times the size of the coefficients, the forward transform of nearly band-limited samples returns the coefficients up to 8 pi^2 times their error and rounding, and forward(inverse(flmn)) returns flmn up to 8 pi^2 L^(3/2)/2^39 times the size of the coefficients on DH and 8 pi^2 L^(3/2)/2^33 times on MW and MWSS. In particular the error does not grow exponentially with the band-limit, and its bound does not depend on the azimuthal band-limit N.", "quantifier": "every band-limit up to 2^26, every azimuthal band-limit N up to L (from 2 on for the forward transform on MW and MWSS), all coefficients, real and complex signals, the modes auto, direct and fft, MW, MWSS and DH, and GL given tables of stated accuracy, on which the bound then depends; every rounding to nearest, every summation order and FFT algorithm with an error of a few units in the last place per term", "why_tests_cant": "the tests compare at a few small band-limits with a fixed tolerance; whether errors stay bounded for all band-limits, directions and coefficients is a statement about infinitely many of them", "anchors": ["s2fft/precompute_transforms/construct.py:wigner_kernel", "s2fft/precompute_transforms/wigner.py:inverse_transform", "s2fft/precompute_transforms/wigner.py:forward_transform", "s2fft/recursions/risbo.py:compute_full_vectorised", "s2fft/utils/quadrature.py:quad_weights", "s2fft/utils/quadrature.py:quad_weights_transform", "s2fft/utils/resampling.py:mw_to_mwss", "s2fft/utils/resampling.py:upsample_by_two_mwss"]}
{"id": "C60", "title": "Rotations of harmonic coefficients are numerically stable", "statement": "With every operation rounded to double precision, the tables of generate_rotate_dls hold the Wigner functions up to (l+1)^(3/2)/2^44 in degree l, and rotate_flms, with or without tables computed beforehand, returns the coefficients of the rotated signal up to L^(3/2)/2^42 of the size of each degree. So the power of every degree is preserved, and rotating by the negated angles in reverse order returns the original coefficients, up to a few times that error; entries that store no coefficient are exactly zero. In particular the error does not grow exponentially with the band-limit.", "quantifier": "every band-limit up to 2^28, all coefficients, all angles with |alpha|, |gamma| at most 8 and |beta| at most 4; every rounding to nearest, every choice of the compiler to fuse a multiplication with an addition or to divide by multiplying with a reciprocal, every summation order", "why_tests_cant": "the tests compare at a few small band-limits and angles with a fixed tolerance; whether errors stay bounded for all band-limits, angles and coefficients, however the compiler rearranges the arithmetic, is a statement about infinitely many of them", "anchors": ["s2fft/utils/rotation.py:rotate_flms", "s2fft/utils/rotation.py:generate_rotate_dls", "s2fft/utils/rotation.py:__exp_array", "s2fft/recursions/risbo_jax.py:compute_full"]}
{"id": "C61", "title": "The Fourier-Wigner transforms are numerically stable", "statement": "With every operation rounded to double precision, the tables of fourier_wigner_kernel and its JAX version hold the Wigner functions at pi/2 up to (l+1)^(3/2)/2^44 in degree l, and the inverse Fourier-Wigner transform, with or without tables computed beforehand, returns the samples of the Wigner expansion up to L^(3/2)/2^41 times the size of the coefficients; the samples of a real signal are real. The forward transform of samples of size at most M, which are those of an expansion up to eta, returns its coefficients up to 8 pi^2 (M L^(3/2)/2^38 + 12 eta), and a round trip returns them up to 8 pi^2 L^(3/2)/2^36 times their size, whichever implementations and tables are used on either side. In particular the error does not grow exponentially with the band-limit, and its bound does not depend on the azimuthal band-limit N.", "quantifier": "every band-limit up to 2^26, every azimuthal band-limit N up to L, all coefficients and samples, real and complex signals, NumPy and JAX, tables of either constructor or none, MW and MWSS; every rounding to nearest, every summation order and FFT algorithm with an error of a few units in the last place per term, every choice of the compiler to fuse a multiplication with an addition", "why_tests_cant": "the tests compare at a few small band-limits with a fixed tolerance; whether errors stay bounded for all band-limits, directions and coefficients is a statement about infinitely many of them", "anchors": ["s2fft/precompute_transforms/construct.py:fourier_wigner_kernel", "s2fft/precompute_transforms/construct.py:fourier_wigner_kernel_jax", "s2fft/precompute_transforms/fourier_wigner.py:inverse_transform", "s2fft/precompute_transforms/fourier_wigner.py:inverse_transform_jax", "s2fft/precompute_transforms/fourier_wigner.py:forward_transform", "s2fft/precompute_transforms/fourier_wigner.py:forward_transform_jax"]}
{"id": "C62", "title": "The JAX transforms with precomputed kernels are numerically stable", "statement": "In 64-bit mode, with every operation rounded to double precision, the kernels of spin_spherical_kernel_jax with recursion=\"risbo\" differ from the exact ones by at most sqrt((2l+1)/4pi) L^(3/2)/2^41, the JAX inverse transform with such a kernel returns the samples of the harmonic expansion up to L^(3/2)/2^41 times the size of the coefficients, and on the DH grid forward(inverse(flm)) returns flm up to 4 pi sqrt((2l+1)/4pi) L^(3/2)/2^39 times that size, on the MW and MWSS grids, whose signals are resampled first, up to 4 pi sqrt((2l+1)/4pi) L^(3/2)/2^33. The kernels of wigner_kernel_jax differ from the exact ones by at most (2l+1)/(8 pi^2) L^(3/2)/2^41, the JAX inverse Wigner transform returns the samples of the Wigner expansion up to L^(3/2)/2^41 times the size of the coefficients, and on the DH grid the round trip returns them up to 8 pi^2 L^(3/2)/2^39 times that size, on the MW and MWSS grids (with more than one direction) up to 8 pi^2 L^(3/2)/2^33. The samples of a real signal are real. The bounds hold whatever the compiler fuses, folds or replaces by a multiplication with a reciprocal.", "quantifier": "every band-limit up to 2^26, every spin below the band-limit, every azimuthal band-limit N up to L, all coefficients and samples, real and complex signals, both modes of the Wigner kernel; kernels and inverse transforms for MW, MWSS and DH (the spherical kernel, the inverse Wigner transform and both round trips also for GL, given tables of stated accuracy, on which the bound then depends), forward transforms for the same grids; every rounding to nearest, every summation order and FFT algorithm with an error of a few units in the last place per term, every choice of the compiler to fuse a multiplication with an addition", "why_tests_cant": "the tests compare at a few small band-limits with a fixed tolerance on one compiler; whether errors stay bounded for all band-limits and coefficients and for every way of compiling is a statement about infinitely many of them", "anchors": ["s2fft/precompute_transforms/construct.py:spin_spherical_kernel_jax", "s2fft/precompute_transforms/construct.py:wigner_kernel_jax", "s2fft/precompute_transforms/spherical.py:inverse_transform_jax", "s2fft/precompute_transforms/spherical.py:forward_transform_jax", "s2fft/precompute_transforms/wigner.py:inverse_transform_jax", "s2fft/precompute_transforms/wigner.py:forward_transform_jax", "s2fft/utils/quadrature_jax.py:quad_weights_dh", "s2fft/utils/quadrature_jax.py:quad_weight_dh_theta_only", "s2fft/recursions/risbo_jax.py:compute_full", "s2fft/utils/resampling_jax.py:mw_to_mwss", "s2fft/utils/resampling_jax.py:upsample_by_two_mwss", "s2fft/utils/quadrature_jax.py:quad_weights_transform", "s2fft/utils/quadrature_jax.py:quad_weights_mwss_theta_only"]}
