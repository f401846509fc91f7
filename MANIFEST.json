{
 "claims": [
  {
   "property": "C01",
   "status": "proved",
   "theorems": [
    "S2fft.C01_ind2elm_elm2ind",
    "S2fft.C01_elm2ind_ind2elm",
    "S2fft.C01_bijection"
   ],
   "note": ""
  },
  {
   "property": "C02",
   "status": "proved",
   "theorems": [
    "S2fft.C02_2d_1d_2d",
    "S2fft.C02_1d_2d_1d",
    "S2fft.C02_reject",
    "S2fft.C02_fast_1d_to_2d",
    "S2fft.C02_fast_2d_to_1d"
   ],
   "note": ""
  },
  {
   "property": "C03",
   "status": "proved",
   "theorems": [
    "S2fft.C03_bijection",
    "S2fft.C03_2d_hp_2d",
    "S2fft.C03_hp_2d_hp",
    "S2fft.C03_hp_2d_conjSymm",
    "S2fft.C03_lm2lm_hp",
    "S2fft.C03_fast_2d_to_hp",
    "S2fft.C03_fast_hp_to_2d",
    "S2fft.C03_reject"
   ],
   "note": ""
  },
  {
   "property": "C04",
   "status": "proved",
   "theorems": [
    "S2fft.C04_bijection",
    "S2fft.C04_3d_1d_3d",
    "S2fft.C04_1d_3d_1d",
    "S2fft.C04_reject"
   ],
   "note": ""
  },
  {
   "property": "C05",
   "status": "proved",
   "theorems": [
    "S2fft.C05_thetas",
    "S2fft.C05_thetas_gl",
    "S2fft.C05_phis",
    "S2fft.C05_shapes",
    "S2fft.C05_shapes_healpix",
    "S2fft.C05_reject"
   ],
   "note": ""
  },
  {
   "property": "C06",
   "status": "proved",
   "theorems": [
    "S2fft.C06_ring_sizes",
    "S2fft.C06_reject",
    "S2fft.C06_equatorial",
    "S2fft.C06_ring_phis",
    "S2fft.C06_ring_thetas"
   ],
   "note": ""
  },
  {
   "property": "C07",
   "status": "partial",
   "theorems": [
    "S2fft.C07_pixel_centres",
    "S2fft.C07_general_false_wrap",
    "S2fft.C07_general_false_boundary",
    "S2fft.C07_inside_partial",
    "S2fft.C07_inside_turn",
    "S2fft.C07_pixels_cover",
    "S2fft.C07_general_false"
   ],
   "note": "Every pixel centre, and every direction strictly inside a pixel (squares of the HEALPix projection, which cover the sphere: C07_pixels_cover), is mapped to this pixel, for all nside, except directions across azimuth zero from the centre of their pixel. For these the code returns an index 4 nside too large at every resolution (C07_inside_turn, C07_general_false, C07_general_false_wrap); on edges see C07_general_false_boundary."
  },
  {
   "property": "C08",
   "status": "proved",
   "theorems": [
    "S2fft.C08_series",
    "S2fft.C08_pixels",
    "S2fft.C08_reject",
    "S2fft.C08_phase_shifts"
   ],
   "note": ""
  },
  {
   "property": "C09",
   "status": "proved",
   "theorems": [
    "S2fft.C09_sums",
    "S2fft.C09_pixels",
    "S2fft.C09_reality_lower_half",
    "S2fft.C09_reject",
    "S2fft.C09_round_trip"
   ],
   "note": ""
  },
  {
   "property": "C10",
   "status": "partial",
   "theorems": [
    "S2fft.C10_fft_numpy_jax",
    "S2fft.C10_ifft_numpy_jax",
    "S2fft.C10_folding",
    "S2fft.C10_extension",
    "S2fft.C10_fft_cuda",
    "S2fft.C10_ifft_cuda",
    "S2fft.C10_cuda_geometry",
    "S2fft.C10_jax_nside_one",
    "S2fft.C10_cuda_reality_differs"
   ],
   "note": "NumPy, JAX and CUDA agree for nside >= 2 (NumPy and CUDA for nside >= 1). C10_jax_nside_one and C10_cuda_reality_differs show where the code itself breaks the property."
  },
  {
   "property": "C11",
   "status": "partial",
   "theorems": [
    "S2fft.C11_numpy_ifft_modifies_input",
    "S2fft.C11_cuda_fft_modifies_input",
    "S2fft.C11_input_kept_partial"
   ],
   "note": "The code violates the property: C11_numpy_ifft_modifies_input and C11_cuda_fft_modifies_input are concrete counterexamples; C11_input_kept_partial states what holds."
  },
  {
   "property": "C12",
   "status": "proved",
   "theorems": [
    "S2fft.C12_step",
    "S2fft.C12_all",
    "S2fft.C12_reject",
    "S2fft.C12_vectorised",
    "S2fft.C12_jax_step",
    "S2fft.C12_jax"
   ],
   "note": ""
  },
  {
   "property": "C13",
   "status": "proved",
   "theorems": [
    "S2fft.C13_slice",
    "S2fft.C13_slice_close",
    "S2fft.C13_full",
    "S2fft.C13_full_close",
    "S2fft.C13_reject",
    "S2fft.C13_window_inexact",
    "S2fft.C13_low_order_accepted"
   ],
   "note": ""
  },
  {
   "property": "C14",
   "status": "proved",
   "theorems": [
    "S2fft.C14_slice",
    "S2fft.C14_agree",
    "S2fft.C14_close"
   ],
   "note": ""
  },
  {
   "property": "C15",
   "status": "proved",
   "theorems": [
    "S2fft.C15_step",
    "S2fft.C15_all",
    "S2fft.C15_quarter",
    "S2fft.C15_reject"
   ],
   "note": ""
  },
  {
   "property": "C16",
   "status": "partial",
   "theorems": [
    "S2fft.C16_inverse_partial",
    "S2fft.C16_inverse_poles",
    "S2fft.C16_forward_partial",
    "S2fft.C16_inverse_limit",
    "S2fft.C16_forward_limit",
    "S2fft.C16_lower_leak",
    "S2fft.C16_one",
    "S2fft.C16_doubles"
   ],
   "note": "The latitudinal steps contract with the Wigner d-functions for every ring at which the recursion does not divide by a vanishing value, and by continuity in the limit at every angle between the poles. At angles stored as doubles no division by zero occurs: a double is rational and no d-function vanishes at a rational angle other than 0 (C16_doubles). C16_lower_leak refutes the claim for L_lower = L-1 and C16_one for L = 1 (NumPy)."
  },
  {
   "property": "C17",
   "status": "proved",
   "theorems": [
    "S2fft.C17_exists",
    "S2fft.C17_orthogonal",
    "S2fft.C17_identity",
    "S2fft.C17_symmetry",
    "S2fft.C17_compose",
    "S2fft.C17_recursions_agree"
   ],
   "note": ""
  },
  {
   "property": "C18",
   "status": "proved",
   "theorems": [
    "S2fft.C18_inverse",
    "S2fft.C18_inverse_close",
    "S2fft.C18_grids",
    "S2fft.C18_gl_grid"
   ],
   "note": ""
  },
  {
   "property": "C19",
   "status": "proved",
   "theorems": [
    "S2fft.C19_agree",
    "S2fft.C19_healpix_reject",
    "S2fft.C19_reality_needs_real"
   ],
   "note": ""
  },
  {
   "property": "C20",
   "status": "proved",
   "theorems": [
    "S2fft.C20_agree",
    "S2fft.C20_reality_needs_bandlimit"
   ],
   "note": ""
  },
  {
   "property": "C21",
   "status": "proved",
   "theorems": [
    "S2fft.C21_forward",
    "S2fft.C21_inverse",
    "S2fft.C21_spin",
    "S2fft.C21_otf_inverse",
    "S2fft.C21_otf_forward",
    "S2fft.C21_precompute_spin",
    "S2fft.C21_precompute_inverse",
    "S2fft.C21_precompute_forward",
    "S2fft.C21_wigner_inverse",
    "S2fft.C21_wigner_forward",
    "S2fft.C21_otf_wigner_inverse",
    "S2fft.C21_otf_wigner_forward",
    "S2fft.C21_base_refined",
    "S2fft.C21_precompute_refined",
    "S2fft.C21_otf_refined"
   ],
   "note": "Base (all methods), on-the-fly (NumPy/JAX/torch) and precompute spherical transforms, plus base and on-the-fly Wigner transforms. The on-the-fly statements assume the regularity condition OtfRegular of the Price-McEwen recursion (no division by zero at the stored angles; met for all small perturbations, C39_nudge, and for all angles stored as doubles, C39_doubles_regular)."
  },
  {
   "property": "C22",
   "status": "proved",
   "theorems": [
    "S2fft.C22_mw_weights",
    "S2fft.C22_mw",
    "S2fft.C22_mwss",
    "S2fft.C22_dh",
    "S2fft.C22_transform_mwss",
    "S2fft.C22_transform_other",
    "S2fft.C22_healpix_area",
    "S2fft.C22_area",
    "S2fft.C22_reject",
    "S2fft.C22_gl_ends",
    "S2fft.C22_gl_nodes",
    "S2fft.C22_gl",
    "S2fft.C22_gl_tables_exist",
    "S2fft.C22_gl_limit"
   ],
   "note": "MW, MWSS, DH, the transform weights and the HEALPix area are exact. For Gauss-Legendre the Newton iteration of the code is proved to end and to reach the zeros of the Legendre polynomial (C22_gl_ends, C22_gl_nodes); its weights integrate up to the tolerance of that iteration (C22_gl, relative error at most 3e-14 (L + 1/2)^2) and exactly in the limit (C22_gl_limit). leggauss is taken to return the zeros, which exist (C22_gl_tables_exist)."
  },
  {
   "property": "C23",
   "status": "proved",
   "theorems": [
    "S2fft.C23_mw_to_mwss",
    "S2fft.C23_mw_to_mwss_2d",
    "S2fft.C23_upsample",
    "S2fft.C23_upsample_2d",
    "S2fft.C23_upsample_keeps",
    "S2fft.C23_parity_mw",
    "S2fft.C23_parity_mwss",
    "S2fft.C23_parity_spatial",
    "S2fft.C23_unextend",
    "S2fft.C23_reject_sampling",
    "S2fft.C23_reject_rows",
    "S2fft.C23_reject_odd",
    "S2fft.C23_downsample_upsample",
    "S2fft.C23_downsample_drops_pole",
    "S2fft.C23_jax",
    "S2fft.C23_jax_extension"
   ],
   "note": "Everything listed is proved. In addition C23_downsample_drops_pole records that downsample_by_two_mwss, applied to a signal on [0, pi] as its documentation allows, loses the south pole row."
  },
  {
   "property": "C24",
   "status": "proved",
   "theorems": [
    "S2fft.C24_forward",
    "S2fft.C24_round_trip",
    "S2fft.C24_grids",
    "S2fft.C24_gl_tables",
    "S2fft.C24_gl_forward",
    "S2fft.C24_gl_round_trip"
   ],
   "note": "mw, mwss, dh: exact, for L <= 10000 without further hypotheses (C24_grids). gl: exact for exact tables; with the weights the code computes up to the tolerance of its Newton iteration (C24_gl_forward, C24_gl_round_trip; L <= 20000)."
  },
  {
   "property": "C25",
   "status": "partial",
   "theorems": [
    "S2fft.C25_base_inverse",
    "S2fft.C25_base_forward",
    "S2fft.C25_base_forward_iter",
    "S2fft.C25_inverse",
    "S2fft.C25_wigner_inverse",
    "S2fft.C25_forward",
    "S2fft.C25_wigner_forward",
    "S2fft.C25_forward_zero",
    "S2fft.C25_inverse_last",
    "S2fft.C25_inverse_last_differs",
    "S2fft.C25_forward_last",
    "S2fft.C25_forward_last_differs",
    "S2fft.C25_ssht_inverse",
    "S2fft.C25_ssht_forward"
   ],
   "note": "Proved for the base transforms (all methods) and, for the on-the-fly NumPy/JAX/torch spherical and Wigner transforms, for every L_lower < L-1 with no further hypotheses. Refuted at L_lower = L-1 (C25_inverse_last, C25_inverse_last_differs, C25_forward_last, C25_forward_last_differs: the last row leaks) and for jax_ssht (C25_ssht_inverse, C25_ssht_forward, C36_lower_ignored). The jax_cuda extension is a parameter of the model."
  },
  {
   "property": "C26",
   "status": "proved",
   "theorems": [
    "S2fft.C26_inverse",
    "S2fft.C26_forward",
    "S2fft.C26_round_trip"
   ],
   "note": ""
  },
  {
   "property": "C27",
   "status": "partial",
   "theorems": [
    "S2fft.C27_inverse",
    "S2fft.C27_forward",
    "S2fft.C27_expansion",
    "S2fft.C27_analysis",
    "S2fft.C27_round_trip",
    "S2fft.C27_regular",
    "S2fft.C27_method",
    "S2fft.C27_pm_spin",
    "S2fft.C27_recursion",
    "S2fft.C27_risbo_spin_wraps"
   ],
   "note": "NumPy constructor: equality with the base transforms for every grid, recursion, method and input, with |spin| < L for the Risbo recursion (and, for it, no ring inside the pole windows of the base recursion). C27_risbo_spin_wraps refutes the claim for spin >= L. The JAX constructor is covered too; its Price-McEwen recursion divides by d-values, so those theorems assume none vanishes on the grid (C27_regular: this excludes finitely many angles; no angle stored as a double between the poles is among them, C16_doubles)."
  },
  {
   "property": "C28",
   "status": "partial",
   "theorems": [
    "S2fft.C28_expansion_partial",
    "S2fft.C28_inverse_partial",
    "S2fft.C28_forward_partial",
    "S2fft.C28_analysis_partial",
    "S2fft.C28_round_trip_partial",
    "S2fft.C28_one_direction",
    "S2fft.C28_many_directions",
    "S2fft.C28_reality_needs_symmetry",
    "S2fft.C28_auto_fails",
    "S2fft.C28_fft_refused",
    "S2fft.C28_mode_refused",
    "S2fft.C28_method"
   ],
   "note": "Equality with the base Wigner transforms (and the Wigner expansion, analysis and round trip) for every grid, kernel constructor, mode, method and input with 1 <= N <= L, and N >= 2 for forward on MW/MWSS. The code violates the property elsewhere: C28_one_direction (N = 1, forward, MW/MWSS: IndexError), C28_many_directions (N > L, NumPy: IndexError), C28_auto_fails (L = 1), C28_reality_needs_symmetry (reality flag with a non-symmetric n = 0 plane)."
  },
  {
   "property": "C29",
   "status": "partial",
   "theorems": [
    "S2fft.C29_expansion_partial",
    "S2fft.C29_analysis_partial",
    "S2fft.C29_round_trip_partial",
    "S2fft.C29_base_inverse_partial",
    "S2fft.C29_base_forward_partial",
    "S2fft.C29_refused",
    "S2fft.C29_mwss_one",
    "S2fft.C29_many_directions",
    "S2fft.C29_many_directions_jax"
   ],
   "note": "Synthesis, analysis, round trip and agreement with the base transforms for NumPy and JAX, with and without tables, any letter case, both grids, all N <= L. The property as stated fails: L < N is refused by NumPy (C29_many_directions) and wrong in JAX (C29_many_directions_jax); MWSS forward fails for L = 1 (C29_mwss_one)."
  },
  {
   "property": "C30",
   "status": "proved",
   "theorems": [
    "S2fft.C30_rotates",
    "S2fft.C30_support",
    "S2fft.C30_precomputed",
    "S2fft.C30_compose",
    "S2fft.C30_identity",
    "S2fft.C30_z",
    "S2fft.C30_undo",
    "S2fft.C30_power"
   ],
   "note": ""
  },
  {
   "property": "C31",
   "status": "proved",
   "theorems": [
    "S2fft.C31_series",
    "S2fft.C31_zero",
    "S2fft.C31_exact",
    "S2fft.C31_base",
    "S2fft.C31_healpy_refines",
    "S2fft.C31_base_refines_real",
    "S2fft.C31_precompute_refines_real",
    "S2fft.C31_otf_refines_real",
    "S2fft.C31_base_refines",
    "S2fft.C31_precompute_refines",
    "S2fft.C31_otf_refines",
    "S2fft.C31_healpix_round_trip"
   ],
   "note": ""
  },
  {
   "property": "C32",
   "status": "proved",
   "theorems": [
    "S2fft.C32_flm",
    "S2fft.C32_flm_reject",
    "S2fft.C32_flmn",
    "S2fft.C32_flmn_reject",
    "S2fft.C32_real_signal"
   ],
   "note": ""
  },
  {
   "property": "C33",
   "status": "partial",
   "theorems": [
    "S2fft.C33_transpose_vjp",
    "S2fft.C33_inverse_rule",
    "S2fft.C33_forward_rule",
    "S2fft.C33_chain",
    "S2fft.C33_torch",
    "S2fft.C33_torch_adjoint",
    "S2fft.C33_ssht_inverse",
    "S2fft.C33_ssht_forward",
    "S2fft.C33_ssht_inverse_real",
    "S2fft.C33_ssht_inverse_odd_zero",
    "S2fft.C33_ssht_forward_real",
    "S2fft.C33_ssht_forward_asymmetric",
    "S2fft.C33_ssht_inverse_odd",
    "S2fft.C33_healpy_map2alm",
    "S2fft.C33_healpy_alm2map"
   ],
   "note": "JAX latitudinal rules are transposes for L >= 2 (C33_inverse_rule, C33_forward_rule, C33_chain), the PyTorch wrapper conjugates as its convention asks (C33_torch). pyssht/healpy taken to compute what they document (SshtContract, HealpyContract): wrappers' rules are right without the reality flag and for healpy. With the flag the SSHT inverse rule is wrong at every odd band-limit (C33_ssht_inverse_odd) and the SSHT forward rule is wrong for cotangents without the symmetry of a real signal (C33_ssht_forward_asymmetric). L = 1 of the JAX rules not covered."
  },
  {
   "property": "C34",
   "status": "proved",
   "theorems": [
    "S2fft.C34_synthesis",
    "S2fft.C34_synthesis_slice",
    "S2fft.C34_analysis",
    "S2fft.C34_analysis_slice",
    "S2fft.C34_wigner_coefficients",
    "S2fft.C34_round_trip",
    "S2fft.C34_refused",
    "S2fft.C34_mwss_one",
    "S2fft.C34_spin_limit",
    "S2fft.C34_spin_limit_wraps",
    "S2fft.C34_not_harmonic"
   ],
   "note": "Both implementations, MW and MWSS in any letter case, tables from either constructor, every batch, channel and list of spins with |spin| < N <= L (|spin| < L on the sphere). Synthesis and analysis on the rotation group are related to the full Fourier-Wigner transforms slice by slice; analysis on the sphere to the spin harmonic expansion. MWSS with L = 1 is refused by the analysis (C34_mwss_one), as by the full transform. The documented limits are not respected: |spin| = L fails or wraps (C34_spin_limit, C34_spin_limit_wraps), and the coefficients are scaled as Wigner, not harmonic, coefficients (C34_not_harmonic)."
  },
  {
   "property": "C35",
   "status": "proved",
   "theorems": [
    "S2fft.C35_history",
    "S2fft.C35_cached_eq_fresh",
    "S2fft.C35_shared_directions"
   ],
   "note": ""
  },
  {
   "property": "C36",
   "status": "partial",
   "theorems": [
    "S2fft.C36_unknown_method",
    "S2fft.C36_libraries",
    "S2fft.C36_grid",
    "S2fft.C36_lower",
    "S2fft.C36_lower_ignored",
    "S2fft.C36_spin_guard",
    "S2fft.C36_spin_guard_sided",
    "S2fft.C36_kernel_spin",
    "S2fft.C36_base_spin",
    "S2fft.C36_healpy_spin",
    "S2fft.C36_ssht_iter",
    "S2fft.C36_iter_partial",
    "S2fft.C36_iter_exact_partial"
   ],
   "note": "Proved: unknown methods and unavailable libraries, invalid samplings/missing nside, negative L_lower, the spin guard, kernel spin and lower handling, and the meaning of iter. The property as stated is violated by the code and the violations are theorems: the spin >= 8 guard is one-sided (C36_spin_guard_sided), base transforms return zeros for |spin| >= L instead of refusing (C36_base_spin), jax_healpy ignores spin (C36_healpy_spin), jax_ssht and jax_healpy ignore L_lower (C36_lower_ignored), jax_ssht with iter raises KeyError (C36_ssht_iter). jax_cuda and the C libraries are parameters. The iter theorems assume regular stored angles (met by doubles, C39_doubles_regular) and reality = false or exact stored values."
  },
  {
   "property": "C37",
   "status": "partial",
   "theorems": [
    "S2fft.C37_samples",
    "S2fft.C37_weights",
    "S2fft.C37_unextend",
    "S2fft.C37_kernels",
    "S2fft.C37_fourier_wigner",
    "S2fft.C37_base_sums",
    "S2fft.C37_on_the_fly_real",
    "S2fft.C37_inverse_partial",
    "S2fft.C37_wigner_inverse_partial",
    "S2fft.C37_refined_forward_partial",
    "S2fft.C37_extension_partial",
    "S2fft.C37_forward_partial",
    "S2fft.C37_not_rotation_group",
    "S2fft.C37_not_base_inverse",
    "S2fft.C37_not_base_inverse_constant",
    "S2fft.C37_not_on_the_fly",
    "S2fft.C37_not_precomputed_inverse",
    "S2fft.C37_not_precomputed_wigner_inverse",
    "S2fft.C37_not_healpix_forward",
    "S2fft.C37_not_extension"
   ],
   "note": "The property as stated is false of the code, and the failures are theorems. Proved for every spelling: sample counts, shapes and positions, quadrature weights, kernels, unextension, Fourier-Wigner transforms, base forward sums, on-the-fly inverse with reality. Proved for spellings that do not hide MWSS or HEALPix behind upper case (*_partial): all inverse transforms, Wigner inverse, refined forward, extension. For those spellings the code misreads the name because mOffset, so3 f_shape and periodic_extension compare it unlowered: base inverses shift every order by one (C37_not_base_inverse, ..._constant), the on-the-fly MWSS inverse shifts negative orders (C37_not_on_the_fly), precomputed inverses, HEALPix forward and rotation-group transforms refuse, and the extension overwrites the south pole (C37_not_extension)."
  },
  {
   "property": "C38",
   "status": "partial",
   "theorems": [
    "S2fft.C38_expansion_partial",
    "S2fft.C38_inverse_partial",
    "S2fft.C38_forward_partial",
    "S2fft.C38_analysis_partial",
    "S2fft.C38_round_trip_partial",
    "S2fft.C38_nudge",
    "S2fft.C38_expansion_limit",
    "S2fft.C38_analysis_limit",
    "S2fft.C38_forward_limit",
    "S2fft.C38_expansion_doubles_partial",
    "S2fft.C38_analysis_doubles_partial",
    "S2fft.C38_round_trip_doubles_partial"
   ],
   "note": "Values at stored angles where the recursion does not divide by zero, and limits on every grid. Angles stored as doubles meet the condition for every direction (C39_doubles_regular); C38_*_doubles_partial bound the effect of their errors. L_lower = L - 1 and non-zero coefficients with degree below |n| are not covered: each direction calls the spherical transform, which is wrong there (C25, C39_low_degree_leak). The SSHT method is in C40."
  },
  {
   "property": "C39",
   "status": "partial",
   "theorems": [
    "S2fft.C39_expansion_partial",
    "S2fft.C39_inverse_partial",
    "S2fft.C39_forward_partial",
    "S2fft.C39_analysis_partial",
    "S2fft.C39_round_trip_partial",
    "S2fft.C39_nudge",
    "S2fft.C39_expansion_limit",
    "S2fft.C39_analysis_limit",
    "S2fft.C39_forward_limit",
    "S2fft.C39_low_degree_leak",
    "S2fft.C39_doubles_regular",
    "S2fft.C39_expansion_doubles_partial",
    "S2fft.C39_analysis_doubles_partial",
    "S2fft.C39_round_trip_doubles_partial",
    "S2fft.C39_stored_grid",
    "S2fft.C39_rounded"
   ],
   "note": "Synthesis, analysis, round trip and agreement with the base transforms are proved for stored angles at which the recursion does not divide by zero (OtfRegular), and in the limit of exact angles for every grid (C39_*_limit, C39_nudge). Angles stored as doubles always meet OtfRegular (C39_doubles_regular); for them the results are the exact ones up to explicit bounds proportional to the error of the angles (C39_*_doubles_partial), and the angles that the grid functions compute in doubles qualify (C39_stored_grid, C39_rounded). Coefficients below |spin| have to be zero, because the code does not leave them out (C39_low_degree_leak); L_lower = L-1 and NumPy with L = 1 are excluded because the code is wrong there (C16_lower_leak, C16_one)."
  },
  {
   "property": "C40",
   "status": "partial",
   "theorems": [
    "S2fft.C40_ssht_inverse",
    "S2fft.C40_ssht_inverse_base",
    "S2fft.C40_ssht_forward_any",
    "S2fft.C40_ssht_forward_iter",
    "S2fft.C40_ssht_forward",
    "S2fft.C40_ssht_round_trip",
    "S2fft.C40_ssht_forward_base",
    "S2fft.C40_ssht_wigner_inverse",
    "S2fft.C40_ssht_wigner_inverse_base",
    "S2fft.C40_ssht_wigner_forward",
    "S2fft.C40_ssht_wigner_round_trip",
    "S2fft.C40_healpy_inverse",
    "S2fft.C40_healpy_spin",
    "S2fft.C40_healpy_inverse_base",
    "S2fft.C40_healpy_forward"
   ],
   "note": "Synthesis, analysis, round trip and agreement with the base transforms for jax_ssht (spherical and Wigner, MW, MWSS, DH, GL) and for jax_healpy on real maps with any number of refinement steps, under the documented behaviour of the libraries, which is shown satisfiable. The property as stated fails for jax_healpy with a spin (C40_healpy_spin: the spin is ignored) and for jax_ssht with refinement steps (C40_ssht_forward_iter: KeyError). Wigner with L_lower > 0 is in C25."
  },
  {
   "property": "C41",
   "status": "proved",
   "theorems": [
    "S2fft.C41_tensor_to_array",
    "S2fft.C41_array_to_tensor",
    "S2fft.C41_call",
    "S2fft.C41_arguments",
    "S2fft.C41_names",
    "S2fft.C41_torch_missing",
    "S2fft.C41_gradient",
    "S2fft.C41_gradient_tuple",
    "S2fft.C41_module",
    "S2fft.C41_converted",
    "S2fft.C41_precomps_not_converted"
   ],
   "note": ""
  },
  {
   "property": "C42",
   "status": "proved",
   "theorems": [
    "S2fft.C42_call",
    "S2fft.C42_history",
    "S2fft.C42_all_slices_modifies"
   ],
   "note": "spherical and Wigner transforms with method numpy, refinement included. The NumPy compute_all_slices, not a transform, modifies its argument (C42_all_slices_modifies)."
  },
  {
   "property": "C43",
   "status": "partial",
   "theorems": [
    "S2fft.C43_other_methods",
    "S2fft.C43_inverse_partial",
    "S2fft.C43_inverse_refused",
    "S2fft.C43_forward_partial",
    "S2fft.C43_forward_refused",
    "S2fft.C43_forward_violated",
    "S2fft.C43_rules_partial",
    "S2fft.C43_rules_refused"
   ],
   "note": "The property as stated is false of the code: forward with spmd raises on two or more devices for every input, so does the reverse rule of the inverse, and inverse raises unless the number of devices divides the number of rings (C43_forward_violated, C43_rules_refused, C43_inverse_refused). Proved: equality with the call without the flag in all other cases (inverse on any dividing number of devices, forward on one)."
  },
  {
   "property": "C44",
   "status": "partial",
   "theorems": [
    "S2fft.C44_inverse_partial",
    "S2fft.C44_inverse_integers",
    "S2fft.C44_inverse_violated",
    "S2fft.C44_wigner_partial",
    "S2fft.C44_wigner_integers",
    "S2fft.C44_wigner_violated",
    "S2fft.C44_rotation_converts",
    "S2fft.C44_rotation_partial",
    "S2fft.C44_rotation_violated",
    "S2fft.C44_fourier_wigner_partial",
    "S2fft.C44_fourier_wigner_refused",
    "S2fft.C44_subset_partial",
    "S2fft.C44_subset_violated"
   ],
   "note": "The property as stated is false of the code: arrays of integers are rounded inside inverse (sphere and rotation group) and wigner_subset_to_s2, refused by the NumPy Fourier-Wigner inverse without tables, and rotate_flms drops imaginary parts for real types (C44_*_violated, C44_fourier_wigner_refused). Proved: equality for real numbers in all but the rotation, equality for integers where the code has it, and what is computed otherwise."
  },
  {
   "property": "C45",
   "status": "proved",
   "theorems": [
    "S2fft.C45_index",
    "S2fft.C45_index_limit",
    "S2fft.C45_pixel_centres",
    "S2fft.C45_healpy_length",
    "S2fft.C45_division"
   ],
   "note": ""
  },
  {
   "property": "C46",
   "status": "proved",
   "theorems": [
    "S2fft.C46_plane",
    "S2fft.C46_vectorised",
    "S2fft.C46_deltas",
    "S2fft.C46_numbers"
   ],
   "note": ""
  },
  {
   "property": "C47",
   "status": "proved",
   "theorems": [
    "S2fft.C47_folding",
    "S2fft.C47_extension",
    "S2fft.C47_refines",
    "S2fft.C47_limit"
   ],
   "note": ""
  },
  {
   "property": "C48",
   "status": "partial",
   "theorems": [
    "S2fft.C48_colatitudes",
    "S2fft.C48_colatitudes_healpix",
    "S2fft.C48_azimuths",
    "S2fft.C48_azimuths_healpix",
    "S2fft.C48_range_partial",
    "S2fft.C48_beyond_pi",
    "S2fft.C48_poles",
    "S2fft.C48_poles_limit",
    "S2fft.C48_colatitudes_gl",
    "S2fft.C48_poles_gl"
   ],
   "note": "Accuracy, order and azimuth range are proved for MW, MWSS, DH and HEALPix, and for GL in terms of the error of the table of nodes (C48_colatitudes_gl, C48_poles_gl), for every rounding rule. The code violates the range: the last MW or MWSS colatitude can exceed np.pi, and risbo.compute_full then refuses it (C48_beyond_pi); C48_range_partial covers all other rings. C48_poles covers the pole tests up to L = 2^14; C48_poles_limit shows a violation at 2^15."
  },
  {
   "property": "C49",
   "status": "proved",
   "theorems": [
    "S2fft.C49_kernel",
    "S2fft.C49_inverse",
    "S2fft.C49_forward_dh",
    "S2fft.C49_round_trip_dh",
    "S2fft.C49_kernel_gl",
    "S2fft.C49_round_trip_gl",
    "S2fft.C49_round_trip_gl_table",
    "S2fft.C49_forward_gl",
    "S2fft.C49_kernel_healpix",
    "S2fft.C49_forward_mw",
    "S2fft.C49_round_trip_mw"
   ],
   "note": ""
  },
  {
   "property": "C50",
   "status": "proved",
   "theorems": [
    "S2fft.C50_base_forward",
    "S2fft.C50_base_analysis",
    "S2fft.C50_base_inverse",
    "S2fft.C50_precompute_forward",
    "S2fft.C50_precompute_inverse",
    "S2fft.C50_otf_forward",
    "S2fft.C50_otf_inverse",
    "S2fft.C50_wigner_base_forward",
    "S2fft.C50_wigner_base_inverse",
    "S2fft.C50_wigner_otf_forward",
    "S2fft.C50_wigner_otf_inverse"
   ],
   "note": ""
  },
  {
   "property": "C51",
   "status": "proved",
   "theorems": [
    "S2fft.C51_base_forward",
    "S2fft.C51_base_inverse",
    "S2fft.C51_precompute_forward",
    "S2fft.C51_precompute_inverse",
    "S2fft.C51_otf_forward",
    "S2fft.C51_otf_inverse",
    "S2fft.C51_wigner_base_forward",
    "S2fft.C51_wigner_base_inverse",
    "S2fft.C51_wigner_otf_forward",
    "S2fft.C51_wigner_otf_inverse",
    "S2fft.C51_precompute_wigner_forward",
    "S2fft.C51_precompute_wigner_inverse",
    "S2fft.C51_fourier_wigner_forward",
    "S2fft.C51_fourier_wigner_inverse",
    "S2fft.C51_rotate",
    "S2fft.C51_refined"
   ],
   "note": ""
  },
  {
   "property": "C52",
   "status": "proved",
   "theorems": [
    "S2fft.C52_roll",
    "S2fft.C52_quarter",
    "S2fft.C52_turns",
    "S2fft.C52_turns_healpix",
    "S2fft.C52_base_forward",
    "S2fft.C52_base_inverse",
    "S2fft.C52_precompute_forward",
    "S2fft.C52_precompute_inverse",
    "S2fft.C52_otf_forward",
    "S2fft.C52_otf_inverse",
    "S2fft.C52_refined",
    "S2fft.C52_roll_so3",
    "S2fft.C52_wigner_base_forward",
    "S2fft.C52_wigner_base_inverse",
    "S2fft.C52_wigner_otf_forward",
    "S2fft.C52_wigner_otf_inverse",
    "S2fft.C52_precompute_wigner_forward",
    "S2fft.C52_precompute_wigner_inverse",
    "S2fft.C52_fourier_wigner_forward",
    "S2fft.C52_fourier_wigner_inverse",
    "S2fft.C52_rotate"
   ],
   "note": ""
  },
  {
   "property": "C53",
   "status": "proved",
   "theorems": [
    "S2fft.C53_base_adjoint",
    "S2fft.C53_base_products",
    "S2fft.C53_base_energy",
    "S2fft.C53_gl_energy",
    "S2fft.C53_precompute_adjoint",
    "S2fft.C53_precompute_energy",
    "S2fft.C53_otf_adjoint",
    "S2fft.C53_otf_energy",
    "S2fft.C53_wigner_base_adjoint",
    "S2fft.C53_wigner_base_energy",
    "S2fft.C53_wigner_otf_adjoint",
    "S2fft.C53_wigner_otf_energy",
    "S2fft.C53_precompute_wigner_adjoint",
    "S2fft.C53_precompute_wigner_energy"
   ],
   "note": ""
  },
  {
   "property": "C54",
   "status": "partial",
   "theorems": [
    "S2fft.C54_interleaved_partial",
    "S2fft.C54_values_partial",
    "S2fft.C54_finishes",
    "S2fft.C54_two_streams",
    "S2fft.C54_build_during_call"
   ],
   "note": "The property as stated is false of the code: calls with equal descriptors share cuFFT handles, so two such calls on two streams interfere (C54_two_streams), and building an equal descriptor during a call breaks the call (C54_build_during_call). Proved for all interleavings in which jobs with equal descriptors are transforms on one stream: finished calls hold the values they compute alone, and every call can finish."
  },
  {
   "property": "C55",
   "status": "proved",
   "theorems": [
    "S2fft.C55_mirror_points",
    "S2fft.C55_gl",
    "S2fft.C55_flip",
    "S2fft.C55_base_inverse_conj",
    "S2fft.C55_base_inverse_mirror",
    "S2fft.C55_base_forward_conj",
    "S2fft.C55_base_forward_mirror",
    "S2fft.C55_precompute_inverse_conj",
    "S2fft.C55_precompute_inverse_mirror",
    "S2fft.C55_precompute_forward_conj",
    "S2fft.C55_precompute_forward_mirror",
    "S2fft.C55_otf_inverse_conj",
    "S2fft.C55_otf_inverse_mirror",
    "S2fft.C55_otf_forward_conj",
    "S2fft.C55_otf_forward_mirror",
    "S2fft.C55_conj_so3",
    "S2fft.C55_flip_so3",
    "S2fft.C55_wigner_base_inverse_conj",
    "S2fft.C55_wigner_base_inverse_mirror",
    "S2fft.C55_wigner_base_forward_conj",
    "S2fft.C55_wigner_base_forward_mirror",
    "S2fft.C55_wigner_otf_inverse_conj",
    "S2fft.C55_wigner_otf_inverse_mirror",
    "S2fft.C55_wigner_otf_forward_conj",
    "S2fft.C55_wigner_otf_forward_mirror",
    "S2fft.C55_precompute_wigner_inverse_conj",
    "S2fft.C55_precompute_wigner_inverse_mirror",
    "S2fft.C55_precompute_wigner_forward_conj",
    "S2fft.C55_precompute_wigner_forward_mirror",
    "S2fft.C55_fourier_wigner_inverse_conj",
    "S2fft.C55_fourier_wigner_inverse_mirror"
   ],
   "note": ""
  },
  {
   "property": "C56",
   "status": "proved",
   "theorems": [
    "S2fft.C56_base_best_fit",
    "S2fft.C56_base_projection",
    "S2fft.C56_precompute_best_fit",
    "S2fft.C56_precompute_projection",
    "S2fft.C56_otf_best_fit",
    "S2fft.C56_otf_projection",
    "S2fft.C56_wigner_base_best_fit",
    "S2fft.C56_wigner_base_projection",
    "S2fft.C56_wigner_otf_best_fit",
    "S2fft.C56_wigner_otf_projection",
    "S2fft.C56_precompute_wigner_best_fit",
    "S2fft.C56_precompute_wigner_projection",
    "S2fft.C56_fourier_wigner_projection"
   ],
   "note": ""
  },
  {
   "property": "C57",
   "status": "proved",
   "theorems": [
    "S2fft.C57_base_convert",
    "S2fft.C57_base_finer",
    "S2fft.C57_precompute_convert",
    "S2fft.C57_precompute_finer",
    "S2fft.C57_otf_convert",
    "S2fft.C57_otf_finer",
    "S2fft.C57_fourier_wigner_convert",
    "S2fft.C57_fourier_wigner_finer",
    "S2fft.C57_wigner_precompute_finer",
    "S2fft.C57_wigner_convert",
    "S2fft.C57_wigner_finer",
    "S2fft.C57_wigner_precompute_convert",
    "S2fft.C57_wigner_otf_convert",
    "S2fft.C57_wigner_otf_finer"
   ],
   "note": ""
  },
  {
   "property": "C58",
   "status": "partial",
   "theorems": [
    "S2fft.C58_map2alm",
    "S2fft.C58_alm2map",
    "S2fft.C58_transposes",
    "S2fft.C58_single_violated",
    "S2fft.C58_cuda",
    "S2fft.C58_cuda_buffers",
    "S2fft.C58_cuda_short_violated",
    "S2fft.C58_cuda_norm_violated"
   ],
   "note": "Proved in the precision JAX is set to, and for the CUDA FFTs for 2*nside <= L. The code violates the property otherwise: single-precision arguments of the healpy primitives in 64-bit mode (C58_single_violated), L = nside = 1 (C58_cuda_short_violated), and the argument norm of the CUDA FFTs is always refused (C58_cuda_norm_violated)."
  },
  {
   "property": "C59",
   "status": "proved",
   "theorems": [
    "S2fft.C59_kernel",
    "S2fft.C59_inverse",
    "S2fft.C59_forward_dh",
    "S2fft.C59_forward_mw",
    "S2fft.C59_round_trip_dh",
    "S2fft.C59_round_trip_mw",
    "S2fft.C59_inverse_gl",
    "S2fft.C59_round_trip_gl",
    "S2fft.C59_round_trip_gl_table",
    "S2fft.C59_forward_gl"
   ],
   "note": ""
  },
  {
   "property": "C60",
   "status": "proved",
   "theorems": [
    "S2fft.C60_planes",
    "S2fft.C60_rotate",
    "S2fft.C60_precomputed",
    "S2fft.C60_support",
    "S2fft.C60_power",
    "S2fft.C60_undo"
   ],
   "note": ""
  },
  {
   "property": "C61",
   "status": "proved",
   "theorems": [
    "S2fft.C61_planes",
    "S2fft.C61_inverse",
    "S2fft.C61_forward",
    "S2fft.C61_round_trip"
   ],
   "note": ""
  },
  {
   "property": "C62",
   "status": "proved",
   "theorems": [
    "S2fft.C62_kernel",
    "S2fft.C62_inverse",
    "S2fft.C62_forward_dh",
    "S2fft.C62_round_trip_dh",
    "S2fft.C62_kernel_gl",
    "S2fft.C62_round_trip_gl",
    "S2fft.C62_wigner_inverse_gl",
    "S2fft.C62_wigner_round_trip_gl",
    "S2fft.C62_round_trip_gl_table",
    "S2fft.C62_wigner_round_trip_gl_table",
    "S2fft.C62_wigner_forward_gl",
    "S2fft.C62_forward_gl",
    "S2fft.C62_forward_mw",
    "S2fft.C62_round_trip_mw",
    "S2fft.C62_wigner_forward_mw",
    "S2fft.C62_wigner_round_trip_mw",
    "S2fft.C62_wigner_forward_single",
    "S2fft.C62_wigner_kernel",
    "S2fft.C62_wigner_inverse",
    "S2fft.C62_wigner_forward_dh",
    "S2fft.C62_wigner_round_trip_dh"
   ],
   "note": ""
  }
 ]
}