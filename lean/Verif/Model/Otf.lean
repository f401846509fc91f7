import Verif.Model.Precompute

/-!
# On-the-fly spherical transforms

Models `s2fft/transforms/otf_recursions.py` and the NumPy and JAX functions of
`s2fft/transforms/spherical.py`. `lo` is `L_lower`, taken to be below `L`; a negative one is refused.
Arrays over degrees are functions of the degree itself. The `spmd` branches are in `Model/Spmd.lean`.
The source sums with `nansum`; the terms it skips are those of `PmPre.nan`, and of the poles, which
are replaced.
-/

namespace S2fft

/-! ## Latitudinal steps -/

/-- One pass `i` of a latitudinal step (otf_recursions.py 93-169, 246-407, 509-586, 697-872).
`emit i m from W` is the statement that sums row `m` into the result: the weights `W t el` of the
row (recursion value, sign and renormalisation) for the degrees `el ≥ from`. The slices `lind - 1:`
of row 1 are the last two degrees; when `lo = L - 1` those of the weights have one element only, and
it is broadcast. -/
noncomputable def otfPass {α : Type*} (P : PmPre) (L mm lo : ℤ) (β : ℤ → ℝ) (i : ℤ)
    (emit : ℤ → ℤ → ℤ → (ℤ → ℤ → ℝ) → α → α) (acc : α) : α :=
  let s := pmInit P L mm i β
  let r := pmRow (2 * L - 1) i
  let acc := emit i 0 (L - 1) (fun t el => s.d0 t el * P.vsign (r 0) el * P.exp i el (s.lr t el)) acc
  let acc := emit i 1 (L - 2) (fun t el =>
    s.d1 t (max el lo) * P.vsign (r 1) (max el lo) * P.exp i (max el lo) (s.lr t (max el lo))) acc
  pmLoop P L mm i β (L - 1 + i) (fun m v => emit i m lo (fun t el => v t el * P.vsign (r m) el)) acc

/-- Both passes; the first is left out with the reality flag. -/
noncomputable def otfRows {α : Type*} (P : PmPre) (L mm lo : ℤ) (β : ℤ → ℝ) (reality : Bool)
    (emit : ℤ → ℤ → ℤ → (ℤ → ℤ → ℝ) → α → α) (acc : α) : α :=
  forRange 0 2 (fun i acc => if reality = true ∧ i = 0 then acc else otfPass P L mm lo β i emit acc)
    acc

/-- The column `sind + sgn * m + m_offset` of the Fourier coefficients, `width` of them. -/
def otfCol (width off i m : ℤ) : ℤ := pmRow width i m + (if i = 0 then off else 0)

/-- The sums of `inverse_latitudinal_step` (otf_recursions.py 67-171; JAX 237-407). -/
noncomputable def otfSynth (P : PmPre) (flm : ℤ → ℤ → ℂ) (β : ℤ → ℝ) (L spin off width : ℤ)
    (reality : Bool) (lo : ℤ) : ℤ → ℤ → ℂ :=
  otfRows P L (-spin) lo β reality (fun i m from_ W ftm => fun t k =>
    if k = otfCol width off i m then
      ∑ el ∈ Finset.Ico from_ L, (W t el : ℂ) * flm el (pmRow (2 * L - 1) i m)
    else ftm t k) (fun _ _ => 0)

/-- The sums of `forward_latitudinal_step` (otf_recursions.py 484-588; JAX 670-872). -/
noncomputable def otfAnalyse (P : PmPre) (ftm : ℤ → ℤ → ℂ) (β : ℤ → ℝ) (L spin nt off width : ℤ)
    (reality : Bool) (lo : ℤ) : ℤ → ℤ → ℂ :=
  otfRows P L (-spin) lo β reality (fun i m from_ W flm => fun l k =>
    if k = pmRow (2 * L - 1) i m ∧ from_ ≤ l then
      ∑ t ∈ Finset.Ico 0 nt, (W t l : ℂ) * ftm t (otfCol width off i m)
    else flm l k) (fun _ _ => 0)

/-- The numbers of the machine that the on-the-fly transforms work on: `rnd θ` is the angle stored for
the sample angle `θ`. The recursion divides by values of `d`-functions; some of them vanish, at the
equator for instance, but not at the angle stored for it. With `rnd = id` the angles are exact. -/
structure Machine extends GlTables where
  rnd : ℝ → ℝ

/-- `samples.thetas`, as stored. -/
noncomputable def otfThetas (G : Machine) (L : ℤ) (sampling : PyStr) (nside : Option ℤ) :
    Except PyErr (ℤ × (ℤ → ℝ)) := do
  let (nt, θ) ← thetas G.nodes (some L) sampling nside
  pure (nt, fun t => G.rnd (θ t))

/-- The angles of the forward transforms, as stored (spherical.py 512-519, 660-664). -/
noncomputable def otfKernelThetas (G : Machine) (L : ℤ) (sampling : PyStr) (nside : Option ℤ)
    (forward : Bool) : Except PyErr (ℤ × (ℤ → ℝ)) := do
  let (_, nt, θ) ← kernelThetas G.toGlTables L sampling nside forward
  pure (nt, fun t => G.rnd (θ t))

/-- The angles of the coefficients (price_mcewen.py 50-55, 158-166): those of the grid, or of the
resampled grid without its poles. -/
noncomputable def pmAngles (G : Machine) (L : ℤ) (sampling : PyStr) (nside : Option ℤ)
    (forward : Bool) : Except PyErr (ℤ → ℝ) := do
  let (_, θ) ← otfKernelThetas G L sampling nside forward
  pure (if forward = true ∧ (lower sampling = sMW ∨ lower sampling = sMWSS) then
    fun t => θ (t + 1) else θ)

/-- `generate_precomputes` (price_mcewen.py 14-115). The table of logarithms has `2 L + 1` rows, so
that a spin beyond `L` is an index error (74, 79). `L_lower` only leaves degrees out. -/
noncomputable def precomputesNumpy (G : Machine) (L spin : ℤ) (sampling : PyStr)
    (nside : Option ℤ) (forward : Bool) : Except PyErr PmPre := do
  let β ← pmAngles G L sampling nside forward
  if L < |spin| then .error .indexError else pure (generatePrecomputes L spin β)

/-- `generate_precomputes_jax` (price_mcewen.py 119-255) without `betas`. -/
noncomputable def precomputesJax (G : Machine) (L spin : ℤ) (sampling : PyStr)
    (nside : Option ℤ) (forward : Bool) : Except PyErr PmPre := do
  let β ← pmAngles G L sampling nside forward
  pure (generatePrecomputesJax L spin β)

/-- The coefficients used by the NumPy steps (otf_recursions.py 81-90, 498-500). When they are not
given, they are those of the grid, whatever the angles of the step. -/
noncomputable def otfPrecomps (G : Machine) (precomps : Option PmPre) (L spin : ℤ)
    (sampling : PyStr) (nside : Option ℤ) (forward : Bool) : Except PyErr PmPre :=
  match precomps with
  | some P => .ok P
  | none => precomputesNumpy G L spin sampling nside forward

/-- `inverse_latitudinal_step` (otf_recursions.py 15-171). For `L = 1` the second row of `vsign`,
which has only one, is asked for. -/
noncomputable def inverseLatitudinalStep (G : Machine) (flm : ℤ → ℤ → ℂ) (β : ℤ → ℝ) (L spin : ℤ)
    (nside : Option ℤ) (sampling : PyStr) (reality : Bool) (precomps : Option PmPre) (lo : ℤ) :
    Except PyErr (ℤ → ℤ → ℂ) := do
  let shape ← ftm_shape L sampling nside
  let P ← otfPrecomps G precomps L spin sampling nside false
  if L = 1 then .error .indexError
  else pure (otfSynth P flm β L spin (mOffset sampling) shape.2 reality lo)

/-- `forward_latitudinal_step` (otf_recursions.py 432-588); `width` is `ftm.shape[1]`. -/
noncomputable def forwardLatitudinalStep (G : Machine) (ftm : ℤ → ℤ → ℂ) (β : ℤ → ℝ)
    (nt L spin width : ℤ) (nside : Option ℤ) (sampling : PyStr) (reality : Bool)
    (precomps : Option PmPre) (lo : ℤ) :
    Except PyErr (ℤ → ℤ → ℂ) := do
  let P ← otfPrecomps G precomps L spin sampling nside true
  if L = 1 then .error .indexError
  else pure (otfAnalyse P ftm β L spin nt (mOffset sampling) width reality lo)

/-- `1 if sampling.lower() in ["mwss", "healpix"] else 0`. -/
def mOffsetLower (sampling : PyStr) : ℤ := mOffset (lower sampling)

/-- The last ring replaced by its value at the south pole (spherical.py 173-177, otf_recursions.py
411-418); `a` and `b` are the columns `L - 1 + spin` of `flm` and `ftm`. -/
noncomputable def southPole (ftm flm : ℤ → ℤ → ℂ) (L spin lo nt a b : ℤ) : ℤ → ℤ → ℂ :=
  fun t k => if t = nt - 1 then
    (if k = b then ∑ el ∈ Finset.Ico lo L, (-1) ^ |el - spin| * flm el a else 0) else ftm t k

/-- The first ring replaced by its value at the north pole (spherical.py 179-181, otf_recursions.py
421-425). -/
noncomputable def northPole (ftm flm : ℤ → ℤ → ℂ) (L lo a b : ℤ) : ℤ → ℤ → ℂ :=
  fun t k => if t = 0 then (if k = b then ∑ el ∈ Finset.Ico lo L, flm el a else 0) else ftm t k

/-- `flm[L_lower:, a] += (-1)**abs(el - spin) * v` (spherical.py 562-565, otf_recursions.py 877-881). -/
noncomputable def addSouth (flm : ℤ → ℤ → ℂ) (spin lo a : ℤ) (v : ℂ) : ℤ → ℤ → ℂ :=
  fun l k => if lo ≤ l ∧ k = a then flm l k + (-1) ^ |l - spin| * v else flm l k

/-- `flm[L_lower:, a] += v` (spherical.py 566, otf_recursions.py 884). -/
def addNorth (flm : ℤ → ℤ → ℂ) (lo a : ℤ) (v : ℂ) : ℤ → ℤ → ℂ :=
  fun l k => if lo ≤ l ∧ k = a then flm l k + v else flm l k

/-- `inverse_latitudinal_step_jax` (otf_recursions.py 175-429). For `L = 1` the row beside the
single one falls outside the arrays, where JAX drops it (or, for mwss, on a ring that is replaced
afterwards). -/
noncomputable def inverseLatitudinalStepJax (flm : ℤ → ℤ → ℂ) (β : ℤ → ℝ) (nt L spin : ℤ)
    (sampling : PyStr) (reality : Bool) (precomps : Option PmPre) (lo : ℤ) : ℤ → ℤ → ℂ :=
  let off := mOffsetLower sampling
  let width := 2 * L - 1 + off
  let P := precomps.getD (generatePrecomputesJax L spin β)
  let ftm := otfSynth P flm β L spin (mOffset sampling) width reality lo
  let ftm := if lower sampling = sMW ∨ lower sampling = sMWSS then
      southPole ftm flm L spin lo nt (jaxGet (2 * L - 1) (L - 1 + spin))
        (jaxSet width (L - 1 + spin + off))
    else ftm
  if lower sampling = sMWSS then
    northPole ftm flm L lo (jaxGet (2 * L - 1) (L - 1 - spin)) (jaxSet width (L - 1 - spin + off))
  else ftm

/-- `forward_latitudinal_step_jax` (otf_recursions.py 592-886): the pole rings are cut off, and their
contribution is added at the end. `nt` and `width` are the shape of the Fourier coefficients. -/
noncomputable def forwardLatitudinalStepJax (ftm : ℤ → ℤ → ℂ) (β : ℤ → ℝ) (nt L spin width : ℤ)
    (sampling : PyStr) (reality : Bool) (precomps : Option PmPre) (lo : ℤ) : ℤ → ℤ → ℂ :=
  let off := mOffsetLower sampling
  let cut : ℤ := if lower sampling = sMWSS then 1 else 0
  let nt' := if lower sampling = sMWSS then nt - 2 else if lower sampling = sMW then nt - 1 else nt
  let β' : ℤ → ℝ := fun t => β (t + cut)
  let P := precomps.getD (generatePrecomputesJax L spin β')
  let flm := otfAnalyse P (fun t k => ftm (t + cut) k) β' L spin nt' (mOffset sampling) width
    reality lo
  let flm := if lower sampling = sMW ∨ lower sampling = sMWSS then
      addSouth flm spin lo (jaxSet (2 * L - 1) (L - 1 + spin))
        (ftm (nt - 1) (jaxGet width (L - 1 + spin + off)))
    else flm
  if lower sampling = sMWSS then
    addNorth flm lo (jaxSet (2 * L - 1) (L - 1 - spin)) (ftm 0 (jaxGet width (L - 1 - spin + off)))
  else flm

/-! ## Transforms -/

/-- The harmonic normalisation `flm[L_lower:] *= sqrt((2 el + 1) / (4 pi))` (spherical.py 162-164,
280-287, 569-571, 720-727). -/
noncomputable def otfNormalise (flm : ℤ → ℤ → ℂ) (lo : ℤ) : ℤ → ℤ → ℂ :=
  fun l k => if lo ≤ l then flm l k * elfactor l else flm l k

/-- `ftm[:, m_start_ind + m_offset:] *= phase_shifts` (spherical.py 184-186, 326-328, 536-538,
672-674). -/
noncomputable def otfPhases (ftm : ℤ → ℤ → ℂ) (L nside off : ℤ) (forward reality : Bool) :
    ℤ → ℤ → ℂ :=
  let c := mStart L reality + off
  fun t k => if c ≤ k then ftm t k * ring_phase_shifts_hp L nside forward reality t (k - c)
    else ftm t k

/-- The negative orders of a real signal: `ftm[:, m_offset : L - 1 + m_offset] = flip(conj(ftm[:, L -
1 + m_offset + 1:]))` (spherical.py 191-194, 332-335). -/
noncomputable def otfComplete (ftm : ℤ → ℤ → ℂ) (L off : ℤ) : ℤ → ℤ → ℂ :=
  fun t k => if off ≤ k ∧ k < L - 1 + off then
    (starRingEnd ℂ) (ftm t (L - 1 + off + 1 + (L - 2 - (k - off)))) else ftm t k

/-- The pole rings in `inverse_numpy` (spherical.py 172-181). -/
noncomputable def inversePolesNumpy (ftm flm : ℤ → ℤ → ℂ) (L spin lo nt width : ℤ)
    (sampling : PyStr) : Except PyErr (ℤ → ℤ → ℂ) := do
  let off := mOffsetLower sampling
  let ftm ← if lower sampling = sMW ∨ lower sampling = sMWSS then do
      let a ← pyIndex (2 * L - 1) (L - 1 + spin)
      let b ← pyIndex width (L - 1 + spin + off)
      pure (southPole ftm flm L spin lo nt a b)
    else pure ftm
  if lower sampling = sMWSS then do
    let a ← pyIndex (2 * L - 1) (L - 1 - spin)
    let b ← pyIndex width (L - 1 - spin + off)
    pure (northPole ftm flm L lo a b)
  else pure ftm

/-- Negative `L_lower`: the normalisation `flm[L_lower:] = einsum(flm[L_lower:], arange(L_lower, L))`
has factors of different lengths (spherical.py 166-168, 281-288, 573-575, 733-740 and
wigner.py 171-175, 259-265, 528-532, 637-643, 769-775, 787-793). The refusal is modelled at the start
of the functions, before other errors. -/
def requireLower {α : Type} (lo : ℤ) (r : Except PyErr α) : Except PyErr α :=
  if lo < 0 then .error .valueError else r

theorem requireLower_ok {α : Type} {lo : ℤ} (h : 0 ≤ lo) (r : Except PyErr α) :
    requireLower lo r = r := if_neg (by omega)

/-- `inverse_numpy` (spherical.py 112-208). -/
noncomputable def otfInverseNumpy (G : Machine) (flm : Nd ℂ) (L spin : ℤ) (nside : Option ℤ)
    (sampling : PyStr) (reality : Bool) (precomps : Option PmPre) (lo : ℤ) :
    Except PyErr (Nd ℂ) := requireLower lo do
  let (nt, θ) ← otfThetas G L sampling nside
  let off := mOffsetLower sampling
  if flm.shape ≠ [L, 2 * L - 1] then .error .valueError
  else do
    let flm := otfNormalise flm.get2 lo
    let ftm ← inverseLatitudinalStep G flm θ L spin nside sampling reality precomps lo
    let shape ← ftm_shape L sampling nside
    let ftm ← inversePolesNumpy ftm flm L spin lo nt shape.2 sampling
    let ftm := if lower sampling = sHP then otfPhases ftm L (nside.getD 0) off false reality
      else ftm
    let ftm : ℤ → ℤ → ℂ := fun t k => ftm t k * (-1) ^ spin
    let ftm := if lower sampling = sHP ∧ reality = true then otfComplete ftm L off else ftm
    let f ← inverseFftM mNumpy ftm L (lower sampling) shape.2 (nside.getD 0) reality
    packSignal L sampling nside f

/-- The Fourier synthesis of `inverse_jax` (spherical.py 336-346): the ring transforms run without
the reality flag, and on the other grids an inverse transform is written as the conjugate of a
forward one. -/
noncomputable def otfSynthesisJax (ftm : ℤ → ℤ → ℂ) (L : ℤ) (sampling : PyStr) (ncol nside : ℤ)
    (reality : Bool) : Except PyErr (ℤ → ℤ → ℂ) :=
  if lower sampling = sHP then do
    let r ← healpix_ifft noCuda ftm L nside mJax false
    pure (fun _ i => r.1 i)
  else
    let f : ℤ → ℤ → ℂ := fun t p => (starRingEnd ℂ)
      (fft ncol (fun k => (starRingEnd ℂ) (ifftshift ncol (ftm t) k)) p)
    pure (if reality then fun t p => ((f t p).re : ℂ) else f)

/-- `inverse_jax` (spherical.py 212-346). -/
noncomputable def otfInverseJax (G : Machine) (flm : Nd ℂ) (L spin : ℤ) (nside : Option ℤ)
    (sampling : PyStr) (reality : Bool) (precomps : Option PmPre) (lo : ℤ) :
    Except PyErr (Nd ℂ) := requireLower lo do
  let (nt, θ) ← otfThetas G L sampling nside
  let off := mOffsetLower sampling
  if flm.shape ≠ [L, 2 * L - 1] then .error .valueError
  else do
    let flm := otfNormalise flm.get2 lo
    let ftm := inverseLatitudinalStepJax flm θ nt L spin sampling reality precomps lo
    let ftm := if lower sampling = sHP then otfPhases ftm L (nside.getD 0) off false reality
      else ftm
    let ftm : ℤ → ℤ → ℂ := fun t k => ftm t k * (-1) ^ |spin|
    let ftm := if reality then otfComplete ftm L off else ftm
    let f ← otfSynthesisJax ftm L sampling (2 * L - 1 + off) (nside.getD 0) reality
    packSignal L sampling nside f

/-- The Fourier coefficients of the forward transforms, with weights and ring phases (spherical.py
505-538, 654-674), and what they were made from: the name of the scheme, the angles and the number of
columns. There are `2 L - 1` phases, or `L`, and as many columns from the offset on, or the product
fails (546, 692). -/
noncomputable def otfFourier (G : Machine) (f : Nd ℂ) (L spin : ℤ) (nside : Option ℤ)
    (sampling : PyStr) (reality : Bool) (method : PyStr) :
    Except PyErr ((ℤ → ℤ → ℂ) × PyStr × ℤ × (ℤ → ℝ) × ℤ) := do
  let (f, s) ← precomputeResample f L spin sampling method
  let (nt, θ) ← otfKernelThetas G L sampling nside true
  let w ← quad_weights_transform G.weights L s (nside.getD 0)
  let ncol := if lower s = sHP then 2 * L else f.shape.getLast?.getD 0
  let ftm ← forwardFftM method f.get2 L s ncol (nside.getD 0) reality
  let ftm : ℤ → ℤ → ℂ := fun t k => ftm t k * w.2 t
  if lower s = sHP ∧ mOffset s ≠ 1 then .error .valueError
  else
    let ftm := if lower s = sHP then otfPhases ftm L (nside.getD 0) (mOffset s) true reality else ftm
    pure (ftm, s, nt, θ, ncol)

/-- Conjugate symmetry of the coefficients of a real signal (spherical.py 574-578, 729-736). -/
noncomputable def otfMirror (flm : ℤ → ℤ → ℂ) (L : ℤ) : ℤ → ℤ → ℂ :=
  fun l k => if 0 ≤ k ∧ k < L - 1 then
    (-1) ^ ((L - 2 - k + 1) % 2).toNat * (starRingEnd ℂ) (flm l (L - 1 + 1 + (L - 2 - k)))
    else flm l k

/-- The latitudinal step of `forward_numpy` with the pole rings (spherical.py 540-566). -/
noncomputable def forwardPolesNumpy (G : Machine) (ftm : ℤ → ℤ → ℂ) (θ : ℤ → ℝ)
    (nt L spin width : ℤ) (nside : Option ℤ) (s : PyStr) (reality : Bool)
    (precomps : Option PmPre) (lo : ℤ) : Except PyErr (ℤ → ℤ → ℂ) :=
  let off := mOffset s
  if lower s = sMWSS then do
    let flm ← forwardLatitudinalStep G (fun t k => ftm (t + 1) k) (fun t => θ (t + 1)) (nt - 2) L
      spin width nside s reality precomps lo
    let a ← pyIndex width (L - 1 + spin + off)
    let b ← pyIndex (2 * L - 1) (L - 1 + spin)
    let flm := addSouth flm spin lo b (ftm (nt - 1) a)
    let a ← pyIndex width (L - 1 - spin + off)
    let b ← pyIndex (2 * L - 1) (L - 1 - spin)
    pure (addNorth flm lo b (ftm 0 a))
  else forwardLatitudinalStep G ftm θ nt L spin width nside s reality precomps lo

/-- `forward_numpy` (spherical.py 467-588). -/
noncomputable def otfForwardNumpy (G : Machine) (f : Nd ℂ) (L spin : ℤ) (nside : Option ℤ)
    (sampling : PyStr) (reality : Bool) (precomps : Option PmPre) (lo : ℤ) :
    Except PyErr (Nd ℂ) := requireLower lo do
  let (ftm, s, nt, θ, width) ← otfFourier G f L spin nside sampling reality mNumpy
  let flm ← forwardPolesNumpy G ftm θ nt L spin width nside s reality precomps lo
  let flm := otfNormalise flm lo
  let flm := if reality then otfMirror flm L else flm
  let flm : ℤ → ℤ → ℂ := fun l k => if l < max |spin| lo then 0 else flm l k
  pure (.d2 (flm_shape L).1 (flm_shape L).2 (fun l k => flm l k * (-1) ^ spin))

/-- `forward_jax` (spherical.py 592-755). -/
noncomputable def otfForwardJax (G : Machine) (f : Nd ℂ) (L spin : ℤ) (nside : Option ℤ)
    (sampling : PyStr) (reality : Bool) (precomps : Option PmPre) (lo : ℤ) :
    Except PyErr (Nd ℂ) := requireLower lo do
  let (ftm, s, nt, θ, width) ← otfFourier G f L spin nside sampling reality mJax
  let flm := forwardLatitudinalStepJax ftm θ nt L spin width s reality precomps lo
  let flm := otfNormalise flm lo
  let flm := if reality then otfMirror flm L else flm
  let flm : ℤ → ℤ → ℂ := fun l k => if l < |spin| then 0 else flm l k
  pure (.d2 (flm_shape L).1 (flm_shape L).2 (fun l k => flm l k * (-1) ^ |spin|))

end S2fft
