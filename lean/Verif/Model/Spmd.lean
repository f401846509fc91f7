import Verif.Model.Gradient

/-!
# The on-the-fly transforms over several devices

Models the `spmd` branches of `s2fft/transforms/otf_recursions.py`, the flag of that name in
`s2fft/transforms/spherical.py`, and its effect on the reverse rules. `ndev` is
`jax.local_device_count()`. The arrays of the recursion are cut into `ndev` blocks, `pmap` runs the
loop on every block, and the blocks are put together again. What the loop takes from around it, and
not as an argument, is not cut. `int(n / ndev)` is taken to be exact.
-/

namespace S2fft

/-! ## Inverse: blocks of rings -/

/-- The blocks of a device whose first ring is `t0` (otf_recursions.py 380-393). -/
def PmState.rings (s : PmState) (t0 : ℤ) : PmState where
  entry := fun t el => s.entry (t0 + t) el
  d0 := fun t el => s.d0 (t0 + t) el
  d1 := fun t el => s.d1 (t0 + t) el
  lr := fun t el => s.lr (t0 + t) el

/-- The loop from row 2 on one device (otf_recursions.py 360-378): `pmLoop` from a given state. The
angles, of which `omc`, `c` and `s` are made, are those of the device. -/
noncomputable def spmdInverseLoop {α : Type*} (P : PmPre) (L mm i : ℤ) (β : ℤ → ℝ) (hi : ℤ)
    (emit : ℤ → (ℤ → ℤ → ℝ) → α → α) (acc : α) (s : PmState) : α :=
  (forRange 2 hi (fun m (s : α × PmState) =>
    let e := pmEntry P L mm i β m s.2
    (emit m (fun t el => e t el * P.exp i el (s.2.lr t el)) s.1, pmUpdate L m e s.2)) (acc, s)).1

/-- One pass of `inverse_latitudinal_step_jax` with `spmd` (otf_recursions.py 260-393): the rows 0 and
1 are summed before the arrays are cut. `emit` writes the sums of a row for all rings of an array. -/
noncomputable def spmdInversePass (ndev nt : ℤ) (P : PmPre) (L mm lo : ℤ) (β : ℤ → ℝ) (i : ℤ)
    (emit : ℤ → ℤ → ℤ → (ℤ → ℤ → ℝ) → (ℤ → ℤ → ℂ) → ℤ → ℤ → ℂ) (ftm : ℤ → ℤ → ℂ) :
    Except PyErr (ℤ → ℤ → ℂ) :=
  let s := pmInit P L mm i β
  let r := pmRow (2 * L - 1) i
  let ftm := emit i 0 (L - 1) (fun t el => s.d0 t el * P.vsign (r 0) el * P.exp i el (s.lr t el)) ftm
  let ftm := emit i 1 (L - 2) (fun t el =>
    s.d1 t (max el lo) * P.vsign (r 1) (max el lo) * P.exp i (max el lo) (s.lr t (max el lo))) ftm
  let ops := nt / ndev
  if ndev * ops ≠ nt then .error .typeError
  else
    let dev : ℤ → ℤ → ℤ → ℂ := fun d =>
      spmdInverseLoop P L mm i (fun t => β (d * ops + t)) (L - 1 + i)
        (fun m v => emit i m lo (fun t el => v t el * P.vsign (r m) el))
        (fun t k => ftm (d * ops + t) k) (s.rings (d * ops))
    .ok (fun t k => dev (t / ops) (t % ops) k)

/-- The sums of `inverse_latitudinal_step_jax` with `spmd` (otf_recursions.py 237-393). -/
noncomputable def otfSynthSpmd (ndev nt : ℤ) (P : PmPre) (flm : ℤ → ℤ → ℂ) (β : ℤ → ℝ)
    (L spin off width : ℤ) (reality : Bool) (lo : ℤ) : Except PyErr (ℤ → ℤ → ℂ) :=
  forRangeM 0 2 (fun i ftm => if reality = true ∧ i = 0 then pure ftm else
    spmdInversePass ndev nt P L (-spin) lo β i (fun i m from_ W ftm => fun t k =>
      if k = otfCol width off i m then
        ∑ el ∈ Finset.Ico from_ L, (W t el : ℂ) * flm el (pmRow (2 * L - 1) i m)
      else ftm t k) ftm) (fun _ _ => 0)

/-- `inverse_latitudinal_step_jax` with `spmd` (otf_recursions.py 175-429). -/
noncomputable def inverseLatitudinalStepSpmd (ndev : ℤ) (flm : ℤ → ℤ → ℂ) (β : ℤ → ℝ)
    (nt L spin : ℤ) (sampling : PyStr) (reality : Bool) (precomps : Option PmPre) (lo : ℤ) :
    Except PyErr (ℤ → ℤ → ℂ) := do
  let off := mOffsetLower sampling
  let width := 2 * L - 1 + off
  let P := precomps.getD (generatePrecomputesJax L spin β)
  let ftm ← otfSynthSpmd ndev nt P flm β L spin (mOffset sampling) width reality lo
  let ftm := if lower sampling = sMW ∨ lower sampling = sMWSS then
      southPole ftm flm L spin lo nt (jaxGet (2 * L - 1) (L - 1 + spin))
        (jaxSet width (L - 1 + spin + off))
    else ftm
  pure (if lower sampling = sMWSS then
    northPole ftm flm L lo (jaxGet (2 * L - 1) (L - 1 - spin)) (jaxSet width (L - 1 - spin + off))
  else ftm)

/-! ## Forward: blocks of degrees -/

/-- The length of an axis of two arrays combined element by element: equal lengths, or one of them is
one. -/
def broadcastAxis (a b : ℤ) : Except PyErr ℤ :=
  if a = b then .ok a else if a = 1 then .ok b else if b = 1 then .ok a else .error .typeError

/-- The axis of degrees when the loop body is traced on a device (otf_recursions.py 754-791): `ops` in
the arrays that are cut, `n` in `lamb`, which is made of `el`, `half_slices`, `omc`, `c` and `s`. -/
def spmdForwardTrace (n ops : ℤ) : Except PyErr Unit := do
  -- `dl_iter[1] * lamb`
  let w ← broadcastAxis ops n
  -- `einsum("l,tl->tl", cpi[m - 1], ·)`
  let w ← broadcastAxis ops w
  -- `· - einsum("l,tl->tl", cp2[m - 1], dl_iter[0])`
  let w ← broadcastAxis w ops
  -- `where(index, ·, dl_entry)`
  let w ← broadcastAxis ops w
  -- `flm.at[:, sind + sgn * m].set(·)`
  if w ≠ ops ∧ w ≠ 1 then .error .valueError
  -- the loop must give back a `dl_entry` of the shape that it was given
  else if w ≠ ops then .error .typeError
  else .ok ()

/-- The blocks of a device whose first degree is `l0` (otf_recursions.py 837-855). -/
def PmState.degrees (s : PmState) (l0 : ℤ) : PmState where
  entry := fun t j => s.entry t (l0 + j)
  d0 := fun t j => s.d0 t (l0 + j)
  d1 := fun t j => s.d1 t (l0 + j)
  lr := fun t j => s.lr t (l0 + j)

/-- The loop from row 2 on the device whose first degree is `l0` (otf_recursions.py 742-835); arrays
are indexed by the position in the block, and `indices`, `cpi`, `cp2` and `vsign` are cut. The
degrees in `lamb` are those of `el`, from `lo` on, on every device. -/
noncomputable def spmdForwardLoop (P : PmPre) (ftm : ℤ → ℤ → ℂ) (β : ℤ → ℝ)
    (L mm nt off width lo i l0 : ℤ) (flm : ℤ → ℤ → ℂ) (s : PmState) : ℤ → ℤ → ℂ :=
  (forRange 2 (L - 1 + i) (fun m (x : (ℤ → ℤ → ℂ) × PmState) =>
    let e : ℤ → ℤ → ℝ := fun t j =>
      if l0 + j = L - 1 - m then 1
      else if l0 + j ≥ L - m - 1 then
        P.cpi (m - 1) (l0 + j) * (x.2.d1 t j * pmLamb L mm i m (β t) (lo + j))
          - P.cp2 (m - 1) (l0 + j) * x.2.d0 t j
      else x.2.entry t j
    let flm : ℤ → ℤ → ℂ := fun j k =>
      if k = pmRow (2 * L - 1) i m then
        ∑ t ∈ Finset.Ico 0 nt,
          ((e t j * P.exp i (l0 + j) (x.2.lr t j) * P.vsign (pmRow (2 * L - 1) i m) (l0 + j) : ℝ) : ℂ)
            * ftm t (otfCol width off i m)
      else x.1 j k
    let s' : PmState := {
      entry := e
      d0 := fun t j => if l0 + j ≥ L - m - 1 then 1 / |e t j| * x.2.d1 t j else x.2.d0 t j
      d1 := fun t j => if l0 + j ≥ L - m - 1 then 1 / |e t j| * e t j else x.2.d1 t j
      lr := fun t j => if l0 + j ≥ L - m - 1 then x.2.lr t j + Real.log |e t j| else x.2.lr t j }
    (flm, s')) (flm, s)).1

/-- One pass of `forward_latitudinal_step_jax` with `spmd` (otf_recursions.py 687-855); the rows 0
and 1 are summed before the arrays are cut. Degree `l` is in the block of device `(l - lo) / ops`;
positions past the end of the array count as the last device's. -/
noncomputable def spmdForwardPass (ndev : ℤ) (P : PmPre) (ftm : ℤ → ℤ → ℂ) (β : ℤ → ℝ)
    (L mm nt off width lo i : ℤ) (flm : ℤ → ℤ → ℂ) : Except PyErr (ℤ → ℤ → ℂ) := do
  let s := pmInit P L mm i β
  let r := pmRow (2 * L - 1) i
  let emit : ℤ → ℤ → (ℤ → ℤ → ℝ) → (ℤ → ℤ → ℂ) → ℤ → ℤ → ℂ := fun m from_ W flm => fun l k =>
    if k = r m ∧ from_ ≤ l then
      ∑ t ∈ Finset.Ico 0 nt, (W t l : ℂ) * ftm t (otfCol width off i m)
    else flm l k
  let flm := emit 0 (L - 1) (fun t el => s.d0 t el * P.vsign (r 0) el * P.exp i el (s.lr t el)) flm
  let flm := emit 1 (L - 2) (fun t el =>
    s.d1 t (max el lo) * P.vsign (r 1) (max el lo) * P.exp i (max el lo) (s.lr t (max el lo))) flm
  let n := L - lo
  let ops := n / ndev
  if ndev * ops ≠ n then .error .typeError
  else do
    let _ ← spmdForwardTrace n ops
    let dev : ℤ → ℤ → ℤ → ℂ := fun d =>
      spmdForwardLoop P ftm β L mm nt off width lo i (lo + d * ops)
        (fun j k => flm (lo + d * ops + j) k) (s.degrees (lo + d * ops))
    pure (fun l k => if lo ≤ l then
        let d := min ((l - lo) / ops) (ndev - 1)
        dev d (l - lo - d * ops) k
      else flm l k)

/-- The sums of `forward_latitudinal_step_jax` with `spmd` (otf_recursions.py 670-855). -/
noncomputable def otfAnalyseSpmd (ndev : ℤ) (P : PmPre) (ftm : ℤ → ℤ → ℂ) (β : ℤ → ℝ)
    (L spin nt off width : ℤ) (reality : Bool) (lo : ℤ) : Except PyErr (ℤ → ℤ → ℂ) :=
  forRangeM 0 2 (fun i flm => if reality = true ∧ i = 0 then pure flm else
    spmdForwardPass ndev P ftm β L (-spin) nt off width lo i flm) (fun _ _ => 0)

/-- `forward_latitudinal_step_jax` with `spmd` (otf_recursions.py 592-886). -/
noncomputable def forwardLatitudinalStepSpmd (ndev : ℤ) (ftm : ℤ → ℤ → ℂ) (β : ℤ → ℝ)
    (nt L spin width : ℤ) (sampling : PyStr) (reality : Bool) (precomps : Option PmPre) (lo : ℤ) :
    Except PyErr (ℤ → ℤ → ℂ) := do
  let off := mOffsetLower sampling
  let cut : ℤ := if lower sampling = sMWSS then 1 else 0
  let nt' := if lower sampling = sMWSS then nt - 2 else if lower sampling = sMW then nt - 1 else nt
  let β' : ℤ → ℝ := fun t => β (t + cut)
  let P := precomps.getD (generatePrecomputesJax L spin β')
  let flm ← otfAnalyseSpmd ndev P (fun t k => ftm (t + cut) k) β' L spin nt' (mOffset sampling) width
    reality lo
  let flm := if lower sampling = sMW ∨ lower sampling = sMWSS then
      addSouth flm spin lo (jaxSet (2 * L - 1) (L - 1 + spin))
        (ftm (nt - 1) (jaxGet width (L - 1 + spin + off)))
    else flm
  pure (if lower sampling = sMWSS then
    addNorth flm lo (jaxSet (2 * L - 1) (L - 1 - spin)) (ftm 0 (jaxGet width (L - 1 - spin + off)))
  else flm)

/-! ## Transforms -/

/-- `inverse_jax` with `spmd` (spherical.py 212-346). -/
noncomputable def otfInverseSpmd (ndev : ℤ) (G : Machine) (flm : Nd ℂ) (L spin : ℤ)
    (nside : Option ℤ) (sampling : PyStr) (reality : Bool) (precomps : Option PmPre) (lo : ℤ) :
    Except PyErr (Nd ℂ) := requireLower lo do
  let (nt, θ) ← otfThetas G L sampling nside
  let off := mOffsetLower sampling
  if flm.shape ≠ [L, 2 * L - 1] then .error .valueError
  else do
    let flm := otfNormalise flm.get2 lo
    let ftm ← inverseLatitudinalStepSpmd ndev flm θ nt L spin sampling reality precomps lo
    let ftm := if lower sampling = sHP then otfPhases ftm L (nside.getD 0) off false reality
      else ftm
    let ftm : ℤ → ℤ → ℂ := fun t k => ftm t k * (-1) ^ |spin|
    let ftm := if reality then otfComplete ftm L off else ftm
    let f ← otfSynthesisJax ftm L sampling (2 * L - 1 + off) (nside.getD 0) reality
    packSignal L sampling nside f

/-- `forward_jax` with `spmd` (spherical.py 592-755). -/
noncomputable def otfForwardSpmd (ndev : ℤ) (G : Machine) (f : Nd ℂ) (L spin : ℤ)
    (nside : Option ℤ) (sampling : PyStr) (reality : Bool) (precomps : Option PmPre) (lo : ℤ) :
    Except PyErr (Nd ℂ) := requireLower lo do
  let (ftm, s, nt, θ, width) ← otfFourier G f L spin nside sampling reality mJax
  let flm ← forwardLatitudinalStepSpmd ndev ftm θ nt L spin width s reality precomps lo
  let flm := otfNormalise flm lo
  let flm := if reality then otfMirror flm L else flm
  let flm : ℤ → ℤ → ℂ := fun l k => if l < |spin| then 0 else flm l k
  pure (.d2 (flm_shape L).1 (flm_shape L).2 (fun l k => flm l k * (-1) ^ |spin|))

/-- `inverse` with its flag `spmd` (spherical.py 21-109), which is passed to the JAX functions only
(94-95). The CUDA variant with the flag is not modelled: it is that of `Backends`, without. -/
noncomputable def sphericalInverseSpmd (ndev : ℤ) (spmd : Bool) (B : Backends) (G : Machine)
    (flm : Nd ℂ) (L spin : ℤ) (nside : Option ℤ) (sampling method : PyStr) (reality : Bool)
    (precomps : Option PmPre) (lo sshtBackend : ℤ) : Except PyErr (Nd ℂ) :=
  if method ∉ sphericalMethods then .error .valueError
  else if spin ≥ 8 ∧ method ∈ otfMethods then .error .warning
  else if spmd = true ∧ (method = mJax ∨ method = mTorch) then
    otfInverseSpmd ndev G flm L spin nside sampling reality precomps lo
  else sphericalInverse B G flm L spin nside sampling method reality precomps lo sshtBackend

/-- `forward` with its flag `spmd` (spherical.py 352-464); the inverse transforms of the refinement
have the flag too (454-455). -/
noncomputable def sphericalForwardSpmd (ndev : ℤ) (spmd : Bool) (B : Backends) (G : Machine)
    (f : Nd ℂ) (L spin : ℤ) (nside : Option ℤ) (sampling method : PyStr) (reality : Bool)
    (precomps : Option PmPre) (lo : ℤ) (iter : Option ℤ) (sshtBackend : ℤ) : Except PyErr (Nd ℂ) :=
  if method ∉ sphericalMethods then .error .valueError
  else if spin ≥ 8 ∧ method ∈ otfMethods then .error .warning
  else if spmd = true ∧ (method = mJax ∨ method = mTorch) then
    let n : ℤ := iter.getD 0
    if n > 0 then
      refine f n (fun f => otfForwardSpmd ndev G f L spin nside sampling reality precomps lo)
        (fun flm => otfInverseSpmd ndev G flm L spin nside sampling reality none lo)
        (Nd.map2 (· - ·)) (Nd.map2 (· + ·))
    else otfForwardSpmd ndev G f L spin nside sampling reality precomps lo
  else sphericalForward B G f L spin nside sampling method reality precomps lo iter sshtBackend

/-- `f_bwd` of `inverse_jax` with `spmd` (spherical.py 309-322). -/
noncomputable def inverseSpmdRule (ndev : ℤ) (gtm : ℤ → ℤ → ℂ) (θ : ℤ → ℝ) (nt L spin width : ℤ)
    (sampling : PyStr) (reality : Bool) (lo : ℤ) : Except PyErr (ℤ → ℤ → ℂ) :=
  forwardLatitudinalStepSpmd ndev gtm θ nt L spin width sampling reality none lo

/-- `f_bwd` of `forward_jax` with `spmd` (spherical.py 714-727). -/
noncomputable def forwardSpmdRule (ndev : ℤ) (glm : ℤ → ℤ → ℂ) (θ : ℤ → ℝ) (nt L spin : ℤ)
    (sampling : PyStr) (reality : Bool) (lo : ℤ) : Except PyErr (ℤ → ℤ → ℂ) :=
  inverseLatitudinalStepSpmd ndev glm θ nt L spin sampling reality none lo

end S2fft
