import Verif.Model.Wigner

/-!
# In-place updates of the NumPy transforms

The other model files treat arrays as values. NumPy arrays are shared: a function that assigns into
an array it was given changes it for the caller too. Here arrays have addresses in a memory, and the
NumPy transforms of `s2fft/transforms/spherical.py`, `wigner.py`, `otf_recursions.py` and
`s2fft/recursions/price_mcewen.py` are written again with the copies they take and the assignments
they make into arrays that come from outside the function or are handed on: the coefficients `flm`
and `flmn`, the logarithms `lrenorm` among the precomputed coefficients, and the running result of the
iterative refinement. Arrays a function allocates for its own use (`ftm`, `dl_iter`, `fban`, ...)
stay values, and so do the precomputed `vsign`, `cpi`, `cp2`, which no statement assigns to. An
exception leaves the memory as it is at that moment.
-/

namespace S2fft

/-- A memory. The arrays of complex numbers are the signals and coefficients, those of reals the
`lrenorm[i, t, el]`; the addresses below `next` are in use. -/
structure Mem where
  arr : ℕ → Nd ℂ
  tab : ℕ → ℤ → ℤ → ℤ → ℝ
  next : ℕ

/-- A statement: it returns a value or raises, and changes the memory. -/
def Act (α : Type) : Type := Mem → Except PyErr α × Mem

namespace Act

def bind {α β : Type} (x : Act α) (k : α → Act β) : Act β := fun m =>
  match x m with
  | (.ok a, m') => k a m'
  | (.error e, m') => (.error e, m')

instance : Monad Act where
  pure a := fun m => (.ok a, m)
  bind := bind

/-- `raise e`. -/
def fail {α : Type} (e : PyErr) : Act α := fun m => (.error e, m)

/-- A computation on values. -/
def lift {α : Type} (r : Except PyErr α) : Act α := fun m => (r, m)

/-- An array with the given contents, at a new address. -/
def newArr (v : Nd ℂ) : Act ℕ := fun m =>
  (.ok m.next, { m with arr := Function.update m.arr m.next v, next := m.next + 1 })

def getArr (a : ℕ) : Act (Nd ℂ) := fun m => (.ok (m.arr a), m)

/-- `a[...] = v`. -/
def setArr (a : ℕ) (v : Nd ℂ) : Act Unit := fun m =>
  (.ok (), { m with arr := Function.update m.arr a v })

/-- `a.copy()`. -/
def copyArr (a : ℕ) : Act ℕ := do newArr (← getArr a)

def newTab (v : ℤ → ℤ → ℤ → ℝ) : Act ℕ := fun m =>
  (.ok m.next, { m with tab := Function.update m.tab m.next v, next := m.next + 1 })

def getTab (a : ℕ) : Act (ℤ → ℤ → ℤ → ℝ) := fun m => (.ok (m.tab a), m)

/-- `a[...] = v`. -/
def setTab (a : ℕ) (v : ℤ → ℤ → ℤ → ℝ) : Act Unit := fun m =>
  (.ok (), { m with tab := Function.update m.tab a v })

/-- `a.copy()`. -/
def copyTab (a : ℕ) : Act ℕ := do newTab (← getTab a)

/-- `for i in range(lo, hi)`. -/
def forRange {σ : Type} (lo hi : ℤ) (body : ℤ → σ → Act σ) (s : σ) : Act σ :=
  S2fft.forRange lo hi (fun i st => st >>= body i) (pure s)

end Act

open Act

/-- Precomputed coefficients in memory: `lrenorm` is an address. -/
structure PmRef where
  lr : ℕ
  vsign : ℤ → ℤ → ℝ
  cpi : ℤ → ℤ → ℝ
  cp2 : ℤ → ℤ → ℝ
  nan : ℤ → ℤ → Bool

/-- The coefficients with the given contents of `lrenorm`. -/
def PmRef.with (R : PmRef) (t : ℤ → ℤ → ℤ → ℝ) : PmPre := ⟨t, R.vsign, R.cpi, R.cp2, R.nan⟩

/-- Their value in a memory. -/
def PmRef.read (R : PmRef) (m : Mem) : PmPre := R.with (m.tab R.lr)

/-- Coefficients stored in memory. -/
def PmPre.store (P : PmPre) : Act PmRef := do
  let a ← newTab P.lr
  pure ⟨a, P.vsign, P.cpi, P.cp2, P.nan⟩

/-! ## Latitudinal steps -/

/-- The arrays of the recursion that belong to the function: `dl_entry`, `dl_iter[0]`, `dl_iter[1]`. -/
structure PmLocal where
  entry : ℤ → ℤ → ℝ
  d0 : ℤ → ℤ → ℝ
  d1 : ℤ → ℤ → ℝ

/-- One turn of the loop over `m`, with `lrenorm` at address `a` (otf_recursions.py 132-165, 550-584;
price_mcewen.py 473-500): the last statement assigns `lrenorm[i]`. -/
noncomputable def pmStepMem {α : Type} (R : PmRef) (a : ℕ) (L mm i : ℤ) (β : ℤ → ℝ)
    (emit : ℤ → (ℤ → ℤ → ℝ) → α → α) (m : ℤ) (s : α × PmLocal) : Act (α × PmLocal) := do
  let t ← getTab a
  let P := R.with t
  let st : PmState := ⟨s.2.entry, s.2.d0, s.2.d1, t i⟩
  let e := pmEntry P L mm i β m st
  let acc := emit m (fun t el => e t el * P.exp i el (st.lr t el)) s.1
  let st := pmUpdate L m e st
  setTab a (fun j => if j = i then st.lr else t j)
  pure (acc, ⟨st.entry, st.d0, st.d1⟩)

/-- One pass of a latitudinal step, with `lrenorm` at address `a` (otf_recursions.py 95-169,
511-586). -/
noncomputable def otfPassMem {α : Type} (R : PmRef) (a : ℕ) (L mm lo : ℤ) (β : ℤ → ℝ) (i : ℤ)
    (emit : ℤ → ℤ → ℤ → (ℤ → ℤ → ℝ) → α → α) (acc : α) : Act α := do
  let t ← getTab a
  let P := R.with t
  let s := pmInit P L mm i β
  let r := pmRow (2 * L - 1) i
  let acc := emit i 0 (L - 1) (fun t el => s.d0 t el * P.vsign (r 0) el * P.exp i el (s.lr t el)) acc
  let acc := emit i 1 (L - 2) (fun t el =>
    s.d1 t (max el lo) * P.vsign (r 1) (max el lo) * P.exp i (max el lo) (s.lr t (max el lo))) acc
  let out ← Act.forRange 2 (L - 1 + i) (pmStepMem R a L mm i β
    (fun m v => emit i m lo (fun t el => v t el * P.vsign (r m) el))) (acc, ⟨s.entry, s.d0, s.d1⟩)
  pure out.1

/-- Both passes. -/
noncomputable def otfRowsMem {α : Type} (R : PmRef) (a : ℕ) (L mm lo : ℤ) (β : ℤ → ℝ)
    (reality : Bool) (emit : ℤ → ℤ → ℤ → (ℤ → ℤ → ℝ) → α → α) (acc : α) : Act α :=
  Act.forRange 0 2 (fun i acc => if reality = true ∧ i = 0 then pure acc
    else otfPassMem R a L mm lo β i emit acc) acc

/-- The precomputed coefficients, generated when none are given (otf_recursions.py 81-90,
498-500). -/
noncomputable def otfPrecompsMem (G : Machine) (precomps : Option PmRef) (L spin : ℤ)
    (sampling : PyStr) (nside : Option ℤ) (forward : Bool) : Act PmRef :=
  match precomps with
  | some R => pure R
  | none => do
    let P ← lift (precomputesNumpy G L spin sampling nside forward)
    P.store

/-- `inverse_latitudinal_step` (otf_recursions.py 15-171), with `lrenorm = lrenorm.copy()` (93). -/
noncomputable def inverseLatitudinalStepMem (G : Machine) (flm : ℤ → ℤ → ℂ) (β : ℤ → ℝ) (L spin : ℤ)
    (nside : Option ℤ) (sampling : PyStr) (reality : Bool) (precomps : Option PmRef) (lo : ℤ) :
    Act (ℤ → ℤ → ℂ) := do
  let shape ← lift (ftm_shape L sampling nside)
  let R ← otfPrecompsMem G precomps L spin sampling nside false
  let a ← copyTab R.lr
  if L = 1 then fail .indexError
  else otfRowsMem R a L (-spin) lo β reality (fun i m from_ W ftm => fun t k =>
    if k = otfCol shape.2 (mOffset sampling) i m then
      ∑ el ∈ Finset.Ico from_ L, (W t el : ℂ) * flm el (pmRow (2 * L - 1) i m)
    else ftm t k) (fun _ _ => 0)

/-- `forward_latitudinal_step` (otf_recursions.py 432-588), with `lrenorm = lrenorm.copy()` (503). -/
noncomputable def forwardLatitudinalStepMem (G : Machine) (ftm : ℤ → ℤ → ℂ) (β : ℤ → ℝ)
    (nt L spin width : ℤ) (nside : Option ℤ) (sampling : PyStr) (reality : Bool)
    (precomps : Option PmRef) (lo : ℤ) : Act (ℤ → ℤ → ℂ) := do
  let R ← otfPrecompsMem G precomps L spin sampling nside true
  let a ← copyTab R.lr
  if L = 1 then fail .indexError
  else otfRowsMem R a L (-spin) lo β reality (fun i m from_ W flm => fun l k =>
    if k = pmRow (2 * L - 1) i m ∧ from_ ≤ l then
      ∑ t ∈ Finset.Ico 0 nt, (W t l : ℂ) * ftm t (otfCol width (mOffset sampling) i m)
    else flm l k) (fun _ _ => 0)

/-! ## Spherical transforms -/

/-- A negative `L_lower` is refused, as in `requireLower`. -/
def requireLowerMem {α : Type} (lo : ℤ) (r : Act α) : Act α :=
  if lo < 0 then fail .valueError else r

/-- What `inverse_numpy` does after the latitudinal step (spherical.py 172-208). -/
noncomputable def otfInverseTail (ftm flm : ℤ → ℤ → ℂ) (nt L spin : ℤ) (nside : Option ℤ)
    (sampling : PyStr) (reality : Bool) (lo : ℤ) : Except PyErr (Nd ℂ) := do
  let off := mOffsetLower sampling
  let shape ← ftm_shape L sampling nside
  let ftm ← inversePolesNumpy ftm flm L spin lo nt shape.2 sampling
  let ftm := if lower sampling = sHP then otfPhases ftm L (nside.getD 0) off false reality
    else ftm
  let ftm : ℤ → ℤ → ℂ := fun t k => ftm t k * (-1) ^ spin
  let ftm := if lower sampling = sHP ∧ reality = true then otfComplete ftm L off else ftm
  let f ← inverseFftM mNumpy ftm L (lower sampling) shape.2 (nside.getD 0) reality
  packSignal L sampling nside f

/-- `inverse_numpy` (spherical.py 112-208): `flm = flm.copy()` (162), the harmonic normalisation
assigned into the copy (165-167), and the result in a new array. -/
noncomputable def inverseNumpyMem (G : Machine) (flm : ℕ) (L spin : ℤ) (nside : Option ℤ)
    (sampling : PyStr) (reality : Bool) (precomps : Option PmRef) (lo : ℤ) : Act ℕ :=
  requireLowerMem lo do
  let (nt, θ) ← lift (otfThetas G L sampling nside)
  let flm ← copyArr flm
  let v ← getArr flm
  if v.shape ≠ [L, 2 * L - 1] then fail .valueError
  else do
    setArr flm (.d2 L (2 * L - 1) (otfNormalise v.get2 lo))
    let v ← getArr flm
    let ftm ← inverseLatitudinalStepMem G v.get2 θ L spin nside sampling reality precomps lo
    let f ← lift (otfInverseTail ftm v.get2 nt L spin nside sampling reality lo)
    newArr f

/-- The latitudinal step of `forward_numpy` with the pole rings (spherical.py 540-566). -/
noncomputable def forwardPolesNumpyMem (G : Machine) (ftm : ℤ → ℤ → ℂ) (θ : ℤ → ℝ)
    (nt L spin width : ℤ) (nside : Option ℤ) (s : PyStr) (reality : Bool)
    (precomps : Option PmRef) (lo : ℤ) : Act (ℤ → ℤ → ℂ) :=
  let off := mOffset s
  if lower s = sMWSS then do
    let flm ← forwardLatitudinalStepMem G (fun t k => ftm (t + 1) k) (fun t => θ (t + 1)) (nt - 2) L
      spin width nside s reality precomps lo
    lift do
      let a ← pyIndex width (L - 1 + spin + off)
      let b ← pyIndex (2 * L - 1) (L - 1 + spin)
      let flm := addSouth flm spin lo b (ftm (nt - 1) a)
      let a ← pyIndex width (L - 1 - spin + off)
      let b ← pyIndex (2 * L - 1) (L - 1 - spin)
      pure (addNorth flm lo b (ftm 0 a))
  else forwardLatitudinalStepMem G ftm θ nt L spin width nside s reality precomps lo

/-- `forward_numpy` (spherical.py 467-588). The signal is only read: the resampling and the Fourier
transform write to new arrays. -/
noncomputable def forwardNumpyMem (G : Machine) (f : ℕ) (L spin : ℤ) (nside : Option ℤ)
    (sampling : PyStr) (reality : Bool) (precomps : Option PmRef) (lo : ℤ) : Act ℕ :=
  requireLowerMem lo do
  let v ← getArr f
  let (ftm, s, nt, θ, width) ← lift (otfFourier G v L spin nside sampling reality mNumpy)
  let flm ← forwardPolesNumpyMem G ftm θ nt L spin width nside s reality precomps lo
  let flm := otfNormalise flm lo
  let flm := if reality then otfMirror flm L else flm
  let flm : ℤ → ℤ → ℂ := fun l k => if l < max |spin| lo then 0 else flm l k
  newArr (.d2 (flm_shape L).1 (flm_shape L).2 (fun l k => flm l k * (-1) ^ spin))

/-- `forward_with_iterative_refinement` (utils/iterative_refinement.py 9-46): `flm +=` assigns into
the array returned by the first forward transform. -/
noncomputable def refineMem (f : ℕ) (n_iter : ℤ) (fwd bwd : ℕ → Act ℕ) : Act ℕ := do
  let flm ← fwd f
  Act.forRange 0 n_iter (fun _ flm => do
    let f_recov ← bwd flm
    let x ← getArr f
    let y ← getArr f_recov
    let f_error ← newArr (Nd.map2 (· - ·) x y)
    let e ← fwd f_error
    let u ← getArr flm
    let w ← getArr e
    setArr flm (Nd.map2 (· + ·) u w)
    pure flm) flm

/-! ## Wigner transforms -/

/-- `generate_precomputes_wigner` (price_mcewen.py 258-306). -/
noncomputable def wignerPrecompsMem (G : Machine) (L N : ℤ) (sampling : PyStr)
    (nside : Option ℤ) (forward reality : Bool) : Act (ℤ → PmRef) :=
  Act.forRange (wigStart N reality) N (fun n ps => do
    let P ← lift (precomputesNumpy G L (-n) sampling nside forward)
    let R ← P.store
    pure (set1 ps (n - wigStart N reality) R)) (fun _ => ⟨0, 0, 0, 0, fun _ _ => false⟩)

/-- `if precomps is None: precomps = ...`. -/
def orGenerateMem {α : Type} (precomps : Option α) (gen : Act α) : Act α :=
  match precomps with
  | some ps => pure ps
  | none => gen

/-- `inverse_numpy` (wigner.py 110-190): `flmn = flmn.copy()` (169), the normalisation assigned into
the copy, and the spherical transforms of its planes. A plane, which NumPy hands over as a view of the
copy, is an array of its own here. -/
noncomputable def wignerInverseNumpyMem (G : Machine) (flmn : ℕ) (L N : ℤ) (nside : Option ℤ)
    (sampling : PyStr) (reality : Bool) (precomps : Option (ℤ → PmRef)) (lo : ℤ) : Act ℕ :=
  requireLowerMem lo do
  let ps ← orGenerateMem precomps (wignerPrecompsMem G L N sampling nside false reality)
  let shape ← lift (so3_f_shape L N sampling nside)
  let flmn ← copyArr flmn
  let v ← getArr flmn
  if v.shape ≠ [(flmn_shape L N).1, (flmn_shape L N).2.1, (flmn_shape L N).2.2] then
    fail .valueError
  else do
    setArr flmn (.d3 (flmn_shape L N).1 (flmn_shape L N).2.1 (flmn_shape L N).2.2
      (wigScale v.get3 lo))
    let fban ← Act.forRange (wigStart N reality) N (fun n fban => do
      let v ← getArr flmn
      let plane ← newArr (.d2 (flm_shape L).1 (flm_shape L).2 (v.get3 (N - 1 + n)))
      let out ← inverseNumpyMem G plane L (-n) nside sampling (if n = 0 then reality else false)
        (some (ps (n - wigStart N reality))) lo
      let w ← getArr out
      pure (setPlane fban (N - 1 + n) (fun i j => (-1) ^ n * w.get2 i j))) (fun _ _ _ => 0)
    let f ← lift (packSo3 shape (wigGamma fban N reality))
    newArr f

/-- `forward_numpy` (wigner.py 442-533). -/
noncomputable def wignerForwardNumpyMem (G : Machine) (f : ℕ) (L N : ℤ) (nside : Option ℤ)
    (sampling : PyStr) (reality : Bool) (precomps : Option (ℤ → PmRef)) (lo : ℤ) : Act ℕ :=
  requireLowerMem lo do
  let ps ← orGenerateMem precomps (wignerPrecompsMem G L N sampling nside true reality)
  let shape ← lift (so3_f_shape L N sampling nside)
  let v ← getArr f
  if v.shape ≠ shape then fail .valueError
  else do
    let fban := wignerBaseFban v.get3 N reality
    let flmn ← Act.forRange (wigStart N reality) N (fun n flmn => do
      let plane ← newArr (planeOf shape (fban (n - wigStart N reality)))
      let out ← forwardNumpyMem G plane L (-n) nside sampling (if n = 0 then reality else false)
        (some (ps (n - wigStart N reality))) lo
      let w ← getArr out
      let flmn := setPlane flmn (N - 1 + n) (fun l j => (-1) ^ n * w.get2 l j)
      if reality = true ∧ n ≠ 0 then
        pure (setPlane flmn (N - 1 - n) (wigMirror (flmn (N - 1 + n)) L n))
      else pure flmn) (fun _ _ _ => 0)
    newArr (.d3 (flmn_shape L N).1 (flmn_shape L N).2.1 (flmn_shape L N).2.2 (wigUnscale flmn lo))

/-! ## The public functions -/

/-- A call of a public transform with the NumPy method; arrays are given by their addresses. -/
inductive Call where
  | inverse (flm : ℕ) (L spin : ℤ) (nside : Option ℤ) (sampling : PyStr) (reality : Bool)
      (precomps : Option PmRef) (lo : ℤ)
  | forward (f : ℕ) (L spin : ℤ) (nside : Option ℤ) (sampling : PyStr) (reality : Bool)
      (precomps : Option PmRef) (lo : ℤ) (iter : Option ℤ)
  | wignerInverse (flmn : ℕ) (L N : ℤ) (nside : Option ℤ) (sampling : PyStr) (reality : Bool)
      (precomps : Option (ℤ → PmRef)) (lo : ℤ)
  | wignerForward (f : ℕ) (L N : ℤ) (nside : Option ℤ) (sampling : PyStr) (reality : Bool)
      (precomps : Option (ℤ → PmRef)) (lo : ℤ)

/-- Run a call (spherical.py 21-109, 352-464 and wigner.py 13-107, 346-439, for `method="numpy"`);
the result is the address of the array returned. -/
noncomputable def Call.run (G : Machine) : Call → Act ℕ
  | .inverse flm L spin nside sampling reality precomps lo =>
    if spin ≥ 8 then fail .warning
    else inverseNumpyMem G flm L spin nside sampling reality precomps lo
  | .forward f L spin nside sampling reality precomps lo iter =>
    if spin ≥ 8 then fail .warning
    else if iter.getD 0 > 0 then
      refineMem f (iter.getD 0)
        (fun f => forwardNumpyMem G f L spin nside sampling reality precomps lo)
        (fun flm => inverseNumpyMem G flm L spin nside sampling reality none lo)
    else forwardNumpyMem G f L spin nside sampling reality precomps lo
  | .wignerInverse flmn L N nside sampling reality precomps lo =>
    if N ≥ 8 then fail .warning
    else wignerInverseNumpyMem G flmn L N nside sampling reality precomps lo
  | .wignerForward f L N nside sampling reality precomps lo =>
    if N ≥ 8 then fail .warning
    else wignerForwardNumpyMem G f L N nside sampling reality precomps lo

/-- Calls one after the other; an exception ends its call only. -/
noncomputable def runCalls (G : Machine) : List Call → Mem → Mem
  | [], m => m
  | c :: cs, m => runCalls G cs (c.run G m).2

/-! ## `compute_all_slices` -/

/-- The `precomps` argument of `compute_all_slices`: nothing, the five arrays that
`generate_precomputes` returns, or seven arrays, of which the function uses these. -/
inductive SlicePrecomps where
  | none
  | five (R : PmRef)
  | seven (R : PmRef)

/-- `compute_all_slices` (price_mcewen.py 377-500). Without coefficients it calls
`generate_precomputes(beta, L, mm)`, whose parameters are `L, spin, sampling`: the integer `mm` has no
method `lower` (426-428, samples.py 88). It unpacks seven arrays (430). There is no copy of `lrenorm`.
For `L = 1` the second row is asked for. -/
noncomputable def computeAllSlices (β : ℤ → ℝ) (L spin : ℤ) (precomps : SlicePrecomps) :
    Act (ℤ → ℤ → ℤ → ℝ) :=
  match precomps with
  | .none => fail .attributeError
  | .five _ => fail .valueError
  | .seven R =>
    if L = 1 then fail .indexError
    else Act.forRange 0 2 (fun i dl => do
      let t ← getTab R.lr
      let P := R.with t
      let s := pmInit P L (-spin) i β
      let r0 := pmRow (2 * L - 1) i 0
      let dl : ℤ → ℤ → ℤ → ℝ := fun r t el => if r = r0 ∧ L - 1 ≤ el then
        s.d0 t el * P.vsign r0 el * P.exp i el (s.lr t el) else dl r t el
      let r1 := pmRow (2 * L - 1) i 1
      let dl : ℤ → ℤ → ℤ → ℝ := fun r t el => if r = r1 ∧ L - 2 ≤ el then
        s.d1 t el * P.vsign r1 el * P.exp i el (s.lr t el) else dl r t el
      let out ← Act.forRange 2 L (pmStepMem R R.lr L (-spin) i β
        (fun m v (dl : ℤ → ℤ → ℤ → ℝ) => fun r t el =>
          if r = pmRow (2 * L - 1) i m ∧ el ≥ L - m - 1 then
            v t el * P.vsign (pmRow (2 * L - 1) i m) el else dl r t el))
        (dl, ⟨s.entry, s.d0, s.d1⟩)
      pure out.1) (fun _ _ _ => 0)

end S2fft
