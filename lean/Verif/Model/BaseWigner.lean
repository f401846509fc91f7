import Verif.Model.Base

/-!
# Base Wigner transforms

Models `s2fft/base_transforms/wigner.py`. A signal is a function of `(g, t, p)`; for HEALPix the
array has two dimensions and is kept in row `t = 0`.
-/

namespace S2fft

/-- Contents of a three-dimensional array, or of a two-dimensional one in row 0. -/
def Nd.get3 {α : Type*} [Zero α] : Nd α → ℤ → ℤ → ℤ → α
  | .d2 _ _ a => fun g _ j => a g j
  | .d3 _ _ _ a => a
  | _ => fun _ _ _ => 0

/-- `a[p] = v`. -/
def setPlane {α : Type*} (a : ℤ → ℤ → ℤ → α) (p : ℤ) (v : ℤ → ℤ → α) : ℤ → ℤ → ℤ → α :=
  fun q => if q = p then v else a q

/-- An array of shape `shape` with the given contents. -/
def packSo3 (shape : List ℤ) (f : ℤ → ℤ → ℤ → ℂ) : Except PyErr (Nd ℂ) :=
  match shape with
  | [g, n] => .ok (.d2 g n (fun x => f x 0))
  | [g, r, c] => .ok (.d3 g r c f)
  | _ => .error .valueError

/-- `f[g]` for a signal array `f` of shape `shape`. -/
def planeOf (shape : List ℤ) (f : ℤ → ℤ → ℂ) : Nd ℂ :=
  match shape with
  | [_, n] => .d1 n (f 0)
  | [_, r, c] => .d2 r c f
  | l => .other l.length

/-- `inverse` (base_transforms/wigner.py 7-84). -/
noncomputable def wignerBaseInverse (G : GlTables) (flmn : Nd ℂ) (L N L_lower : ℤ)
    (sampling : PyStr) (reality : Bool) (nside : Option ℤ) : Except PyErr (Nd ℂ) :=
  if flmn.shape ≠ [(flmn_shape L N).1, (flmn_shape L N).2.1, (flmn_shape L N).2.2] then
    .error .assertionError
  else do
    let shape ← so3_f_shape L N sampling nside
    let scaled : ℤ → ℤ → ℤ → ℂ := fun n l m =>
      flmn.get3 n l m * (√((2 * (l : ℝ) + 1) / (16 * Real.pi ^ 3)) : ℝ)
    let fban ← forRangeM (if reality then 0 else -N + 1) N (fun n fban => do
      let out ← baseInverse G (.d2 (flm_shape L).1 (flm_shape L).2 (scaled (N - 1 + n))) L (-n)
        sampling nside reality L_lower
      pure (setPlane fban (N - 1 + n) (fun i j => (-1) ^ n * out.get2 i j))) (fun _ _ _ => 0)
    packSo3 shape (fun g i j =>
      if reality then irfft_fwd (2 * N - 1 - (N - 1)) (fun k => fban (N - 1 + k) i j) (2 * N - 1) g
      else ifft_fwd (ngamma N) (ifftshift (ngamma N) (fun k => fban k i j)) g)

/-- `fban` before the loop of `forward` (140-146). -/
noncomputable def wignerBaseFban (f : ℤ → ℤ → ℤ → ℂ) (N : ℤ) (reality : Bool) (k i j : ℤ) : ℂ :=
  (if reality then rfft (ngamma N) (fun g => (f g i j).re) k
    else fftshift (ngamma N) (fft (ngamma N) (fun g => f g i j)) k)
    * (2 * Real.pi / (2 * (N : ℂ) - 1))

/-- `forward` (base_transforms/wigner.py 87-171). -/
noncomputable def wignerBaseForward (G : GlTables) (f : Nd ℂ) (L N L_lower : ℤ)
    (sampling : PyStr) (reality : Bool) (nside : Option ℤ) : Except PyErr (Nd ℂ) := do
  let shape ← so3_f_shape L N sampling nside
  if f.shape ≠ shape then .error .assertionError
  else do
    let fban := wignerBaseFban f.get3 N reality
    let start : ℤ := if reality then 0 else -N + 1
    let flmn ← forRangeM start N (fun n flmn => do
      let flm ← baseForward G (planeOf shape (fban (n - start))) L (-n) sampling nside reality
        L_lower 0
      let flmn := setPlane flmn (N - 1 + n) (fun l j => (-1) ^ n * flm.get2 l j)
      if reality = true ∧ n ≠ 0 then
        pure (setPlane flmn (N - 1 - n) (fun l j => (starRingEnd ℂ)
          (flmn (N - 1 + n) l (2 * L - 1 - 1 - j)
            * (-1) ^ |-L + 1 + (2 * L - 1 - 1 - j)| * (-1) ^ n)))
      else pure flmn) (fun _ _ _ => 0)
    pure (.d3 (flmn_shape L N).1 (flmn_shape L N).2.1 (flmn_shape L N).2.2
      (fun n l m => flmn n l m * (√(4 * Real.pi / (2 * (l : ℝ) + 1)) : ℝ)))

end S2fft
