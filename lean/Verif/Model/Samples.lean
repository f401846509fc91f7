import Verif.Py.Basic
import Mathlib.Analysis.SpecialFunctions.Trigonometric.Inverse
import Mathlib.Analysis.SpecialFunctions.Sqrt

/-!
# Model of `s2fft/sampling/s2_samples.py` and `s2fft/sampling/so3_samples.py`

Floats are reals, optional arguments are `Option`, `raise ValueError` is
`Except.error .valueError`.
-/

namespace S2fft

/-- The scheme names, lower case. -/
def sMW : PyStr := ['m', 'w']
def sMWSS : PyStr := ['m', 'w', 's', 's']
def sDH : PyStr := ['d', 'h']
def sGL : PyStr := ['g', 'l']
def sHP : PyStr := ['h', 'e', 'a', 'l', 'p', 'i', 'x']

/-- s2_samples.py:4-52 `ntheta`. -/
def ntheta (L : Option ℤ) (sampling : PyStr) (nside : Option ℤ) : Except PyErr ℤ :=
  if lower sampling = sHP then
    match nside with
    | none => .error .valueError
    | some nside => .ok (4 * nside - 1)
  else
    match L with
    | none => .error .valueError
    | some L =>
      if lower sampling = sMW ∨ lower sampling = sGL then .ok L
      else if lower sampling = sMWSS then .ok (L + 1)
      else if lower sampling = sDH then .ok (2 * L)
      else .error .valueError

/-- s2_samples.py:55-82 `ntheta_extension`. -/
def ntheta_extension (L : ℤ) (sampling : PyStr) : Except PyErr ℤ :=
  if lower sampling = sMW then .ok (2 * L - 1)
  else if lower sampling = sMWSS then .ok (2 * L)
  else .error .valueError

/-- s2_samples.py:85-123 `nphi_equiang` (the unreachable `return 1` is omitted). -/
def nphi_equiang (L : ℤ) (sampling : PyStr) : Except PyErr ℤ :=
  if lower sampling = sMW ∨ lower sampling = sGL then .ok (2 * L - 1)
  else if lower sampling = sMWSS then .ok (2 * L)
  else if lower sampling = sDH then .ok (2 * L - 1)
  else if lower sampling = sHP then .error .valueError
  else .error .valueError

/-- s2_samples.py:126-155 `ftm_shape`. -/
def ftm_shape (L : ℤ) (sampling : PyStr) (nside : Option ℤ) : Except PyErr (ℤ × ℤ) :=
  if lower sampling = sMWSS ∨ lower sampling = sHP then do
    let t ← ntheta (some L) sampling nside
    pure (t, 2 * L)
  else if lower sampling = sMW ∨ lower sampling = sDH ∨ lower sampling = sGL then do
    let t ← ntheta (some L) sampling nside
    pure (t, 2 * L - 1)
  else .error .valueError

/-- s2_samples.py:158-170 `nphi_equitorial_band`. -/
def nphi_equitorial_band (nside : ℤ) : ℤ := 4 * nside

/-- s2_samples.py:173-200 `nphi_ring`. -/
def nphi_ring (t nside : ℤ) : Except PyErr ℤ :=
  if t ≥ 0 ∧ t < nside - 1 then .ok (4 * (t + 1))
  else if t ≥ nside - 1 ∧ t ≤ 3 * nside - 1 then .ok (4 * nside)
  else if t > 3 * nside - 1 ∧ t ≤ 4 * nside - 2 then .ok (4 * (4 * nside - t - 1))
  else .error .valueError

/-- s2_samples.py:284-308 `_t2theta_healpix`, for one (float valued) ring index; indices outside
every mask keep `z = 0`. -/
noncomputable def t2theta_healpix (t : ℤ) (nside : ℤ) : ℝ :=
  Real.arccos
    (if t < nside - 1 then 1 - ((t : ℝ) + 1) ^ 2 / (3 * (nside : ℝ) ^ 2)
     else if t ≥ nside - 1 ∧ t ≤ 3 * nside - 1 then
       4 / 3 - 2 * ((t : ℝ) + 1) / (3 * (nside : ℝ))
     else if t > 3 * nside - 1 ∧ t ≤ 4 * nside - 2 then
       (4 * (nside : ℝ) - 1 - t) ^ 2 / (3 * (nside : ℝ) ^ 2) - 1
     else 0)

/-- s2_samples.py:229-281 `t2theta`, for one sample index. -/
noncomputable def t2theta (t : ℤ) (L : Option ℤ) (sampling : PyStr) (nside : Option ℤ) :
    Except PyErr ℝ :=
  if lower sampling = sHP then
    match nside with
    | none => .error .valueError
    | some nside => .ok (t2theta_healpix t nside)
  else
    match L with
    | none => .error .valueError
    | some L =>
      if lower sampling = sMW then .ok ((2 * (t : ℝ) + 1) * Real.pi / (2 * (L : ℝ) - 1))
      else if lower sampling = sMWSS then .ok (2 * (t : ℝ) * Real.pi / (2 * (L : ℝ)))
      else if lower sampling = sDH then .ok ((2 * (t : ℝ) + 1) * Real.pi / (4 * (L : ℝ)))
      else .error .valueError

/-- s2_samples.py:203-226 `thetas`: the number of samples and the sample at each index.
`leggauss L i` stands for `np.polynomial.legendre.leggauss(L)[0][i]`. -/
noncomputable def thetas (leggauss : ℤ → ℤ → ℝ) (L : Option ℤ) (sampling : PyStr)
    (nside : Option ℤ) : Except PyErr (ℤ × (ℤ → ℝ)) :=
  if lower sampling = sGL then
    match L with
    | none => .error .typeError
    | some L => .ok (L, fun t => Real.arccos (leggauss L (L - 1 - t)))
  else do
    let n ← ntheta L sampling nside
    let _ ← t2theta 0 L sampling nside
    pure (n, fun t => match t2theta t L sampling nside with
      | .ok θ => θ
      | .error _ => 0)

/-- s2_samples.py:329-353 `p2phi_ring`. -/
noncomputable def p2phi_ring (t p nside : ℤ) : ℝ :=
  if t + 1 ≥ nside ∧ t + 1 ≤ 3 * nside then
    Real.pi / (2 * (nside : ℝ)) * ((p : ℝ) + 1 / 2 * (((t - nside + 2) % 2 : ℤ) : ℝ))
  else if t + 1 > 3 * nside then
    Real.pi / (2 * (4 * (nside : ℝ) - t - 1)) * ((p : ℝ) + 1 / 2)
  else
    Real.pi / (2 * ((t : ℝ) + 1)) * ((p : ℝ) + 1 / 2)

/-- s2_samples.py:311-326 `phis_ring`. -/
noncomputable def phis_ring (t nside : ℤ) : Except PyErr (ℤ × (ℤ → ℝ)) := do
  let n ← nphi_ring t nside
  pure (n, fun p => p2phi_ring t p nside)

/-- s2_samples.py:375-409 `p2phi_equiang`. -/
noncomputable def p2phi_equiang (L p : ℤ) (sampling : PyStr) : Except PyErr ℝ :=
  if lower sampling = sMW ∨ lower sampling = sGL then
    .ok (2 * (p : ℝ) * Real.pi / (2 * (L : ℝ) - 1))
  else if lower sampling = sMWSS then .ok (2 * (p : ℝ) * Real.pi / (2 * (L : ℝ)))
  else if lower sampling = sDH then .ok (2 * (p : ℝ) * Real.pi / (2 * (L : ℝ) - 1))
  else if lower sampling = sHP then .error .valueError
  else .error .valueError

/-- s2_samples.py:356-372 `phis_equiang`. -/
noncomputable def phis_equiang (L : ℤ) (sampling : PyStr) : Except PyErr (ℤ × (ℤ → ℝ)) := do
  let n ← nphi_equiang L sampling
  pure (n, fun p => match p2phi_equiang L p sampling with
    | .ok φ => φ
    | .error _ => 0)

/-- s2_samples.py:446-478 `f_shape`; the tuple is a list. -/
def f_shape (L : Option ℤ) (sampling : PyStr) (nside : Option ℤ) : Except PyErr (List ℤ) :=
  if lower sampling = sHP then
    match nside with
    | none => .error .valueError
    | some nside => .ok [12 * nside ^ 2]
  else
    match L with
    | none => .error .valueError
    | some L => do
      let nt ← ntheta (some L) sampling none
      let np ← nphi_equiang L sampling
      pure [nt, np]

/-- s2_samples.py:481-492 `flm_shape`. -/
def flm_shape (L : ℤ) : ℤ × ℤ := (L, 2 * L - 1)

/-- s2_samples.py:495-513 `elm2ind`. -/
def elm2ind (el m : ℤ) : ℤ := el ^ 2 + el + m

/-- s2_samples.py:516-534 `ind2elm` (the code returns floats with these integer values). -/
noncomputable def ind2elm (ind : ℤ) : ℤ × ℤ :=
  let el := ⌊Real.sqrt ind⌋
  (el, ind - el ^ 2 - el)

/-- s2_samples.py:537-548 `ncoeff`. -/
def ncoeff (L : ℤ) : ℤ := elm2ind (L - 1) (L - 1) + 1

/-- s2_samples.py:571-622 `_hp_zphi2pix`. -/
noncomputable def hp_zphi2pix (nside : ℤ) (z phi : ℝ) : ℤ :=
  let tt : ℝ := 2 * phi / Real.pi
  let za : ℝ := |z|
  let nl2 : ℤ := 2 * nside
  let nl4 : ℤ := 4 * nside
  let ncap : ℤ := nl2 * (nside - 1)
  let npix : ℤ := 12 * nside ^ 2
  let ipix1 : ℤ :=
    if za < 2 / 3 then
      let jp := pyInt ((nside : ℝ) * (1 / 2 + tt - 3 / 4 * z))
      let jm := pyInt ((nside : ℝ) * (1 / 2 + tt + 3 / 4 * z))
      let ir := nside + 1 + jp - jm
      let kshift : ℤ := if ir % 2 = 0 then 1 else 0
      let ip := pyInt (((jp + jm - nside + kshift + 1 : ℤ) : ℝ) / 2) + 1
      ncap + nl4 * (ir - 1) + ip
    else
      let tp : ℝ := tt - (pyInt tt : ℝ)
      let tmp : ℝ := Real.sqrt (3 * (1 - za))
      let jp := pyInt ((nside : ℝ) * tp * tmp)
      let jm := pyInt ((nside : ℝ) * (1 - tp) * tmp)
      let ir := jp + jm + 1
      let ip0 := pyInt (tt * (ir : ℝ)) + 1
      let ip := if ip0 > 4 * ir then ip0 - 4 * ir else ip0
      if z ≤ 0 then npix - 2 * ir * (ir + 1) + ip else 2 * ir * (ir - 1) + ip
  ipix1 - 1

/-- s2_samples.py:551-568 `hp_ang2pix`. -/
noncomputable def hp_ang2pix (nside : ℤ) (theta phi : ℝ) : ℤ :=
  hp_zphi2pix nside (Real.cos theta) phi

/-- s2_samples.py:625-644 `hp_getidx`. -/
def hp_getidx (L el m : ℤ) : ℤ := m * (2 * L - 1 - m) / 2 + el

/-- s2_samples.py:647-691 `flm_2d_to_1d`. The loop reads entry `(L-1, 2L-2)` last, so an array
with fewer rows or columns raises `IndexError`. -/
def flm_2d_to_1d (flm_2d : Nd ℂ) (L : ℤ) : Except PyErr (Nd ℂ) :=
  match flm_2d with
  | .d2 r c a =>
    if 0 < L ∧ (r < L ∨ c < 2 * L - 1) then .error .indexError
    else
      .ok (.d1 (ncoeff L)
        (forRange 0 L (fun el s =>
          forRange (-el) (el + 1) (fun m s => set1 s (elm2ind el m) (a el (L - 1 + m))) s)
          (fun _ => 0)))
  | _ => .error .valueError

/-- s2_samples.py:694-738 `flm_1d_to_2d`. A three or more dimensional input raises while
formatting its own message (`flm_2d` exists, so the message is just about the wrong array): still
`ValueError`. -/
def flm_1d_to_2d (flm_1d : Nd ℂ) (L : ℤ) : Except PyErr (Nd ℂ) :=
  match flm_1d with
  | .d1 n a =>
    if 0 < L ∧ n < ncoeff L then .error .indexError
    else
      .ok (.d2 (flm_shape L).1 (flm_shape L).2
        (forRange 0 L (fun el s =>
          forRange (-el) (el + 1) (fun m s => set2 s el (L - 1 + m) (a (elm2ind el m))) s)
          (fun _ _ => 0)))
  | _ => .error .valueError

/-- s2_samples.py:741-794 `flm_hp_to_2d`. -/
def flm_hp_to_2d (flm_hp : Nd ℂ) (L : ℤ) : Except PyErr (Nd ℂ) :=
  match flm_hp with
  | .d1 n a =>
    if 0 < L ∧ n < L * (L + 1) / 2 then .error .indexError
    else
      .ok (.d2 (flm_shape L).1 (flm_shape L).2
        (forRange 0 L (fun el s =>
          forRange 1 (el + 1) (fun m s =>
              let s := set2 s el (L - 1 + m) (a (hp_getidx L el m))
              set2 s el (L - 1 - m) ((-1) ^ m.toNat * (starRingEnd ℂ) (s el (L - 1 + m))))
            (set2 s el (L - 1 + 0) (a (hp_getidx L el 0))))
          (fun _ _ => 0)))
  | _ => .error .valueError

/-- s2_samples.py:797-849 `flm_2d_to_hp`. The rank check in the code (lines 842-843) looks at the
freshly allocated output, so it never fires; an input that is not two-dimensional fails at the
first element access. -/
def flm_2d_to_hp (flm_2d : Nd ℂ) (L : ℤ) : Except PyErr (Nd ℂ) :=
  match flm_2d with
  | .d2 r c a =>
    if 0 < L ∧ (r < L ∨ c < 2 * L - 1) then .error .indexError
    else
      .ok (.d1 (L * (L + 1) / 2)
        (forRange 0 L (fun el s =>
          forRange 0 (el + 1) (fun m s => set1 s (hp_getidx L el m) (a el (L - 1 + m))) s)
          (fun _ => 0)))
  | _ => .error .indexError

/-- s2_samples.py:852-897 `lm2lm_hp` (one-dimensional input). -/
def lm2lm_hp (flm : Nd ℂ) (L : ℤ) : Except PyErr (Nd ℂ) :=
  match flm with
  | .d1 n a =>
    if 0 < L ∧ n < ncoeff L then .error .indexError
    else
      .ok (.d1 (L * (L + 1) / 2)
        (forRange 0 L (fun el s =>
          forRange 0 (el + 1) (fun m s => set1 s (hp_getidx L el m) (a (elm2ind el m))) s)
          (fun _ => 0)))
  | _ => .error .valueError

/-! ## so3_samples.py -/

/-- so3_samples.py:178-189 `_ngamma`. -/
def ngamma (N : ℤ) : ℤ := 2 * N - 1

/-- so3_samples.py:121-145 `_nalpha`. -/
def nalpha (L : ℤ) (sampling : PyStr) : Except PyErr ℤ :=
  if lower sampling = sMW ∨ lower sampling = sDH ∨ lower sampling = sGL then .ok (2 * L - 1)
  else if lower sampling = sMWSS then .ok (2 * L)
  else .error .valueError

/-- so3_samples.py:148-175 `_nbeta`. -/
def nbeta (L : ℤ) (sampling : PyStr) : Except PyErr ℤ :=
  if lower sampling = sMW ∨ lower sampling = sGL then .ok L
  else if lower sampling = sMWSS then .ok (L + 1)
  else if lower sampling = sDH then .ok (2 * L)
  else .error .valueError

/-- so3_samples.py:6-47 `f_shape`: note the first test does not lower-case the name. `None**2`
raises `TypeError`. -/
def so3_f_shape (L N : ℤ) (sampling : PyStr) (nside : Option ℤ) : Except PyErr (List ℤ) :=
  if sampling = sMW ∨ sampling = sMWSS ∨ sampling = sDH ∨ sampling = sGL then do
    let b ← nbeta L sampling
    let a ← nalpha L sampling
    pure [ngamma N, b, a]
  else if lower sampling = sHP then
    match nside with
    | none => .error .typeError
    | some nside => .ok [ngamma N, 12 * nside ^ 2]
  else .error .valueError

/-- so3_samples.py:50-65 `flmn_shape`. -/
def flmn_shape (L N : ℤ) : ℤ × ℤ × ℤ := (2 * N - 1, L, 2 * L - 1)

/-- so3_samples.py:68-102 `fnab_shape`. -/
def fnab_shape (L N : ℤ) (sampling : PyStr) (nside : Option ℤ) :
    Except PyErr (ℤ × ℤ × ℤ) :=
  if lower sampling = sMWSS ∨ lower sampling = sHP then do
    let t ← ntheta (some L) sampling nside
    pure (ngamma N, t, 2 * L)
  else if lower sampling = sMW ∨ lower sampling = sDH ∨ lower sampling = sGL then do
    let t ← ntheta (some L) sampling nside
    pure (ngamma N, t, 2 * L - 1)
  else .error .valueError

/-- so3_samples.py:105-118 `flmn_shape_1d`. -/
def flmn_shape_1d (L N : ℤ) : ℤ := (2 * N - 1) * L * L

/-- so3_samples.py:192-213 `elmn2ind`. -/
def elmn2ind (el m n L N : ℤ) : ℤ := (N - 1 + n) * L * L + el * el + el + m

/-- so3_samples.py:216-251 `flmn_3d_to_1d`. -/
def flmn_3d_to_1d (flmn_3d : Nd ℂ) (L N : ℤ) : Except PyErr (Nd ℂ) :=
  match flmn_3d with
  | .d3 p r c a =>
    if 0 < L ∧ 0 < N ∧ (p < 2 * N - 1 ∨ r < L ∨ c < 2 * L - 1) then .error .indexError
    else
      .ok (.d1 (flmn_shape_1d L N)
        (forRange (-N + 1) N (fun n s =>
          forRange 0 L (fun el s =>
            forRange (-el) (el + 1) (fun m s =>
              set1 s (elmn2ind el m n L N) (a (N - 1 + n) el (L - 1 + m))) s) s)
          (fun _ => 0)))
  | _ => .error .valueError

/-- so3_samples.py:254-289 `flmn_1d_to_3d`. -/
def flmn_1d_to_3d (flmn_1d : Nd ℂ) (L N : ℤ) : Except PyErr (Nd ℂ) :=
  match flmn_1d with
  | .d1 k a =>
    if 0 < L ∧ 0 < N ∧ k < flmn_shape_1d L N then .error .indexError
    else
      .ok (.d3 (flmn_shape L N).1 (flmn_shape L N).2.1 (flmn_shape L N).2.2
        (forRange (-N + 1) N (fun n s =>
          forRange 0 L (fun el s =>
            forRange (-el) (el + 1) (fun m s =>
              set3 s (N - 1 + n) el (L - 1 + m) (a (elmn2ind el m n L N))) s) s)
          (fun _ _ _ => 0)))
  | _ => .error .valueError

end S2fft
