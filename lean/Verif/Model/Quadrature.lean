import Verif.Py.Fft
import Verif.Model.Samples

/-!
# Model of `s2fft/utils/quadrature.py` and `s2fft/utils/quadrature_jax.py`

Arrays of weights are a length and a function of the index. The JAX file computes the same
expressions as the NumPy file, without the `spin` argument (it is `spin = 0` there): its functions
are the ones below with `spin = 0`. `quadrature_torch.py` re-exports the JAX versions.
-/

namespace S2fft

/-- quadrature.py:291-320 `mw_weights` (quadrature_jax.py:313-342). -/
noncomputable def mw_weights (m : ℤ) : ℂ :=
  if m = 1 then Complex.I * Real.pi / 2
  else if m = -1 then -Complex.I * Real.pi / 2
  else if m % 2 = 0 then 2 / (1 - (m : ℂ) ^ 2)
  else 0

/-- quadrature.py:280-284, the array `wr` of `quad_weights_mw_theta_only`. -/
noncomputable def mw_wr (L : ℤ) (t : ℤ) : ℝ :=
  let w : ℤ → ℂ := forRange (-(L - 1)) L (fun i w => set1 w (i + L - 1) (mw_weights i)) 0
  let w : ℤ → ℂ := fun j => w j * cis (-(((j - (L - 1) : ℤ) : ℝ) * Real.pi / (2 * (L : ℝ) - 1)))
  (fft (2 * L - 1) (ifftshift (2 * L - 1) w) t).re / (2 * (L : ℝ) - 1)

/-- quadrature.py:265-288 `quad_weights_mw_theta_only` (quadrature_jax.py:286-309): length `L`;
`q[:L-1] += (-1)**spin * wr[-1:L-1:-1]`. -/
noncomputable def quad_weights_mw_theta_only (L spin : ℤ) (t : ℤ) : ℝ :=
  if t < L - 1 then mw_wr L t + (-1) ^ spin * mw_wr L (2 * L - 1 - 1 - t) else mw_wr L t

/-- quadrature.py:252-257, the array `wr` of `quad_weights_mwss_theta_only`. -/
noncomputable def mwss_wr (L : ℤ) (t : ℤ) : ℝ :=
  let w : ℤ → ℂ :=
    forRange (-(L - 1) + 1) (L + 1) (fun i w => set1 w (i + L - 1) (mw_weights (i - 1))) 0
  (fft (2 * L) (ifftshift (2 * L) w) t).re / (2 * (L : ℝ))

/-- quadrature.py:238-262 `quad_weights_mwss_theta_only` (quadrature_jax.py:259-282): length
`L + 1`; `q[1:L] += (-1)**spin * wr[-1:L:-1]`. -/
noncomputable def quad_weights_mwss_theta_only (L spin : ℤ) (t : ℤ) : ℝ :=
  if 1 ≤ t ∧ t < L then mwss_wr L t + (-1) ^ spin * mwss_wr L (2 * L - 1 - (t - 1))
  else mwss_wr L t

/-- quadrature.py:204-218 `quad_weights_mw` (quadrature_jax.py:221-237). -/
noncomputable def quad_weights_mw (L spin : ℤ) (t : ℤ) : ℝ :=
  quad_weights_mw_theta_only L spin t * 2 * Real.pi / (2 * (L : ℝ) - 1)

/-- quadrature.py:221-235 `quad_weights_mwss` (quadrature_jax.py:240-255). -/
noncomputable def quad_weights_mwss (L spin : ℤ) (t : ℤ) : ℝ :=
  quad_weights_mwss_theta_only L spin t * 2 * Real.pi / (2 * (L : ℝ))

/-- quadrature.py:181-201 `quad_weight_dh_theta_only` (quadrature_jax.py:197-217). -/
noncomputable def quad_weight_dh_theta_only (theta : ℝ) (L : ℤ) : ℝ :=
  let w : ℝ := forRange 0 L (fun k w => w + Real.sin ((2 * (k : ℝ) + 1) * theta) / (2 * k + 1)) 0
  w * (2 / (L : ℝ) * Real.sin theta)

/-- quadrature.py:164-178 `quad_weights_dh` (quadrature_jax.py:178-193), the sample angles being
those of `samples.thetas(L, sampling="dh")` (s2_samples.py:267-268). -/
noncomputable def quad_weights_dh (L : ℤ) (t : ℤ) : ℝ :=
  quad_weight_dh_theta_only ((2 * (t : ℝ) + 1) * Real.pi / (4 * (L : ℝ))) L * 2 * Real.pi
    / (2 * (L : ℝ) - 1)

/-- quadrature.py:99-122 `quad_weights_hp` (quadrature_jax.py:103-123); length `4 nside - 1`. -/
noncomputable def quad_weights_hp (nside : ℤ) (_t : ℤ) : ℝ :=
  4 * Real.pi / ((12 * nside ^ 2 : ℤ) : ℝ)

/-- quadrature.py:148-153, the recursion for `(p1, p2)` at one node. -/
noncomputable def gl_p (L : ℤ) (z : ℝ) : ℝ × ℝ :=
  forRange 1 (L + 1) (fun j p =>
    (((2 * (j : ℝ) - 1) * z * p.1 - ((j : ℝ) - 1) * p.2) / j, p.1)) (1, 0)

/-- quadrature.py:154, `pp`. -/
noncomputable def gl_pp (L : ℤ) (z : ℝ) : ℝ :=
  L * (z * (gl_p L z).1 - (gl_p L z).2) / (z * z - 1)

/-- quadrature.py:143-156 (`z` starts at 144), the node `z[i - 1]` after `n` passes of the `while` loop. -/
noncomputable def gl_z (L : ℤ) (i : ℤ) : ℕ → ℝ
  | 0 => Real.cos (Real.pi * ((i : ℝ) - 0.25) / ((L : ℝ) + 0.5))
  | n + 1 => gl_z L i n - (gl_p L (gl_z L i n)).1 / gl_pp L (gl_z L i n)

/-- quadrature.py:141, `m = int((L + 1) / 2)`. -/
def gl_m (L : ℤ) : ℤ := (L + 1) / 2

/-- quadrature.py:146,155: `z1` before pass `n`. -/
noncomputable def gl_z1 (L : ℤ) (i : ℤ) : ℕ → ℝ
  | 0 => 2
  | n + 1 => gl_z L i n

/-- quadrature.py:147, the condition of the `while` loop after `n` passes. -/
def gl_continue (L : ℤ) (n : ℕ) : Prop :=
  ∃ i, 1 ≤ i ∧ i ≤ gl_m L ∧ |gl_z L i n - gl_z1 L i n| > 1e-14

/-- The `while` loop leaves after exactly `n` passes. -/
def gl_exits (L : ℤ) (n : ℕ) : Prop := ¬ gl_continue L n ∧ ∀ k < n, gl_continue L k

/-- quadrature.py:158-161 `quad_weights_gl` (quadrature_jax.py:127-174), when the `while` loop
leaves after `n ≥ 1` passes (it always makes a first one: `z1 = 2`). `pp` is the value of the last
pass. The second assignment `weights[L+1-i-1] = weights[i-1]` reads the first. -/
noncomputable def quad_weights_gl (L : ℤ) (n : ℕ) (t : ℤ) : ℝ :=
  let v : ℤ → ℝ := fun i =>
    2 * (0.5 * (1 - -1)) / ((1 - gl_z L i n ^ 2) * gl_pp L (gl_z L i (n - 1)) *
      gl_pp L (gl_z L i (n - 1)))
  let weights : ℤ → ℝ := forRange 1 (gl_m L + 1) (fun i w => set1 w (i - 1) (v i)) 0
  let w1 := weights
  let weights : ℤ → ℝ := forRange 1 (gl_m L + 1) (fun i w => set1 w (L + 1 - i - 1) (w1 (i - 1)))
    weights
  weights t * 2 * Real.pi / (2 * (L : ℝ) - 1)

/-- quadrature.py:7-50 `quad_weights_transform` (quadrature_jax.py:11-53): number of weights and
weights. `gl L` stands for the array returned by `quad_weights_gl(L)`. -/
noncomputable def quad_weights_transform (gl : ℤ → ℤ → ℝ) (L : ℤ) (sampling : PyStr)
    (nside : ℤ) : Except PyErr (ℤ × (ℤ → ℝ)) :=
  if lower sampling = sMWSS then
    .ok (2 * L + 1, fun t => quad_weights_mwss_theta_only (2 * L) 0 t * 2 * Real.pi / (2 * (L : ℝ)))
  else if lower sampling = sDH then .ok (2 * L, quad_weights_dh L)
  else if lower sampling = sGL then .ok (L, gl L)
  else if lower sampling = sHP then .ok (4 * nside - 1, quad_weights_hp nside)
  else .error .valueError

/-- quadrature.py:53-96 `quad_weights` (quadrature_jax.py:57-99). `L = None` where an `L` is needed
is a `TypeError`, as is `nside = None` for HEALPix (a `ValueError` from `ntheta` is never reached:
`12 * nside**2` fails first). -/
noncomputable def quad_weights (gl : ℤ → ℤ → ℝ) (L : Option ℤ) (sampling : PyStr) (spin : ℤ)
    (nside : Option ℤ) : Except PyErr (ℤ × (ℤ → ℝ)) :=
  if lower sampling = sHP then
    match nside with
    | none => .error .typeError
    | some nside => .ok (4 * nside - 1, quad_weights_hp nside)
  else if lower sampling = sMW ∨ lower sampling = sMWSS ∨ lower sampling = sDH ∨
      lower sampling = sGL then
    match L with
    | none => .error .typeError
    | some L =>
      if lower sampling = sMW then .ok (L, quad_weights_mw L spin)
      else if lower sampling = sMWSS then .ok (L + 1, quad_weights_mwss L spin)
      else if lower sampling = sDH then .ok (2 * L, quad_weights_dh L)
      else .ok (L, gl L)
  else .error .valueError

end S2fft
