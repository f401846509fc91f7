import Verif.Model.FourierWigner

/-!
# Wigner transforms of a subset of directions

Models `s2fft/precompute_transforms/custom_ops.py`. The NumPy and JAX functions differ in how an
index beyond the end is treated. The tables are taken to have been made for the same `L`. As in
`Verif.Model.FourierWigner` broadcasting of axes of length one is not modelled.
-/

namespace S2fft

/-- Arrays with the axes batch, spin, two more, and channel. -/
structure Nd5 (α : Type*) where
  shape : List ℤ
  get : ℤ → ℤ → ℤ → ℤ → ℤ → α

/-- `Delta[:, :, L - 1 + n]`, `n = -spins` (custom_ops.py 62, 71, 137, 147, 294, 330, 376, 412): NumPy
counts negative indices from the end and refuses those beyond it, JAX clamps them. -/
noncomputable def subsetColumns (method : PyStr) (L ns : ℤ) (spins : ℤ → ℤ) : Except PyErr (ℤ → ℤ) :=
  let idx : ℤ → ℤ := fun i => L - 1 + -spins i
  if method = mNumpy then
    if ∀ i ∈ Finset.Ico 0 ns, -(2 * L - 1) ≤ idx i ∧ idx i < 2 * L - 1 then
      .ok (fun i => if idx i < 0 then idx i + (2 * L - 1) else idx i)
    else .error .indexError
  else .ok (fun i => jaxGet (2 * L - 1) (idx i))

/-- `wigner_subset_to_s2` (custom_ops.py 5-83) and `wigner_subset_to_s2_jax` (86-165), `spins` having
`ns` entries. -/
noncomputable def wignerSubsetToS2 (method : PyStr) (flmn : Nd5 ℂ) (ns : ℤ) (spins : ℤ → ℤ)
    (DW : FwTables) (L : ℤ) (sampling : PyStr) : Except PyErr (Nd5 ℂ) :=
  if ¬ fwSupported sampling then .error .valueError
  else match flmn.shape with
    | [B, n, l, m, C] =>
      if n ≠ ns then .error .valueError
      else do
        let off := fwOffset sampling
        let size := fwSize L sampling
        let cols ← subsetColumns method L ns spins
        if l ≠ L ∨ m ≠ 2 * L - 1 then .error .valueError
        else
          let M : ℤ → ℤ := fun j => -L + 1 - off + j
          let x : ℤ → ℤ → ℤ → ℤ → ℤ → ℂ := fun b i a j c => if off ≤ a ∧ off ≤ j then
            ∑ l ∈ Finset.Ico 0 L, flmn.get b i l (j - off) c * DW.delta l (a - off) (j - off)
              * DW.delta l (a - off) (cols i) * ((2 * (l : ℂ) + 1) / (8 * (Real.pi : ℂ) ^ 2)) else 0
          let x : ℤ → ℤ → ℤ → ℤ → ℤ → ℂ := fun b i a j c => x b i a j c * Complex.I ^ (-M j)
            * Complex.I ^ (-spins i) * cis (M a * fwTheta0 L sampling)
          let x : ℤ → ℤ → ℤ → ℤ → ℤ → ℂ := fun b i a j c =>
            ifftshift size (fun j => ifftshift size (fun a => x b i a j c) a) j
          let x : ℤ → ℤ → ℤ → ℤ → ℤ → ℂ := fun b i t j c => ifft_fwd size (fun a => x b i a j c) t
          pure ⟨[B, ns, fwNtheta L sampling, size, C],
            fun b i t p c => ifft_fwd size (fun j => x b i t j c) p⟩
    | _ => .error .indexError

/-- `s2_to_wigner_subset` (custom_ops.py 251-333) and `s2_to_wigner_subset_jax` (336-417). The
convolution over `β` is that of `fourier_wigner.py` (here 307-326, 388-407). -/
noncomputable def s2ToWignerSubset (method : PyStr) (fs : Nd5 ℂ) (ns : ℤ) (spins : ℤ → ℤ)
    (DW : FwTables) (L : ℤ) (sampling : PyStr) : Except PyErr (Nd5 ℂ) :=
  if ¬ fwSupported sampling then .error .valueError
  else match fs.shape with
    | [B, n, t, p, C] =>
      let off := fwOffset sampling
      let nt := fwNtheta L sampling
      let lpad := if lower sampling = sMWSS then L - 2 else L - 1
      if n ≠ ns ∨ t ≠ nt ∨ p ≠ fwSize L sampling then .error .valueError
      else if lpad < 0 then .error .valueError
      else do
        let x : ℤ → ℤ → ℤ → ℤ → ℤ → ℂ := fun b i t j c =>
          fftshift p (fft_fwd p (fun k => fs.get b i t k c)) (off + j)
        let temp : ℤ → ℤ → ℤ → ℤ → ℤ → ℂ := fun b i t j c =>
          x b i t j c * (-1) ^ |-L + 1 + j| * (-1) ^ |-spins i|
        let x : ℤ → ℤ → ℤ → ℤ → ℤ → ℂ := fun b i t j c =>
          if t < nt then x b i t j c else temp b i (nt - 1 - (1 + (t - nt))) j c
        let x : ℤ → ℤ → ℤ → ℤ → ℤ → ℂ := fun b i a j c => fwConvolve (fun t => x b i t j c) DW.quads
          L (nt + (L - 1)) lpad (lower sampling = sMW) a
        let cols ← subsetColumns method L ns spins
        let x : ℤ → ℤ → ℤ → ℤ → ℤ → ℂ := fun b i l j c => ∑ a ∈ Finset.Ico 0 (2 * L - 1),
          x b i a j c * DW.delta l a j * DW.delta l a (cols i)
        let x : ℤ → ℤ → ℤ → ℤ → ℤ → ℂ := fun b i l j c =>
          x b i l j c * Complex.I ^ (-L + 1 + j) * Complex.I ^ (-(-spins i))
        pure ⟨[B, ns, L, 2 * L - 1, C], fun b i l j c => x b i l j c * (2 * (Real.pi : ℂ)) ^ 2⟩
    | _ => .error .valueError

/-- `so3_to_wigner_subset` (custom_ops.py 168-205) and `so3_to_wigner_subset_jax` (208-248). The
argument `N` is not used. -/
noncomputable def so3ToWignerSubset (method : PyStr) (f : Nd5 ℂ) (ns : ℤ) (spins : ℤ → ℤ)
    (DW : FwTables) (L _N : ℤ) (sampling : PyStr) : Except PyErr (Nd5 ℂ) :=
  match f.shape with
  | [B, G, t, p, C] =>
    let e : ℤ → ℤ → ℂ := fun g i => cis (-2 * Real.pi * ((g : ℝ) / G * (-spins i : ℤ)))
    s2ToWignerSubset method ⟨[B, ns, t, p, C], fun b i t p c =>
      (∑ g ∈ Finset.Ico 0 G, f.get b g t p c * e g i) / G⟩ ns spins DW L sampling
  | _ => .error .valueError

end S2fft
