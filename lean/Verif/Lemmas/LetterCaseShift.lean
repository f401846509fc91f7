import Verif.Lemmas.LetterCase
import Verif.Lemmas.OtfLower
import Verif.Lemmas.BaseInverseAll
import Verif.Lemmas.Risbo
import Verif.Lemmas.HealpixDispatch

/-!
# What a scheme name in upper case does to an inverse transform

The offset of the orders is missing, so that the Fourier coefficients are moved by one column.
-/

namespace S2fft
open Spec

/-- A scheme whose orders are offset, under a name whose offset is not recognised. -/
structure Misread (σ : Scheme) (s : PyStr) : Prop where
  name : lower s = σ.name
  off : σ.off = 1
  not : s ≠ σ.name

theorem Misread.zero {σ : Scheme} {s : PyStr} (h : Misread σ s) : mOffset s = 0 := by
  unfold mOffset
  rw [if_neg]
  rintro (rfl | rfl)
  · exact h.not (by rw [← h.name]; decide)
  · exact h.not (by rw [← h.name]; decide)

theorem addRow_shift {a b : ℤ → ℤ → ℂ} (h : ∀ t k, a t (k + 1) = b t k) {r lo hi lo' hi' : ℤ}
    (h1 : lo' = lo + 1) (h2 : hi' = hi + 1) (v : ℤ → ℂ) (t k : ℤ) :
    addRow a r lo' hi' v t (k + 1) = addRow b r lo hi v t k := by
  subst h1 h2
  unfold addRow
  rw [h]
  have e : k + 1 - (lo + 1) = k - lo := by ring
  rw [e]
  exact if_congr (by constructor <;> rintro ⟨h1, h2, h3⟩ <;> refine ⟨h1, ?_, ?_⟩ <;> omega) rfl rfl

theorem ite_shift {c : Prop} [Decidable c] {a b a' b' : ℤ → ℤ → ℂ} (h : ∀ t k, a t (k + 1) = b t k)
    (h' : ∀ t k, a' t (k + 1) = b' t k) (t k : ℤ) :
    (if c then a else a') t (k + 1) = (if c then b else b') t k := by
  split_ifs
  · exact h t k
  · exact h' t k

theorem inverseVecFtm_shift {σ : Scheme} {s : PyStr} (h : Misread σ s) (flm : ℤ → ℤ → ℂ)
    (L spin nt : ℤ) (θ : ℤ → ℝ) (nside : ℤ) (reality : Bool) (Ll t k : ℤ) :
    inverseVecFtm flm L spin σ.name nt θ nside reality Ll t (k + 1)
      = inverseVecFtm flm L spin s nt θ nside reality Ll t k := by
  have h1 : mOffset σ.name = 1 := by rw [mOffset_name]; exact h.off
  have h2 : lower σ.name = σ.name := lower_name σ
  unfold inverseVecFtm
  simp only [h.zero, h1, h2, h.name]
  congr 1
  refine forRange_rel (fun a b : ℤ → ℤ → ℂ => ∀ t k, a t (k + 1) = b t k) (fun _ _ => rfl) ?_ t k
  intro i x y _ _ hxy
  refine forRange_rel (fun a b : ℤ → ℤ → ℂ => ∀ t k, a t (k + 1) = b t k) hxy ?_
  intro el x y _ _ hxy t k
  exact addRow_shift (ite_shift (addRow_shift hxy (by ring) (by ring) _) hxy) (by ring) (by ring) _ t k

theorem inverseVecFtm_last {s : PyStr} (h : mOffset s = 0) (flm : ℤ → ℤ → ℂ)
    {L : ℤ} (spin nt : ℤ) (θ : ℤ → ℝ) (nside : ℤ) (reality : Bool) (Ll t : ℤ) (hL : 1 ≤ L) :
    inverseVecFtm flm L spin s nt θ nside reality Ll t (2 * L - 1) = 0 := by
  unfold inverseVecFtm
  simp only [h]
  refine mul_eq_zero_of_left ?_ _
  refine (forRange_frame _ _ _ _ (fun f : ℤ → ℤ → ℂ => f t (2 * L - 1)) ?_)
  intro t' f _ _
  refine (forRange_frame _ _ _ _ (fun f : ℤ → ℤ → ℂ => f t (2 * L - 1)) ?_)
  intro el f he0 he1
  rw [addRow_out (by split_ifs <;> omega)]
  split_ifs <;> first | rfl | exact addRow_out (by omega)

/-- Fourier series of rows that differ by a shift of one column. -/
theorem sum_shift {L : ℤ} (hL : 1 ≤ L) {x y : ℤ → ℂ} (h : ∀ k, 0 ≤ k → k < 2 * L - 1 → y (k + 1) = x k)
    (hx : x (2 * L - 1) = 0) (hy : y 0 = 0) {w : ℤ → ℂ} {c : ℂ} (hw : ∀ k, w k = c * w (k + 1)) :
    ∑ k ∈ Finset.Ico 0 (2 * L), x k * w k = c * ∑ k ∈ Finset.Ico 0 (2 * L), y k * w k := by
  have e : ∑ k ∈ Finset.Ico 0 (2 * L - 1), y (k + 1) * w (k + 1)
      = ∑ k ∈ Finset.Ico 1 (2 * L), y k * w k := by
    rw [← sum_Ico_shift 0 (2 * L - 1) 1 (fun k => y k * w k)]
    congr 2 <;> ring
  rw [sum_Ico_consec (a := 0) (b := 2 * L - 1) (c := 2 * L) (by omega) (by omega),
    sum_Ico_bot (by omega : (0 : ℤ) < 2 * L), show (0 : ℤ) + 1 = 1 by rfl, ← e, hy, zero_mul, zero_add,
    sum_Ico_bot (by omega : 2 * L - 1 < 2 * L), Finset.Ico_eq_empty (by omega : ¬ 2 * L - 1 + 1 < 2 * L),
    hx, zero_mul, Finset.sum_empty, add_zero, add_zero, Finset.mul_sum]
  apply Finset.sum_congr rfl
  intro k hk
  rw [Finset.mem_Ico] at hk
  rw [h k hk.1 hk.2, hw k]
  ring

/-- The synthesis of Fourier coefficients moved by one column. -/
theorem inverseFftM_shift {σ : Scheme} {s : PyStr} (hs : Misread σ s)
    {method : PyStr} (hmt : method ∈ [mNumpy, mJax, mTorch])
    {L nside : ℤ} (hv : σ.Valid L nside) (hhp : σ = .healpix → 2 * nside ≤ L) {x y : ℤ → ℤ → ℂ}
    (h : ∀ t k, 0 ≤ k → k < 2 * L - 1 → y t (k + 1) = x t k)
    (hx : ∀ t, x t (2 * L - 1) = 0) (hy : ∀ t, y t 0 = 0) :
    ∃ f g, inverseFftM method x L s (2 * L) nside false = .ok f ∧
      inverseFftM method y L σ.name (2 * L) nside false = .ok g ∧
      ∀ t p, σ.Has L nside t p → f (σ.pos nside t p).1 (σ.pos nside t p).2
        = cis (-(2 * Real.pi * p / σ.ringLen L nside t))
          * g (σ.pos nside t p).1 (σ.pos nside t p).2 := by
  have hL := hv.1
  have h2 : lower σ.name = σ.name := lower_name σ
  unfold inverseFftM
  simp only [h2, hs.name, Bool.false_eq_true, if_false]
  by_cases hh : σ = .healpix
  · subst hh
    have hn := hv.2 rfl
    have hname : Scheme.healpix.name = sHP := rfl
    rw [if_pos hname, if_pos hname]
    have hmt' : method ∈ [mNumpy, mJax, mTorch, mCuda] := by
      simp only [List.mem_cons, List.not_mem_nil, or_false] at hmt ⊢; tauto
    have hc : method = mCuda → CudaEnv.Reachable noCuda (4 * nside - 1) := by
      rintro rfl; exact absurd hmt (by decide)
    obtain ⟨f, f', ef, hf⟩ := healpix_ifft_values hn (hhp rfl) x false (by simp) hmt' (env := noCuda) hc
    obtain ⟨g, g', eg, hg⟩ := healpix_ifft_values hn (hhp rfl) y false (by simp) hmt' (env := noCuda) hc
    refine ⟨_, _, by rw [ef]; rfl, by rw [eg]; rfl, ?_⟩
    rintro t p ⟨a, b, c, d⟩
    simp only [Scheme.pos]
    rw [hf t p a b c d, hg t p a b c d]
    unfold ringSynth
    have e : ∀ z : ℤ → ℤ → ℂ, ∑ m ∈ Finset.Ico (-L) L, z t (L + m)
        * cis (2 * Real.pi * m * p / ringSize nside t) = ∑ k ∈ Finset.Ico 0 (2 * L), z t k
        * cis (2 * Real.pi * (k - L) * p / ringSize nside t) := by
      intro z
      rw [show (0 : ℤ) = -L + L by ring, show 2 * L = L + L by ring, sum_Ico_shift]
      apply Finset.sum_congr rfl
      intro m _
      rw [add_comm L m]
      congr 2; push_cast; ring
    rw [e, e]
    refine sum_shift hL (h t) (hx t) (hy t) (w := fun k => cis (2 * Real.pi * (k - L) * p / ringSize nside t)) ?_
    intro k
    rw [← cis_add]
    congr 1
    simp only [Scheme.ringLen]
    push_cast; ring
  · have hne : ¬ σ.name = sHP := by
      have := lower_hp_iff (s := σ.name) (σ := σ) h2
      rw [h2] at this
      rw [this]; exact hh
    rw [if_neg hne, if_neg hne]
    refine ⟨_, _, rfl, rfl, ?_⟩
    rintro t p ⟨a, b, c, d⟩
    have hpos : σ.pos nside t p = (t, p) := by
      revert hh; cases σ <;> simp [Scheme.pos]
    rw [hpos]
    dsimp only
    rw [ringLen_equi hh, hs.off, ifft_fwd_ifftshift (by omega), ifft_fwd_ifftshift (by omega)]
    refine sum_shift hL (h t) (hx t) (hy t) (w := fun k => tw (2 * L) ((k - 2 * L / 2) * p)) ?_
    intro k
    unfold tw
    rw [← cis_add]
    congr 1
    push_cast; ring

end S2fft
