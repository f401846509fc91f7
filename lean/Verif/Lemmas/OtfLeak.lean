import Verif.Lemmas.OtfInverse

/-! # A degree below the spin in the on-the-fly inverse transforms -/

namespace S2fft
open Spec

/-- The coefficients with the monopole only. -/
def monopole (L : ℤ) (c : ℂ) (el k : ℤ) : ℂ := if el = 0 ∧ k = L - 1 then c else 0

theorem turokLogRow_beyond {β : ℝ} {l top k : ℤ} (hk : 0 < k) (h : top ≤ k) :
    turokLogRow β l top k = 0 := by
  unfold turokLogRow
  rcases le_total 2 (top + 1) with h2 | h2
  · refine forRange_ind (σ := ℤ → ℝ) h2 _ _ (fun i r => r k = 0) ?_ ?_
    · rw [set1_ne _ _ (by omega)]
    · intro i r i0 i1 e
      rw [set1_ne _ _ (by omega)]
      exact e
  · rw [forRange_of_le h2, set1_ne _ _ (by omega)]

/-- What the NumPy coefficients hold for the monopole when the spin is -1: the logarithm is read from
a row that was never filled. -/
theorem leak_numpy {L : ℤ} (hL : 2 ≤ L) (β : ℤ → ℝ) (t : ℤ) :
    (generatePrecomputes L (-1) β).lr 1 t 0 = 0 ∧ (generatePrecomputes L (-1) β).nan 1 0 = false := by
  have hi : pmLogInd L (-(-1)) 1 0 = 2 * L := by
    unfold pmLogInd pmHalf
    norm_num
  constructor
  · show pmLrenorm (β t) L (-(-1)) 1 0 = 0
    unfold pmLrenorm
    rw [hi]
    apply turokLogRow_beyond (by omega)
    norm_num; omega
  · show pmNan L (-(-1)) 1 0 = false
    unfold pmNan
    rw [hi, decide_eq_false]
    norm_num; omega

/-- The same in JAX: the logarithm is never picked. -/
theorem leak_jax {L : ℤ} (hL : 2 ≤ L) (β : ℤ → ℝ) (t : ℤ) :
    (generatePrecomputesJax L (-1) β).lr 1 t 0 = 0 ∧
      (generatePrecomputesJax L (-1) β).nan 1 0 = false := by
  refine ⟨?_, rfl⟩
  show pmLrenormJax (β t) L (-(-1)) 1 0 = 0
  have hh : pmHalf (-(-1)) 1 0 = 0 := by unfold pmHalf; norm_num
  unfold pmLrenormJax
  simp only [hh]
  rw [if_neg (by norm_num)]
  refine (forRange_ind (σ := ℝ × ℝ) (lo := 2) (hi := L + |(-(-1) : ℤ)| + 2) (by norm_num; omega) _ _
    (fun _ s => s.2 = 0) ?_ ?_ : _)
  · simp
  · intro j s j0 j1 e
    simp only
    rw [if_neg (by omega)]
    exact e

section
variable {P : PmPre} {L : ℤ} {β : ℤ → ℝ}

theorem pmState_lr_low (mm i : ℤ) {m t el : ℤ} (hm : 2 ≤ m) (h : el < L - m) :
    (pmState P L mm i β m).lr t el = P.lr i t el := by
  unfold pmState
  refine (forRange_ind (σ := PmState) hm _ _ (fun j s => el < L - j → s.lr t el = P.lr i t el) ?_ ?_) h
  · intro _; rfl
  · intro j s j0 j1 e hj
    simp only [pmUpdate]
    rw [if_neg (by omega)]
    exact e (by omega)

/-- The column of order 0 holds the monopole, the others nothing. -/
theorem otfSynth_monopole (hL : 3 ≤ L) (c : ℂ) (off : ℤ) {t m : ℤ} (m0 : -L < m) (m1 : m < L)
    (hv : P.vsign = pmVsign L (-(-1))) (hlr : P.lr 1 t 0 = 0) (hn : P.nan 1 0 = false) :
    otfSynth P (monopole L c) β L (-1) off (2 * L - 1 + off) false 0 t (m + L - 1 + off)
      = if m = 0 then -c else 0 := by
  rw [otfSynth_read (by omega) _ _ m0 m1 (by simp)]
  by_cases h : m = 0
  · subst h
    rw [if_pos le_rfl, if_pos rfl, sub_zero]
    have hf : otfFrom L 0 (L - 1) = 0 := by
      unfold otfFrom; rw [if_neg (by omega), if_neg (by omega)]
    rw [hf, Finset.sum_eq_single_of_mem 0 (Finset.mem_Ico.2 ⟨le_rfl, by omega⟩)]
    · have hw : otfW P L (-(-1)) 0 1 β (L - 1) t 0 = -1 := by
        unfold otfW pmVal
        rw [if_neg (by omega), if_neg (by omega), pmState_lr_low _ _ (by omega) (by omega), hlr,
          PmPre.exp_of hn, Real.exp_zero, mul_one, hv]
        unfold pmEntry pmVsign pmRow
        rw [if_pos (by omega)]
        simp only [if_neg (show ¬ (1 : ℤ) = 0 by omega)]
        rw [if_neg (by omega), if_neg (by omega)]
        norm_num
      rw [hw]
      unfold monopole
      rw [if_pos ⟨rfl, by ring⟩]
      push_cast; ring
    · intro el _ hel
      unfold monopole
      rw [if_neg (fun hh => hel hh.1), mul_zero]
  · rw [if_neg h]
    have hz : ∀ el, monopole L c el (m + L - 1) = 0 := by
      intro el
      unfold monopole
      rw [if_neg (by omega)]
    simp only [hz, mul_zero, Finset.sum_const_zero, ite_self]

end

theorem otfNormalise_monopole {L : ℤ} (c : ℂ) :
    otfNormalise (monopole L c) 0 = monopole L (c * (elfactor 0 : ℝ)) := by
  funext el k
  unfold otfNormalise monopole
  by_cases h : el = 0 ∧ k = L - 1
  · simp only [if_pos h]
    rw [if_pos (by omega), h.1]
  · simp only [if_neg h, zero_mul, ite_self]

open Classical in
/-- The ring values of the inverse transforms. -/
theorem leak_rings {P : PmPre} {L nt : ℤ} {β : ℤ → ℝ} (σ : Scheme) (hL : 3 ≤ L) (c : ℂ) {t m : ℤ}
    (m0 : -L < m) (m1 : m < L) (hv : P.vsign = pmVsign L (-(-1))) (hlr : P.lr 1 t 0 = 0)
    (hn : P.nan 1 0 = false) :
    poleRings σ (otfSynth P (otfNormalise (monopole L c) 0) β L (-1) σ.off (2 * L - 1 + σ.off) false 0)
      (otfNormalise (monopole L c) 0) L (-1) 0 nt t (m + L - 1 + σ.off) * (-1) ^ (-1 : ℤ)
      = if m = 0 ∧ ¬ PoleRing σ nt t then c * (elfactor 0 : ℝ) else 0 := by
  rw [otfNormalise_monopole]
  have hz : ∀ el a, a ≠ L - 1 → monopole L (c * (elfactor 0 : ℝ)) el a = 0 := by
    intro el a h
    unfold monopole
    rw [if_neg (fun hh => h hh.2)]
  have hs := otfSynth_monopole (P := P) (β := β) hL (c * (elfactor 0 : ℝ)) σ.off (t := t) m0 m1 hv hlr hn
  unfold poleRings
  by_cases h1 : σ = .mwss ∧ t = 0
  · rw [if_neg (fun h : m = 0 ∧ ¬ PoleRing σ nt t => h.2 (Or.inl h1)), if_pos h1.1]
    unfold northPole
    rw [if_pos h1.2]
    simp only [hz _ _ (show L - 1 - -1 ≠ L - 1 by omega), Finset.sum_const_zero, ite_self, zero_mul]
  · have e : ∀ F : ℤ → ℤ → ℂ, (if σ = .mwss then northPole F (monopole L (c * (elfactor 0 : ℝ))) L 0
        (L - 1 - -1) (L - 1 - -1 + σ.off) else F) t (m + L - 1 + σ.off) = F t (m + L - 1 + σ.off) := by
      intro F
      split_ifs with h
      · unfold northPole
        rw [if_neg (fun h' => h1 ⟨h, h'⟩)]
      · rfl
    rw [e]
    by_cases h2 : (σ = .mw ∨ σ = .mwss) ∧ t = nt - 1
    · rw [if_neg (fun h : m = 0 ∧ ¬ PoleRing σ nt t => h.2 (Or.inr h2)), if_pos h2.1]
      unfold southPole
      rw [if_pos h2.2]
      simp only [hz _ _ (show L - 1 + -1 ≠ L - 1 by omega), mul_zero, Finset.sum_const_zero, ite_self,
        zero_mul]
    · have e2 : (if σ = .mw ∨ σ = .mwss then southPole (otfSynth P (monopole L (c * (elfactor 0 : ℝ)))
          β L (-1) σ.off (2 * L - 1 + σ.off) false 0) (monopole L (c * (elfactor 0 : ℝ))) L (-1) 0 nt
          (L - 1 + -1) (L - 1 + -1 + σ.off) else otfSynth P (monopole L (c * (elfactor 0 : ℝ)))
          β L (-1) σ.off (2 * L - 1 + σ.off) false 0) t (m + L - 1 + σ.off)
          = if m = 0 then -(c * (elfactor 0 : ℝ)) else 0 := by
        rw [← hs]
        split_ifs with h
        · unfold southPole
          rw [if_neg (fun h' => h2 ⟨h, h'⟩)]
        · rfl
      rw [e2]
      by_cases h : m = 0
      · rw [if_pos h, if_pos ⟨h, fun hp => hp.elim h1 h2⟩]
        norm_num
      · rw [if_neg h, if_neg (fun hh => h hh.1), zero_mul]

open Classical in
theorem synth_order_zero {L : ℤ} (hL : 1 ≤ L) (x : ℂ) (Q : Prop) (φ : ℝ) :
    synth L false (fun m => if m = 0 ∧ Q then x else 0) φ = if Q then x else 0 := by
  unfold synth
  rw [if_neg (by simp), Finset.sum_eq_single_of_mem 0 (Finset.mem_Ioo.2 ⟨by omega, by omega⟩)]
  · simp [cis]
  · intro m _ h
    beta_reduce
    rw [if_neg (fun hh => h hh.1), zero_mul]

open Classical in
theorem otfInverseNumpy_leak {σ : Scheme} {L : ℤ} {nside : Option ℤ} (G : Machine)
    (hv : σ.Valid L (nside.getD 0)) (hhp : σ = .healpix → 2 * nside.getD 0 ≤ L) (hL : 3 ≤ L) (c : ℂ) :
    ∃ out, otfInverseNumpy G (.d2 L (2 * L - 1) (monopole L c)) L (-1) nside σ.name false none 0
        = .ok out ∧ out.shape = σ.shape L (nside.getD 0) ∧ ∀ t p, σ.Has L (nside.getD 0) t p →
        out.get2 (σ.pos (nside.getD 0) t p).1 (σ.pos (nside.getD 0) t p).2
          = if ¬ PoleRing σ (σ.rings L (nside.getD 0)) t then c * (elfactor 0 : ℝ) else 0 := by
  obtain ⟨out, e, hs, h⟩ := otfInverseNumpy_of (spin := -1) (lo := 0) G (lower_name σ) (mOffset_name σ)
    hv hhp (by omega) (by norm_num; omega) le_rfl (monopole L c) false (precomps := none)
    (g := fun t m => if m = 0 ∧ ¬ PoleRing σ (σ.rings L (nside.getD 0)) t then c * (elfactor 0 : ℝ)
      else 0) (by simp) (fun θ P _ eP t m t0 t1 m0 m1 _ => by
        obtain rfl : generatePrecomputes L (-1) θ = P := eP
        exact leak_rings σ hL c m0 m1 rfl (leak_numpy (by omega) θ t).1 (leak_numpy (by omega) θ t).2)
  exact ⟨out, e, hs, fun t p ht => by
    rw [h t p ht]
    convert synth_order_zero (L := L) (by omega) (c * (elfactor 0 : ℝ))
      (¬ PoleRing σ (σ.rings L (nside.getD 0)) t) (σ.phi L (nside.getD 0) t p) using 2
    funext m
    congr⟩

open Classical in
theorem otfInverseJax_leak {σ : Scheme} {L : ℤ} {nside : Option ℤ} (G : Machine)
    (hv : σ.Valid L (nside.getD 0)) (hhp : σ = .healpix → 2 * nside.getD 0 ≤ L) (hL : 3 ≤ L) (c : ℂ) :
    ∃ out, otfInverseJax G (.d2 L (2 * L - 1) (monopole L c)) L (-1) nside σ.name false none 0
        = .ok out ∧ out.shape = σ.shape L (nside.getD 0) ∧ ∀ t p, σ.Has L (nside.getD 0) t p →
        out.get2 (σ.pos (nside.getD 0) t p).1 (σ.pos (nside.getD 0) t p).2
          = if ¬ PoleRing σ (σ.rings L (nside.getD 0)) t then c * (elfactor 0 : ℝ) else 0 := by
  obtain ⟨out, e, hs, h⟩ := otfInverseJax_of (spin := -1) (lo := 0) G (lower_name σ) (mOffset_name σ)
    hv hhp (by norm_num; omega) le_rfl (monopole L c) false (precomps := none)
    (g := fun t m => if m = 0 ∧ ¬ PoleRing σ (σ.rings L (nside.getD 0)) t then c * (elfactor 0 : ℝ)
      else 0) (by simp) (fun θ P _ eP t m t0 t1 m0 m1 _ => by
        obtain rfl : generatePrecomputesJax L (-1) θ = P := eP
        exact leak_rings σ hL c m0 m1 rfl (leak_jax (by omega) θ t).1 (leak_jax (by omega) θ t).2)
  exact ⟨out, e, hs, fun t p ht => by
    rw [h t p ht]
    convert synth_order_zero (L := L) (by omega) (c * (elfactor 0 : ℝ))
      (¬ PoleRing σ (σ.rings L (nside.getD 0)) t) (σ.phi L (nside.getD 0) t p) using 2
    funext m
    congr⟩

end S2fft
