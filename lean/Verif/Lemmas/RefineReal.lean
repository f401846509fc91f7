import Verif.Lemmas.Refinement
import Verif.Lemmas.Mirror
import Verif.Props.C21Otf

/-! # Iterative refinement of real signals -/

namespace S2fft
open Spec

/-- Samples that are real. -/
def RealSamples (σ : Scheme) (L ns : ℤ) (f : Nd ℂ) : Prop :=
  ∀ t p, σ.Has L ns t p → (f.get2 (σ.pos ns t p).1 (σ.pos ns t p).2).im = 0

/-- A pair of transforms that need only be right on real signals. -/
structure RealPair (σ : Scheme) (L ns lo : ℤ) (θ w : ℤ → ℝ)
    (bwd fwd : Nd ℂ → Except PyErr (Nd ℂ)) : Prop where
  inv : ∀ c : ℤ → ℤ → ℂ, RealSymm c L →
    ∃ F, bwd (.d2 L (2 * L - 1) c) = .ok F ∧ F.shape = σ.shape L ns ∧
      ∀ t p, σ.Has L ns t p → F.get2 (σ.pos ns t p).1 (σ.pos ns t p).2
        = harmonicSum lo L 0 (fun l m => c l (m + L - 1)) (θ t) (σ.phi L ns t p)
  fwd : ∀ f : Nd ℂ, f.shape = σ.shape L ns → RealSamples σ L ns f →
    ∃ g, fwd f = .ok (.d2 L (2 * L - 1) g) ∧
      ∀ el m, 0 ≤ el → el < L → -L < m → m < L → g el (m + L - 1)
        = if el < max |(0 : ℤ)| lo then 0
          else fAt (ringSum σ L ns f.get2) 0 (σ.rings L ns) θ w el m

section
variable {σ : Scheme} {L ns lo : ℤ} {θ w : ℤ → ℝ}

theorem PlainPair.real {bwd fwd : Nd ℂ → Except PyErr (Nd ℂ)} (h : PlainPair σ L ns 0 lo θ w bwd fwd)
    (h0 : 0 ≤ lo) : RealPair σ L ns lo θ w bwd fwd :=
  ⟨fun c _ => h.inv c fun el k a b => absurd b (by simp; omega), fun f hf _ => h.fwd f hf⟩

/-- The analysis of values on the grid, from the degree `lo` on. -/
noncomputable def realAn (σ : Scheme) (L ns lo : ℤ) (θ w : ℤ → ℝ) (v : ℤ → ℤ → ℂ) (el m : ℤ) : ℂ :=
  if el < max |(0 : ℤ)| lo then 0 else gridAn σ L ns 0 θ w v el m

/-- What refinement computes. -/
noncomputable def refSeq (σ : Scheme) (L ns lo : ℤ) (θ w : ℤ → ℝ) (v : ℤ → ℤ → ℂ) : ℕ → ℤ → ℤ → ℂ
  | 0 => realAn σ L ns lo θ w v
  | n + 1 => fun el m => refSeq σ L ns lo θ w v n el m
      + realAn σ L ns lo θ w
        (fun t p => v t p - gridHarm σ L ns 0 lo θ (refSeq σ L ns lo θ w v n) t p) el m

theorem fAt_hermitian {f : ℤ → ℤ → ℂ}
    (h : ∀ t p, σ.Has L ns t p → (f (σ.pos ns t p).1 (σ.pos ns t p).2).im = 0) (el m : ℤ) :
    fAt (ringSum σ L ns f) 0 (σ.rings L ns) θ w el (-m)
      = (-1) ^ m * (starRingEnd ℂ) (fAt (ringSum σ L ns f) 0 (σ.rings L ns) θ w el m) := by
  have hc : Conjugates σ L ns f f := fun t p ht =>
    (Complex.conj_eq_iff_im.2 (h t p ht)).symm
  have := fAt_conj (s := 0) (θ := θ) (w := w) hc el (-m)
  rw [neg_zero, neg_neg, zero_add, zpow_neg, ← inv_zpow, inv_neg, inv_one] at this
  exact this

theorem RealPair.refine_values {bwd fwd : Nd ℂ → Except PyErr (Nd ℂ)}
    (hp : RealPair σ L ns lo θ w bwd fwd) (hv : σ.Valid L ns) (h0 : 0 ≤ lo) {f : Nd ℂ}
    (hf : f.shape = σ.shape L ns) (hre : RealSamples σ L ns f) (n : ℕ) :
    ∃ g, refine f n fwd bwd (Nd.map2 fun a b => a - b) (Nd.map2 fun a b => a + b)
        = .ok (.d2 L (2 * L - 1) g) ∧ RealSymm g L ∧
      ∀ el m, 0 ≤ el → el < L → -L < m → m < L → g el (m + L - 1)
        = refSeq σ L ns lo θ w (fun t p => f.get2 (σ.pos ns t p).1 (σ.pos ns t p).2) n el m := by
  have hL := hv.1
  have ana : ∀ x : Nd ℂ, x.shape = σ.shape L ns → RealSamples σ L ns x →
      ∃ g, fwd x = .ok (.d2 L (2 * L - 1) g) ∧ RealSymm g L ∧
      ∀ el m, 0 ≤ el → el < L → -L < m → m < L → g el (m + L - 1)
        = realAn σ L ns lo θ w (fun t p => x.get2 (σ.pos ns t p).1 (σ.pos ns t p).2) el m := by
    intro x hx hr
    obtain ⟨g, e, h⟩ := hp.fwd x hx hr
    refine ⟨g, e, fun el m a b hm => ?_, fun l m a b c d => ?_⟩
    · rw [abs_le] at hm
      rw [h el (-m) a b (by omega) (by omega), h el m a b (by omega) (by omega)]
      split_ifs
      · simp
      · exact fAt_hermitian hr el m
    · rw [h l m a b c d, fAt_gridAn]
      rfl
  obtain ⟨g0, eg0, hg0, hg0v⟩ := ana f hf hre
  have loop := forRangeM_ind (lo := 0) (hi := (n : ℤ)) (by omega)
    (body := fun _ flm => do
      let f_recov ← bwd flm
      let e ← fwd (Nd.map2 (fun a b => a - b) f f_recov)
      pure (Nd.map2 (fun a b => a + b) flm e))
    (s := .d2 L (2 * L - 1) g0)
    (P := fun i x => ∃ g, x = .d2 L (2 * L - 1) g ∧ RealSymm g L ∧
      ∀ el m, 0 ≤ el → el < L → -L < m → m < L → g el (m + L - 1)
        = refSeq σ L ns lo θ w (fun t p => f.get2 (σ.pos ns t p).1 (σ.pos ns t p).2) i.toNat el m)
    ⟨g0, rfl, hg0, hg0v⟩ (by
      rintro i x hi - ⟨g, rfl, hg, hgv⟩
      obtain ⟨F, e, hFs, hF⟩ := hp.inv g hg
      have hFr : RealSamples σ L ns F := fun t p ht => by
        rw [hF t p ht]
        refine harmonicSum_real (fun l m a b c => ?_) _ _
        rw [hg l m (by omega) b c]
      have hsh : (Nd.map2 (fun a b => a - b) f F).shape = σ.shape L ns := by
        rw [map2_sub_eq, comb_shape, hf]
      have hDr : RealSamples σ L ns (Nd.map2 (fun a b => a - b) f F) := fun t p ht => by
        rw [map2_get2 hv hf hFs, Complex.sub_im, hre t p ht, hFr t p ht, sub_zero]
      obtain ⟨d, ed, hd, hdv⟩ := ana _ hsh hDr
      refine ⟨.d2 L (2 * L - 1) (fun i j => g i j + d i j), ?_, _, rfl, ?_, ?_⟩
      · rw [e]
        show (do
          let e ← fwd (Nd.map2 (fun a b => a - b) f F)
          pure (Nd.map2 (fun a b => a + b) (Nd.d2 L (2 * L - 1) g) e)) = _
        rw [ed]
        rfl
      · intro el m a b c
        beta_reduce
        rw [hg el m a b c, hd el m a b c, map_add]
        ring
      · intro el m a b c d'
        rw [show (i + 1).toNat = i.toNat + 1 by omega, hgv el m a b c d', hdv el m a b c d',
          map2_get2 hv hf hFs]
        show _ = refSeq σ L ns lo θ w _ i.toNat el m + _
        congr 1
        unfold realAn
        split_ifs
        · rfl
        · refine gridAn_congr (fun t p ht => ?_) el m
          beta_reduce
          rw [hF t p ht]
          congr 1
          refine gridHarm_congr (fun l m x y z => ?_) t p
          rw [abs_le] at z
          exact hgv l m (by omega) y (by omega) (by omega))
  obtain ⟨x, e, g, rfl, hg, hgv⟩ := loop
  refine ⟨g, ?_, hg, by simpa using hgv⟩
  unfold S2fft.refine
  rw [eg0]
  exact e

/-- Two pairs of transforms that are right on real signals refine them alike. -/
theorem RealPair.refine_agree {bwd fwd bwd' fwd' : Nd ℂ → Except PyErr (Nd ℂ)}
    (hp : RealPair σ L ns lo θ w bwd fwd) (hp' : RealPair σ L ns lo θ w bwd' fwd')
    (hv : σ.Valid L ns) (h0 : 0 ≤ lo) {f : Nd ℂ}
    (hf : f.shape = σ.shape L ns) (hre : RealSamples σ L ns f) (n : ℕ) :
    ∃ a b, refine f n fwd bwd (Nd.map2 fun a b => a - b) (Nd.map2 fun a b => a + b)
        = .ok (.d2 L (2 * L - 1) a) ∧
      refine f n fwd' bwd' (Nd.map2 fun a b => a - b) (Nd.map2 fun a b => a + b)
        = .ok (.d2 L (2 * L - 1) b) ∧ RealSymm a L ∧
      ∀ el j, 0 ≤ el → el < L → 0 ≤ j → j < 2 * L - 1 → a el j = b el j := by
  obtain ⟨a, ea, sa, ha⟩ := hp.refine_values hv h0 hf hre n
  obtain ⟨b, eb, -, hb⟩ := hp'.refine_values hv h0 hf hre n
  refine ⟨a, b, ea, eb, sa, fun el j x y z u => ?_⟩
  have h1 := ha el (j - (L - 1)) x y (by omega) (by omega)
  have h2 := hb el (j - (L - 1)) x y (by omega) (by omega)
  rw [show j - (L - 1) + L - 1 = j by ring] at h1 h2
  rw [h1, h2]

/-- So the refinement of a real signal by either leads to the nearest synthesized one. -/
theorem Refines.of_agree {bwd fwd : Nd ℂ → Except PyErr (Nd ℂ)} (hp : PlainPair σ L ns 0 lo θ w bwd fwd)
    (hv : σ.Valid L ns) (h0 : 0 ≤ lo) {δ : ℝ} {f : Nd ℂ} {r r' : ℤ → Except PyErr (Nd ℂ)}
    (h : Refines σ L ns w (max |(0 : ℤ)| lo) δ bwd f r)
    (hr : ∀ n : ℕ, ∃ a b, r n = .ok (.d2 L (2 * L - 1) a) ∧ r' n = .ok (.d2 L (2 * L - 1) b) ∧
      ∀ el j, 0 ≤ el → el < L → 0 ≤ j → j < 2 * L - 1 → a el j = b el j) :
    Refines σ L ns w (max |(0 : ℤ)| lo) δ bwd f r' := by
  have hL := hv.1
  obtain ⟨c, F, h1, h2, h3, h4⟩ := h
  refine ⟨c, F, h1, h2, h3, fun n => ?_⟩
  obtain ⟨g, F', e1, e2, e3, e4⟩ := h4 n
  obtain ⟨a, b, ea, eb, hab⟩ := hr n
  obtain rfl : a = g := by
    have := ea.symm.trans e1
    injection this with this
    injection this
  obtain ⟨Fa, efa, -, hFa⟩ := hp.inv a fun el k _ y => absurd y (by simp; omega)
  obtain ⟨Fb, efb, -, hFb⟩ := hp.inv b fun el k _ y => absurd y (by simp; omega)
  obtain rfl : Fa = F' := by
    have := efa.symm.trans e2
    injection this
  have hm0 : 0 ≤ max |(0 : ℤ)| lo := by simp
  have hab' : ∀ l m, 0 ≤ l → l < L → |m| ≤ l → a l (m + L - 1) = b l (m + L - 1) := fun l m x y z => by
    rw [abs_le] at z
    exact hab l _ x y (by omega) (by omega)
  refine ⟨b, Fb, eb, efb, ?_, ?_⟩
  · rw [← coeffEnergy_congr (c := fun l m => c l (m + L - 1) - a l (m + L - 1)) fun l m x y z => by
      rw [hab' l m (by omega) y z]]
    exact e3
  · have : sampleEnergy σ L ns w (f.get2 - Fb.get2) = sampleEnergy σ L ns w (f.get2 - Fa.get2) := by
      unfold sampleEnergy
      refine Finset.sum_congr rfl fun t ht => Finset.sum_congr rfl fun p hpp => ?_
      rw [Finset.mem_Ico] at ht hpp
      have hH : σ.Has L ns t p := ⟨ht.1, ht.2, hpp.1, hpp.2⟩
      rw [Pi.sub_apply, Pi.sub_apply, Pi.sub_apply, Pi.sub_apply, hFb t p hH, hFa t p hH]
      congr 4
      exact (gridHarm_congr (σ := σ) (ns := ns) (θ := θ) (s := 0)
        (fun l m x y z => hab' l m (by omega) y z) t p).symm
    rw [this]
    exact e4

end

end S2fft
