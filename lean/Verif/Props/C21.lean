import Verif.Props.C20
import Verif.Props.C19

/-! # C21: the reality flag is only an optimisation -/

namespace S2fft
open Spec

/-- The symmetry of the coefficients of a real signal. -/
def RealSymm (flm : ℤ → ℤ → ℂ) (L : ℤ) : Prop :=
  ∀ el m, 0 ≤ el → el < L → |m| ≤ el →
    flm el (-m + L - 1) = (-1) ^ m * (starRingEnd ℂ) (flm el (m + L - 1))

theorem ringSum_conj {σ : Scheme} {L nside nt : ℤ} {f : ℤ → ℤ → ℂ} (h : RealRings σ L nside nt f)
    {t : ℤ} (h0 : 0 ≤ t) (h1 : t < nt) (m : ℤ) :
    ringSum σ L nside f t (-m) = (starRingEnd ℂ) (ringSum σ L nside f t m) := by
  unfold ringSum
  rw [map_sum]
  apply Finset.sum_congr rfl
  intro p hp
  rw [Finset.mem_Ico] at hp
  rw [map_mul, conj_cis, Complex.conj_eq_iff_im.2 (h t p h0 h1 hp.1 hp.2)]
  congr 2
  push_cast; ring

theorem fVal_conj {σ : Scheme} {L nside nt : ℤ} {f : ℤ → ℤ → ℂ} (h : RealRings σ L nside nt f)
    (θ w : ℤ → ℝ) (el m : ℤ) :
    fVal (ringSum σ L nside f) 0 nt θ w el (-m)
      = (-1) ^ m * (starRingEnd ℂ) (fVal (ringSum σ L nside f) 0 nt θ w el m) := by
  unfold fVal
  rw [map_sum, Finset.mul_sum]
  apply Finset.sum_congr rfl
  intro t ht
  rw [Finset.mem_Ico] at ht
  rw [ringSum_conj h ht.1 ht.2]
  have := wignerd_neg_neg el m (-0) (snapAngle (θ t))
  rw [neg_neg, neg_zero, add_zero] at this
  rw [neg_zero, this]
  simp only [map_mul, map_zpow₀, map_neg, map_one, Complex.conj_ofReal]
  push_cast; ring

/-- Forward: for a real signal the flag does not change the result, whatever the method. -/
theorem C21_forward (G : GlTables) (σ : Scheme) (L L_lower : ℤ) (nside : Option ℤ)
    (hv : σ.Valid L (nside.getD 0)) (method : PyStr)
    (hμ : method ∈ [bDirect, bSov, bSovFft, bVec])
    (hhp : method = bSovFft ∨ method = bVec → σ = .healpix → 2 * nside.getD 0 ≤ L)
    (h0 : 0 ≤ L_lower) (h1 : L_lower < L) (f : Nd ℂ) (hf : f.shape = σ.shape L (nside.getD 0))
    (hre : RealInput G.nodes σ L (nside.getD 0) f.get2) :
    ∃ a b, baseForwardWith G f L 0 σ.name method nside true L_lower
        = .ok (.d2 L (2 * L - 1) a) ∧
      baseForwardWith G f L 0 σ.name method nside false L_lower = .ok (.d2 L (2 * L - 1) b) ∧
      ∀ el j, 0 ≤ el → el < L → 0 ≤ j → j < 2 * L - 1 → a el j = b el j := by
  have hre' := realInput_rings hv.1 hre
  have hsh : σ = .healpix → σ.name = sHP := by rintro rfl; rfl
  obtain ⟨a, ea, ha, ha0⟩ := baseForwardWith_values G (lower_name σ) (method := method)
    hμ (fun _ => hsh) (spin := 0) hv hhp f hf true h0 h1 (fun _ _ _ => hre')
  obtain ⟨b, eb, hb, hb0⟩ := baseForwardWith_values G (lower_name σ) (method := method)
    hμ (fun _ => hsh) (spin := 0) hv hhp f hf false h0 h1 (fun _ h => nomatch h)
  refine ⟨a, b, ea, eb, fun el j c d e g => ?_⟩
  by_cases hel : el < elStart L_lower 0
  · rw [ha0 el j hel, hb0 el j hel]
  · have h2 := ha el (j - L + 1) (by omega) d (by omega) (by omega)
    have h3 := hb el (j - L + 1) (by omega) d (by omega) (by omega)
    rw [show j - L + 1 + L - 1 = j by ring] at h2 h3
    rw [h2, h3]
    unfold symm
    split_ifs with x y y
    · exact absurd y.1 (by simp [effReality])
    · have := fVal_conj hre' (innerTheta G.nodes σ L (nside.getD 0))
        (innerWeight G σ L (nside.getD 0)) el (-(j - L + 1))
      rw [neg_neg] at this
      rw [this, zpow_neg, ← inv_zpow, inv_neg, inv_one]
    · exact absurd y.1 (by simp [effReality])
    · rfl

/-- Inverse: for the coefficients of a real signal the flag does not change the result. -/
theorem C21_inverse (G : GlTables) (σ : Scheme) (L L_lower : ℤ) (nside : Option ℤ)
    (hv : σ.Valid L (nside.getD 0)) (method : PyStr)
    (hμ : method ∈ [bDirect, bSov, bSovFft, bVec])
    (hhp : method = bSovFft ∨ method = bVec → σ = .healpix → 2 * nside.getD 0 ≤ L)
    (h0 : 0 ≤ L_lower) (h1 : L_lower < L) (flm : ℤ → ℤ → ℂ) (hc : RealSymm flm L) :
    ∃ a b, baseInverseWith G (.d2 L (2 * L - 1) flm) L 0 σ.name method nside true L_lower = .ok a ∧
      baseInverseWith G (.d2 L (2 * L - 1) flm) L 0 σ.name method nside false L_lower = .ok b ∧
      a.shape = σ.shape L (nside.getD 0) ∧ b.shape = σ.shape L (nside.getD 0) ∧
      ∀ t p, σ.Has L (nside.getD 0) t p →
        a.get2 (σ.pos (nside.getD 0) t p).1 (σ.pos (nside.getD 0) t p).2
          = b.get2 (σ.pos (nside.getD 0) t p).1 (σ.pos (nside.getD 0) t p).2 := by
  have hz : ∀ el, L_lower ≤ el → el < L → (flm el (L - 1)).im = 0 := by
    intro el a b
    have := hc el 0 (by omega) b (by simp; omega)
    simp only [neg_zero, zero_add, zpow_zero, one_mul] at this
    exact Complex.conj_eq_iff_im.1 this.symm
  obtain ⟨a, ea, sa, ha⟩ := baseInverseWith_values G (lower_name σ) (method := method)
    hμ (fun _ => mOffset_name σ) (spin := 0) hv hhp flm true h0 h1 (fun _ _ _ => hz)
  obtain ⟨b, eb, sb, hb⟩ := baseInverseWith_values G (lower_name σ) (method := method)
    hμ (fun _ => mOffset_name σ) (spin := 0) hv hhp flm false h0 h1 (fun _ h => nomatch h)
  refine ⟨a, b, ea, eb, sa, sb, fun t p h => ?_⟩
  rw [ha t p h, hb t p h, synth_gVal_harmonic flm _ h0 hv.1 (fun _ => rfl),
    synth_gVal_harmonic flm _ h0 hv.1 (fun _ => rfl)]
  unfold harmonicSum
  apply Finset.sum_congr rfl
  intro l hl
  apply Finset.sum_congr rfl
  intro m hm
  rw [Finset.mem_Ico] at hl hm
  congr 1
  simp only [ne_eq, not_true_eq_false, and_false, if_false, if_true, Bool.false_eq_true]
  unfold realCoeffs
  split_ifs with hneg
  · have := hc l (-m) (by omega) hl.2 (by rw [abs_neg, abs_le]; omega)
    rw [neg_neg] at this
    rw [this, zpow_neg, ← inv_zpow, inv_neg, inv_one]
  · rfl

/-- For a non-zero spin both transforms ignore the flag, on every input whatever. -/
theorem C21_spin (G : GlTables) (x : Nd ℂ) (L spin L_lower : ℤ) (s method : PyStr)
    (nside : Option ℤ) (hs : spin ≠ 0) :
    baseInverseWith G x L spin s method nside true L_lower
      = baseInverseWith G x L spin s method nside false L_lower ∧
    baseForwardWith G x L spin s method nside true L_lower
      = baseForwardWith G x L spin s method nside false L_lower := by
  unfold baseInverseWith baseForwardWith
  simp [hs]

/-- Coefficients of a real signal exist in abundance. -/
example : RealSymm (fun _ j => if j = 2 then 1 + Complex.I else if j = 0 then -(1 - Complex.I)
    else 3) 2 := by
  intro el m h0 h1 hm
  rw [abs_le] at hm
  have : m = -1 ∨ m = 0 ∨ m = 1 := by omega
  rcases this with rfl | rfl | rfl
  · norm_num [Complex.ext_iff]
  · norm_num
    exact (Complex.conj_eq_iff_im.2 (by simp)).symm
  · norm_num [Complex.ext_iff]

end S2fft
