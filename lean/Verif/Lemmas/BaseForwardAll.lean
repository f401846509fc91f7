import Verif.Lemmas.BaseForwardFft
import Verif.Lemmas.BaseInverseAll
import Verif.Lemmas.Resampling

/-! # The base forward transform -/

namespace S2fft
open Spec

/-- The scheme of the signal handed to the methods. -/
def Spec.Scheme.inner : Scheme → Scheme
  | .mw => .mwss
  | σ => σ

/-- MW and MWSS signals are resampled. -/
def Spec.Scheme.Resampled (σ : Scheme) : Prop := σ = .mw ∨ σ = .mwss

instance (σ : Scheme) : Decidable σ.Resampled := by unfold Scheme.Resampled; infer_instance

/-- Number of rings handed to the methods. -/
def innerRings (σ : Scheme) (L nside : ℤ) : ℤ :=
  if σ.Resampled then 2 * L + 1 else σ.rings L nside

/-- Their angles. -/
noncomputable def innerTheta (nodes : ℤ → ℤ → ℝ) (σ : Scheme) (L nside t : ℤ) : ℝ :=
  if σ.Resampled then t * Real.pi / (2 * L) else σ.theta nodes L nside t

/-- Their weights. -/
noncomputable def innerWeight (G : GlTables) (σ : Scheme) (L nside : ℤ) : ℤ → ℝ :=
  match σ with
  | .dh => quad_weights_dh L
  | .gl => G.weights L
  | .healpix => quad_weights_hp nside
  | _ => fun t => quad_weights_mwss_theta_only (2 * L) 0 t * 2 * Real.pi / (2 * (L : ℝ))

/-- The samples handed to the methods. -/
noncomputable def innerSignal (σ : Scheme) (L spin : ℤ) (f : ℤ → ℤ → ℂ) : ℤ → ℤ → ℂ :=
  match σ with
  | .mw => upsampleValues (fun _ => mwssValues (fun _ => f) L (fun _ => spin) 0) L
      (fun _ => spin) 0
  | .mwss => upsampleValues (fun _ => f) L (fun _ => spin) 0
  | _ => f

theorem Nd.eq_d2 {α : Type*} {a : Nd α} {r c : ℤ} (hr : 0 < r) (h : a.shape = [r, c]) :
    ∃ v, a = .d2 r c v := by
  cases a with
  | d1 n v => simp [Nd.shape] at h
  | d2 r' c' v =>
    simp only [Nd.shape, List.cons.injEq, and_true] at h
    exact ⟨v, by rw [h.1, h.2]⟩
  | d3 p r' c' v => simp [Nd.shape] at h
  | other k =>
    exfalso
    simp only [Nd.shape] at h
    have : r ∈ List.replicate k (0 : ℤ) := by rw [h]; simp
    have := (List.mem_replicate.1 this).2
    omega

theorem Nd.eq_d1 {α : Type*} {a : Nd α} {n : ℤ} (hn : 0 < n) (h : a.shape = [n]) :
    ∃ v, a = .d1 n v := by
  cases a with
  | d1 n' v =>
    simp only [Nd.shape, List.cons.injEq, and_true] at h
    exact ⟨v, by rw [h]⟩
  | d2 r' c' v => simp [Nd.shape] at h
  | d3 p r' c' v => simp [Nd.shape] at h
  | other k =>
    exfalso
    simp only [Nd.shape] at h
    have : n ∈ List.replicate k (0 : ℤ) := by rw [h]; simp
    have := (List.mem_replicate.1 this).2
    omega

theorem f_shape_scheme {σ : Scheme} {s : PyStr} (hs : lower s = σ.name) {L : ℤ}
    {nside : Option ℤ} (hv : σ.Valid L (nside.getD 0)) :
    f_shape (some L) s nside = .ok (σ.shape L (nside.getD 0)) := by
  obtain ⟨out, e, h, -⟩ := packSignal_scheme hs hv (fun _ _ => 0)
  unfold packSignal at e
  cases h2 : f_shape (some L) s nside with
  | error x => rw [h2] at e; cases e
  | ok v =>
    rw [h2] at e
    simp only [bind, Except.bind] at e
    rw [← h]
    congr 1
    split at e
    · injection e with e; rw [← e]; rfl
    · injection e with e; rw [← e]; rfl
    · cases e

/-- The name of the scheme handed to the methods. -/
def innerName (σ : Scheme) (s : PyStr) : PyStr := if σ.Resampled then sMWSS else s

theorem lower_innerName {σ : Scheme} {s : PyStr} (hs : lower s = σ.name) :
    lower (innerName σ s) = σ.inner.name := by
  unfold innerName
  cases σ <;> simp [Scheme.Resampled, Scheme.inner, hs] <;> decide

theorem mOffset_innerName {σ : Scheme} {s : PyStr} (hs : lower s = σ.name)
    (hh : σ = .healpix → s = sHP) : mOffset (innerName σ s) = σ.inner.off := by
  unfold innerName
  have key : ∀ τ : Scheme, lower s = τ.name → τ = .dh ∨ τ = .gl → mOffset s = 0 := by
    intro τ h1 h2
    unfold mOffset
    rw [if_neg]
    rintro (rfl | rfl)
    · rw [show lower sMWSS = sMWSS by decide] at h1; revert h1
      rcases h2 with rfl | rfl <;> decide
    · rw [show lower sHP = sHP by decide] at h1; revert h1
      rcases h2 with rfl | rfl <;> decide
  cases σ with
  | mw => rw [if_pos (by decide)]; decide
  | mwss => rw [if_pos (by decide)]; decide
  | dh => simpa [Scheme.Resampled, Scheme.inner, Scheme.off] using key _ hs (Or.inl rfl)
  | gl => simpa [Scheme.Resampled, Scheme.inner, Scheme.off] using key _ hs (Or.inr rfl)
  | healpix => rw [hh rfl]; decide

theorem innerTheta_mem (nodes : ℤ → ℤ → ℝ) (σ : Scheme) {L nside t : ℤ} (hv : σ.Valid L nside)
    (h0 : 0 ≤ t) (h1 : t < innerRings σ L nside) :
    0 ≤ innerTheta nodes σ L nside t ∧ innerTheta nodes σ L nside t ≤ Real.pi := by
  unfold innerTheta
  unfold innerRings at h1
  split_ifs at h1 ⊢ with h
  · have := theta_mem nodes .mwss (L := 2 * L) (nside := nside) (t := t)
      ⟨by have := hv.1; omega, fun h => nomatch h⟩ h0 (by simpa [Scheme.rings] using h1)
    simpa [Scheme.theta] using this
  · exact theta_mem nodes σ hv h0 h1

theorem forwardPrepare_ok (G : GlTables) {σ : Scheme} {s : PyStr} (hs : lower s = σ.name)
    {L spin : ℤ} {nside : Option ℤ} (hv : σ.Valid L (nside.getD 0)) (f : Nd ℂ)
    (hf : f.shape = σ.shape L (nside.getD 0)) :
    ∃ f' θ, forwardPrepare G f L spin s nside
        = .ok (f', innerName σ s, innerRings σ L (nside.getD 0), θ) ∧
      f'.get2 = innerSignal σ L spin f.get2 ∧
      (σ ≠ .healpix → f'.shape.getLast?.getD 0 = σ.inner.ringLen L (nside.getD 0) 0) ∧
      ∀ t, 0 ≤ t → t < innerRings σ L (nside.getD 0) →
        θ t = innerTheta G.nodes σ L (nside.getD 0) t := by
  have hL := hv.1
  have e1 : ¬ sMWSS = sMW := by decide
  obtain ⟨θ2, h2, h2'⟩ := thetas_scheme G.nodes (lower_name .mwss) (L := 2 * L) (nside := none)
    ⟨by omega, fun h => nomatch h⟩
  rw [name_mwss] at h2
  obtain ⟨θ1, h1, h1'⟩ := thetas_scheme G.nodes hs hv
  have hθ2 : ∀ t : ℤ, 0 ≤ t → t < 2 * L + 1 → θ2 t = t * Real.pi / (2 * L) := by
    intro t a b
    rw [h2' t a (by simpa [Scheme.rings] using b)]
    simp [Scheme.theta]
  by_cases hR : σ.Resampled
  · unfold innerName innerRings innerTheta
    simp only [if_pos hR]
    rcases hR with rfl | rfl
    · obtain ⟨v, rfl⟩ := Nd.eq_d2 (by simp only [Scheme.rings]; omega) hf
      rw [name_mw] at hs
      refine ⟨.d2 (2 * L + 1) (2 * L) (upsampleValues (fun _ => mwssValues (fun _ => v) L
        (fun _ => spin) 0) L (fun _ => spin) 0), θ2, ?_, rfl, fun _ => rfl, hθ2⟩
      unfold forwardPrepare
      rw [if_pos hs, mw_to_mwss_d2]
      simp only [bind, Except.bind, pure, Except.pure]
      rw [if_pos (Or.inl hs), upsample_d2, h2]
      simp [Scheme.rings]
    · obtain ⟨v, rfl⟩ := Nd.eq_d2 (by simp only [Scheme.rings]; omega) hf
      rw [name_mwss] at hs
      refine ⟨.d2 (2 * L + 1) (2 * L) (upsampleValues (fun _ => v) L (fun _ => spin) 0), θ2, ?_, rfl, fun _ => rfl, hθ2⟩
      unfold forwardPrepare
      rw [if_neg (by rw [hs]; exact e1)]
      simp only [bind, Except.bind, pure, Except.pure]
      rw [if_pos (Or.inr hs), upsample_d2, h2]
      simp [Scheme.rings]
  · refine ⟨f, θ1, ?_, ?_, ?_, ?_⟩
    · unfold forwardPrepare innerName innerRings
      have a1 : ¬ lower s = sMW := by
        rw [hs]; revert hR; cases σ <;> decide
      have a2 : ¬ lower s = sMWSS := by
        rw [hs]; revert hR; cases σ <;> decide
      rw [if_neg a1, if_neg hR, if_neg hR]
      simp only [bind, Except.bind, pure, Except.pure]
      rw [if_neg (by tauto), h1]
    · revert hR; cases σ <;> simp [Scheme.Resampled, innerSignal]
    · intro hh
      rw [hf]
      revert hR hh; cases σ <;> simp [Scheme.Resampled, Scheme.inner, Scheme.shape]
    · unfold innerRings innerTheta
      rw [if_neg hR]
      simp only [if_neg hR]
      exact h1'

theorem inner_valid {σ : Scheme} {L nside : ℤ} (hv : σ.Valid L nside) :
    σ.inner.Valid L nside :=
  ⟨hv.1, fun h => hv.2 (by revert h; cases σ <;> simp [Scheme.inner])⟩

theorem inner_hp {σ : Scheme} : σ.inner = .healpix ↔ σ = .healpix := by
  cases σ <;> simp [Scheme.inner]

theorem forwardMethod_values (nodes : ℤ → ℤ → ℝ) {σ : Scheme} {s : PyStr} (hs : lower s = σ.name)
    {method : PyStr} (hmt : method ∈ baseMethods)
    (ho : method = bSovFft ∨ method = bVec → mOffset s = σ.off) {L nside spin Ll nt ncol : ℤ}
    (hv : σ.Valid L nside)
    (hhp : method = bSovFft ∨ method = bVec → σ = .healpix → 2 * nside ≤ L)
    {θ w : ℤ → ℝ} (hR : RingsOk nodes σ L nside nt θ)
    (hn : σ ≠ .healpix → ncol = σ.ringLen L nside 0) (f : ℤ → ℤ → ℂ)
    (reality : Bool) (hr : reality = true → spin = 0)
    (hre : method = bSovFft ∨ method = bVec → reality = true → RealRings σ L nside nt f) :
    ∃ run, forwardMethod method = .ok run ∧
      ForwardValues (ringSum σ L nside f) L spin nt θ w reality Ll
        (run f L spin s ncol nt θ w nside reality Ll) := by
  simp only [baseMethods, List.mem_cons, List.not_mem_nil, or_false] at hmt
  have n1 : ¬ bSov = bDirect := by decide
  have n2 : ¬ bSovFft = bDirect := by decide
  have n3 : ¬ bSovFft = bSov := by decide
  have n4 : ¬ bVec = bDirect := by decide
  have n5 : ¬ bVec = bSov := by decide
  have n6 : ¬ bVec = bSovFft := by decide
  rcases hmt with rfl | rfl | rfl | rfl
  · exact ⟨_, by simp [forwardMethod], forwardDirect_values hs hv hR f reality hr⟩
  · exact ⟨_, by simp [forwardMethod, n1], forwardSov_values hs hv hR f reality hr⟩
  · exact ⟨_, by simp [forwardMethod, n2, n3], forwardSovFft_values hs (ho (Or.inl rfl)) hv
      (hhp (Or.inl rfl)) hR hn f reality (hre (Or.inl rfl)) hr⟩
  · exact ⟨_, by simp [forwardMethod, n4, n5, n6], forwardVec_values hs (ho (Or.inr rfl)) hv
      (hhp (Or.inr rfl)) hR hn f reality (hre (Or.inr rfl)) hr⟩

theorem innerWeight_ok (G : GlTables) {σ : Scheme} {s : PyStr} (hs : lower s = σ.name)
    {L nside : ℤ} : quad_weights_transform G.weights L (innerName σ s) nside
      = .ok (innerRings σ L nside, innerWeight G σ L nside) := by
  have h := lower_innerName hs
  unfold quad_weights_transform
  rw [h]
  have a2 : ¬ sDH = sMWSS := by decide
  have a3 : ¬ sGL = sMWSS := by decide
  have a4 : ¬ sHP = sMWSS := by decide
  have a5 : ¬ sGL = sDH := by decide
  have a6 : ¬ sHP = sDH := by decide
  have a7 : ¬ sHP = sGL := by decide
  cases σ <;> simp [Scheme.inner, name_mwss, name_dh, name_gl, name_hp, innerRings, innerWeight,
    Scheme.Resampled, Scheme.rings, a2, a3, a4, a5, a6, a7]

/-- The flag as used: it is dropped when the spin is not zero. -/
def effReality (reality : Bool) (spin : ℤ) : Bool :=
  if reality = true ∧ spin ≠ 0 then false else reality

theorem effReality_spin {reality : Bool} {spin : ℤ} (h : effReality reality spin = true) :
    spin = 0 := by
  unfold effReality at h
  split_ifs at h with h'
  by_contra hne; exact h' ⟨h, hne⟩

theorem effReality_true {reality : Bool} {spin : ℤ} (h : effReality reality spin = true) :
    reality = true := by
  unfold effReality at h
  split_ifs at h with h'
  exact h

/-- What every base method computes. -/
theorem baseForwardWith_values (G : GlTables) {σ : Scheme} {s : PyStr} (hs : lower s = σ.name)
    {method : PyStr} (hmt : method ∈ baseMethods)
    (ho : method = bSovFft ∨ method = bVec → σ = .healpix → s = sHP) {L spin Ll : ℤ}
    {nside : Option ℤ} (hv : σ.Valid L (nside.getD 0))
    (hhp : method = bSovFft ∨ method = bVec → σ = .healpix → 2 * nside.getD 0 ≤ L)
    (f : Nd ℂ) (hf : f.shape = σ.shape L (nside.getD 0)) (reality : Bool) (h0 : 0 ≤ Ll) (h1 : Ll < L)
    (hre : method = bSovFft ∨ method = bVec → reality = true → spin = 0 →
      RealRings σ.inner L (nside.getD 0) (innerRings σ L (nside.getD 0))
        (innerSignal σ L spin f.get2)) :
    ∃ flm, baseForwardWith G f L spin s method nside reality Ll = .ok (.d2 L (2 * L - 1) flm) ∧
      (∀ el m, elStart Ll spin ≤ el → el < L → -L < m → m < L →
        flm el (m + L - 1) = symm (effReality reality spin)
          (fVal (ringSum σ.inner L (nside.getD 0) (innerSignal σ L spin f.get2)) spin
            (innerRings σ L (nside.getD 0)) (innerTheta G.nodes σ L (nside.getD 0))
            (innerWeight G σ L (nside.getD 0)) el) m) ∧
      (∀ el j, el < elStart Ll spin → flm el j = 0) := by
  have hL := hv.1
  obtain ⟨f', θ, e1, hf', hn, hθ⟩ := forwardPrepare_ok G hs (spin := spin) hv f hf
  have hR : RingsOk G.nodes σ.inner L (nside.getD 0) (innerRings σ L (nside.getD 0)) θ := by
    constructor
    · intro t a b
      rw [hθ t a b]; exact innerTheta_mem _ _ hv a b
    · intro hh
      have hh' := inner_hp.1 hh
      subst hh'
      have : ¬ Scheme.healpix.Resampled := by decide
      refine ⟨by unfold innerRings; rw [if_neg this]; rfl, fun t a b => ?_⟩
      rw [hθ t a b]; unfold innerTheta; rw [if_neg this]
  obtain ⟨run, e2, flm, e3, hflm, hz⟩ := forwardMethod_values G.nodes (lower_innerName hs) hmt
    (fun h => mOffset_innerName hs (ho h)) (spin := spin) (Ll := Ll)
    (w := innerWeight G σ L (nside.getD 0)) (inner_valid hv)
    (fun h h' => hhp h (inner_hp.1 h')) hR (fun h => hn (fun h' => h (inner_hp.2 h'))) f'.get2
    (effReality reality spin) effReality_spin
    (fun h h' => by rw [hf']; exact hre h (effReality_true h') (effReality_spin h'))
  refine ⟨flm, ?_, ?_, hz⟩
  · unfold baseForwardWith
    rw [f_shape_scheme hs hv]
    show (if f.shape ≠ σ.shape L (nside.getD 0) then Except.error PyErr.assertionError else _) = _
    rw [if_neg (by simp [hf]), if_neg (by omega), if_neg (by omega), e1]
    show (do
      let w ← quad_weights_transform G.weights L (innerName σ s) (nside.getD 0)
      let run ← forwardMethod method
      let flm ← run f'.get2 L spin (innerName σ s) (f'.shape.getLast?.getD 0)
        (innerRings σ L (nside.getD 0)) θ w.2 (nside.getD 0) (effReality reality spin) Ll
      pure (Nd.d2 (flm_shape L).1 (flm_shape L).2 flm)) = _
    rw [innerWeight_ok G hs, e2]
    show (do
      let flm ← run f'.get2 L spin (innerName σ s) (f'.shape.getLast?.getD 0)
        (innerRings σ L (nside.getD 0)) θ (innerWeight G σ L (nside.getD 0)) (nside.getD 0)
        (effReality reality spin) Ll
      pure (Nd.d2 (flm_shape L).1 (flm_shape L).2 flm)) = _
    rw [e3]
    rfl
  · intro el m a b c d
    rw [hflm el m a b c d, hf']
    congr 1
    funext m'
    unfold fVal
    apply Finset.sum_congr rfl
    intro t ht
    rw [Finset.mem_Ico] at ht
    rw [hθ t ht.1 ht.2]

end S2fft
