import Verif.Lemmas.BaseInverseFft
import Verif.Spec.Harmonic
import Verif.Props.C13

/-! # The base inverse transform -/

namespace S2fft
open Spec

/-- The four methods. -/
def baseMethods : List PyStr := [bDirect, bSov, bSovFft, bVec]

theorem inverseMethod_values (nodes : ℤ → ℤ → ℝ) {σ : Scheme} {s : PyStr} (hs : lower s = σ.name)
    {method : PyStr} (hmt : method ∈ baseMethods)
    (ho : method = bSovFft ∨ method = bVec → mOffset s = σ.off) {L nside spin Ll : ℤ}
    (hv : σ.Valid L nside)
    (hhp : method = bSovFft ∨ method = bVec → σ = .healpix → 2 * nside ≤ L) (flm : ℤ → ℤ → ℂ)
    (reality : Bool) (hr : reality = true → spin = 0)
    (hre : method = bSovFft ∨ method = bVec → reality = true →
      ∀ el, Ll ≤ el → el < L → (flm el (L - 1)).im = 0) (θ : ℤ → ℝ)
    (hθ : ∀ t, 0 ≤ t → t < σ.rings L nside → θ t = σ.theta nodes L nside t) :
    ∃ run, inverseMethod method = .ok run ∧ InverseValues nodes σ flm L spin nside reality Ll
      (run flm L spin s (σ.rings L nside) θ nside reality Ll) := by
  simp only [baseMethods, List.mem_cons, List.not_mem_nil, or_false] at hmt
  have n1 : ¬ bSov = bDirect := by decide
  have n2 : ¬ bSovFft = bDirect := by decide
  have n3 : ¬ bSovFft = bSov := by decide
  have n4 : ¬ bVec = bDirect := by decide
  have n5 : ¬ bVec = bSov := by decide
  have n6 : ¬ bVec = bSovFft := by decide
  rcases hmt with rfl | rfl | rfl | rfl
  · exact ⟨_, by simp [inverseMethod], inverseDirect_values nodes hs hv flm reality hr θ hθ⟩
  · exact ⟨_, by simp [inverseMethod, n1], inverseSov_values nodes hs hv flm reality hr θ hθ⟩
  · exact ⟨_, by simp [inverseMethod, n2, n3], inverseSovFft_values nodes hs (ho (Or.inl rfl)) hv
      (hhp (Or.inl rfl)) flm reality hr (hre (Or.inl rfl)) θ hθ⟩
  · exact ⟨_, by simp [inverseMethod, n4, n5, n6], inverseVec_values nodes hs (ho (Or.inr rfl)) hv
      (hhp (Or.inr rfl)) flm reality hr (hre (Or.inr rfl)) θ hθ⟩

theorem packSignal_scheme {σ : Scheme} {s : PyStr} (hs : lower s = σ.name) {L : ℤ}
    {nside : Option ℤ} (hv : σ.Valid L (nside.getD 0)) (f : ℤ → ℤ → ℂ) :
    ∃ out, packSignal L s nside f = .ok out ∧ out.shape = σ.shape L (nside.getD 0) ∧
      ∀ t p, σ.Has L (nside.getD 0) t p → out.get2 (σ.pos (nside.getD 0) t p).1
        (σ.pos (nside.getD 0) t p).2
          = f (σ.pos (nside.getD 0) t p).1 (σ.pos (nside.getD 0) t p).2 := by
  unfold packSignal
  by_cases hhp : σ = .healpix
  · subst hhp
    have hn := hv.2 rfl
    cases nside with
    | none => simp at hn
    | some n =>
      rw [(C05_shapes_healpix L 1 n s hs).2.1]
      exact ⟨_, rfl, rfl, fun t p _ => rfl⟩
  · obtain ⟨nt, np, e1, e2, e3, -⟩ := C05_shapes L 1 s nside (by
      rw [hs]; revert hhp; cases σ <;> decide)
    rw [e3]
    refine ⟨_, rfl, ?_, fun t p _ => rfl⟩
    rw [nphi_equi hs hhp] at e2
    have h1 : nt = σ.rings L (nside.getD 0) := by
      obtain ⟨θ, h, -⟩ := thetas_scheme (fun _ _ => 0) hs hv
      by_cases hgl : σ = .gl
      · subst hgl
        unfold ntheta at e1
        rw [name_gl] at hs
        rw [hs, if_neg (by decide)] at e1
        simp only [or_true, if_true] at e1
        cases e1; rfl
      · unfold thetas at h
        rw [if_neg (by rw [hs]; revert hgl; cases σ <;> decide), e1] at h
        change (do
          let _ ← t2theta 0 (some L) s nside
          pure (nt, _) : Except PyErr (ℤ × (ℤ → ℝ))) = _ at h
        cases h2 : t2theta 0 (some L) s nside with
        | error e => rw [h2] at h; cases h
        | ok v =>
          rw [h2] at h
          exact (Prod.mk.inj (Except.ok.inj h)).1
    have h2 : np = σ.ringLen L (nside.getD 0) 0 := by
      rw [ringLen_equi hhp]; exact (Except.ok.inj e2).symm
    rw [h1, h2]
    revert hhp; cases σ <;> simp [Nd.shape, Scheme.shape]

/-- What every base method computes. -/
theorem baseInverseWith_values (G : GlTables) {σ : Scheme} {s : PyStr} (hs : lower s = σ.name)
    {method : PyStr} (hmt : method ∈ baseMethods)
    (ho : method = bSovFft ∨ method = bVec → mOffset s = σ.off) {L spin Ll : ℤ} {nside : Option ℤ}
    (hv : σ.Valid L (nside.getD 0))
    (hhp : method = bSovFft ∨ method = bVec → σ = .healpix → 2 * nside.getD 0 ≤ L)
    (flm : ℤ → ℤ → ℂ) (reality : Bool) (h0 : 0 ≤ Ll) (h1 : Ll < L)
    (hre : method = bSovFft ∨ method = bVec → reality = true → spin = 0 →
      ∀ el, Ll ≤ el → el < L → (flm el (L - 1)).im = 0) :
    ∃ out, baseInverseWith G (.d2 L (2 * L - 1) flm) L spin s method nside reality Ll = .ok out ∧
      out.shape = σ.shape L (nside.getD 0) ∧
      ∀ t p, σ.Has L (nside.getD 0) t p →
        out.get2 (σ.pos (nside.getD 0) t p).1 (σ.pos (nside.getD 0) t p).2
          = synth L (if reality = true ∧ spin ≠ 0 then false else reality)
              (gVal flm L spin Ll (σ.theta G.nodes L (nside.getD 0) t))
              (σ.phi L (nside.getD 0) t p) := by
  obtain ⟨θ, e1, hθ⟩ := thetas_scheme G.nodes hs hv
  have hL := hv.1
  set r := if reality = true ∧ spin ≠ 0 then false else reality with hrdef
  have hr : r = true → spin = 0 := by
    rw [hrdef]; split_ifs with h
    · intro h'; cases h'
    · intro h'; by_contra hne; exact h ⟨h', hne⟩
  have hr' : r = true → reality = true := by
    rw [hrdef]; split_ifs with h
    · intro h'; cases h'
    · exact id
  obtain ⟨run, e2, f, e3, hf⟩ := inverseMethod_values G.nodes hs hmt ho (spin := spin) (Ll := Ll) hv
    hhp flm r hr (fun h h' => hre h (hr' h') (hr h')) θ hθ
  obtain ⟨out, e4, hsh, hg⟩ := packSignal_scheme hs hv f
  refine ⟨out, ?_, hsh, fun t p h => ?_⟩
  · unfold baseInverseWith
    rw [if_neg (by simp [Nd.shape, flm_shape]), if_neg (by omega), if_neg (by omega), e1]
    show (do
      let run ← inverseMethod method
      let f ← run flm L spin s (σ.rings L (nside.getD 0)) θ (nside.getD 0) r Ll
      packSignal L s nside f) = _
    rw [e2]
    show (do
      let f ← run flm L spin s (σ.rings L (nside.getD 0)) θ (nside.getD 0) r Ll
      packSignal L s nside f) = _
    rw [e3]
    exact e4
  · rw [hg t p h, hf t p h]

/-- The sum over orders is the harmonic expansion at the rounded angle. -/
theorem synth_gVal_harmonic {L spin Ll : ℤ} (flm : ℤ → ℤ → ℂ) (reality : Bool)
    (h0 : 0 ≤ Ll) (hL : 1 ≤ L) (hr : reality = true → spin = 0) (θ φ : ℝ) :
    synth L reality (gVal flm L spin Ll θ) φ
      = harmonicSum Ll L spin (if reality = true then realCoeffs (fun l m => flm l (m + L - 1))
          else fun l m => flm l (m + L - 1)) (snapAngle θ) φ := by
  rw [synth_gVal]
  unfold harmonicSum
  have hsub : Finset.Ico (elStart Ll spin) L ⊆ Finset.Ico Ll L := by
    intro x; simp only [Finset.mem_Ico, elStart]; omega
  rw [← Finset.sum_subset hsub]
  · apply Finset.sum_congr rfl
    intro el hel
    rw [Finset.mem_Ico] at hel
    unfold shareVal
    rw [synth_eq hL, sum_order_extend hel.2 _ (fun m hm => by
      unfold sYlm; rw [wignerd_outside _ _ _ _ (Or.inl hm)]; simp)]
    apply Finset.sum_congr rfl
    intro m _
    unfold sYlm elfactor
    by_cases hre : reality = true
    · have hsp := hr hre
      subst hsp
      simp only [hre, if_true]
      by_cases hm : 0 ≤ m
      · rw [gEff_nonneg hm]
        unfold realCoeffs; rw [if_neg (by omega)]
        push_cast; ring
      · rw [gEff_neg (by omega)]
        unfold realCoeffs; rw [if_pos (by omega)]
        have := wignerd_neg_neg el m (-0) (snapAngle θ)
        rw [neg_neg, neg_zero, add_zero] at this
        simp only [neg_zero, zpow_zero, one_mul]
        rw [this]
        rw [map_mul, map_mul, Complex.conj_ofReal, Complex.conj_ofReal]
        push_cast; ring
    · simp only [hre, Bool.false_eq_true, if_false]
      unfold gEff
      simp only [Bool.false_eq_true, false_and, if_false]
      push_cast; ring
  · intro el h1 h2
    apply Finset.sum_eq_zero
    intro m _
    simp only [Finset.mem_Ico, elStart] at h1 h2
    unfold sYlm
    rw [wignerd_outside _ _ _ _ (Or.inr (by rw [abs_neg]; omega))]; simp

/-! ## Which grids avoid the pole windows -/

/-- No ring of the grid falls strictly inside a pole window. -/
def GridExact (nodes : ℤ → ℤ → ℝ) (σ : Scheme) (L nside : ℤ) : Prop :=
  ∀ t, 0 ≤ t → t < σ.rings L nside → ExactAngle (σ.theta nodes L nside t)

/-- Every position of the pixel vector belongs to a ring. -/
theorem ring_tile {n i : ℤ} (h0 : 0 ≤ i) (h1 : i < 12 * n ^ 2) (hn : 1 ≤ n) :
    ∃ t p, 0 ≤ t ∧ t < 4 * n - 1 ∧ 0 ≤ p ∧ p < ringSize n t ∧ i = ringStart n t + p := by
  have key : ∀ T : ℕ, (T : ℤ) ≤ 4 * n - 1 → i < ringStart n T →
      ∃ t p, 0 ≤ t ∧ t < (T : ℤ) ∧ 0 ≤ p ∧ p < ringSize n t ∧ i = ringStart n t + p := by
    intro T
    induction T with
    | zero => intro _ h; simp [ringStart] at h; omega
    | succ T ih =>
      intro hT h
      push_cast at hT h ⊢
      by_cases hc : i < ringStart n T
      · obtain ⟨t, p, a, b, c⟩ := ih (by omega) hc
        exact ⟨t, p, a, by omega, c⟩
      · rw [ringStart_succ n T (by omega)] at h
        exact ⟨T, i - ringStart n T, by omega, by omega, by omega, by omega, by ring⟩
  have e : (((4 * n - 1).toNat : ℕ) : ℤ) = 4 * n - 1 := by omega
  obtain ⟨t, p, a, b, c⟩ := key (4 * n - 1).toNat (by omega) (by
    rw [e, ringStart_total n hn]; exact h1)
  exact ⟨t, p, a, by omega, c⟩

/-- Every in-range index of a signal is the position of a sample. -/
theorem shape_tile {σ : Scheme} {L nside : ℤ} (hv : σ.Valid L nside) {x y : ℤ}
    (hx : σ = .healpix → x = 0 ∧ 0 ≤ y ∧ y < 12 * nside ^ 2)
    (hx' : σ ≠ .healpix → 0 ≤ x ∧ x < σ.rings L nside ∧ 0 ≤ y ∧ y < σ.ringLen L nside 0) :
    ∃ t p, σ.Has L nside t p ∧ σ.pos nside t p = (x, y) := by
  by_cases h : σ = .healpix
  · obtain ⟨a, b, c⟩ := hx h
    subst h
    obtain ⟨t, p, h1, h2, h3, h4, h5⟩ := ring_tile b c (hv.2 rfl)
    exact ⟨t, p, ⟨h1, h2, h3, h4⟩, by simp only [Scheme.pos]; rw [a, h5]⟩
  · obtain ⟨a, b, c, d⟩ := hx' h
    refine ⟨x, y, ⟨a, b, c, ?_⟩, ?_⟩
    · rw [ringLen_equi h] at d ⊢; exact d
    · revert h; cases σ <;> simp [Scheme.pos]

end S2fft
