import Verif.Model.PrecomputeWigner
import Verif.Lemmas.Precompute
import Verif.Lemmas.BaseWigner

/-! # The precomputed-kernel Wigner transforms -/

namespace S2fft
open Spec

/-! ## The kernel -/

/-- Degrees below `hi` of every plane hold the `d`-functions; plane `k` has direction `n0 + k`. -/
def Dl4UpTo (dl : ℤ → ℤ → ℤ → ℤ → ℝ) (L n0 nk nt : ℤ) (α : ℤ → ℝ) (hi : ℤ) : Prop :=
  ∀ k, 0 ≤ k → k < nk → DlUpTo (dl k) L (-(n0 + k)) nt false α hi

theorem wignerDirect_is {L n0 nk nt : ℤ} (hL : 0 ≤ L) {θ : ℤ → ℝ} {cols : ℤ → ℤ}
    (hc : ∀ k, 0 ≤ k → k < nk → cols k = L - 1 + (n0 + k)) :
    Dl4UpTo (wignerDirect L cols θ) L n0 nk nt θ L := by
  unfold wignerDirect
  have := forRange_ind hL (fun el (s : (ℤ → ℤ → ℤ → ℝ) × (ℤ → ℤ → ℤ → ℤ → ℝ)) =>
    let delta := risboFullVec s.1 θ L el
    (delta, fun k => setDegree (s.2 k) el (fun t j => delta t j (cols k))))
    (fun _ _ _ => 0, fun _ _ _ _ => 0)
    (fun el s => (∀ b m n : ℤ, s.1 b (m + L - 1) (n + L - 1) = wignerd (el - 1) m n (θ b)) ∧
      Dl4UpTo s.2 L n0 nk nt θ el)
    ⟨fun b m n => by
      rw [wignerd_outside]
      have := abs_nonneg m
      omega, fun k _ _ t el m _ _ a b => absurd a (by omega)⟩
    (fun el s h1 h2 h3 => by
      have key : ∀ b m n : ℤ, risboFullVec s.1 θ L el b (m + L - 1) (n + L - 1)
          = wignerd el m n (θ b) := by
        intro b m n
        rw [risboFullVec_at]
        by_cases h : |m| ≤ el ∧ |n| ≤ el
        · exact risboStep_plane _ _ _ _ h1 (fun _ m n _ _ => h3.1 b m n) m n h.1 h.2
        · rw [risboStep_frame _ _ _ _ h1 m n (by omega), h3.1, wignerd_outside _ _ _ _ (by omega),
            wignerd_outside _ _ _ _ (by omega)]
      refine ⟨fun b m n => by rw [show el + 1 - 1 = el by ring]; exact key b m n,
        fun k k0 k1 => (h3.2 k k0 k1).step (fun t m _ _ _ _ _ => ?_)⟩
      rw [hc k k0 k1, mStart_false, sub_zero, neg_neg,
        show L - 1 + (n0 + k) = n0 + k + L - 1 by ring, key])
  exact this.2

theorem wignerDirectJax_is {L n0 nk nt : ℤ} (hL : 0 ≤ L) {θ : ℤ → ℝ} {cols : ℤ → ℤ}
    (hc : ∀ k, 0 ≤ k → k < nk → cols k = L - 1 + (n0 + k)) :
    Dl4UpTo (wignerDirectJax L cols θ) L n0 nk nt θ L := by
  unfold wignerDirectJax
  have := forRange_ind hL (fun el (s : (ℤ → ℤ → ℤ → ℝ) × (ℤ → ℤ → ℤ → ℤ → ℝ)) =>
    let delta := fun t => risboFullJax (s.1 t) (θ t) L el
    (delta, fun k => setDegree (s.2 k) el (fun t j => delta t j (cols k))))
    (fun _ _ _ => 0, fun _ _ _ _ => 0)
    (fun el s => (∀ b m n : ℤ, s.1 b (m + L - 1) (n + L - 1) = wignerd (el - 1) m n (θ b)) ∧
      Dl4UpTo s.2 L n0 nk nt θ el)
    ⟨fun b m n => by
      rw [wignerd_outside]
      have := abs_nonneg m
      omega, fun k _ _ t el m _ _ a b => absurd a (by omega)⟩
    (fun el s h1 h2 h3 => by
      have key : ∀ b m n : ℤ, risboFullJax (s.1 b) (θ b) L el (m + L - 1) (n + L - 1)
          = wignerd el m n (θ b) := fun b m n => risboFullJax_holds h1 (h3.1 b) m n
      refine ⟨fun b m n => by rw [show el + 1 - 1 = el by ring]; exact key b m n,
        fun k k0 k1 => (h3.2 k k0 k1).step (fun t m _ _ _ _ _ => ?_)⟩
      rw [hc k k0 k1, mStart_false, sub_zero, neg_neg,
        show L - 1 + (n0 + k) = n0 + k + L - 1 by ring, key])
  exact this.2

theorem wignerFourier_is {L n0 nk nt : ℤ} (hL : 1 ≤ L) {s : PyStr} {θ : ℤ → ℝ} {cols : ℤ → ℤ}
    (hc : ∀ k, 0 ≤ k → k < nk → cols k = L - 1 + (n0 + k))
    (hk : ∀ k, 0 ≤ k → k < nk → |n0 + k| < L) (hg : UniformGrid L nt (kernelSamps s nt) θ) :
    ∃ dl, wignerFourier L n0 cols s nt θ = .ok dl ∧ Dl4UpTo dl L n0 nk nt θ L := by
  have hpi := Real.pi_pos
  unfold wignerFourier
  obtain ⟨s', e, h⟩ := forRangeM_ind (show (0 : ℤ) ≤ L by omega)
    (fun el (st : (ℤ → ℤ → ℝ) × (ℤ → ℤ → ℤ → ℤ → ℝ)) => do
      let delta ← risboFull (2 * L - 1) (2 * L - 1) st.1 (Real.pi / 2) L el
      pure (delta, fun k => setDegree (st.2 k) el (fun t j =>
        (irfft_fwd L (fun a => kernelFourier L (-(n0 + k)) (cols k) (θ 0) false delta a j)
          (kernelSamps s nt) t).re)))
    (fun _ _ => 0, fun _ _ _ _ => 0)
    (fun el st => (∀ m n : ℤ, st.1 (m + L - 1) (n + L - 1) = wignerd (el - 1) m n (Real.pi / 2)) ∧
      Dl4UpTo st.2 L n0 nk nt θ el)
    ⟨fun m n => by
      rw [wignerd_outside]
      have := abs_nonneg m
      omega, fun k _ _ t el m _ _ a b => absurd a (by omega)⟩
    (fun el st h1 h2 h3 => by
      obtain ⟨d', e1, e2, e3⟩ := C12_step st.1 (Real.pi / 2) L el h1 h2 (by linarith) (by linarith)
        (fun m n _ _ => h3.1 m n)
      have key : ∀ m n : ℤ, d' (m + L - 1) (n + L - 1) = wignerd el m n (Real.pi / 2) := by
        intro m n
        by_cases h : |m| ≤ el ∧ |n| ≤ el
        · exact e2 m n h.1 h.2
        · rw [e3 m n (by omega), h3.1, wignerd_outside _ _ _ _ (by omega),
            wignerd_outside _ _ _ _ (by omega)]
      refine ⟨(d', fun k => setDegree (st.2 k) el (fun t j =>
        (irfft_fwd L (fun a => kernelFourier L (-(n0 + k)) (cols k) (θ 0) false d' a j)
          (kernelSamps s nt) t).re)), ?_, fun m n => ?_,
          fun k k0 k1 => (h3.2 k k0 k1).step (fun t m t0 t1 m0 m1 _ => ?_)⟩
      · rw [e1]; rfl
      · rw [show el + 1 - 1 = el by ring]; exact key m n
      · rw [hc k k0 k1, show L - 1 + (n0 + k) = L - 1 - -(n0 + k) by ring]
        exact kernelFourier_is hL hg h1 h2 (fun m n _ _ => key m n)
          (by rw [abs_neg]; exact hk k k0 k1) t0 t1 m0 m1)
  exact ⟨s'.2, by rw [e]; rfl, h.2⟩

theorem wignerFourierJax_is {L n0 nk nt : ℤ} (hL : 1 ≤ L) {s : PyStr} {θ : ℤ → ℝ} {cols : ℤ → ℤ}
    (hc : ∀ k, 0 ≤ k → k < nk → cols k = L - 1 + (n0 + k))
    (hk : ∀ k, 0 ≤ k → k < nk → |n0 + k| < L) (hg : UniformGrid L nt (kernelSamps s nt) θ) :
    Dl4UpTo (wignerFourierJax L n0 cols s nt θ) L n0 nk nt θ L := by
  unfold wignerFourierJax
  have := forRange_ind (show (0 : ℤ) ≤ L by omega)
    (fun el (st : (ℤ → ℤ → ℝ) × (ℤ → ℤ → ℤ → ℤ → ℝ)) =>
      let delta := risboFullJax st.1 (Real.pi / 2) L el
      (delta, fun k => setDegree (st.2 k) el (fun t j =>
        (irfft_fwd L (fun a => kernelFourier L (-(n0 + k)) (cols k) (θ 0) false delta a j)
          (kernelSamps s nt) t).re)))
    (fun _ _ => 0, fun _ _ _ _ => 0)
    (fun el st => (∀ m n : ℤ, st.1 (m + L - 1) (n + L - 1) = wignerd (el - 1) m n (Real.pi / 2)) ∧
      Dl4UpTo st.2 L n0 nk nt θ el)
    ⟨fun m n => by
      rw [wignerd_outside]
      have := abs_nonneg m
      omega, fun k _ _ t el m _ _ a b => absurd a (by omega)⟩
    (fun el st h1 h2 h3 => by
      have key := fun m n => risboFullJax_holds h1 h3.1 m n
      refine ⟨fun m n => by rw [show el + 1 - 1 = el by ring]; exact key m n,
        fun k k0 k1 => (h3.2 k k0 k1).step (fun t m t0 t1 m0 m1 _ => ?_)⟩
      rw [hc k k0 k1, show L - 1 + (n0 + k) = L - 1 - -(n0 + k) by ring]
      exact kernelFourier_is hL hg h1 h2 (fun m n _ _ => key m n)
          (by rw [abs_neg]; exact hk k k0 k1) t0 t1 m0 m1)
  exact this.2

/-- What a kernel is multiplied by besides the phases. -/
noncomputable def wScale (G : GlTables) (σ : Scheme) (L N nside : ℤ) (forward : Bool) (t el : ℤ) :
    ℂ :=
  if forward then innerWeight G σ L nside t * (2 * Real.pi / (2 * (N : ℂ) - 1))
  else (2 * (el : ℂ) + 1) / (8 * (Real.pi : ℂ) ^ 2)

/-- The contents of a kernel. -/
def Kernel4Is (K : ℤ → ℤ → ℤ → ℤ → ℂ) (G : GlTables) (σ : Scheme) (L N nside : ℤ)
    (reality forward : Bool) : Prop :=
  ∀ n t el m, nFirst N reality ≤ n → n < N → 0 ≤ t → t < kRings σ L nside forward → 0 ≤ el →
    el < L → -L < m → m < L →
    K (n - nFirst N reality) t el (m + L - 1)
      = wignerd el m n (kTheta G.nodes σ L nside forward t) * wScale G σ L N nside forward t el
        * cis ((if forward then -1 else 1) * (m * (kScheme σ forward).phi L nside t 0))

theorem nFirst_true (N : ℤ) : nFirst N true = 0 := by unfold nFirst nStart; simp
theorem nFirst_false (N : ℤ) : nFirst N false = -N + 1 := by unfold nFirst nStart; simp
theorem nDim_eq (N : ℤ) (reality : Bool) : nDim N reality = N - nFirst N reality := by
  cases reality
  · rw [nFirst_false]; unfold nDim; simp only [Bool.false_eq_true, if_false]; ring
  · rw [nFirst_true]; unfold nDim; simp
theorem nStart_eq (N : ℤ) (reality : Bool) : nStart N reality = nFirst N reality + (N - 1) := by
  unfold nFirst; ring
theorem nFirst_bounds {N : ℤ} (hN : 1 ≤ N) (reality : Bool) :
    -N < nFirst N reality ∧ nFirst N reality < N := by
  cases reality
  · rw [nFirst_false]; omega
  · rw [nFirst_true]; omega

theorem wignerFold_is {G : GlTables} {σ : Scheme} {s : PyStr} (hs : lower s = σ.name)
    {L N : ℤ} {nside : ℤ} (hv : σ.Valid L nside) (reality forward : Bool)
    (hw : forward = true → ∃ n, quad_weights_transform G.weights L (kName σ s forward) nside
      = .ok (n, innerWeight G σ L nside))
    {dl : ℤ → ℤ → ℤ → ℤ → ℝ}
    (hd : Dl4UpTo dl L (nFirst N reality) (nDim N reality) (kRings σ L nside forward)
      (kTheta G.nodes σ L nside forward) L) :
    ∃ K, wignerFold G L N (kName σ s forward) (kRings σ L nside forward) nside forward reality dl
        = .ok ⟨nDim N reality, kRings σ L nside forward, L, 2 * L - 1, K⟩ ∧
      Kernel4Is K G σ L N nside reality forward := by
  have hhp : lower (kName σ s forward) = sHP ↔ kScheme σ forward = .healpix :=
    lower_hp_iff (kName_lower hs forward)
  have hsc : kScheme σ forward = .healpix ↔ σ = .healpix := by
    cases forward
    · rfl
    · exact inner_hp
  have key : ∀ D : ℤ → ℤ → ℤ → ℤ → ℂ, (∀ k t el j, D k t el j
        = dl k t el j * wScale G σ L N nside forward t el) →
      Kernel4Is (if lower (kName σ s forward) = sHP then fun k t el j => D k t el j
        * healpixPhaseShifts L nside (kRings σ L nside forward) forward t j else D)
        G σ L N nside reality forward := by
    intro D hD n t el m n0 n1 t0 t1 e0 e1 m0 m1
    have hdl := hd (n - nFirst N reality) (by omega) (by rw [nDim_eq]; omega) t el m t0 t1 e0 e1
      m0 m1 (fun h => nomatch h)
    rw [mStart_false, sub_zero, neg_neg, add_sub_cancel] at hdl
    by_cases hh : σ = .healpix
    · rw [if_pos (hhp.2 (hsc.2 hh)), hD, hdl, healpixPhaseShifts_at t0 t1]
      unfold ring_phase_shift_hp
      simp only [Bool.false_eq_true, if_false]
      have hr : kRings σ L nside forward = 4 * nside - 1 := by
        subst hh
        cases forward
        · rfl
        · exact innerRings_hp rfl L nside
      rw [hsc.2 hh, p2phi_scheme (L := L) (hv.2 hh) t0 (by omega),
        show -L + 1 + (m + L - 1) = m by ring, mul_assoc (if forward = true then _ else _)]
    · rw [if_neg (by rw [hhp, hsc]; exact hh), hD, hdl, phi_equi (by rw [Ne, hsc]; exact hh)]
      simp
  unfold wignerFold
  cases forward with
  | true =>
    obtain ⟨n, e⟩ := hw rfl
    simp only [if_true]
    rw [e]
    exact ⟨_, rfl, key _ (fun k t el j => by simp only [wScale, if_true]; ring)⟩
  | false =>
    simp only [Bool.false_eq_true, if_false]
    exact ⟨_, rfl, key _ (fun k t el j => by simp only [wScale, Bool.false_eq_true, if_false])⟩

/-- The modes a constructor accepts for the scheme: "fft" is for grids uniform in `θ`, and "auto"
fails on these for `L = 1`. -/
def ModeOk (σ : Scheme) (L : ℤ) (mode : PyStr) : Prop :=
  mode ∈ [mdAuto, mdDirect, mdFft] ∧ (mode = mdFft → σ ≠ .gl ∧ σ ≠ .healpix) ∧
    (mode = mdAuto → L = 1 → σ = .gl ∨ σ = .healpix)

theorem uniformName_iff {σ : Scheme} {s : PyStr} (hs : lower s = σ.name) :
    UniformName s ↔ σ ≠ .gl ∧ σ ≠ .healpix := by
  unfold UniformName
  rw [hs]; cases σ <;> simp <;> decide

theorem chooseMode_ok {σ : Scheme} {s : PyStr} (hs : lower s = σ.name) {L N : ℤ} {mode : PyStr}
    (h : ModeOk σ L mode) : ∃ μ, chooseMode L N s mode = .ok μ ∧
      (μ = mdDirect ∨ (μ = mdFft ∧ σ ≠ .gl ∧ σ ≠ .healpix)) := by
  obtain ⟨h1, h2, h3⟩ := h
  have u := uniformName_iff hs
  have l1 : lower mdAuto = mdAuto := rfl
  have l2 : lower mdDirect = mdDirect := rfl
  have l3 : lower mdFft = mdFft := rfl
  have n1 : ¬ mdAuto = mdFft := by decide
  have n2 : ¬ mdDirect = mdFft := by decide
  have n3 : ¬ mdDirect = mdAuto := by decide
  have n4 : ¬ mdFft = mdAuto := by decide
  unfold chooseMode
  simp only [List.mem_cons, List.not_mem_nil, or_false] at h1
  rcases h1 with rfl | rfl | rfl
  · rw [l1, if_neg (fun h => n1 h.1), if_pos rfl]
    by_cases hu : UniformName s
    · rw [if_pos hu, if_neg (by
        intro hL
        have hu' := u.1 hu
        exact (h3 rfl hL).elim hu'.1 hu'.2)]
      split_ifs
      · exact ⟨_, rfl, Or.inr ⟨rfl, u.1 hu⟩⟩
      · exact ⟨_, rfl, Or.inl rfl⟩
    · rw [if_neg hu]; exact ⟨_, rfl, Or.inl rfl⟩
  · rw [l2, if_neg (fun h => n2 h.1), if_neg n3]; exact ⟨_, rfl, Or.inl rfl⟩
  · rw [l3, if_neg (fun h => h.2 (u.2 (h2 rfl))), if_neg n4]
    exact ⟨_, rfl, Or.inr ⟨rfl, h2 rfl⟩⟩

theorem wignerColumns_ok {L N : ℤ} (hN : N ≤ L) (reality : Bool) :
    wignerColumns L N reality = .ok (fun k => L - 1 + (nFirst N reality + k)) := by
  unfold wignerColumns; rw [if_neg (by omega)]

theorem wignerColumnsJax_ok {L N : ℤ} (h1 : 1 ≤ N) (hN : N ≤ L) (reality : Bool) {k : ℤ}
    (k0 : 0 ≤ k) (k1 : k < nDim N reality) :
    wignerColumnsJax L N reality k = L - 1 + (nFirst N reality + k) := by
  have := nFirst_bounds h1 reality
  rw [nDim_eq] at k1
  unfold wignerColumnsJax jaxGet
  simp only
  rw [if_neg (c := L - 1 + (nFirst N reality + k) < 0) (by omega),
    if_neg (c := L - 1 + (nFirst N reality + k) < 0) (by omega), if_neg (by omega)]

theorem wignerKernelFunction_ok (G : GlTables) {σ : Scheme} {L N : ℤ} {nside : Option ℤ}
    (hv : σ.Valid L (nside.getD 0)) (h1 : 1 ≤ N) (hN : N ≤ L) (reality forward : Bool)
    {κ mode : PyStr} (hm : ModeOk σ L mode) :
    ∃ K, wignerKernelFunction κ G L N reality σ.name nside forward mode
        = .ok ⟨nDim N reality, kRings σ L (nside.getD 0) forward, L, 2 * L - 1, K⟩ ∧
      Kernel4Is K G σ L N (nside.getD 0) reality forward := by
  have hL := hv.1
  have hs := lower_name σ
  obtain ⟨μ, e1, hμ⟩ := chooseMode_ok hs (N := N) hm
  obtain ⟨θ, e2, hθ⟩ := kernelThetas_ok G hs hv forward
  have hw : forward = true → ∃ n, quad_weights_transform G.weights L (kName σ σ.name forward)
      (nside.getD 0) = .ok (n, innerWeight G σ L (nside.getD 0)) := by
    rintro rfl
    exact ⟨_, innerWeight_ok G hs⟩
  have hb := nFirst_bounds h1 reality
  have hk : ∀ k, 0 ≤ k → k < nDim N reality → |nFirst N reality + k| < L := by
    intro k a b
    rw [nDim_eq] at b
    rw [abs_lt]; omega
  have hcong : ∀ dl, Dl4UpTo dl L (nFirst N reality) (nDim N reality)
      (kRings σ L (nside.getD 0) forward) θ L → Dl4UpTo dl L (nFirst N reality) (nDim N reality)
      (kRings σ L (nside.getD 0) forward) (kTheta G.nodes σ L (nside.getD 0) forward) L := by
    intro dl h k a b t el m t0 t1 e0 e1 m0 m1 hm
    rw [h k a b t el m t0 t1 e0 e1 m0 m1 hm, hθ t t0 t1]
  have hgrid : σ ≠ .gl → σ ≠ .healpix → UniformGrid L (kRings σ L (nside.getD 0) forward)
      (kernelSamps (kName σ σ.name forward) (kRings σ L (nside.getD 0) forward)) θ := by
    intro a b
    obtain ⟨g1, g2, g3⟩ := kTheta_uniform G.nodes hs hv forward a b
    have h0 : 0 < kRings σ L (nside.getD 0) forward := kRings_pos hv forward
    refine ⟨g1, g2, fun t t0 t1 => ?_⟩
    rw [hθ t t0 t1, hθ 0 le_rfl h0, g3 t t0 t1]
  have ld : lower mdDirect = mdDirect := rfl
  have lf : lower mdFft = mdFft := rfl
  have n2 : ¬ mdFft = mdDirect := by decide
  unfold wignerKernelFunction
  by_cases hκ : κ = mNumpy
  · rw [if_pos hκ]
    unfold wignerKernel
    rw [e1]
    simp only [bind, Except.bind]
    rw [e2]
    simp only [wignerColumns_ok hN]
    rcases hμ with rfl | ⟨rfl, hu⟩
    · rw [ld, if_pos rfl]
      exact wignerFold_is hs hv reality forward hw
        (hcong _ (wignerDirect_is (by omega) (fun k _ _ => rfl)))
    · rw [lf, if_neg n2, if_pos rfl]
      obtain ⟨dl, e3, h3⟩ := wignerFourier_is hL (cols := fun k => L - 1 + (nFirst N reality + k))
        (nk := nDim N reality) (fun k _ _ => rfl) hk (hgrid hu.1 hu.2)
      rw [e3]
      exact wignerFold_is hs hv reality forward hw (hcong _ h3)
  · rw [if_neg hκ]
    unfold wignerKernelJax
    rw [e1]
    simp only [bind, Except.bind]
    rw [e2]
    simp only
    rcases hμ with rfl | ⟨rfl, hu⟩
    · rw [ld, if_pos rfl]
      exact wignerFold_is hs hv reality forward hw
        (hcong _ (wignerDirectJax_is (by omega) (fun k a b => wignerColumnsJax_ok h1 hN _ a b)))
    · rw [lf, if_neg n2, if_pos rfl]
      exact wignerFold_is hs hv reality forward hw (hcong _ (wignerFourierJax_is hL
        (fun k a b => wignerColumnsJax_ok h1 hN _ a b) hk (hgrid hu.1 hu.2)))

/-! ## Inverse -/

theorem fnab_shape_scheme {σ : Scheme} {L : ℤ} {nside : Option ℤ} (hv : σ.Valid L (nside.getD 0))
    (N : ℤ) : fnab_shape L N σ.name nside
      = .ok (2 * N - 1, σ.rings L (nside.getD 0), 2 * L - 1 + σ.off) := by
  have h := ftm_shape_valid (lower_name σ) hv
  unfold ftm_shape at h
  unfold fnab_shape
  split_ifs at h ⊢
  · cases hn : ntheta (some L) σ.name nside with
    | error e => rw [hn] at h; exact absurd h (by simp [bind, Except.bind])
    | ok t =>
      rw [hn] at h
      simp only [bind, Except.bind, pure, Except.pure, Except.ok.injEq, Prod.mk.injEq] at h ⊢
      exact ⟨rfl, h.1, h.2⟩
  · cases hn : ntheta (some L) σ.name nside with
    | error e => rw [hn] at h; exact absurd h (by simp [bind, Except.bind])
    | ok t =>
      rw [hn] at h
      simp only [bind, Except.bind, pure, Except.pure, Except.ok.injEq, Prod.mk.injEq] at h ⊢
      exact ⟨rfl, h.1, h.2⟩

theorem inHealpix_iff {σ : Scheme} : inHealpix σ.name ↔ σ = .healpix := by
  unfold inHealpix
  rw [lower_name]
  cases σ <;> simp <;> decide

theorem shiftIfft_eq {n : ℤ} (hn : 0 < n) (method : PyStr) (x : ℤ → ℂ) :
    shiftIfft method n x = ifft_fwd n (ifftshift n x) := by
  unfold shiftIfft
  split_ifs
  · rfl
  · funext p; exact conjFft_eq hn x p

theorem fft_conj_at {n : ℤ} (x : ℤ → ℂ) (p : ℤ) :
    (starRingEnd ℂ) (fft n (fun k => (starRingEnd ℂ) (x k)) p) = ifft_fwd n x p := by
  rw [fft_eq, ifft_fwd_eq, map_sum]
  refine Finset.sum_congr rfl fun k _ => ?_
  rw [map_mul, Complex.conj_conj]
  unfold tw
  rw [conj_cis]
  congr 2
  push_cast; ring

theorem ifft_fwd_comm (n0 n1 : ℤ) (b : ℤ → ℤ → ℂ) (g p : ℤ) :
    ifft_fwd n1 (fun l => ifft_fwd n0 (fun k => b k l) g) p
      = ifft_fwd n0 (fun k => ifft_fwd n1 (b k) p) g := by
  simp only [ifft_fwd_eq, Finset.sum_mul]
  rw [Finset.sum_comm]
  refine Finset.sum_congr rfl fun k _ => Finset.sum_congr rfl fun l _ => ?_
  ring

theorem shiftIfft2_eq (n0 n1 : ℤ) (method : PyStr) (a : ℤ → ℤ → ℂ) (g p : ℤ) :
    shiftIfft2 method n0 n1 a g p
      = ifft_fwd n0 (ifftshift n0 (fun k => ifft_fwd n1 (ifftshift n1 (a k)) p)) g := by
  have h : shiftIfft2 method n0 n1 a g p = ifft_fwd n1 (fun l => ifft_fwd n0
      (fun k => ifftshift n0 (fun k => ifftshift n1 (a k) l) k) g) p := by
    unfold shiftIfft2
    simp only
    split_ifs
    · rfl
    · rw [← fft_conj_at]
      congr 2
      funext l
      rw [← fft_conj_at, Complex.conj_conj]
  rw [h, ifft_fwd_comm]
  rfl

/-- The Fourier coefficients in `α` of a plane of the expansion. -/
noncomputable def wigRing (L : ℤ) (c : ℤ → ℤ → ℤ → ℂ) (n : ℤ) (β : ℝ) (m : ℤ) : ℂ :=
  ∑ l ∈ Finset.Ico 0 L, (2 * (l : ℂ) + 1) / (8 * (Real.pi : ℂ) ^ 2) * c n l m * (wignerd l m n β : ℝ)

theorem wigPlane_ring (L : ℤ) (c : ℤ → ℤ → ℤ → ℂ) (n : ℤ) (β α : ℝ) :
    wigPlane 0 L c n β α = synth L false (wigRing L c n β) α := by
  unfold wigPlane synth wigRing
  simp only [Bool.false_eq_true, if_false, Finset.sum_mul]
  rw [Finset.sum_comm]
  refine Finset.sum_congr rfl fun l hl => ?_
  rw [Finset.mem_Ico] at hl
  apply Finset.sum_subset
  · intro x; simp only [Finset.mem_Ico, Finset.mem_Ioo]; omega
  · intro m h1 h2
    rw [Finset.mem_Ioo] at h1
    rw [Finset.mem_Ico] at h2
    rw [wignerd_outside l m n _ (Or.inl (by rw [lt_abs]; omega))]
    simp

/-- One plane of the array `fnab`, transformed over `α`. -/
theorem wignerFnab_plane {G : GlTables} {σ : Scheme} {method : PyStr}
    (hmt : method ∈ [mNumpy, mJax, mTorch]) {L N nside : ℤ} (hv : σ.Valid L nside)
    (hhp : σ = .healpix → 2 * nside ≤ L) (flmn : ℤ → ℤ → ℤ → ℂ) (reality : Bool)
    {K : ℤ → ℤ → ℤ → ℤ → ℂ} (hK : Kernel4Is K G σ L N nside reality false) {n : ℤ}
    (n0 : nFirst N reality ≤ n) (n1 : n < N) :
    ∃ f, inverseFftM method (wignerFnab flmn K L N σ.off reality (N - 1 + n)) L σ.name
        (2 * L - 1 + σ.off) nside false = .ok f ∧
      ∀ t p, σ.Has L nside t p → f (σ.pos nside t p).1 (σ.pos nside t p).2
        = wigPlane 0 L (fun n l m => flmn (N - 1 + n) l (m + L - 1)) n (σ.theta G.nodes L nside t)
            (σ.phi L nside t p) := by
  obtain ⟨f, e, h⟩ := inverseFftM_values (lower_name σ) (mOffset_name σ) hmt hv hhp false
    (wignerFnab flmn K L N σ.off reality (N - 1 + n))
    (fun t => wigRing L (fun n l m => flmn (N - 1 + n) l (m + L - 1)) n (σ.theta G.nodes L nside t))
    (fun h => nomatch h)
    (fun t ho _ _ => by unfold wignerFnab; rw [if_neg (by omega)])
    (fun t m t0 t1 m0 m1 _ => by
      have hns := nStart_eq N reality
      unfold wignerFnab
      rw [if_pos ⟨by omega, by omega⟩]
      have hg : ∀ g : ℤ → ℂ, gEff false g m = g m := fun g => by unfold gEff; simp
      rw [hg]
      unfold wigRing
      rw [Finset.sum_mul]
      refine Finset.sum_congr rfl fun l hl => ?_
      rw [Finset.mem_Ico] at hl
      have := hK n t l m n0 n1 t0 t1 hl.1 hl.2 m0 m1
      rw [show N - 1 + n - nStart N reality = n - nFirst N reality by omega,
        show m + L - 1 + σ.off - σ.off = m + L - 1 by ring, this]
      simp only [wScale, Bool.false_eq_true, if_false, one_mul]
      have e1 : kTheta G.nodes σ L nside false t = σ.theta G.nodes L nside t := rfl
      have e2 : kScheme σ false = σ := rfl
      rw [e1, e2]
      ring)
  refine ⟨f, e, fun t p ht => ?_⟩
  rw [h t p ht, wigPlane_ring]

theorem hp_pos (nside t p : ℤ) : (Scheme.healpix.pos nside t p).1 = 0 := rfl

theorem equi_pos {σ : Scheme} (h : σ ≠ .healpix) (nside t p : ℤ) : σ.pos nside t p = (t, p) := by
  cases σ <;> first | rfl | exact absurd rfl h

/-- The transform over `γ` of the planes. -/
noncomputable def gammaSynth (N : ℤ) (reality : Bool) (a : ℤ → ℂ) (g : ℤ) : ℂ :=
  if reality then irfft_fwd (2 * N - 1 - (N - 1)) (fun k => a (N - 1 + k)) (2 * N - 1) g
  else ifft_fwd (ngamma N) (ifftshift (ngamma N) a) g

theorem precomputeWignerInverse_values {G : GlTables} {σ : Scheme} {method : PyStr}
    (hmt : method ∈ [mNumpy, mJax, mTorch]) {L N : ℤ} {nside : Option ℤ}
    (hv : σ.Valid L (nside.getD 0)) (hN : 1 ≤ N)
    (hhp : σ = .healpix → 2 * nside.getD 0 ≤ L) (flmn : ℤ → ℤ → ℤ → ℂ) (reality : Bool)
    {K : ℤ → ℤ → ℤ → ℤ → ℂ} (hK : Kernel4Is K G σ L N (nside.getD 0) reality false) :
    ∃ out, precomputeWignerInverse (.d3 (2 * N - 1) L (2 * L - 1) flmn)
        ⟨nDim N reality, σ.rings L (nside.getD 0), L, 2 * L - 1, K⟩ L N σ.name reality nside method
        = .ok out ∧
      out.shape = (2 * N - 1) :: σ.shape L (nside.getD 0) ∧
      ∀ g t p, σ.Has L (nside.getD 0) t p →
        ∃ a, (∀ n, nFirst N reality ≤ n → n < N → a (N - 1 + n)
            = wigPlane 0 L (fun n l m => flmn (N - 1 + n) l (m + L - 1)) n
                (σ.theta G.nodes L (nside.getD 0) t) (σ.phi L (nside.getD 0) t p)) ∧
          out.get3 g (σ.pos (nside.getD 0) t p).1 (σ.pos (nside.getD 0) t p).2
            = gammaSynth N reality a g := by
  have hL := hv.1
  have hb := nFirst_bounds hN reality
  have hns := nStart_eq N reality
  have hdim : nDim N reality = 2 * N - 1 - nStart N reality := by rw [nDim_eq]; omega
  have hpl := fun n (a : nFirst N reality ≤ n) b => wignerFnab_plane hmt hv hhp flmn reality hK
    (n := n) a b
  have hsh := fnab_shape_scheme hv N
  unfold precomputeWignerInverse
  rw [hsh]
  simp only [bind, Except.bind, mOffset_name]
  rw [if_neg (by
    rw [hdim, show 2 * L - 1 + σ.off - σ.off = 2 * L - 1 by ring]
    simp [Nd.shape])]
  by_cases hh : σ = .healpix
  · rw [if_pos (inHealpix_iff.2 hh), so3_shape hv]
    simp only
    have hplane : ∀ n, nFirst N reality ≤ n → n < N → ∃ r,
        healpix_ifft noCuda (wignerFnab (Nd.d3 (2 * N - 1) L (2 * L - 1) flmn).get3 K L N σ.off
          reality (N - 1 + n)) L (nside.getD 0) method false = .ok r ∧
        ∀ t p, σ.Has L (nside.getD 0) t p → r.1 (σ.pos (nside.getD 0) t p).2
          = wigPlane 0 L (fun n l m => flmn (N - 1 + n) l (m + L - 1)) n
              (σ.theta G.nodes L (nside.getD 0) t) (σ.phi L (nside.getD 0) t p) := by
      intro n a b
      obtain ⟨f, e, h⟩ := hpl n a b
      unfold inverseFftM at e
      rw [if_pos ((lower_hp_iff (lower_name σ)).2 hh)] at e
      show ∃ r, healpix_ifft noCuda (wignerFnab flmn K L N σ.off reality (N - 1 + n)) L
        (nside.getD 0) method false = .ok r ∧ _
      cases hr : healpix_ifft noCuda (wignerFnab flmn K L N σ.off reality (N - 1 + n)) L
          (nside.getD 0) method false with
      | error x => rw [hr] at e; exact absurd e (by simp [bind, Except.bind])
      | ok r =>
        rw [hr] at e
        simp only [bind, Except.bind, pure, Except.pure, Except.ok.injEq] at e
        refine ⟨r, rfl, fun t p ht => ?_⟩
        rw [← h t p ht, ← e]
    obtain ⟨f, e, hf⟩ := forRangeM_ind (show nStart N reality - N + 1 ≤ N by omega)
      (fun n (f : ℤ → ℤ → ℤ → ℂ) => do
        let r ← healpix_ifft noCuda (wignerFnab (Nd.d3 (2 * N - 1) L (2 * L - 1) flmn).get3 K L N
          σ.off reality (N - 1 + n)) L (nside.getD 0) method false
        pure (setPlane f (N - 1 + n) (fun _ i => r.1 i))) (fun _ _ _ => 0)
      (fun k f => ∀ n, nFirst N reality ≤ n → n < k → ∀ t p, σ.Has L (nside.getD 0) t p →
        f (N - 1 + n) (σ.pos (nside.getD 0) t p).1 (σ.pos (nside.getD 0) t p).2
          = wigPlane 0 L (fun n l m => flmn (N - 1 + n) l (m + L - 1)) n
              (σ.theta G.nodes L (nside.getD 0) t) (σ.phi L (nside.getD 0) t p))
      (fun n a b => by omega) (by
        intro k f k0 k1 ih
        obtain ⟨r, e, hr⟩ := hplane k (by omega) k1
        refine ⟨_, by rw [e]; rfl, ?_⟩
        intro n n0 n1 t p ht
        unfold setPlane
        by_cases hnk : n = k
        · subst hnk
          rw [if_pos rfl]
          exact hr t p ht
        · rw [if_neg (by omega)]
          exact ih n n0 (by omega) t p ht)
    have e' := e
    simp only [bind, Except.bind] at e'
    rw [e']
    simp only
    obtain ⟨out, e2, hs2, ho⟩ := packSo3_scheme (σ := σ) (L := L) (nside := nside.getD 0) N
      (fun g t p =>
      if reality = true then irfft_fwd (2 * N - 1 - nStart N reality)
        (fun k => f (nStart N reality + k) t p) (2 * N - 1) g
      else shiftIfft method (ngamma N) (fun k => f k t p) g)
    refine ⟨out, e2, hs2, fun g t p ht => ?_⟩
    refine ⟨fun k => f k (σ.pos (nside.getD 0) t p).1 (σ.pos (nside.getD 0) t p).2,
      fun n a b => hf n a b t p ht, ?_⟩
    rw [ho]
    unfold gammaSynth
    cases reality
    · rw [if_neg Bool.false_ne_true, if_neg Bool.false_ne_true,
        shiftIfft_eq (by unfold ngamma; omega)]
    · rw [if_pos rfl, if_pos rfl]
      rfl
  · rw [if_neg (by rw [inHealpix_iff]; exact hh)]
    have hshape : σ.shape L (nside.getD 0) = [σ.rings L (nside.getD 0), 2 * L - 1 + σ.off] := by
      revert hh; cases σ <;> intro hh <;> first | exact absurd rfl hh | skip
      all_goals simp [Scheme.shape, Scheme.off, Scheme.rings, Scheme.ringLen]
    refine ⟨_, rfl, by rw [hshape]; rfl, fun g t p ht => ?_⟩
    refine ⟨fun k => ifft_fwd (2 * L - 1 + σ.off) (ifftshift (2 * L - 1 + σ.off)
      (wignerFnab flmn K L N σ.off reality k t)) p, fun n a b => ?_, ?_⟩
    · obtain ⟨f, e, h⟩ := hpl n a b
      unfold inverseFftM at e
      rw [if_neg (by rw [lower_hp_iff (lower_name σ)]; exact hh),
        if_neg Bool.false_ne_true] at e
      simp only [pure, Except.pure, Except.ok.injEq] at e
      rw [← h t p ht, ← e, equi_pos hh]
    · rw [equi_pos hh]
      have hn : 0 < 2 * L - 1 + σ.off := by
        have : 0 ≤ σ.off := by cases σ <;> decide
        omega
      unfold gammaSynth
      simp only [Nd.get3]
      cases reality
      · rw [if_neg Bool.false_ne_true, if_neg Bool.false_ne_true, shiftIfft2_eq]
        rfl
      · rw [if_pos rfl, if_pos rfl]
        simp only [shiftIfft_eq hn]
        rfl

end S2fft
