import Verif.Model.Spherical
import Verif.Lemmas.OtfLeak
import Verif.Props.C16
import Verif.Props.C27

/-!
# C39: the on-the-fly spherical transforms

The angles that the transforms work on are those stored (`Machine`). The theorems are about stored
angles at which the recursion does not divide by zero (`OtfRegular`); the limits at the end are for
every grid.
-/

namespace S2fft
open Spec Topology

/-- Every ring is at a pole, stored exactly, or stored as an angle that the recursion handles. The
rings are those of the grid, or for `forward` with MW and MWSS those of the resampled grid. -/
def OtfRegular (G : Machine) (σ : Scheme) (L nside spin : ℤ) (forward : Bool) : Prop :=
  (kScheme σ forward = .mw ∨ kScheme σ forward = .mwss → G.Poles) ∧
  ∀ t, 0 ≤ t → t < kRings σ L nside forward →
    PoleRing (kScheme σ forward) (kRings σ L nside forward) t ∨
      PmRegular L spin (G.rnd (kTheta G.nodes σ L nside forward t))

theorem otfRegular_inverse {G : Machine} {σ : Scheme} {L ns spin : ℤ} (hv : σ.Valid L ns)
    (h : OtfRegular G σ L ns spin false) : ∀ t, 0 ≤ t → t < σ.rings L ns →
      RingOk σ L spin (σ.rings L ns) (G.theta σ L ns) t := by
  intro t t0 t1
  obtain ⟨p1, p2⟩ := kTheta_poles G.nodes hv false
  have k1 : kScheme σ false = σ := rfl
  have k2 : kRings σ L ns false = σ.rings L ns := rfl
  have k3 : kTheta G.nodes σ L ns false = σ.theta G.nodes L ns := rfl
  rw [k1, k2, k3] at p1 p2
  beta_reduce at p1 p2
  obtain ⟨hp, hr⟩ := h
  rw [k1] at hp
  rw [k1, k2, k3] at hr
  by_cases c1 : σ = .mwss ∧ t = 0
  · left
    refine ⟨c1.1, c1.2, ?_⟩
    unfold Machine.theta
    rw [c1.2, (p1 c1.1).2]
    exact (hp (Or.inr c1.1)).1
  by_cases c2 : (σ = .mw ∨ σ = .mwss) ∧ t = σ.rings L ns - 1
  · right; left
    refine ⟨c2.1, c2.2, ?_⟩
    unfold Machine.theta
    rw [c2.2, p2 c2.1]
    exact (hp c2.1).2
  right; right
  refine ⟨c1, c2, ?_⟩
  rcases hr t t0 t1 with h | h
  · exact absurd h (fun h => h.elim c1 c2)
  · exact h

theorem otfRegular_forward {G : Machine} {σ : Scheme} {L ns spin : ℤ}
    (h : OtfRegular G σ L ns spin true) : (σ.inner = .mwss → G.Poles) ∧
      ∀ t, 0 ≤ t → t < otfRingCount σ L ns →
        PmRegular L spin (otfBeta σ (G.inner σ L ns) t) := by
  have k1 : kScheme σ true = σ.inner := by cases σ <;> rfl
  have k2 : kRings σ L ns true = innerRings σ L ns := by cases σ <;> rfl
  have k3 : kTheta G.nodes σ L ns true = innerTheta G.nodes σ L ns := by cases σ <;> rfl
  obtain ⟨hp, hr⟩ := h
  rw [k1] at hp
  rw [k1, k2, k3] at hr
  refine ⟨fun h => hp (Or.inr h), fun t t0 t1 => ?_⟩
  unfold otfRingCount at t1
  unfold otfBeta
  by_cases hc : σ.inner = .mwss
  · rw [if_pos hc] at t1 ⊢
    rcases hr (t + 1) (by omega) (by omega) with h | h
    · exfalso
      rcases h with h | h
      · have := h.2; omega
      · have := h.2; omega
    · exact h
  · rw [if_neg hc] at t1 ⊢
    rcases hr t t0 t1 with h | h
    · exfalso
      rcases h with h | h
      · exact hc h.1
      · exact h.1.elim (inner_not_mw σ) hc
    · exact h

/-- `L_lower` and the band-limit as the method wants them (see C25 for `L_lower = L - 1`). -/
def LowerOk (method : PyStr) (L lo : ℤ) : Prop :=
  0 ≤ lo ∧ (lo < L - 1 ∨ method ≠ mNumpy ∧ L = 1 ∧ lo = 0)

/-- The inverse function of the methods "numpy", "jax" and "torch". -/
noncomputable def otfInv (G : Machine) (method : PyStr) :=
  if method = mNumpy then otfInverseNumpy G else otfInverseJax G

/-- The forward function of the methods "numpy", "jax" and "torch". -/
noncomputable def otfFwd (G : Machine) (method : PyStr) :=
  if method = mNumpy then otfForwardNumpy G else otfForwardJax G

theorem sphericalInverse_otf (B : Backends) (G : Machine) (flm : Nd ℂ) {L spin : ℤ}
    (nside : Option ℤ) (s : PyStr) {method : PyStr} (hmt : method ∈ [mNumpy, mJax, mTorch])
    (hsp : spin < 8) (reality : Bool) (precomps : Option PmPre) (lo k : ℤ) :
    sphericalInverse B G flm L spin nside s method reality precomps lo k
      = otfInv G method flm L spin nside s reality precomps lo := by
  unfold sphericalInverse otfInverse otfInv
  simp only [List.mem_cons, List.not_mem_nil, or_false] at hmt
  rcases hmt with rfl | rfl | rfl
  all_goals
    rw [if_neg (by decide), if_neg (by omega), if_neg (by decide), if_neg (by decide)]
    simp only [if_neg (show ¬ mJax = mNumpy by decide), if_neg (show ¬ mJax = mJaxCuda by decide),
      if_neg (show ¬ mTorch = mNumpy by decide), if_neg (show ¬ mTorch = mJaxCuda by decide), if_true]

theorem sphericalForward_otf (B : Backends) (G : Machine) (f : Nd ℂ) {L spin : ℤ}
    (nside : Option ℤ) (s : PyStr) {method : PyStr} (hmt : method ∈ [mNumpy, mJax, mTorch])
    (hsp : spin < 8) (reality : Bool) (precomps : Option PmPre) (lo k : ℤ) {iter : Option ℤ}
    (hit : iter = none ∨ iter = some 0) :
    sphericalForward B G f L spin nside s method reality precomps lo iter k
      = otfFwd G method f L spin nside s reality precomps lo := by
  unfold sphericalForward otfForward otfFwd
  simp only [List.mem_cons, List.not_mem_nil, or_false] at hmt
  have hn : ∀ P : Prop, [Decidable P] → ¬ P → iter.getD (if P then 3 else 0) = 0 := by
    intro P _ hP
    rcases hit with rfl | rfl
    · simp [hP]
    · rfl
  have h1 : ¬ (lower s = sHP ∧ mNumpy = mHealpy) := fun h => absurd h.2 (by decide)
  have h2 : ¬ (lower s = sHP ∧ mJax = mHealpy) := fun h => absurd h.2 (by decide)
  have h3 : ¬ (lower s = sHP ∧ mTorch = mHealpy) := fun h => absurd h.2 (by decide)
  rcases hmt with rfl | rfl | rfl
  all_goals
    rw [if_neg (by decide), if_neg (by omega)]
    simp only [hn _ h1, hn _ h2, hn _ h3]
    rw [if_neg (by decide), if_neg (by decide), if_neg (by decide)]
    simp only [if_neg (show ¬ mJax = mNumpy by decide), if_neg (show ¬ mJax = mJaxCuda by decide),
      if_neg (show ¬ mTorch = mNumpy by decide), if_neg (show ¬ mTorch = mJaxCuda by decide), if_true]

section
variable (B : Backends) (G : Machine) (σ : Scheme) (L spin lo : ℤ) (nside : Option ℤ)

theorem otfInv_expansion (hv : σ.Valid L (nside.getD 0))
    (hhp : σ = .healpix → 2 * nside.getD 0 ≤ L) (method : PyStr) (hsp : |spin| < L)
    (hlo : LowerOk method L lo) (flm : ℤ → ℤ → ℂ)
    (hf : ∀ el k, lo ≤ el → el < |spin| → 0 ≤ k → k < 2 * L - 1 → flm el k = 0) (reality : Bool)
    (hrs : reality = true → spin = 0) (hre : RealOrderZero flm L spin reality lo)
    (precomps : Option PmPre) (hP : ∀ P, precomps = some P → PmFits P L spin
      (σ.rings L (nside.getD 0)) (G.theta σ L (nside.getD 0)))
    (hr : OtfRegular G σ L (nside.getD 0) spin false) :
    ∃ out, otfInv G method (.d2 L (2 * L - 1) flm) L spin nside σ.name reality precomps lo = .ok out ∧
      out.shape = σ.shape L (nside.getD 0) ∧
      ∀ t p, σ.Has L (nside.getD 0) t p →
        out.get2 (σ.pos (nside.getD 0) t p).1 (σ.pos (nside.getD 0) t p).2
          = harmonicSum lo L spin (coeffs flm L spin reality)
              (G.rnd (σ.theta G.nodes L (nside.getD 0) t)) (σ.phi L (nside.getD 0) t p) := by
  have hf' : ∀ el k, lo ≤ el → el < L → el < |spin| → 0 ≤ k → k < 2 * L - 1 → flm el k = 0 := fun el k a _ b => hf el k a b
  have hre' : reality = true → ∀ el, lo ≤ el → el < L → (flm el (L - 1)).im = 0 :=
    fun h => hre h (hrs h)
  have hr' := otfRegular_inverse hv hr
  have fin : ∀ out : Nd ℂ, (∀ t p, σ.Has L (nside.getD 0) t p →
        out.get2 (σ.pos (nside.getD 0) t p).1 (σ.pos (nside.getD 0) t p).2
          = synth L reality (gAt flm L spin lo (G.theta σ L (nside.getD 0) t))
              (σ.phi L (nside.getD 0) t p)) → ∀ t p, σ.Has L (nside.getD 0) t p →
        out.get2 (σ.pos (nside.getD 0) t p).1 (σ.pos (nside.getD 0) t p).2
          = harmonicSum lo L spin (coeffs flm L spin reality)
              (G.rnd (σ.theta G.nodes L (nside.getD 0) t)) (σ.phi L (nside.getD 0) t p) := by
    intro out h t p ht
    rw [h t p ht, synth_gAt_harmonic flm _ hlo.1 hv.1 hrs]
    unfold Machine.theta coeffs
    congr 1
    by_cases a : reality = true
    · rw [if_pos a, if_pos ⟨a, hrs a⟩]
    · rw [if_neg a, if_neg (fun h => a h.1)]
  unfold otfInv
  split_ifs with hm
  · have hl : lo < L - 1 := by
      rcases hlo.2 with h | h
      · exact h
      · exact absurd hm h.1
    obtain ⟨out, e, hs, h⟩ := otfInverseNumpy_values G (lower_name σ) (mOffset_name σ) hv hhp
      (by have := hlo.1; omega) hsp hlo.1 hl flm reality hf' hrs hre' hP hr'
    exact ⟨out, e, hs, fin out h⟩
  · obtain ⟨out, e, hs, h⟩ := otfInverseJax_values G (lower_name σ) (mOffset_name σ) hv hhp hsp hlo.1
      (hlo.2.imp id (fun h => h.2.1)) (by rcases hlo.2 with h | h <;> omega) flm reality hf' hrs hre'
      hP hr'
    exact ⟨out, e, hs, fin out h⟩

/-- Synthesis: `inverse` returns the harmonic expansion at every sample, at the stored angles. -/
theorem C39_expansion_partial (hv : σ.Valid L (nside.getD 0))
    (hhp : σ = .healpix → 2 * nside.getD 0 ≤ L) (method : PyStr)
    (hmt : method ∈ [mNumpy, mJax, mTorch]) (hsp : |spin| < L) (h8 : spin < 8)
    (hlo : LowerOk method L lo) (flm : ℤ → ℤ → ℂ)
    (hf : ∀ el k, lo ≤ el → el < |spin| → 0 ≤ k → k < 2 * L - 1 → flm el k = 0) (reality : Bool)
    (hrs : reality = true → spin = 0) (hre : RealOrderZero flm L spin reality lo)
    (precomps : Option PmPre) (hP : PrecompsArg G L spin σ.name nside false precomps)
    (hr : OtfRegular G σ L (nside.getD 0) spin false) (k : ℤ) :
    ∃ out, sphericalInverse B G (.d2 L (2 * L - 1) flm) L spin nside σ.name method reality precomps
        lo k = .ok out ∧
      out.shape = σ.shape L (nside.getD 0) ∧
      ∀ t p, σ.Has L (nside.getD 0) t p →
        out.get2 (σ.pos (nside.getD 0) t p).1 (σ.pos (nside.getD 0) t p).2
          = harmonicSum lo L spin (coeffs flm L spin reality)
              (G.rnd (σ.theta G.nodes L (nside.getD 0) t)) (σ.phi L (nside.getD 0) t p) := by
  rw [sphericalInverse_otf B G _ nside _ hmt h8]
  exact otfInv_expansion G σ L spin lo nside hv hhp method hsp hlo flm hf reality hrs hre precomps
    (precompsArg_inverse (lower_name σ) hv hP) hr

/-- `inverse` returns what the base `inverse` does, on grids without rings in the pole windows of the
base recursion. -/
theorem C39_inverse_partial (hv : σ.Valid L (nside.getD 0))
    (hhp : σ = .healpix → 2 * nside.getD 0 ≤ L) (method : PyStr)
    (hmt : method ∈ [mNumpy, mJax, mTorch]) (hsp : |spin| < L) (h8 : spin < 8)
    (hlo : LowerOk method L lo) (flm : ℤ → ℤ → ℂ)
    (hf : ∀ el k, lo ≤ el → el < |spin| → 0 ≤ k → k < 2 * L - 1 → flm el k = 0) (reality : Bool)
    (hrs : reality = true → spin = 0) (hre : RealOrderZero flm L spin reality lo)
    (precomps : Option PmPre) (hP : PrecompsArg G L spin σ.name nside false precomps)
    (hr : OtfRegular G σ L (nside.getD 0) spin false)
    (hst : ∀ t, 0 ≤ t → t < σ.rings L (nside.getD 0) →
      G.rnd (σ.theta G.nodes L (nside.getD 0) t) = σ.theta G.nodes L (nside.getD 0) t)
    (hex : GridExact G.nodes σ L (nside.getD 0)) (k : ℤ) :
    ∃ out ref, sphericalInverse B G (.d2 L (2 * L - 1) flm) L spin nside σ.name method reality
        precomps lo k = .ok out ∧
      baseInverse G.toGlTables (.d2 L (2 * L - 1) flm) L spin σ.name nside reality lo = .ok ref ∧
      out.shape = ref.shape ∧ ∀ t p, σ.Has L (nside.getD 0) t p →
        out.get2 (σ.pos (nside.getD 0) t p).1 (σ.pos (nside.getD 0) t p).2
          = ref.get2 (σ.pos (nside.getD 0) t p).1 (σ.pos (nside.getD 0) t p).2 := by
  obtain ⟨out, e, hs, h⟩ := C39_expansion_partial B G σ L spin lo nside hv hhp method hmt hsp h8 hlo
    flm hf reality hrs hre precomps hP hr k
  obtain ⟨ref, e', hs', h'⟩ := C18_inverse G.toGlTables σ L spin lo nside hv hhp hlo.1
    (by rcases hlo.2 with h | h <;> omega) flm reality hre hex
  exact ⟨out, ref, e, e', hs.trans hs'.symm, fun t p ht => by
    rw [h t p ht, h' t p ht, hst t ht.1 ht.2.1]⟩

theorem otfFwd_values (hv : σ.Valid L (nside.getD 0)) (method : PyStr)
    (hhp : σ = .healpix → 2 * nside.getD 0 ≤ L ∧ (method ≠ mNumpy → 2 ≤ nside.getD 0))
    (hsp : |spin| < L) (hlo : LowerOk method L lo)
    (f : Nd ℂ) (hf : f.shape = σ.shape L (nside.getD 0)) (reality : Bool)
    (hre : reality = true → RealRings σ.inner L (nside.getD 0) (innerRings σ L (nside.getD 0))
      (innerSignal σ L spin f.get2))
    (precomps : Option PmPre) (hP : ∀ P, precomps = some P → PmFits P L spin
      (otfRingCount σ L (nside.getD 0)) (otfBeta σ (G.inner σ L (nside.getD 0))))
    (hr : OtfRegular G σ L (nside.getD 0) spin true) :
    ∃ flm, otfFwd G method f L spin nside σ.name reality precomps lo = .ok (.d2 L (2 * L - 1) flm) ∧
      ∀ el m, 0 ≤ el → el < L → -L < m → m < L → flm el (m + L - 1)
        = if el < max |spin| lo then 0 else symm reality (fAt (ringSum σ.inner L (nside.getD 0)
            (innerSignal σ L spin f.get2)) spin (innerRings σ L (nside.getD 0))
            (G.inner σ L (nside.getD 0)) (innerWeight G.toGlTables σ L (nside.getD 0)) el) m := by
  have hsh : σ = .healpix → σ.name = sHP := by rintro rfl; rfl
  obtain ⟨hp, hr'⟩ := otfRegular_forward hr
  unfold otfFwd
  split_ifs with hm
  · have hl : lo < L - 1 := by
      rcases hlo.2 with h | h
      · exact h
      · exact absurd hm h.1
    exact otfForwardNumpy_values G (lower_name σ) hsh hv (fun h => (hhp h).1)
      (by have := hlo.1; omega) hsp hlo.1 hl f hf reality hre hP hp hr'
  · exact otfForwardJax_values G (lower_name σ) hsh hv (fun h => ⟨(hhp h).1, (hhp h).2 hm⟩) hsp
      hlo.1 (hlo.2.imp id (fun h => h.2.1)) (by rcases hlo.2 with h | h <;> omega) f hf reality hre
      hP hp hr'

theorem sphericalForward_values (hv : σ.Valid L (nside.getD 0)) (method : PyStr)
    (hmt : method ∈ [mNumpy, mJax, mTorch])
    (hhp : σ = .healpix → 2 * nside.getD 0 ≤ L ∧ (method ≠ mNumpy → 2 ≤ nside.getD 0))
    (hsp : |spin| < L) (h8 : spin < 8) (hlo : LowerOk method L lo)
    (f : Nd ℂ) (hf : f.shape = σ.shape L (nside.getD 0)) (reality : Bool)
    (hre : reality = true → RealRings σ.inner L (nside.getD 0) (innerRings σ L (nside.getD 0))
      (innerSignal σ L spin f.get2))
    (precomps : Option PmPre) (hP : PrecompsArg G L spin σ.name nside true precomps)
    (hr : OtfRegular G σ L (nside.getD 0) spin true) (iter : Option ℤ)
    (hit : iter = none ∨ iter = some 0) (k : ℤ) :
    ∃ flm, sphericalForward B G f L spin nside σ.name method reality precomps lo iter k
        = .ok (.d2 L (2 * L - 1) flm) ∧
      ∀ el m, 0 ≤ el → el < L → -L < m → m < L → flm el (m + L - 1)
        = if el < max |spin| lo then 0 else symm reality (fAt (ringSum σ.inner L (nside.getD 0)
            (innerSignal σ L spin f.get2)) spin (innerRings σ L (nside.getD 0))
            (G.inner σ L (nside.getD 0)) (innerWeight G.toGlTables σ L (nside.getD 0)) el) m := by
  rw [sphericalForward_otf B G _ nside _ hmt h8 _ _ _ _ hit]
  exact otfFwd_values G σ L spin lo nside hv method hhp hsp hlo f hf reality hre precomps
    (precompsArg_forward (lower_name σ) hv hP) hr

/-- The stored angles of the rings of a transform are the exact ones. -/
def ExactStored (forward : Bool) : Prop :=
  ∀ t, 0 ≤ t → t < kRings σ L (nside.getD 0) forward →
    G.rnd (kTheta G.nodes σ L (nside.getD 0) forward t) = kTheta G.nodes σ L (nside.getD 0) forward t

/-- `forward` returns what the base `forward` does, on grids without rings in the pole windows of the
base recursion. -/
theorem C39_forward_partial (hv : σ.Valid L (nside.getD 0)) (method : PyStr)
    (hmt : method ∈ [mNumpy, mJax, mTorch])
    (hhp : σ = .healpix → 2 * nside.getD 0 ≤ L ∧ (method ≠ mNumpy → 2 ≤ nside.getD 0))
    (hsp : |spin| < L) (h8 : spin < 8) (hlo : LowerOk method L lo)
    (f : Nd ℂ) (hf : f.shape = σ.shape L (nside.getD 0)) (reality : Bool)
    (hrs : reality = true → spin = 0)
    (hre : reality = true → RealInput G.nodes σ L (nside.getD 0) f.get2)
    (precomps : Option PmPre) (hP : PrecompsArg G L spin σ.name nside true precomps)
    (hr : OtfRegular G σ L (nside.getD 0) spin true) (hst : ExactStored G σ L nside true)
    (hex : InnerExact G.nodes σ L (nside.getD 0)) (iter : Option ℤ)
    (hit : iter = none ∨ iter = some 0) (k : ℤ) :
    ∃ flm ref, sphericalForward B G f L spin nside σ.name method reality precomps lo iter k
        = .ok (.d2 L (2 * L - 1) flm) ∧
      baseForward G.toGlTables f L spin σ.name nside reality lo 0 = .ok (.d2 L (2 * L - 1) ref) ∧
      ∀ el j, 0 ≤ el → el < L → 0 ≤ j → j < 2 * L - 1 → flm el j = ref el j := by
  have hL := hv.1
  have hreal : reality = true → RealRings σ.inner L (nside.getD 0) (innerRings σ L (nside.getD 0))
      (innerSignal σ L spin f.get2) := by
    intro h
    have := hrs h; subst this
    exact realInput_rings hv.1 (hre h)
  obtain ⟨flm, e, h⟩ := sphericalForward_values B G σ L spin lo nside hv method hmt hhp hsp h8 hlo f
    hf reality hreal precomps hP hr iter hit k
  have hsh : σ = .healpix → σ.name = sHP := by rintro rfl; rfl
  obtain ⟨ref, e', h', h0⟩ := baseForwardWith_values G.toGlTables (lower_name σ) (method := bVec)
    (by simp [baseMethods]) (fun _ => hsh) (spin := spin) hv (fun _ h => (hhp h).1) f hf reality
    hlo.1 (by rcases hlo.2 with h | h <;> omega) (fun _ a _ => hreal a)
  refine ⟨flm, ref, e, ?_, fun el j a b c d => ?_⟩
  · unfold baseForward
    rw [if_pos rfl]; exact e'
  have hj := h el (j - L + 1) a b (by omega) (by omega)
  rw [show j - L + 1 + L - 1 = j by ring] at hj
  rw [hj]
  have hes : elStart lo spin = max |spin| lo := by unfold elStart; rw [max_comm]
  by_cases hel : el < max |spin| lo
  · rw [if_pos hel, h0 el j (by rw [hes]; exact hel)]
  · rw [if_neg hel]
    have hj' := h' el (j - L + 1) (by rw [hes]; omega) b (by omega) (by omega)
    rw [show j - L + 1 + L - 1 = j by ring] at hj'
    have he : effReality reality spin = reality := by
      unfold effReality
      split_ifs with hc
      · exact absurd (hrs hc.1) hc.2
      · rfl
    rw [hj', he, ← fAt_snap]
    rw [show fAt (ringSum σ.inner L (nside.getD 0) (innerSignal σ L spin f.get2)) spin
        (innerRings σ L (nside.getD 0)) (G.inner σ L (nside.getD 0))
        (innerWeight G.toGlTables σ L (nside.getD 0))
      = fAt (ringSum σ.inner L (nside.getD 0) (innerSignal σ L spin f.get2)) spin
        (innerRings σ L (nside.getD 0))
        (fun t => snapAngle (innerTheta G.nodes σ L (nside.getD 0) t))
        (innerWeight G.toGlTables σ L (nside.getD 0)) from ?_]
    refine fAt_congr (fun t t0 t1 => ?_)
    rw [snapAngle_eq _ (hex t t0 t1)]
    exact hst t t0 t1

/-- Analysis with the exact angles, on the schemes with a sampling theorem. -/
theorem analysis_exact {G : GlTables} {σ : Scheme} {L spin ns : ℤ} (hv : σ.Valid L ns)
    (hσ : SamplingTheorem G σ L) {c : ℤ → ℤ → ℂ} {f : Nd ℂ}
    (hs : SamplesOf G.nodes σ L ns f.get2 (harmonicSum 0 L spin c)) {reality : Bool}
    (hrs : reality = true → spin = 0) (hre : reality = true → RealHarmonics c 0 L) {el m : ℤ}
    (a : 0 ≤ el) (b : el < L) (m0 : -L < m) (m1 : m < L) (hel : |spin| ≤ el) :
    symm reality (fAt (ringSum σ.inner L ns (innerSignal σ L spin f.get2)) spin
        (innerRings σ L ns) (innerTheta G.nodes σ L ns) (innerWeight G σ L ns) el) m
      = if |m| ≤ el then c el m else 0 := by
  have hL := hv.1
  obtain ⟨q, n, hn, hlen, hw, hq⟩ := inner_rule G (nside := ns) hL hσ
  have key : ∀ m, -L < m → m < L → fAt (ringSum σ.inner L ns
      (innerSignal σ L spin f.get2)) spin (innerRings σ L ns)
      (innerTheta G.nodes σ L ns) (innerWeight G σ L ns) el m
      = if |m| ≤ el then c el m else 0 := by
    intro m m0 m1
    refine fAt_exact (lo := 0) (n := n) (by exact_mod_cast (by omega : n ≠ 0)) ?_ hw hq
      a a hel b m0 m1
    intro t m t0 t1 m0 m1
    exact ringSum_harm hL hσ.1 hs hn hlen t0 t1 m0 m1
  unfold symm
  split_ifs with hr hc hc
  · rw [key _ (by omega) (by omega), if_pos (by rw [abs_neg]; exact hc)]
    have h3 := hre hr.1 el (-m) a b (by rw [abs_neg]; exact hc)
    rw [neg_neg] at h3
    rw [h3, zpow_neg, ← inv_zpow, inv_neg, inv_one]
  · rw [key _ (by omega) (by omega), if_neg (by rw [abs_neg]; exact hc)]; simp
  · rw [key _ m0 m1, if_pos hc]
  · rw [key _ m0 m1, if_neg hc]

theorem realInput_of_samples {nodes : ℤ → ℤ → ℝ} {σ : Scheme} {L ns : ℤ} {c : ℤ → ℤ → ℂ}
    {f : Nd ℂ} (hs : SamplesOf nodes σ L ns f.get2 (harmonicSum 0 L 0 c))
    (hre : RealHarmonics c 0 L) : RealInput nodes σ L ns f.get2 := by
  have him := harmonicSum_real hre
  unfold RealInput
  split_ifs with hR
  · refine ⟨harmF 0 L 0 c, harmF_parity 0 L 0 c, fun θ φ => ?_, fun t p h => ?_⟩
    · rw [← harmonicSum_sph]; exact him θ φ
    · rw [← harmonicSum_sph]; exact hs t p h
  · intro t p h
    rw [hs t p h]; exact him _ _

theorem otfFwd_analysis (hv : σ.Valid L (nside.getD 0)) (hσ : SamplingTheorem G.toGlTables σ L)
    (method : PyStr) (hsp : |spin| < L)
    (hlo : LowerOk method L lo) (c : ℤ → ℤ → ℂ) (f : Nd ℂ)
    (hf : f.shape = σ.shape L (nside.getD 0))
    (hs : SamplesOf G.nodes σ L (nside.getD 0) f.get2 (harmonicSum 0 L spin c))
    (reality : Bool) (hrs : reality = true → spin = 0) (hre : reality = true → RealHarmonics c 0 L)
    (precomps : Option PmPre) (hP : ∀ P, precomps = some P → PmFits P L spin
      (otfRingCount σ L (nside.getD 0)) (otfBeta σ (G.inner σ L (nside.getD 0))))
    (hr : OtfRegular G σ L (nside.getD 0) spin true) (hst : ExactStored G σ L nside true) :
    ∃ g, otfFwd G method f L spin nside σ.name reality precomps lo = .ok (.d2 L (2 * L - 1) g) ∧
      ∀ el m, 0 ≤ el → el < L → -L < m → m < L →
        g el (m + L - 1) = if max |spin| lo ≤ el ∧ |m| ≤ el then c el m else 0 := by
  obtain ⟨g, e, h⟩ := otfFwd_values G σ L spin lo nside hv method
    (fun h => absurd h hσ.1) hsp hlo f hf reality (by
      intro h
      have := hrs h; subst this
      exact realInput_rings hv.1 (realInput_of_samples hs (hre h))) precomps hP hr
  refine ⟨g, e, fun el m a b m0 m1 => ?_⟩
  rw [h el m a b m0 m1]
  by_cases hel : el < max |spin| lo
  · rw [if_pos hel, if_neg (by rintro ⟨h, -⟩; omega)]
  · rw [if_neg hel, show fAt (ringSum σ.inner L (nside.getD 0) (innerSignal σ L spin f.get2)) spin
        (innerRings σ L (nside.getD 0)) (G.inner σ L (nside.getD 0))
        (innerWeight G.toGlTables σ L (nside.getD 0))
      = fAt (ringSum σ.inner L (nside.getD 0) (innerSignal σ L spin f.get2)) spin
        (innerRings σ L (nside.getD 0)) (innerTheta G.nodes σ L (nside.getD 0))
        (innerWeight G.toGlTables σ L (nside.getD 0))
      from fAt_congr (fun t t0 t1 => hst t t0 t1),
      analysis_exact hv hσ hs hrs hre a b m0 m1 (by
        have := le_max_left |spin| lo; omega)]
    simp only [not_lt.1 hel, true_and]

/-- Analysis: on the schemes with a sampling theorem `forward`, applied to the samples of an
expansion, returns its coefficients, and zeros below `L_lower`. -/
theorem C39_analysis_partial (hv : σ.Valid L (nside.getD 0)) (hσ : SamplingTheorem G.toGlTables σ L)
    (method : PyStr) (hmt : method ∈ [mNumpy, mJax, mTorch]) (hsp : |spin| < L) (h8 : spin < 8)
    (hlo : LowerOk method L lo) (c : ℤ → ℤ → ℂ) (f : Nd ℂ)
    (hf : f.shape = σ.shape L (nside.getD 0))
    (hs : SamplesOf G.nodes σ L (nside.getD 0) f.get2 (harmonicSum 0 L spin c))
    (reality : Bool) (hrs : reality = true → spin = 0) (hre : reality = true → RealHarmonics c 0 L)
    (precomps : Option PmPre) (hP : PrecompsArg G L spin σ.name nside true precomps)
    (hr : OtfRegular G σ L (nside.getD 0) spin true) (hst : ExactStored G σ L nside true)
    (iter : Option ℤ) (hit : iter = none ∨ iter = some 0) (k : ℤ) :
    ∃ g, sphericalForward B G f L spin nside σ.name method reality precomps lo iter k
        = .ok (.d2 L (2 * L - 1) g) ∧
      ∀ el m, 0 ≤ el → el < L → -L < m → m < L →
        g el (m + L - 1) = if max |spin| lo ≤ el ∧ |m| ≤ el then c el m else 0 := by
  rw [sphericalForward_otf B G _ nside _ hmt h8 _ _ _ _ hit]
  exact otfFwd_analysis G σ L spin lo nside hv hσ method hsp hlo c f hf hs reality hrs hre precomps
    (precompsArg_forward (lower_name σ) hv hP) hr hst

/-- The round trip, the two sides with methods of their own. -/
theorem C39_round_trip_partial (hv : σ.Valid L (nside.getD 0))
    (hσ : SamplingTheorem G.toGlTables σ L) (μ ν : PyStr) (hμ : μ ∈ [mNumpy, mJax, mTorch])
    (hν : ν ∈ [mNumpy, mJax, mTorch]) (hsp : |spin| < L) (h8 : spin < 8)
    (hlo : LowerOk μ L 0) (hlo' : LowerOk ν L lo) (flm : ℤ → ℤ → ℂ)
    (hf : ∀ el k, 0 ≤ el → el < |spin| → 0 ≤ k → k < 2 * L - 1 → flm el k = 0) (reality : Bool)
    (hrs : reality = true → spin = 0) (hre : RealOrderZero flm L spin reality 0)
    (p p' : Option PmPre) (hP : PrecompsArg G L spin σ.name nside false p)
    (hP' : PrecompsArg G L spin σ.name nside true p')
    (hr : OtfRegular G σ L (nside.getD 0) spin false)
    (hr' : OtfRegular G σ L (nside.getD 0) spin true)
    (hst : ExactStored G σ L nside false) (hst' : ExactStored G σ L nside true)
    (iter : Option ℤ) (hit : iter = none ∨ iter = some 0) (k : ℤ) :
    ∃ f g, sphericalInverse B G (.d2 L (2 * L - 1) flm) L spin nside σ.name μ reality p 0 k = .ok f ∧
      sphericalForward B G f L spin nside σ.name ν reality p' lo iter k
        = .ok (.d2 L (2 * L - 1) g) ∧
      ∀ el m, 0 ≤ el → el < L → -L < m → m < L →
        g el (m + L - 1)
          = if max |spin| lo ≤ el ∧ |m| ≤ el then coeffs flm L spin reality el m else 0 := by
  obtain ⟨f, e, hs, h⟩ := C39_expansion_partial B G σ L spin 0 nside hv (fun h => absurd h hσ.1) μ hμ
    hsp h8 hlo flm hf reality hrs hre p hP hr k
  obtain ⟨g, e', hg⟩ := C39_analysis_partial B G σ L spin lo nside hv hσ ν hν hsp h8 hlo'
    (coeffs flm L spin reality) f hs (fun t p ht => by
      rw [h t p ht]
      have := hst t ht.1 ht.2.1
      rw [show G.rnd (σ.theta G.nodes L (nside.getD 0) t) = σ.theta G.nodes L (nside.getD 0) t
        from this]) reality hrs (by
      intro hr
      unfold coeffs
      rw [if_pos ⟨hr, hrs hr⟩]
      apply realCoeffs_real
      intro l a b
      rw [zero_add]; exact hre hr (hrs hr) l a b) p' hP' hr' hst' iter hit k
  exact ⟨f, g, e, e', hg⟩

end

/-! ## Every grid

As the stored angles tend to the exact ones, without hitting the zeros of the recursion, the values
returned tend to the exact ones. -/

/-- `G` with the angles stored as `r` says. -/
abbrev storedAs (G : GlTables) (r : ℝ → ℝ) : Machine := ⟨G, r⟩

/-- The rings that are not poles lie between the poles. -/
theorem kTheta_between (nodes : ℤ → ℤ → ℝ) {σ : Scheme} {L ns : ℤ} (hv : σ.Valid L ns)
    (hgl : σ = .gl → ∀ i, 0 ≤ i → i < L → -1 < nodes L i ∧ nodes L i < 1) (forward : Bool) {t : ℤ}
    (t0 : 0 ≤ t) (t1 : t < kRings σ L ns forward)
    (hp : ¬ PoleRing (kScheme σ forward) (kRings σ L ns forward) t) :
    0 < kTheta nodes σ L ns forward t ∧ kTheta nodes σ L ns forward t < Real.pi := by
  have hpi := Real.pi_pos
  have h0' : (0 : ℝ) ≤ t := by exact_mod_cast t0
  have arc : ∀ z : ℝ, -1 < z → z < 1 → 0 < Real.arccos z ∧ Real.arccos z < Real.pi := by
    intro z a b
    refine ⟨Real.arccos_pos.2 b, ?_⟩
    rw [← Real.arccos_neg_one]
    exact Real.strictAntiOn_arccos ⟨le_refl _, by norm_num⟩ ⟨a.le, b.le⟩ a
  have key : ∀ (τ : Scheme) (L : ℤ), τ.Valid L ns →
      (τ = .gl → ∀ i, 0 ≤ i → i < L → -1 < nodes L i ∧ nodes L i < 1) → t < τ.rings L ns →
      ¬ PoleRing τ (τ.rings L ns) t →
      0 < τ.theta nodes L ns t ∧ τ.theta nodes L ns t < Real.pi := by
    intro τ L hv hgl t1 hp
    have hL : (1 : ℝ) ≤ L := by exact_mod_cast hv.1
    unfold PoleRing at hp
    cases τ with
    | mw =>
      have hq : t ≠ Scheme.mw.rings L ns - 1 := fun h => hp (Or.inr ⟨Or.inl rfl, h⟩)
      simp only [Scheme.rings] at t1 hq
      have h1' : (t : ℝ) + 2 ≤ L := by
        exact_mod_cast (by omega : t + 2 ≤ L)
      simp only [Scheme.theta]
      refine ⟨div_pos (by positivity) (by linarith), ?_⟩
      rw [div_lt_iff₀ (by linarith)]; nlinarith
    | mwss =>
      have ha : t ≠ 0 := fun h => hp (Or.inl ⟨rfl, h⟩)
      have hb : t ≠ Scheme.mwss.rings L ns - 1 := fun h => hp (Or.inr ⟨Or.inr rfl, h⟩)
      simp only [Scheme.rings] at t1 hb
      have ha' : (1 : ℝ) ≤ t := by exact_mod_cast (by omega : 1 ≤ t)
      have hb' : (t : ℝ) + 1 ≤ L := by exact_mod_cast (by omega : t + 1 ≤ L)
      simp only [Scheme.theta]
      refine ⟨div_pos (by nlinarith) (by linarith), ?_⟩
      rw [div_lt_iff₀ (by linarith)]; nlinarith
    | dh =>
      have h1' : (t : ℝ) + 1 ≤ 2 * L := by exact_mod_cast t1
      simp only [Scheme.theta]
      refine ⟨by positivity, ?_⟩
      rw [div_lt_iff₀ (by linarith)]; nlinarith
    | gl =>
      simp only [Scheme.rings] at t1
      simp only [Scheme.theta]
      have := hgl rfl (L - 1 - t) (by omega) (by omega)
      exact arc _ this.1 this.2
    | healpix =>
      simp only [Scheme.rings] at t1
      simp only [Scheme.theta]
      have hn := hv.2 rfl
      rw [healpixZ_eq hn t0 t1]
      have := ringZ_lt hn t0 t1
      exact arc _ this.1 this.2
  cases forward
  · exact key σ L hv hgl t1 hp
  · have k1 : kScheme σ true = σ.inner := by cases σ <;> rfl
    have k2 : kRings σ L ns true = innerRings σ L ns := by cases σ <;> rfl
    have k3 : kTheta nodes σ L ns true = innerTheta nodes σ L ns := by cases σ <;> rfl
    rw [k1, k2] at hp
    rw [k2] at t1
    rw [k3]
    by_cases hR : σ.Resampled
    · have hi : σ.inner = .mwss := by
        rcases hR with rfl | rfl <;> rfl
      unfold innerRings at t1 hp
      unfold innerTheta
      rw [if_pos hR] at t1 hp ⊢
      rw [hi] at hp
      have := key .mwss (2 * L) ⟨by have := hv.1; omega, fun h => nomatch h⟩ (fun h => nomatch h)
        (by simpa [Scheme.rings] using t1) (by simpa [Scheme.rings] using hp)
      simpa [Scheme.theta] using this
    · have hi : σ.inner = σ := by
        cases σ <;> first | rfl | exact absurd (Or.inl rfl) hR
      unfold innerRings at t1 hp
      unfold innerTheta
      rw [if_neg hR] at t1 hp ⊢
      rw [hi] at hp
      exact key σ L hv hgl t1 hp

/-- Angles stored with an error `ε`, the poles exactly. -/
noncomputable def nudge (ε θ : ℝ) : ℝ := if θ = 0 ∨ θ = Real.pi then θ else θ + ε

/-- For every grid the recursion is regular at angles stored with any small enough error other than
zero. -/
theorem C39_nudge (G : GlTables) (σ : Scheme) (L nside spin : ℤ) (hv : σ.Valid L nside)
    (hgl : σ = .gl → ∀ i, 0 ≤ i → i < L → -1 < G.nodes L i ∧ G.nodes L i < 1) (forward : Bool) :
    (∀ᶠ ε in 𝓝[≠] (0 : ℝ), OtfRegular (storedAs G (nudge ε)) σ L nside spin forward) ∧
    ∀ θ, Filter.Tendsto (fun ε => nudge ε θ) (𝓝[≠] (0 : ℝ)) (𝓝 θ) := by
  constructor
  · have h : ∀ᶠ ε in 𝓝[≠] (0 : ℝ), ∀ t ∈ Finset.Ico 0 (kRings σ L nside forward),
        PoleRing (kScheme σ forward) (kRings σ L nside forward) t ∨
          PmRegular L spin (nudge ε (kTheta G.nodes σ L nside forward t)) := by
      rw [Filter.eventually_all_finset]
      intro t ht
      rw [Finset.mem_Ico] at ht
      by_cases hp : PoleRing (kScheme σ forward) (kRings σ L nside forward) t
      · exact Filter.Eventually.of_forall fun _ => Or.inl hp
      obtain ⟨a, b⟩ := kTheta_between G.nodes hv hgl forward ht.1 ht.2 hp
      set θ := kTheta G.nodes σ L nside forward t
      have ht : Filter.Tendsto (fun ε : ℝ => θ + ε) (𝓝[≠] 0) (𝓝[≠] θ) := by
        apply tendsto_nhdsWithin_of_tendsto_nhds_of_eventually_within
        · have : Filter.Tendsto (fun ε : ℝ => θ + ε) (𝓝 0) (𝓝 (θ + 0)) :=
            (continuous_const.add continuous_id).tendsto 0
          rw [add_zero] at this
          exact this.mono_left nhdsWithin_le_nhds
        · filter_upwards [self_mem_nhdsWithin] with ε hε
          intro h
          exact hε (by simpa using h)
      filter_upwards [ht.eventually (pmRegular_eventually L spin a b)] with ε hε
      right
      unfold nudge
      rw [if_neg (by rintro (h | h) <;> linarith)]
      exact hε
    filter_upwards [h] with ε hε
    refine ⟨fun _ => ⟨?_, ?_⟩, fun t t0 t1 => hε t (Finset.mem_Ico.2 ⟨t0, t1⟩)⟩
    · simp [nudge]
    · simp [nudge]
  · intro θ
    unfold nudge
    split_ifs
    · exact tendsto_const_nhds
    · have : Filter.Tendsto (fun ε : ℝ => θ + ε) (𝓝 0) (𝓝 (θ + 0)) :=
        (continuous_const.add continuous_id).tendsto 0
      rw [add_zero] at this
      exact this.mono_left nhdsWithin_le_nhds

theorem continuous_harmonicSum (lo L spin : ℤ) (c : ℤ → ℤ → ℂ) (φ : ℝ) :
    Continuous fun θ => harmonicSum lo L spin c θ φ := by
  unfold harmonicSum sYlm
  refine continuous_finset_sum _ fun l _ => continuous_finset_sum _ fun m _ => ?_
  refine continuous_const.mul ((continuous_const.mul (Complex.continuous_ofReal.comp ?_)).mul
    continuous_const)
  exact continuous_const.mul (continuous_wignerd l m (-spin))

theorem tendsto_symm_fAt {ι : Type*} {l : Filter ι} (A : ℤ → ℤ → ℂ) (spin nt : ℤ)
    (α : ι → ℤ → ℝ) (θ w : ℤ → ℝ)
    (h : ∀ t, 0 ≤ t → t < nt → Filter.Tendsto (fun i => α i t) l (𝓝 (θ t))) (reality : Bool)
    (el m : ℤ) : Filter.Tendsto (fun i => symm reality (fAt A spin nt (α i) w el) m) l
      (𝓝 (symm reality (fAt A spin nt θ w el) m)) := by
  have key : ∀ m, Filter.Tendsto (fun i => fAt A spin nt (α i) w el m) l
      (𝓝 (fAt A spin nt θ w el m)) := by
    intro m
    unfold fAt
    refine tendsto_finset_sum _ fun t ht => ?_
    rw [Finset.mem_Ico] at ht
    have := ((Complex.continuous_ofReal.comp (continuous_wignerd el m (-spin))).tendsto
      (θ t)).comp (h t ht.1 ht.2)
    exact (this.const_mul _).mul_const _
  unfold symm
  split_ifs
  · exact ((Complex.continuous_conj.tendsto _).comp (key _)).const_mul _
  · exact key m

/-- The result of a computation, or an empty array. -/
def resultD : Except PyErr (Nd ℂ) → Nd ℂ
  | .ok a => a
  | .error _ => .d1 0 fun _ => 0

section
variable (B : Backends) (G : GlTables) (σ : Scheme) (L spin lo : ℤ) (nside : Option ℤ)
  {ι : Type*} {l : Filter ι} (rnd : ι → ℝ → ℝ)

/-- Synthesis on every grid. -/
theorem C39_expansion_limit (hv : σ.Valid L (nside.getD 0))
    (hhp : σ = .healpix → 2 * nside.getD 0 ≤ L) (method : PyStr)
    (hmt : method ∈ [mNumpy, mJax, mTorch]) (hsp : |spin| < L) (h8 : spin < 8)
    (hlo : LowerOk method L lo) (flm : ℤ → ℤ → ℂ)
    (hf : ∀ el k, lo ≤ el → el < |spin| → 0 ≤ k → k < 2 * L - 1 → flm el k = 0) (reality : Bool)
    (hrs : reality = true → spin = 0) (hre : RealOrderZero flm L spin reality lo) (k : ℤ)
    (hθ : ∀ t, 0 ≤ t → t < σ.rings L (nside.getD 0) → Filter.Tendsto
      (fun i => rnd i (σ.theta G.nodes L (nside.getD 0) t)) l
      (𝓝 (σ.theta G.nodes L (nside.getD 0) t)))
    (hr : ∀ᶠ i in l, OtfRegular (storedAs G (rnd i)) σ L (nside.getD 0) spin false) :
    ∃ out : ι → Nd ℂ,
      (∀ᶠ i in l, sphericalInverse B (storedAs G (rnd i)) (.d2 L (2 * L - 1) flm) L spin nside σ.name
        method reality none lo k = .ok (out i) ∧ (out i).shape = σ.shape L (nside.getD 0)) ∧
      ∀ t p, σ.Has L (nside.getD 0) t p → Filter.Tendsto
        (fun i => (out i).get2 (σ.pos (nside.getD 0) t p).1 (σ.pos (nside.getD 0) t p).2) l
        (𝓝 (harmonicSum lo L spin (coeffs flm L spin reality)
          (σ.theta G.nodes L (nside.getD 0) t) (σ.phi L (nside.getD 0) t p))) := by
  refine ⟨fun i => resultD (sphericalInverse B (storedAs G (rnd i)) (.d2 L (2 * L - 1) flm) L spin
    nside σ.name method reality none lo k), ?_, fun t p ht => ?_⟩
  · filter_upwards [hr] with i hi
    obtain ⟨out, e, hs, -⟩ := C39_expansion_partial B (storedAs G (rnd i)) σ L spin lo nside hv hhp
      method hmt hsp h8 hlo flm hf reality hrs hre none (Or.inl rfl) hi k
    rw [e]
    exact ⟨rfl, hs⟩
  · refine Filter.Tendsto.congr' ?_ (((continuous_harmonicSum lo L spin (coeffs flm L spin reality)
      (σ.phi L (nside.getD 0) t p)).tendsto _).comp (hθ t ht.1 ht.2.1))
    filter_upwards [hr] with i hi
    obtain ⟨out, e, hs, h⟩ := C39_expansion_partial B (storedAs G (rnd i)) σ L spin lo nside hv hhp
      method hmt hsp h8 hlo flm hf reality hrs hre none (Or.inl rfl) hi k
    rw [e]
    exact (h t p ht).symm

/-- Analysis on every grid with a sampling theorem: the coefficients of the expansion sampled. -/
theorem C39_analysis_limit (hv : σ.Valid L (nside.getD 0)) (hσ : SamplingTheorem G σ L)
    (method : PyStr) (hmt : method ∈ [mNumpy, mJax, mTorch]) (hsp : |spin| < L) (h8 : spin < 8)
    (hlo : LowerOk method L lo) (c : ℤ → ℤ → ℂ) (f : Nd ℂ)
    (hf : f.shape = σ.shape L (nside.getD 0))
    (hs : SamplesOf G.nodes σ L (nside.getD 0) f.get2 (harmonicSum 0 L spin c))
    (reality : Bool) (hrs : reality = true → spin = 0) (hre : reality = true → RealHarmonics c 0 L)
    (iter : Option ℤ) (hit : iter = none ∨ iter = some 0) (k : ℤ)
    (hθ : ∀ t, 0 ≤ t → t < kRings σ L (nside.getD 0) true → Filter.Tendsto
      (fun i => rnd i (kTheta G.nodes σ L (nside.getD 0) true t)) l
      (𝓝 (kTheta G.nodes σ L (nside.getD 0) true t)))
    (hr : ∀ᶠ i in l, OtfRegular (storedAs G (rnd i)) σ L (nside.getD 0) spin true) :
    ∃ g : ι → Nd ℂ,
      (∀ᶠ i in l, sphericalForward B (storedAs G (rnd i)) f L spin nside σ.name method reality none lo
        iter k = .ok (g i) ∧ (g i).shape = [L, 2 * L - 1]) ∧
      ∀ el m, 0 ≤ el → el < L → -L < m → m < L →
        Filter.Tendsto (fun i => (g i).get2 el (m + L - 1)) l
          (𝓝 (if max |spin| lo ≤ el ∧ |m| ≤ el then c el m else 0)) := by
  have hreal : reality = true → RealRings σ.inner L (nside.getD 0) (innerRings σ L (nside.getD 0))
      (innerSignal σ L spin f.get2) := by
    intro h
    have := hrs h; subst this
    exact realInput_rings hv.1 (realInput_of_samples hs (hre h))
  have vals := fun i (hi : OtfRegular (storedAs G (rnd i)) σ L (nside.getD 0) spin true) =>
    sphericalForward_values B (storedAs G (rnd i)) σ L spin lo nside hv method hmt
    (fun h => absurd h hσ.1) hsp h8 hlo f hf reality hreal none (Or.inl rfl) hi iter hit k
  refine ⟨fun i => resultD (sphericalForward B (storedAs G (rnd i)) f L spin nside σ.name method
    reality none lo iter k), ?_, fun el m a b m0 m1 => ?_⟩
  · filter_upwards [hr] with i hi
    obtain ⟨g, e, -⟩ := vals i hi
    rw [e]
    exact ⟨rfl, rfl⟩
  · have lim := tendsto_symm_fAt (l := l) (ringSum σ.inner L (nside.getD 0)
      (innerSignal σ L spin f.get2)) spin (innerRings σ L (nside.getD 0))
      (fun i => (storedAs G (rnd i)).inner σ L (nside.getD 0)) (innerTheta G.nodes σ L (nside.getD 0))
      (innerWeight G σ L (nside.getD 0)) (fun t t0 t1 => hθ t t0 t1) reality el m
    by_cases hel : el < max |spin| lo
    · rw [if_neg (by rintro ⟨h, -⟩; omega)]
      refine Filter.Tendsto.congr' ?_ tendsto_const_nhds
      filter_upwards [hr] with i hi
      obtain ⟨g, e, h⟩ := vals i hi
      rw [e]
      have := h el m a b m0 m1
      rw [if_pos hel] at this
      exact this.symm
    · rw [analysis_exact hv hσ hs hrs hre a b m0 m1 (by
        have := le_max_left |spin| lo; omega)] at lim
      simp only [not_lt.1 hel, true_and]
      refine lim.congr' ?_
      filter_upwards [hr] with i hi
      obtain ⟨g, e, h⟩ := vals i hi
      rw [e]
      have := h el m a b m0 m1
      rw [if_neg hel] at this
      exact this.symm

/-- `forward` on every grid and signal: what the base `forward` returns. -/
theorem C39_forward_limit (hv : σ.Valid L (nside.getD 0)) (method : PyStr)
    (hmt : method ∈ [mNumpy, mJax, mTorch])
    (hhp : σ = .healpix → 2 * nside.getD 0 ≤ L ∧ (method ≠ mNumpy → 2 ≤ nside.getD 0))
    (hsp : |spin| < L) (h8 : spin < 8) (hlo : LowerOk method L lo)
    (f : Nd ℂ) (hf : f.shape = σ.shape L (nside.getD 0)) (reality : Bool)
    (hrs : reality = true → spin = 0)
    (hre : reality = true → RealInput G.nodes σ L (nside.getD 0) f.get2)
    (hex : InnerExact G.nodes σ L (nside.getD 0))
    (iter : Option ℤ) (hit : iter = none ∨ iter = some 0) (k : ℤ)
    (hθ : ∀ t, 0 ≤ t → t < kRings σ L (nside.getD 0) true → Filter.Tendsto
      (fun i => rnd i (kTheta G.nodes σ L (nside.getD 0) true t)) l
      (𝓝 (kTheta G.nodes σ L (nside.getD 0) true t)))
    (hr : ∀ᶠ i in l, OtfRegular (storedAs G (rnd i)) σ L (nside.getD 0) spin true) :
    ∃ (g : ι → Nd ℂ) (ref : ℤ → ℤ → ℂ),
      (∀ᶠ i in l, sphericalForward B (storedAs G (rnd i)) f L spin nside σ.name method reality none lo
        iter k = .ok (g i) ∧ (g i).shape = [L, 2 * L - 1]) ∧
      baseForward G f L spin σ.name nside reality lo 0 = .ok (.d2 L (2 * L - 1) ref) ∧
      ∀ el j, 0 ≤ el → el < L → 0 ≤ j → j < 2 * L - 1 →
        Filter.Tendsto (fun i => (g i).get2 el j) l (𝓝 (ref el j)) := by
  have hL := hv.1
  have hreal : reality = true → RealRings σ.inner L (nside.getD 0) (innerRings σ L (nside.getD 0))
      (innerSignal σ L spin f.get2) := by
    intro h
    have := hrs h; subst this
    exact realInput_rings hv.1 (hre h)
  have vals := fun i (hi : OtfRegular (storedAs G (rnd i)) σ L (nside.getD 0) spin true) =>
    sphericalForward_values B (storedAs G (rnd i)) σ L spin lo nside hv method hmt
    hhp hsp h8 hlo f hf reality hreal none (Or.inl rfl) hi iter hit k
  have hsh : σ = .healpix → σ.name = sHP := by rintro rfl; rfl
  obtain ⟨ref, e', h', h0⟩ := baseForwardWith_values G (lower_name σ) (method := bVec)
    (by simp [baseMethods]) (fun _ => hsh) (spin := spin) hv (fun _ h => (hhp h).1) f hf reality
    hlo.1 (by rcases hlo.2 with h | h <;> omega) (fun _ a _ => hreal a)
  refine ⟨fun i => resultD (sphericalForward B (storedAs G (rnd i)) f L spin nside σ.name method
    reality none lo iter k), ref, ?_, ?_, fun el j a b c d => ?_⟩
  · filter_upwards [hr] with i hi
    obtain ⟨g, e, -⟩ := vals i hi
    rw [e]
    exact ⟨rfl, rfl⟩
  · unfold baseForward
    rw [if_pos rfl]; exact e'
  · have hes : elStart lo spin = max |spin| lo := by unfold elStart; rw [max_comm]
    obtain ⟨m, rfl⟩ : ∃ m, j = m + L - 1 := ⟨j - L + 1, by ring⟩
    have lim := tendsto_symm_fAt (l := l) (ringSum σ.inner L (nside.getD 0)
      (innerSignal σ L spin f.get2)) spin (innerRings σ L (nside.getD 0))
      (fun i => (storedAs G (rnd i)).inner σ L (nside.getD 0)) (innerTheta G.nodes σ L (nside.getD 0))
      (innerWeight G σ L (nside.getD 0)) (fun t t0 t1 => hθ t t0 t1) reality el m
    by_cases hel : el < max |spin| lo
    · rw [h0 el _ (by rw [hes]; exact hel)]
      refine Filter.Tendsto.congr' ?_ tendsto_const_nhds
      filter_upwards [hr] with i hi
      obtain ⟨g, e, h⟩ := vals i hi
      rw [e]
      have := h el m a b (by omega) (by omega)
      rw [if_pos hel] at this
      exact this.symm
    · have hj' := h' el m (by rw [hes]; omega) b (by omega) (by omega)
      have he : effReality reality spin = reality := by
        unfold effReality
        split_ifs with hc
        · exact absurd (hrs hc.1) hc.2
        · rfl
      rw [hj', he, ← fAt_snap, show fAt (ringSum σ.inner L (nside.getD 0)
          (innerSignal σ L spin f.get2)) spin (innerRings σ L (nside.getD 0))
          (fun t => snapAngle (innerTheta G.nodes σ L (nside.getD 0) t))
          (innerWeight G σ L (nside.getD 0))
        = fAt (ringSum σ.inner L (nside.getD 0) (innerSignal σ L spin f.get2)) spin
          (innerRings σ L (nside.getD 0)) (innerTheta G.nodes σ L (nside.getD 0))
          (innerWeight G σ L (nside.getD 0))
        from fAt_congr (fun t t0 t1 => snapAngle_eq _ (hex t t0 t1))]
      refine lim.congr' ?_
      filter_upwards [hr] with i hi
      obtain ⟨g, e, h⟩ := vals i hi
      rw [e]
      have := h el m a b (by omega) (by omega)
      rw [if_neg hel] at this
      exact this.symm

end

/-- The coefficients of degrees below `|spin|` have to be zero: the monopole is no part of an expansion
of spin -1, and yet `inverse` adds it, on every ring but the poles and as if the spin were 0. -/
theorem C39_low_degree_leak (B : Backends) (G : Machine) (σ : Scheme) (L : ℤ) (nside : Option ℤ)
    (hv : σ.Valid L (nside.getD 0)) (hhp : σ = .healpix → 2 * nside.getD 0 ≤ L) (method : PyStr)
    (hmt : method ∈ [mNumpy, mJax, mTorch]) (hL : 3 ≤ L) (c : ℂ) (k : ℤ) :
    ∃ out, sphericalInverse B G (.d2 L (2 * L - 1) (fun el j => if el = 0 ∧ j = L - 1 then c else 0)) L
        (-1) nside σ.name method false none 0 k = .ok out ∧
      ∀ t p, σ.Has L (nside.getD 0) t p → ¬ PoleRing σ (σ.rings L (nside.getD 0)) t →
        out.get2 (σ.pos (nside.getD 0) t p).1 (σ.pos (nside.getD 0) t p).2 = c * √(1 / (4 * Real.pi)) ∧
        harmonicSum 0 L (-1) (fun el m => if el = 0 ∧ m = 0 then c else 0)
          (G.rnd (σ.theta G.nodes L (nside.getD 0) t)) (σ.phi L (nside.getD 0) t p) = 0 := by
  classical
  have he : ((elfactor 0 : ℝ) : ℂ) = (√(1 / (4 * Real.pi)) : ℝ) := by
    unfold elfactor
    congr 3
    norm_num
  have hz : ∀ θ φ, harmonicSum 0 L (-1) (fun el m => if el = 0 ∧ m = 0 then c else 0) θ φ = 0 := by
    intro θ φ
    unfold harmonicSum
    refine Finset.sum_eq_zero fun l _ => Finset.sum_eq_zero fun m _ => ?_
    by_cases h : l = 0 ∧ m = 0
    · unfold sYlm
      rw [h.1, wignerd_outside 0 m _ θ (Or.inr (by norm_num))]
      simp
    · beta_reduce
      rw [if_neg h, zero_mul]
  have hout : ∃ out, otfInv G method (.d2 L (2 * L - 1) (monopole L c)) L (-1) nside σ.name false none 0
      = .ok out ∧ out.shape = σ.shape L (nside.getD 0) ∧ ∀ t p, σ.Has L (nside.getD 0) t p →
        out.get2 (σ.pos (nside.getD 0) t p).1 (σ.pos (nside.getD 0) t p).2
          = if ¬ PoleRing σ (σ.rings L (nside.getD 0)) t then c * (elfactor 0 : ℝ) else 0 := by
    unfold otfInv
    split_ifs
    · exact otfInverseNumpy_leak G hv hhp hL c
    · exact otfInverseJax_leak G hv hhp hL c
  obtain ⟨out, e, -, h⟩ := hout
  refine ⟨out, ?_, fun t p ht hp => ⟨?_, hz _ _⟩⟩
  · rw [sphericalInverse_otf B G _ nside _ hmt (by norm_num)]
    exact e
  · rw [h t p ht, if_pos hp, he]

/-- A machine with exact angles on a Driscoll–Healy grid, and the stored angles of every grid. -/
example : OtfRegular ⟨⟨fun _ _ => 0, fun _ _ => 0⟩, id⟩ .dh 2 0 1 true ∧ LowerOk mNumpy 2 0 ∧
    ExactStored ⟨⟨fun _ _ => 0, fun _ _ => 0⟩, id⟩ .dh 2 none true ∧
    SamplingTheorem ⟨fun _ _ => 0, fun _ _ => 0⟩ .dh 2 := by
  refine ⟨⟨fun h => absurd h (by decide), fun t t0 t1 => Or.inr ?_⟩, ⟨by norm_num, Or.inl (by norm_num)⟩,
    fun t _ _ => rfl, by decide, fun h => absurd h (by decide)⟩
  have hR : ¬ Scheme.dh.Resampled := by decide
  unfold kRings innerRings at t1
  simp only [if_true, if_neg hR, Scheme.rings] at t1
  unfold kTheta innerTheta
  simp only [if_true, if_neg hR, Scheme.theta, id]
  have hpi := Real.pi_pos
  have h0' : (0 : ℝ) ≤ t := by exact_mod_cast t0
  have h1' : (t : ℝ) + 1 ≤ 4 := by exact_mod_cast (by omega : t + 1 ≤ 4)
  refine ⟨by positivity, ?_, fun el k a b c d => absurd c (by omega)⟩
  push_cast
  rw [div_lt_iff₀ (by norm_num)]
  nlinarith

example (G : GlTables) : (∀ᶠ ε in 𝓝[≠] (0 : ℝ), OtfRegular (storedAs G (nudge ε)) .mw 64 0 2 true) ∧
    (𝓝[≠] (0 : ℝ)).NeBot :=
  ⟨(C39_nudge G .mw 64 0 2 ⟨by norm_num, fun h => nomatch h⟩ (fun h => nomatch h) true).1,
    inferInstance⟩

end S2fft
