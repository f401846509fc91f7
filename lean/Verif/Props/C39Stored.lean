import Verif.Lemmas.Stable
import Verif.Lemmas.WignerRational
import Verif.Props.C39
import Verif.Props.C48

/-!
# C16, C39: angles stored in double precision

A double is a rational number, and no `d`-function vanishes at a rational angle other than zero, since
`exp (i q)` is transcendental for rational `q ≠ 0`. So the recursion divides by no zero at angles
stored as doubles, and the transforms return the expansion up to the error of the angles.
-/

namespace S2fft
open Spec

theorem isDouble_rat {x : ℝ} (h : IsDouble x) : ∃ q : ℚ, x = q := by
  obtain ⟨m, e, -, -, rfl⟩ := h
  exact ⟨m * (2 : ℚ) ^ e, by push_cast; rfl⟩

/-- The recursion of Price and McEwen meets no zero to divide by at a double between the poles. -/
theorem C16_doubles (L spin : ℤ) (θ : ℝ) (hd : IsDouble θ) (h0 : 0 < θ) (h1 : θ < Real.pi) :
    PmRegular L spin θ := by
  obtain ⟨q, rfl⟩ := isDouble_rat hd
  exact pmRegular_rat L spin h0 h1

/-- The angles stored for the rings of a transform are doubles between the poles, within `ε` of the
exact ones. The rings at the poles are set by hand, from the index of the ring; they count as stored
exactly. -/
def StoredDoubles (G : Machine) (σ : Scheme) (L nside : ℤ) (forward : Bool) (ε : ℝ) : Prop :=
  0 ≤ ε ∧ (kScheme σ forward = .mw ∨ kScheme σ forward = .mwss → G.Poles) ∧
  ∀ t, 0 ≤ t → t < kRings σ L nside forward →
    PoleRing (kScheme σ forward) (kRings σ L nside forward) t ∨
      (IsDouble (G.rnd (kTheta G.nodes σ L nside forward t)) ∧
        0 < G.rnd (kTheta G.nodes σ L nside forward t) ∧
        G.rnd (kTheta G.nodes σ L nside forward t) < Real.pi ∧
        |G.rnd (kTheta G.nodes σ L nside forward t) - kTheta G.nodes σ L nside forward t| ≤ ε)

/-- Stored doubles meet the condition of the theorems on the on-the-fly transforms, for every spin. -/
theorem C39_doubles_regular (G : Machine) (σ : Scheme) (L nside : ℤ) (forward : Bool) (ε : ℝ)
    (h : StoredDoubles G σ L nside forward ε) (spin : ℤ) : OtfRegular G σ L nside spin forward :=
  ⟨h.2.1, fun t t0 t1 => (h.2.2 t t0 t1).imp id fun ⟨a, b, c, _⟩ => C16_doubles L spin _ a b c⟩

theorem StoredDoubles.close {G : Machine} {σ : Scheme} {L nside : ℤ} {forward : Bool} {ε : ℝ}
    (hv : σ.Valid L nside) (h : StoredDoubles G σ L nside forward ε) {t : ℤ} (t0 : 0 ≤ t)
    (t1 : t < kRings σ L nside forward) :
    |G.rnd (kTheta G.nodes σ L nside forward t) - kTheta G.nodes σ L nside forward t| ≤ ε := by
  obtain ⟨p1, p2⟩ := kTheta_poles G.nodes hv forward
  rcases h.2.2 t t0 t1 with hp | hp
  · rcases hp with ⟨a, rfl⟩ | ⟨a, rfl⟩
    · rw [(p1 a).2, (h.2.1 (Or.inr a)).1]; simpa using h.1
    · rw [p2 a, (h.2.1 a).2]; simpa using h.1
  · exact hp.2.2.2

section
variable (B : Backends) (G : Machine) (σ : Scheme) (L spin lo : ℤ) (nside : Option ℤ)

/-- Synthesis at stored angles: the harmonic expansion at the exact angles of the grid, up to the error
of the angles times the band-limit times the size of the coefficients. -/
theorem C39_expansion_doubles_partial (hv : σ.Valid L (nside.getD 0))
    (hhp : σ = .healpix → 2 * nside.getD 0 ≤ L) (method : PyStr)
    (hmt : method ∈ [mNumpy, mJax, mTorch]) (hsp : |spin| < L) (h8 : spin < 8)
    (hlo : LowerOk method L lo) (flm : ℤ → ℤ → ℂ)
    (hf : ∀ el k, lo ≤ el → el < |spin| → 0 ≤ k → k < 2 * L - 1 → flm el k = 0) (reality : Bool)
    (hrs : reality = true → spin = 0) (hre : RealOrderZero flm L spin reality lo)
    (precomps : Option PmPre) (hP : PrecompsArg G L spin σ.name nside false precomps)
    (ε : ℝ) (hd : StoredDoubles G σ L (nside.getD 0) false ε) (k : ℤ) :
    ∃ out, sphericalInverse B G (.d2 L (2 * L - 1) flm) L spin nside σ.name method reality precomps
        lo k = .ok out ∧
      out.shape = σ.shape L (nside.getD 0) ∧
      ∀ t p, σ.Has L (nside.getD 0) t p →
        ‖out.get2 (σ.pos (nside.getD 0) t p).1 (σ.pos (nside.getD 0) t p).2
          - harmonicSum lo L spin (coeffs flm L spin reality)
              (σ.theta G.nodes L (nside.getD 0) t) (σ.phi L (nside.getD 0) t p)‖
          ≤ L * ε * coeffSize L (coeffs flm L spin reality) := by
  obtain ⟨out, e, hs, h⟩ := C39_expansion_partial B G σ L spin lo nside hv hhp method hmt hsp h8 hlo
    flm hf reality hrs hre precomps hP (C39_doubles_regular G σ L _ false ε hd spin) k
  refine ⟨out, e, hs, fun t p ht => ?_⟩
  rw [h t p ht]
  refine (harmonicSum_move hlo.1 L spin _ _ _ _).trans ?_
  have hL : (0 : ℝ) ≤ L := by exact_mod_cast (by have := hv.1; omega : 0 ≤ L)
  have hc : 0 ≤ coeffSize L (coeffs flm L spin reality) := by
    unfold coeffSize; positivity
  exact mul_le_mul_of_nonneg_right (mul_le_mul_of_nonneg_left (hd.close hv ht.1 ht.2.1) hL) hc

/-- Analysis at stored angles of samples within `η` of those of an expansion: its coefficients, up to
a multiple, which does not depend on the band-limit, of `η` and of the error of the angles. -/
theorem C39_analysis_doubles_partial (hv : σ.Valid L (nside.getD 0))
    (hσ : SamplingTheorem G.toGlTables σ L) (method : PyStr) (hmt : method ∈ [mNumpy, mJax, mTorch])
    (hsp : |spin| < L) (h8 : spin < 8) (hlo : LowerOk method L lo) (c : ℤ → ℤ → ℂ) (f : Nd ℂ)
    (hf : f.shape = σ.shape L (nside.getD 0)) (η M : ℝ)
    (hM : ∀ t p, σ.Has L (nside.getD 0) t p → ‖f.get2 t p‖ ≤ M)
    (hs : ∀ t p, σ.Has L (nside.getD 0) t p → ‖f.get2 t p - harmonicSum 0 L spin c
      (σ.theta G.nodes L (nside.getD 0) t) (σ.phi L (nside.getD 0) t p)‖ ≤ η)
    (reality : Bool) (hrs : reality = true → spin = 0)
    (hre : reality = true → RealHarmonics c 0 L ∧ RealInput G.nodes σ L (nside.getD 0) f.get2)
    (precomps : Option PmPre) (hP : PrecompsArg G L spin σ.name nside true precomps)
    (ε : ℝ) (hd : StoredDoubles G σ L (nside.getD 0) true ε)
    (iter : Option ℤ) (hit : iter = none ∨ iter = some 0) (k : ℤ) :
    ∃ g, sphericalForward B G f L spin nside σ.name method reality precomps lo iter k
        = .ok (.d2 L (2 * L - 1) g) ∧
      ∀ el m, 0 ≤ el → el < L → -L < m → m < L →
        ‖g el (m + L - 1) - (if max |spin| lo ≤ el ∧ |m| ≤ el then c el m else 0)‖
          ≤ 80 * Real.pi * √((2 * (el : ℝ) + 1) / (4 * Real.pi)) * (η + (el + 1) * ε * M) := by
  obtain ⟨g, e, h⟩ := sphericalForward_values B G σ L spin lo nside hv method hmt
    (fun h => absurd h hσ.1) hsp h8 hlo f hf reality (by
      intro h
      have := hrs h; subst this
      exact realInput_rings hv.1 (hre h).2) precomps hP
    (C39_doubles_regular G σ L _ true ε hd spin) iter hit k
  refine ⟨g, e, fun el m a b m0 m1 => ?_⟩
  rw [h el m a b m0 m1]
  have hη : 0 ≤ η := (norm_nonneg _).trans (hs 0 0 (has_zero hv hσ))
  have hM0 : 0 ≤ M := (norm_nonneg _).trans (hM 0 0 (has_zero hv hσ))
  by_cases hel : el < max |spin| lo
  · rw [if_pos hel, if_neg (by rintro ⟨h, -⟩; omega), sub_zero, norm_zero]
    have : (0 : ℝ) ≤ el := by exact_mod_cast a
    have := hd.1
    positivity
  · rw [if_neg hel]
    have hk : ∀ t, 0 ≤ t → t < innerRings σ L (nside.getD 0) →
        |G.inner σ L (nside.getD 0) t - innerTheta G.nodes σ L (nside.getD 0) t| ≤ ε :=
      fun t t0 t1 => hd.close hv t0 t1
    have := analysis_near hv hσ hk hM hs (reality := reality) (fun h => (hre h).1) a b m0 m1
    have hc : (if max |spin| lo ≤ el ∧ |m| ≤ el then c el m else 0)
        = if |spin| ≤ el ∧ |m| ≤ el then c el m else 0 := by
      have h1 : max |spin| lo ≤ el := by omega
      have h2 : |spin| ≤ el := by omega
      simp only [h1, h2, true_and]
    rw [hc]
    exact this

/-- The round trip at stored angles. (With `reality` on MW and MWSS the samples of the expansion at the
stored angles, resampled, need not be real; that case is left out.) -/
theorem C39_round_trip_doubles_partial (hv : σ.Valid L (nside.getD 0))
    (hσ : SamplingTheorem G.toGlTables σ L) (μ ν : PyStr) (hμ : μ ∈ [mNumpy, mJax, mTorch])
    (hν : ν ∈ [mNumpy, mJax, mTorch]) (hsp : |spin| < L) (h8 : spin < 8)
    (hlo : LowerOk μ L 0) (hlo' : LowerOk ν L lo) (flm : ℤ → ℤ → ℂ)
    (hf : ∀ el k, 0 ≤ el → el < |spin| → 0 ≤ k → k < 2 * L - 1 → flm el k = 0) (reality : Bool)
    (hrs : reality = true → spin = 0 ∧ (σ = .dh ∨ σ = .gl))
    (hre : RealOrderZero flm L spin reality 0)
    (p p' : Option PmPre) (hP : PrecompsArg G L spin σ.name nside false p)
    (hP' : PrecompsArg G L spin σ.name nside true p')
    (ε : ℝ) (hd : StoredDoubles G σ L (nside.getD 0) false ε)
    (hd' : StoredDoubles G σ L (nside.getD 0) true ε)
    (iter : Option ℤ) (hit : iter = none ∨ iter = some 0) (k : ℤ) :
    ∃ f g, sphericalInverse B G (.d2 L (2 * L - 1) flm) L spin nside σ.name μ reality p 0 k = .ok f ∧
      sphericalForward B G f L spin nside σ.name ν reality p' lo iter k
        = .ok (.d2 L (2 * L - 1) g) ∧
      ∀ el m, 0 ≤ el → el < L → -L < m → m < L →
        ‖g el (m + L - 1)
          - (if max |spin| lo ≤ el ∧ |m| ≤ el then coeffs flm L spin reality el m else 0)‖
          ≤ 160 * Real.pi * √((2 * (el : ℝ) + 1) / (4 * Real.pi))
            * (L * ε * coeffSize L (coeffs flm L spin reality)) := by
  have hL : (0 : ℝ) ≤ L := by exact_mod_cast (by have := hv.1; omega : 0 ≤ L)
  have hc : 0 ≤ coeffSize L (coeffs flm L spin reality) := by
    unfold coeffSize; positivity
  have hreal : reality = true → RealHarmonics (coeffs flm L spin reality) 0 L := by
    intro hr
    unfold coeffs
    rw [if_pos ⟨hr, (hrs hr).1⟩]
    apply realCoeffs_real
    intro l a b
    rw [zero_add]; exact hre hr (hrs hr).1 l a b
  obtain ⟨f, e, hs, h⟩ := C39_expansion_partial B G σ L spin 0 nside hv (fun h => absurd h hσ.1) μ hμ
    hsp h8 hlo flm hf reality (fun h => (hrs h).1) hre p hP (C39_doubles_regular G σ L _ false ε hd spin) k
  have hpos := fun t p => pos_of_sampling (ns := nside.getD 0) hσ t p
  simp only [hpos] at h
  obtain ⟨g, e', hg⟩ := C39_analysis_doubles_partial B G σ L spin lo nside hv hσ ν hν hsp h8 hlo'
    (coeffs flm L spin reality) f hs (L * ε * coeffSize L (coeffs flm L spin reality))
    (coeffSize L (coeffs flm L spin reality)) (fun t p ht => by
      rw [h t p ht]; exact harmonicSum_le _ _ _ _ _) (fun t p ht => by
      rw [h t p ht]
      refine (harmonicSum_move le_rfl L spin _ _ _ _).trans ?_
      exact mul_le_mul_of_nonneg_right (mul_le_mul_of_nonneg_left (hd.close hv ht.1 ht.2.1) hL) hc)
    reality (fun h => (hrs h).1) (fun hr => ⟨hreal hr, by
      unfold RealInput
      rw [if_neg (by rcases (hrs hr).2 with rfl | rfl <;> simp)]
      intro t p ht
      rw [hpos]
      dsimp only
      rw [h t p ht]
      have h0 := (hrs hr).1
      have h1 := hreal hr
      subst h0
      exact harmonicSum_real h1 _ _⟩) p' hP' ε hd' iter hit k
  refine ⟨f, g, e, e', fun el m a b m0 m1 => (hg el m a b m0 m1).trans ?_⟩
  have hel : (el : ℝ) + 1 ≤ L := by exact_mod_cast b
  have hε := hd.1
  have : ((el : ℝ) + 1) * ε * coeffSize L (coeffs flm L spin reality)
      ≤ L * ε * coeffSize L (coeffs flm L spin reality) := by gcongr
  calc _ ≤ 80 * Real.pi * √((2 * (el : ℝ) + 1) / (4 * Real.pi))
        * (L * ε * coeffSize L (coeffs flm L spin reality)
          + L * ε * coeffSize L (coeffs flm L spin reality)) := by gcongr
    _ = _ := by ring

end

/-! ## The angles that the library computes -/

/-- The band-limit of the grid whose colatitudes a transform asks for (spherical.py 512-519,
660-664): forward transforms on MW and MWSS work on the MWSS grid of twice the band-limit. -/
def kBand (σ : Scheme) (L : ℤ) (forward : Bool) : ℤ :=
  if forward = true ∧ (σ = .mw ∨ σ = .mwss) then 2 * L else L

theorem kTheta_grid (nodes : ℤ → ℤ → ℝ) {σ : Scheme} (hσ : σ = .mw ∨ σ = .mwss ∨ σ = .dh)
    (L nside : ℤ) (forward : Bool) :
    ∃ τ K, (τ = .mw ∨ τ = .mwss ∨ τ = .dh) ∧ (K = L ∨ K = 2 * L) ∧
      kBand σ L forward = K ∧ kScheme σ forward = τ ∧ kRings σ L nside forward = τ.rings K nside ∧
      kTheta nodes σ L nside forward = τ.theta nodes K nside := by
  cases forward with
  | false => exact ⟨σ, L, hσ, Or.inl rfl, by simp [kBand], rfl, rfl, rfl⟩
  | true =>
    rcases hσ with rfl | rfl | rfl
    · exact ⟨.mwss, 2 * L, by simp, Or.inr rfl, by simp [kBand], rfl, rfl, by
        funext t; simp [kTheta, innerTheta, Scheme.Resampled, Scheme.theta]⟩
    · exact ⟨.mwss, 2 * L, by simp, Or.inr rfl, by simp [kBand], rfl, rfl, by
        funext t; simp [kTheta, innerTheta, Scheme.Resampled, Scheme.theta]⟩
    · exact ⟨.dh, L, by simp, Or.inl rfl, by simp [kBand], rfl, rfl, rfl⟩

/-- A rounding of angles that has given values at given angles. -/
theorem exists_rnd {n : ℤ} {θ : ℤ → ℝ} (hθ : ∀ t u, 0 ≤ t → t < u → u < n → θ t < θ u) (T : ℤ → ℝ) :
    ∃ r : ℝ → ℝ, r 0 = 0 ∧ r Real.pi = Real.pi ∧
      ∀ t, 0 ≤ t → t < n → θ t ≠ 0 → θ t ≠ Real.pi → r (θ t) = T t := by
  classical
  refine ⟨fun x => if x = 0 ∨ x = Real.pi then x else
    if h : ∃ t, 0 ≤ t ∧ t < n ∧ θ t = x then T h.choose else x, by simp, by simp, ?_⟩
  intro t t0 t1 a b
  have h : ∃ u, 0 ≤ u ∧ u < n ∧ θ u = θ t := ⟨t, t0, t1, rfl⟩
  simp only [a, b, or_self, if_false]
  rw [dif_pos h]
  obtain ⟨u0, u1, hu⟩ := h.choose_spec
  rcases lt_trichotomy h.choose t with hc | hc | hc
  · exact absurd hu (hθ _ _ u0 hc t1).ne
  · rw [hc]
  · exact absurd hu (hθ _ _ t0 hc u1).ne'

/-- The colatitudes computed in double precision (C48) are stored doubles within `π / 2⁵¹` of the
exact ones, for both directions. -/
theorem C39_stored_grid (F : DoubleLib) (lg : ℤ → ℤ → ℝ) (G : GlTables) (σ : Scheme)
    (hσ : σ = .mw ∨ σ = .mwss ∨ σ = .dh) (L : ℤ) (nside : Option ℤ) (hL : 1 ≤ L) (hL1 : L ≤ 2 ^ 39)
    (forward : Bool) :
    ∃ T r, thetasF F lg (some (kBand σ L forward)) (kScheme σ forward).name nside
        = .ok (kRings σ L (nside.getD 0) forward, T) ∧
      (∀ t, 0 ≤ t → t < kRings σ L (nside.getD 0) forward →
        ¬ PoleRing (kScheme σ forward) (kRings σ L (nside.getD 0) forward) t →
        r (kTheta G.nodes σ L (nside.getD 0) forward t) = T t) ∧
      StoredDoubles (storedAs G r) σ L (nside.getD 0) forward (Real.pi / 2 ^ 51) := by
  have hpi := Real.pi_pos
  have hv : σ.Valid L (nside.getD 0) := ⟨hL, fun h => by subst h; simp at hσ⟩
  have hbet : ∀ t, 0 ≤ t → t < kRings σ L (nside.getD 0) forward →
      ¬ PoleRing (kScheme σ forward) (kRings σ L (nside.getD 0) forward) t →
      0 < kTheta G.nodes σ L (nside.getD 0) forward t ∧
        kTheta G.nodes σ L (nside.getD 0) forward t < Real.pi :=
    fun t t0 t1 hp => kTheta_between G.nodes hv (by rintro rfl; simp at hσ) forward t0 t1 hp
  obtain ⟨τ, K, hτ, hK, eb, es, er, eθ⟩ := kTheta_grid G.nodes hσ L (nside.getD 0) forward
  rw [eb, es, er]
  rw [es, er] at hbet
  unfold StoredDoubles
  simp only [storedAs, es, er]
  rw [eθ] at hbet ⊢
  have hK0 : 1 ≤ K := by omega
  have hK1 : K ≤ 2 ^ 40 := by omega
  obtain ⟨T, hT, hTt⟩ := thetasF_eq F lg hτ (lower_name τ) (n0 := nside.getD 0) (nside := nside) hK0 hK1
  obtain ⟨d1, d2⟩ := thDen_bounds hτ hK0 hK1
  have hd : (1 : ℝ) ≤ thDen K τ := by exact_mod_cast d1
  have hd' : (thDen K τ : ℝ) ≤ 2 ^ 42 := by exact_mod_cast d2
  have hmono : ∀ t u, 0 ≤ t → t < u → u < τ.rings K (nside.getD 0) →
      τ.theta G.nodes K (nside.getD 0) t < τ.theta G.nodes K (nside.getD 0) u := by
    intro t u _ htu _
    rw [theta_ratio _ hτ, theta_ratio _ hτ]
    have : (thNum t τ : ℝ) < thNum u τ := by
      have := thNum_lt τ htu
      exact_mod_cast (by omega : thNum t τ < thNum u τ)
    exact div_lt_div_of_pos_right (mul_lt_mul_of_pos_right this hpi) (by linarith)
  obtain ⟨r, r0, r1, hr⟩ := exists_rnd hmono T
  have hval : ∀ t, 0 ≤ t → t < τ.rings K (nside.getD 0) → ¬ PoleRing τ (τ.rings K (nside.getD 0)) t →
      r (τ.theta G.nodes K (nside.getD 0) t) = T t := by
    intro t t0 t1 hp
    obtain ⟨a, b⟩ := hbet t t0 t1 hp
    exact hr t t0 t1 a.ne' b.ne
  refine ⟨T, r, hT, hval, by positivity, fun _ => ⟨r0, r1⟩, fun t t0 t1 => ?_⟩
  by_cases hp : PoleRing τ (τ.rings K (nside.getD 0)) t
  · exact Or.inl hp
  right
  obtain ⟨a, b⟩ := hbet t t0 t1 hp
  obtain ⟨a1, a2, a3, a4, a5⟩ := thNum_bounds hτ hK1 t0 t1
  have hrel := ratioF_rel F a1 (by omega) d1 (by omega)
  rw [hval t t0 t1 hp, hTt t t0 a4]
  beta_reduce at a b ⊢
  rw [theta_ratio _ hτ] at a b ⊢
  have h1 := abs_le.1 hrel
  have h5 : thNum t τ < thDen K τ := by
    by_contra hc
    have : thNum t τ = thDen K τ := le_antisymm a3 (not_lt.1 hc)
    rw [this, mul_div_assoc, mul_div_cancel₀ _ (by linarith)] at b
    exact lt_irrefl _ b
  have h5' : (thNum t τ : ℝ) + 1 ≤ thDen K τ := by exact_mod_cast h5
  have h6 : thNum t τ * Real.pi / thDen K τ ≤ Real.pi - Real.pi / 2 ^ 42 := by
    have h7 : Real.pi / 2 ^ 42 ≤ Real.pi / thDen K τ := by gcongr
    have h8 : thNum t τ * Real.pi / thDen K τ ≤ Real.pi - Real.pi / thDen K τ := by
      rw [div_le_iff₀ (by linarith), sub_mul, div_mul_cancel₀ _ (by linarith)]
      nlinarith
    linarith
  refine ⟨(F.nearest _).1, ?_, ?_, hrel.trans ?_⟩
  · have : thNum t τ * Real.pi / thDen K τ / 2 ^ 51 < thNum t τ * Real.pi / thDen K τ := by
      rw [div_lt_iff₀ (by positivity)]; nlinarith
    linarith
  · have : thNum t τ * Real.pi / thDen K τ / 2 ^ 51 < Real.pi / 2 ^ 42 := by
      have : thNum t τ * Real.pi / thDen K τ / 2 ^ 51 < Real.pi / 2 ^ 51 := by gcongr
      have : Real.pi / 2 ^ 51 ≤ Real.pi / 2 ^ 42 := by gcongr <;> norm_num
      linarith
    linarith
  · gcongr

theorem fl_lt_pi (F : DoubleLib) {x : ℝ} (h : x < Real.pi) : F.fl x < Real.pi := by
  have h2 := flPi_eq F
  have h3 := Real.pi_gt_d20
  have : (7074237752028440 : ℝ) / 2 ^ 51 < 3.14159265358979323846 := by norm_num
  have hd : F.fl Real.pi < Real.pi := by linarith
  by_contra hc
  push Not at hc
  have h4 := (F.nearest x).2 _ (F.nearest Real.pi).1
  have h5 := (F.nearest Real.pi).2 _ (F.nearest x).1
  rw [abs_of_pos (by linarith), abs_of_nonpos (by linarith)] at h5
  rw [abs_of_nonpos (by linarith)] at h4
  rcases le_total (F.fl Real.pi) x with hx | hx
  · rw [abs_of_nonneg (by linarith)] at h4; linarith
  · rw [abs_of_nonpos (by linarith)] at h4; linarith

/-- Angles rounded to the nearest double, the poles exactly. -/
noncomputable def rounded (F : DoubleLib) (θ : ℝ) : ℝ :=
  if θ = 0 ∨ θ = Real.pi then θ else F.fl θ

/-- Both directions at once: a machine that stores every angle rounded to nearest. -/
theorem C39_rounded (F : DoubleLib) (G : GlTables) (σ : Scheme) (L nside : ℤ) (hv : σ.Valid L nside)
    (hgl : σ = .gl → ∀ i, 0 ≤ i → i < L → -1 < G.nodes L i ∧ G.nodes L i < 1) (forward : Bool)
    (hsm : ∀ t, 0 ≤ t → t < kRings σ L nside forward →
      ¬ PoleRing (kScheme σ forward) (kRings σ L nside forward) t →
      1 / 2 ^ 200 ≤ kTheta G.nodes σ L nside forward t) :
    StoredDoubles (storedAs G (rounded F)) σ L nside forward (Real.pi / 2 ^ 53) := by
  have hpi := Real.pi_pos
  refine ⟨by positivity, fun _ => ⟨by simp [rounded], by simp [rounded]⟩, fun t t0 t1 => ?_⟩
  by_cases hp : PoleRing (kScheme σ forward) (kRings σ L nside forward) t
  · exact Or.inl hp
  right
  obtain ⟨a, b⟩ := kTheta_between G.nodes hv hgl forward t0 t1 hp
  have hs := hsm t t0 t1 hp
  set θ := kTheta G.nodes σ L nside forward t
  have e : rounded F θ = F.fl θ := by
    unfold rounded; rw [if_neg (by rintro (h | h) <;> linarith)]
  have hn : |F.fl θ - θ| ≤ θ / 2 ^ 53 := by
    have := fl_near F.nearest (le_refl |θ|) (by
      rw [abs_of_pos a]; exact hs)
    rwa [abs_of_pos a] at this
  rw [show (storedAs G (rounded F)).rnd θ = F.fl θ from e]
  refine ⟨(F.nearest _).1, ?_, fl_lt_pi F b, hn.trans (by gcongr)⟩
  have h1 := (abs_le.1 hn).1
  have : θ / 2 ^ 53 < θ := by rw [div_lt_iff₀ (by positivity)]; nlinarith
  linarith

/-- The conditions of the round trip are met: DH with `L = 8`, and MW with `L = 3`. -/
example (F : DoubleLib) (G : GlTables) (forward : Bool) :
    StoredDoubles (storedAs G (rounded F)) .dh 8 0 forward (Real.pi / 2 ^ 53) ∧
    StoredDoubles (storedAs G (rounded F)) .mw 3 0 forward (Real.pi / 2 ^ 53) := by
  have hpi := Real.pi_gt_three
  constructor
  · refine C39_rounded F G .dh 8 0 ⟨by norm_num, fun h => nomatch h⟩ (fun h => nomatch h) forward ?_
    intro t t0 t1 _
    have ht : (0 : ℝ) ≤ t := by exact_mod_cast t0
    have e : kTheta G.nodes .dh 8 0 forward t = (2 * t + 1) * Real.pi / (4 * (8 : ℤ)) := by
      cases forward <;> rfl
    rw [e]
    have : (1 : ℝ) / 2 ^ 200 ≤ 1 / 32 := by norm_num
    push_cast
    nlinarith
  · refine C39_rounded F G .mw 3 0 ⟨by norm_num, fun h => nomatch h⟩ (fun h => nomatch h) forward ?_
    intro t t0 t1 hp
    have ht : (0 : ℝ) ≤ t := by exact_mod_cast t0
    have h2 : (1 : ℝ) / 2 ^ 200 ≤ 1 / 32 := by norm_num
    cases forward with
    | false =>
      have e : kTheta G.nodes .mw 3 0 false t = (2 * t + 1) * Real.pi / (2 * (3 : ℤ) - 1) := rfl
      rw [e]
      push_cast
      nlinarith
    | true =>
      have e : kTheta G.nodes .mw 3 0 true t = t * Real.pi / (2 * (3 : ℤ)) := by
        simp [kTheta, innerTheta, Scheme.Resampled]
      have ht1 : (1 : ℝ) ≤ t := by
        have : t ≠ 0 := fun h => hp (Or.inl ⟨rfl, h⟩)
        exact_mod_cast (by omega : 1 ≤ t)
      rw [e]
      push_cast
      nlinarith

end S2fft
