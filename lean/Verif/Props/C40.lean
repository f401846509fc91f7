import Verif.Lemmas.CBackendExact
import Verif.Props.C38
import Verif.Props.C31

/-! # C40: the methods that hand over to SSHT and healpy -/

namespace S2fft
open Spec

/-- Coefficients `flm` (order `m` in column `m + L - 1`) as SSHT understands them: with `Reality` those
of negative order are not read, and of those of order zero the real part is. -/
noncomputable def sshtCoeffs (flm : ℤ → ℤ → ℂ) (L : ℤ) (reality : Bool) : ℤ → ℤ → ℂ :=
  if reality then realSignal (fun l m => flm l (m + L - 1)) else fun l m => flm l (m + L - 1)

/-- For coefficients whose order zero is real they are what the base transform understands. -/
theorem sshtCoeffs_eq {flm : ℤ → ℤ → ℂ} {L spin : ℤ} {reality : Bool}
    (hrs : reality = true → spin = 0) (hre : RealOrderZero flm L spin reality 0) {l m : ℤ}
    (h0 : 0 ≤ l) (h1 : l < L) : sshtCoeffs flm L reality l m = coeffs flm L spin reality l m := by
  unfold sshtCoeffs coeffs
  cases reality
  · rw [if_neg Bool.false_ne_true, if_neg (by simp)]
  · rw [if_pos rfl, if_pos ⟨rfl, hrs rfl⟩]
    unfold realSignal realCoeffs
    by_cases hm : m < 0
    · rw [if_pos hm, if_pos hm]
    · rw [if_neg hm, if_neg hm]
      by_cases hz : m = 0
      · subst hz
        rw [if_pos rfl]
        beta_reduce
        rw [zero_add]
        exact Complex.ext (Complex.ofReal_re _)
          (by rw [Complex.ofReal_im, hre rfl (hrs rfl) l h0 h1])
      · rw [if_neg hz]

theorem sshtCoeffs_real {flm : ℤ → ℤ → ℂ} {L : ℤ} :
    RealHarmonics (sshtCoeffs flm L true) 0 L := by
  intro l m h0 h1 _
  unfold sshtCoeffs
  rw [if_pos rfl]
  unfold realSignal
  rcases lt_trichotomy m 0 with hm | rfl | hm
  · rw [if_neg (by omega), if_neg (by omega), if_pos hm]
    simp only [map_mul, map_zpow₀, map_neg, map_one, Complex.conj_conj]
    rw [← mul_assoc, neg_one_zpow_sq, one_mul]
  · simp
  · rw [if_pos (by omega), if_neg (by omega), if_neg (by omega), neg_neg, neg_one_zpow_neg]

section
variable {S : Ssht} {H : Healpy} {B : Backends} {G : Machine}
  {K : Scheme → ℤ → ℤ → ℤ → ℤ → ℤ → ℤ → ℂ}
  (hS : SshtContract S G.nodes (sshtWeight G.weights) K) {σ : Scheme} (hσ : σ ≠ .healpix) {L spin : ℤ}
  (hL : 1 ≤ L) (hs : |spin| < L) {reality : Bool} (hrs : reality = true → spin = 0)
  (nside : Option ℤ) (pre : Option PmPre) (lo k : ℤ)
include hS hσ hL hs hrs

theorem sshtInverse_harmonic (flm : ℤ → ℤ → ℂ) :
    ∃ f, sshtInverse S (.d2 L (2 * L - 1) flm) L spin reality (sshtNumber σ) k
        = .ok (.d2 (σ.rings L 0) (σ.ringLen L 0 0) f) ∧
      ∀ t p, σ.Has L 0 t p → f t p = harmonicSum 0 L spin (sshtCoeffs flm L reality)
        (σ.theta G.nodes L 0 t) (σ.phi L 0 t p) := by
  obtain ⟨f, e, h⟩ := sshtInverse_values (G := G.toGlTables) hS hσ hL hs hrs k flm
  refine ⟨f, e, fun t p ht => ?_⟩
  rw [h t p ht, ← lmSum_lower hs]
  show _ = lmSum 0 L (fun l m => sshtCoeffs flm L reality l m * sYlm spin l m _ _)
  refine lmSum_congr fun l m h0 h1 h2 => ?_
  by_cases hl : l < |spin|
  · rw [if_pos hl, sYlm_below hl, mul_zero]
  · rw [if_neg hl]
    unfold sshtCoeffs
    congr 1
    simp only [show ∀ m : ℤ, L - 1 + m = m + L - 1 from fun m => by ring]
    cases reality <;> rfl

/-- Synthesis with "jax_ssht": the harmonic expansion at every sample. `L_lower` has no effect. -/
theorem C40_ssht_inverse (flm : ℤ → ℤ → ℂ) :
    ∃ f, sphericalInverse (libraries S H B) G (.d2 L (2 * L - 1) flm) L spin nside σ.name mSsht
        reality pre lo k = .ok (.d2 (σ.rings L 0) (σ.ringLen L 0 0) f) ∧
      ∀ t p, σ.Has L 0 t p → f t p = harmonicSum 0 L spin (sshtCoeffs flm L reality)
        (σ.theta G.nodes L 0 t) (σ.phi L 0 t p) := by
  obtain ⟨f, e, h⟩ := sshtInverse_harmonic hS hσ hL hs hrs k flm
  refine ⟨f, ?_, h⟩
  unfold sphericalInverse
  rw [if_neg (by decide), if_neg (by rintro ⟨-, h⟩; revert h; decide), if_neg (by decide), if_pos rfl,
    lower_name σ, if_neg (by
      have := hσ
      cases σ
      case healpix => exact absurd rfl this
      all_goals decide), sshtSampling_number hσ]
  exact e

/-- It is what the base transform returns. -/
theorem C40_ssht_inverse_base (flm : ℤ → ℤ → ℂ) (hre : RealOrderZero flm L spin reality 0)
    (hex : GridExact G.nodes σ L 0) :
    ∃ f ref, sphericalInverse (libraries S H B) G (.d2 L (2 * L - 1) flm) L spin nside σ.name mSsht
        reality pre lo k = .ok (.d2 (σ.rings L 0) (σ.ringLen L 0 0) f) ∧
      baseInverse G.toGlTables (.d2 L (2 * L - 1) flm) L spin σ.name none reality 0
        = .ok (.d2 (σ.rings L 0) (σ.ringLen L 0 0) ref) ∧
      ∀ t p, σ.Has L 0 t p → f t p = ref t p := by
  obtain ⟨f, e, h⟩ := C40_ssht_inverse (H := H) (B := B) hS hσ hL hs hrs nside pre lo k flm
  obtain ⟨out, e', hsh, h'⟩ := C18_inverse G.toGlTables σ L spin 0 none
    ⟨hL, fun h => absurd h hσ⟩ (fun h => absurd h hσ) le_rfl (by omega) flm reality hre hex
  obtain ⟨ref, rfl⟩ : ∃ v, out = .d2 (σ.rings L 0) (σ.ringLen L 0 0) v := by
    apply Nd.eq_d2
    · revert hσ; cases σ <;> simp [Scheme.rings] <;> omega
    · rw [hsh]; revert hσ; cases σ <;> simp [Scheme.shape]
  refine ⟨f, ref, e, e', fun t p ht => ?_⟩
  have := h' t p ht
  rw [show (none : Option ℤ).getD 0 = 0 from rfl, pos_plain hσ] at this
  rw [h t p ht, show ref t p = _ from this]
  exact harmonicSum_congr _ _ fun l m h0 h1 _ => sshtCoeffs_eq hrs hre h0 h1

/-- Analysis with "jax_ssht" of any signal: the sums over the samples with SSHT's kernel. -/
theorem C40_ssht_forward_any (iter : Option ℤ) (hit : iter.getD 0 ≤ 0) (f : ℤ → ℤ → ℂ) :
    ∃ g, sphericalForward (libraries S H B) G (.d2 (σ.rings L 0) (σ.ringLen L 0 0) f) L spin nside
        σ.name mSsht reality pre lo iter k = .ok (.d2 L (2 * L - 1) g) ∧
      ∀ el m, 0 ≤ el → el < L → -L < m → m < L →
        g el (m + L - 1) = if |spin| ≤ el ∧ |m| ≤ el then
          gridSum σ L 0 (fun t p => K σ L spin el m t p
            * (if reality then ((f t p).re : ℂ) else f t p)) else 0 := by
  obtain ⟨g, e, h⟩ := sshtForward_values (G := G.toGlTables) hS hσ hL hs hrs k f
  refine ⟨g, ?_, fun el m a b m0 m1 => ?_⟩
  · unfold sphericalForward
    rw [if_neg (by decide), if_neg (by rintro ⟨-, h⟩; revert h; decide)]
    show (if mSsht = mHealpy then _ else if mSsht = mSsht then _ else _) = _
    rw [if_neg (by decide), if_pos rfl, lower_name σ, if_neg (by
      have := hσ
      cases σ
      case healpix => exact absurd rfl this
      all_goals decide), sshtSampling_number hσ]
    show (if iter.getD (if _ then 3 else 0) > 0 then _ else _) = _
    rw [if_neg (show ¬ (σ.name = sHP ∧ mSsht = mHealpy) by rintro ⟨-, h⟩; revert h; decide),
      if_neg (by omega)]
    exact e
  · rw [h, show m + L - 1 - (L - 1) = m by ring]
    by_cases hm : |m| ≤ el
    · rw [if_pos ⟨a, b, hm⟩]
      by_cases hl : |spin| ≤ el
      · rw [if_neg (by omega), if_pos ⟨hl, hm⟩]
      · rw [if_pos (by omega), if_neg (by tauto)]
    · rw [if_neg (by tauto), if_neg (by tauto)]

omit hS hL hs hrs in
/-- With refinement steps the transform is refused. -/
theorem C40_ssht_forward_iter (iter : Option ℤ) (hit : 0 < iter.getD 0) (f : Nd ℂ) :
    sphericalForward (libraries S H B) G f L spin nside
        σ.name mSsht reality pre lo iter k = .error .keyError := by
  unfold sphericalForward
  rw [if_neg (by decide), if_neg (by rintro ⟨-, h⟩; revert h; decide)]
  show (if mSsht = mHealpy then _ else if mSsht = mSsht then _ else _) = _
  rw [if_neg (by decide), if_pos rfl, lower_name σ, if_neg (by
    have := hσ
    cases σ
    case healpix => exact absurd rfl this
    all_goals decide), sshtSampling_number hσ]
  show (if iter.getD (if _ then 3 else 0) > 0 then _ else _) = _
  rw [if_neg (show ¬ (σ.name = sHP ∧ mSsht = mHealpy) by rintro ⟨-, h⟩; revert h; decide),
    if_pos (by omega)]

/-- Analysis with "jax_ssht" of the samples of an expansion: its coefficients. -/
theorem C40_ssht_forward (hK : SshtExact G.nodes K) (hT : SamplingTheorem G.toGlTables σ L)
    (iter : Option ℤ) (hit : iter.getD 0 ≤ 0) (c f : ℤ → ℤ → ℂ)
    (hf : SamplesOf G.nodes σ L 0 f (harmonicSum 0 L spin c))
    (hre : reality = true → RealHarmonics c 0 L) :
    ∃ g, sphericalForward (libraries S H B) G (.d2 (σ.rings L 0) (σ.ringLen L 0 0) f) L spin nside
        σ.name mSsht reality pre lo iter k = .ok (.d2 L (2 * L - 1) g) ∧
      ∀ el m, 0 ≤ el → el < L → -L < m → m < L →
        g el (m + L - 1) = if |spin| ≤ el ∧ |m| ≤ el then c el m else 0 := by
  obtain ⟨g, e, h⟩ := C40_ssht_forward_any (H := H) (B := B) hS hσ hL hs hrs nside pre lo k iter hit f
  refine ⟨g, e, fun el m a b m0 m1 => ?_⟩
  rw [h el m a b m0 m1]
  by_cases hc : |spin| ≤ el ∧ |m| ≤ el
  swap
  · rw [if_neg hc, if_neg hc]
  rw [if_pos hc, if_pos hc]
  rw [← ssht_recover (G := G.toGlTables) hS hK hL hT hf hc.1 b hc.2]
  refine gridSum_congr fun t p ht => ?_
  cases reality
  · rw [if_neg Bool.false_ne_true]
  · rw [if_pos rfl]
    congr 1
    have h1 := hf t p ht
    rw [pos_plain hσ] at h1
    have h2 := harmonicSum_real (hre rfl) (σ.theta G.nodes L 0 t) (σ.phi L 0 t p)
    rw [hrs rfl] at h1
    rw [← h1] at h2
    exact Complex.ext (Complex.ofReal_re _) (by rw [Complex.ofReal_im, h2])

/-- Round trip with "jax_ssht". -/
theorem C40_ssht_round_trip (hK : SshtExact G.nodes K) (hT : SamplingTheorem G.toGlTables σ L)
    (iter : Option ℤ) (hit : iter.getD 0 ≤ 0) (flm : ℤ → ℤ → ℂ) :
    ∃ f g, sphericalInverse (libraries S H B) G (.d2 L (2 * L - 1) flm) L spin nside σ.name mSsht
        reality pre lo k = .ok f ∧
      sphericalForward (libraries S H B) G f L spin nside σ.name mSsht reality pre lo iter k
        = .ok (.d2 L (2 * L - 1) g) ∧
      ∀ el m, 0 ≤ el → el < L → -L < m → m < L →
        g el (m + L - 1) = if |spin| ≤ el ∧ |m| ≤ el then sshtCoeffs flm L reality el m else 0 := by
  obtain ⟨f, e, h⟩ := C40_ssht_inverse (H := H) (B := B) hS hσ hL hs hrs nside pre lo k flm
  obtain ⟨g, e', h'⟩ := C40_ssht_forward (H := H) (B := B) hS hσ hL hs hrs nside pre lo k hK hT iter hit
    (sshtCoeffs flm L reality) f (fun t p ht => by rw [pos_plain hσ]; exact h t p ht)
    (by rintro rfl; exact sshtCoeffs_real)
  exact ⟨_, g, e, e', h'⟩

/-- On the DH and GL grids it is what the base transform returns, for every signal. -/
theorem C40_ssht_forward_base (hd : σ = .dh ∨ σ = .gl) (hex : GridExact G.nodes σ L 0)
    (iter : Option ℤ) (hit : iter.getD 0 ≤ 0) (f : ℤ → ℤ → ℂ)
    (hre : reality = true → ∀ t p, σ.Has L 0 t p → (f t p).im = 0) :
    ∃ g ref, sphericalForward (libraries S H B) G (.d2 (σ.rings L 0) (σ.ringLen L 0 0) f) L spin nside
        σ.name mSsht reality pre lo iter k = .ok (.d2 L (2 * L - 1) g) ∧
      baseForward G.toGlTables (.d2 (σ.rings L 0) (σ.ringLen L 0 0) f) L spin σ.name none reality 0 0
        = .ok (.d2 L (2 * L - 1) ref) ∧
      ∀ el m, 0 ≤ el → el < L → -L < m → m < L → g el (m + L - 1) = ref el (m + L - 1) := by
  obtain ⟨g, e, h⟩ := C40_ssht_forward_any (H := H) (B := B) hS hσ hL hs hrs nside pre lo k iter hit f
  have hv : σ.Valid L ((none : Option ℤ).getD 0) := ⟨hL, fun h => absurd h hσ⟩
  have hreal : ∀ t p, σ.Has L 0 t p → (if reality then ((f t p).re : ℂ) else f t p) = f t p := by
    intro t p ht
    cases reality
    · rfl
    · rw [if_pos rfl]
      exact Complex.ext (Complex.ofReal_re _) (by rw [Complex.ofReal_im, hre rfl t p ht])
  have hin : σ.inner = σ ∧ innerSignal σ L spin f = f ∧ innerRings σ L 0 = σ.rings L 0 ∧
      innerTheta G.nodes σ L 0 = (fun t => σ.theta G.nodes L 0 t) ∧
      innerWeight G.toGlTables σ L 0 = sshtWeight G.weights σ L := by
    rcases hd with rfl | rfl <;> exact ⟨rfl, rfl, rfl, rfl, rfl⟩
  have hrings : reality = true → RealRings σ L 0 (σ.rings L 0) f := by
    intro hr t p a b c d
    rw [pos_plain hσ]
    exact hre hr t p ⟨a, b, c, d⟩
  obtain ⟨ref, e', h1, h2⟩ := baseForwardWith_values G.toGlTables (lower_name σ) (method := bVec)
    (by simp [baseMethods]) (fun _ h => absurd h hσ) (spin := spin) hv (fun _ h => absurd h hσ)
    (.d2 (σ.rings L 0) (σ.ringLen L 0 0) f) (by
      show [_, _] = _
      revert hσ; cases σ <;> simp [Scheme.shape]) reality le_rfl (by omega) (by
      intro _ hr _
      show RealRings σ.inner L 0 (innerRings σ L 0) (innerSignal σ L spin f)
      rw [hin.1, hin.2.1, hin.2.2.1]
      exact hrings hr)
  refine ⟨g, ref, e, e', fun el m a b m0 m1 => ?_⟩
  rw [h el m a b m0 m1]
  have hst : elStart 0 spin = |spin| := max_eq_right (abs_nonneg _)
  rw [hst] at h1 h2
  by_cases hel : |spin| ≤ el
  swap
  · rw [if_neg (by tauto), h2 el _ (by omega)]
  rw [h1 el m hel b m0 m1]
  have e1 : (fun t => snapAngle (σ.theta G.nodes L 0 t)) = fun t => snapAngle (σ.theta G.nodes L 0 t) := rfl
  show _ = symm (effReality reality spin) (fVal (ringSum σ.inner L 0 (innerSignal σ L spin f)) spin
    (innerRings σ L 0) (innerTheta G.nodes σ L 0) (innerWeight G.toGlTables σ L 0) el) m
  rw [hin.1, hin.2.1, hin.2.2.1, hin.2.2.2.1, hin.2.2.2.2, ← fAt_snap,
    fAt_congr (fun t t0 t1 => snapAngle_eq _ (hex t t0 t1))]
  have e2 : symm (effReality reality spin) (fAt (ringSum σ L 0 f) spin (σ.rings L 0)
      (fun t => σ.theta G.nodes L 0 t) (sshtWeight G.weights σ L) el) m
      = fAt (ringSum σ L 0 f) spin (σ.rings L 0)
      (fun t => σ.theta G.nodes L 0 t) (sshtWeight G.weights σ L) el m := by
    by_cases hr : effReality reality spin = true
    · have h0 := effReality_spin hr
      subst h0
      exact symm_realRings (hrings (effReality_true hr)) _ _ _ _ _
    · rw [Bool.not_eq_true] at hr
      rw [hr]; simp [symm]
  rw [e2]
  by_cases hm : |m| ≤ el
  swap
  · rw [if_neg (by tauto), fAt_outside (Or.inl (by omega))]
  rw [if_pos ⟨hel, hm⟩, fAt_gridSum]
  refine gridSum_congr fun t p ht => ?_
  rw [hS.kernel_quad σ L spin el m t p hd, pos_plain hσ, hreal t p ht]
end

/-! ## Wigner transforms -/

section
variable {S : Ssht} {H : Healpy} {B : Backends} {G : Machine}
  {K : Scheme → ℤ → ℤ → ℤ → ℤ → ℤ → ℤ → ℂ}
  (hS : SshtContract S G.nodes (sshtWeight G.weights) K) {σ : Scheme} (hσ : σ ≠ .healpix) {L N : ℤ}
  (hL : 1 ≤ L) (hN : 1 ≤ N) (hNL : N ≤ L) (nside : Option ℤ) (pre : WigPrecomps) (k : ℤ)
include hS hσ hL hN hNL

/-- Synthesis with "jax_ssht": the Wigner expansion at every sample. With the flag all of the plane
`n = 0` is read, so it must be that of a real signal. -/
theorem C40_ssht_wigner_inverse (flmn : ℤ → ℤ → ℤ → ℂ) (reality : Bool)
    (hpl : reality = true → RealHarmonics (fun el m => flmn (N - 1) el (m + L - 1)) 0 L) :
    ∃ out, wignerInverse (libraries S H B) G (.d3 (2 * N - 1) L (2 * L - 1) flmn) L N nside σ.name
        mSsht reality pre 0 k = .ok out ∧
      out.shape = (2 * N - 1) :: σ.shape L 0 ∧
      ∀ g t p, 0 ≤ g → g < 2 * N - 1 → σ.Has L 0 t p → out.get3 g t p
        = wignerSum 0 L N (wignerCoeffs flmn L N reality) (σ.phi L 0 t p)
            (σ.theta G.nodes L 0 t) (gammaAt N g) := by
  have hv : σ.Valid L ((none : Option ℤ).getD 0) := ⟨hL, fun h => absurd h hσ⟩
  have hre : RealOrigin flmn L N reality 0 := by
    intro hr el a b
    have := hpl hr el 0 a b (by simpa using a)
    simp only [neg_zero, zpow_zero, one_mul, zero_add] at this
    exact Complex.conj_eq_iff_im.1 this.symm
  have key : ∃ out, (wigInverseLoop N reality (fun n => (-1) ^ |n|) (fun n =>
      sshtInverse S (.d2 L (2 * L - 1) (wigScale flmn 0 (N - 1 + n))) L (-n) false (sshtNumber σ) k)
        >>= fun fban => packSo3 ((2 * N - 1) :: σ.shape L 0) (wigGamma fban N reality)) = .ok out ∧
      out.shape = (2 * N - 1) :: σ.shape L 0 ∧
      ∀ g t p, 0 ≤ g → g < 2 * N - 1 → σ.Has L 0 t p →
        out.get3 g (σ.pos 0 t p).1 (σ.pos 0 t p).2
        = wignerSum 0 L N (wignerCoeffs flmn L N reality) (σ.phi L 0 t p)
            (σ.theta G.nodes L 0 t) (gammaAt N g) := by
    refine wigInverse_sum hN reality _ _ _ (fun t => σ.theta G.nodes L 0 t)
      (by rintro rfl; exact wignerCoeffs_real hre) ?_
    intro n n0 n1
    have hs1 := wigStart_lt hN reality
    obtain ⟨f, e, h⟩ := sshtInverse_harmonic (reality := false) hS hσ hL (spin := -n)
      (by rw [abs_neg, abs_lt]; omega) (fun h => nomatch h) k (wigScale flmn 0 (N - 1 + n))
    refine ⟨_, e, fun t p ht => ?_⟩
    rw [pos_plain hσ, negOne_absC]
    show _ * f t p = _
    rw [h t p ht, wigPlane_harmonic le_rfl]
    congr 1
    refine harmonicSum_congr _ _ fun l m l0 l1 hm => ?_
    unfold sshtCoeffs
    rw [if_neg Bool.false_ne_true]
    unfold wigScale
    rw [if_pos l0]
    congr 1
    unfold wignerCoeffs
    cases reality
    · rw [if_neg Bool.false_ne_true]
    · rw [if_pos rfl]
      unfold wigStart at n0
      rw [if_pos rfl] at n0
      unfold realWignerCoeffs
      by_cases hc : n < 0 ∨ n = 0 ∧ m < 0
      · obtain ⟨rfl, hm0⟩ : n = 0 ∧ m < 0 := by omega
        rw [if_pos hc]
        have := hpl rfl l (-m) l0 l1 (by rwa [abs_neg])
        simp only [neg_neg, neg_one_zpow_neg] at this
        simp only [neg_zero, add_zero]
        exact this
      · rw [if_neg hc]
  obtain ⟨out, e, hsh, h⟩ := key
  refine ⟨out, ?_, hsh, fun g t p a b ht => ?_⟩
  · unfold wignerInverse
    rw [if_neg (by decide), if_neg (by rintro ⟨-, h⟩; revert h; decide), if_pos rfl, lower_name σ,
      if_neg (by
        have := hσ
        cases σ
        case healpix => exact absurd rfl this
        all_goals decide)]
    unfold sshtWignerInverse
    rw [requireLower_ok le_rfl, so3_shape hv]
    show (if _ then _ else _) = _
    rw [if_neg (by simp [Nd.shape, flmn_shape]), sshtSampling_number hσ]
    exact e
  · have := h g t p a b ht
    rwa [pos_plain hσ] at this

/-- It is what the base transform returns. -/
theorem C40_ssht_wigner_inverse_base (flmn : ℤ → ℤ → ℤ → ℂ) (reality : Bool)
    (hpl : reality = true → RealHarmonics (fun el m => flmn (N - 1) el (m + L - 1)) 0 L)
    (hex : GridExact G.nodes σ L 0) :
    ∃ out ref, wignerInverse (libraries S H B) G (.d3 (2 * N - 1) L (2 * L - 1) flmn) L N nside σ.name
        mSsht reality pre 0 k = .ok out ∧
      wignerBaseInverse G.toGlTables (.d3 (2 * N - 1) L (2 * L - 1) flmn) L N 0 σ.name reality none
        = .ok ref ∧ out.shape = ref.shape ∧
      ∀ g t p, 0 ≤ g → g < 2 * N - 1 → σ.Has L 0 t p → out.get3 g t p = ref.get3 g t p := by
  obtain ⟨out, e, hsh, h⟩ := C40_ssht_wigner_inverse (H := H) (B := B) hS hσ hL hN hNL nside pre k flmn
    reality hpl
  have hre : RealOrigin flmn L N reality 0 := by
    intro hr el a b
    have := hpl hr el 0 a b (by simpa using a)
    simp only [neg_zero, zpow_zero, one_mul, zero_add] at this
    exact Complex.conj_eq_iff_im.1 this.symm
  obtain ⟨ref, e', hsh', h'⟩ := C26_inverse G.toGlTables σ L N 0 none ⟨hL, fun h => absurd h hσ⟩ hN
    (fun h => absurd h hσ) le_rfl (by omega) flmn reality hre hex
  refine ⟨out, ref, e, e', hsh.trans hsh'.symm, fun g t p a b ht => ?_⟩
  have := h' g t p a b ht
  rw [show (none : Option ℤ).getD 0 = 0 from rfl, pos_plain hσ] at this
  rw [h g t p a b ht]
  exact this.symm

/-- Analysis with "jax_ssht" of the samples of a Wigner expansion: its coefficients. -/
theorem C40_ssht_wigner_forward (hK : SshtExact G.nodes K) (hT : SamplingTheorem G.toGlTables σ L)
    (c f : ℤ → ℤ → ℤ → ℂ) (hf : So3SamplesOf G.nodes σ L N 0 f (wignerSum 0 L N c)) (reality : Bool)
    (hre : reality = true → RealWigner c 0 L) :
    ∃ g, wignerForward (libraries S H B) G
        (.d3 (2 * N - 1) (σ.rings L 0) (σ.ringLen L 0 0) f) L N nside σ.name
        mSsht reality pre 0 k = .ok (.d3 (2 * N - 1) L (2 * L - 1) g) ∧
      ∀ n el m, |n| < N → 0 ≤ el → el < L → -L < m → m < L →
        g (N - 1 + n) el (m + L - 1) = if |n| ≤ el ∧ |m| ≤ el then c n el m else 0 := by
  have hv : σ.Valid L ((none : Option ℤ).getD 0) := ⟨hL, fun h => absurd h hσ⟩
  have hsh : (2 * N - 1) :: σ.shape L 0 = [2 * N - 1, σ.rings L 0, σ.ringLen L 0 0] := by
    revert hσ; cases σ <;> simp [Scheme.shape]
  set F : Nd ℂ := .d3 (2 * N - 1) (σ.rings L 0) (σ.ringLen L 0 0) f with hF
  obtain ⟨flmn, e1, h1⟩ := wigForward_all (L := L) hN reality (fun n =>
      sshtForward S (planeOf ((2 * N - 1) :: σ.shape L 0)
          (wignerBaseFban f N reality (n - wigStart N reality))) L (-n) false (sshtNumber σ) k)
      (fun n el m => if max |n| 0 ≤ el ∧ |m| ≤ el then c n el m * wigW el else 0) (by
    intro n n0 n1
    have hs1 := wigStart_lt hN reality
    obtain ⟨g, e, h⟩ := sshtForward_values (G := G.toGlTables) (reality := false) hS hσ hL (s := -n)
      (by rw [abs_neg, abs_lt]; omega) (fun h => nomatch h) k
      (wignerBaseFban f N reality (n - wigStart N reality))
    have hp := wigRings_samples σ L N none hN (f := F) hf reality hre n0 n1
    rw [show (none : Option ℤ).getD 0 = 0 from rfl, hsh] at hp
    refine ⟨g, by rw [hsh]; exact e, fun el m a b m0 m1 => ?_⟩
    rw [h, show m + L - 1 - (L - 1) = m by ring, abs_neg, max_eq_left (abs_nonneg n)]
    by_cases hm : |m| ≤ el
    swap
    · rw [if_neg (by tauto), if_neg (by tauto), mul_zero]
    rw [if_pos ⟨a, b, hm⟩]
    by_cases hn : el < |n|
    · rw [if_pos hn, if_neg (by omega), mul_zero]
    rw [if_neg hn, if_pos ⟨by omega, hm⟩]
    simp only [Bool.false_eq_true, if_false]
    have := ssht_recover (G := G.toGlTables) hS hK hL hT hp (l := el) (m := m)
      (by rw [abs_neg]; omega) b hm
    rw [show gridSum σ L 0 (fun t p => K σ L (-n) el m t p
      * wignerBaseFban f N reality (n - wigStart N reality) t p) = _ from this, ← mul_assoc,
      neg_one_zpow_sq, one_mul])
  refine ⟨wigUnscale (wigMirrorAll flmn L N reality) 0, ?_, fun n el m hn a b m0 m1 => ?_⟩
  · unfold wignerForward
    rw [if_neg (by decide), if_neg (by rintro ⟨-, h⟩; revert h; decide), if_pos rfl, lower_name σ,
      if_neg (by
        have := hσ
        cases σ
        case healpix => exact absurd rfl this
        all_goals decide)]
    unfold sshtWignerForward
    rw [requireLower_ok le_rfl, so3_shape hv]
    show (if F.shape ≠ (2 * N - 1) :: σ.shape L 0 then _ else _) = _
    rw [if_neg (by rw [hsh, hF]; simp [Nd.shape]), sshtSampling_number hσ]
    show (wigInverseLoop N reality (fun n => (-1) ^ |n|) (fun n =>
      sshtForward S (planeOf ((2 * N - 1) :: σ.shape L 0)
          (wignerBaseFban f N reality (n - wigStart N reality))) L (-n) false (sshtNumber σ) k)
        >>= _) = _
    rw [e1]
    rfl
  · unfold wigUnscale
    rw [if_pos a, h1 n el m hn a b m0 m1, mirrored_real reality hre le_rfl b,
      max_eq_left (abs_nonneg n)]
    split_ifs
    · rw [mul_assoc, ← Complex.ofReal_mul, wigW_mul a, Complex.ofReal_one, mul_one]
    · rw [zero_mul]

/-- Round trip of the Wigner transforms with "jax_ssht". -/
theorem C40_ssht_wigner_round_trip (hK : SshtExact G.nodes K)
    (hT : SamplingTheorem G.toGlTables σ L) (flmn : ℤ → ℤ → ℤ → ℂ) (reality : Bool)
    (hpl : reality = true → RealHarmonics (fun el m => flmn (N - 1) el (m + L - 1)) 0 L) :
    ∃ f g, wignerInverse (libraries S H B) G (.d3 (2 * N - 1) L (2 * L - 1) flmn) L N nside σ.name
        mSsht reality pre 0 k = .ok f ∧
      wignerForward (libraries S H B) G f L N nside σ.name mSsht reality pre 0 k
        = .ok (.d3 (2 * N - 1) L (2 * L - 1) g) ∧
      ∀ n el m, |n| < N → 0 ≤ el → el < L → -L < m → m < L →
        g (N - 1 + n) el (m + L - 1)
          = if |n| ≤ el ∧ |m| ≤ el then wignerCoeffs flmn L N reality n el m else 0 := by
  obtain ⟨out, e, hsh, h⟩ := C40_ssht_wigner_inverse (H := H) (B := B) hS hσ hL hN hNL nside pre k flmn
    reality hpl
  have hre : RealOrigin flmn L N reality 0 := by
    intro hr el a b
    have := hpl hr el 0 a b (by simpa using a)
    simp only [neg_zero, zpow_zero, one_mul, zero_add] at this
    exact Complex.conj_eq_iff_im.1 this.symm
  obtain ⟨f, rfl⟩ : ∃ f, out = .d3 (2 * N - 1) (σ.rings L 0) (σ.ringLen L 0 0) f := by
    have hsh' : out.shape = [2 * N - 1, σ.rings L 0, σ.ringLen L 0 0] := by
      rw [hsh]; revert hσ; cases σ <;> simp [Scheme.shape]
    cases out with
    | d3 a b c f =>
      simp only [Nd.shape, List.cons.injEq, and_true] at hsh'
      obtain ⟨rfl, rfl, rfl⟩ := hsh'
      exact ⟨f, rfl⟩
    | d1 n a => simp [Nd.shape] at hsh'
    | d2 r c a => simp [Nd.shape] at hsh'
    | other n =>
      exfalso
      have hr : 0 < σ.rings L 0 := by revert hσ; cases σ <;> simp [Scheme.rings] <;> omega
      simp only [Nd.shape] at hsh'
      have := List.eq_of_mem_replicate (n := n) (a := (0 : ℤ)) (b := σ.rings L 0)
        (by rw [hsh']; simp)
      omega
  obtain ⟨g, e', h'⟩ := C40_ssht_wigner_forward (H := H) (B := B) hS hσ hL hN hNL nside pre k hK hT
    (wignerCoeffs flmn L N reality) f (fun g t p a b ht => by
      rw [pos_plain hσ]; exact h g t p a b ht) reality
    (by rintro rfl; exact wignerCoeffs_real hre)
  exact ⟨_, g, e, e', h'⟩
end

/-! ## HEALPix -/

/-- Two runs of the refinement whose steps agree up to a relation. -/
theorem refine_rel {α β α' β' : Type} {f : α} {f' : α'} (n : ℤ) {fwd : α → Except PyErr β}
    {bwd : β → Except PyErr α} {sub : α → α → α} {add : β → β → β} {fwd' : α' → Except PyErr β'}
    {bwd' : β' → Except PyErr α'} {sub' : α' → α' → α'} {add' : β' → β' → β'} (R : β → β' → Prop)
    (h0 : ∃ a a', fwd f = .ok a ∧ fwd' f' = .ok a' ∧ R a a')
    (hs : ∀ a a', R a a' → ∃ v v' e e', bwd a = .ok v ∧ bwd' a' = .ok v' ∧ fwd (sub f v) = .ok e ∧
      fwd' (sub' f' v') = .ok e' ∧ R (add a e) (add' a' e')) :
    ∃ a a', refine f n fwd bwd sub add = .ok a ∧ refine f' n fwd' bwd' sub' add' = .ok a' ∧
      R a a' := by
  obtain ⟨a, a', e1, e2, h⟩ := h0
  unfold refine
  rw [e1, e2]
  simp only [bind, Except.bind, forRangeM]
  refine forRange_rel (fun (x : Except PyErr β) (y : Except PyErr β') =>
    ∃ a a', x = .ok a ∧ y = .ok a' ∧ R a a') ⟨a, a', rfl, rfl, h⟩ ?_
  rintro i _ _ _ _ ⟨b, b', rfl, rfl, hb⟩
  obtain ⟨v, v', d, d', h1, h2, h3, h4, h5⟩ := hs b b' hb
  refine ⟨_, _, ?_, ?_, h5⟩
  · simp only [h1, h3]
    rfl
  · simp only [h2, h4]
    rfl

/-- The coefficients of a real signal, all of them in `a` and those of order `m ≥ 0` in healpy's order
in `c`. -/
structure HpRel (L : ℤ) (c a : Nd ℂ) : Prop where
  ex : ∃ u v, c = .d1 (L * (L + 1) / 2) u ∧ a = .d2 L (2 * L - 1) v ∧
    (∀ l, 0 ≤ l → l < L → (u (healpyInd L l 0)).im = 0) ∧
    (∀ l m, 0 ≤ m → m ≤ l → l < L → v l (m + L - 1) = u (healpyInd L l m)) ∧
    (∀ l m, 0 ≤ m → m ≤ l → l < L →
      v l (-m + L - 1) = (-1) ^ m * (starRingEnd ℂ) (u (healpyInd L l m))) ∧
    ∀ l m, 0 ≤ l → l < L → -L < m → m < L → l < |m| → v l (m + L - 1) = 0

theorem HpRel.add {L : ℤ} {c a c' a' : Nd ℂ} (h : HpRel L c a) (h' : HpRel L c' a') :
    HpRel L (Nd.map2 (· + ·) c c') (Nd.map2 (· + ·) a a') := by
  obtain ⟨u, v, rfl, rfl, h1, h2, h3, h4⟩ := h.ex
  obtain ⟨u', v', rfl, rfl, h1', h2', h3', h4'⟩ := h'.ex
  refine ⟨fun i => u i + u' i, fun i j => v i j + v' i j, rfl, rfl, ?_, ?_, ?_, ?_⟩
  · intro l a b
    rw [Complex.add_im, h1 l a b, h1' l a b, add_zero]
  · intro l m a b c
    beta_reduce
    rw [h2 l m a b c, h2' l m a b c]
  · intro l m a b c
    beta_reduce
    rw [h3 l m a b c, h3' l m a b c, map_add, mul_add]
  · intro l m a b c d e
    beta_reduce
    rw [h4 l m a b c d e, h4' l m a b c d e, add_zero]

section
variable {S : Ssht} {H : Healpy} {B : Backends} {G : Machine} (hH : HealpyContract H) {L nside : ℤ}
  (hL : 1 ≤ L) (hn : 1 ≤ nside)
include hH hL hn

/-- One forward step. -/
theorem hp_forward_step (hhp : 2 * nside ≤ L) (hex : GridExact G.nodes .healpix L nside)
    (reality : Bool) (f f' : ℤ → ℂ)
    (hf : ∀ i, 0 ≤ i → i < 12 * nside ^ 2 → f i = f' i ∧ (f i).im = 0) :
    ∃ c a, H.map2alm (.d1 (12 * nside ^ 2) f) L = .ok c ∧
      baseForwardWith G.toGlTables (.d1 (12 * nside ^ 2) f') L 0 sHP bVec (some nside) reality 0
        = .ok a ∧ HpRel L c a := by
  obtain ⟨u, e1, hu⟩ := hH.map2alm L nside f hL hn (fun i a b => (hf i a b).2)
  have hv : Scheme.healpix.Valid L ((some nside).getD 0) := ⟨hL, fun _ => hn⟩
  have hre : RealRings .healpix L nside (Scheme.healpix.rings L nside) (fun _ j => f' j) := by
    intro t p a b c d
    have := pixel_range hn (L := L) ⟨a, b, c, d⟩
    show (f' (ringStart nside t + p)).im = 0
    rw [← (hf _ this.1 this.2).1, (hf _ this.1 this.2).2]
  obtain ⟨v, e2, h1, -⟩ := baseForwardWith_values G.toGlTables (lower_name .healpix) (method := bVec)
    (by simp [baseMethods]) (fun _ _ => rfl) (spin := 0) hv (fun _ _ => hhp)
    (.d1 (12 * nside ^ 2) f') rfl reality le_rfl (by omega) (fun _ _ _ => hre)
  have hval : ∀ el m, 0 ≤ el → el < L → -L < m → m < L → v el (m + L - 1)
      = fAt (ringSum .healpix L nside (fun _ j => f' j)) 0 (Scheme.healpix.rings L nside)
      (fun t => Scheme.healpix.theta G.nodes L nside t) (quad_weights_hp nside) el m := by
    intro el m a b m0 m1
    rw [h1 el m (by simpa [elStart] using a) b m0 m1]
    show symm _ (fVal (ringSum .healpix L nside (fun _ j => f' j)) 0 (Scheme.healpix.rings L nside)
      (fun t => Scheme.healpix.theta G.nodes L nside t) (quad_weights_hp nside) el) m = _
    rw [← fAt_snap, fAt_congr (fun t t0 t1 => snapAngle_eq _ (hex t t0 t1))]
    exact symm_realRings hre _ _ _ _ _
  have hpos : ∀ l m, 0 ≤ m → m ≤ l → l < L → v l (m + L - 1) = u (healpyInd L l m) := by
    intro l m m0 m1 hl
    rw [hval l m (by omega) hl (by omega) (by omega), fAt_gridSum, hu l m m0 m1 hl,
      ← gridSum_mul_left]
    refine gridSum_congr fun t p ht => ?_
    show ((quad_weights_hp nside t : ℝ) : ℂ) * (starRingEnd ℂ) (sYlm 0 l m (hpTheta nside t) (hpPhi nside t p))
      * f' (ringStart nside t + p) = _
    have := pixel_range hn ht
    rw [← (hf _ this.1 this.2).1]
    unfold quad_weights_hp
    push_cast
    ring
  have hneg : ∀ l m, 0 ≤ m → m ≤ l → l < L →
      v l (-m + L - 1) = (-1) ^ m * (starRingEnd ℂ) (v l (m + L - 1)) := by
    intro l m m0 m1 hl
    rw [hval l m (by omega) hl (by omega) (by omega), hval l (-m) (by omega) hl (by omega) (by omega)]
    rcases eq_or_lt_of_le m0 with rfl | m0
    · have := symm_realRings hre (fun t => Scheme.healpix.theta G.nodes L nside t)
        (quad_weights_hp nside) true l 0
      rw [neg_zero, zpow_zero, one_mul, fAt_gridSum, conj_gridSum]
      refine gridSum_congr fun t p ht => ?_
      have := pixel_range hn ht
      have hc := sYlm_zero_neg l 0 (Scheme.healpix.theta G.nodes L nside t)
        (Scheme.healpix.phi L nside t p)
      rw [neg_zero, zpow_zero, one_mul] at hc
      rw [← hc, map_mul, map_mul, Complex.conj_ofReal, ← hc]
      congr 1
      exact (Complex.conj_eq_iff_im.2 (by
        show (f' (ringStart nside t + p)).im = 0
        rw [← (hf _ this.1 this.2).1]; exact (hf _ this.1 this.2).2)).symm
    · have := symm_realRings hre (fun t => Scheme.healpix.theta G.nodes L nside t)
        (quad_weights_hp nside) true l (-m)
      rw [← this]
      unfold symm
      rw [if_pos ⟨rfl, by omega⟩, neg_neg]
      try rw [neg_one_zpow_neg]
  refine ⟨_, _, e1, e2, u, v, rfl, rfl, ?_, hpos, ?_, ?_⟩
  · intro l a b
    have := hneg l 0 le_rfl a b
    rw [neg_zero, zpow_zero, one_mul] at this
    have h2 := Complex.conj_eq_iff_im.1 this.symm
    rwa [hpos l 0 le_rfl a b] at h2
  · intro l m m0 m1 hl
    rw [hneg l m m0 m1 hl, hpos l m m0 m1 hl]
  · intro l m a b m0 m1 hm
    rw [hval l m a b m0 m1, fAt_outside (Or.inl (by omega))]

/-- Synthesis with "jax_healpy" of the coefficients of a real signal, in healpy's order. -/
theorem hp_inverse_step (hhp : 2 * nside ≤ L) (hex : GridExact G.nodes .healpix L nside)
    (reality : Bool) {c a : Nd ℂ} (hr : HpRel L c a) :
    ∃ f g, H.alm2map c L nside = .ok (.d1 (12 * nside ^ 2) f) ∧
      baseInverseWith G.toGlTables a L 0 sHP bVec (some nside) reality 0
        = .ok (.d1 (12 * nside ^ 2) g) ∧
      ∀ i, 0 ≤ i → i < 12 * nside ^ 2 → f i = g i ∧ (f i).im = 0 := by
  obtain ⟨u, v, rfl, rfl, h1, h2, h3, h4⟩ := hr.ex
  have hv : Scheme.healpix.Valid L ((some nside).getD 0) := ⟨hL, fun _ => hn⟩
  obtain ⟨f, e1, hf⟩ := hH.alm2map L nside u hL hn
  obtain ⟨out, e2, hsh, hg⟩ := C18_inverse G.toGlTables .healpix L 0 0 (some nside) hv (fun _ => hhp)
    le_rfl (by omega) v reality (by
      intro _ _ el a b
      have := h2 el 0 le_rfl a b
      rw [zero_add] at this
      rw [this, h1 el a b]) hex
  obtain ⟨g, rfl⟩ := Nd.eq_d1 (n := 12 * nside ^ 2) (by positivity) hsh
  refine ⟨f, g, e1, e2, fun i i0 i1 => ?_⟩
  obtain ⟨t, p, ht, rfl⟩ : ∃ t p, Scheme.healpix.Has L nside t p ∧ i = ringStart nside t + p := by
    obtain ⟨t, p, a, b, c, d, e⟩ := ring_tile i0 i1 hn
    exact ⟨t, p, ⟨a, b, c, d⟩, e⟩
  have hc : ∀ l m, 0 ≤ l → l < L → |m| ≤ l → coeffs v L 0 reality l m
      = realSignal (fun l m => u (healpyInd L l m)) l m := by
    intro l m a b hm
    rw [abs_le] at hm
    have key : v l (m + L - 1) = realSignal (fun l m => u (healpyInd L l m)) l m := by
      unfold realSignal
      by_cases hm0 : m < 0
      · rw [if_pos hm0]
        have := h3 l (-m) (by omega) (by omega) b
        rw [neg_neg, neg_one_zpow_neg] at this
        exact this
      · rw [if_neg hm0]
        by_cases hz : m = 0
        · subst hz
          rw [if_pos rfl, h2 l 0 le_rfl a b]
          exact Complex.ext (Complex.ofReal_re _).symm (by rw [Complex.ofReal_im, h1 l a b])
        · rw [if_neg hz, h2 l m (by omega) hm.2 b]
    unfold coeffs
    cases reality
    · rw [if_neg (by simp)]; exact key
    · rw [if_pos ⟨rfl, rfl⟩]
      unfold realCoeffs
      by_cases hm0 : m < 0
      · rw [if_pos hm0]
        unfold realSignal
        rw [if_pos hm0]
        beta_reduce
        rw [h2 l (-m) (by omega) (by omega) b]
      · rw [if_neg hm0]; exact key
  have hfv : f (ringStart nside t + p) = harmonicSum 0 L 0
      (realSignal (fun l m => u (healpyInd L l m))) (hpTheta nside t) (hpPhi nside t p) := hf t p ht
  refine ⟨?_, ?_⟩
  · rw [hfv]
    refine Eq.trans ?_ (hg t p ht).symm
    exact (harmonicSum_congr _ _ fun l m a b c => hc l m a b c).symm
  · rw [hfv]
    have := harmonicSum_real (c := sshtCoeffs (fun l j => u (healpyInd L l (j - (L - 1)))) L true)
      (L := L) sshtCoeffs_real (hpTheta nside t) (hpPhi nside t p)
    rw [← this]
    congr 2
    unfold sshtCoeffs
    rw [if_pos rfl]
    congr 1
    funext l m
    beta_reduce
    rw [show m + L - 1 - (L - 1) = m by ring]

/-- Synthesis with "jax_healpy": the expansion of a real signal at every pixel, whatever the spin, the
reality flag and `L_lower`. -/
theorem C40_healpy_inverse (spin lo k : ℤ) (reality : Bool) (pre : Option PmPre) (flm : ℤ → ℤ → ℂ) :
    ∃ f, sphericalInverse (libraries S H B) G (.d2 L (2 * L - 1) flm) L spin (some nside) sHP mHealpy
        reality pre lo k = .ok (.d1 (12 * nside ^ 2) f) ∧
      ∀ t p, Scheme.healpix.Has L nside t p → f (ringStart nside t + p)
        = harmonicSum 0 L 0 (realSignal (fun l m => flm l (m + L - 1)))
          (Scheme.healpix.theta G.nodes L nside t) (Scheme.healpix.phi L nside t p) := by
  obtain ⟨c, e1, h1⟩ := to_healpy hL flm
  obtain ⟨f, e2, h2⟩ := hH.alm2map L nside c hL hn
  refine ⟨f, ?_, fun t p ht => ?_⟩
  · unfold sphericalInverse
    rw [if_neg (by decide), if_neg (by rintro ⟨-, h⟩; revert h; decide), if_pos rfl,
      if_neg (by decide)]
    show healpyAlm2map H (ndOfList (flm_2d_to_hp_fast flm L)) L (some nside) = _
    rw [e1]
    exact e2
  · rw [h2 t p ht]
    show harmonicSum 0 L 0 (realSignal (fun l m => c (healpyInd L l m))) _ _ = _
    refine harmonicSum_congr _ _ fun l m l0 l1 hm => ?_
    rw [abs_le] at hm
    unfold realSignal
    beta_reduce
    by_cases hm0 : m < 0
    · rw [if_pos hm0, if_pos hm0, h1 l (-m) (by omega) (by omega) l1]
      congr 3; ring
    · rw [if_neg hm0, if_neg hm0]
      by_cases hz : m = 0
      · subst hz
        rw [if_pos rfl, if_pos rfl, h1 l 0 le_rfl l0 l1]
        congr 3; ring
      · rw [if_neg hz, if_neg hz, h1 l m (by omega) hm.2 l1]
        congr 1; ring

/-- So with a spin it is not the expansion in spin harmonics. -/
theorem C40_healpy_spin (lo k : ℤ) (reality : Bool) (pre : Option PmPre) (spin : ℤ) (hs : spin ≠ 0) :
    ∃ flm f, sphericalInverse (libraries S H B) G (.d2 L (2 * L - 1) flm) L spin (some nside) sHP
        mHealpy reality pre lo k = .ok (.d1 (12 * nside ^ 2) f) ∧
      ∀ t p, Scheme.healpix.Has L nside t p → f (ringStart nside t + p) ≠ 0 ∧
        harmonicSum 0 L spin (fun l m => flm l (m + L - 1))
          (Scheme.healpix.theta G.nodes L nside t) (Scheme.healpix.phi L nside t p) = 0 := by
  set c : ℤ → ℤ → ℂ := fun l m => if l = 0 ∧ m = 0 then 1 else 0 with hc
  obtain ⟨f, e, h⟩ := C40_healpy_inverse (S := S) (B := B) (G := G) hH hL hn spin lo k reality pre
    (fun l j => c l (j - (L - 1)))
  refine ⟨_, f, e, fun t p ht => ⟨?_, ?_⟩⟩
  · rw [h t p ht]
    have e1 : ∀ l m, realSignal (fun l m => c l (m + L - 1 - (L - 1))) l m
        = if l = 0 ∧ m = 0 then 1 else 0 := by
      intro l m
      simp only [hc, realSignal, show ∀ m : ℤ, m + L - 1 - (L - 1) = m from fun m => by ring]
      by_cases hm : m < 0
      · rw [if_pos hm, if_neg (by omega), if_neg (by omega), map_zero, mul_zero]
      · rw [if_neg hm]
        by_cases hz : m = 0
        · subst hz
          rw [if_pos rfl]
          by_cases hl : l = 0 <;> simp [hl]
        · rw [if_neg hz]
    have e2 : harmonicSum 0 L 0 (realSignal (fun l m => c l (m + L - 1 - (L - 1))))
        (Scheme.healpix.theta G.nodes L nside t) (Scheme.healpix.phi L nside t p)
        = sYlm 0 0 0 (Scheme.healpix.theta G.nodes L nside t) (Scheme.healpix.phi L nside t p) := by
      refine Eq.trans (harmonicSum_congr _ _ fun l m _ _ _ => e1 l m) ?_
      unfold harmonicSum
      rw [Finset.sum_eq_single 0]
      · rw [Finset.sum_eq_single 0]
        · simp
        · intro m _ hm; simp [hm]
        · intro hm; exact absurd (Finset.mem_Ico.2 (by omega)) hm
      · intro l _ hl
        exact Finset.sum_eq_zero fun m _ => by simp [hl]
      · intro hl; exact absurd (Finset.mem_Ico.2 (by omega)) hl
    refine ne_of_eq_of_ne e2 ?_
    unfold sYlm
    rw [neg_zero, wignerd_zero, mul_one]
    have : (0 : ℝ) < √((2 * ((0 : ℤ) : ℝ) + 1) / (4 * Real.pi)) := by
      have := Real.pi_pos
      apply Real.sqrt_pos.2; norm_num; exact this
    refine mul_ne_zero (mul_ne_zero (by simp) ?_) ?_
    · exact_mod_cast this.ne'
    · exact Complex.exp_ne_zero _
  · unfold harmonicSum
    refine Finset.sum_eq_zero fun l _ => Finset.sum_eq_zero fun m _ => ?_
    beta_reduce
    rw [show m + L - 1 - (L - 1) = m by ring]
    by_cases hl : l = 0
    · rw [sYlm_below (by rw [hl]; exact abs_pos.2 hs), mul_zero]
    · simp [hc, hl]

/-- It is what the base transform returns for a real signal. -/
theorem C40_healpy_inverse_base (hhp : 2 * nside ≤ L) (hex : GridExact G.nodes .healpix L nside)
    (lo k : ℤ) (reality : Bool) (pre : Option PmPre) (flm : ℤ → ℤ → ℂ)
    (hre : RealOrderZero flm L 0 true 0) :
    ∃ f ref, sphericalInverse (libraries S H B) G (.d2 L (2 * L - 1) flm) L 0 (some nside) sHP mHealpy
        reality pre lo k = .ok (.d1 (12 * nside ^ 2) f) ∧
      baseInverse G.toGlTables (.d2 L (2 * L - 1) flm) L 0 sHP (some nside) true 0
        = .ok (.d1 (12 * nside ^ 2) ref) ∧
      ∀ i, 0 ≤ i → i < 12 * nside ^ 2 → f i = ref i := by
  obtain ⟨f, e, h⟩ := C40_healpy_inverse (S := S) (B := B) (G := G) hH hL hn 0 lo k reality pre flm
  obtain ⟨out, e', hsh, h'⟩ := C18_inverse G.toGlTables .healpix L 0 0 (some nside)
    ⟨hL, fun _ => hn⟩ (fun _ => hhp) le_rfl (by omega) flm true hre hex
  obtain ⟨ref, rfl⟩ := Nd.eq_d1 (n := 12 * nside ^ 2) (by positivity) hsh
  refine ⟨f, ref, e, e', fun i i0 i1 => ?_⟩
  obtain ⟨t, p, ht, rfl⟩ : ∃ t p, Scheme.healpix.Has L nside t p ∧ i = ringStart nside t + p := by
    obtain ⟨t, p, a, b, c, d, e⟩ := ring_tile i0 i1 hn
    exact ⟨t, p, ⟨a, b, c, d⟩, e⟩
  rw [h t p ht]
  refine Eq.trans ?_ (h' t p ht).symm
  refine harmonicSum_congr _ _ fun l m l0 l1 _ => ?_
  rw [← sshtCoeffs_eq (fun _ => rfl) hre l0 l1]
  rfl

/-- Analysis with "jax_healpy" of a real map, with any number of refinement steps, three unless given:
what the base transform returns with as many. -/
theorem C40_healpy_forward (hhp : 2 * nside ≤ L) (hex : GridExact G.nodes .healpix L nside)
    (spin lo k : ℤ) (reality reality' : Bool) (pre : Option PmPre) (iter : Option ℤ) (f : ℤ → ℂ)
    (hf : ∀ i, 0 ≤ i → i < 12 * nside ^ 2 → (f i).im = 0) :
    ∃ g ref, sphericalForward (libraries S H B) G (.d1 (12 * nside ^ 2) f) L spin (some nside) sHP
        mHealpy reality pre lo iter k = .ok (.d2 L (2 * L - 1) g) ∧
      baseForward G.toGlTables (.d1 (12 * nside ^ 2) f) L 0 sHP (some nside) reality' 0 (iter.getD 3)
        = .ok (.d2 L (2 * L - 1) ref) ∧
      ∀ el m, 0 ≤ el → el < L → -L < m → m < L → g el (m + L - 1) = ref el (m + L - 1) := by
  obtain ⟨c, a, e1, e2, hr⟩ := refine_rel (f := Nd.d1 (12 * nside ^ 2) f)
    (f' := Nd.d1 (12 * nside ^ 2) f) (iter.getD 3) (fwd := fun f => H.map2alm f L)
    (bwd := fun c => healpyAlm2map H c L (some nside)) (sub := Nd.map2 (· - ·))
    (add := Nd.map2 (· + ·))
    (fwd' := fun f => baseForwardWith G.toGlTables f L 0 sHP bVec (some nside) reality' 0)
    (bwd' := fun flm => baseInverseWith G.toGlTables flm L 0 sHP bVec (some nside) reality' 0)
    (sub' := Nd.map2 (· - ·)) (add' := Nd.map2 (· + ·)) (HpRel L)
    (hp_forward_step hH hL hn hhp hex reality' f f (fun i a b => ⟨rfl, hf i a b⟩)) (by
      intro c a hr
      obtain ⟨v, v', h1, h2, h3⟩ := hp_inverse_step hH hL hn hhp hex reality' hr
      obtain ⟨d, d', h4, h5, h6⟩ := hp_forward_step hH hL hn hhp hex reality' (fun i => f i - v i)
        (fun i => f i - v' i)
        (fun i i0 i1 => ⟨by rw [(h3 i i0 i1).1],
          by rw [Complex.sub_im, hf i i0 i1, (h3 i i0 i1).2, sub_zero]⟩)
      exact ⟨_, _, d, d', h1, h2, h4, h5, hr.add h6⟩)
  obtain ⟨u, v, rfl, rfl, h1, h2, h3, h4⟩ := hr.ex
  refine ⟨flm_hp_to_2d_fast u L, v, ?_, ?_, fun el m a b m0 m1 => ?_⟩
  · unfold sphericalForward
    rw [if_neg (by decide), if_neg (by rintro ⟨-, h⟩; revert h; decide)]
    show (if mHealpy = mHealpy then _ else _) = _
    rw [if_pos rfl, if_neg (by decide)]
    show healpyForward H _ L (some nside) (iter.getD (if _ then 3 else 0)) = _
    rw [if_pos ⟨by decide, rfl⟩]
    unfold healpyForward
    rw [e1]
    rfl
  · unfold baseForward
    by_cases hz : iter.getD 3 = 0
    · rw [C31_zero _ _ hz.le] at e2
      show (if _ then _ else _) = _
      rw [if_pos hz]
      exact e2
    · show (if _ then _ else _) = _
      rw [if_neg hz]
      exact e2
  · rw [from_healpy hL, show m + L - 1 - (L - 1) = m by ring, show L - 1 - (m + L - 1) = -m by ring]
    by_cases hm : |m| ≤ el
    swap
    · rw [if_neg (by tauto), h4 el m a b m0 m1 (by omega)]
    rw [if_pos ⟨a, b, hm⟩]
    rw [abs_le] at hm
    by_cases hm0 : 0 ≤ m
    · rw [if_pos (by omega), h2 el m hm0 hm.2 b]
    · rw [if_neg (by omega)]
      have := h3 el (-m) (by omega) (by omega) b
      rw [neg_neg] at this
      rw [this, ← zpow_natCast, Int.toNat_of_nonneg (by omega)]
end

/-! ## Examples -/

/-- MW, bandlimit 64, spin 2: there is a library as supposed, and a round trip returns the
coefficients. -/
example (G : Machine) (H : Healpy) (B : Backends) (flm : ℤ → ℤ → ℂ) : ∃ S : Ssht, ∃ f g,
    sphericalInverse (libraries S H B) G (.d2 64 127 flm) 64 2 none sMW mSsht false none 0 1 = .ok f ∧
    sphericalForward (libraries S H B) G f 64 2 none sMW mSsht false none 0 none 1
      = .ok (.d2 64 127 g) ∧
    ∀ el m, 2 ≤ el → el < 64 → |m| ≤ el → g el (m + 63) = flm el (m + 63) := by
  obtain ⟨S, K, hS, hK⟩ := sshtExact_met G.toGlTables
  obtain ⟨f, g, e1, e2, h⟩ := C40_ssht_round_trip (H := H) (B := B) (G := G) hS (σ := .mw) (by decide)
    (L := 64) (spin := 2) (by decide) (by decide) (reality := false) (by simp) none none 0 1 hK
    ⟨by decide, fun h => nomatch h⟩ none (by decide) flm
  refine ⟨S, f, g, e1, e2, fun el m a b hm => ?_⟩
  have hm' := abs_le.1 hm
  have := h el m (by omega) b (by omega) (by omega)
  rw [if_pos ⟨by rw [abs_two]; exact a, hm⟩] at this
  rw [show m + 63 = m + 64 - 1 by ring, this]
  simp [sshtCoeffs]

/-- Directional, `N = 4`. -/
example (G : Machine) (H : Healpy) (B : Backends) (flmn : ℤ → ℤ → ℤ → ℂ) : ∃ S : Ssht, ∃ f g,
    wignerInverse (libraries S H B) G (.d3 7 32 63 flmn) 32 4 none sMWSS mSsht false .none 0 0 = .ok f ∧
    wignerForward (libraries S H B) G f 32 4 none sMWSS mSsht false .none 0 0
      = .ok (.d3 7 32 63 g) ∧
    ∀ n el m, |n| < 4 → |n| ≤ el → el < 32 → |m| ≤ el →
      g (3 + n) el (m + 31) = flmn (3 + n) el (m + 31) := by
  obtain ⟨S, K, hS, hK⟩ := sshtExact_met G.toGlTables
  obtain ⟨f, g, e1, e2, h⟩ := C40_ssht_wigner_round_trip (H := H) (B := B) (G := G) hS (σ := .mwss)
    (by decide) (L := 32) (N := 4) (by decide) (by decide) (by decide) none .none 0 hK
    ⟨by decide, fun h => nomatch h⟩ flmn false (by simp)
  refine ⟨S, f, g, e1, e2, fun n el m hn a b hm => ?_⟩
  have hm' := abs_le.1 hm
  have := h n el m hn (by omega) b (by omega) (by omega)
  rw [if_pos ⟨a, hm⟩] at this
  rw [show m + 31 = m + 32 - 1 by ring, show (3 : ℤ) = 4 - 1 by norm_num, this]
  simp [wignerCoeffs]

/-- HEALPix, `nside = 8`, three refinement steps. -/
example (G : Machine) (S : Ssht) (B : Backends) (f : ℤ → ℂ) (hf : ∀ i, (f i).im = 0) :
    ∃ H : Healpy, ∃ g ref, sphericalForward (libraries S H B) G (.d1 768 f) 16 0 (some 8) sHP mHealpy
        false none 0 none 1 = .ok (.d2 16 31 g) ∧
      baseForward G.toGlTables (.d1 768 f) 16 0 sHP (some 8) true 0 3 = .ok (.d2 16 31 ref) ∧
      ∀ el m, 0 ≤ el → el < 16 → -16 < m → m < 16 → g el (m + 16 - 1) = ref el (m + 16 - 1) := by
  obtain ⟨H, hH⟩ := healpyContract_met
  exact ⟨H, C40_healpy_forward (S := S) (B := B) (G := G) hH (L := 16) (nside := 8) (by decide)
    (by decide) (by decide) (C18_grids G.nodes .healpix 16 8 ⟨by decide, fun _ => by decide⟩ (by decide)
      (by decide) (by decide)) 0 0 1 false true none none f (fun i _ _ => hf i)⟩

end S2fft
