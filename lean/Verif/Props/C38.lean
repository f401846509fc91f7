import Verif.Lemmas.OtfWigner

/-!
# C38: the on-the-fly Wigner transforms

As for the spherical transforms (C39): values at the stored angles, where the recursion does not
divide by zero, and limits for every grid.
-/

namespace S2fft
open Spec Topology

/-- No precomputed coefficients, or those generated for the same problem by the function that goes
with the method. -/
def WigPrecompsArg (G : Machine) (L N : ℤ) (s : PyStr) (nside : Option ℤ) (forward reality : Bool)
    (method : PyStr) (p : WigPrecomps) : Prop :=
  p = .none ∨
  (method = mNumpy ∧ ∃ ps, wignerPrecompsNumpy G L N s nside forward reality = .ok ps ∧ p = .numpy ps) ∨
  (method ≠ mNumpy ∧ ∃ ps, wignerPrecompsJax G L N s nside forward reality = .ok ps ∧ p = .jax ps)

section
variable (B : Backends) (G : Machine) (σ : Scheme) (L N lo : ℤ) (nside : Option ℤ)

theorem wigPrecomps_numpy (hv : σ.Valid L (nside.getD 0)) (hN : 1 ≤ N) (hNL : N ≤ L)
    (forward reality : Bool) (p : WigPrecomps)
    (hp : WigPrecompsArg G L N σ.name nside forward reality mNumpy p) :
    ∃ ps q, p.forNumpy = .ok q ∧
      orGenerate q (wignerPrecompsNumpy G L N σ.name nside forward reality) = .ok ps ∧
      ∀ n, wigStart N reality ≤ n → n < N →
        precomputesNumpy G L (-n) σ.name nside forward = .ok (ps (n - wigStart N reality)) := by
  obtain ⟨ps, e, h⟩ := wignerPrecompsNumpy_ok G (lower_name σ) hv hN hNL forward reality
  rcases hp with rfl | ⟨-, qs, e', rfl⟩ | ⟨h', -⟩
  · exact ⟨ps, none, rfl, e, h⟩
  · rw [e] at e'
    injection e' with e'
    subst e'
    exact ⟨ps, some ps, rfl, rfl, h⟩
  · exact absurd rfl h'

theorem wigPrecomps_jax (hv : σ.Valid L (nside.getD 0)) (hN : 1 ≤ N) (method : PyStr)
    (hm : method ≠ mNumpy) (forward reality : Bool) (p : WigPrecomps)
    (hp : WigPrecompsArg G L N σ.name nside forward reality method p) :
    ∃ ps q, p.forJax = .ok q ∧
      orGenerate q (wignerPrecompsJax G L N σ.name nside forward reality) = .ok ps ∧
      ∀ n, wigStart N reality ≤ n → n < N →
        precomputesJax G L (-n) σ.name nside forward = .ok (ps.at (n - wigStart N reality)) := by
  obtain ⟨ps, e, h⟩ := wignerPrecompsJax_ok G (lower_name σ) hv hN forward reality
  rcases hp with rfl | ⟨h', -⟩ | ⟨-, qs, e', rfl⟩
  · exact ⟨ps, none, rfl, e, h⟩
  · exact absurd h' hm
  · rw [e] at e'
    injection e' with e'
    subst e'
    exact ⟨ps, some ps, rfl, rfl, h⟩

/-- The flag with which the spherical transform of direction `n` is called. -/
def planeFlag (method : PyStr) (reality : Bool) (n : ℤ) : Bool :=
  if method = mNumpy ∧ n = 0 then reality else false

theorem wignerInverse_otf (hv : σ.Valid L (nside.getD 0)) (hN : 1 ≤ N) (hNL : N ≤ L) (hN8 : N < 8)
    (hlo0 : 0 ≤ lo)
    (method : PyStr) (hmt : method ∈ [mNumpy, mJax, mTorch]) (flmn : ℤ → ℤ → ℤ → ℂ) (reality : Bool)
    (p : WigPrecomps) (hp : WigPrecompsArg G L N σ.name nside false reality method p) (k : ℤ) :
    ∃ P : ℤ → PmPre,
      (∀ n, wigStart N reality ≤ n → n < N → PmFits (P n) L (-n) (σ.rings L (nside.getD 0))
        (G.theta σ L (nside.getD 0))) ∧
      wignerInverse B G (.d3 (2 * N - 1) L (2 * L - 1) flmn) L N nside σ.name method reality p lo k
        = (wigInverseLoop N reality (fun n => (-1) ^ n) (fun n =>
            otfInv G method (.d2 L (2 * L - 1) (wigScale flmn lo (N - 1 + n))) L (-n) nside σ.name
              (planeFlag method reality n) (some (P n)) lo) >>= fun fban =>
            packSo3 ((2 * N - 1) :: σ.shape L (nside.getD 0)) (wigGamma fban N reality)) := by
  obtain ⟨β, eβ, hβ⟩ := pmAngles_inverse G (lower_name σ) hv
  have hmem : method ∈ wignerMethods := by
    simp only [wignerMethods, List.mem_cons, List.not_mem_nil, or_false] at hmt ⊢
    tauto
  have hss : method ≠ mSsht := by
    simp only [List.mem_cons, List.not_mem_nil, or_false] at hmt
    rcases hmt with rfl | rfl | rfl <;> decide
  unfold wignerInverse
  rw [if_neg (not_not.2 hmem), if_neg (by omega), if_neg hss]
  by_cases hm : method = mNumpy
  · subst hm
    obtain ⟨ps, q, e1, e2, h⟩ := wigPrecomps_numpy G σ L N nside hv hN hNL false reality p hp
    refine ⟨fun n => ps (n - wigStart N reality), fun n n0 n1 =>
      precomps_fits eβ hβ (Or.inl (h n n0 n1)), ?_⟩
    rw [if_pos rfl, e1]
    show otfWignerInverseNumpy G _ L N nside σ.name reality q lo = _
    unfold otfWignerInverseNumpy
    rw [requireLower_ok hlo0, e2]
    show (so3_f_shape L N σ.name nside >>= _) = _
    rw [so3_shape hv]
    show (if _ then _ else _) = _
    rw [if_neg (by simp [Nd.shape, flmn_shape])]
    unfold otfInv planeFlag
    simp only [true_and, if_true]
    rfl
  · obtain ⟨ps, q, e1, e2, h⟩ := wigPrecomps_jax G σ L N nside hv hN method hm false reality p hp
    refine ⟨fun n => ps.at (n - wigStart N reality), fun n n0 n1 =>
      precomps_fits eβ hβ (Or.inr (h n n0 n1)), ?_⟩
    rw [if_neg hm, e1]
    show otfWignerInverseJax G _ L N nside σ.name reality q lo = _
    unfold otfWignerInverseJax
    rw [requireLower_ok hlo0, e2]
    show (so3_f_shape L N σ.name nside >>= _) = _
    rw [so3_shape hv]
    show (if _ then _ else _) = _
    rw [if_neg (by simp [Nd.shape, flmn_shape])]
    unfold otfInv planeFlag
    simp only [hm, false_and, if_false]
    rw [show (fun n : ℤ => ((-1 : ℂ)) ^ n) = fun n => (-1) ^ |n| from
      funext fun n => (negOne_absC n).symm]
    rfl

theorem harmonicSum_congr {lo L spin : ℤ} {c d : ℤ → ℤ → ℂ} (θ φ : ℝ)
    (h : ∀ l m, lo ≤ l → l < L → |m| ≤ l → c l m = d l m) :
    harmonicSum lo L spin c θ φ = harmonicSum lo L spin d θ φ := by
  unfold harmonicSum
  refine Finset.sum_congr rfl fun l hl => Finset.sum_congr rfl fun m hm => ?_
  rw [Finset.mem_Ico] at hl hm
  rw [h l m hl.1 hl.2 (by rw [abs_le]; omega)]

/-- Synthesis: `inverse` returns the Wigner expansion at every sample, at the stored angles. The JAX
functions read all of the plane `n = 0`, so with the flag it must be that of a real signal. -/
theorem C38_expansion_partial (hv : σ.Valid L (nside.getD 0))
    (hhp : σ = .healpix → 2 * nside.getD 0 ≤ L) (hN : 1 ≤ N) (hNL : N ≤ L) (hN8 : N < 8)
    (method : PyStr) (hmt : method ∈ [mNumpy, mJax, mTorch]) (hlo : LowerOk method L lo)
    (flmn : ℤ → ℤ → ℤ → ℂ)
    (hf : ∀ n el k, -N < n → n < N → lo ≤ el → el < |n| → 0 ≤ k →
      k < 2 * L - 1 → flmn (N - 1 + n) el k = 0)
    (reality : Bool) (hre : RealOrigin flmn L N reality lo)
    (hpl : method ≠ mNumpy → reality = true →
      RealHarmonics (fun el m => flmn (N - 1) el (m + L - 1)) lo L)
    (p : WigPrecomps) (hp : WigPrecompsArg G L N σ.name nside false reality method p)
    (hr : ∀ n, |n| < N → OtfRegular G σ L (nside.getD 0) n false) (k : ℤ) :
    ∃ out, wignerInverse B G (.d3 (2 * N - 1) L (2 * L - 1) flmn) L N nside σ.name method reality p
        lo k = .ok out ∧
      out.shape = (2 * N - 1) :: σ.shape L (nside.getD 0) ∧
      ∀ g t p, 0 ≤ g → g < 2 * N - 1 → σ.Has L (nside.getD 0) t p →
        out.get3 g (σ.pos (nside.getD 0) t p).1 (σ.pos (nside.getD 0) t p).2
          = wignerSum lo L N (wignerCoeffs flmn L N reality) (σ.phi L (nside.getD 0) t p)
              (G.rnd (σ.theta G.nodes L (nside.getD 0) t)) (gammaAt N g) := by
  obtain ⟨P, hP, e⟩ := wignerInverse_otf B G σ L N lo nside hv hN hNL hN8 hlo.1 method hmt flmn reality p hp k
  rw [e]
  refine wigInverse_sum hN reality _ _ _ (fun t => G.rnd (σ.theta G.nodes L (nside.getD 0) t))
    (by rintro rfl; exact wignerCoeffs_real hre) ?_
  intro n n0 n1
  have hs1 := wigStart_lt hN reality
  have hz : reality = true → 0 ≤ n := by
    intro h; unfold wigStart at n0; rw [if_pos h] at n0; exact n0
  obtain ⟨out, e1, -, ho⟩ := otfInv_expansion G σ L (-n) lo nside hv hhp method
    (by rw [abs_neg, abs_lt]; omega) hlo (wigScale flmn lo (N - 1 + n)) (by
      intro el k a b c d
      rw [abs_neg] at b
      unfold wigScale
      rw [if_pos a, hf n el k (by omega) n1 a b c d, zero_mul]) (planeFlag method reality n) (by
      unfold planeFlag
      split_ifs with h
      · intro _; omega
      · intro h; cases h) (by
      intro h1 h2 el a b
      have h3 : n = 0 := by omega
      have hr' : reality = true := by
        unfold planeFlag at h1; split_ifs at h1; exact h1
      subst h3
      unfold wigScale
      rw [if_pos a, Complex.mul_im, Complex.ofReal_im, add_zero, hre hr' el a b]
      ring) (some (P n)) (by rintro Q h; injection h with h; subst h; exact hP n n0 n1)
    (hr (-n) (by rw [abs_neg, abs_lt]; omega))
  refine ⟨out, e1, fun t p ht => ?_⟩
  rw [ho t p ht, wigPlane_harmonic hlo.1]
  congr 1
  refine harmonicSum_congr _ _ fun l m l0 l1 hm => ?_
  have hsc : ∀ j, wigScale flmn lo (N - 1 + n) l j
      = flmn (N - 1 + n) l j * (√((2 * (l : ℝ) + 1) / (16 * Real.pi ^ 3)) : ℝ) := by
    intro j; unfold wigScale; rw [if_pos l0]
  unfold coeffs wignerCoeffs
  cases reality
  · rw [if_neg (by unfold planeFlag; split_ifs <;> simp), if_neg (by simp)]
    simp only [hsc]
  · rw [if_pos (show true = true from rfl)]
    rcases eq_or_lt_of_le (hz rfl) with h | h
    · subst h
      by_cases hm' : method = mNumpy
      · rw [if_pos (by unfold planeFlag; simp [hm'])]
        unfold realCoeffs realWignerCoeffs
        by_cases hneg : m < 0
        · rw [if_pos hneg, if_pos (by omega)]
          simp only [hsc, map_mul, Complex.conj_ofReal, neg_zero]
          simp only [add_zero]
          ring
        · rw [if_neg hneg, if_neg (by omega)]
          simp only [hsc]
      · rw [if_neg (by unfold planeFlag; simp [hm'])]
        simp only [hsc]
        unfold realWignerCoeffs
        by_cases hneg : m < 0
        · rw [if_pos (by omega)]
          have := hpl hm' rfl l (-m) l0 l1 (by rw [abs_neg]; exact hm)
          rw [neg_neg, neg_one_zpow_neg] at this
          beta_reduce at this
          simp only [neg_zero, add_zero]
          rw [this]
        · rw [if_neg (by omega)]
    · rw [if_neg (by omega)]
      simp only [hsc]
      unfold realWignerCoeffs
      rw [if_neg (by omega)]

/-- `inverse` returns what the base `inverse` does, on grids without rings in the pole windows of the
base recursion. -/
theorem C38_inverse_partial (hv : σ.Valid L (nside.getD 0))
    (hhp : σ = .healpix → 2 * nside.getD 0 ≤ L) (hN : 1 ≤ N) (hNL : N ≤ L) (hN8 : N < 8)
    (method : PyStr) (hmt : method ∈ [mNumpy, mJax, mTorch]) (hlo : LowerOk method L lo)
    (flmn : ℤ → ℤ → ℤ → ℂ)
    (hf : ∀ n el k, -N < n → n < N → lo ≤ el → el < |n| → 0 ≤ k →
      k < 2 * L - 1 → flmn (N - 1 + n) el k = 0)
    (reality : Bool) (hre : RealOrigin flmn L N reality lo)
    (hpl : method ≠ mNumpy → reality = true →
      RealHarmonics (fun el m => flmn (N - 1) el (m + L - 1)) lo L)
    (p : WigPrecomps) (hp : WigPrecompsArg G L N σ.name nside false reality method p)
    (hr : ∀ n, |n| < N → OtfRegular G σ L (nside.getD 0) n false)
    (hst : ExactStored G σ L nside false) (hex : GridExact G.nodes σ L (nside.getD 0)) (k : ℤ) :
    ∃ out ref, wignerInverse B G (.d3 (2 * N - 1) L (2 * L - 1) flmn) L N nside σ.name method
        reality p lo k = .ok out ∧
      wignerBaseInverse G.toGlTables (.d3 (2 * N - 1) L (2 * L - 1) flmn) L N lo σ.name reality nside
        = .ok ref ∧
      out.shape = ref.shape ∧ ∀ g t p, 0 ≤ g → g < 2 * N - 1 → σ.Has L (nside.getD 0) t p →
        out.get3 g (σ.pos (nside.getD 0) t p).1 (σ.pos (nside.getD 0) t p).2
          = ref.get3 g (σ.pos (nside.getD 0) t p).1 (σ.pos (nside.getD 0) t p).2 := by
  obtain ⟨out, e, hs, h⟩ := C38_expansion_partial B G σ L N lo nside hv hhp hN hNL hN8 method hmt hlo
    flmn hf reality hre hpl p hp hr k
  obtain ⟨ref, e', hs', h'⟩ := C26_inverse G.toGlTables σ L N lo nside hv hN hhp hlo.1
    (by rcases hlo.2 with h | h <;> omega) flmn reality hre hex
  exact ⟨out, ref, e, e', hs.trans hs'.symm, fun g t p a b ht => by
    rw [h g t p a b ht, h' g t p a b ht,
      show G.rnd (σ.theta G.nodes L (nside.getD 0) t) = σ.theta G.nodes L (nside.getD 0) t from
        hst t ht.1 ht.2.1]⟩

/-! ## Forward -/

theorem wignerForward_otf (hv : σ.Valid L (nside.getD 0)) (hN : 1 ≤ N) (hNL : N ≤ L) (hN8 : N < 8)
    (hlo0 : 0 ≤ lo)
    (method : PyStr) (hmt : method ∈ [mNumpy, mJax, mTorch]) (f : Nd ℂ)
    (hf : f.shape = (2 * N - 1) :: σ.shape L (nside.getD 0)) (reality : Bool)
    (p : WigPrecomps) (hp : WigPrecompsArg G L N σ.name nside true reality method p) (k : ℤ)
    (V : ℤ → ℤ → ℤ → ℂ)
    (hV : ∀ n P, wigStart N reality ≤ n → n < N → PmFits P L (-n) (otfRingCount σ L (nside.getD 0))
        (otfBeta σ (G.inner σ L (nside.getD 0))) →
      ∃ g, otfFwd G method (planeOf ((2 * N - 1) :: σ.shape L (nside.getD 0))
          (wignerBaseFban f.get3 N reality (n - wigStart N reality))) L (-n) nside σ.name
          (planeFlag method reality n) (some P) lo = .ok (.d2 L (2 * L - 1) g) ∧
        ∀ el m, 0 ≤ el → el < L → -L < m → m < L → (-1) ^ n * g el (m + L - 1) = V n el m) :
    ∃ g, wignerForward B G f L N nside σ.name method reality p lo k
        = .ok (.d3 (2 * N - 1) L (2 * L - 1) (wigUnscale g lo)) ∧
      ∀ n el m, |n| < N → 0 ≤ el → el < L → -L < m → m < L →
        g (N - 1 + n) el (m + L - 1) = mirrored reality V n el m := by
  obtain ⟨β, eβ, hβ⟩ := pmAngles_forward G (lower_name σ) hv
  have hmem : method ∈ wignerMethods := by
    simp only [wignerMethods, List.mem_cons, List.not_mem_nil, or_false] at hmt ⊢
    tauto
  have hss : method ≠ mSsht := by
    simp only [List.mem_cons, List.not_mem_nil, or_false] at hmt
    rcases hmt with rfl | rfl | rfl <;> decide
  unfold wignerForward
  rw [if_neg (not_not.2 hmem), if_neg (by omega), if_neg hss]
  by_cases hm : method = mNumpy
  · subst hm
    obtain ⟨ps, q, e1, e2, h⟩ := wigPrecomps_numpy G σ L N nside hv hN hNL true reality p hp
    rw [if_pos rfl, e1]
    obtain ⟨flmn, e3, h3⟩ := wigForward_loop (L := L) hN reality (fun n =>
      otfForwardNumpy G (planeOf ((2 * N - 1) :: σ.shape L (nside.getD 0))
          (wignerBaseFban f.get3 N reality (n - wigStart N reality))) L (-n) nside σ.name
          (if n = 0 then reality else false) (some (ps (n - wigStart N reality))) lo) V (by
        intro n n0 n1
        have := hV n _ n0 n1 (precomps_fits eβ hβ (Or.inl (h n n0 n1)))
        unfold otfFwd planeFlag at this
        simp only [true_and, if_true] at this
        exact this)
    refine ⟨flmn, ?_, h3⟩
    show otfWignerForwardNumpy G _ L N nside σ.name reality q lo = _
    unfold otfWignerForwardNumpy
    rw [requireLower_ok hlo0, e2]
    show (so3_f_shape L N σ.name nside >>= _) = _
    rw [so3_shape hv]
    show (if f.shape ≠ (2 * N - 1) :: σ.shape L (nside.getD 0) then _ else _) = _
    rw [if_neg (by rw [hf]; simp)]
    exact congrArg (fun r : Except PyErr (ℤ → ℤ → ℤ → ℂ) => r >>= _) e3
  · obtain ⟨ps, q, e1, e2, h⟩ := wigPrecomps_jax G σ L N nside hv hN method hm true reality p hp
    rw [if_neg hm, e1]
    obtain ⟨flmn, e3, h3⟩ := wigForward_all (L := L) hN reality (fun n =>
      otfForwardJax G (planeOf ((2 * N - 1) :: σ.shape L (nside.getD 0))
          (wignerBaseFban f.get3 N reality (n - wigStart N reality))) L (-n) nside σ.name
          false (some (ps.at (n - wigStart N reality))) lo) V (by
        intro n n0 n1
        have := hV n _ n0 n1 (precomps_fits eβ hβ (Or.inr (h n n0 n1)))
        unfold otfFwd planeFlag at this
        simp only [hm, false_and, if_false] at this
        exact this)
    refine ⟨wigMirrorAll flmn L N reality, ?_, h3⟩
    show otfWignerForwardJax G _ L N nside σ.name reality q lo = _
    unfold otfWignerForwardJax
    rw [requireLower_ok hlo0, e2]
    show (so3_f_shape L N σ.name nside >>= _) = _
    rw [so3_shape hv]
    show (if f.shape ≠ (2 * N - 1) :: σ.shape L (nside.getD 0) then _ else _) = _
    rw [if_neg (by rw [hf]; simp)]
    exact congrArg (fun r : Except PyErr (ℤ → ℤ → ℤ → ℂ) => r >>= _) e3

/-- The signal of direction `n` on the rings, resampled for MW and MWSS. -/
noncomputable def wigRings (f : Nd ℂ) (reality : Bool) (n : ℤ) : ℤ → ℤ → ℂ :=
  innerSignal σ L (-n) (planeOf ((2 * N - 1) :: σ.shape L (nside.getD 0))
    (wignerBaseFban f.get3 N reality (n - wigStart N reality))).get2

/-- The coefficients of direction `n`, with rings at `θ`. -/
noncomputable def wigFwdVal (T : GlTables) (f : Nd ℂ) (reality : Bool) (θ : ℤ → ℝ) (n el m : ℤ) : ℂ :=
  (-1) ^ n * (if el < max |n| lo then 0 else fAt (ringSum σ.inner L (nside.getD 0)
    (wigRings σ L N nside f reality n)) (-n) (innerRings σ L (nside.getD 0)) θ
    (innerWeight T σ L (nside.getD 0)) el m)

theorem mirrored_low {T : GlTables} {f : Nd ℂ} {reality : Bool} {θ : ℤ → ℝ} {n el m : ℤ}
    (h : el < max |n| lo) : mirrored reality (wigFwdVal σ L N lo nside T f reality θ) n el m = 0 := by
  unfold mirrored wigFwdVal
  rw [abs_neg, if_pos h, if_pos h]
  simp

theorem wignerForward_values (hv : σ.Valid L (nside.getD 0)) (hN : 1 ≤ N) (hNL : N ≤ L) (hN8 : N < 8)
    (method : PyStr) (hmt : method ∈ [mNumpy, mJax, mTorch])
    (hhp : σ = .healpix → 2 * nside.getD 0 ≤ L ∧ (method ≠ mNumpy → 2 ≤ nside.getD 0))
    (hlo : LowerOk method L lo) (f : Nd ℂ) (hf : f.shape = (2 * N - 1) :: σ.shape L (nside.getD 0))
    (reality : Bool)
    (hre : reality = true → RealRings σ.inner L (nside.getD 0) (innerRings σ L (nside.getD 0))
      (wigRings σ L N nside f reality 0))
    (p : WigPrecomps) (hp : WigPrecompsArg G L N σ.name nside true reality method p)
    (hr : ∀ n, |n| < N → OtfRegular G σ L (nside.getD 0) n true) (k : ℤ) :
    ∃ g, wignerForward B G f L N nside σ.name method reality p lo k
        = .ok (.d3 (2 * N - 1) L (2 * L - 1) g) ∧
      ∀ n el m, |n| < N → 0 ≤ el → el < L → -L < m → m < L →
        g (N - 1 + n) el (m + L - 1)
          = mirrored reality (wigFwdVal σ L N lo nside G.toGlTables f reality
              (G.inner σ L (nside.getD 0))) n el m * (√(4 * Real.pi / (2 * (el : ℝ) + 1)) : ℝ) := by
  have hs1 := wigStart_lt hN reality
  obtain ⟨g, e, h⟩ := wignerForward_otf B G σ L N lo nside hv hN hNL hN8 hlo.1 method hmt f hf reality p hp k
    (wigFwdVal σ L N lo nside G.toGlTables f reality (G.inner σ L (nside.getD 0))) (by
    intro n P n0 n1 hP
    have hflag : planeFlag method reality n = true → n = 0 ∧ reality = true := by
      unfold planeFlag
      split_ifs with h
      · exact fun h' => ⟨h.2, h'⟩
      · intro h; cases h
    obtain ⟨flm, e1, h1⟩ := otfFwd_values G σ L (-n) lo nside hv method hhp
      (by rw [abs_neg, abs_lt]; omega) hlo (planeOf ((2 * N - 1) :: σ.shape L (nside.getD 0))
        (wignerBaseFban f.get3 N reality (n - wigStart N reality))) (planeOf_shape N _)
      (planeFlag method reality n) (by
        intro h
        obtain ⟨rfl, h2⟩ := hflag h
        exact hre h2) (some P) (by rintro Q h; injection h with h; subst h; exact hP)
      (hr (-n) (by rw [abs_neg, abs_lt]; omega))
    refine ⟨flm, e1, fun el m a b d d' => ?_⟩
    rw [h1 el m a b d d']
    unfold wigFwdVal
    rw [abs_neg]
    congr 1
    split_ifs with hel
    · rfl
    · change symm _ (fAt (ringSum σ.inner L (nside.getD 0) (wigRings σ L N nside f reality n)) _ _ _ _ _) _
        = _
      by_cases hc : planeFlag method reality n = true
      · obtain ⟨rfl, h2⟩ := hflag hc
        rw [neg_zero]
        exact symm_realRings (hre h2) _ _ _ _ _
      · unfold symm
        rw [if_neg (fun h => hc h.1)])
  refine ⟨_, e, fun n el m hn a b d d' => ?_⟩
  unfold wigUnscale
  rw [h n el m hn a b d d']
  split_ifs with hl
  · rfl
  · rw [mirrored_low σ L N lo nside (lt_of_lt_of_le (not_le.1 hl) (le_max_right _ _)), zero_mul]

/-- The base transform, in the same terms. -/
theorem wignerBaseForward_values (T : GlTables) (hv : σ.Valid L (nside.getD 0)) (hN : 1 ≤ N)
    (hhp : σ = .healpix → 2 * nside.getD 0 ≤ L) (h0 : 0 ≤ lo) (h1 : lo < L) (f : Nd ℂ)
    (hf : f.shape = (2 * N - 1) :: σ.shape L (nside.getD 0)) (reality : Bool)
    (hre : reality = true → RealRings σ.inner L (nside.getD 0) (innerRings σ L (nside.getD 0))
      (wigRings σ L N nside f reality 0)) :
    ∃ g, wignerBaseForward T f L N lo σ.name reality nside = .ok (.d3 (2 * N - 1) L (2 * L - 1) g) ∧
      ∀ n el m, |n| < N → 0 ≤ el → el < L → -L < m → m < L →
        g (N - 1 + n) el (m + L - 1)
          = mirrored reality (wigFwdVal σ L N lo nside T f reality
              (fun t => snapAngle (innerTheta T.nodes σ L (nside.getD 0) t))) n el m
            * (√(4 * Real.pi / (2 * (el : ℝ) + 1)) : ℝ) := by
  obtain ⟨flmn, e3, h3⟩ := wigForward_loop (L := L) hN reality (fun n =>
    baseForward T (planeOf ((2 * N - 1) :: σ.shape L (nside.getD 0))
        (wignerBaseFban f.get3 N reality (n - wigStart N reality))) L (-n) σ.name nside reality lo 0)
    (wigFwdVal σ L N lo nside T f reality
      (fun t => snapAngle (innerTheta T.nodes σ L (nside.getD 0) t))) (by
      intro n n0 n1
      have hsh : σ = .healpix → σ.name = sHP := by rintro rfl; rfl
      obtain ⟨ref, e', h', h0'⟩ := baseForwardWith_values T (lower_name σ) (method := bVec)
        (by simp [baseMethods]) (fun _ => hsh) (spin := -n) hv (fun _ h => hhp h)
        (planeOf ((2 * N - 1) :: σ.shape L (nside.getD 0))
        (wignerBaseFban f.get3 N reality (n - wigStart N reality))) (planeOf_shape N _) reality
        h0 h1 (fun _ a b => by
          have hn : n = 0 := by omega
          subst hn
          exact hre a)
      refine ⟨ref, ?_, fun el m a b d d' => ?_⟩
      · unfold baseForward
        rw [if_pos rfl]; exact e'
      · have hes : elStart lo (-n) = max |n| lo := by unfold elStart; rw [max_comm, abs_neg]
        unfold wigFwdVal
        congr 1
        by_cases hel : el < max |n| lo
        · rw [if_pos hel, h0' el _ (by rw [hes]; exact hel)]
        · rw [if_neg hel, h' el m (by rw [hes]; omega) b d d', ← fAt_snap]
          change symm _ (fAt (ringSum σ.inner L (nside.getD 0) (wigRings σ L N nside f reality n))
            _ _ _ _ _) _ = _
          by_cases hc : effReality reality (-n) = true
          · have hn : n = 0 := by have := effReality_spin hc; omega
            subst hn
            have hr' : reality = true := by
              unfold effReality at hc
              simpa using hc
            have := symm_realRings (hre hr') (fun t => snapAngle (innerTheta T.nodes σ L (nside.getD 0) t))
              (innerWeight T σ L (nside.getD 0)) (effReality reality (-0)) el m
            rw [neg_zero] at this ⊢
            exact this
          · unfold symm
            rw [if_neg (fun h => hc h.1)])
  refine ⟨fun n l m => flmn n l m * (√(4 * Real.pi / (2 * (l : ℝ) + 1)) : ℝ), ?_, ?_⟩
  · unfold wignerBaseForward
    rw [so3_shape hv]
    show (if f.shape ≠ (2 * N - 1) :: σ.shape L (nside.getD 0) then _ else _) = _
    rw [if_neg (by rw [hf]; simp)]
    exact congrArg (fun r : Except PyErr (ℤ → ℤ → ℤ → ℂ) => r >>= _) e3
  · intro n el m hn a b d d'
    beta_reduce
    rw [h3 n el m hn a b d d']

/-- The samples are those of a real signal whose average over `γ` is, for MW and MWSS, band-limited
(see C20). -/
def RealSo3Input (nodes : ℤ → ℤ → ℝ) (σ : Scheme) (L N nside : ℤ) (f : ℤ → ℤ → ℤ → ℂ) : Prop :=
  (∀ g t p, 0 ≤ g → g < 2 * N - 1 → σ.Has L nside t p →
    (f g (σ.pos nside t p).1 (σ.pos nside t p).2).im = 0) ∧
  RealInput nodes σ L nside (fun i j => ∑ g ∈ Finset.Ico 0 (2 * N - 1), f g i j)

theorem realInput_smul {nodes : ℤ → ℤ → ℝ} {σ : Scheme} {L nside : ℤ} {f g : ℤ → ℤ → ℂ} (a : ℝ)
    (h : RealInput nodes σ L nside f)
    (hg : ∀ t p, σ.Has L nside t p → g (σ.pos nside t p).1 (σ.pos nside t p).2
      = f (σ.pos nside t p).1 (σ.pos nside t p).2 * a) : RealInput nodes σ L nside g := by
  unfold RealInput at h ⊢
  split_ifs at h ⊢ with hR
  · obtain ⟨F, h1, h2, h3⟩ := h
    have hs : ∀ θ φ, sphSignal L L (fun m k => F m k * a) θ φ = sphSignal L L F θ φ * a := by
      intro θ φ
      unfold sphSignal trigPoly
      rw [Finset.sum_mul]
      refine Finset.sum_congr rfl fun m _ => ?_
      rw [Finset.sum_mul, Finset.sum_mul, Finset.sum_mul]
      refine Finset.sum_congr rfl fun k _ => ?_
      ring
    refine ⟨fun m k => F m k * a, fun m k => ?_, fun θ φ => ?_, fun t p ht => ?_⟩
    · beta_reduce; rw [h1 m k]; ring
    · rw [hs, Complex.mul_im, h2, Complex.ofReal_im]; ring
    · rw [hg t p ht, hs, h3 t p ht]
  · intro t p ht
    rw [hg t p ht, Complex.mul_im, h t p ht, Complex.ofReal_im]; ring

theorem realSo3_rings (hL : 1 ≤ L) (hN : 1 ≤ N) {nodes : ℤ → ℤ → ℝ} {f : Nd ℂ}
    (h : RealSo3Input nodes σ L N (nside.getD 0) f.get3) :
    RealRings σ.inner L (nside.getD 0) (innerRings σ L (nside.getD 0))
      (wigRings σ L N nside f true 0) := by
  unfold wigRings
  rw [neg_zero]
  refine realInput_rings hL (nodes := nodes) (realInput_smul (2 * Real.pi / (2 * (N : ℝ) - 1)) h.2 ?_)
  intro t p ht
  rw [planeOf_get]
  unfold wignerBaseFban wigStart
  rw [if_pos rfl, if_pos rfl]
  push_cast
  congr 1
  unfold rfft fft ngamma
  refine Finset.sum_congr rfl fun g hg => ?_
  rw [Finset.mem_Ico] at hg
  have := h.1 g t p hg.1 hg.2 ht
  rw [Int.cast_zero, mul_zero, zero_div, neg_zero, cis_zero, mul_one]
  exact Complex.ext (Complex.ofReal_re _) (by rw [Complex.ofReal_im, this])

/-- `forward` returns what the base `forward` does, on grids without rings in the pole windows of the
base recursion. -/
theorem C38_forward_partial (hv : σ.Valid L (nside.getD 0)) (hN : 1 ≤ N) (hNL : N ≤ L) (hN8 : N < 8)
    (method : PyStr) (hmt : method ∈ [mNumpy, mJax, mTorch])
    (hhp : σ = .healpix → 2 * nside.getD 0 ≤ L ∧ (method ≠ mNumpy → 2 ≤ nside.getD 0))
    (hlo : LowerOk method L lo) (f : Nd ℂ) (hf : f.shape = (2 * N - 1) :: σ.shape L (nside.getD 0))
    (reality : Bool)
    (hre : reality = true → RealSo3Input G.nodes σ L N (nside.getD 0) f.get3)
    (p : WigPrecomps) (hp : WigPrecompsArg G L N σ.name nside true reality method p)
    (hr : ∀ n, |n| < N → OtfRegular G σ L (nside.getD 0) n true)
    (hst : ExactStored G σ L nside true) (hex : InnerExact G.nodes σ L (nside.getD 0)) (k : ℤ) :
    ∃ g ref, wignerForward B G f L N nside σ.name method reality p lo k
        = .ok (.d3 (2 * N - 1) L (2 * L - 1) g) ∧
      wignerBaseForward G.toGlTables f L N lo σ.name reality nside
        = .ok (.d3 (2 * N - 1) L (2 * L - 1) ref) ∧
      ∀ q el j, 0 ≤ q → q < 2 * N - 1 → 0 ≤ el → el < L → 0 ≤ j → j < 2 * L - 1 →
        g q el j = ref q el j := by
  have hre' : reality = true → RealRings σ.inner L (nside.getD 0) (innerRings σ L (nside.getD 0))
      (wigRings σ L N nside f reality 0) := by
    rintro rfl; exact realSo3_rings σ L N nside hv.1 hN (hre rfl)
  obtain ⟨g, e, h⟩ := wignerForward_values B G σ L N lo nside hv hN hNL hN8 method hmt hhp hlo f hf
    reality hre' p hp hr k
  obtain ⟨ref, e', h'⟩ := wignerBaseForward_values σ L N lo nside G.toGlTables hv hN
    (fun h => (hhp h).1) hlo.1 (by rcases hlo.2 with h | h <;> omega) f hf reality hre'
  refine ⟨g, ref, e, e', fun q el j q0 q1 a b c d => ?_⟩
  obtain ⟨n, rfl⟩ : ∃ n, q = N - 1 + n := ⟨q - (N - 1), by ring⟩
  obtain ⟨m, rfl⟩ : ∃ m, j = m + L - 1 := ⟨j - L + 1, by ring⟩
  have hn : |n| < N := by rw [abs_lt]; omega
  rw [h n el m hn a b (by omega) (by omega), h' n el m hn a b (by omega) (by omega)]
  have key : wigFwdVal σ L N lo nside G.toGlTables f reality (G.inner σ L (nside.getD 0))
      = wigFwdVal σ L N lo nside G.toGlTables f reality
          (fun t => snapAngle (innerTheta G.nodes σ L (nside.getD 0) t)) := by
    funext n el m
    unfold wigFwdVal
    rw [fAt_congr (fun t t0 t1 => ?_)]
    rw [snapAngle_eq _ (hex t t0 t1)]
    exact hst t t0 t1
  rw [key]

/-- The samples of direction `n` of a Wigner expansion. -/
theorem wigRings_samples (hN : 1 ≤ N) {nodes : ℤ → ℤ → ℝ} {c : ℤ → ℤ → ℤ → ℂ} {f : Nd ℂ}
    (hs : So3SamplesOf nodes σ L N (nside.getD 0) f.get3 (wignerSum 0 L N c)) (reality : Bool)
    (hre : reality = true → RealWigner c 0 L) {n : ℤ} (n0 : wigStart N reality ≤ n) (n1 : n < N) :
    SamplesOf nodes σ L (nside.getD 0) (planeOf ((2 * N - 1) :: σ.shape L (nside.getD 0))
      (wignerBaseFban f.get3 N reality (n - wigStart N reality))).get2
      (harmonicSum 0 L (-n) (fun l m => (-1) ^ n * (c n l m * wigW l))) := by
  have hs1 := wigStart_lt hN reality
  intro t p ht
  rw [planeOf_get]
  have := fban_plane hN reality hre (fun g a b => hs g t p a b ht) (by omega) n1
  unfold wigStart
  rw [this, wigPlane_scaled le_rfl]

theorem wigSamples_realRings (hL : 1 ≤ L) (hN : 1 ≤ N) {nodes : ℤ → ℤ → ℝ} {c : ℤ → ℤ → ℤ → ℂ}
    {f : Nd ℂ} (hs : So3SamplesOf nodes σ L N (nside.getD 0) f.get3 (wignerSum 0 L N c))
    (hre : RealWigner c 0 L) : RealRings σ.inner L (nside.getD 0) (innerRings σ L (nside.getD 0))
      (wigRings σ L N nside f true 0) := by
  have := wigRings_samples σ L N nside hN hs true (fun _ => hre) (n := 0)
    (by unfold wigStart; rw [if_pos rfl]) (by omega)
  unfold wigRings
  rw [neg_zero] at this ⊢
  refine realInput_rings hL (realInput_of_samples this ?_)
  intro l m a b d
  have := hre 0 l m a b d
  rw [neg_zero, add_zero] at this
  beta_reduce
  rw [this]
  simp only [zpow_zero, one_mul, map_mul, Complex.conj_ofReal]
  ring

theorem wigFwdVal_exact (T : GlTables) (hv : σ.Valid L (nside.getD 0)) (hN : 1 ≤ N) (hNL : N ≤ L)
    (hσ : SamplingTheorem T σ L) {c : ℤ → ℤ → ℤ → ℂ} {f : Nd ℂ}
    (hs : So3SamplesOf T.nodes σ L N (nside.getD 0) f.get3 (wignerSum 0 L N c)) (reality : Bool)
    (hre : reality = true → RealWigner c 0 L) {n el m : ℤ} (n0 : wigStart N reality ≤ n) (n1 : n < N)
    (a : 0 ≤ el) (b : el < L) (m0 : -L < m) (m1 : m < L) :
    wigFwdVal σ L N lo nside T f reality (innerTheta T.nodes σ L (nside.getD 0)) n el m
      = if max |n| lo ≤ el ∧ |m| ≤ el then c n el m * wigW el else 0 := by
  have := wigRings_samples σ L N nside hN hs reality hre n0 n1
  unfold wigFwdVal
  by_cases hel : el < max |n| lo
  · rw [if_pos hel, if_neg (by rintro ⟨h, -⟩; omega), mul_zero]
  · have h3 := analysis_exact (reality := false) hv hσ this (fun h => by cases h)
      (fun h => by cases h) a b m0 m1 (by
        rw [abs_neg]
        have := le_max_left |n| lo; omega)
    rw [if_neg hel, show fAt (ringSum σ.inner L (nside.getD 0) (wigRings σ L N nside f reality n)) (-n)
        (innerRings σ L (nside.getD 0)) (innerTheta T.nodes σ L (nside.getD 0))
        (innerWeight T σ L (nside.getD 0)) el m = _ from h3]
    simp only [not_lt.1 hel, true_and]
    split_ifs
    · rw [← mul_assoc, neg_one_zpow_sq, one_mul]
    · rw [mul_zero]

/-- The coefficients returned for the samples of an expansion. -/
theorem mirrored_exact (T : GlTables) (hv : σ.Valid L (nside.getD 0)) (hN : 1 ≤ N) (hNL : N ≤ L)
    (hσ : SamplingTheorem T σ L) (h0 : 0 ≤ lo) {c : ℤ → ℤ → ℤ → ℂ} {f : Nd ℂ}
    (hs : So3SamplesOf T.nodes σ L N (nside.getD 0) f.get3 (wignerSum 0 L N c)) (reality : Bool)
    (hre : reality = true → RealWigner c 0 L) {n el m : ℤ} (hn : |n| < N)
    (a : 0 ≤ el) (b : el < L) (m0 : -L < m) (m1 : m < L) :
    mirrored reality (wigFwdVal σ L N lo nside T f reality (innerTheta T.nodes σ L (nside.getD 0)))
        n el m * (√(4 * Real.pi / (2 * (el : ℝ) + 1)) : ℝ)
      = if max |n| lo ≤ el ∧ |m| ≤ el then c n el m else 0 := by
  rw [abs_lt] at hn
  have h1 : mirrored reality (wigFwdVal σ L N lo nside T f reality
      (innerTheta T.nodes σ L (nside.getD 0))) n el m
      = mirrored reality (fun n el m => if max |n| lo ≤ el ∧ |m| ≤ el then c n el m * wigW el else 0)
          n el m := by
    unfold mirrored
    by_cases hc : reality = true ∧ n < 0
    · rw [if_pos hc, if_pos hc, wigFwdVal_exact σ L N lo nside T hv hN hNL hσ hs reality hre
        (by unfold wigStart; rw [if_pos hc.1]; omega) (by omega) a b (by omega) (by omega)]
    · rw [if_neg hc, if_neg hc, wigFwdVal_exact σ L N lo nside T hv hN hNL hσ hs reality hre
        (by unfold wigStart; split_ifs with h
            · by_contra h'; exact hc ⟨h, by omega⟩
            · omega) (by omega) a b (by omega) (by omega)]
  rw [h1, mirrored_real reality hre h0 b]
  split_ifs
  · rw [mul_assoc, ← Complex.ofReal_mul, wigW_mul a, Complex.ofReal_one, mul_one]
  · rw [zero_mul]

/-- Analysis: on the schemes with a sampling theorem `forward`, applied to the samples of a Wigner
expansion, returns its coefficients, and zeros below `L_lower`. -/
theorem C38_analysis_partial (hv : σ.Valid L (nside.getD 0)) (hσ : SamplingTheorem G.toGlTables σ L)
    (hN : 1 ≤ N) (hNL : N ≤ L) (hN8 : N < 8) (method : PyStr) (hmt : method ∈ [mNumpy, mJax, mTorch])
    (hlo : LowerOk method L lo) (c : ℤ → ℤ → ℤ → ℂ) (f : Nd ℂ)
    (hf : f.shape = (2 * N - 1) :: σ.shape L (nside.getD 0))
    (hs : So3SamplesOf G.nodes σ L N (nside.getD 0) f.get3 (wignerSum 0 L N c)) (reality : Bool)
    (hre : reality = true → RealWigner c 0 L)
    (p : WigPrecomps) (hp : WigPrecompsArg G L N σ.name nside true reality method p)
    (hr : ∀ n, |n| < N → OtfRegular G σ L (nside.getD 0) n true)
    (hst : ExactStored G σ L nside true) (k : ℤ) :
    ∃ g, wignerForward B G f L N nside σ.name method reality p lo k
        = .ok (.d3 (2 * N - 1) L (2 * L - 1) g) ∧
      ∀ n el m, |n| < N → 0 ≤ el → el < L → -L < m → m < L →
        g (N - 1 + n) el (m + L - 1) = if max |n| lo ≤ el ∧ |m| ≤ el then c n el m else 0 := by
  obtain ⟨g, e, h⟩ := wignerForward_values B G σ L N lo nside hv hN hNL hN8 method hmt
    (fun h => absurd h hσ.1) hlo f hf reality
    (by rintro rfl; exact wigSamples_realRings σ L N nside hv.1 hN hs (hre rfl)) p hp hr k
  refine ⟨g, e, fun n el m hn a b m0 m1 => ?_⟩
  rw [h n el m hn a b m0 m1, ← mirrored_exact σ L N lo nside G.toGlTables hv hN hNL hσ hlo.1 hs reality
    hre hn a b m0 m1]
  have key : wigFwdVal σ L N lo nside G.toGlTables f reality (G.inner σ L (nside.getD 0))
      = wigFwdVal σ L N lo nside G.toGlTables f reality
          (innerTheta G.nodes σ L (nside.getD 0)) := by
    funext n el m
    unfold wigFwdVal
    rw [show fAt (ringSum σ.inner L (nside.getD 0) (wigRings σ L N nside f reality n)) (-n)
        (innerRings σ L (nside.getD 0)) (G.inner σ L (nside.getD 0))
        (innerWeight G.toGlTables σ L (nside.getD 0))
      = fAt (ringSum σ.inner L (nside.getD 0) (wigRings σ L N nside f reality n)) (-n)
        (innerRings σ L (nside.getD 0)) (innerTheta G.nodes σ L (nside.getD 0))
        (innerWeight G.toGlTables σ L (nside.getD 0)) from fAt_congr (fun t t0 t1 => hst t t0 t1)]
  rw [key]

/-- The round trip, the two sides with methods of their own. -/
theorem C38_round_trip_partial (hv : σ.Valid L (nside.getD 0))
    (hσ : SamplingTheorem G.toGlTables σ L) (hN : 1 ≤ N) (hNL : N ≤ L) (hN8 : N < 8) (μ ν : PyStr)
    (hμ : μ ∈ [mNumpy, mJax, mTorch]) (hν : ν ∈ [mNumpy, mJax, mTorch])
    (hlo : LowerOk μ L 0) (hlo' : LowerOk ν L lo) (flmn : ℤ → ℤ → ℤ → ℂ)
    (hf : ∀ n el k, -N < n → n < N → 0 ≤ el → el < |n| → 0 ≤ k →
      k < 2 * L - 1 → flmn (N - 1 + n) el k = 0)
    (reality : Bool) (hre : RealOrigin flmn L N reality 0)
    (hpl : μ ≠ mNumpy → reality = true →
      RealHarmonics (fun el m => flmn (N - 1) el (m + L - 1)) 0 L)
    (p p' : WigPrecomps) (hp : WigPrecompsArg G L N σ.name nside false reality μ p)
    (hp' : WigPrecompsArg G L N σ.name nside true reality ν p')
    (hr : ∀ n, |n| < N → OtfRegular G σ L (nside.getD 0) n false)
    (hr' : ∀ n, |n| < N → OtfRegular G σ L (nside.getD 0) n true)
    (hst : ExactStored G σ L nside false) (hst' : ExactStored G σ L nside true) (k : ℤ) :
    ∃ f g, wignerInverse B G (.d3 (2 * N - 1) L (2 * L - 1) flmn) L N nside σ.name μ reality p 0 k
        = .ok f ∧
      wignerForward B G f L N nside σ.name ν reality p' lo k = .ok (.d3 (2 * N - 1) L (2 * L - 1) g) ∧
      ∀ n el m, |n| < N → 0 ≤ el → el < L → -L < m → m < L →
        g (N - 1 + n) el (m + L - 1)
          = if max |n| lo ≤ el ∧ |m| ≤ el then wignerCoeffs flmn L N reality n el m else 0 := by
  obtain ⟨f, e, hs, h⟩ := C38_expansion_partial B G σ L N 0 nside hv (fun h => absurd h hσ.1) hN hNL hN8
    μ hμ hlo flmn hf reality hre hpl p hp hr k
  obtain ⟨g, e', hg⟩ := C38_analysis_partial B G σ L N lo nside hv hσ hN hNL hN8 ν hν hlo'
    (wignerCoeffs flmn L N reality) f hs (fun g t p a b ht => by
      rw [h g t p a b ht, show G.rnd (σ.theta G.nodes L (nside.getD 0) t)
        = σ.theta G.nodes L (nside.getD 0) t from hst t ht.1 ht.2.1]) reality (by
      rintro rfl; exact wignerCoeffs_real hre) p' hp' hr' hst' k
  exact ⟨f, g, e, e', hg⟩

end

/-! ## Every grid -/

theorem continuous_wignerSum (lo L N : ℤ) (c : ℤ → ℤ → ℤ → ℂ) (α γ : ℝ) :
    Continuous fun β => wignerSum lo L N c α β γ := by
  simp only [wignerSum_planes, wigPlane]
  refine continuous_finset_sum _ fun n _ => Continuous.mul (continuous_finset_sum _ fun l _ =>
    continuous_finset_sum _ fun m _ => ?_) continuous_const
  exact (continuous_const.mul (Complex.continuous_ofReal.comp (continuous_wignerd l m n))).mul
    continuous_const

theorem tendsto_mirrored {ι : Type*} {l : Filter ι} (σ : Scheme) (L N lo : ℤ) (nside : Option ℤ)
    (T : GlTables) (f : Nd ℂ) (reality : Bool) (α : ι → ℤ → ℝ) (θ : ℤ → ℝ)
    (h : ∀ t, 0 ≤ t → t < innerRings σ L (nside.getD 0) →
      Filter.Tendsto (fun i => α i t) l (𝓝 (θ t))) (n el m : ℤ) :
    Filter.Tendsto (fun i => mirrored reality (wigFwdVal σ L N lo nside T f reality (α i)) n el m) l
      (𝓝 (mirrored reality (wigFwdVal σ L N lo nside T f reality θ) n el m)) := by
  have key : ∀ n el m, Filter.Tendsto (fun i => wigFwdVal σ L N lo nside T f reality (α i) n el m) l
      (𝓝 (wigFwdVal σ L N lo nside T f reality θ n el m)) := by
    intro n el m
    unfold wigFwdVal
    refine Filter.Tendsto.const_mul _ ?_
    split_ifs
    · exact tendsto_const_nhds
    · have := tendsto_symm_fAt (l := l) (ringSum σ.inner L (nside.getD 0)
        (wigRings σ L N nside f reality n)) (-n) (innerRings σ L (nside.getD 0)) α θ
        (innerWeight T σ L (nside.getD 0)) h false el m
      simpa [symm] using this
  unfold mirrored
  split_ifs
  · exact ((Complex.continuous_conj.tendsto _).comp (key _ _ _)).const_mul _
  · exact key n el m

section
variable (B : Backends) (G : GlTables) (σ : Scheme) (L N lo : ℤ) (nside : Option ℤ)
  {ι : Type*} {l : Filter ι} (rnd : ι → ℝ → ℝ)

/-- Small errors of the stored angles make the recursion regular for all the directions at once. -/
theorem C38_nudge (hv : σ.Valid L (nside.getD 0))
    (hgl : σ = .gl → ∀ i, 0 ≤ i → i < L → -1 < G.nodes L i ∧ G.nodes L i < 1) (forward : Bool) :
    ∀ᶠ ε in 𝓝[≠] (0 : ℝ), ∀ n, |n| < N →
      OtfRegular (storedAs G (nudge ε)) σ L (nside.getD 0) n forward := by
  have h : ∀ᶠ ε in 𝓝[≠] (0 : ℝ), ∀ n ∈ Finset.Ioo (-N) N,
      OtfRegular (storedAs G (nudge ε)) σ L (nside.getD 0) n forward := by
    rw [Filter.eventually_all_finset]
    intro n _
    exact (C39_nudge G σ L (nside.getD 0) n hv hgl forward).1
  filter_upwards [h] with ε hε n hn
  exact hε n (Finset.mem_Ioo.2 (abs_lt.1 hn))

/-- Synthesis on every grid. -/
theorem C38_expansion_limit (hv : σ.Valid L (nside.getD 0))
    (hhp : σ = .healpix → 2 * nside.getD 0 ≤ L) (hN : 1 ≤ N) (hNL : N ≤ L) (hN8 : N < 8)
    (method : PyStr) (hmt : method ∈ [mNumpy, mJax, mTorch]) (hlo : LowerOk method L lo)
    (flmn : ℤ → ℤ → ℤ → ℂ)
    (hf : ∀ n el k, -N < n → n < N → lo ≤ el → el < |n| → 0 ≤ k →
      k < 2 * L - 1 → flmn (N - 1 + n) el k = 0)
    (reality : Bool) (hre : RealOrigin flmn L N reality lo)
    (hpl : method ≠ mNumpy → reality = true →
      RealHarmonics (fun el m => flmn (N - 1) el (m + L - 1)) lo L) (k : ℤ)
    (hθ : ∀ t, 0 ≤ t → t < σ.rings L (nside.getD 0) → Filter.Tendsto
      (fun i => rnd i (σ.theta G.nodes L (nside.getD 0) t)) l
      (𝓝 (σ.theta G.nodes L (nside.getD 0) t)))
    (hr : ∀ᶠ i in l, ∀ n, |n| < N → OtfRegular (storedAs G (rnd i)) σ L (nside.getD 0) n false) :
    ∃ out : ι → Nd ℂ,
      (∀ᶠ i in l, wignerInverse B (storedAs G (rnd i)) (.d3 (2 * N - 1) L (2 * L - 1) flmn) L N nside
        σ.name method reality .none lo k = .ok (out i) ∧
        (out i).shape = (2 * N - 1) :: σ.shape L (nside.getD 0)) ∧
      ∀ g t p, 0 ≤ g → g < 2 * N - 1 → σ.Has L (nside.getD 0) t p → Filter.Tendsto
        (fun i => (out i).get3 g (σ.pos (nside.getD 0) t p).1 (σ.pos (nside.getD 0) t p).2) l
        (𝓝 (wignerSum lo L N (wignerCoeffs flmn L N reality) (σ.phi L (nside.getD 0) t p)
          (σ.theta G.nodes L (nside.getD 0) t) (gammaAt N g))) := by
  have vals := fun i (hi : ∀ n, |n| < N →
      OtfRegular (storedAs G (rnd i)) σ L (nside.getD 0) n false) =>
    C38_expansion_partial B (storedAs G (rnd i)) σ L N lo nside hv hhp hN hNL hN8 method hmt hlo flmn hf
      reality hre hpl .none (Or.inl rfl) hi k
  refine ⟨fun i => resultD (wignerInverse B (storedAs G (rnd i)) (.d3 (2 * N - 1) L (2 * L - 1) flmn) L
    N nside σ.name method reality .none lo k), ?_, fun g t p a b ht => ?_⟩
  · filter_upwards [hr] with i hi
    obtain ⟨out, e, hs, -⟩ := vals i hi
    rw [e]
    exact ⟨rfl, hs⟩
  · refine Filter.Tendsto.congr' ?_ (((continuous_wignerSum lo L N (wignerCoeffs flmn L N reality)
      (σ.phi L (nside.getD 0) t p) (gammaAt N g)).tendsto _).comp (hθ t ht.1 ht.2.1))
    filter_upwards [hr] with i hi
    obtain ⟨out, e, hs, h⟩ := vals i hi
    rw [e]
    exact (h g t p a b ht).symm

/-- Analysis on every grid with a sampling theorem. -/
theorem C38_analysis_limit (hv : σ.Valid L (nside.getD 0)) (hσ : SamplingTheorem G σ L)
    (hN : 1 ≤ N) (hNL : N ≤ L) (hN8 : N < 8) (method : PyStr) (hmt : method ∈ [mNumpy, mJax, mTorch])
    (hlo : LowerOk method L lo) (c : ℤ → ℤ → ℤ → ℂ) (f : Nd ℂ)
    (hf : f.shape = (2 * N - 1) :: σ.shape L (nside.getD 0))
    (hs : So3SamplesOf G.nodes σ L N (nside.getD 0) f.get3 (wignerSum 0 L N c)) (reality : Bool)
    (hre : reality = true → RealWigner c 0 L) (k : ℤ)
    (hθ : ∀ t, 0 ≤ t → t < kRings σ L (nside.getD 0) true → Filter.Tendsto
      (fun i => rnd i (kTheta G.nodes σ L (nside.getD 0) true t)) l
      (𝓝 (kTheta G.nodes σ L (nside.getD 0) true t)))
    (hr : ∀ᶠ i in l, ∀ n, |n| < N → OtfRegular (storedAs G (rnd i)) σ L (nside.getD 0) n true) :
    ∃ g : ι → Nd ℂ,
      (∀ᶠ i in l, wignerForward B (storedAs G (rnd i)) f L N nside σ.name method reality .none lo k
        = .ok (g i) ∧ (g i).shape = [2 * N - 1, L, 2 * L - 1]) ∧
      ∀ n el m, |n| < N → 0 ≤ el → el < L → -L < m → m < L →
        Filter.Tendsto (fun i => (g i).get3 (N - 1 + n) el (m + L - 1)) l
          (𝓝 (if max |n| lo ≤ el ∧ |m| ≤ el then c n el m else 0)) := by
  have vals := fun i (hi : ∀ n, |n| < N →
      OtfRegular (storedAs G (rnd i)) σ L (nside.getD 0) n true) =>
    wignerForward_values B (storedAs G (rnd i)) σ L N lo nside hv hN hNL hN8 method hmt
    (fun h => absurd h hσ.1) hlo f hf reality
    (by rintro rfl; exact wigSamples_realRings σ L N nside hv.1 hN hs (hre rfl)) .none (Or.inl rfl)
    hi k
  refine ⟨fun i => resultD (wignerForward B (storedAs G (rnd i)) f L N nside σ.name method reality
    .none lo k), ?_, fun n el m hn a b m0 m1 => ?_⟩
  · filter_upwards [hr] with i hi
    obtain ⟨g, e, -⟩ := vals i hi
    rw [e]
    exact ⟨rfl, rfl⟩
  · rw [← mirrored_exact σ L N lo nside G hv hN hNL hσ hlo.1 hs reality hre hn a b m0 m1]
    refine Filter.Tendsto.congr' ?_ ((tendsto_mirrored σ L N lo nside G f reality
      (fun i => (storedAs G (rnd i)).inner σ L (nside.getD 0)) (innerTheta G.nodes σ L (nside.getD 0))
      (fun t t0 t1 => hθ t t0 t1) n el m).mul_const _)
    filter_upwards [hr] with i hi
    obtain ⟨g, e, h⟩ := vals i hi
    rw [e]
    exact (h n el m hn a b m0 m1).symm

/-- `forward` on every grid and signal: what the base `forward` returns. -/
theorem C38_forward_limit (hv : σ.Valid L (nside.getD 0)) (hN : 1 ≤ N) (hNL : N ≤ L) (hN8 : N < 8)
    (method : PyStr) (hmt : method ∈ [mNumpy, mJax, mTorch])
    (hhp : σ = .healpix → 2 * nside.getD 0 ≤ L ∧ (method ≠ mNumpy → 2 ≤ nside.getD 0))
    (hlo : LowerOk method L lo) (f : Nd ℂ) (hf : f.shape = (2 * N - 1) :: σ.shape L (nside.getD 0))
    (reality : Bool)
    (hre : reality = true → RealSo3Input G.nodes σ L N (nside.getD 0) f.get3)
    (hex : InnerExact G.nodes σ L (nside.getD 0)) (k : ℤ)
    (hθ : ∀ t, 0 ≤ t → t < kRings σ L (nside.getD 0) true → Filter.Tendsto
      (fun i => rnd i (kTheta G.nodes σ L (nside.getD 0) true t)) l
      (𝓝 (kTheta G.nodes σ L (nside.getD 0) true t)))
    (hr : ∀ᶠ i in l, ∀ n, |n| < N → OtfRegular (storedAs G (rnd i)) σ L (nside.getD 0) n true) :
    ∃ (g : ι → Nd ℂ) (ref : ℤ → ℤ → ℤ → ℂ),
      (∀ᶠ i in l, wignerForward B (storedAs G (rnd i)) f L N nside σ.name method reality .none lo k
        = .ok (g i) ∧ (g i).shape = [2 * N - 1, L, 2 * L - 1]) ∧
      wignerBaseForward G f L N lo σ.name reality nside = .ok (.d3 (2 * N - 1) L (2 * L - 1) ref) ∧
      ∀ q el j, 0 ≤ q → q < 2 * N - 1 → 0 ≤ el → el < L → 0 ≤ j → j < 2 * L - 1 →
        Filter.Tendsto (fun i => (g i).get3 q el j) l (𝓝 (ref q el j)) := by
  have hre' : reality = true → RealRings σ.inner L (nside.getD 0) (innerRings σ L (nside.getD 0))
      (wigRings σ L N nside f reality 0) := by
    rintro rfl; exact realSo3_rings σ L N nside hv.1 hN (hre rfl)
  have vals := fun i (hi : ∀ n, |n| < N →
      OtfRegular (storedAs G (rnd i)) σ L (nside.getD 0) n true) =>
    wignerForward_values B (storedAs G (rnd i)) σ L N lo nside hv hN hNL hN8 method hmt
    hhp hlo f hf reality hre' .none (Or.inl rfl) hi k
  obtain ⟨ref, e', h'⟩ := wignerBaseForward_values σ L N lo nside G hv hN
    (fun h => (hhp h).1) hlo.1 (by rcases hlo.2 with h | h <;> omega) f hf reality hre'
  refine ⟨fun i => resultD (wignerForward B (storedAs G (rnd i)) f L N nside σ.name method reality
    .none lo k), ref, ?_, e', fun q el j q0 q1 a b c d => ?_⟩
  · filter_upwards [hr] with i hi
    obtain ⟨g, e, -⟩ := vals i hi
    rw [e]
    exact ⟨rfl, rfl⟩
  · obtain ⟨n, rfl⟩ : ∃ n, q = N - 1 + n := ⟨q - (N - 1), by ring⟩
    obtain ⟨m, rfl⟩ : ∃ m, j = m + L - 1 := ⟨j - L + 1, by ring⟩
    have hn : |n| < N := by rw [abs_lt]; omega
    rw [h' n el m hn a b (by omega) (by omega)]
    refine Filter.Tendsto.congr' ?_ ((tendsto_mirrored σ L N lo nside G f reality
      (fun i => (storedAs G (rnd i)).inner σ L (nside.getD 0))
      (fun t => snapAngle (innerTheta G.nodes σ L (nside.getD 0) t))
      (fun t t0 t1 => by rw [snapAngle_eq _ (hex t t0 t1)]; exact hθ t t0 t1) n el m).mul_const _)
    filter_upwards [hr] with i hi
    obtain ⟨g, e, h⟩ := vals i hi
    rw [e]
    exact (h n el m hn a b (by omega) (by omega)).symm

end

/-- The hypotheses are met, e.g. on MW sampling with `L = 64`, `N = 3`, by a plane of coefficients that
are all non-zero from degree 2 on. -/
example (G : GlTables) : (∀ᶠ ε in 𝓝[≠] (0 : ℝ), ∀ n, |n| < 3 →
      OtfRegular (storedAs G (nudge ε)) .mw 64 0 n true) ∧ LowerOk mJax 64 1 ∧
    SamplingTheorem G .mw 64 ∧
    (∀ n el k : ℤ, -3 < n → n < 3 → 1 ≤ el → el < |n| → (if el < 2 then (0 : ℂ) else 1) = 0) ∧
    RealOrigin (fun _ el _ => if el < 2 then (0 : ℂ) else 1) 64 3 true 1 := by
  refine ⟨C38_nudge G .mw 64 3 none ⟨by norm_num, fun h => nomatch h⟩ (fun h => nomatch h) true,
    ⟨by norm_num, Or.inl (by norm_num)⟩, ⟨by simp, by simp⟩, fun n el k a b c d => ?_,
    fun _ el _ _ => ?_⟩
  · rw [if_pos]
    have : |n| ≤ 2 := by rw [abs_le]; omega
    omega
  · beta_reduce
    split_ifs <;> simp

end S2fft
