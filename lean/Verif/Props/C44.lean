import Verif.Lemmas.Dtypes
import Verif.Props.C30
import Verif.Props.C34
import Verif.Props.C38

/-!
# C44: data types

The functions that allocate arrays of the type of their argument, on arrays of integers, of real and
of complex numbers. `Holds dt z` says that an array of type `dt` can hold `z`.
-/

namespace S2fft
open Spec

/-- `inverse` returns for an array of real numbers what it returns for the same numbers in an array of
complex numbers. Missing: integers (`C44_inverse_violated`). -/
theorem C44_inverse_partial (B : Backends) (G : Machine) (dt : Dtype) (hd : dt ≠ .int) (r c : ℤ)
    (flm : ℤ → ℤ → ℂ) (h : ∀ l k, Holds dt (flm l k)) (L spin : ℤ) (nside : Option ℤ)
    (sampling method : PyStr) (hm : method ∈ [mNumpy, mJax, mTorch]) (reality : Bool)
    (precomps : Option PmPre) (lo k : ℤ) :
    sphericalInverseT dt G (.d2 r c flm) L spin nside sampling method reality precomps lo
      = sphericalInverse B G (.d2 r c flm) L spin nside sampling method reality precomps lo k :=
  sphericalInverseT_eq B G hm (otfNormaliseT_eq hd h lo) r c L spin nside sampling reality precomps k

/-- For an array of integers `inverse` returns the signal of other coefficients: the normalised ones
have been rounded towards zero. -/
theorem C44_inverse_integers (B : Backends) (G : Machine) (r c : ℤ) (flm : ℤ → ℤ → ℂ) (L spin : ℤ)
    (nside : Option ℤ) (sampling method : PyStr) (hm : method ∈ [mNumpy, mJax, mTorch])
    (reality : Bool) (precomps : Option PmPre) (lo k : ℤ) :
    sphericalInverseT .int G (.d2 r c flm) L spin nside sampling method reality precomps lo
      = sphericalInverse B G (.d2 r c (fun l k => if lo ≤ l then
          (pyInt (flm l k * √((2 * (l : ℝ) + 1) / (4 * Real.pi)) : ℂ).re : ℂ)
            / (√((2 * (l : ℝ) + 1) / (4 * Real.pi)) : ℝ) else flm l k))
          L spin nside sampling method reality precomps lo k :=
  sphericalInverseT_eq B G hm (otfNormaliseT_rounded .int flm lo) r c L spin nside sampling reality
    precomps k

/-- One in degree zero, at position `(l, k) = (0, L - 1)`. -/
def unitFlm (L l k : ℤ) : ℂ := if l = 0 ∧ k = L - 1 then 1 else 0

theorem unitFlm_holds (L l k : ℤ) : Holds .int (unitFlm L l k) := by
  unfold unitFlm
  split_ifs
  exacts [⟨1, by simp⟩, ⟨0, by simp⟩]

theorem pyInt_small {x : ℝ} (h0 : 0 ≤ x) (h1 : x < 1) : pyInt x = 0 := by
  unfold pyInt
  rw [if_pos h0, Int.floor_eq_zero_iff]
  exact ⟨h0, h1⟩

theorem elfactor_zero_lt : elfactor 0 < 1 := by
  unfold elfactor
  have := Real.pi_gt_three
  rw [Real.sqrt_lt' one_pos, div_lt_iff₀ (by positivity)]
  push_cast
  linarith

theorem cast_int_small {x : ℝ} (h0 : 0 ≤ x) (h1 : x < 1) : Dtype.int.cast x = 0 := by
  simp only [Dtype.cast, Complex.ofReal_re, pyInt_small h0 h1, Int.cast_zero]

theorem otfNormaliseT_unit (L : ℤ) :
    otfNormaliseT .int (unitFlm L) 0 = otfNormalise (fun _ _ => 0) 0 := by
  funext l k
  unfold otfNormaliseT otfNormalise unitFlm
  by_cases h : l = 0 ∧ k = L - 1
  · simp only [h.1, h.2, and_self, if_true, le_refl, one_mul, zero_mul]
    exact cast_int_small (Real.sqrt_nonneg _) elfactor_zero_lt
  · simp only [if_neg h, zero_mul, cast_zero]

/-- Any backends: they are not called. -/
def noBackends : Backends where
  cudaInverse := fun _ _ _ _ _ _ _ _ => .error .typeError
  cudaForward := fun _ _ _ _ _ _ _ _ => .error .typeError
  sshtInverse := fun _ _ _ _ _ _ => .error .typeError
  sshtForward := fun _ _ _ _ _ _ => .error .typeError
  healpyInverse := fun _ _ _ => .error .typeError
  healpyForward := fun _ _ _ _ => .error .typeError

theorem harmonicSum_unit {L : ℤ} (hL : 1 ≤ L) (θ φ : ℝ) :
    harmonicSum 0 L 0 (fun l m => unitFlm L l (m + L - 1)) θ φ = (√(1 / (4 * Real.pi)) : ℝ) := by
  unfold harmonicSum
  rw [Finset.sum_eq_single_of_mem 0 (by simp; omega)]
  · rw [Finset.sum_eq_single_of_mem 0 (by simp)]
    · unfold unitFlm sYlm
      simp [wignerd_zero, cis]
    · intro m _ hm
      beta_reduce
      rw [unitFlm, if_neg (by omega), zero_mul]
  · intro l _ hl
    refine Finset.sum_eq_zero fun m _ => ?_
    beta_reduce
    rw [unitFlm, if_neg (by omega), zero_mul]

/-- On every grid, at every sample: `1` in degree zero gives the constant `1 / √(4π)` from an array of
complex or real numbers, and zero from an array of integers. -/
theorem C44_inverse_violated (G : Machine) (σ : Scheme) (L : ℤ) (nside : Option ℤ)
    (hv : σ.Valid L (nside.getD 0)) (hhp : σ = .healpix → 2 * nside.getD 0 ≤ L) (hL : 2 ≤ L)
    (method : PyStr) (hm : method ∈ [mNumpy, mJax, mTorch])
    (hr : OtfRegular G σ L (nside.getD 0) 0 false) :
    ∃ out out', (∀ l k, Holds .int (unitFlm L l k)) ∧
      sphericalInverseT .complex G (.d2 L (2 * L - 1) (unitFlm L)) L 0 nside σ.name method false
        none 0 = .ok out ∧
      sphericalInverseT .int G (.d2 L (2 * L - 1) (unitFlm L)) L 0 nside σ.name method false
        none 0 = .ok out' ∧
      ∀ t p, σ.Has L (nside.getD 0) t p →
        out.get2 (σ.pos (nside.getD 0) t p).1 (σ.pos (nside.getD 0) t p).2
          = (√(1 / (4 * Real.pi)) : ℝ) ∧
        out'.get2 (σ.pos (nside.getD 0) t p).1 (σ.pos (nside.getD 0) t p).2 = 0 := by
  have hlo : LowerOk method L 0 := ⟨le_rfl, Or.inl (by omega)⟩
  have h0 : |(0 : ℤ)| < L := by rw [abs_zero]; omega
  obtain ⟨out, e, -, h⟩ := C39_expansion_partial noBackends G σ L 0 0 nside hv hhp method hm h0
    (by norm_num) hlo (unitFlm L) (fun el k a b => by rw [abs_zero] at b; omega) false
    (fun h => nomatch h) (fun h => nomatch h) none (Or.inl rfl) hr 0
  obtain ⟨out', e', -, h'⟩ := C39_expansion_partial noBackends G σ L 0 0 nside hv hhp method hm h0
    (by norm_num) hlo (fun _ _ => 0) (fun _ _ _ _ _ _ => rfl) false
    (fun h => nomatch h) (fun h => nomatch h) none (Or.inl rfl) hr 0
  refine ⟨out, out', unitFlm_holds L, ?_, ?_, fun t p ht => ⟨?_, ?_⟩⟩
  · rw [C44_inverse_partial noBackends G .complex (fun h => nomatch h) _ _ _ (fun _ _ => trivial) L 0
      nside _ method hm false none 0 0]
    exact e
  · rw [sphericalInverseT_eq noBackends G hm (otfNormaliseT_unit L) L (2 * L - 1) L 0 nside σ.name
      false none 0]
    exact e'
  · rw [h t p ht, coeffs, if_neg (fun h => nomatch h.1)]
    exact harmonicSum_unit (by omega) _ _
  · rw [h' t p ht, coeffs, if_neg (fun h => nomatch h.1)]
    simp [harmonicSum]

/-- `inverse` on the rotation group returns for an array of real numbers what it returns for the same
numbers in an array of complex numbers. Missing: integers (`C44_wigner_violated`). -/
theorem C44_wigner_partial (B : Backends) (G : Machine) (dt : Dtype) (hd : dt ≠ .int) (a b c : ℤ)
    (flmn : ℤ → ℤ → ℤ → ℂ) (h : ∀ n l k, Holds dt (flmn n l k)) (L N : ℤ) (nside : Option ℤ)
    (sampling method : PyStr) (hm : method ∈ [mNumpy, mJax, mTorch]) (reality : Bool)
    (precomps : WigPrecomps) (lo k : ℤ) :
    wignerInverseT dt G (.d3 a b c flmn) L N nside sampling method reality precomps lo
      = wignerInverse B G (.d3 a b c flmn) L N nside sampling method reality precomps lo k :=
  wignerInverseT_eq B G hm (fun n => by
    rw [wigScaleT_eq hd h, otfNormaliseT_eq hd (wigScale_holds hd h lo n)]) a b c L N nside sampling
    reality precomps k

/-- For an array of integers `inverse` returns the signal of other coefficients: the scaled ones have
been rounded towards zero, and then the normalised ones of each direction. -/
theorem C44_wigner_integers (B : Backends) (G : Machine) (a b c : ℤ) (flmn : ℤ → ℤ → ℤ → ℂ) (L N : ℤ)
    (nside : Option ℤ) (sampling method : PyStr) (hm : method ∈ [mNumpy, mJax, mTorch])
    (reality : Bool) (precomps : WigPrecomps) (lo k : ℤ) :
    wignerInverseT .int G (.d3 a b c flmn) L N nside sampling method reality precomps lo
      = wignerInverse B G (.d3 a b c (fun n l k =>
          let w : ℝ := √((2 * (l : ℝ) + 1) / (16 * Real.pi ^ 3))
          let e : ℝ := √((2 * (l : ℝ) + 1) / (4 * Real.pi))
          if lo ≤ l then (pyInt (pyInt (flmn n l k * w).re * e) : ℂ) / (w * e) else flmn n l k))
          L N nside sampling method reality precomps lo k := by
  rw [wignerInverseT_eq B G hm (wigScaleT_rounded .int flmn lo) a b c L N nside sampling reality
    precomps k]
  congr 2
  funext n l k
  unfold roundedFlmn Dtype.cast elfactor
  simp only [← Complex.ofReal_intCast, ← Complex.ofReal_mul, Complex.ofReal_re]

/-- One in degree zero of the direction `n = 0`. -/
def unitFlmn (L N n l k : ℤ) : ℂ := if n = N - 1 then unitFlm L l k else 0

theorem unitFlmn_holds (L N n l k : ℤ) : Holds .int (unitFlmn L N n l k) := by
  unfold unitFlmn
  split_ifs
  exacts [unitFlm_holds L l k, ⟨0, by simp⟩]

theorem wigScaleT_unit (L N n : ℤ) :
    otfNormaliseT .int (wigScaleT .int (unitFlmn L N) 0 n) 0
      = otfNormalise (wigScale (fun _ _ _ => 0) 0 n) 0 := by
  have h1 : √((2 * ((0 : ℤ) : ℝ) + 1) / (16 * Real.pi ^ 3)) < 1 := by
    have := Real.pi_gt_three
    have h3 : 1 < Real.pi ^ 3 := one_lt_pow₀ (by linarith) (by norm_num)
    rw [Real.sqrt_lt' one_pos, div_lt_iff₀ (by positivity)]
    push_cast
    linarith
  have : wigScaleT .int (unitFlmn L N) 0 n = fun _ _ => 0 := by
    funext l k
    unfold wigScaleT unitFlmn unitFlm
    by_cases h : n = N - 1 ∧ l = 0 ∧ k = L - 1
    · obtain ⟨rfl, rfl, rfl⟩ := h
      simp only [and_self, if_true, le_refl, one_mul]
      exact cast_int_small (Real.sqrt_nonneg _) h1
    · have : (if n = N - 1 then if l = 0 ∧ k = L - 1 then (1 : ℂ) else 0 else 0) = 0 := by
        split_ifs <;> tauto
      simp only [this, zero_mul, cast_zero, ite_self]
  rw [this]
  funext l k
  unfold otfNormaliseT otfNormalise wigScale
  simp only [zero_mul, cast_zero, ite_self]

theorem wignerSum_unit {L N : ℤ} (hL : 1 ≤ L) (hN : 1 ≤ N) (α β γ : ℝ) :
    wignerSum 0 L N (fun n l m => unitFlmn L N (N - 1 + n) l (m + L - 1)) α β γ
      = (1 / (8 * Real.pi ^ 2) : ℝ) := by
  unfold wignerSum
  rw [Finset.sum_eq_single_of_mem 0 (by simp; omega)]
  · rw [Finset.sum_eq_single_of_mem 0 (by simp; omega)]
    · rw [Finset.sum_eq_single_of_mem 0 (by simp)]
      · unfold unitFlmn unitFlm wignerD
        simp [wignerd_zero, cis]
      · intro m _ hm
        beta_reduce
        rw [unitFlmn, unitFlm, if_pos (by ring), if_neg (by omega), mul_zero, zero_mul]
    · intro l _ hl
      refine Finset.sum_eq_zero fun m _ => ?_
      beta_reduce
      rw [unitFlmn, unitFlm, if_pos (by ring), if_neg (by omega), mul_zero, zero_mul]
  · intro n _ hn
    refine Finset.sum_eq_zero fun l _ => Finset.sum_eq_zero fun m _ => ?_
    beta_reduce
    rw [unitFlmn, if_neg (by omega), mul_zero, zero_mul]

/-- On every grid, at every sample: `1` in degree zero gives the constant `1 / (8π²)` from an array of
complex or real numbers, and zero from an array of integers. -/
theorem C44_wigner_violated (G : Machine) (σ : Scheme) (L N : ℤ) (nside : Option ℤ)
    (hv : σ.Valid L (nside.getD 0)) (hhp : σ = .healpix → 2 * nside.getD 0 ≤ L) (hL : 2 ≤ L)
    (hN : 1 ≤ N) (hNL : N ≤ L) (hN8 : N < 8)
    (method : PyStr) (hm : method ∈ [mNumpy, mJax, mTorch])
    (hr : ∀ n, |n| < N → OtfRegular G σ L (nside.getD 0) n false) :
    ∃ out out', (∀ n l k, Holds .int (unitFlmn L N n l k)) ∧
      wignerInverseT .complex G (.d3 (2 * N - 1) L (2 * L - 1) (unitFlmn L N)) L N nside σ.name method
        false .none 0 = .ok out ∧
      wignerInverseT .int G (.d3 (2 * N - 1) L (2 * L - 1) (unitFlmn L N)) L N nside σ.name method
        false .none 0 = .ok out' ∧
      ∀ g t p, 0 ≤ g → g < 2 * N - 1 → σ.Has L (nside.getD 0) t p →
        out.get3 g (σ.pos (nside.getD 0) t p).1 (σ.pos (nside.getD 0) t p).2
          = (1 / (8 * Real.pi ^ 2) : ℝ) ∧
        out'.get3 g (σ.pos (nside.getD 0) t p).1 (σ.pos (nside.getD 0) t p).2 = 0 := by
  have hlo : LowerOk method L 0 := ⟨le_rfl, Or.inl (by omega)⟩
  obtain ⟨out, e, -, h⟩ := C38_expansion_partial noBackends G σ L N 0 nside hv hhp hN hNL hN8 method
    hm hlo (unitFlmn L N) (fun n el k n0 n1 a b _ _ => by
      unfold unitFlmn unitFlm
      split_ifs with h1 h2
      · rw [show n = 0 by omega, abs_zero] at b; omega
      · rfl
      · rfl) false
    (fun h => nomatch h) (fun _ h => nomatch h) .none (Or.inl rfl) hr 0
  obtain ⟨out', e', -, h'⟩ := C38_expansion_partial noBackends G σ L N 0 nside hv hhp hN hNL hN8
    method hm hlo (fun _ _ _ => 0) (fun _ _ _ _ _ _ _ _ _ => rfl) false
    (fun h => nomatch h) (fun _ h => nomatch h) .none (Or.inl rfl) hr 0
  refine ⟨out, out', unitFlmn_holds L N, ?_, ?_, fun g t p g0 g1 ht => ⟨?_, ?_⟩⟩
  · rw [C44_wigner_partial noBackends G .complex (fun h => nomatch h) _ _ _ _ (fun _ _ _ => trivial)
      L N nside _ method hm false .none 0 0]
    exact e
  · rw [wignerInverseT_eq noBackends G hm (wigScaleT_unit L N) (2 * N - 1) L (2 * L - 1) L N nside
      σ.name false .none 0]
    exact e'
  · rw [h g t p g0 g1 ht, wignerCoeffs, if_neg (fun h => nomatch h)]
    exact wignerSum_unit (by omega) hN _ _ _
  · rw [h' g t p g0 g1 ht, wignerCoeffs, if_neg (fun h => nomatch h)]
    simp [wignerSum]

/-- `rotate_flms` converts the rotated coefficients to the type of the given ones. -/
theorem C44_rotation_converts (dt : Dtype) (flm : ℤ → ℤ → ℂ) (L : ℤ) (rotation : ℝ × ℝ × ℝ)
    (dls : Option (ℤ → ℤ → ℤ → ℝ)) (l k : ℤ) :
    rotateFlmsT dt flm L rotation dls l k = match dt with
      | .int => (pyInt (rotateFlms flm L rotation dls l k).re : ℂ)
      | .float => ((rotateFlms flm L rotation dls l k).re : ℂ)
      | .complex => rotateFlms flm L rotation dls l k := by
  rw [rotateFlmsT_eq]
  cases dt <;> rfl

/-- For real angles of which the rotated coefficients are numbers of the type nothing is lost. In
particular complex coefficients are rotated. Missing: other angles (`C44_rotation_violated`). -/
theorem C44_rotation_partial (dt : Dtype) (flm : ℤ → ℤ → ℂ) (L : ℤ) (rotation : ℝ × ℝ × ℝ)
    (dls : Option (ℤ → ℤ → ℤ → ℝ)) (l k : ℤ)
    (h : dt = .complex ∨ Holds dt (rotateFlms flm L rotation dls l k)) :
    rotateFlmsT dt flm L rotation dls l k = rotateFlms flm L rotation dls l k := by
  rw [rotateFlmsT_eq, cast_of_holds]
  rcases h with rfl | h
  · trivial
  · exact h

/-- The coefficient of order `m = 1` rotated by `α = π/2` about the `z` axis is `-i`: an array of real
numbers, or of integers, loses it. -/
theorem C44_rotation_violated (dls : Option (ℤ → ℤ → ℤ → ℝ))
    (hdls : dls = none ∨ dls = some (generateRotateDls 2 0)) :
    ∃ flm : ℤ → ℤ → ℂ, (∀ dt l k, Holds dt (flm l k)) ∧
      rotateFlmsT .complex flm 2 (Real.pi / 2, 0, 0) dls 1 2 = -Complex.I ∧
      rotateFlmsT .float flm 2 (Real.pi / 2, 0, 0) dls 1 2 = 0 ∧
      rotateFlmsT .int flm 2 (Real.pi / 2, 0, 0) dls 1 2 = 0 := by
  refine ⟨fun l k => if l = 1 ∧ k = 2 then 1 else 0, fun dt l k => ?_, ?_⟩
  · beta_reduce
    split_ifs
    · cases dt
      exacts [⟨1, by simp⟩, ⟨1, by simp⟩, trivial]
    · exact holds_zero dt
  · have key : rotateFlms (fun l k => if l = 1 ∧ k = 2 then 1 else 0) 2 (Real.pi / 2, 0, 0) dls 1 2
        = -Complex.I := by
      have h : rotateFlms (fun l k => if l = 1 ∧ k = 2 then 1 else 0) 2 (Real.pi / 2, 0, 0) dls 1
          (1 + 2 - 1) = rotated (fun l k => if l = 1 ∧ k = 2 then 1 else 0) 2 (Real.pi / 2) 0 0 1
          (1 + 2 - 1) := by
        rcases hdls with rfl | rfl
        · rfl
        · exact C30_precomputed _ 2 _ 0 0 1 1 (by norm_num) (by norm_num)
      refine h.trans ?_
      rw [rotated, rotateFlms_none _ _ _ _ _ _ _ (by norm_num) (by norm_num), rotCoef,
        Finset.sum_eq_single_of_mem 1 (by simp)]
      · rw [if_pos (by norm_num), wignerd_at_zero, if_pos (by norm_num),
          show -(((1 : ℤ) : ℝ) * (Real.pi / 2)) = -(Real.pi / 2) by push_cast; ring,
          show -(((1 : ℤ) : ℝ) * 0) = 0 by ring]
        unfold cis
        rw [Complex.ofReal_neg, neg_mul, Complex.exp_neg, Complex.ofReal_div, Complex.ofReal_ofNat,
          Complex.exp_pi_div_two_mul_I]
        simp
      · intro n _ hn
        rw [if_neg (by omega), mul_zero]
    simp only [rotateFlmsT_eq, key]
    refine ⟨rfl, ?_, ?_⟩
    · simp [Dtype.cast]
    · simp [Dtype.cast, pyInt]

/-- The Fourier-Wigner `inverse_transform` returns for arrays of every type what it returns for
complex numbers, except in the NumPy function without tables. -/
theorem C44_fourier_wigner_partial (dt : Dtype) (method : PyStr) (precomps : Option FwTables)
    (hd : dt ≠ .int ∨ method ≠ mNumpy ∨ precomps ≠ none) (a b c : ℤ) (flmn : ℤ → ℤ → ℤ → ℂ)
    (h : ∀ n l k, Holds dt (flmn n l k)) (L N : ℤ) (reality : Bool) (sampling : PyStr) :
    fourierWignerInverseT dt method (.d3 a b c flmn) L N precomps reality sampling
      = fourierWignerInverse method (.d3 a b c flmn) L N precomps reality sampling :=
  fourierWignerInverseT_eq hd h a b c L N reality sampling

/-- There it refuses every array of integers. -/
theorem C44_fourier_wigner_refused (flmn : ℤ → ℤ → ℤ → ℂ) (L N : ℤ) (hN : 1 ≤ N) (hNL : N ≤ L)
    (reality : Bool) (sampling : PyStr) (hs : lower sampling = sMW ∨ lower sampling = sMWSS) :
    fourierWignerInverseT .int mNumpy (.d3 (2 * N - 1) L (2 * L - 1) flmn) L N none reality sampling
      = .error .typeError :=
  fourierWignerInverseT_refused hN hNL reality hs

/-- `wigner_subset_to_s2` returns for an array of real numbers what it returns for the same numbers in
an array of complex numbers. Missing: integers (`C44_subset_violated`). -/
theorem C44_subset_partial (dt : Dtype) (hd : dt ≠ .int) (method : PyStr) (shape : List ℤ)
    (flmn : ℤ → ℤ → ℤ → ℤ → ℤ → ℂ) (h : ∀ b n l k c, Holds dt (flmn b n l k c)) (ns : ℤ)
    (spins : ℤ → ℤ) (DW : FwTables) (L : ℤ) (sampling : PyStr) :
    wignerSubsetToS2T dt method ⟨shape, flmn⟩ ns spins DW L sampling
      = wignerSubsetToS2 method ⟨shape, flmn⟩ ns spins DW L sampling :=
  wignerSubsetToS2T_eq hd h method shape ns spins DW L sampling

theorem subset_unit (dt : Dtype) (method κ : PyStr) (P : FwTables)
    (hP : fourierWignerKernel κ 1 = .ok P) :
    ∃ out, wignerSubsetToS2T dt method ⟨[1, 1, 1, 1, 1], fun _ _ _ _ _ => 1⟩ 1 (fun _ => 0) P 1 sMW
        = .ok out ∧ out.get 0 0 0 0 0 = dt.cast (1 / (8 * Real.pi ^ 2) : ℝ) := by
  obtain ⟨cols, hc, hc0⟩ : ∃ cols, subsetColumns method 1 1 (fun _ => 0) = .ok cols ∧ cols 0 = 0 := by
    unfold subsetColumns
    split_ifs with h1
    · exact ⟨_, rfl, by simp⟩
    · exact ⟨_, rfl, by simp [jaxGet]⟩
  have hδ : P.delta 0 0 0 = 1 := by
    have := (fwKernel_tables le_rfl hP).1 0 0 0 le_rfl one_pos
    rwa [wignerd_zero] at this
  unfold wignerSubsetToS2T
  rw [if_neg (by decide)]
  simp only [ne_eq, not_true_eq_false, if_false, hc]
  refine ⟨_, rfl, ?_⟩
  have ho : fwOffset sMW = 0 := by decide
  have hs : fwSize 1 sMW = 1 := by decide
  simp only [ho, hs]
  simp only [ifft_fwd, ifftshift, show Finset.Ico (0 : ℤ) 1 = {0} from rfl, Finset.sum_singleton]
  simp [hδ, hc0, cis]

/-- Degree zero only: the single sample is `1 / (8π²)` from an array of complex numbers, and zero from
an array of integers. -/
theorem C44_subset_violated (method κ : PyStr) (P : FwTables)
    (hP : fourierWignerKernel κ 1 = .ok P) :
    ∃ out out', (Holds .int 1) ∧
      wignerSubsetToS2T .complex method ⟨[1, 1, 1, 1, 1], fun _ _ _ _ _ => 1⟩ 1 (fun _ => 0) P 1 sMW
        = .ok out ∧
      wignerSubsetToS2T .int method ⟨[1, 1, 1, 1, 1], fun _ _ _ _ _ => 1⟩ 1 (fun _ => 0) P 1 sMW
        = .ok out' ∧
      out.get 0 0 0 0 0 = (1 / (8 * Real.pi ^ 2) : ℝ) ∧ out'.get 0 0 0 0 0 = 0 := by
  obtain ⟨out, e, h⟩ := subset_unit .complex method κ P hP
  obtain ⟨out', e', h'⟩ := subset_unit .int method κ P hP
  refine ⟨out, out', ⟨1, by simp⟩, e, e', h, h'.trans (cast_int_small (by positivity) ?_)⟩
  have := Real.pi_gt_three
  rw [div_lt_one (by positivity)]
  nlinarith

/-- Real and complex arrays that meet the hypotheses. -/
example : (∀ l k : ℤ, Holds .float ((l + k : ℝ) / 2 : ℝ)) ∧ Dtype.float ≠ .int ∧
    (∀ l k : ℤ, Holds .complex (l + k * Complex.I)) ∧ ¬ Holds .float (Complex.I) ∧
    ¬ Holds .int ((1 / 2 : ℝ) : ℂ) := by
  refine ⟨fun _ _ => ⟨_, rfl⟩, by decide, fun _ _ => trivial, ?_, ?_⟩
  · rintro ⟨x, h⟩
    have := congrArg Complex.im h
    simp at this
  · rintro ⟨n, h⟩
    have h2 : (1 / 2 : ℝ) = n := by exact_mod_cast h
    have h3 : (1 : ℝ) = 2 * n := by linarith
    have : (1 : ℤ) = 2 * n := by exact_mod_cast h3
    omega

/-- A machine with exact angles on a Driscoll–Healy grid meets the hypotheses of the counterexamples. -/
example : (∀ n : ℤ, |n| < 2 → OtfRegular ⟨⟨fun _ _ => 0, fun _ _ => 0⟩, id⟩ .dh 2 0 n false) ∧
    Scheme.dh.Valid 2 0 := by
  refine ⟨fun n hn => ⟨fun h => absurd h (by decide), fun t t0 t1 => Or.inr ?_⟩, by norm_num, fun h => nomatch h⟩
  unfold kRings at t1
  simp only [Bool.false_eq_true, if_false, Scheme.rings] at t1
  unfold kTheta
  simp only [Bool.false_eq_true, if_false, Scheme.theta, id]
  have hpi := Real.pi_pos
  have h0' : (0 : ℝ) ≤ t := by exact_mod_cast t0
  have h1' : (t : ℝ) + 1 ≤ 4 := by exact_mod_cast (by omega : t + 1 ≤ 4)
  refine ⟨by positivity, ?_, fun el k a b c d => absurd c (by omega)⟩
  push_cast
  rw [div_lt_iff₀ (by norm_num)]
  nlinarith

end S2fft
