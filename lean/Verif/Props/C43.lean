import Verif.Lemmas.Spmd
import Verif.Lemmas.OtfForward
import Verif.Props.C36

/-!
# C43: the transforms over several devices

`ndev` is the number of devices. The inverse transforms give the same on any number of devices that
divides the number of rings, and refuse other numbers; the forward transforms, and with them the
derivative of the inverse ones, refuse more than one device.
-/

namespace S2fft
open Spec

/-- The flag does nothing but for the JAX and PyTorch methods. -/
theorem C43_other_methods (ndev : ℤ) (spmd : Bool) (B : Backends) (G : Machine) (x : Nd ℂ)
    (L spin : ℤ) (nside : Option ℤ) (s method : PyStr) (reality : Bool) (p : Option PmPre) (lo : ℤ)
    (iter : Option ℤ) (k : ℤ) (h : spmd = false ∨ method ≠ mJax ∧ method ≠ mTorch) :
    sphericalInverseSpmd ndev spmd B G x L spin nside s method reality p lo k
      = sphericalInverse B G x L spin nside s method reality p lo k ∧
    sphericalForwardSpmd ndev spmd B G x L spin nside s method reality p lo iter k
      = sphericalForward B G x L spin nside s method reality p lo iter k := by
  have hn : ¬ (spmd = true ∧ (method = mJax ∨ method = mTorch)) := by
    rintro ⟨h1, h2⟩
    rcases h with h | h
    · rw [h1] at h; cases h
    · exact h2.elim h.1 h.2
  unfold sphericalInverseSpmd sphericalForwardSpmd
  rw [if_neg hn, if_neg hn]
  unfold sphericalInverse sphericalForward
  constructor <;> split_ifs <;> rfl

theorem spmd_method_mem {method : PyStr} (hm : method = mJax ∨ method = mTorch) :
    method ∈ sphericalMethods ∧ method ∈ otfMethods := by
  rcases hm with rfl | rfl <;> constructor <;> decide

theorem sphericalInverseSpmd_of (ndev : ℤ) (B : Backends) (G : Machine) (x : Nd ℂ)
    (L : ℤ) {spin : ℤ} (h8 : spin < 8) (nside : Option ℤ) (s : PyStr) {method : PyStr}
    (hm : method = mJax ∨ method = mTorch) (reality : Bool) (p : Option PmPre) (lo k : ℤ) :
    sphericalInverseSpmd ndev true B G x L spin nside s method reality p lo k
      = otfInverseSpmd ndev G x L spin nside s reality p lo := by
  obtain ⟨h1, -⟩ := spmd_method_mem hm
  unfold sphericalInverseSpmd
  rw [if_neg (fun h => h h1), if_neg (fun h => absurd h.1 (by omega)), if_pos ⟨rfl, hm⟩]

theorem sphericalInverse_jax (B : Backends) (G : Machine) (x : Nd ℂ)
    (L : ℤ) {spin : ℤ} (h8 : spin < 8) (nside : Option ℤ) (s : PyStr) {method : PyStr}
    (hm : method = mJax ∨ method = mTorch) (reality : Bool) (p : Option PmPre) (lo k : ℤ) :
    sphericalInverse B G x L spin nside s method reality p lo k
      = otfInverseJax G x L spin nside s reality p lo := by
  obtain ⟨h1, -⟩ := spmd_method_mem hm
  unfold sphericalInverse otfInverse
  rw [if_neg (fun h => h h1), if_neg (fun h => absurd h.1 (by omega))]
  rcases hm with rfl | rfl <;>
  rw [if_neg (by decide), if_neg (by decide), if_neg (by decide), if_neg (by decide)]

theorem scheme_rings_pos {σ : Scheme} {L ns : ℤ} (hv : σ.Valid L ns) : 1 ≤ σ.rings L ns := by
  have := hv.1
  cases σ
  case healpix =>
    have : 1 ≤ ns := hv.2 rfl
    show 1 ≤ 4 * ns - 1
    omega
  all_goals
    simp only [Scheme.rings]
    omega

/-- Inverse, a number of devices that divides the number of rings: the result, or the exception, of
the call without the flag. -/
theorem C43_inverse_partial (ndev : ℤ) (hd : 1 ≤ ndev) (B : Backends) (G : Machine) (σ : Scheme)
    (L spin : ℤ) (nside : Option ℤ) (s : PyStr) (hs : lower s = σ.name)
    (hv : σ.Valid L (nside.getD 0)) (h : ndev ∣ σ.rings L (nside.getD 0)) (flm : Nd ℂ)
    (method : PyStr) (reality : Bool) (p : Option PmPre) (lo k : ℤ) :
    sphericalInverseSpmd ndev true B G flm L spin nside s method reality p lo k
      = sphericalInverse B G flm L spin nside s method reality p lo k := by
  by_cases hm : method = mJax ∨ method = mTorch
  · by_cases h8 : spin < 8
    · obtain ⟨θ, e, -⟩ := otfThetas_scheme G hs hv
      rw [sphericalInverseSpmd_of ndev B G flm L h8 nside s hm, sphericalInverse_jax B G flm L h8 nside s
        hm, otfInverseSpmd_eq hd G e (scheme_rings_pos hv) _ _ _ _ _ h]
    · obtain ⟨h1, h2⟩ := spmd_method_mem hm
      unfold sphericalInverseSpmd sphericalInverse
      rw [if_neg (fun h => h h1), if_pos ⟨by omega, h2⟩, if_neg (fun h => h h1), if_pos ⟨by omega, h2⟩]
  · push Not at hm
    exact (C43_other_methods ndev true B G flm L spin nside s method reality p lo none k
      (Or.inr hm)).1

/-- Inverse, any other number of devices: every call is refused, however right its arguments. -/
theorem C43_inverse_refused (ndev : ℤ) (hd : 1 ≤ ndev) (B : Backends) (G : Machine) (σ : Scheme)
    (L spin : ℤ) (nside : Option ℤ) (s : PyStr) (hs : lower s = σ.name)
    (hv : σ.Valid L (nside.getD 0)) (h : ¬ ndev ∣ σ.rings L (nside.getD 0))
    (flm : ℤ → ℤ → ℂ) (method : PyStr) (hm : method = mJax ∨ method = mTorch) (h8 : spin < 8)
    (reality : Bool) (p : Option PmPre) (lo k : ℤ) (h0 : 0 ≤ lo) :
    sphericalInverseSpmd ndev true B G (.d2 L (2 * L - 1) flm) L spin nside s method reality p lo k
      = .error .typeError := by
  obtain ⟨θ, e, -⟩ := otfThetas_scheme G hs hv
  rw [sphericalInverseSpmd_of ndev B G _ L h8 nside s hm]
  exact otfInverseSpmd_error hd G e (scheme_rings_pos hv) _ rfl _ _ _ _ h0 h

/-- Forward, one device: the call without the flag. -/
theorem C43_forward_partial (B : Backends) (G : Machine) (σ : Scheme) (L spin : ℤ)
    (nside : Option ℤ) (s : PyStr) (hs : lower s = σ.name) (hv : σ.Valid L (nside.getD 0))
    (f : Nd ℂ) (method : PyStr) (reality : Bool) (p : Option PmPre) (lo : ℤ) (hlo : lo < L)
    (iter : Option ℤ) (k : ℤ) :
    sphericalForwardSpmd 1 true B G f L spin nside s method reality p lo iter k
      = sphericalForward B G f L spin nside s method reality p lo iter k := by
  by_cases hm : method = mJax ∨ method = mTorch
  · obtain ⟨h1, h2⟩ := spmd_method_mem hm
    obtain ⟨θ, e, -⟩ := otfThetas_scheme G hs hv
    have e1 : ∀ x p, otfInverseSpmd 1 G x L spin nside s reality p lo
        = otfInverseJax G x L spin nside s reality p lo := fun x p =>
      otfInverseSpmd_eq le_rfl G e (scheme_rings_pos hv) x spin reality p lo (one_dvd _)
    have e2 : ∀ x, otfForwardSpmd 1 G x L spin nside s reality p lo
        = otfForwardJax G x L spin nside s reality p lo := fun x =>
      otfForwardSpmd_one G x L spin nside s reality p lo hlo
    unfold sphericalForwardSpmd sphericalForward otfForward otfInverse
    by_cases h8 : spin ≥ 8
    · simp only [h1, h2, h8, not_true_eq_false, if_false, and_self, if_true]
    · simp only [h1, h8, hm, not_true_eq_false, if_false, false_and, and_self, if_true, e1, e2]
      rcases hm with rfl | rfl
      · have a1 : mJax ≠ mHealpy := by decide
        have a2 : mJax ≠ mSsht := by decide
        have a3 : mJax ≠ mNumpy := by decide
        have a4 : mJax ≠ mJaxCuda := by decide
        simp only [a1, a2, a3, a4, and_false, if_false]
      · have a1 : mTorch ≠ mHealpy := by decide
        have a2 : mTorch ≠ mSsht := by decide
        have a3 : mTorch ≠ mNumpy := by decide
        have a4 : mTorch ≠ mJaxCuda := by decide
        simp only [a1, a2, a3, a4, and_false, if_false]
  · push Not at hm
    exact (C43_other_methods 1 true B G f L spin nside s method reality p lo iter k (Or.inr hm)).2

/-- Forward, two or more devices: every call is refused. -/
theorem C43_forward_refused (ndev : ℤ) (hd : 2 ≤ ndev) (B : Backends) (G : Machine) (L spin : ℤ)
    (nside : Option ℤ) (s : PyStr) (f : Nd ℂ) (method : PyStr) (hm : method = mJax ∨ method = mTorch)
    (reality : Bool) (p : Option PmPre) (lo : ℤ) (hlo : lo < L) (iter : Option ℤ) (k : ℤ) :
    Refused (sphericalForwardSpmd ndev true B G f L spin nside s method reality p lo iter k) := by
  obtain ⟨h1, h2⟩ := spmd_method_mem hm
  obtain ⟨e, he⟩ := otfForwardSpmd_error hd G f L spin nside s reality p lo hlo
  unfold sphericalForwardSpmd
  rw [if_neg (fun h => h h1)]
  by_cases h8 : spin ≥ 8
  · rw [if_pos ⟨h8, h2⟩]; exact ⟨_, rfl⟩
  · rw [if_neg (fun h => h8 h.1), if_pos ⟨rfl, hm⟩]
    dsimp only
    split_ifs
    · unfold refine
      beta_reduce
      rw [he]
      exact ⟨e, rfl⟩
    · exact ⟨e, he⟩

/-- And these are calls that return without the flag. -/
theorem C43_forward_violated (ndev : ℤ) (hd : 2 ≤ ndev) (B : Backends) (G : Machine) (σ : Scheme)
    (L spin : ℤ) (nside : Option ℤ) (hv : σ.Valid L (nside.getD 0))
    (hhp : σ = .healpix → 2 * nside.getD 0 ≤ L ∧ 2 ≤ nside.getD 0) (h8 : spin < 8) (f : Nd ℂ)
    (hf : f.shape = σ.shape L (nside.getD 0)) (p : Option PmPre) (lo : ℤ) (h0 : 0 ≤ lo) (hlo : lo < L)
    (k : ℤ) :
    (∃ flm, sphericalForwardSpmd ndev false B G f L spin nside σ.name mJax false p lo none k
      = .ok (.d2 L (2 * L - 1) flm)) ∧
    Refused (sphericalForwardSpmd ndev true B G f L spin nside σ.name mJax false p lo none k) := by
  refine ⟨?_, C43_forward_refused ndev hd B G L spin nside σ.name f mJax (Or.inl rfl) false p lo hlo
    none k⟩
  rw [(C43_other_methods ndev false B G f L spin nside σ.name mJax false p lo none k (Or.inl rfl)).2]
  obtain ⟨ftm, θ, e, -⟩ := otfFourier_values (spin := spin) G (lower_name σ) (fun h => by rw [h]; rfl)
    (method := mJax) (by simp) hv (fun h => ⟨(hhp h).1, fun _ => (hhp h).2⟩) f hf false (by simp)
  rw [sphericalForward_otf B G f nside σ.name (by simp) h8 false p lo k (Or.inl rfl)]
  unfold otfFwd
  rw [if_neg (by decide)]
  unfold otfForwardJax
  rw [e, requireLower_ok h0]
  exact ⟨_, rfl⟩

/-- The reverse rules: that of the forward transform on a number of devices that divides the number of
rings, and that of the inverse transform on one device, are those without the flag. -/
theorem C43_rules_partial (ndev : ℤ) (hd : 1 ≤ ndev) (g : ℤ → ℤ → ℂ) (θ : ℤ → ℝ)
    (nt L spin width : ℤ) (hn : 1 ≤ nt) (s : PyStr) (reality : Bool) (lo : ℤ) (hlo : lo < L) :
    (ndev ∣ nt → forwardSpmdRule ndev g θ nt L spin s reality lo
      = .ok (forwardJaxRule g θ nt L spin s reality lo)) ∧
    inverseSpmdRule 1 g θ nt L spin width s reality lo
      = .ok (inverseJaxRule g θ nt L spin width s reality lo) := by
  refine ⟨fun h => ?_, forwardLatitudinalStepSpmd_one _ _ _ _ _ _ _ _ _ _ hlo⟩
  exact (inverseLatitudinalStepSpmd_eq hd hn _ _ _ _ _ _ _ _).trans (if_pos h)

/-- So on two or more devices the inverse transform runs, if their number divides that of the rings,
but there is no derivative of it. -/
theorem C43_rules_refused (ndev : ℤ) (hd : 2 ≤ ndev) (g : ℤ → ℤ → ℂ) (θ : ℤ → ℝ)
    (nt L spin width : ℤ) (s : PyStr) (reality : Bool) (lo : ℤ) (hlo : lo < L) :
    Refused (inverseSpmdRule ndev g θ nt L spin width s reality lo) :=
  ⟨_, forwardLatitudinalStepSpmd_error hd _ _ _ _ _ _ _ _ _ _ hlo⟩

/-! ## The hypotheses are met -/

/-- DH sampling at `L = 4`: eight rings on four devices, or on three. -/
example (B : Backends) (G : Machine) (flm : ℤ → ℤ → ℂ) :
    sphericalInverseSpmd 4 true B G (.d2 4 7 flm) 4 2 none "DH".toList mJax true none 1 1
      = sphericalInverse B G (.d2 4 7 flm) 4 2 none "DH".toList mJax true none 1 1 ∧
    sphericalInverseSpmd 3 true B G (.d2 4 7 flm) 4 2 none "DH".toList mJax true none 1 1
      = .error .typeError :=
  ⟨C43_inverse_partial 4 (by norm_num) B G .dh 4 2 none _ (by decide) ⟨by norm_num, by simp⟩
      (by decide) _ _ _ _ _ _,
    C43_inverse_refused 3 (by norm_num) B G .dh 4 2 none _ (by decide) ⟨by norm_num, by simp⟩
      (by decide) _ _ (Or.inl rfl) (by norm_num) _ _ _ _ (by norm_num)⟩

/-- MW sampling at `L = 4`: one device, or two. -/
example (B : Backends) (G : Machine) (f : ℤ → ℤ → ℂ) :
    sphericalForwardSpmd 1 true B G (.d2 4 7 f) 4 2 none sMW mJax true none 1 none 1
      = sphericalForward B G (.d2 4 7 f) 4 2 none sMW mJax true none 1 none 1 ∧
    (∃ flm, sphericalForwardSpmd 2 false B G (.d2 4 7 f) 4 2 none sMW mJax false none 0 none 1
      = .ok (.d2 4 7 flm)) ∧
    Refused (sphericalForwardSpmd 2 true B G (.d2 4 7 f) 4 2 none sMW mJax false none 0 none 1) :=
  ⟨C43_forward_partial B G .mw 4 2 none _ (by decide) ⟨by norm_num, by simp⟩ _ _ _ _ _ (by norm_num)
      _ _,
    C43_forward_violated 2 le_rfl B G .mw 4 2 none ⟨by norm_num, by simp⟩ (by simp) (by norm_num)
      (.d2 4 7 f) rfl none 0 le_rfl (by norm_num) 1⟩

end S2fft
