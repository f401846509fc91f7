import Verif.Props.C36
import Verif.Lemmas.OtfLower

/-!
# C25: `L_lower` in the on-the-fly transforms

`Nd.mask lo` sets the degrees below `lo` of a coefficient array to zero.
-/

namespace S2fft
open Spec

theorem otfInv_congr (G : Machine) (method : PyStr) (r c : ℤ) {F F' : ℤ → ℤ → ℂ} (L spin : ℤ)
    (nside : Option ℤ) (s : PyStr) (reality : Bool) (p : Option PmPre) {lo : ℤ} (hlo : lo < L - 1)
    (hF : ∀ el, lo ≤ el → F el = F' el) :
    otfInv G method (.d2 r c F) L spin nside s reality p lo
      = otfInv G method (.d2 r c F') L spin nside s reality p lo := by
  unfold otfInv
  split_ifs
  · exact otfInverseNumpy_congr G r c L spin nside s reality p hlo hF
  · exact otfInverseJax_congr G r c L spin nside s reality p hlo hF

/-- `inverse` does not depend on the coefficients of degree below `L_lower`, for `L_lower < L - 1`
and whatever the other arguments. -/
theorem C25_inverse (B : Backends) (G : Machine) (r c : ℤ) (flm flm' : ℤ → ℤ → ℂ) (L spin lo k : ℤ)
    (nside : Option ℤ) (s method : PyStr) (hmt : method ∈ [mNumpy, mJax, mTorch]) (reality : Bool)
    (p : Option PmPre) (hlo : lo < L - 1) (h : ∀ el, lo ≤ el → flm el = flm' el) :
    sphericalInverse B G (.d2 r c flm) L spin nside s method reality p lo k
      = sphericalInverse B G (.d2 r c flm') L spin nside s method reality p lo k := by
  by_cases h8 : spin < 8
  · rw [sphericalInverse_otf B G _ nside s hmt h8, sphericalInverse_otf B G _ nside s hmt h8]
    exact otfInv_congr G method r c L spin nside s reality p hlo h
  · have : method ∈ otfMethods := by
      unfold otfMethods
      simp only [List.mem_cons, List.not_mem_nil, or_false] at hmt ⊢
      tauto
    have hm : ¬ method ∉ sphericalMethods := by
      unfold sphericalMethods
      simp only [List.mem_cons, List.not_mem_nil, or_false] at hmt ⊢
      tauto
    unfold sphericalInverse
    rw [if_neg hm, if_pos ⟨by omega, this⟩, if_neg hm, if_pos ⟨by omega, this⟩]

/-- The same for the inverse Wigner transform. -/
theorem C25_wigner_inverse (B : Backends) (G : Machine) (q r c : ℤ) (flmn flmn' : ℤ → ℤ → ℤ → ℂ)
    (L N lo k : ℤ) (nside : Option ℤ) (s method : PyStr) (hmt : method ∈ [mNumpy, mJax, mTorch])
    (reality : Bool) (p : WigPrecomps) (hlo : lo < L - 1)
    (h : ∀ n el, lo ≤ el → flmn n el = flmn' n el) :
    wignerInverse B G (.d3 q r c flmn) L N nside s method reality p lo k
      = wignerInverse B G (.d3 q r c flmn') L N nside s method reality p lo k := by
  have hs : method ≠ mSsht := by
    simp only [List.mem_cons, List.not_mem_nil, or_false] at hmt
    rcases hmt with rfl | rfl | rfl <;> decide
  unfold wignerInverse
  simp only [if_neg hs]
  have h1 : (fun ps => otfWignerInverseNumpy G (.d3 q r c flmn) L N nside s reality ps lo)
      = fun ps => otfWignerInverseNumpy G (.d3 q r c flmn') L N nside s reality ps lo :=
    funext fun ps => otfWignerInverseNumpy_congr G q r c L N nside s reality ps hlo h
  have h2 : (fun ps => otfWignerInverseJax G (.d3 q r c flmn) L N nside s reality ps lo)
      = fun ps => otfWignerInverseJax G (.d3 q r c flmn') L N nside s reality ps lo :=
    funext fun ps => otfWignerInverseJax_congr G q r c L N nside s reality ps hlo h
  rw [h1, h2]

/-- `forward` with `L_lower` is `forward` without it with the degrees below `L_lower` set to zero:
nothing else changes, errors included. With "numpy" this holds for every `L_lower`, with "jax" and
"torch" for `L_lower < L - 1`. -/
theorem C25_forward (B : Backends) (G : Machine) (f : Nd ℂ) (L spin lo k : ℤ)
    (nside : Option ℤ) (s method : PyStr) (hmt : method ∈ [mNumpy, mJax, mTorch]) (reality : Bool)
    (p : Option PmPre) (hlo0 : 0 ≤ lo) (hlo : lo < L - 1 ∨ method = mNumpy) (iter : Option ℤ)
    (hit : iter = none ∨ iter = some 0) :
    sphericalForward B G f L spin nside s method reality p lo iter k
      = (sphericalForward B G f L spin nside s method reality p 0 iter k).map (Nd.mask lo) := by
  by_cases h8 : spin < 8
  · rw [sphericalForward_otf B G _ nside s hmt h8 _ _ _ _ hit,
      sphericalForward_otf B G _ nside s hmt h8 _ _ _ _ hit]
    unfold otfFwd
    refine ExRel.eq_map ?_
    split_ifs with hm
    · exact (otfForwardNumpy_mask G f L spin nside s reality p hlo0).imp id
        fun ⟨a, b, h1, h2, h3⟩ => ⟨a, b, h1, h2, h3.eq⟩
    · exact (otfForwardJax_mask G f L spin nside s reality p hlo0 (hlo.resolve_right hm)).imp id
        fun ⟨a, b, h1, h2, h3⟩ => ⟨a, b, h1, h2, h3.eq⟩
  · have : method ∈ otfMethods := by
      unfold otfMethods
      simp only [List.mem_cons, List.not_mem_nil, or_false] at hmt ⊢
      tauto
    have hm : ¬ method ∉ sphericalMethods := by
      unfold sphericalMethods
      simp only [List.mem_cons, List.not_mem_nil, or_false] at hmt ⊢
      tauto
    unfold sphericalForward
    rw [if_neg hm, if_pos ⟨by omega, this⟩, if_neg hm, if_pos ⟨by omega, this⟩]
    rfl

/-- The same for the forward Wigner transform. -/
theorem C25_wigner_forward (B : Backends) (G : Machine) (f : Nd ℂ) (L N lo k : ℤ)
    (nside : Option ℤ) (s method : PyStr) (hmt : method ∈ [mNumpy, mJax, mTorch]) (reality : Bool)
    (p : WigPrecomps) (hlo0 : 0 ≤ lo) (hlo : lo < L - 1 ∨ method = mNumpy) :
    wignerForward B G f L N nside s method reality p lo k
      = (wignerForward B G f L N nside s method reality p 0 k).map (Nd.mask3 lo) := by
  have hs : method ≠ mSsht := by
    simp only [List.mem_cons, List.not_mem_nil, or_false] at hmt
    rcases hmt with rfl | rfl | rfl <;> decide
  have m3 : ∀ a b, Masked3 lo a b → a = Nd.mask3 lo b := by
    rintro _ _ ⟨p, r, c, g, rfl, rfl⟩; rfl
  unfold wignerForward
  simp only [if_neg hs]
  refine ExRel.eq_map ?_
  by_cases h1 : method ∉ wignerMethods
  · rw [if_pos h1, if_pos h1]; exact Or.inl ⟨_, rfl, rfl⟩
  rw [if_neg h1, if_neg h1]
  by_cases h2 : N ≥ 8 ∧ method ∈ [mNumpy, mJax, mTorch]
  · rw [if_pos h2, if_pos h2]; exact Or.inl ⟨_, rfl, rfl⟩
  rw [if_neg h2, if_neg h2]
  by_cases h3 : method = mNumpy
  · rw [if_pos h3, if_pos h3]
    refine (ExRel.rfl _).bind fun ps _ h => ?_
    subst h
    exact (otfWignerForwardNumpy_mask G f L N nside s reality ps hlo0).imp id
      fun ⟨a, b, e1, e2, e3⟩ => ⟨a, b, e1, e2, m3 _ _ e3⟩
  · rw [if_neg h3, if_neg h3]
    refine (ExRel.rfl _).bind fun ps _ h => ?_
    subst h
    exact (otfWignerForwardJax_mask G f L N nside s reality ps hlo0 (hlo.resolve_right h3)).imp id
      fun ⟨a, b, e1, e2, e3⟩ => ⟨a, b, e1, e2, m3 _ _ e3⟩

/-! ## Zero rows -/

theorem otfForwardJax_spin {G : Machine} {f out : Nd ℂ} {L spin : ℤ} {nside : Option ℤ} {s : PyStr}
    {reality : Bool} {p : Option PmPre} {lo : ℤ}
    (h : otfForwardJax G f L spin nside s reality p lo = .ok out) :
    ∃ g, out = .d2 L (2 * L - 1) g ∧ ∀ l k, l < |spin| → g l k = 0 := by
  unfold otfForwardJax at h
  by_cases h0 : lo < 0
  · unfold requireLower at h; rw [if_pos h0] at h; cases h
  rw [requireLower_ok (not_lt.1 h0)] at h
  cases e : otfFourier G f L spin nside s reality mJax with
  | error e' => rw [e] at h; cases h
  | ok v =>
    rw [e] at h
    injection h with h
    refine ⟨_, h.symm, fun l k hl => ?_⟩
    beta_reduce
    rw [if_pos hl, zero_mul]

theorem otfForwardNumpy_zero {G : Machine} {f out : Nd ℂ} {L spin : ℤ} {nside : Option ℤ} {s : PyStr}
    {reality : Bool} {p : Option PmPre} {lo : ℤ}
    (h : otfForwardNumpy G f L spin nside s reality p lo = .ok out) :
    ∃ g, out = .d2 L (2 * L - 1) g ∧ ∀ l k, l < max |spin| lo → g l k = 0 := by
  unfold otfForwardNumpy at h
  by_cases h0 : lo < 0
  · unfold requireLower at h; rw [if_pos h0] at h; cases h
  rw [requireLower_ok (not_lt.1 h0)] at h
  cases e : otfFourier G f L spin nside s reality mNumpy with
  | error e' => rw [e] at h; cases h
  | ok v =>
    rw [e] at h
    obtain ⟨ftm, s', nt, θ, width⟩ := v
    simp only [bind, Except.bind] at h
    split at h
    · cases h
    injection h with h
    refine ⟨_, h.symm, fun l k hl => ?_⟩
    rw [if_pos hl, zero_mul]

theorem otfFwd_zero {G : Machine} {method : PyStr} {f out : Nd ℂ} {L spin : ℤ} {nside : Option ℤ}
    {s : PyStr} {reality : Bool} {p : Option PmPre} {lo : ℤ} (hlo0 : 0 ≤ lo)
    (hlo : lo < L - 1 ∨ method = mNumpy)
    (h : otfFwd G method f L spin nside s reality p lo = .ok out) :
    ∃ g, out = .d2 L (2 * L - 1) g ∧ ∀ l k, l < max |spin| lo → g l k = 0 := by
  unfold otfFwd at h
  split_ifs at h with hm
  · exact otfForwardNumpy_zero h
  · rcases otfForwardJax_mask G f L spin nside s reality p hlo0 (hlo.resolve_right hm) with
      ⟨e, h1, h2⟩ | ⟨a, b, h1, h2, r, c, g, h3, h4⟩
    · rw [h1] at h; cases h
    · rw [h1] at h
      injection h with h
      obtain ⟨g', h5, h6⟩ := otfForwardJax_spin h2
      rw [h3] at h5
      injection h5 with h7 h8 h9
      subst h7; subst h8; subst h9
      refine ⟨_, h.symm.trans h4, fun l k hl => ?_⟩
      unfold maskBelow
      rcases lt_max_iff.1 hl with hl | hl
      · rw [h6 l k hl, ite_self]
      · rw [if_pos hl]

/-- `forward` returns zero for every degree below `max(|spin|, L_lower)`, with any number of
refinement steps and for every input. -/
theorem C25_forward_zero (B : Backends) (G : Machine) (f out : Nd ℂ) (L spin lo k : ℤ)
    (nside : Option ℤ) (s method : PyStr) (hmt : method ∈ [mNumpy, mJax, mTorch]) (reality : Bool)
    (p : Option PmPre) (hlo0 : 0 ≤ lo) (hlo : lo < L - 1 ∨ method = mNumpy) (n : ℤ)
    (h : sphericalForward B G f L spin nside s method reality p lo (some n) k = .ok out) (el j : ℤ)
    (hel : el < max |spin| lo) : out.get2 el j = 0 := by
  have h8 : spin < 8 := by
    by_contra h8
    have : method ∈ otfMethods := by
      unfold otfMethods
      simp only [List.mem_cons, List.not_mem_nil, or_false] at hmt ⊢
      tauto
    unfold sphericalForward at h
    split_ifs at h with h1 h2
    · exact h2 ⟨by omega, this⟩
    all_goals exact h2 ⟨by omega, this⟩
  rw [sphericalForward_iter B G f nside s hmt h8] at h
  have key : ∃ g, out = .d2 L (2 * L - 1) g ∧ ∀ l k, l < max |spin| lo → g l k = 0 := by
    unfold refine at h
    beta_reduce at h
    cases h1 : otfFwd G method f L spin nside s reality p lo with
    | error e => rw [h1] at h; cases h
    | ok a =>
      rw [h1] at h
      have h : forRangeM 0 n (fun _ flm => do
          let f_recov ← otfInv G method flm L spin nside s reality none lo
          let e ← otfFwd G method (Nd.map2 (· - ·) f f_recov) L spin nside s reality p lo
          pure (Nd.map2 (· + ·) flm e)) a = .ok out := h
      refine forRangeM_inv (P := fun r : Nd ℂ =>
        ∃ g, r = .d2 L (2 * L - 1) g ∧ ∀ l k, l < max |spin| lo → g l k = 0)
        (otfFwd_zero hlo0 hlo h1) ?_ h
      rintro _ _ x' ⟨a, rfl, ha⟩ hx
      cases h2 : otfInv G method (.d2 L (2 * L - 1) a) L spin nside s reality none lo with
      | error e => rw [h2] at hx; cases hx
      | ok v =>
        rw [h2] at hx
        simp only [bind, Except.bind] at hx
        split at hx
        · cases hx
        rename_i e he
        obtain ⟨b, rfl, hb⟩ := otfFwd_zero hlo0 hlo he
        injection hx with hx
        exact ⟨_, hx.symm, fun l k hl => by
          show a l k + b l k = 0
          rw [ha l k hl, hb l k hl, add_zero]⟩
  obtain ⟨g, rfl, hg⟩ := key
  exact hg el j hel

/-! ## `L_lower = L - 1`

The claims above stop at `L - 2`. With `L_lower = L - 1` the weights of row 1 have one element, which
is broadcast over two degrees. -/

/-- The coefficient `v` of degree `el` and order `L - 2`. -/
def oneCoeff (L el : ℤ) (v : ℂ) : ℤ → ℤ → ℂ := fun l k => if l = el ∧ k = 2 * L - 3 then v else 0

theorem otfSynth_last (P : PmPre) (β : ℤ → ℝ) (L spin off width : ℤ) (reality : Bool) (hL : 2 ≤ L)
    (v : ℂ) :
    otfSynth P (oneCoeff L (L - 2) v) β L spin off width reality (L - 1)
      = otfSynth P (oneCoeff L (L - 1) v) β L spin off width reality 0 := by
  refine otfRows_rel (· = ·) P L (-spin) (L - 1) 0 β reality rfl ?_ ?_ ?_
  · rintro i W a _ i0 i1 rfl
    have hne : pmRow (2 * L - 1) i 0 ≠ 2 * L - 3 := by
      unfold pmRow; split_ifs <;> omega
    funext t k
    refine if_congr Iff.rfl (Finset.sum_congr rfl fun el _ => ?_) rfl
    unfold oneCoeff
    rw [if_neg (fun h => hne h.2), if_neg (fun h => hne h.2)]
  · rintro i D a _ i0 i1 rfl
    funext t k
    refine if_congr Iff.rfl ?_ rfl
    have e : Finset.Ico (L - 2) L = {L - 2, L - 1} := by ext x; simp; omega
    rw [e, Finset.sum_pair (by omega), Finset.sum_pair (by omega)]
    unfold oneCoeff
    simp only [true_and, if_neg (show ¬ (L - 1 = L - 2 ∧ pmRow (2 * L - 1) i 1 = 2 * L - 3) by omega),
      if_neg (show ¬ (L - 2 = L - 1 ∧ pmRow (2 * L - 1) i 1 = 2 * L - 3) by omega), mul_zero,
      add_zero, zero_add, max_eq_right (show L - 2 ≤ L - 1 by omega),
      max_eq_left (show 0 ≤ L - 1 by omega)]
  · rintro i m W a _ i0 i1 m0 m1 rfl
    have hne : pmRow (2 * L - 1) i m ≠ 2 * L - 3 := by
      unfold pmRow; split_ifs <;> omega
    funext t k
    refine if_congr Iff.rfl ?_ rfl
    unfold oneCoeff
    simp only [if_neg (show ¬ (_ ∧ pmRow (2 * L - 1) i m = 2 * L - 3) from fun h => hne h.2), mul_zero,
      Finset.sum_const_zero]

theorem otfNormalise_below (L : ℤ) (v : ℂ) :
    otfNormalise (oneCoeff L (L - 2) v) (L - 1) = oneCoeff L (L - 2) v := by
  funext l k
  unfold otfNormalise oneCoeff
  by_cases h : L - 1 ≤ l
  · rw [if_pos h, if_neg (by omega), zero_mul]
  · rw [if_neg h]

theorem elfactor_ne {el : ℤ} (h : 0 ≤ el) : elfactor el ≠ 0 := by
  have hp := Real.pi_pos
  have : (0 : ℝ) ≤ el := by exact_mod_cast h
  exact (Real.sqrt_pos.2 (by positivity)).ne'

theorem otfNormalise_last (L : ℤ) (hL : 2 ≤ L) (v : ℂ) :
    otfNormalise (oneCoeff L (L - 1) (v / (elfactor (L - 1) : ℝ))) 0 = oneCoeff L (L - 1) v := by
  have hne : ((elfactor (L - 1) : ℝ) : ℂ) ≠ 0 := by exact_mod_cast elfactor_ne (by omega)
  funext l k
  unfold otfNormalise oneCoeff
  by_cases h : l = L - 1 ∧ k = 2 * L - 3
  · obtain ⟨rfl, rfl⟩ := h
    rw [if_pos (by omega), if_pos ⟨rfl, rfl⟩, div_mul_cancel₀ _ hne, if_pos ⟨rfl, rfl⟩]
  · rw [if_neg h, if_neg h, zero_mul, ite_self]

/-- The claim fails for `L_lower = L - 1`: a coefficient of degree `L - 2`, which is below `L_lower`,
is transformed as if its degree were `L - 1` (and its normalisation is left out). This holds for the
schemes without rings at the poles. -/
theorem C25_inverse_last (B : Backends) (G : Machine) (L spin k : ℤ) (hL : 2 ≤ L)
    (nside : Option ℤ) (s method : PyStr) (hs : lower s ≠ sMW ∧ lower s ≠ sMWSS)
    (hmt : method ∈ [mNumpy, mJax, mTorch]) (reality : Bool)
    (p : Option PmPre) (v : ℂ) :
    sphericalInverse B G (.d2 L (2 * L - 1) (oneCoeff L (L - 2) v)) L spin nside s method reality p
        (L - 1) k
      = sphericalInverse B G (.d2 L (2 * L - 1) (oneCoeff L (L - 1) (v / (elfactor (L - 1) : ℝ)))) L
          spin nside s method reality p 0 k := by
  by_cases h8 : spin < 8
  · rw [sphericalInverse_otf B G _ nside s hmt h8, sphericalInverse_otf B G _ nside s hmt h8]
    have hor : ¬ (lower s = sMW ∨ lower s = sMWSS) := not_or.2 hs
    unfold otfInv
    split_ifs
    · unfold otfInverseNumpy inverseLatitudinalStep inversePolesNumpy
      rw [requireLower_ok (by omega), requireLower_ok le_rfl]
      simp only [Nd.get2, Nd.shape, otfNormalise_below, otfNormalise_last L hL,
        otfSynth_last _ _ _ _ _ _ _ hL, if_neg hor, if_neg hs.2]
    · unfold otfInverseJax inverseLatitudinalStepJax
      rw [requireLower_ok (by omega), requireLower_ok le_rfl]
      simp only [Nd.get2, Nd.shape, otfNormalise_below, otfNormalise_last L hL,
        otfSynth_last _ _ _ _ _ _ _ hL, if_neg hor, if_neg hs.2]
  · have : method ∈ otfMethods := by
      unfold otfMethods
      simp only [List.mem_cons, List.not_mem_nil, or_false] at hmt ⊢
      tauto
    have hm : ¬ method ∉ sphericalMethods := by
      unfold sphericalMethods
      simp only [List.mem_cons, List.not_mem_nil, or_false] at hmt ⊢
      tauto
    unfold sphericalInverse
    rw [if_neg hm, if_pos ⟨by omega, this⟩, if_neg hm, if_pos ⟨by omega, this⟩]

theorem pmRegular_dh2 {spin t : ℤ} {forward : Bool} (t0 : 0 ≤ t) (t1 : t < kRings .dh 2 0 forward) :
    PmRegular 2 spin (id (kTheta (fun _ _ => 0) .dh 2 0 forward t)) := by
  have hR : ¬ Scheme.dh.Resampled := by decide
  have t1' : t < 4 := by
    unfold kRings innerRings at t1
    simp only [if_neg hR, Scheme.rings, ite_self] at t1
    omega
  have e : kTheta (fun _ _ => 0) .dh 2 0 forward t = (2 * t + 1) * Real.pi / (4 * (2 : ℤ)) := by
    unfold kTheta innerTheta
    simp only [if_neg hR, Scheme.theta, ite_self]
  rw [id, e]
  have hpi := Real.pi_pos
  have h0' : (0 : ℝ) ≤ t := by exact_mod_cast t0
  have h1' : (t : ℝ) + 1 ≤ 4 := by exact_mod_cast (by omega : t + 1 ≤ 4)
  refine ⟨by positivity, ?_, fun el k a b c d => absurd c (by omega)⟩
  push_cast
  rw [div_lt_iff₀ (by norm_num)]
  nlinarith

/-- In `C25_inverse_last` the signal is not zero: for two degrees on the grid of Driscoll and Healy,
with exact angles, the coefficient `1` of degree 0 and the coefficient `0` give different signals
although `L_lower = 1`. -/
theorem C25_inverse_last_differs (B : Backends) (k : ℤ) (method : PyStr)
    (hmt : method ∈ [mNumpy, mJax, mTorch]) :
    ∃ (flm flm' : ℤ → ℤ → ℂ) (a b : Nd ℂ), (∀ el, 1 ≤ el → flm el = flm' el) ∧
      sphericalInverse B ⟨⟨0, 0⟩, id⟩ (.d2 2 3 flm) 2 0 none sDH method false none 1 k = .ok a ∧
      sphericalInverse B ⟨⟨0, 0⟩, id⟩ (.d2 2 3 flm') 2 0 none sDH method false none 1 k = .ok b ∧
      a.get2 0 0 ≠ b.get2 0 0 := by
  have hv : Scheme.dh.Valid 2 ((none : Option ℤ).getD 0) := ⟨by norm_num, fun h => nomatch h⟩
  have val : ∀ v : ℂ, ∃ out, sphericalInverse B ⟨⟨0, 0⟩, id⟩ (.d2 2 3 (oneCoeff 2 0 v)) 2 0 none sDH
      method false none 1 k = .ok out ∧ out.get2 0 0 = v * (Real.cos (Real.pi / 8) : ℝ) := by
    intro v
    have e := C25_inverse_last B ⟨⟨0, 0⟩, id⟩ 2 0 k le_rfl none sDH method (by decide) hmt false none v
    obtain ⟨out, e', -, h⟩ := C39_expansion_partial B ⟨⟨0, 0⟩, id⟩ .dh 2 0 0 none hv
      (fun h => nomatch h) method hmt (by norm_num) (by norm_num) ⟨le_rfl, Or.inl (by norm_num)⟩
      (oneCoeff 2 (2 - 1) (v / (elfactor (2 - 1) : ℝ)))
      (fun el k a b => by simp only [abs_zero] at b; omega) false
      (fun h => nomatch h) (fun h => nomatch h) none (Or.inl rfl) ⟨fun h => absurd h (by decide),
        fun t t0 t1 => Or.inr (pmRegular_dh2 t0 t1)⟩ k
    refine ⟨out, e.trans e', ?_⟩
    have := h 0 0 ⟨le_rfl, by decide, le_rfl, by decide⟩
    rw [show out.get2 0 0 = _ from this]
    have i2 : Finset.Ico (0 : ℤ) 2 = {0, 1} := by decide
    have i1 : Finset.Ico (-1 : ℤ) (1 + 1) = {-1, 0, 1} := by decide
    have i0 : Finset.Ico (-0 : ℤ) (0 + 1) = {0} := by decide
    have hne : ((elfactor 1 : ℝ) : ℂ) ≠ 0 := by exact_mod_cast elfactor_ne (by norm_num)
    have hth : (Scheme.dh.theta (fun _ _ => (0 : ℝ)) 2 0 0) = Real.pi / 8 := by
      simp only [Scheme.theta]; push_cast; ring
    unfold harmonicSum
    rw [i2, Finset.sum_pair (by decide), i0, i1]
    simp only [coeffs, oneCoeff, Finset.sum_singleton]
    rw [Finset.sum_insert (by decide), Finset.sum_pair (by decide)]
    norm_num
    have hth' : Scheme.dh.theta (0 : ℤ → ℤ → ℝ) 2 0 0 = Real.pi / 8 := hth
    have hc : cis (((0 : ℤ) : ℝ) * Scheme.dh.phi 2 0 0 0) = 1 := by simp [cis]
    unfold sYlm
    rw [hc, neg_zero, (wignerd_one _).2.2.2.2.1, hth', Real.cos_pi_div_eight]
    have hE : √((2 * ((1 : ℤ) : ℝ) + 1) / (4 * Real.pi)) = elfactor 1 := rfl
    rw [hE]
    push_cast
    field_simp
  obtain ⟨a, ea, ha⟩ := val 1
  obtain ⟨b, eb, hb⟩ := val 0
  refine ⟨oneCoeff 2 0 1, oneCoeff 2 0 0, a, b, fun el hel => ?_, ea, eb, ?_⟩
  · funext j
    unfold oneCoeff
    rw [if_neg (by omega), if_neg (by omega)]
  · rw [ha, hb, one_mul, zero_mul]
    have : 0 < Real.cos (Real.pi / 8) :=
      Real.cos_pos_of_mem_Ioo ⟨by linarith [Real.pi_pos], by linarith [Real.pi_pos]⟩
    exact_mod_cast this.ne'

theorem otfAnalyse_last (P : PmPre) (ftm : ℤ → ℤ → ℂ) (β : ℤ → ℝ) (L spin nt off width : ℤ)
    (reality : Bool) :
    otfAnalyse P ftm β L spin nt off width reality (L - 1) (L - 2) (2 * L - 3)
      = otfAnalyse P ftm β L spin nt off width reality (L - 1) (L - 1) (2 * L - 3) := by
  refine otfRows_rel (fun (a : ℤ → ℤ → ℂ) (_ : ℤ → ℤ → ℂ) =>
    a (L - 2) (2 * L - 3) = a (L - 1) (2 * L - 3)) P L (-spin) (L - 1) (L - 1) β reality rfl
    ?_ ?_ ?_ (emit' := fun _ _ _ _ a => a) (a' := 0)
  · intro i W a a' i0 i1 h
    have hne : 2 * L - 3 ≠ pmRow (2 * L - 1) i 0 := by
      unfold pmRow; split_ifs <;> omega
    rw [if_neg (fun h => hne h.1), if_neg (fun h => hne h.1), h]
  · intro i D a a' i0 i1 h
    beta_reduce
    rw [h]
    refine if_congr (and_congr_right fun _ => by omega) ?_ rfl
    simp only [max_self, max_eq_right (show L - 2 ≤ L - 1 by omega)]
  · intro i m W a a' i0 i1 m0 m1 h
    have hne : 2 * L - 3 ≠ pmRow (2 * L - 1) i m := by
      unfold pmRow; split_ifs <;> omega
    rw [if_neg (fun h => hne h.1), if_neg (fun h => hne h.1), h]

/-- With "jax" and "torch" the claim for `forward` fails in the same way: for `L_lower = L - 1` the
row `L - 2` of the result is not zero, but holds in order `L - 2` a copy of the row `L - 1`, without
its normalisation. -/
theorem C25_forward_last (B : Backends) (G : Machine) (L spin k : ℤ) (hL : |spin| + 2 ≤ L)
    (h8 : spin < 8) (nside : Option ℤ) (s method : PyStr) (hs : lower s ≠ sMW ∧ lower s ≠ sMWSS)
    (hmt : method ∈ [mJax, mTorch]) (reality : Bool) (p : Option PmPre) (f out : Nd ℂ)
    (iter : Option ℤ) (hit : iter = none ∨ iter = some 0)
    (h : sphericalForward B G f L spin nside s method reality p (L - 1) iter k = .ok out) :
    out.get2 (L - 2) (2 * L - 3) * (elfactor (L - 1) : ℝ) = out.get2 (L - 1) (2 * L - 3) := by
  have hsp := abs_nonneg spin
  have hmn : method ≠ mNumpy := by
    simp only [List.mem_cons, List.not_mem_nil, or_false] at hmt
    rcases hmt with rfl | rfl <;> decide
  rw [sphericalForward_otf B G _ nside s (List.mem_cons_of_mem _ hmt) h8 _ _ _ _ hit] at h
  unfold otfFwd at h
  rw [if_neg hmn] at h
  have hor : ¬ (lower s = sMW ∨ lower s = sMWSS) := not_or.2 hs
  unfold otfForwardJax otfFourier precomputeResample at h
  rw [requireLower_ok (by omega)] at h
  simp only [if_neg hor, if_neg hs.1, bind, Except.bind, pure, Except.pure] at h
  split at h
  · cases h
  rename_i v hv'
  split at hv'
  · cases hv'
  split at hv'
  · cases hv'
  split at hv'
  · cases hv'
  split at hv'
  · cases hv'
  injection hv' with hv'
  subst hv'
  injection h with h
  subst h
  unfold forwardLatitudinalStepJax
  simp only [Nd.get2, if_neg hor, if_neg hs.2, if_neg (show ¬ L - 2 < |spin| by omega),
    if_neg (show ¬ L - 1 < |spin| by omega)]
  have mir : ∀ (g : ℤ → ℤ → ℂ) l, (if reality = true then otfMirror g L else g) l (2 * L - 3)
      = g l (2 * L - 3) := by
    intro g l
    split_ifs
    · exact if_neg (by omega)
    · rfl
  rw [mir, mir]
  unfold otfNormalise
  rw [if_neg (by omega), if_pos le_rfl, otfAnalyse_last]
  ring

/-- The copy of `C25_forward_last` is not zero for the harmonic of degree one and order zero. -/
theorem C25_forward_last_differs (B : Backends) (k : ℤ) (method : PyStr)
    (hmt : method ∈ [mJax, mTorch]) :
    ∃ f out : Nd ℂ, sphericalForward B ⟨⟨0, 0⟩, id⟩ f 2 0 none sDH method false none 1 none k
      = .ok out ∧ out.get2 0 1 ≠ 0 := by
  have hv : Scheme.dh.Valid 2 ((none : Option ℤ).getD 0) := ⟨by norm_num, fun h => nomatch h⟩
  have hmt' : method ∈ [mNumpy, mJax, mTorch] := List.mem_cons_of_mem _ hmt
  have reg : ∀ b, OtfRegular ⟨⟨0, 0⟩, id⟩ .dh 2 ((none : Option ℤ).getD 0) 0 b := fun b =>
    ⟨fun h => absurd h (by cases b <;> decide), fun t t0 t1 => Or.inr (pmRegular_dh2 t0 t1)⟩
  have hL0 : LowerOk method 2 0 := ⟨le_rfl, Or.inl (by norm_num)⟩
  obtain ⟨f, g, -, e, hg⟩ := C39_round_trip_partial B ⟨⟨0, 0⟩, id⟩ .dh 2 0 0 none hv
    ⟨by decide, fun h => absurd h (by decide)⟩ method method hmt' hmt' (by norm_num) (by norm_num)
    hL0 hL0 (oneCoeff 2 1 1) (fun el k a b => by simp only [abs_zero] at b; omega) false
    (fun h => nomatch h) (fun h => nomatch h) none none (Or.inl rfl) (Or.inl rfl) (reg false)
    (reg true) (fun _ _ _ => rfl) (fun _ _ _ => rfl) none (Or.inl rfl) k
  have g1 : g 1 1 = 1 := hg 1 0 (by norm_num) (by norm_num) (by norm_num) (by norm_num)
  have hmn : method ≠ mNumpy := by
    simp only [List.mem_cons, List.not_mem_nil, or_false] at hmt
    rcases hmt with rfl | rfl <;> decide
  have hn := Or.inl (b := (none : Option ℤ) = some 0) (rfl : (none : Option ℤ) = none)
  have hk := otfForwardJax_kept ⟨⟨0, 0⟩, id⟩ f 2 0 none sDH false none (lo := 1) (by norm_num)
  have hE : ∀ lo, sphericalForward B ⟨⟨0, 0⟩, id⟩ f 2 0 none sDH method false none lo none k
      = otfForwardJax ⟨⟨0, 0⟩, id⟩ f 2 0 none sDH false none lo := by
    intro lo
    rw [sphericalForward_otf B _ _ none sDH hmt' (by norm_num) _ _ _ _ hn]
    unfold otfFwd
    rw [if_neg hmn]
  rw [show Scheme.dh.name = sDH from rfl, hE] at e
  rw [e] at hk
  rcases hk with ⟨e', -, h2⟩ | ⟨a, b, h1, h2, h3⟩
  · cases h2
  · injection h2 with h2
    subst h2
    have h4 := (hE 1).trans h1
    refine ⟨f, a, h4, fun h0 => ?_⟩
    have h5 := C25_forward_last B ⟨⟨0, 0⟩, id⟩ 2 0 k (by norm_num) (by norm_num) none sDH method
      (by decide) hmt false none f a none hn h4
    rw [show a.get2 (2 - 2) (2 * 2 - 3) = 0 from h0, zero_mul] at h5
    have h6 := h3 1 1 le_rfl
    rw [show a.get2 1 1 = 0 from h5.symm, show (Nd.d2 2 (2 * 2 - 1) g).get2 1 1 = g 1 1 from rfl, g1]
      at h6
    exact zero_ne_one h6

/-! ## "jax_ssht"

The spherical transforms ignore `L_lower` (`C36_lower_ignored`); the Wigner transforms only leave out
a factor. -/

/-- The Wigner coefficients of degree `l < lo` divided by `√((2 l + 1) / 16 π³)`. -/
noncomputable def unscaledBelow (lo : ℤ) (flmn : ℤ → ℤ → ℤ → ℂ) : ℤ → ℤ → ℤ → ℂ := fun n l m =>
  if 0 ≤ l ∧ l < lo then flmn n l m / (√((2 * (l : ℝ) + 1) / (16 * Real.pi ^ 3)) : ℝ)
  else flmn n l m

/-- `inverse` with "jax_ssht" does not mask: with `L_lower` it returns what it does without it after
the coefficients below `L_lower` have been divided by a constant. -/
theorem C25_ssht_inverse (B : Backends) (G : Machine) (q r c : ℤ) (flmn : ℤ → ℤ → ℤ → ℂ)
    (L N lo k : ℤ) (hlo0 : 0 ≤ lo) (nside : Option ℤ) (s : PyStr) (reality : Bool)
    (p : WigPrecomps) :
    wignerInverse B G (.d3 q r c flmn) L N nside s mSsht reality p lo k
      = wignerInverse B G (.d3 q r c (unscaledBelow lo flmn)) L N nside s mSsht reality p 0 k := by
  have e : ∀ n, wigScale flmn lo n = wigScale (unscaledBelow lo flmn) 0 n := by
    intro n
    funext l m
    unfold wigScale unscaledBelow
    by_cases h : lo ≤ l
    · rw [if_pos h, if_pos (by omega), if_neg (by omega)]
    · rw [if_neg h]
      by_cases h0 : 0 ≤ l
      · have hl : (0 : ℝ) ≤ l := by exact_mod_cast h0
        have hp := Real.pi_pos
        have : ((√((2 * (l : ℝ) + 1) / (16 * Real.pi ^ 3)) : ℝ) : ℂ) ≠ 0 := by
          exact_mod_cast (Real.sqrt_pos.2 (by positivity)).ne'
        rw [if_pos h0, if_pos ⟨h0, by omega⟩, div_mul_cancel₀ _ this]
      · rw [if_neg h0, if_neg (by omega)]
  unfold wignerInverse
  rw [if_pos rfl, if_pos rfl]
  unfold sshtWignerInverse
  rw [requireLower_ok hlo0, requireLower_ok le_rfl]
  simp only [Nd.get3, Nd.shape, e]
  rfl

/-- With `L_lower` the result of `forward` with "jax_ssht" is that without it, except that the
degrees below `L_lower` have not been multiplied by `√(4 π / (2 l + 1))`: they are not zero. -/
theorem C25_ssht_forward (B : Backends) (G : Machine) (f : Nd ℂ) (L N lo k : ℤ) (hlo0 : 0 ≤ lo)
    (nside : Option ℤ) (s : PyStr) (reality : Bool) (p : WigPrecomps) (out out0 : Nd ℂ)
    (h : wignerForward B G f L N nside s mSsht reality p lo k = .ok out)
    (h0 : wignerForward B G f L N nside s mSsht reality p 0 k = .ok out0) (n l m : ℤ) (hl : 0 ≤ l) :
    out0.get3 n l m = if l < lo then out.get3 n l m * (√(4 * Real.pi / (2 * (l : ℝ) + 1)) : ℝ)
      else out.get3 n l m := by
  unfold wignerForward at h h0
  rw [if_pos (rfl : mSsht = mSsht)] at h h0
  split_ifs at h h0 with h1 h2 h3
  unfold sshtWignerForward at h h0
  rw [requireLower_ok hlo0] at h
  rw [requireLower_ok le_rfl] at h0
  simp only [bind, Except.bind, pure, Except.pure] at h h0
  split at h
  · cases h
  rename_i sh hsh
  rw [hsh] at h0
  simp only [] at h0
  split_ifs at h h0 with h4
  cases hk : sshtSampling s with
  | error e => rw [hk] at h; cases h
  | ok kk =>
    rw [hk] at h h0
    simp only [] at h h0
    split at h
    · cases h
    rename_i a ha
    rw [ha] at h0
    injection h with h
    injection h0 with h0
    subst h
    subst h0
    simp only [Nd.get3]
    unfold wigUnscale
    by_cases hh : l < lo
    · rw [if_pos hl, if_pos hh, if_neg (by omega)]
    · rw [if_pos hl, if_neg hh, if_pos (by omega)]

/-- The hypotheses of the masking theorems are met by arrays that do differ, and the last ones by
coefficients that the division changes. -/
example : (∃ flm flm' : ℤ → ℤ → ℂ, flm ≠ flm' ∧ ∀ el, 3 ≤ el → flm el = flm' el) ∧
    (3 : ℤ) < 5 - 1 ∧ unscaledBelow 1 (fun _ _ _ => 1) 0 0 0 ≠ 1 := by
  refine ⟨⟨fun el _ => if el < 3 then 1 else 2, fun _ _ => 2, ?_, ?_⟩, by norm_num, ?_⟩
  · intro h
    have := congrFun (congrFun h 0) 0
    norm_num at this
  · intro el h
    funext j
    exact if_neg (by omega)
  · unfold unscaledBelow
    rw [if_pos ⟨le_rfl, by norm_num⟩]
    intro h
    have h2 : (√((2 * ((0 : ℤ) : ℝ) + 1) / (16 * Real.pi ^ 3)) : ℝ) = 1 := by
      have hne : ((√((2 * ((0 : ℤ) : ℝ) + 1) / (16 * Real.pi ^ 3)) : ℝ) : ℂ) ≠ 0 := by
        intro h0; rw [h0, div_zero] at h; exact zero_ne_one h
      have h1 : (1 : ℂ) = _ := (div_eq_one_iff_eq hne).1 h
      exact Complex.ofReal_injective (by rw [← h1, Complex.ofReal_one])
    have hp := Real.pi_gt_three
    have h3 : (2 * ((0 : ℤ) : ℝ) + 1) / (16 * Real.pi ^ 3) = 1 := by
      rw [Real.sqrt_eq_one] at h2; exact h2
    rw [div_eq_one_iff_eq (by positivity)] at h3
    have : (3 : ℝ) ^ 3 < Real.pi ^ 3 := pow_lt_pow_left₀ hp (by norm_num) (by norm_num)
    norm_num at h3
    linarith

end S2fft
