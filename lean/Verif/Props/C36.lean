import Verif.Props.C31
import Verif.Props.C38

/-!
# C36: validation of the arguments and dispatch on the method

`Refused r`: the call raises an exception.
-/

namespace S2fft
open Spec Topology

def Refused {α : Type} (r : Except PyErr α) : Prop := ∃ e, r = .error e

theorem Refused.bind {α β : Type} {r : Except PyErr α} (h : Refused r) (k : α → Except PyErr β) :
    Refused (r >>= k) := by
  obtain ⟨e, rfl⟩ := h; exact ⟨e, rfl⟩

theorem Refused.bind_all {α β : Type} (r : Except PyErr α) {k : α → Except PyErr β}
    (h : ∀ a, Refused (k a)) : Refused (r >>= k) := by
  cases r with
  | error e => exact ⟨e, rfl⟩
  | ok a => exact h a

theorem Refused.ite {α : Type} {p : Prop} [Decidable p] {a b : Except PyErr α} (h : p → Refused a)
    (h' : ¬ p → Refused b) : Refused (if p then a else b) := by
  split_ifs with hp
  · exact h hp
  · exact h' hp

theorem Refused.lower {α : Type} {lo : ℤ} {r : Except PyErr α} (h : Refused r) :
    Refused (requireLower lo r) := Refused.ite (fun _ => ⟨_, rfl⟩) (fun _ => h)

/-! ## Methods -/

/-- An unknown method is a `ValueError`, whatever the other arguments. -/
theorem C36_unknown_method (B : Backends) (G : Machine) (x : Nd ℂ) (L spin N : ℤ)
    (nside : Option ℤ) (sampling : PyStr) (reality : Bool) (p : Option PmPre) (p' : WigPrecomps)
    (kernel : Option (Nd ℂ)) (lo k n : ℤ) (iter : Option ℤ) (method : PyStr) :
    (method ∉ [mNumpy, mJax, mJaxCuda, mSsht, mHealpy, mTorch] →
      sphericalInverse B G x L spin nside sampling method reality p lo k = .error .valueError ∧
      sphericalForward B G x L spin nside sampling method reality p lo iter k
        = .error .valueError) ∧
    (method ∉ [mNumpy, mJax, mSsht, mTorch] →
      wignerInverse B G x L N nside sampling method reality p' lo k = .error .valueError ∧
      wignerForward B G x L N nside sampling method reality p' lo k = .error .valueError) ∧
    (method ∉ [mNumpy, mJax, mTorch] →
      precomputeInverseTop G.toGlTables x L spin kernel sampling reality method nside
        = .error .valueError ∧
      precomputeForwardTop G.toGlTables x L spin kernel sampling reality method nside n
        = .error .valueError) :=
  ⟨fun h => ⟨if_pos h, if_pos h⟩, fun h => ⟨if_pos h, if_pos h⟩, fun h => ⟨if_pos h, if_pos h⟩⟩

/-- The wrapped libraries: the arguments that they get, and the number of refinement steps, which is
three for "jax_healpy" when none is given. "jax_ssht" takes the equiangular schemes, by their number,
and "jax_healpy" takes HEALPix. -/
theorem C36_libraries (B : Backends) (G : Machine) (x : Nd ℂ) (L spin : ℤ)
    (nside : Option ℤ) (sampling : PyStr) (reality : Bool) (p : Option PmPre) (lo k : ℤ)
    (iter : Option ℤ) :
    (lower sampling = sHP →
      sphericalInverse B G x L spin nside sampling mHealpy reality p lo k
        = B.healpyInverse x L nside ∧
      sphericalForward B G x L spin nside sampling mHealpy reality p lo iter k
        = B.healpyForward x L nside (iter.getD 3) ∧
      sphericalInverse B G x L spin nside sampling mSsht reality p lo k = .error .valueError ∧
      sphericalForward B G x L spin nside sampling mSsht reality p lo iter k
        = .error .valueError) ∧
    (lower sampling ≠ sHP →
      sphericalInverse B G x L spin nside sampling mHealpy reality p lo k = .error .valueError ∧
      sphericalForward B G x L spin nside sampling mHealpy reality p lo iter k
        = .error .valueError) ∧
    ∀ i : Fin 4, lower sampling = [sMW, sMWSS, sDH, sGL].get i →
      sphericalInverse B G x L spin nside sampling mSsht reality p lo k
        = B.sshtInverse x L spin reality i k ∧
      (iter.getD 0 ≤ 0 → sphericalForward B G x L spin nside sampling mSsht reality p lo iter k
        = B.sshtForward x L spin reality i k) := by
  have h1 : ∀ q : Prop, ¬ (q ∧ mHealpy ∈ otfMethods) := fun q h => absurd h.2 (by decide)
  have h2 : ∀ q : Prop, ¬ (q ∧ mSsht ∈ otfMethods) := fun q h => absurd h.2 (by decide)
  have h3 : ¬ mHealpy ∉ sphericalMethods := by decide
  have h4 : ¬ mSsht ∉ sphericalMethods := by decide
  have h5 : ¬ mSsht = mHealpy := by decide
  refine ⟨fun h => ⟨?_, ?_, ?_, ?_⟩, fun h => ⟨?_, ?_⟩, fun i h => ⟨?_, fun hn => ?_⟩⟩
  · unfold sphericalInverse
    rw [if_neg h3, if_neg (h1 _), if_pos rfl, if_neg (not_not.2 h)]
  · unfold sphericalForward
    rw [if_neg h3, if_neg (h1 _)]
    simp only [if_true, if_neg (not_not.2 h)]
    rw [if_pos ⟨h, trivial⟩]
  · unfold sphericalInverse
    rw [if_neg h4, if_neg (h2 _), if_neg h5, if_pos rfl, if_pos h]
  · unfold sphericalForward
    rw [if_neg h4, if_neg (h2 _)]
    simp only [if_true, if_neg h5, if_pos h]
  · unfold sphericalInverse
    rw [if_neg h3, if_neg (h1 _), if_pos rfl, if_pos h]
  · unfold sphericalForward
    rw [if_neg h3, if_neg (h1 _)]
    simp only [if_true, if_pos h]
  · have hhp : lower sampling ≠ sHP := by
      rw [h]; clear h; revert i; decide
    have hk : sshtSampling sampling = .ok (i : ℤ) := by
      unfold sshtSampling; rw [h]; clear h; revert i; decide
    unfold sphericalInverse
    rw [if_neg h4, if_neg (h2 _), if_neg h5, if_pos rfl, if_neg hhp, hk]
    rfl
  · have hhp : lower sampling ≠ sHP := by
      rw [h]; clear h; revert i; decide
    have hk : sshtSampling sampling = .ok (i : ℤ) := by
      unfold sshtSampling; rw [h]; clear h; revert i; decide
    unfold sphericalForward
    rw [if_neg h4, if_neg (h2 _)]
    simp only [if_true, if_neg h5, if_neg hhp, hk]
    rw [if_neg (fun h => hhp h.1)]
    show (if _ then _ else _) = _
    rw [if_neg (by omega)]

/-! ## The grid -/

theorem thetas_refused (nodes : ℤ → ℤ → ℝ) (L : ℤ) {s : PyStr} {nside : Option ℤ}
    (h : lower s = sHP ∧ nside = none ∨ lower s ∉ [sMW, sMWSS, sDH, sGL, sHP]) :
    Refused (thetas nodes (some L) s nside) := by
  have hg : ¬ lower s = sGL := by
    rcases h with h | h
    · rw [h.1]; decide
    · exact fun h' => h (by simp [h'])
  unfold thetas
  rw [if_neg hg]
  refine Refused.bind ?_ _
  unfold ntheta
  rcases h with ⟨h, rfl⟩ | h
  · rw [if_pos h]; exact ⟨_, rfl⟩
  · simp only [List.mem_cons, List.not_mem_nil, or_false, not_or] at h
    rw [if_neg h.2.2.2.2]
    dsimp only
    rw [if_neg (by tauto), if_neg h.2.1, if_neg h.2.2.1]
    exact ⟨_, rfl⟩

theorem ftm_shape_refused (L : ℤ) {s : PyStr} {nside : Option ℤ}
    (h : lower s = sHP ∧ nside = none ∨ lower s ∉ [sMW, sMWSS, sDH, sGL, sHP]) :
    Refused (ftm_shape L s nside) := by
  unfold ftm_shape
  rcases h with ⟨h, rfl⟩ | h
  · rw [if_pos (Or.inr h)]
    unfold ntheta
    rw [if_pos h]; exact ⟨_, rfl⟩
  · simp only [List.mem_cons, List.not_mem_nil, or_false, not_or] at h
    rw [if_neg (by tauto), if_neg (by tauto)]
    exact ⟨_, rfl⟩

theorem not_resampled {s : PyStr} {nside : Option ℤ}
    (h : lower s = sHP ∧ nside = none ∨ lower s ∉ [sMW, sMWSS, sDH, sGL, sHP]) :
    ¬ (lower s = sMW ∨ lower s = sMWSS) := by
  rcases h with h | h
  · rw [h.1]; decide
  · simp only [List.mem_cons, List.not_mem_nil, or_false, not_or] at h
    tauto

theorem kernelThetas_refused (G : GlTables) (L : ℤ) {s : PyStr} {nside : Option ℤ} (forward : Bool)
    (h : lower s = sHP ∧ nside = none ∨ lower s ∉ [sMW, sMWSS, sDH, sGL, sHP]) :
    Refused (kernelThetas G L s nside forward) := by
  unfold kernelThetas
  rw [if_neg (fun h' => not_resampled h h'.2)]
  exact (thetas_refused G.nodes L h).bind _

theorem so3_shape_refused (L N : ℤ) {s : PyStr} {nside : Option ℤ}
    (h : lower s = sHP ∧ nside = none ∨ lower s ∉ [sMW, sMWSS, sDH, sGL, sHP]) :
    Refused (so3_f_shape L N s nside) := by
  have hn : ¬ (s = sMW ∨ s = sMWSS ∨ s = sDH ∨ s = sGL) := by
    intro h'
    have : lower s = s := by rcases h' with rfl | rfl | rfl | rfl <;> decide
    rw [this] at h
    rcases h with h | h
    · rcases h' with rfl | rfl | rfl | rfl <;> exact absurd h.1 (by decide)
    · exact h (by simp only [List.mem_cons]; tauto)
  unfold so3_f_shape
  rw [if_neg hn]
  rcases h with ⟨h, rfl⟩ | h
  · rw [if_pos h]; exact ⟨_, rfl⟩
  · rw [if_neg (fun h' => h (by simp [h']))]; exact ⟨_, rfl⟩

theorem otfInverse_refused (G : Machine) (x : Nd ℂ) (L spin : ℤ) {nside : Option ℤ} {s : PyStr}
    (reality : Bool) (p : Option PmPre) (lo : ℤ)
    (h : lower s = sHP ∧ nside = none ∨ lower s ∉ [sMW, sMWSS, sDH, sGL, sHP]) :
    Refused (otfInverseNumpy G x L spin nside s reality p lo) ∧
    Refused (otfInverseJax G x L spin nside s reality p lo) ∧
    Refused (otfForwardNumpy G x L spin nside s reality p lo) ∧
    Refused (otfForwardJax G x L spin nside s reality p lo) := by
  have h1 : Refused (otfThetas G L s nside) := (thetas_refused G.nodes L h).bind _
  have h2 : ∀ method, Refused (otfFourier G x L spin nside s reality method) := by
    intro method
    unfold otfFourier
    refine Refused.bind_all _ fun r => ?_
    refine Refused.bind ?_ _
    exact (kernelThetas_refused G.toGlTables L true h).bind _
  exact ⟨(h1.bind _).lower, (h1.bind _).lower, ((h2 _).bind _).lower, ((h2 _).bind _).lower⟩

theorem kernelFunction_refused (method : PyStr) (G : GlTables) (L spin : ℤ) (reality : Bool)
    {s : PyStr} {nside : Option ℤ} (forward : Bool) (r : PyStr)
    (h : lower s = sHP ∧ nside = none ∨ lower s ∉ [sMW, sMWSS, sDH, sGL, sHP]) :
    Refused (kernelFunction method G L spin reality s nside forward r) := by
  have h1 := kernelThetas_refused G L forward h
  unfold kernelFunction
  split_ifs
  · exact Refused.bind_all _ fun r => h1.bind _
  · exact Refused.bind_all _ fun r => h1.bind _

/-- HEALPix without `nside` and unknown schemes are refused by every modelled transform, whatever
the other arguments. -/
theorem C36_grid (B : Backends) (G : Machine) (x : Nd ℂ) (L spin N : ℤ)
    (nside : Option ℤ) (s : PyStr) (reality : Bool) (p : Option PmPre) (p' : WigPrecomps)
    (kernel : Option (Nd ℂ)) (lo k n : ℤ) (iter : Option ℤ) (method : PyStr)
    (h : lower s = sHP ∧ nside = none ∨ lower s ∉ [sMW, sMWSS, sDH, sGL, sHP]) :
    (method ≠ mJaxCuda → method ≠ mHealpy →
      Refused (sphericalInverse B G x L spin nside s method reality p lo k) ∧
      Refused (sphericalForward B G x L spin nside s method reality p lo iter k)) ∧
    Refused (wignerInverse B G x L N nside s method reality p' lo k) ∧
    Refused (wignerForward B G x L N nside s method reality p' lo k) ∧
    Refused (precomputeInverseTop G.toGlTables x L spin kernel s reality method nside) ∧
    (kernel = none ∨ lower s = sHP →
      Refused (precomputeForwardTop G.toGlTables x L spin kernel s reality method nside n)) ∧
    Refused (baseInverse G.toGlTables x L spin s nside reality lo) ∧
    Refused (baseForward G.toGlTables x L spin s nside reality lo n) := by
  have err : ∀ {α : Type} (e : PyErr), Refused (.error e : Except PyErr α) := fun e => ⟨e, rfl⟩
  have hss : lower s = sHP ∨ Refused (sshtSampling s) := by
    rcases h with h | h
    · exact Or.inl h.1
    · right
      simp only [List.mem_cons, List.not_mem_nil, or_false, not_or] at h
      unfold sshtSampling
      rw [if_neg h.1, if_neg h.2.1, if_neg h.2.2.1, if_neg h.2.2.2.1]
      exact err _
  have hso := so3_shape_refused L N h
  have hssh : lower s = sHP ∨ Refused (so3_f_shape L N s none) := by
    rcases h with h | h
    · exact Or.inl h.1
    · exact Or.inr (so3_shape_refused L N (Or.inr h))
  have hfs : Refused (f_shape (some L) s nside) := by
    unfold f_shape
    rcases h with ⟨h, rfl⟩ | h
    · rw [if_pos h]; exact err _
    · rw [if_neg (fun h' => h (by simp [h']))]
      refine Refused.bind ?_ _
      simp only [List.mem_cons, List.not_mem_nil, or_false, not_or] at h
      unfold ntheta
      rw [if_neg h.2.2.2.2]
      dsimp only
      rw [if_neg (by tauto), if_neg h.2.1, if_neg h.2.2.1]
      exact err _
  have o := fun y r q => otfInverse_refused G y L spin r q lo h
  refine ⟨fun hc hh => ⟨?_, ?_⟩, ?_, ?_, ?_, fun hk => ?_, ?_, ?_⟩
  · unfold sphericalInverse
    refine .ite (fun _ => err _) fun _ => .ite (fun _ => err _) fun _ => ?_
    rw [if_neg hh]
    refine .ite (fun _ => .ite (fun _ => err _) fun h' => ?_) fun _ => ?_
    · exact (hss.resolve_left h').bind _
    · unfold otfInverse
      rw [if_neg hc]
      split_ifs
      · exact (o _ _ _).1
      · exact (o _ _ _).2.1
  · unfold sphericalForward
    refine .ite (fun _ => err _) fun _ => .ite (fun _ => err _) fun _ => ?_
    have hf : ∀ q, Refused (otfForward B G method x L spin nside s reality q lo) := by
      intro q
      unfold otfForward
      rw [if_neg hc]
      split_ifs
      · exact (o _ _ _).2.2.1
      · exact (o _ _ _).2.2.2
    dsimp only
    rw [if_neg hh]
    refine .ite (fun _ => .ite (fun _ => err _) fun h' => ?_) fun _ => .ite (fun _ => ?_) fun _ => ?_
    · exact (hss.resolve_left h').bind _
    · exact (hf _).bind _
    · exact hf _
  · unfold wignerInverse
    refine .ite (fun _ => err _) fun _ => .ite (fun _ => err _) fun _ => .ite
      (fun _ => .ite (fun _ => err _) fun h' => ?_) fun _ => .ite (fun _ => ?_) fun _ => ?_
    · exact ((hssh.resolve_left h').bind _).lower
    · exact .bind_all _ fun _ => .lower (.bind_all _ fun _ => hso.bind _)
    · exact .bind_all _ fun _ => .lower (.bind_all _ fun _ => hso.bind _)
  · unfold wignerForward
    refine .ite (fun _ => err _) fun _ => .ite (fun _ => err _) fun _ => .ite
      (fun _ => .ite (fun _ => err _) fun h' => ?_) fun _ => .ite (fun _ => ?_) fun _ => ?_
    · exact ((hssh.resolve_left h').bind _).lower
    · exact .bind_all _ fun _ => .lower (.bind_all _ fun _ => hso.bind _)
    · exact .bind_all _ fun _ => .lower (.bind_all _ fun _ => hso.bind _)
  · unfold precomputeInverseTop
    refine .ite (fun _ => err _) fun _ => ?_
    exact .bind_all _ fun _ => (ftm_shape_refused L h).bind _
  · unfold precomputeForwardTop
    refine .ite (fun _ => err _) fun _ => ?_
    by_cases hn : kernel = none
    · subst hn
      exact (kernelFunction_refused method G.toGlTables L spin _ true rAuto h).bind _
    · have hs := hk.resolve_left hn
      have hns : lower s = sHP ∧ nside = none := by
        rcases h with h | h
        · exact h
        · exact absurd (by simp [hs]) h
      have hf : ∀ y K r, Refused (precomputeForward y K L s r spin nside method) := by
        intro y K r
        unfold precomputeForward
        rw [if_pos hns]; exact err _
      refine .bind_all _ fun K => .ite (fun _ => hf _ _ _) fun _ => ?_
      exact .bind_all _ fun _ => (hf _ _ _).bind _
  · unfold baseInverse baseInverseWith
    refine .ite (fun _ => err _) fun _ => .ite (fun _ => err _) fun _ => .ite (fun _ => err _)
      fun _ => ?_
    exact (thetas_refused _ L h).bind _
  · have hf : Refused (baseForwardWith G.toGlTables x L spin s bVec nside reality lo) := hfs.bind _
    unfold baseForward
    exact .ite (fun _ => hf) fun _ => hf.bind _

/-! ## `L_lower` -/

/-- A negative `L_lower` is refused, by "jax_ssht" only in the Wigner transforms; the base transforms
also refuse `L_lower ≥ L`. -/
theorem C36_lower (B : Backends) (G : Machine) (x : Nd ℂ) (L spin N : ℤ)
    (nside : Option ℤ) (s : PyStr) (reality : Bool) (p : Option PmPre) (p' : WigPrecomps)
    (lo k n : ℤ) (iter : Option ℤ) (method : PyStr) :
    (lo < 0 → method ≠ mJaxCuda → method ≠ mHealpy → method ≠ mSsht →
      Refused (sphericalInverse B G x L spin nside s method reality p lo k) ∧
      Refused (sphericalForward B G x L spin nside s method reality p lo iter k)) ∧
    (lo < 0 → Refused (wignerInverse B G x L N nside s method reality p' lo k) ∧
      Refused (wignerForward B G x L N nside s method reality p' lo k)) ∧
    (¬ (0 ≤ lo ∧ lo < L) → Refused (baseInverse G.toGlTables x L spin s nside reality lo) ∧
      Refused (baseForward G.toGlTables x L spin s nside reality lo n)) := by
  have err : ∀ {α : Type} (e : PyErr), Refused (.error e : Except PyErr α) := fun e => ⟨e, rfl⟩
  have low : ∀ {α : Type} (r : Except PyErr α), lo < 0 → Refused (requireLower lo r) := by
    intro α r h
    unfold requireLower
    rw [if_pos h]; exact err _
  refine ⟨fun hl hc hh hs => ⟨?_, ?_⟩, fun hl => ⟨?_, ?_⟩, fun hl => ⟨?_, ?_⟩⟩
  · unfold sphericalInverse
    refine .ite (fun _ => err _) fun _ => .ite (fun _ => err _) fun _ => ?_
    rw [if_neg hh, if_neg hs]
    unfold otfInverse
    rw [if_neg hc]
    split_ifs
    · exact low _ hl
    · exact low _ hl
  · have hf : Refused (otfForward B G method x L spin nside s reality p lo) := by
      unfold otfForward
      rw [if_neg hc]
      split_ifs
      · exact low _ hl
      · exact low _ hl
    unfold sphericalForward
    refine .ite (fun _ => err _) fun _ => .ite (fun _ => err _) fun _ => ?_
    dsimp only
    rw [if_neg hh, if_neg hs]
    exact .ite (fun _ => hf.bind _) fun _ => hf
  · unfold wignerInverse
    exact .ite (fun _ => err _) fun _ => .ite (fun _ => err _) fun _ => .ite
      (fun _ => .ite (fun _ => err _) fun h' => low _ hl) fun _ => .ite
      (fun _ => .bind_all _ fun _ => low _ hl) fun _ => .bind_all _ fun _ => low _ hl
  · unfold wignerForward
    exact .ite (fun _ => err _) fun _ => .ite (fun _ => err _) fun _ => .ite
      (fun _ => .ite (fun _ => err _) fun h' => low _ hl) fun _ => .ite
      (fun _ => .bind_all _ fun _ => low _ hl) fun _ => .bind_all _ fun _ => low _ hl
  · unfold baseInverse baseInverseWith
    exact .ite (fun _ => err _) fun _ => .ite (fun _ => err _) fun _ => .ite (fun _ => err _)
      fun h => absurd hl h
  · have hf : Refused (baseForwardWith G.toGlTables x L spin s bVec nside reality lo) :=
      .bind_all _ fun _ => .ite (fun _ => err _) fun _ => .ite (fun _ => err _) fun _ =>
        .ite (fun _ => err _) fun h => absurd hl h
    unfold baseForward
    exact .ite (fun _ => hf) fun _ => hf.bind _

/-- "jax_ssht" and "jax_healpy" take no `L_lower`: `inverse` and `forward` return the same whatever
it is. -/
theorem C36_lower_ignored (B : Backends) (G : Machine) (x : Nd ℂ) (L spin : ℤ)
    (nside : Option ℤ) (s : PyStr) (reality : Bool) (p : Option PmPre) (lo lo' k : ℤ)
    (iter : Option ℤ) (method : PyStr) (hm : method = mSsht ∨ method = mHealpy) :
    sphericalInverse B G x L spin nside s method reality p lo k
      = sphericalInverse B G x L spin nside s method reality p lo' k ∧
    sphericalForward B G x L spin nside s method reality p lo iter k
      = sphericalForward B G x L spin nside s method reality p lo' iter k := by
  have h5 : ¬ mSsht = mHealpy := by decide
  rcases hm with rfl | rfl
  · unfold sphericalInverse sphericalForward
    simp only [if_true, if_neg h5, and_self]
  · unfold sphericalInverse sphericalForward
    simp only [if_true, and_self]

/-! ## The spin -/

/-- Spins of 8 and more, and 8 directions and more, are refused by the methods that use the recursion
of Price and McEwen. -/
theorem C36_spin_guard (B : Backends) (G : Machine) (x : Nd ℂ) (L spin N : ℤ)
    (nside : Option ℤ) (s : PyStr) (reality : Bool) (p : Option PmPre) (p' : WigPrecomps)
    (lo k : ℤ) (iter : Option ℤ) (method : PyStr) :
    (8 ≤ spin → method ∈ [mNumpy, mJax, mJaxCuda, mTorch] →
      sphericalInverse B G x L spin nside s method reality p lo k = .error .warning ∧
      sphericalForward B G x L spin nside s method reality p lo iter k = .error .warning) ∧
    (8 ≤ N → method ∈ [mNumpy, mJax, mTorch] →
      wignerInverse B G x L N nside s method reality p' lo k = .error .warning ∧
      wignerForward B G x L N nside s method reality p' lo k = .error .warning) := by
  refine ⟨fun h hm => ?_, fun h hm => ?_⟩
  · have hk : ¬ method ∉ sphericalMethods := by
      simp only [List.mem_cons, List.not_mem_nil, or_false] at hm
      rcases hm with rfl | rfl | rfl | rfl <;> decide
    unfold sphericalInverse sphericalForward
    rw [if_neg hk, if_pos ⟨h, hm⟩, if_neg hk, if_pos ⟨h, hm⟩]
    exact ⟨rfl, rfl⟩
  · have hk : ¬ method ∉ wignerMethods := by
      simp only [List.mem_cons, List.not_mem_nil, or_false] at hm
      rcases hm with rfl | rfl | rfl <;> decide
    unfold wignerInverse wignerForward
    rw [if_neg hk, if_pos ⟨h, hm⟩, if_neg hk, if_pos ⟨h, hm⟩]
    exact ⟨rfl, rfl⟩

/-- The guard is one-sided, against the property: on a machine whose angles are as close to the exact
ones as one likes, every method refuses spin 8 and accepts spin -8 for the same coefficients. -/
theorem C36_spin_guard_sided (B : Backends) (G : GlTables) (δ : ℝ) (hδ : 0 < δ) (method : PyStr)
    (hm : method ∈ [mNumpy, mJax, mTorch]) :
    ∃ M : Machine, M.toGlTables = G ∧ (∀ θ, |M.rnd θ - θ| < δ) ∧
      ∀ (lo : ℤ), 0 ≤ lo → lo < 15 →
      (∃ out, sphericalInverse B M (.d2 16 31 fun _ _ => 0) 16 (-8) none sMW method false none lo 0
        = .ok out) ∧
      sphericalInverse B M (.d2 16 31 fun _ _ => 0) 16 8 none sMW method false none lo 0
        = .error .warning := by
  have hv : Scheme.mw.Valid 16 ((none : Option ℤ).getD 0) := ⟨by norm_num, fun h => nomatch h⟩
  have h1 := (C39_nudge G .mw 16 0 (-8) hv (fun h => nomatch h) false).1
  have h2 : ∀ᶠ ε in 𝓝[≠] (0 : ℝ), |ε| < δ := by
    apply Filter.Eventually.filter_mono nhdsWithin_le_nhds
    exact (continuous_abs.tendsto' (0 : ℝ) 0 abs_zero).eventually (gt_mem_nhds hδ)
  obtain ⟨ε, e1, e2⟩ := (h1.and h2).exists
  refine ⟨storedAs G (nudge ε), rfl, fun θ => ?_, fun lo l0 l1 => ⟨?_, ?_⟩⟩
  · show |nudge ε θ - θ| < δ
    unfold nudge
    split_ifs
    · simpa using hδ
    · simpa using e2
  · obtain ⟨out, e, -⟩ := C39_expansion_partial B (storedAs G (nudge ε)) .mw 16 (-8) lo none hv
      (fun h => nomatch h) method hm (by norm_num) (by norm_num)
      ⟨l0, Or.inl (by omega)⟩ (fun _ _ => 0) (fun _ _ _ _ _ _ => rfl) false (fun h => nomatch h)
      (fun h => nomatch h) none (Or.inl rfl) e1 0
    exact ⟨out, e⟩
  · refine ((C36_spin_guard B _ _ 16 8 0 none sMW false none .none lo 0 none method).1 le_rfl ?_).1
    simp only [List.mem_cons, List.not_mem_nil, or_false] at hm ⊢
    tauto

/-- The kernels check the absolute value: the recursion of Price and McEwen is refused when it is
asked for with `|spin| > 6`, whatever the other arguments. -/
theorem C36_kernel_spin (G : GlTables) (L spin : ℤ) (reality : Bool) (s : PyStr)
    (nside : Option ℤ) (forward : Bool) (recursion : PyStr) (h : lower recursion = rPm)
    (hs : 6 < |spin|) :
    spinSphericalKernel G L spin reality s nside forward recursion = .error .valueError ∧
    spinSphericalKernelJax G L spin reality s nside forward recursion = .error .valueError := by
  have : chooseRecursion spin recursion = .error .valueError := by
    unfold chooseRecursion pmMaxStableSpin
    rw [if_pos ⟨h, hs⟩]
  unfold spinSphericalKernel spinSphericalKernelJax
  simp only [this]
  exact ⟨rfl, rfl⟩

/-- A spin beyond every degree is not refused by the base transform, against the property: it returns
the zero signal. -/
theorem C36_base_spin (G : GlTables) (σ : Scheme) (L spin lo : ℤ) (nside : Option ℤ)
    (hv : σ.Valid L (nside.getD 0)) (hhp : σ = .healpix → 2 * nside.getD 0 ≤ L) (h0 : 0 ≤ lo)
    (h1 : lo < L) (flm : ℤ → ℤ → ℂ) (reality : Bool) (hs : L ≤ |spin|) :
    ∃ out, baseInverse G (.d2 L (2 * L - 1) flm) L spin σ.name nside reality lo = .ok out ∧
      ∀ t p, σ.Has L (nside.getD 0) t p →
        out.get2 (σ.pos (nside.getD 0) t p).1 (σ.pos (nside.getD 0) t p).2 = 0 := by
  have hL := hv.1
  obtain ⟨out, e, -, h⟩ := C18_inverse_close G σ L spin lo nside bVec (by simp) hv (fun _ => hhp) h0 h1
    flm reality (fun _ _ h' => by subst h'; simp at hs; omega)
  refine ⟨out, e, fun t p ht => ?_⟩
  obtain ⟨θ, -, -, h⟩ := h t p ht
  rw [h]
  unfold harmonicSum
  refine Finset.sum_eq_zero fun l hl => Finset.sum_eq_zero fun m _ => ?_
  rw [Finset.mem_Ico] at hl
  unfold sYlm
  rw [wignerd_outside _ _ _ _ (Or.inr (by rw [abs_neg]; omega))]
  simp

/-- "jax_healpy" ignores the spin: a transform of any spin is that of spin 0. -/
theorem C36_healpy_spin (B : Backends) (G : Machine) (x : Nd ℂ) (L spin : ℤ)
    (nside : Option ℤ) (s : PyStr) (reality : Bool) (p : Option PmPre) (lo k : ℤ)
    (iter : Option ℤ) :
    sphericalInverse B G x L spin nside s mHealpy reality p lo k
      = sphericalInverse B G x L 0 nside s mHealpy reality p lo k ∧
    sphericalForward B G x L spin nside s mHealpy reality p lo iter k
      = sphericalForward B G x L 0 nside s mHealpy reality p lo iter k := by
  have h1 : ∀ q : Prop, ¬ (q ∧ mHealpy ∈ otfMethods) := fun q h => absurd h.2 (by decide)
  unfold sphericalInverse sphericalForward
  simp only [if_neg (h1 _), if_true, and_self]

/-! ## Refinement steps -/

/-- "jax_ssht" fails for every signal as soon as a refinement step is asked for, against the
property. -/
theorem C36_ssht_iter (B : Backends) (G : Machine) (x : Nd ℂ) (L spin : ℤ)
    (nside : Option ℤ) (s : PyStr) (reality : Bool) (p : Option PmPre) (lo k n : ℤ)
    (hs : lower s ∈ [sMW, sMWSS, sDH, sGL]) (hn : 0 < n) :
    sphericalForward B G x L spin nside s mSsht reality p lo (some n) k = .error .keyError := by
  have h2 : ∀ q : Prop, ¬ (q ∧ mSsht ∈ otfMethods) := fun q h => absurd h.2 (by decide)
  have h4 : ¬ mSsht ∉ sphericalMethods := by decide
  have h5 : ¬ mSsht = mHealpy := by decide
  have hhp : ¬ lower s = sHP := by
    intro h; rw [h] at hs; exact absurd hs (by decide)
  have hk : ∃ i, sshtSampling s = .ok i := by
    unfold sshtSampling
    simp only [List.mem_cons, List.not_mem_nil, or_false] at hs
    rcases hs with h | h | h | h <;> rw [h]
    · exact ⟨0, by decide⟩
    · exact ⟨1, by decide⟩
    · exact ⟨2, by decide⟩
    · exact ⟨3, by decide⟩
  obtain ⟨i, hi⟩ := hk
  unfold sphericalForward
  rw [if_neg h4, if_neg (h2 _)]
  simp only [if_true, if_neg h5, if_neg hhp, hi, Option.getD_some]
  show (if _ then _ else _) = _
  rw [if_pos hn]

theorem sphericalForward_iter (B : Backends) (G : Machine) (f : Nd ℂ) {L spin : ℤ}
    (nside : Option ℤ) (s : PyStr) {method : PyStr} (hmt : method ∈ [mNumpy, mJax, mTorch])
    (hsp : spin < 8) (reality : Bool) (precomps : Option PmPre) (lo k n : ℤ) :
    sphericalForward B G f L spin nside s method reality precomps lo (some n) k
      = refine f n (fun f => otfFwd G method f L spin nside s reality precomps lo)
        (fun flm => otfInv G method flm L spin nside s reality none lo)
        (Nd.map2 (· - ·)) (Nd.map2 (· + ·)) := by
  rcases le_or_gt n 0 with hn | hn
  · rw [C31_zero _ _ hn]
    simp only [List.mem_cons, List.not_mem_nil, or_false] at hmt
    unfold sphericalForward otfForward otfFwd
    rcases hmt with rfl | rfl | rfl
    · rw [if_neg (by decide), if_neg (by omega)]
      simp only [if_neg (show ¬ mNumpy = mHealpy by decide), if_neg (show ¬ mNumpy = mSsht by decide),
        Option.getD_some, if_neg (show ¬ n > 0 by omega), if_true]
    · rw [if_neg (by decide), if_neg (by omega)]
      simp only [if_neg (show ¬ mJax = mHealpy by decide), if_neg (show ¬ mJax = mSsht by decide),
        Option.getD_some, if_neg (show ¬ n > 0 by omega), if_neg (show ¬ mJax = mNumpy by decide),
        if_neg (show ¬ mJax = mJaxCuda by decide)]
    · rw [if_neg (by decide), if_neg (by omega)]
      simp only [if_neg (show ¬ mTorch = mHealpy by decide), if_neg (show ¬ mTorch = mSsht by decide),
        Option.getD_some, if_neg (show ¬ n > 0 by omega), if_neg (show ¬ mTorch = mNumpy by decide),
        if_neg (show ¬ mTorch = mJaxCuda by decide)]
  · simp only [List.mem_cons, List.not_mem_nil, or_false] at hmt
    unfold sphericalForward otfForward otfFwd otfInv otfInverse
    rcases hmt with rfl | rfl | rfl
    · rw [if_neg (by decide), if_neg (by omega)]
      simp only [if_neg (show ¬ mNumpy = mHealpy by decide), if_neg (show ¬ mNumpy = mSsht by decide),
        Option.getD_some, if_pos (show n > 0 by omega), if_true]
    · rw [if_neg (by decide), if_neg (by omega)]
      simp only [if_neg (show ¬ mJax = mHealpy by decide), if_neg (show ¬ mJax = mSsht by decide),
        Option.getD_some, if_pos (show n > 0 by omega), if_neg (show ¬ mJax = mNumpy by decide),
        if_neg (show ¬ mJax = mJaxCuda by decide)]
    · rw [if_neg (by decide), if_neg (by omega)]
      simp only [if_neg (show ¬ mTorch = mHealpy by decide), if_neg (show ¬ mTorch = mSsht by decide),
        Option.getD_some, if_pos (show n > 0 by omega), if_neg (show ¬ mTorch = mNumpy by decide),
        if_neg (show ¬ mTorch = mJaxCuda by decide)]

/-- A property of the coefficients that the plain forward transform establishes and each refinement
step keeps holds of the result. -/
theorem refine_ind {f : Nd ℂ} {n : ℤ} {fwd bwd : Nd ℂ → Except PyErr (Nd ℂ)} (P : Nd ℂ → Prop)
    (h0 : ∃ a, fwd f = .ok a ∧ P a)
    (hs : ∀ a, P a → ∃ v e, bwd a = .ok v ∧ fwd (Nd.map2 (· - ·) f v) = .ok e ∧
      P (Nd.map2 (· + ·) a e)) :
    ∃ a, refine f n fwd bwd (Nd.map2 (· - ·)) (Nd.map2 (· + ·)) = .ok a ∧ P a := by
  obtain ⟨a, ea, ha⟩ := h0
  rcases le_or_gt n 0 with hn | hn
  · exact ⟨a, by rw [C31_zero _ _ hn, ea], ha⟩
  unfold refine
  rw [ea]
  exact forRangeM_ind (lo := 0) (hi := n) hn.le (body := fun _ flm => do
        let f_recov ← bwd flm
        let e ← fwd (Nd.map2 (· - ·) f f_recov)
        pure (Nd.map2 (· + ·) flm e)) (s := a) (P := fun _ => P) ha (by
    intro i w _ _ hw
    obtain ⟨v, e, h1, h2, h3⟩ := hs w hw
    refine ⟨_, ?_, h3⟩
    beta_reduce
    rw [h1]
    show (fwd (Nd.map2 (· - ·) f v) >>= _) = _
    rw [h2]
    rfl)

theorem harmonicSum_rest {lo L spin : ℤ} {c c' : ℤ → ℤ → ℂ} (h0 : 0 ≤ lo) (h1 : lo ≤ L)
    (h : ∀ l m, lo ≤ l → l < L → |m| ≤ l → |spin| ≤ l → c' l m = c l m) (θ φ : ℝ) :
    harmonicSum 0 L spin c θ φ - harmonicSum lo L spin c' θ φ
      = harmonicSum 0 L spin (fun l m => if l < lo then c l m else 0) θ φ := by
  unfold harmonicSum
  have e : ∑ l ∈ Finset.Ico lo L, ∑ m ∈ Finset.Ico (-l) (l + 1), c' l m * sYlm spin l m θ φ
      = ∑ l ∈ Finset.Ico 0 L, if l < lo then 0 else
          ∑ m ∈ Finset.Ico (-l) (l + 1), c' l m * sYlm spin l m θ φ := by
    rw [← Finset.sum_subset (Finset.Ico_subset_Ico_left h0 : Finset.Ico lo L ⊆ Finset.Ico 0 L)]
    · refine Finset.sum_congr rfl fun l hl => ?_
      rw [Finset.mem_Ico] at hl
      rw [if_neg (by omega)]
    · intro l hl hn
      simp only [Finset.mem_Ico] at hl hn
      rw [if_pos (by omega)]
  rw [e, ← Finset.sum_sub_distrib]
  refine Finset.sum_congr rfl fun l hl => ?_
  rw [Finset.mem_Ico] at hl
  by_cases hlo : l < lo
  · simp only [if_pos hlo, sub_zero]
  · simp only [if_neg hlo]
    rw [← Finset.sum_sub_distrib]
    refine Finset.sum_congr rfl fun m hm => ?_
    rw [Finset.mem_Ico] at hm
    by_cases hs : |spin| ≤ l
    · rw [h l m (by omega) hl.2 (abs_le.2 ⟨by omega, by omega⟩) hs]; ring
    · unfold sYlm
      rw [wignerd_outside _ _ _ _ (Or.inr (by rw [abs_neg]; omega))]
      simp

section
variable (B : Backends) (G : Machine) (σ : Scheme) (L spin lo : ℤ) (nside : Option ℤ)

/-- For the other methods every number of refinement steps works, for every signal. -/
theorem C36_iter_partial (hv : σ.Valid L (nside.getD 0)) (method : PyStr)
    (hmt : method ∈ [mNumpy, mJax, mTorch])
    (hhp : σ = .healpix → 2 * nside.getD 0 ≤ L ∧ (method ≠ mNumpy → 2 ≤ nside.getD 0))
    (hsp : |spin| < L) (h8 : spin < 8) (hlo : LowerOk method L lo)
    (f : Nd ℂ) (hf : f.shape = σ.shape L (nside.getD 0))
    (precomps : Option PmPre) (hP : PrecompsArg G L spin σ.name nside true precomps)
    (hr : OtfRegular G σ L (nside.getD 0) spin false)
    (hr' : OtfRegular G σ L (nside.getD 0) spin true) (n k : ℤ) :
    ∃ g, sphericalForward B G f L spin nside σ.name method false precomps lo (some n) k
        = .ok (.d2 L (2 * L - 1) g) ∧
      ∀ el m, 0 ≤ el → el < L → -L < m → m < L → el < max |spin| lo → g el (m + L - 1) = 0 := by
  have hP' := precompsArg_forward (lower_name σ) hv hP
  have fwd : ∀ x : Nd ℂ, x.shape = σ.shape L (nside.getD 0) → ∃ g,
      otfFwd G method x L spin nside σ.name false precomps lo = .ok (.d2 L (2 * L - 1) g) ∧
      ∀ el m, 0 ≤ el → el < L → -L < m → m < L → el < max |spin| lo → g el (m + L - 1) = 0 := by
    intro x hx
    obtain ⟨g, e, h⟩ := otfFwd_values G σ L spin lo nside hv method hhp hsp hlo x hx false
      (fun h => nomatch h) precomps hP' hr'
    exact ⟨g, e, fun el m a b c d hel => by rw [h el m a b c d, if_pos hel]⟩
  rw [sphericalForward_iter B G f nside _ hmt h8]
  obtain ⟨a, e, g, rfl, hg⟩ := refine_ind (f := f) (n := n)
    (fwd := fun f => otfFwd G method f L spin nside σ.name false precomps lo)
    (bwd := fun flm => otfInv G method flm L spin nside σ.name false none lo)
    (fun a => ∃ g, a = .d2 L (2 * L - 1) g ∧
      ∀ el m, 0 ≤ el → el < L → -L < m → m < L → el < max |spin| lo → g el (m + L - 1) = 0)
    (by
      obtain ⟨g, e, h⟩ := fwd f hf
      exact ⟨_, e, g, rfl, h⟩) (by
      rintro _ ⟨a, rfl, ha⟩
      obtain ⟨v, e1, hvs, -⟩ := otfInv_expansion G σ L spin lo nside hv (fun h => (hhp h).1) method hsp
        hlo a (fun el k x0 x1 k0 k1 => by
          have := ha el (k - L + 1) (by have := hlo.1; omega) (by omega) (by omega) (by omega)
            (lt_of_lt_of_le x1 (le_max_left _ _))
          rwa [show k - L + 1 + L - 1 = k by ring] at this) false (fun h => nomatch h)
        (fun h => nomatch h) none (fun _ h => nomatch h) hr
      obtain ⟨d, e2, hd⟩ := fwd (Nd.map2 (· - ·) f v) (by rw [map2_shape _ (by rw [hf, hvs]), hf])
      refine ⟨v, _, e1, e2, fun i j => a i j + d i j, rfl, fun el m x0 x1 m0 m1 hel => ?_⟩
      beta_reduce
      rw [ha el m x0 x1 m0 m1 hel, hd el m x0 x1 m0 m1 hel, add_zero])
  exact ⟨g, e, hg⟩

/-- On the schemes with a sampling theorem the refinement steps change nothing for a band-limited
signal: the coefficients are exact whatever their number. -/
theorem C36_iter_exact_partial (hv : σ.Valid L (nside.getD 0))
    (hσ : SamplingTheorem G.toGlTables σ L) (method : PyStr)
    (hmt : method ∈ [mNumpy, mJax, mTorch]) (hsp : |spin| < L) (h8 : spin < 8)
    (hlo : LowerOk method L lo) (c : ℤ → ℤ → ℂ) (f : Nd ℂ)
    (hf : f.shape = σ.shape L (nside.getD 0))
    (hs : SamplesOf G.nodes σ L (nside.getD 0) f.get2 (harmonicSum 0 L spin c))
    (reality : Bool) (hrs : reality = true → spin = 0) (hre : reality = true → RealHarmonics c 0 L)
    (precomps : Option PmPre) (hP : PrecompsArg G L spin σ.name nside true precomps)
    (hr : OtfRegular G σ L (nside.getD 0) spin false)
    (hr' : OtfRegular G σ L (nside.getD 0) spin true)
    (hst : ExactStored G σ L nside false) (hst' : ExactStored G σ L nside true) (n k : ℤ) :
    ∃ g, sphericalForward B G f L spin nside σ.name method reality precomps lo (some n) k
        = .ok (.d2 L (2 * L - 1) g) ∧
      ∀ el m, 0 ≤ el → el < L → -L < m → m < L →
        g el (m + L - 1) = if max |spin| lo ≤ el ∧ |m| ≤ el then c el m else 0 := by
  have hL := hv.1
  have hP' := precompsArg_forward (lower_name σ) hv hP
  have isd2 : ∀ x : Nd ℂ, x.shape = σ.shape L (nside.getD 0) →
      ∃ v, x = .d2 (σ.rings L (nside.getD 0)) (σ.ringLen L (nside.getD 0) 0) v := by
    intro x hx
    apply Nd.eq_d2
    · revert hσ; cases σ <;> simp [SamplingTheorem, Scheme.rings] <;> omega
    · rw [hx]; revert hσ; cases σ <;> simp [SamplingTheorem, Scheme.shape]
  rw [sphericalForward_iter B G f nside _ hmt h8]
  obtain ⟨a, e, g, rfl, hg⟩ := refine_ind (f := f) (n := n)
    (fwd := fun f => otfFwd G method f L spin nside σ.name reality precomps lo)
    (bwd := fun flm => otfInv G method flm L spin nside σ.name reality none lo)
    (fun a => ∃ g, a = .d2 L (2 * L - 1) g ∧
      ∀ el m, 0 ≤ el → el < L → -L < m → m < L →
        g el (m + L - 1) = if max |spin| lo ≤ el ∧ |m| ≤ el then c el m else 0)
    (by
      obtain ⟨g, e, h⟩ := otfFwd_analysis G σ L spin lo nside hv hσ method hsp hlo c f hf hs reality
        hrs hre precomps hP' hr' hst'
      exact ⟨_, e, g, rfl, h⟩) (by
      rintro _ ⟨a, rfl, ha⟩
      obtain ⟨v, e1, hvs, hval⟩ := otfInv_expansion G σ L spin lo nside hv (fun h => absurd h hσ.1)
        method hsp hlo a (fun el k x0 x1 k0 k1 => by
          have := ha el (k - L + 1) (by have := hlo.1; omega) (by omega) (by omega) (by omega)
          rw [if_neg (fun h => absurd (le_max_left |spin| lo) (by omega))] at this
          rwa [show k - L + 1 + L - 1 = k by ring] at this) reality hrs (by
          intro h1 h2 el x0 x1
          have h0 := hlo.1
          have := ha el 0 (by omega) x1 (by omega) (by omega)
          rw [zero_add] at this
          rw [this]
          split_ifs
          · have := hre h1 el 0 (by omega) x1 (by simp; omega)
            simp only [neg_zero, zpow_zero, one_mul] at this
            exact Complex.conj_eq_iff_im.1 this.symm
          · rfl) none (fun _ h => nomatch h) hr
      have h0 := hlo.1
      -- the part of the signal that the transforms leave out
      obtain ⟨d, e2, hd⟩ := otfFwd_analysis G σ L spin lo nside hv hσ method hsp hlo
        (fun el m => if el < lo then c el m else 0) (Nd.map2 (· - ·) f v)
        (by rw [map2_shape _ (by rw [hf, hvs]), hf]) (by
          have hsub : (Nd.map2 (· - ·) f v).get2 = fun t p => f.get2 t p - v.get2 t p := by
            obtain ⟨u, rfl⟩ := isd2 f hf
            obtain ⟨u', rfl⟩ := isd2 v hvs
            rfl
          intro t p ht
          rw [hsub]
          beta_reduce
          rw [hs t p ht, hval t p ht, show G.rnd (σ.theta G.nodes L (nside.getD 0) t)
            = σ.theta G.nodes L (nside.getD 0) t from hst t ht.1 ht.2.1]
          refine harmonicSum_rest h0 (by rcases hlo.2 with h | h <;> omega) (fun l m l0 l1 hm hl => ?_) _ _
          have hm' := abs_le.1 hm
          have key : ∀ m, |m| ≤ l → a l (m + L - 1) = c l m := by
            intro m hm
            have hm' := abs_le.1 hm
            rw [ha l m (by omega) l1 (by omega) (by omega), if_pos ⟨max_le hl l0, hm⟩]
          unfold coeffs
          split_ifs with hh
          · unfold realCoeffs
            beta_reduce
            split_ifs
            · rw [key (-m) (by rwa [abs_neg])]
              have := hre hh.1 l (-m) (by omega) l1 (by rwa [abs_neg])
              rw [neg_neg] at this
              rw [this, zpow_neg, ← inv_zpow, show ((-1 : ℂ))⁻¹ = -1 by norm_num]
            · exact key m hm
          · exact key m hm) reality hrs (by
          intro h
          intro l m a b hm
          beta_reduce
          split_ifs
          · exact hre h l m a b hm
          · simp) precomps hP' hr' hst'
      refine ⟨v, _, e1, e2, fun i j => a i j + d i j, rfl, fun el m x0 x1 m0 m1 => ?_⟩
      beta_reduce
      rw [ha el m x0 x1 m0 m1, hd el m x0 x1 m0 m1]
      by_cases h : max |spin| lo ≤ el ∧ |m| ≤ el
      · rw [if_pos h, if_pos h, if_neg (by have := le_max_right |spin| lo; omega), add_zero]
      · rw [if_neg h, if_neg h, add_zero])
  exact ⟨g, e, hg⟩

end

/-- Exact angles on a Driscoll–Healy grid meet the hypotheses. -/
example : OtfRegular ⟨⟨fun _ _ => 0, fun _ _ => 0⟩, id⟩ .dh 2 0 1 false ∧ LowerOk mNumpy 2 0 ∧
    ExactStored ⟨⟨fun _ _ => 0, fun _ _ => 0⟩, id⟩ .dh 2 none false ∧
    SamplingTheorem ⟨fun _ _ => 0, fun _ _ => 0⟩ .dh 2 := by
  refine ⟨⟨fun h => absurd h (by decide), fun t t0 t1 => Or.inr ?_⟩, ⟨by norm_num, Or.inl (by norm_num)⟩,
    fun t _ _ => rfl, by decide, fun h => absurd h (by decide)⟩
  unfold kRings at t1
  simp only [Bool.false_eq_true, if_false, Scheme.rings] at t1
  unfold kTheta
  simp only [Bool.false_eq_true, if_false, Scheme.theta, id]
  have hpi := Real.pi_pos
  have h0' : (0 : ℝ) ≤ t := by exact_mod_cast t0
  have h1' : (t : ℝ) + 1 ≤ 4 := by exact_mod_cast (by omega : t + 1 ≤ 4)
  refine ⟨by positivity, ?_, fun el k a b c d => absurd c (by omega)⟩
  push_cast
  rw [div_lt_iff₀ (by norm_num)]
  nlinarith

example : lower "HEALPix".toList = sHP ∧ (none : Option ℤ) = none ∨
    lower "HEALPix".toList ∉ [sMW, sMWSS, sDH, sGL, sHP] := Or.inl ⟨by decide, rfl⟩

end S2fft
