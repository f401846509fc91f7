import Verif.Lemmas.BaseLower

/-! # C25: `L_lower` masks low degrees -/

namespace S2fft
open Spec

/-- The base inverse transform does not depend on coefficients of degree below `L_lower`, for every
method, sampling, spin and input. -/
theorem C25_base_inverse (G : GlTables) (r c : ℤ) (flm flm' : ℤ → ℤ → ℂ) (L spin L_lower : ℤ)
    (s method : PyStr) (nside : Option ℤ) (reality : Bool)
    (h : ∀ el, L_lower ≤ el → flm el = flm' el) :
    baseInverseWith G (.d2 r c flm) L spin s method nside reality L_lower
      = baseInverseWith G (.d2 r c flm') L spin s method nside reality L_lower := by
  unfold baseInverseWith
  simp only [Nd.shape]
  split_ifs
  · rfl
  · congr 1
    funext θ
    cases hm : inverseMethod method with
    | error e => rfl
    | ok run =>
      show (run flm L spin s θ.1 θ.2 (nside.getD 0) _ L_lower >>= _) = run flm' _ _ _ _ _ _ _ _ >>= _
      rw [inverseMethod_congr h hm]
  · congr 1
    funext θ
    cases hm : inverseMethod method with
    | error e => rfl
    | ok run =>
      show (run flm L spin s θ.1 θ.2 (nside.getD 0) _ L_lower >>= _) = run flm' _ _ _ _ _ _ _ _ >>= _
      rw [inverseMethod_congr h hm]
  · rfl
  · rfl

theorem baseForwardWith_zero {G : GlTables} {f out : Nd ℂ} {L spin L_lower : ℤ}
    {s method : PyStr} {nside : Option ℤ} {reality : Bool}
    (h : baseForwardWith G f L spin s method nside reality L_lower = .ok out) :
    ∃ a, out = .d2 L (2 * L - 1) a ∧ ∀ el j, el < max L_lower |spin| → a el j = 0 := by
  unfold baseForwardWith at h
  cases h1 : f_shape (some L) s nside with
  | error e => rw [h1] at h; cases h
  | ok sh =>
    rw [h1] at h
    simp only [bind, Except.bind] at h
    split_ifs at h
    all_goals
      split at h
      · cases h
      split at h
      · cases h
      split at h
      · cases h
      split at h
      · cases h
      rename_i run hm _ flm hr
      injection h with h
      exact ⟨flm, h.symm, fun el j hel => forwardMethod_zero hm hr hel⟩

/-- The base forward transform returns zero for every degree below `max(|spin|, L_lower)`, for
every method, sampling, spin and input. -/
theorem C25_base_forward (G : GlTables) (f out : Nd ℂ) (L spin L_lower : ℤ) (s method : PyStr)
    (nside : Option ℤ) (reality : Bool)
    (h : baseForwardWith G f L spin s method nside reality L_lower = .ok out) (el j : ℤ)
    (hel : el < max |spin| L_lower) : out.get2 el j = 0 := by
  obtain ⟨a, rfl, ha⟩ := baseForwardWith_zero h
  exact ha el j (by rwa [max_comm])

/-- The same for `forward` with any number of refinement steps. -/
theorem C25_base_forward_iter (G : GlTables) (f out : Nd ℂ) (L spin L_lower iter : ℤ) (s : PyStr)
    (nside : Option ℤ) (reality : Bool)
    (h : baseForward G f L spin s nside reality L_lower iter = .ok out) (el j : ℤ)
    (hel : el < max |spin| L_lower) : out.get2 el j = 0 := by
  unfold baseForward at h
  simp only [] at h
  rw [max_comm] at hel
  split_ifs at h with h0
  · obtain ⟨a, rfl, ha⟩ := baseForwardWith_zero h
    exact ha el j hel
  · unfold refine at h
    beta_reduce at h
    cases h1 : baseForwardWith G f L spin s bVec nside reality L_lower with
    | error e => rw [h1] at h; cases h
    | ok flm =>
      rw [h1] at h
      have key : ∀ r, forRangeM 0 iter (fun _ flm => do
          let f_recov ← baseInverseWith G flm L spin s bVec nside reality L_lower
          let e ← baseForwardWith G (Nd.map2 (· - ·) f f_recov) L spin s bVec nside reality L_lower
          pure (Nd.map2 (· + ·) flm e)) flm = .ok r →
          ∃ a, r = .d2 L (2 * L - 1) a ∧ ∀ el j, el < max L_lower |spin| → a el j = 0 := by
        intro r hr
        refine forRangeM_inv (P := fun r : Nd ℂ =>
          ∃ a, r = .d2 L (2 * L - 1) a ∧ ∀ el j, el < max L_lower |spin| → a el j = 0)
          (baseForwardWith_zero h1) ?_ hr
        rintro _ _ x' ⟨a, rfl, ha⟩ hx
        cases h2 : baseInverseWith G (.d2 L (2 * L - 1) a) L spin s bVec nside reality L_lower with
        | error e => rw [h2] at hx; cases hx
        | ok v =>
          rw [h2] at hx
          simp only [bind, Except.bind] at hx
          split at hx
          · cases hx
          rename_i e he
          obtain ⟨b, rfl, hb⟩ := baseForwardWith_zero he
          injection hx with hx
          exact ⟨_, hx.symm, fun el j hel => by
            show a el j + b el j = 0
            rw [ha el j hel, hb el j hel, add_zero]⟩
      obtain ⟨a, rfl, ha⟩ := key out h
      exact ha el j hel

/-- The hypothesis of the inverse theorem is met by coefficients that do differ below `L_lower`. -/
example : ∃ flm flm' : ℤ → ℤ → ℂ, flm ≠ flm' ∧ ∀ el, 3 ≤ el → flm el = flm' el := by
  refine ⟨fun el _ => if el < 3 then 1 else 2, fun _ _ => 2, ?_, ?_⟩
  · intro h
    have := congrFun (congrFun h 0) 0
    norm_num at this
  · intro el h
    funext j
    exact if_neg (by omega)

end S2fft
