import Verif.Lemmas.Risbo

/-! # C12: the Risbo recursion computes Wigner-d planes

`risbo.compute_full`, `risbo.compute_full_vectorised` and `risbo_jax.compute_full`. -/

namespace S2fft
open Spec

/-- One call: given a plane holding degree `el - 1` (anything for `el = 0`), `compute_full` accepts
a correctly shaped plane, an angle in `[0, π]` and `0 ≤ el < L`, returns the plane of degree `el`,
and leaves the other entries alone. -/
theorem C12_step (dl : ℤ → ℤ → ℝ) (β : ℝ) (L el : ℤ) (h0 : 0 ≤ el) (hL : el < L)
    (hβ : 0 ≤ β) (hβ' : β ≤ Real.pi)
    (hdl : ∀ m n : ℤ, |m| ≤ el - 1 → |n| ≤ el - 1 →
      dl (m + L - 1) (n + L - 1) = wignerd (el - 1) m n β) :
    ∃ d, risboFull (2 * L - 1) (2 * L - 1) dl β L el = .ok d ∧
      (∀ m n : ℤ, |m| ≤ el → |n| ≤ el → d (m + L - 1) (n + L - 1) = wignerd el m n β) ∧
      (∀ m n : ℤ, el < |m| ∨ el < |n| → d (m + L - 1) (n + L - 1) = dl (m + L - 1) (n + L - 1)) := by
  refine ⟨risboStep dl β L el, ?_, risboStep_plane dl β L el h0 (fun _ => hdl),
    risboStep_frame dl β L el h0⟩
  simp [risboFull, risboArgChecks, h0, hL, hβ, hβ', bind, Except.bind, pure, Except.pure]

/-- Running the recursion from an empty plane through degrees `0, …, l` gives the whole plane of
degree `l`, zeros outside `|m|, |n| ≤ l` included. -/
theorem C12_all (β : ℝ) (L l : ℤ) (h0 : 0 ≤ l) (hL : l < L) (hβ : 0 ≤ β) (hβ' : β ≤ Real.pi) :
    ∃ d, forRangeM 0 (l + 1) (fun el dl => risboFull (2 * L - 1) (2 * L - 1) dl β L el)
        (fun _ _ => 0) = .ok d ∧
      ∀ m n : ℤ, |m| < L → |n| < L → d (m + L - 1) (n + L - 1) = wignerd l m n β := by
  obtain ⟨d, hd, hp⟩ := forRangeM_ind (by omega : (0 : ℤ) ≤ l + 1)
    (fun el dl => risboFull (2 * L - 1) (2 * L - 1) dl β L el) (fun _ _ => 0)
    (fun el d => ∀ m n : ℤ, d (m + L - 1) (n + L - 1) = wignerd (el - 1) m n β)
    (fun m n => by
      rw [wignerd_outside]
      have := abs_nonneg m
      omega)
    (fun el d h1 h2 h3 => by
      obtain ⟨d', e1, e2, e3⟩ := C12_step d β L el h1 (by omega) hβ hβ' (fun m n _ _ => h3 m n)
      refine ⟨d', e1, fun m n => ?_⟩
      rw [show el + 1 - 1 = el by ring]
      by_cases h : |m| ≤ el ∧ |n| ≤ el
      · exact e2 m n h.1 h.2
      · rw [e3 m n (by omega), h3, wignerd_outside _ _ _ _ (by omega),
          wignerd_outside _ _ _ _ (by omega)])
  refine ⟨d, hd, fun m n _ _ => ?_⟩
  rw [hp, show l + 1 - 1 = l by ring]

/-- A degree outside the band, a plane of another shape or an angle outside `[0, π]` is rejected. -/
theorem C12_reject (rows cols : ℤ) (dl : ℤ → ℤ → ℝ) (β : ℝ) (L el : ℤ)
    (h : el < 0 ∨ L ≤ el ∨ rows ≠ 2 * L - 1 ∨ cols ≠ 2 * L - 1 ∨ β < 0 ∨ Real.pi < β) :
    risboFull rows cols dl β L el = .error .assertionError := by
  unfold risboFull risboArgChecks
  by_cases h1 : 0 ≤ el ∧ el < L
  · by_cases h2 : rows = cols ∧ cols = 2 * L - 1
    · have h3 : ¬ (0 ≤ β ∧ β ≤ Real.pi) := by
        rintro ⟨a, b⟩
        rcases h with h | h | h | h | h | h
        · omega
        · omega
        · omega
        · omega
        · linarith
        · linarith
      rw [if_neg (by tauto), if_neg (by tauto), if_pos h3]; rfl
    · rw [if_neg (by tauto), if_pos h2]; rfl
  · rw [if_pos h1]; rfl

/-- The vectorised variant computes every angle's plane, as the scalar one does. -/
theorem C12_vectorised (β : ℤ → ℝ) (L l : ℤ) (h0 : 0 ≤ l) (b m n : ℤ) :
    forRange 0 (l + 1) (fun el dl => risboFullVec dl β L el) (fun _ _ _ => 0) b
      (m + L - 1) (n + L - 1) = wignerd l m n (β b) := by
  have := forRange_ind (by omega : (0 : ℤ) ≤ l + 1) (fun el dl => risboFullVec dl β L el)
    (fun _ _ _ => (0 : ℝ))
    (fun el d => ∀ m n : ℤ, d b (m + L - 1) (n + L - 1) = wignerd (el - 1) m n (β b))
    (fun m n => by
      rw [wignerd_outside]
      have := abs_nonneg m
      omega)
    (fun el d h1 h2 h3 m n => by
      rw [risboFullVec_at, show el + 1 - 1 = el by ring]
      by_cases h : |m| ≤ el ∧ |n| ≤ el
      · exact risboStep_plane _ _ _ _ h1 (fun _ m n _ _ => h3 m n) m n h.1 h.2
      · rw [risboStep_frame _ _ _ _ h1 m n (by omega), h3, wignerd_outside _ _ _ _ (by omega),
          wignerd_outside _ _ _ _ (by omega)])
  have := this m n
  rwa [show l + 1 - 1 = l by ring] at this

/-- The JAX variant, one step. -/
theorem C12_jax_step (dl : ℤ → ℤ → ℝ) (β : ℝ) (L el : ℤ) (h0 : 0 ≤ el)
    (hdl : ∀ m n : ℤ, |m| ≤ el - 1 → |n| ≤ el - 1 →
      dl (m + L - 1) (n + L - 1) = wignerd (el - 1) m n β)
    (m n : ℤ) (hm : |m| ≤ el) (hn : |n| ≤ el) :
    risboFullJax dl β L el (m + L - 1) (n + L - 1) = wignerd el m n β := by
  rw [risboFullJax_eq _ _ _ _ h0, if_pos (Or.inl ⟨hm, hn⟩)]
  exact risboStep_plane dl β L el h0 (fun _ => hdl) m n hm hn

/-- The JAX variant, from an empty plane. -/
theorem C12_jax (β : ℝ) (L l : ℤ) (h0 : 0 ≤ l) (m n : ℤ) :
    forRange 0 (l + 1) (fun el dl => risboFullJax dl β L el) (fun _ _ => 0)
      (m + L - 1) (n + L - 1) = wignerd l m n β := by
  have := forRange_ind (by omega : (0 : ℤ) ≤ l + 1) (fun el dl => risboFullJax dl β L el)
    (fun _ _ => (0 : ℝ))
    (fun el d => ∀ m n : ℤ, d (m + L - 1) (n + L - 1) = wignerd (el - 1) m n β)
    (fun m n => by
      rw [wignerd_outside]
      have := abs_nonneg m
      omega)
    (fun el d h1 h2 h3 m n => by
      rw [show el + 1 - 1 = el by ring]
      by_cases h : |m| ≤ el ∧ |n| ≤ el
      · exact C12_jax_step d β L el h1 (fun m n _ _ => h3 m n) m n h.1 h.2
      · rw [risboFullJax_eq _ _ _ _ h1]
        by_cases h' : el ≤ 1
        · rw [if_pos (Or.inr h'), risboStep_frame _ _ _ _ h1 m n (by omega), h3,
            wignerd_outside _ _ _ _ (by omega), wignerd_outside _ _ _ _ (by omega)]
        · rw [if_neg (by omega), h3, wignerd_outside _ _ _ _ (by omega),
            wignerd_outside _ _ _ _ (by omega), zero_div])
  have := this m n
  rwa [show l + 1 - 1 = l by ring] at this

/-- The hypotheses are met and the values are not trivial: the degree-1 plane at `β = π/3`. -/
example : ∃ d, forRangeM 0 2 (fun el dl => risboFull 5 5 dl (Real.pi / 3) 3 el) (fun _ _ => 0)
    = .ok d ∧ d 2 2 = 1 / 2 ∧ d 3 1 = 1 / 4 := by
  have hpi := Real.pi_pos
  obtain ⟨d, h1, h2⟩ := C12_all (Real.pi / 3) 3 1 (by norm_num) (by norm_num) (by linarith)
    (by linarith)
  refine ⟨d, by simpa using h1, ?_, ?_⟩
  · have := h2 0 0 (by norm_num) (by norm_num)
    norm_num at this
    rw [this, (wignerd_one _).2.2.2.2.1, Real.cos_pi_div_three]
  · have := h2 1 (-1) (by norm_num) (by norm_num)
    norm_num at this
    rw [this, (wignerd_one _).2.2.2.2.2.2.1, show Real.pi / 3 / 2 = Real.pi / 6 by ring,
      Real.sin_pi_div_six]
    norm_num

end S2fft
