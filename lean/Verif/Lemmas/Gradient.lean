import Verif.Lemmas.OtfAdjoint
import Verif.Lemmas.OtfRings
import Verif.Lemmas.PrecomputeJax
import Verif.Spec.Gradient
import Verif.Model.Gradient

/-! # The latitudinal steps with their poles -/

namespace S2fft
open Spec

theorem dot2_comm (r c : ℤ) (a b : ℤ → ℤ → ℂ) : dot2 r c a b = dot2 r c b a := by
  unfold dot2
  exact Finset.sum_congr rfl fun _ _ => Finset.sum_congr rfl fun _ _ => mul_comm _ _

theorem sum_Ico_shift' (f : ℤ → ℂ) (n c : ℤ) :
    ∑ i ∈ Finset.Ico 0 n, f (i + c) = ∑ i ∈ Finset.Ico c (n + c), f i := by
  refine Finset.sum_bij (fun i _ => i + c) ?_ ?_ ?_ ?_
  · intro i hi; rw [Finset.mem_Ico] at hi ⊢; omega
  · intro i _ j _ h; exact add_right_cancel h
  · intro j hj; rw [Finset.mem_Ico] at hj
    exact ⟨j - c, by rw [Finset.mem_Ico]; omega, by ring⟩
  · intro i _; rfl

/-- Without the pole rings. -/
theorem otf_dual_sum (g F : ℤ → ℤ → ℂ) {off c nt L : ℤ} {P P' : PmPre} {β β' : ℤ → ℝ}
    (h : ShiftedBy P P' β β' c) (hL : 2 ≤ L) (hoff : 0 ≤ off) (spin : ℤ) (reality : Bool) {lo : ℤ}
    (h0 : 0 ≤ lo) :
    ∑ t ∈ Finset.Ico c (nt + c), ∑ k ∈ Finset.Ico 0 (2 * L - 1 + off),
        g t k * otfSynth P F β L spin off (2 * L - 1 + off) reality lo t k
      = dot2 L (2 * L - 1) (otfAnalyse P' (fun t k => g (t + c) k) β' L spin nt off
          (2 * L - 1 + off) reality lo) F := by
  obtain ⟨h1, h2⟩ := otf_dual g F off c nt h hL hoff spin reality h0
  rw [← sum_Ico_shift' (fun t => ∑ k ∈ Finset.Ico 0 (2 * L - 1 + off),
        g t k * otfSynth P F β L spin off (2 * L - 1 + off) reality lo t k)]
  unfold dot2
  rw [Finset.sum_comm (s := Finset.Ico 0 L)]
  have e : ∀ t, ∑ k ∈ Finset.Ico 0 (2 * L - 1 + off),
        g t k * otfSynth P F β L spin off (2 * L - 1 + off) reality lo t k
      = ∑ D ∈ Finset.Ico 0 (2 * L - 1), g t (D + off)
          * otfSynth P F β L spin off (2 * L - 1 + off) reality lo t (D + off) := by
    intro t
    rw [sum_Ico_shift' (fun k => g t k
          * otfSynth P F β L spin off (2 * L - 1 + off) reality lo t k)]
    symm
    refine Finset.sum_subset (Finset.Ico_subset_Ico_left hoff) ?_
    intro k hk hk'
    rw [Finset.mem_Ico] at hk hk'
    rw [h2 t k (by omega), mul_zero]
  simp only [e]
  rw [Finset.sum_comm]
  refine Finset.sum_congr rfl fun D hD => ?_
  rw [Finset.mem_Ico] at hD
  exact h1 D hD.1 hD.2

theorem dot2_addSouth (A F : ℤ → ℤ → ℂ) {L lo a : ℤ} (spin : ℤ) (h0 : 0 ≤ lo) (a0 : 0 ≤ a)
    (a1 : a < 2 * L - 1) (v : ℂ) :
    dot2 L (2 * L - 1) (addSouth A spin lo a v) F
      = dot2 L (2 * L - 1) A F + v * ∑ el ∈ Finset.Ico lo L, (-1) ^ |el - spin| * F el a := by
  unfold dot2
  have : ∀ l, ∑ k ∈ Finset.Ico 0 (2 * L - 1), addSouth A spin lo a v l k * F l k
      = ∑ k ∈ Finset.Ico 0 (2 * L - 1), A l k * F l k
        + if lo ≤ l then v * ((-1) ^ |l - spin| * F l a) else 0 := by
    intro l
    have e : ∀ k, addSouth A spin lo a v l k * F l k = A l k * F l k
        + if k = a then (if lo ≤ l then v * ((-1) ^ |l - spin| * F l a) else 0) else 0 := by
      intro k
      unfold addSouth
      by_cases h1 : lo ≤ l <;> by_cases h2 : k = a
      · subst h2; rw [if_pos ⟨h1, rfl⟩, if_pos rfl, if_pos h1]; ring
      · rw [if_neg (fun h => h2 h.2), if_neg h2, add_zero]
      · rw [if_neg (fun h => h1 h.1), if_neg h1, if_pos h2, add_zero]
      · rw [if_neg (fun h => h2 h.2), if_neg h2, add_zero]
    simp only [e]
    rw [Finset.sum_add_distrib, Finset.sum_ite_eq', if_pos (Finset.mem_Ico.2 ⟨a0, a1⟩)]
  simp only [this]
  rw [Finset.sum_add_distrib, Finset.mul_sum]
  congr 1
  rw [← Finset.sum_filter]
  refine Finset.sum_congr ?_ fun _ _ => rfl
  ext l
  simp only [Finset.mem_filter, Finset.mem_Ico]
  omega

theorem dot2_addNorth (A F : ℤ → ℤ → ℂ) {L lo a : ℤ} (h0 : 0 ≤ lo) (a0 : 0 ≤ a)
    (a1 : a < 2 * L - 1) (v : ℂ) :
    dot2 L (2 * L - 1) (addNorth A lo a v) F
      = dot2 L (2 * L - 1) A F + v * ∑ el ∈ Finset.Ico lo L, F el a := by
  unfold dot2
  have : ∀ l, ∑ k ∈ Finset.Ico 0 (2 * L - 1), addNorth A lo a v l k * F l k
      = ∑ k ∈ Finset.Ico 0 (2 * L - 1), A l k * F l k
        + if lo ≤ l then v * F l a else 0 := by
    intro l
    have e : ∀ k, addNorth A lo a v l k * F l k = A l k * F l k
        + if k = a then (if lo ≤ l then v * F l a else 0) else 0 := by
      intro k
      unfold addNorth
      by_cases h1 : lo ≤ l <;> by_cases h2 : k = a
      · subst h2; rw [if_pos ⟨h1, rfl⟩, if_pos rfl, if_pos h1]; ring
      · rw [if_neg (fun h => h2 h.2), if_neg h2, add_zero]
      · rw [if_neg (fun h => h1 h.1), if_neg h1, if_pos h2, add_zero]
      · rw [if_neg (fun h => h2 h.2), if_neg h2, add_zero]
    simp only [e]
    rw [Finset.sum_add_distrib, Finset.sum_ite_eq', if_pos (Finset.mem_Ico.2 ⟨a0, a1⟩)]
  simp only [this]
  rw [Finset.sum_add_distrib, Finset.mul_sum]
  congr 1
  rw [← Finset.sum_filter]
  refine Finset.sum_congr ?_ fun _ _ => rfl
  ext l
  simp only [Finset.mem_filter, Finset.mem_Ico]
  omega

theorem sum_single_col (g : ℤ → ℂ) {w b : ℤ} (b0 : 0 ≤ b) (b1 : b < w) (v : ℂ) :
    ∑ k ∈ Finset.Ico 0 w, g k * (if k = b then v else 0) = g b * v := by
  simp only [mul_ite, mul_zero]
  rw [Finset.sum_ite_eq', if_pos (Finset.mem_Ico.2 ⟨b0, b1⟩)]

theorem sum_Ico_first {f : ℤ → ℂ} {a b : ℤ} (h : a < b) :
    ∑ i ∈ Finset.Ico a b, f i = f a + ∑ i ∈ Finset.Ico (a + 1) b, f i := by
  rw [← Finset.insert_Ico_add_one_left_eq_Ico h, Finset.sum_insert (by simp)]

theorem sum_Ico_last {f : ℤ → ℂ} {a b : ℤ} (h : a < b) :
    ∑ i ∈ Finset.Ico a b, f i = ∑ i ∈ Finset.Ico a (b - 1), f i + f (b - 1) := by
  have e : Finset.Ico a b = insert (b - 1) (Finset.Ico a (b - 1)) := by
    ext i
    simp only [Finset.mem_insert, Finset.mem_Ico]
    omega
  rw [e, Finset.sum_insert (by simp)]
  ring

/-- The latitudinal steps are transposes of each other. -/
theorem latitudinal_dual (σ : Scheme) (g F : ℤ → ℤ → ℂ) (β : ℤ → ℝ) {nt L spin lo : ℤ} (hL : 2 ≤ L)
    (hsp : |spin| < L) (h0 : 0 ≤ lo) (hnt : 2 ≤ nt) (reality : Bool) :
    dot2 nt (2 * L - 1 + σ.off) g
        (inverseLatitudinalStepJax F β nt L spin σ.name reality none lo)
      = dot2 L (2 * L - 1) (forwardLatitudinalStepJax g β nt L spin (2 * L - 1 + σ.off) σ.name
          reality none lo) F := by
  have hoff : (0 : ℤ) ≤ σ.off := by cases σ <;> simp [Scheme.off]
  have hm : mOffset σ.name = σ.off := mOffset_name σ
  have hml : mOffsetLower σ.name = σ.off := by
    unfold mOffsetLower; rw [lower_name]; exact hm
  rw [abs_lt] at hsp
  have key := fun (c n : ℤ) => otf_dual_sum g F (nt := n) (off := σ.off)
    (shiftedBy_jax β c L spin) hL hoff spin reality h0
  by_cases hp : σ = .mw ∨ σ = .mwss
  · have hn : lower σ.name = sMW ∨ lower σ.name = sMWSS := by
      rcases hp with rfl | rfl
      · exact Or.inl rfl
      · exact Or.inr (by decide)
    by_cases hss : lower σ.name = sMWSS
    · unfold inverseLatitudinalStepJax forwardLatitudinalStepJax
      simp only [if_pos hn, if_pos hss, hm, hml, Option.getD_none]
      rw [jaxGet_ok (by omega) (by omega), jaxGet_ok (by omega) (by omega), jaxGet_ok (by omega) (by omega),
        jaxGet_ok (by omega) (by omega), jaxSet_eq (by omega), jaxSet_eq (by omega), jaxSet_eq (by omega),
        jaxSet_eq (by omega), dot2_addNorth _ _ h0 (by omega) (by omega),
        dot2_addSouth _ _ _ h0 (by omega) (by omega), ← key 1 (nt - 2), show nt - 2 + 1 = nt - 1 by ring]
      unfold dot2
      rw [sum_Ico_first (by omega : (0 : ℤ) < nt), sum_Ico_last (by omega : 0 + 1 < nt)]
      have e0 : ∀ k, northPole (southPole (otfSynth (generatePrecomputesJax L spin β) F β L spin σ.off
            (2 * L - 1 + σ.off) reality lo) F L spin lo nt (L - 1 + spin) (L - 1 + spin + σ.off)) F L
            lo (L - 1 - spin) (L - 1 - spin + σ.off) 0 k
          = if k = L - 1 - spin + σ.off then ∑ el ∈ Finset.Ico lo L, F el (L - 1 - spin) else 0 := by
        intro k
        unfold northPole
        rw [if_pos rfl]
      have e1 : ∀ k, northPole (southPole (otfSynth (generatePrecomputesJax L spin β) F β L spin σ.off
            (2 * L - 1 + σ.off) reality lo) F L spin lo nt (L - 1 + spin) (L - 1 + spin + σ.off)) F L
            lo (L - 1 - spin) (L - 1 - spin + σ.off) (nt - 1) k
          = if k = L - 1 + spin + σ.off then
              ∑ el ∈ Finset.Ico lo L, (-1) ^ |el - spin| * F el (L - 1 + spin) else 0 := by
        intro k
        unfold northPole southPole
        rw [if_neg (by omega), if_pos rfl]
      simp only [e0, e1]
      rw [sum_single_col _ (by omega) (by omega), sum_single_col _ (by omega) (by omega)]
      have e2 : ∀ t ∈ Finset.Ico (0 + 1) (nt - 1), ∑ k ∈ Finset.Ico 0 (2 * L - 1 + σ.off), g t k *
          northPole (southPole (otfSynth (generatePrecomputesJax L spin β) F β L spin σ.off
            (2 * L - 1 + σ.off) reality lo) F L spin lo nt (L - 1 + spin) (L - 1 + spin + σ.off)) F L
            lo (L - 1 - spin) (L - 1 - spin + σ.off) t k
          = ∑ k ∈ Finset.Ico 0 (2 * L - 1 + σ.off), g t k *
            otfSynth (generatePrecomputesJax L spin β) F β L spin σ.off
            (2 * L - 1 + σ.off) reality lo t k := by
        intro t ht
        rw [Finset.mem_Ico] at ht
        refine Finset.sum_congr rfl fun k _ => ?_
        unfold northPole southPole
        rw [if_neg (by omega), if_neg (by omega)]
      rw [Finset.sum_congr rfl e2, zero_add]
      ring
    · have hmw : lower σ.name = sMW := hn.resolve_right hss
      unfold inverseLatitudinalStepJax forwardLatitudinalStepJax
      simp only [if_pos hn, if_neg hss, if_pos hmw, hm, hml, Option.getD_none]
      rw [jaxGet_ok (by omega) (by omega), jaxGet_ok (by omega) (by omega), jaxSet_eq (by omega),
        jaxSet_eq (by omega), dot2_addSouth _ _ _ h0 (by omega) (by omega), ← key 0 (nt - 1), add_zero]
      unfold dot2
      rw [sum_Ico_last (by omega : 0 < nt)]
      have e1 : ∀ k, southPole (otfSynth (generatePrecomputesJax L spin β) F β L spin σ.off
            (2 * L - 1 + σ.off) reality lo) F L spin lo nt (L - 1 + spin) (L - 1 + spin + σ.off)
            (nt - 1) k
          = if k = L - 1 + spin + σ.off then
              ∑ el ∈ Finset.Ico lo L, (-1) ^ |el - spin| * F el (L - 1 + spin) else 0 := by
        intro k
        unfold southPole
        rw [if_pos rfl]
      simp only [e1]
      rw [sum_single_col _ (by omega) (by omega)]
      have e2 : ∀ t ∈ Finset.Ico 0 (nt - 1), ∑ k ∈ Finset.Ico 0 (2 * L - 1 + σ.off), g t k *
          southPole (otfSynth (generatePrecomputesJax L spin β) F β L spin σ.off
            (2 * L - 1 + σ.off) reality lo) F L spin lo nt (L - 1 + spin) (L - 1 + spin + σ.off) t k
          = ∑ k ∈ Finset.Ico 0 (2 * L - 1 + σ.off), g t k *
            otfSynth (generatePrecomputesJax L spin β) F β L spin σ.off
            (2 * L - 1 + σ.off) reality lo t k := by
        intro t ht
        rw [Finset.mem_Ico] at ht
        refine Finset.sum_congr rfl fun k _ => ?_
        unfold southPole
        rw [if_neg (by omega)]
      rw [Finset.sum_congr rfl e2]
  · have hn : ¬ (lower σ.name = sMW ∨ lower σ.name = sMWSS) := by
      clear key hml hm hoff
      rcases σ with _ | _ | _ | _ | _
      · exact absurd (Or.inl rfl) hp
      · exact absurd (Or.inr rfl) hp
      all_goals decide
    have hn' : lower σ.name ≠ sMWSS := fun h => hn (Or.inr h)
    have hn'' : lower σ.name ≠ sMW := fun h => hn (Or.inl h)
    unfold inverseLatitudinalStepJax forwardLatitudinalStepJax
    simp only [if_neg hn, if_neg hn', if_neg hn'', hm, hml, Option.getD_none]
    have := key 0 nt
    rw [add_zero] at this
    exact this

end S2fft
