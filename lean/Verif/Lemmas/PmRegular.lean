import Verif.Lemmas.PrecomputeJax
import Verif.Lemmas.WignerZeros
import Mathlib.Topology.Separation.Basic

/-! # The angles at which the recursion of Price and McEwen would divide by zero -/

namespace S2fft
open Spec Topology

theorem pmIrregular_finite (L spin : ℤ) :
    {θ : ℝ | 0 < θ ∧ θ < Real.pi ∧ ¬ PmRegular L spin θ}.Finite := by
  have h : (⋃ el ∈ Finset.Ico |spin| L, ⋃ k ∈ Finset.Ioo (-el) el,
      {θ : ℝ | 0 < θ ∧ θ < Real.pi ∧ wignerd el k (-spin) θ = 0}).Finite := by
    apply Set.Finite.biUnion (Finset.finite_toSet _)
    intro el hel
    apply Set.Finite.biUnion (Finset.finite_toSet _)
    intro k hk
    rw [Finset.mem_coe, Finset.mem_Ico] at hel
    rw [Finset.mem_coe, Finset.mem_Ioo] at hk
    exact wignerd_zeros_finite (by rw [abs_le]; omega) (by rw [abs_neg]; exact hel.1)
  refine h.subset ?_
  rintro θ ⟨h0, h1, h2⟩
  unfold PmRegular at h2
  push Not at h2
  obtain ⟨el, k, a, b, c, d, e⟩ := h2 h0 h1
  simp only [Set.mem_iUnion]
  rw [abs_lt] at d
  exact ⟨el, Finset.mem_Ico.2 ⟨a, b⟩, k, Finset.mem_Ioo.2 d, h0, h1, e⟩

/-- They are isolated. -/
theorem pmRegular_eventually (L spin : ℤ) {θ : ℝ} (h0 : 0 < θ) (h1 : θ < Real.pi) :
    ∀ᶠ β in 𝓝[≠] θ, PmRegular L spin β := by
  have hfin := (pmIrregular_finite L spin).subset
    (Set.diff_subset (t := ({θ} : Set ℝ)))
  have ho : IsOpen ({β : ℝ | 0 < β ∧ β < Real.pi ∧ ¬ PmRegular L spin β} \ {θ})ᶜ :=
    hfin.isClosed.isOpen_compl
  have e1 : ∀ᶠ β in 𝓝 θ, β ∈ ({β : ℝ | 0 < β ∧ β < Real.pi ∧ ¬ PmRegular L spin β} \ {θ})ᶜ :=
    ho.mem_nhds (by simp)
  have e2 : ∀ᶠ β in 𝓝 θ, β ∈ Set.Ioo 0 Real.pi := isOpen_Ioo.mem_nhds ⟨h0, h1⟩
  rw [eventually_nhdsWithin_iff]
  filter_upwards [e1, e2] with β a b c
  by_contra h
  exact a ⟨⟨b.1, b.2, h⟩, c⟩

end S2fft
