import Verif.Py.Basic

/-! # Rules for nested loops that write each location at most once -/

namespace S2fft

theorem forRange2_frame {σ τ : Type*} (lo hi : ℤ) (lo2 hi2 : ℤ → ℤ) (body : ℤ → ℤ → σ → σ)
    (s : σ) (get : σ → τ)
    (h : ∀ i j s, lo ≤ i → i < hi → lo2 i ≤ j → j < hi2 i → get (body i j s) = get s) :
    get (forRange lo hi (fun i s => forRange (lo2 i) (hi2 i) (body i) s) s) = get s :=
  forRange_frame _ _ _ _ _ fun i s h1 h2 =>
    forRange_frame _ _ _ _ _ fun j s h3 h4 => h i j s h1 h2 h3 h4

theorem forRange2_write {σ τ : Type*} (lo hi : ℤ) (lo2 hi2 : ℤ → ℤ) (body : ℤ → ℤ → σ → σ)
    (s : σ) (get : σ → τ) (k1 k2 : ℤ) (v : τ)
    (h1 : lo ≤ k1) (h2 : k1 < hi) (h3 : lo2 k1 ≤ k2) (h4 : k2 < hi2 k1)
    (hk : ∀ s, get (body k1 k2 s) = v)
    (hne : ∀ i j s, lo ≤ i → i < hi → lo2 i ≤ j → j < hi2 i → (i ≠ k1 ∨ j ≠ k2) →
      get (body i j s) = get s) :
    get (forRange lo hi (fun i s => forRange (lo2 i) (hi2 i) (body i) s) s) = v := by
  apply forRange_write (k := k1) (h1 := h1) (h2 := h2)
  · intro s
    apply forRange_write (k := k2) (h1 := h3) (h2 := h4)
    · exact hk
    · intro j s a b c; exact hne k1 j s h1 h2 a b (Or.inr c)
  · intro i s a b c
    exact forRange_frame _ _ _ _ _ fun j s d e => hne i j s a b d e (Or.inl c)

theorem forRange3_frame {σ τ : Type*} (lo hi : ℤ) (lo2 hi2 : ℤ → ℤ) (lo3 hi3 : ℤ → ℤ → ℤ)
    (body : ℤ → ℤ → ℤ → σ → σ) (s : σ) (get : σ → τ)
    (h : ∀ i j k s, lo ≤ i → i < hi → lo2 i ≤ j → j < hi2 i → lo3 i j ≤ k → k < hi3 i j →
      get (body i j k s) = get s) :
    get (forRange lo hi (fun i s => forRange (lo2 i) (hi2 i) (fun j s =>
      forRange (lo3 i j) (hi3 i j) (body i j) s) s) s) = get s :=
  forRange_frame _ _ _ _ _ fun i s h1 h2 =>
    forRange2_frame _ _ _ _ _ _ _ fun j k s h3 h4 h5 h6 => h i j k s h1 h2 h3 h4 h5 h6

theorem forRange3_write {σ τ : Type*} (lo hi : ℤ) (lo2 hi2 : ℤ → ℤ) (lo3 hi3 : ℤ → ℤ → ℤ)
    (body : ℤ → ℤ → ℤ → σ → σ) (s : σ) (get : σ → τ) (k1 k2 k3 : ℤ) (v : τ)
    (h1 : lo ≤ k1) (h2 : k1 < hi) (h3 : lo2 k1 ≤ k2) (h4 : k2 < hi2 k1)
    (h5 : lo3 k1 k2 ≤ k3) (h6 : k3 < hi3 k1 k2)
    (hk : ∀ s, get (body k1 k2 k3 s) = v)
    (hne : ∀ i j k s, lo ≤ i → i < hi → lo2 i ≤ j → j < hi2 i → lo3 i j ≤ k → k < hi3 i j →
      (i ≠ k1 ∨ j ≠ k2 ∨ k ≠ k3) → get (body i j k s) = get s) :
    get (forRange lo hi (fun i s => forRange (lo2 i) (hi2 i) (fun j s =>
      forRange (lo3 i j) (hi3 i j) (body i j) s) s) s) = v := by
  apply forRange_write (k := k1) (h1 := h1) (h2 := h2)
  · intro s
    apply forRange2_write (k1 := k2) (k2 := k3) (h1 := h3) (h2 := h4) (h3 := h5) (h4 := h6)
    · exact hk
    · intro j k s a b c d e; exact hne k1 j k s h1 h2 a b c d (Or.inr e)
  · intro i s a b c
    exact forRange2_frame _ _ _ _ _ _ _ fun j k s d e f g => hne i j k s a b d e f g (Or.inl c)

/-- Two nested accumulating loops give a double sum. -/
theorem forRange2_sum {σ M : Type*} [AddCommMonoid M] (lo hi : ℤ) (lo2 hi2 : ℤ → ℤ)
    (body : ℤ → ℤ → σ → σ) (s : σ) (get : σ → M) (g : ℤ → ℤ → M)
    (h : ∀ i j s, lo ≤ i → i < hi → lo2 i ≤ j → j < hi2 i → get (body i j s) = get s + g i j) :
    get (forRange lo hi (fun i s => forRange (lo2 i) (hi2 i) (body i) s) s)
      = get s + ∑ i ∈ Finset.Ico lo hi, ∑ j ∈ Finset.Ico (lo2 i) (hi2 i), g i j :=
  forRange_sum _ _ _ _ _ _ fun i s h1 h2 =>
    forRange_sum _ _ _ _ _ _ fun j s h3 h4 => h i j s h1 h2 h3 h4

end S2fft
