import Verif.Spec.Torch

/-!
# Conversions between tensors and arrays
-/

namespace S2fft
namespace TorchWrap

theorem indices_length_of_mem : ∀ (sh : List ℕ) (i : List ℕ), i ∈ indices sh → i.length = sh.length := by
  intro sh
  induction sh with
  | nil => intro i hi; simp [indices] at hi; simp [hi]
  | cons n sh ih =>
    intro i hi
    simp only [indices, List.mem_flatMap, List.mem_map] at hi
    obtain ⟨a, -, j, hj, rfl⟩ := hi
    simp [ih j hj]

/-- Places of the row-major order are visited in order. -/
theorem indices_eq_unravel (sh : List ℕ) :
    indices sh = (List.range sh.prod).map (unravel sh) := by
  induction sh with
  | nil => rfl
  | cons n sh ih =>
    rw [indices, List.prod_cons]
    induction n with
    | zero => simp
    | succ n ihn =>
      rw [List.range_succ, List.flatMap_append, ihn, add_mul, one_mul, List.range_add, List.map_append]
      congr 1
      simp only [List.flatMap_cons, List.flatMap_nil, List.append_nil, ih, List.map_map]
      apply List.map_congr_left
      intro k hk
      have hk : k < sh.prod := by simpa using hk
      simp only [Function.comp, unravel]
      rw [mul_comm n, Nat.mul_add_div (by omega), Nat.mul_add_mod, Nat.div_eq_of_lt hk,
        Nat.mod_eq_of_lt hk, add_zero]

/-- With trivial strides the element at place `k` of the row-major order is `k` further on. -/
theorem place_unravel : ∀ (sh st : List ℕ), stridesTrivial sh st = true → ∀ k, k < sh.prod →
    place st (unravel sh k) = k := by
  intro sh
  induction sh with
  | nil => intro st h k hk; cases st with
    | nil =>
      have hk : k = 0 := by simpa using hk
      simp [place, unravel, hk]
    | cons => simp [stridesTrivial] at h
  | cons n sh ih =>
    intro st h k hk
    cases st with
    | nil => simp [stridesTrivial] at h
    | cons s st =>
      simp only [stridesTrivial, Bool.and_eq_true, Bool.or_eq_true, beq_iff_eq] at h
      rw [List.prod_cons] at hk
      have hpos : 0 < sh.prod := by
        rcases Nat.eq_zero_or_pos sh.prod with h0 | h0
        · rw [h0] at hk; omega
        · exact h0
      have hr := ih st h.2 (k % sh.prod) (Nat.mod_lt _ hpos)
      simp only [place, unravel, List.zipWith_cons_cons, List.sum_cons] at hr ⊢
      rw [hr]
      rcases h.1 with h1 | h1
      · have : k / sh.prod = 0 := by rw [Nat.div_eq_of_lt]; rw [h1] at hk; omega
        rw [this, zero_mul, zero_add, Nat.mod_eq_of_lt]; rw [h1] at hk; omega
      · rw [h1]; exact Nat.div_add_mod' k sh.prod

theorem stridesTrivial_rowMajor : ∀ sh : List ℕ, stridesTrivial sh (rowMajor sh) = true := by
  intro sh
  induction sh with
  | nil => rfl
  | cons n sh ih => simp [stridesTrivial, rowMajor, ih]

theorem JArray.ext' {a b : JArray} (h : a.shape = b.shape) (h' : a.data = b.data) : a = b := by
  cases a; cases b; cases h; cases h'; rfl

theorem getD_map_conj (l : List ℂ) (k : ℕ) :
    (l.map (starRingEnd ℂ)).getD k 0 = (starRingEnd ℂ) (l.getD k 0) := by
  rw [List.getD_eq_getElem?_getD, List.getD_eq_getElem?_getD, List.getElem?_map]
  cases l[k]? <;> simp

/-- Resolving a conjugation keeps what Torch shows. -/
theorem get_resolveConj (t : Tensor) (i : List ℕ) : t.resolveConj.get i = t.get i := by
  unfold Tensor.resolveConj
  split
  · next h => simp only [Tensor.get, h, getD_map_conj, if_true]; simp
  · rfl

/-- Making a tensor contiguous keeps what Torch shows. -/
theorem toArray_contiguous (t : Tensor) : t.contiguous.toArray = t.toArray := by
  unfold Tensor.contiguous
  split
  · rfl
  · apply JArray.ext'
    · rfl
    · simp only [Tensor.toArray, indices_eq_unravel, List.map_map]
      apply List.map_congr_left
      intro k hk
      have hk : k < t.shape.prod := by simpa using hk
      simp only [Function.comp, Tensor.get, zero_add,
        place_unravel _ _ (stridesTrivial_rowMajor t.shape) k hk]
      simp [List.getD_eq_getElem?_getD, hk, Tensor.get]

theorem contiguous_isContiguous (t : Tensor) : t.contiguous.isContiguous = true := by
  unfold Tensor.contiguous
  split
  · assumption
  · simp [Tensor.isContiguous, stridesTrivial_rowMajor]

/-- A tensor without flags is taken as it is. -/
theorem fromDlpack_eq (t : Tensor) (hg : t.grad = false) (hc : t.conj = false)
    (hs : t.isContiguous = true) : fromDlpack t = .ok t.toArray := by
  simp only [fromDlpack, hg, hc, hs]
  simp only [Bool.false_eq_true, if_false, Bool.not_true, Except.ok.injEq]
  apply JArray.ext'
  · rfl
  · simp only [Tensor.toArray, indices_eq_unravel, List.map_map]
    apply List.map_congr_left
    intro k hk
    have hk : k < t.shape.prod := by simpa using hk
    have hst : stridesTrivial t.shape t.strides = true := by
      simp only [Tensor.isContiguous, Bool.or_eq_true, beq_iff_eq] at hs
      rcases hs with h | h
      · omega
      · exact h
    simp [Tensor.get, hc, place_unravel _ _ hst k hk]

/-- The conversion always succeeds and keeps the data. -/
theorem torchTensorToJaxArray_eq (t : Tensor) : torchTensorToJaxArray t = .ok t.toArray := by
  unfold torchTensorToJaxArray
  have hsh : t.contiguous.resolveConj.shape = t.contiguous.shape := by
    unfold Tensor.resolveConj; split <;> rfl
  have hst : t.contiguous.resolveConj.strides = t.contiguous.strides := by
    unfold Tensor.resolveConj; split <;> rfl
  simp only
  rw [fromDlpack_eq]
  · congr 1
    rw [← toArray_contiguous t]
    apply JArray.ext'
    · exact hsh
    · have : t.contiguous.resolveConj.detach.get = t.contiguous.get := by
        funext i; exact get_resolveConj _ i
      simp only [Tensor.toArray, this]
      rw [show t.contiguous.resolveConj.detach.shape = t.contiguous.shape from hsh]
  · rfl
  · simp only [Tensor.detach, Tensor.resolveConj]
    split
    · rfl
    · next h => simpa using h
  · have := contiguous_isContiguous t
    simpa [Tensor.isContiguous, Tensor.detach, hsh, hst] using this

/-- The tensor made from an array holds its data. -/
theorem toArray_jaxArrayToTorchTensor (a : JArray) : (jaxArrayToTorchTensor a).toArray = a := by
  apply JArray.ext'
  · rfl
  · simp only [Tensor.toArray, indices_eq_unravel, List.map_map, jaxArrayToTorchTensor]
    apply List.ext_getElem
    · simp [a.size]
    · intro k h1 h2
      have hk : k < a.shape.prod := by simpa using h1
      simp [Tensor.get, place_unravel _ _ (stridesTrivial_rowMajor a.shape) k hk, h2]

end TorchWrap
end S2fft
