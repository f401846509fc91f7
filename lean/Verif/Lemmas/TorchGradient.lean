import Verif.Lemmas.TorchCall

/-!
# The reverse rule of wrapped functions, and wrapped modules
-/

namespace S2fft
namespace TorchWrap

variable {V : Type}

theorem toArray_lazyConj (t : Tensor) : t.lazyConj.toArray = t.toArray.conj := by
  apply JArray.ext'
  · rfl
  · simp only [Tensor.toArray, JArray.conj, List.map_map]
    apply List.map_congr_left
    intro i _
    cases h : t.conj <;> simp [Tensor.get, Tensor.lazyConj, h]

theorem JArray.conj_conj (a : JArray) : a.conj.conj = a := by
  apply JArray.ext'
  · rfl
  · simp [JArray.conj, List.map_map, Function.comp_def]

theorem mapML_leaves {f : Leaf V → Except PyErr (Leaf V)} {α : Type} {g g' : α → Leaf V}
    (h : ∀ x, f (g x) = .ok (g' x)) (l : List α) :
    PyTree.mapML f (l.map fun x => .leaf (g x)) = .ok (l.map fun x => .leaf (g' x)) := by
  induction l with
  | nil => rfl
  | cons x l ih => simp only [List.map_cons, PyTree.mapML, PyTree.mapM, h, ih, ok_bind]; rfl

theorem treeConj_tensors (l : List Tensor) :
    treeConj (.node .tuple (l.map fun t => .leaf (.tensor t)) : PyTree V) =
      .ok (.node .tuple (l.map fun t => .leaf (.tensor t.lazyConj))) := by
  simp only [treeConj, PyTree.mapM]
  rw [mapML_leaves (g := Leaf.tensor) (g' := fun t => .tensor t.lazyConj) (fun _ => rfl)]
  rfl

theorem treeToJax_tensors (l : List Tensor) :
    treeToJax (.node .tuple (l.map fun t => .leaf (.tensor t)) : PyTree V) =
      .ok (.node .tuple (l.map fun t => .leaf (.array t.toArray))) := by
  rw [treeToJax_eq]
  simp [PyTree.asJax, PyTree.map, PyTree.mapL_eq, List.map_map, Function.comp_def, Leaf.asJax]

theorem treeToTorch_arrays (l : List JArray) :
    treeToTorch (.node .tuple (l.map fun t => .leaf (.array t)) : PyTree V) =
      .ok (.node .tuple (l.map fun t => .leaf (.tensor (jaxArrayToTorchTensor t)))) := by
  rw [treeToTorch_eq]
  simp [PyTree.map, PyTree.mapL_eq, List.map_map, Function.comp_def, Leaf.asTorch]

theorem wrappedBackward_one (vjp : PyTree V → Except PyErr (List (PyTree V))) (g : Tensor)
    (rs : List JArray)
    (h : vjp (.leaf (.array g.toArray.conj)) = .ok (rs.map fun r => .leaf (.array r))) :
    wrappedBackward vjp [g] =
      .ok (rs.map fun r => .leaf (.tensor (jaxArrayToTorchTensor r).lazyConj)) := by
  unfold wrappedBackward
  have h2 := treeToJax_tensors (V := V) [g.lazyConj]
  rw [treeConj_tensors]
  simp only [ok_bind, List.map_cons, List.map_nil, toArray_lazyConj] at h2 ⊢
  simp only [h2, ok_bind, PyTree.children, h, treeToTorch_arrays]
  have h3 := treeConj_tensors (V := V) (rs.map jaxArrayToTorchTensor)
  simp only [List.map_map, Function.comp_def] at h3
  simp only [h3, ok_bind, PyTree.children]
  rfl

theorem wrappedBackward_many (vjp : PyTree V → Except PyErr (List (PyTree V))) (gs : List Tensor)
    (h : gs.length ≠ 1) : wrappedBackward vjp gs = .error .typeError := by
  unfold wrappedBackward
  have h2 := treeToJax_tensors (V := V) (gs.map Tensor.lazyConj)
  simp only [List.map_map, Function.comp_def] at h2
  rw [treeConj_tensors]
  simp only [ok_bind, h2, PyTree.children]
  match gs, h with
  | [], _ => rfl
  | _ :: _ :: _, _ => rfl

/-- Wrapping with the default names never fails. -/
theorem wrapAsTorchFunction_default (jt : V → Bool) (avail : Bool) (f : Fn V) :
    ∃ w, wrapAsTorchFunction jt avail f none = .ok w := by
  unfold wrapAsTorchFunction
  simp only
  rw [if_pos]
  · exact ⟨_, rfl⟩
  · rw [List.all_eq_true]
    intro n hn
    obtain ⟨p, hp, rfl⟩ := List.mem_map.1 hn
    exact List.any_eq_true.2 ⟨p, List.mem_of_mem_filter hp, by simp⟩

theorem populateNamespace_spec (jt : V → Bool) (avail : Bool) : ∀ (m : List (PyStr × Member V)),
    (m.map Prod.fst).Nodup → ∀ ns, ∃ ns', populateNamespace jt avail ns m = .ok ns' ∧
      (∀ n f, (n, Member.routine f) ∈ m → n.head? ≠ some '_' →
        ∃ w, wrapAsTorchFunction jt avail f none = .ok w ∧ ns' n = some w) ∧
      ∀ n, (∀ f, (n, Member.routine f) ∈ m → n.head? = some '_') → ns' n = ns n := by
  intro m
  induction m with
  | nil => intro _ ns; exact ⟨ns, rfl, by simp, by simp⟩
  | cons q m ih =>
    intro hnd ns
    simp only [List.map_cons, List.nodup_cons] at hnd
    obtain ⟨k, mem⟩ := q
    cases mem with
    | other =>
      obtain ⟨ns', h1, h2, h3⟩ := ih hnd.2 ns
      refine ⟨ns', h1, ?_, ?_⟩
      · intro n f hm hu
        rcases List.mem_cons.1 hm with h | h
        · cases h
        · exact h2 n f h hu
      · intro n hn
        exact h3 n fun f hf => hn f (List.mem_cons_of_mem _ hf)
    | routine g =>
      by_cases hk : k.head? = some '_'
      · obtain ⟨ns', h1, h2, h3⟩ := ih hnd.2 ns
        refine ⟨ns', by rw [populateNamespace, if_pos hk]; exact h1, ?_, ?_⟩
        · intro n f hm hu
          rcases List.mem_cons.1 hm with h | h
          · cases h; exact absurd hk hu
          · exact h2 n f h hu
        · intro n hn
          exact h3 n fun f hf => hn f (List.mem_cons_of_mem _ hf)
      · obtain ⟨w, hw⟩ := wrapAsTorchFunction_default jt avail g
        obtain ⟨ns', h1, h2, h3⟩ := ih hnd.2 (fun n => if n = k then some w else ns n)
        refine ⟨ns', ?_, ?_, ?_⟩
        · rw [populateNamespace, if_neg hk, hw]
          exact h1
        · intro n f hm hu
          rcases List.mem_cons.1 hm with h | h
          · cases h
            refine ⟨w, hw, ?_⟩
            rw [h3 k, if_pos rfl]
            intro f' hf'
            exact absurd (List.mem_map_of_mem (f := Prod.fst) hf') hnd.1
          · exact h2 n f h hu
        · intro n hn
          have hne : n ≠ k := by
            rintro rfl
            exact hk (hn g (List.mem_cons_self ..))
          rw [h3 n fun f hf => hn f (List.mem_cons_of_mem _ hf), if_neg hne]

end TorchWrap
end S2fft
