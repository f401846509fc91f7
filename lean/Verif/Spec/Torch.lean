import Verif.Model.TorchWrapper

/-!
# What a wrapped function should do

A tensor and an array hold the same data if they have the same shape and the same element at each
multi-index. A call with tensors should do what the call with arrays of the same data does.
-/

namespace S2fft
namespace TorchWrap

/-- The multi-indices of an array of the given shape, in row-major order. -/
def indices : List ℕ → List (List ℕ)
  | [] => [[]]
  | n :: sh => (List.range n).flatMap fun i => (indices sh).map (i :: ·)

/-- There are as many multi-indices as elements. -/
theorem indices_length (sh : List ℕ) : (indices sh).length = sh.prod := by
  induction sh with
  | nil => rfl
  | cons n sh ih =>
    simp only [indices, List.length_flatMap, List.length_map, ih, List.map_const', List.length_range,
      List.sum_replicate, smul_eq_mul, List.prod_cons]

/-- The array of the elements Torch shows. -/
noncomputable def Tensor.toArray (t : Tensor) : JArray :=
  ⟨t.shape, (indices t.shape).map t.get, by rw [List.length_map, indices_length]⟩

/-- The array of the conjugated elements. -/
noncomputable def JArray.conj (a : JArray) : JArray :=
  ⟨a.shape, a.data.map (starRingEnd ℂ), by rw [List.length_map, a.size]⟩

mutual
/-- A pytree with its leaves replaced. -/
def PyTree.map {V : Type} (f : Leaf V → Leaf V) : PyTree V → PyTree V
  | .leaf x => .leaf (f x)
  | .node k l => .node k (PyTree.mapL f l)
/-- The same for the children of a container. -/
def PyTree.mapL {V : Type} (f : Leaf V → Leaf V) : List (PyTree V) → List (PyTree V)
  | [] => []
  | t :: ts => PyTree.map f t :: PyTree.mapL f ts
end

/-- A leaf with a tensor replaced by the array of the same data. -/
noncomputable def Leaf.asJax {V : Type} : Leaf V → Leaf V
  | .tensor t => .array t.toArray
  | x => x

/-- A pytree with each tensor replaced by the array of the same data. -/
noncomputable def PyTree.asJax {V : Type} (t : PyTree V) : PyTree V := t.map Leaf.asJax

/-- No leaf is a JAX array. -/
def PyTree.NoArray {V : Type} (t : PyTree V) : Prop :=
  t.all (fun | .array _ => false | _ => true) = true

/-- No leaf is a tensor. -/
def PyTree.NoTensor {V : Type} (t : PyTree V) : Prop :=
  t.all (fun | .tensor _ => false | _ => true) = true

/-- Positional arguments with the tensors of the parameters `N` replaced. -/
noncomputable def jaxArgs {V : Type} (N : List PyStr) : List (Param V) → List (PyTree V) → List (PyTree V)
  | p :: ps, a :: as => (if p.name ∈ N then a.asJax else a) :: jaxArgs N ps as
  | _, as => as

/-- Keyword arguments with the tensors of the parameters `N` replaced. -/
noncomputable def jaxKwargs {V : Type} (N : List PyStr) (kw : Kwargs V) : Kwargs V :=
  kw.map fun p => (p.1, if p.1 ∈ N then p.2.asJax else p.2)

/-- JAX takes each leaf as a value, once the tensors are replaced. -/
def PyTree.Numeric {V : Type} (jt : V → Bool) (t : PyTree V) : Prop :=
  t.asJax.all (Leaf.isJax jt) = true

/-- The arguments fit the signature: there are not too many, each keyword names a parameter that got
no positional argument, and each parameter left over has a default. -/
def Fits {V : Type} (sig : List (Param V)) (args : List (PyTree V)) (kw : Kwargs V) : Prop :=
  args.length ≤ sig.length ∧
  (∀ q ∈ kw, ∃ i p, args.length ≤ i ∧ sig[i]? = some p ∧ p.name = q.1) ∧
  ∀ (i : ℕ) (p : Param V), args.length ≤ i → sig[i]? = some p → p.default = none →
    ∃ q ∈ kw, q.1 = p.name

/-- The value parameter number `i` gets: the positional argument if there is one, else the keyword
argument of its name, else the default. -/
def valueFor {V : Type} (args : List (PyTree V)) (kw : Kwargs V) (i : ℕ) (p : Param V) :
    Option (PyTree V) :=
  (args[i]?).or ((kw.get? p.name).or p.default)

/-- JAX takes each leaf of the arguments of the parameters `N` as a value. -/
def NumericArgs {V : Type} (jt : V → Bool) (N : List PyStr) (sig : List (Param V))
    (args : List (PyTree V)) (kw : Kwargs V) : Prop :=
  (∀ (i : ℕ) (p : Param V) (a : PyTree V), sig[i]? = some p → args[i]? = some a → p.name ∈ N →
    a.Numeric jt) ∧
  (∀ p ∈ kw, p.1 ∈ N → p.2.Numeric jt) ∧
  (∀ p ∈ sig, p.name ∈ N → ∀ v, p.default = some v → v.Numeric jt)

end TorchWrap
end S2fft
