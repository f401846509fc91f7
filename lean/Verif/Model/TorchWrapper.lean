import Verif.Py.Basic

/-!
# Calling JAX functions with Torch tensors

Models `s2fft/utils/torch_wrapper.py`.

Elements are complex numbers, whatever the data type. Sharing of memory between a tensor and the
array made from it is not modelled: both are values.
-/

namespace S2fft
namespace TorchWrap

/-! ## Arrays of the two libraries -/

/-- A JAX array: its shape and its elements in row-major order. -/
structure JArray where
  shape : List ℕ
  data : List ℂ
  size : data.length = shape.prod

/-- A Torch tensor as Torch holds it: a strided view of a storage, with the flag for a pending
conjugation (`is_conj`) and the flag `requires_grad`. -/
structure Tensor where
  shape : List ℕ
  strides : List ℕ
  offset : ℕ
  storage : List ℂ
  conj : Bool
  grad : Bool

/-- The multi-index at place `k` of the row-major order of an array of shape `sh`. -/
def unravel : List ℕ → ℕ → List ℕ
  | [], _ => []
  | _ :: sh, k => (k / sh.prod) :: unravel sh (k % sh.prod)

/-- Row-major strides. -/
def rowMajor : List ℕ → List ℕ
  | [] => []
  | _ :: sh => sh.prod :: rowMajor sh

/-- The place in the storage of the element at the multi-index `i`. -/
def place (strides i : List ℕ) : ℕ := (List.zipWith (· * ·) i strides).sum

/-- `tensor[i]`: what Torch shows for the element at the multi-index `i`. -/
noncomputable def Tensor.get (t : Tensor) (i : List ℕ) : ℂ :=
  let v := t.storage.getD (t.offset + place t.strides i) 0
  if t.conj then (starRingEnd ℂ) v else v

/-- The strides are row-major where that matters: a dimension of size one may have any stride. -/
def stridesTrivial : List ℕ → List ℕ → Bool
  | [], [] => true
  | n :: sh, s :: st => (n == 1 || s == sh.prod) && stridesTrivial sh st
  | _, _ => false

/-- `Tensor.is_contiguous`. -/
def Tensor.isContiguous (t : Tensor) : Bool := t.shape.prod == 0 || stridesTrivial t.shape t.strides

/-- `Tensor.contiguous`: the tensor itself if it is contiguous, else a copy. Copying carries pending
conjugations out. -/
noncomputable def Tensor.contiguous (t : Tensor) : Tensor :=
  if t.isContiguous then t
  else ⟨t.shape, rowMajor t.shape, 0, (List.range t.shape.prod).map fun k => t.get (unravel t.shape k),
    false, t.grad⟩

/-- `Tensor.resolve_conj`. -/
noncomputable def Tensor.resolveConj (t : Tensor) : Tensor :=
  if t.conj then { t with storage := t.storage.map (starRingEnd ℂ), conj := false } else t

/-- `Tensor.detach`. -/
def Tensor.detach (t : Tensor) : Tensor := { t with grad := false }

/-- `Tensor.conj` of a complex tensor: sets or clears the flag. -/
def Tensor.lazyConj (t : Tensor) : Tensor := { t with conj := !t.conj }

/-- `jax.dlpack.from_dlpack`: refuses tensors that require gradients, have a pending conjugation, or
strides that are not row-major. It takes the memory as it is. -/
def fromDlpack (t : Tensor) : Except PyErr JArray :=
  if t.grad then .error .runtimeError
  else if t.conj then .error .runtimeError
  else if !t.isContiguous then .error .runtimeError
  else .ok ⟨t.shape, (List.range t.shape.prod).map fun k => t.storage.getD (t.offset + k) 0,
    by simp⟩

/-- `torch_tensor_to_jax_array` (torch_wrapper.py 90-120). -/
noncomputable def torchTensorToJaxArray (t : Tensor) : Except PyErr JArray :=
  let t := t.contiguous
  let t := t.resolveConj
  let t := t.detach
  fromDlpack t

/-- `jax_array_to_torch_tensor` (torch_wrapper.py 71-87): JAX arrays are row-major. -/
def jaxArrayToTorchTensor (a : JArray) : Tensor :=
  ⟨a.shape, rowMajor a.shape, 0, a.data, false, false⟩

/-! ## Pytrees -/

/-- What stands at a leaf of a pytree. `V` is the type of values that are no arrays of either
library. -/
inductive Leaf (V : Type) where
  | tensor (t : Tensor)
  | array (a : JArray)
  | val (v : V)

/-- The containers of a pytree; to JAX `None` is an empty container. -/
inductive Kind where
  | none | tuple | list
  | dict (keys : List PyStr)

/-- A pytree. -/
inductive PyTree (V : Type) where
  | leaf (x : Leaf V)
  | node (k : Kind) (children : List (PyTree V))

mutual
/-- `jax.tree_util.tree_map` of a function that may raise. -/
def PyTree.mapM {V : Type} (f : Leaf V → Except PyErr (Leaf V)) : PyTree V → Except PyErr (PyTree V)
  | .leaf x => do return .leaf (← f x)
  | .node k l => do return .node k (← PyTree.mapML f l)
/-- `tree_map` on the children of a container. -/
def PyTree.mapML {V : Type} (f : Leaf V → Except PyErr (Leaf V)) :
    List (PyTree V) → Except PyErr (List (PyTree V))
  | [] => .ok []
  | t :: ts => do return (← PyTree.mapM f t) :: (← PyTree.mapML f ts)
end

mutual
/-- `tree_all` of a test of the leaves. -/
def PyTree.all {V : Type} (p : Leaf V → Bool) : PyTree V → Bool
  | .leaf x => p x
  | .node _ l => PyTree.allL p l
/-- `tree_all` on the children of a container. -/
def PyTree.allL {V : Type} (p : Leaf V → Bool) : List (PyTree V) → Bool
  | [] => true
  | t :: ts => PyTree.all p t && PyTree.allL p ts
end

/-- `tree_map_jax_array_to_torch_tensor` (torch_wrapper.py 123-139). -/
def treeToTorch {V : Type} : PyTree V → Except PyErr (PyTree V) :=
  PyTree.mapM fun
    | .array a => .ok (.tensor (jaxArrayToTorchTensor a))
    | x => .ok x

/-- `tree_map_torch_tensor_to_jax_array` (torch_wrapper.py 142-156). -/
noncomputable def treeToJax {V : Type} : PyTree V → Except PyErr (PyTree V) :=
  PyTree.mapM fun
    | .tensor t => do return .array (← torchTensorToJaxArray t)
    | x => .ok x

/-- `tree_map(lambda g: g.conj(), tree)` (torch_wrapper.py 231, 235); the leaves are tensors. -/
def treeConj {V : Type} : PyTree V → Except PyErr (PyTree V) :=
  PyTree.mapM fun
    | .tensor t => .ok (.tensor t.lazyConj)
    | _ => .error .attributeError

/-- The entries of a tuple. -/
def PyTree.children {V : Type} : PyTree V → List (PyTree V)
  | .leaf _ => []
  | .node _ l => l

/-! ## Functions and their signatures -/

/-- How a parameter is annotated: with a class that is a JAX array class, or otherwise (another
class, or something that is not a class, such as a string or a generic alias). -/
inductive Annotation where
  | jaxArray | tensor | other
  deriving DecidableEq

/-- A parameter that can be passed by position or by name; the functions of the package have no
others. -/
structure Param (V : Type) where
  name : PyStr
  default : Option (PyTree V)
  annotation : Annotation

/-- A function: its signature, and what it returns for the values of its parameters. -/
structure Fn (V : Type) where
  sig : List (Param V)
  body : List (PyTree V) → Except PyErr (PyTree V)

/-- Keyword arguments. -/
abbrev Kwargs (V : Type) := List (PyStr × PyTree V)

/-- `kwargs[name]`. -/
def Kwargs.get? {V : Type} (kw : Kwargs V) (n : PyStr) : Option (PyTree V) :=
  (kw.find? fun p => p.1 = n).map Prod.snd

/-- The keyword arguments without `name`. -/
def Kwargs.erase {V : Type} (kw : Kwargs V) (n : PyStr) : Kwargs V := kw.filter fun p => p.1 ≠ n

/-- `inspect.Signature.bind` followed by `BoundArguments.apply_defaults`: positional arguments go to
the first parameters, keyword arguments to the parameters of these names, defaults to the rest. -/
def bind {V : Type} : List (Param V) → List (PyTree V) → Kwargs V →
    Except PyErr (List (PyStr × PyTree V))
  | [], [], [] => .ok []
  | [], _, _ => .error .typeError
  | p :: ps, a :: as, kw =>
    if (kw.get? p.name).isSome then .error .typeError
    else do return (p.name, a) :: (← bind ps as kw)
  | p :: ps, [], kw =>
    match kw.get? p.name with
    | some v => do return (p.name, v) :: (← bind ps [] (kw.erase p.name))
    | none =>
      match p.default with
      | some v => do return (p.name, v) :: (← bind ps [] kw)
      | none => .error .typeError

/-- A Python call `f(*args, **kwargs)`. -/
def Fn.call {V : Type} (f : Fn V) (args : List (PyTree V)) (kw : Kwargs V) : Except PyErr (PyTree V) := do
  let b ← bind f.sig args kw
  f.body (b.map Prod.snd)

/-- `bound_args.arguments[name]`. -/
def lookup {V : Type} (b : List (PyStr × PyTree V)) (n : PyStr) : Except PyErr (PyTree V) :=
  match b.find? fun p => p.1 = n with
  | some p => .ok p.2
  | none => .error .keyError

/-- `bound_args.arguments[name] = value` for a name that is there. -/
def assign {V : Type} (b : List (PyStr × PyTree V)) (n : PyStr) (v : PyTree V) : List (PyStr × PyTree V) :=
  b.map fun p => if p.1 = n then (p.1, v) else p

/-- Whether JAX takes the leaf as a value; `jt` says so of values that are no arrays. -/
def Leaf.isJax {V : Type} (jt : V → Bool) : Leaf V → Bool
  | .tensor _ => false
  | .array _ => true
  | .val v => jt v

/-- The first result of `jax.vjp(f, *args)`: the value of `f`, provided the leaves of the arguments
and of the value are JAX types. -/
def jaxVjp {V : Type} (jt : V → Bool) (f : List (PyTree V) → Except PyErr (PyTree V))
    (args : List (PyTree V)) : Except PyErr (PyTree V) :=
  if PyTree.allL (Leaf.isJax jt) args then do
    let out ← f args
    if PyTree.all (Leaf.isJax jt) out then .ok out else .error .typeError
  else .error .typeError

/-- The names `wrap_as_torch_function` takes by default (torch_wrapper.py 182-189). -/
def annotatedNames {V : Type} (sig : List (Param V)) : List PyStr :=
  (sig.filter fun p => p.annotation = .jaxArray).map Param.name

/-- `torch_function` (torch_wrapper.py 195-238), forward: `avail` is `TORCH_AVAILABLE`. -/
noncomputable def torchFunction {V : Type} (jt : V → Bool) (f : Fn V) (names : List PyStr)
    (avail : Bool) (args : List (PyTree V)) (kw : Kwargs V) : Except PyErr (PyTree V) :=
  if !avail then .error .runtimeError
  else do
    let bound ← bind f.sig args kw
    let diff ← names.mapM (lookup bound)
    let jaxFunctionDiffArgsOnly := fun (d : List (PyTree V)) =>
      let bound := (names.zip d).foldl (fun b p => assign b p.1 p.2) bound
      f.call (bound.map Prod.snd) []
    -- `WrappedJaxFunction.forward`
    let diff ← treeToJax (.node .tuple diff)
    let out ← jaxVjp jt jaxFunctionDiffArgsOnly diff.children
    treeToTorch out

/-- `wrap_as_torch_function` (torch_wrapper.py 159-246) without the docstring: the wrapped function
has the signature with the annotations exchanged. -/
noncomputable def wrapAsTorchFunction {V : Type} (jt : V → Bool) (avail : Bool) (f : Fn V)
    (names : Option (List PyStr)) :
    Except PyErr (List (Param V) × (List (PyTree V) → Kwargs V → Except PyErr (PyTree V))) :=
  let names := match names with
    | some ns => ns
    | none => annotatedNames f.sig
  if names.all fun n => f.sig.any fun p => p.name = n then
    .ok (f.sig.map fun p =>
        { p with annotation := if p.annotation = .jaxArray then .tensor else p.annotation },
      torchFunction jt f names avail)
  else .error .valueError

/-- `WrappedJaxFunction.backward` (torch_wrapper.py 225-236): `vjp` is the function `jax.vjp`
returned, from a cotangent to one cotangent for each differentiable argument. It takes exactly one
argument. The incoming gradients are one for each output. -/
noncomputable def wrappedBackward {V : Type} (vjp : PyTree V → Except PyErr (List (PyTree V)))
    (grads : List Tensor) : Except PyErr (List (PyTree V)) := do
  let grads ← treeConj (.node .tuple (grads.map fun g => .leaf (.tensor g)))
  let cts ← treeToJax grads
  let r ← match cts.children with
    | [ct] => vjp ct
    | _ => .error .typeError
  let r ← treeToTorch (.node .tuple r)
  let r ← treeConj r
  return r.children

/-- What a module holds under a name: a function or something else. -/
inductive Member (V : Type) where
  | routine (f : Fn V)
  | other

/-- `populate_namespace_by_wrapping_functions_in_module` (torch_wrapper.py 249-264). A namespace
maps names to wrapped functions; assigning replaces. -/
noncomputable def populateNamespace {V : Type} (jt : V → Bool) (avail : Bool)
    (ns : PyStr → Option (List (Param V) × (List (PyTree V) → Kwargs V → Except PyErr (PyTree V)))) :
    List (PyStr × Member V) →
    Except PyErr (PyStr → Option (List (Param V) × (List (PyTree V) → Kwargs V → Except PyErr (PyTree V))))
  | [] => .ok ns
  | (_, .other) :: rest => populateNamespace jt avail ns rest
  | (n, .routine f) :: rest =>
    if n.head? = some '_' then populateNamespace jt avail ns rest
    else do
      let w ← wrapAsTorchFunction jt avail f none
      populateNamespace jt avail (fun k => if k = n then some w else ns k) rest

/-! ## Signatures of the functions the package wraps

Each entry is a parameter and whether it is annotated as `jnp.ndarray`, which is `jax.Array`. -/

/-- The wrapped transforms of `transforms/spherical.py` (212-223 with `x = flm`, 592-603 with
`x = f`). -/
def sphericalSig (x : String) : List (String × Bool) :=
  [(x, true), ("L", false), ("spin", false), ("nside", false), ("sampling", false),
    ("reality", false), ("precomps", false), ("spmd", false), ("L_lower", false),
    ("use_healpix_custom_primitive", false)]

/-- The wrapped transforms of `transforms/wigner.py` (200-209 with `x = flmn`, 537-546 with
`x = f`). -/
def wignerSig (x : String) : List (String × Bool) :=
  [(x, true), ("L", false), ("N", false), ("nside", false), ("sampling", false), ("reality", false),
    ("precomps", false), ("L_lower", false)]

/-- The wrapped transforms of `precompute_transforms/spherical.py` (153-161, 384-392). -/
def precomputeSphericalSig (x : String) : List (String × Bool) :=
  [(x, true), ("kernel", true), ("L", false), ("sampling", false), ("reality", false),
    ("spin", false), ("nside", false)]

/-- The wrapped transforms of `precompute_transforms/wigner.py` (142-150, 374-382). -/
def precomputeWignerSig (x : String) : List (String × Bool) :=
  [(x, true), ("kernel", true), ("L", false), ("N", false), ("sampling", false), ("reality", false),
    ("nside", false)]

/-- `spin_spherical_kernel_jax` (precompute_transforms/construct.py 164-172). -/
def sphericalKernelSig : List (String × Bool) :=
  [("L", false), ("spin", false), ("reality", false), ("sampling", false), ("nside", false),
    ("forward", false), ("recursion", false)]

/-- `wigner_kernel_jax` (precompute_transforms/construct.py 471-479). -/
def wignerKernelSig : List (String × Bool) :=
  [("L", false), ("N", false), ("reality", false), ("sampling", false), ("nside", false),
    ("forward", false), ("mode", false)]

/-- `healpix_fft_jax` and `healpix_ifft_jax` (utils/healpix_ffts.py 230, 375-377). -/
def healpixFftSig (x : String) : List (String × Bool) :=
  [(x, true), ("L", false), ("nside", false), ("reality", false)]

/-- The function has this signature. -/
def Fn.HasSig {V : Type} (f : Fn V) (s : List (String × Bool)) : Prop :=
  f.sig.map (fun p => (p.name, decide (p.annotation = .jaxArray))) =
    s.map fun q => (q.1.toList, q.2)

end TorchWrap
end S2fft
