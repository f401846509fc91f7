import Verif.Lemmas.TorchGradient
import Verif.Lemmas.TorchBind

/-! # C41: functions wrapped for Torch do what the JAX functions do -/

namespace S2fft
open TorchWrap

/-- Every tensor can be turned into an array, whatever its strides, offset and flags; the array has
its shape and, at each multi-index, the element Torch shows. -/
theorem C41_tensor_to_array (t : Tensor) : torchTensorToJaxArray t = .ok t.toArray :=
  torchTensorToJaxArray_eq t

/-- A tensor made from an array holds its data, requires no gradient and has no pending conjugation;
so turning it back gives the array. -/
theorem C41_array_to_tensor (a : JArray) :
    (jaxArrayToTorchTensor a).toArray = a ∧ (jaxArrayToTorchTensor a).grad = false ∧
      (jaxArrayToTorchTensor a).conj = false ∧
      torchTensorToJaxArray (jaxArrayToTorchTensor a) = .ok a := by
  refine ⟨toArray_jaxArrayToTorchTensor a, rfl, rfl, ?_⟩
  rw [torchTensorToJaxArray_eq, toArray_jaxArrayToTorchTensor]

/-- A transposed view of the array `[[1, i, 0], [0, 2, 3i]]` with a pending conjugation is neither
contiguous nor free of flags. -/
example : ∃ t : Tensor, t.isContiguous = false ∧ t.conj = true ∧ t.grad = true ∧
    t.get [1, 0] = -Complex.I ∧ t.get [2, 1] = -3 * Complex.I ∧ t.toArray.shape = [3, 2] := by
  refine ⟨⟨[3, 2], [1, 3], 0, [1, Complex.I, 0, 0, 2, 3 * Complex.I], true, true⟩, ?_, rfl, rfl, ?_, ?_,
    rfl⟩
  · decide
  · simp [Tensor.get, place]
  · simp [Tensor.get, place, Complex.conj_ofNat]

section
variable {V : Type} {jt : V → Bool} {f : Fn V} {names : Option (List PyStr)} {sig : List (Param V)}
  {w : List (PyTree V) → Kwargs V → Except PyErr (PyTree V)}

/-- A call of the wrapped function is a call of the JAX function in which the tensors given to the
named parameters (by default those annotated as JAX arrays) are replaced by the arrays of the same
data, and every other argument is passed as it is. If that call raises, the wrapped call raises the
same; wrong numbers or names of arguments are such a case. If it returns, the wrapped call returns a
value of the same structure in which tensors of the same data stand for the arrays. -/
theorem C41_call (hw : wrapAsTorchFunction jt true f names = .ok (sig, w))
    (hnd : (f.sig.map Param.name).Nodup)
    (hdef : ∀ p ∈ f.sig, ∀ v, p.default = some v → v.NoTensor) (args : List (PyTree V)) (kw : Kwargs V)
    (hnum : NumericArgs jt (names.getD (annotatedNames f.sig)) f.sig args kw) :
    match f.call (jaxArgs (names.getD (annotatedNames f.sig)) f.sig args)
        (jaxKwargs (names.getD (annotatedNames f.sig)) kw) with
    | .error e => w args kw = .error e
    | .ok out => out.all (Leaf.isJax jt) = true →
        ∃ r, w args kw = .ok r ∧ r.asJax = out ∧ r.NoArray := by
  obtain ⟨rfl, hN⟩ := wrapAsTorchFunction_ok hw
  generalize names.getD (annotatedNames f.sig) = N at *
  have hb := bind_jax N f.sig hdef args kw
  cases hbind : bind f.sig args kw with
  | error e =>
    rw [hbind] at hb
    simp only [Fn.call, hb]
    exact torchFunction_bind_error jt f N args kw e hbind
  | ok b =>
    rw [hbind] at hb
    have ht := torchFunction_eq jt f N hN hnd args kw b hbind
      (bind_numeric jt N f.sig args kw b hnum hbind)
    have hc : f.call (jaxArgs N f.sig args) (jaxKwargs N kw) = f.body (b.map fun p => (conv N p).2) := by
      simp only [Fn.call, hb]
      show f.body ((b.map (conv N)).map Prod.snd) = _
      rw [List.map_map]
      rfl
    rw [hc]
    rw [ht]
    cases f.body (b.map fun p => (conv N p).2) with
    | error e => rfl
    | ok out =>
      intro hout
      refine ⟨out.map Leaf.asTorch, ?_, PyTree.asJax_asTorch (PyTree.noTensor_of_isJax hout),
        PyTree.noArray_asTorch⟩
      simp only [ok_bind, hout, if_true, treeToTorch_eq]

/-- A call takes exactly the arguments that fit the signature, and raises a `TypeError` for others;
the body of the function gets for each parameter the positional argument, else the keyword argument,
else the default. -/
theorem C41_arguments (hnd : (f.sig.map Param.name).Nodup) (args : List (PyTree V)) (kw : Kwargs V) :
    (Fits f.sig args kw → ∃ vals : List (PyTree V), f.call args kw = f.body vals ∧
      vals.length = f.sig.length ∧
      ∀ i p, f.sig[i]? = some p → vals[i]? = valueFor args kw i p) ∧
    (¬ Fits f.sig args kw → f.call args kw = .error .typeError ∧
      (wrapAsTorchFunction jt true f names = .ok (sig, w) → w args kw = .error .typeError)) := by
  constructor
  · intro h
    obtain ⟨b, hb, hl, hv⟩ := bind_fits f.sig hnd args kw h
    refine ⟨b.map Prod.snd, ?_, by simpa using hl, ?_⟩
    · simp only [Fn.call, hb]; rfl
    · intro i p hp
      rw [List.getElem?_map]
      exact hv i p hp
  · intro h
    have hb : bind f.sig args kw = .error .typeError := by
      cases hb : bind f.sig args kw with
      | ok b => exact absurd (fits_of_bind _ _ _ _ hb) h
      | error e => rw [bind_error _ _ _ _ hb]
    refine ⟨?_, ?_⟩
    · simp only [Fn.call, hb]; rfl
    · intro hw
      obtain ⟨rfl, -⟩ := wrapAsTorchFunction_ok hw
      exact torchFunction_bind_error jt f _ args kw _ hb

/-- Names that are no parameters are refused when wrapping, with a `ValueError`, and only these; the
default names never are. The annotations of the wrapped function say tensor where those of the
function say JAX array; nothing else of the signature changes. -/
theorem C41_names (avail : Bool) (f : Fn V) (names : Option (List PyStr)) :
    ((∃ ns, names = some ns ∧ ∃ n ∈ ns, n ∉ f.sig.map Param.name) →
      wrapAsTorchFunction jt avail f names = .error .valueError) ∧
    ((∀ ns, names = some ns → ∀ n ∈ ns, n ∈ f.sig.map Param.name) →
      ∃ sig w, wrapAsTorchFunction jt avail f names = .ok (sig, w) ∧
        sig.length = f.sig.length ∧
        ∀ (i : ℕ) (p : Param V), f.sig[i]? = some p → ∃ q, sig[i]? = some q ∧ q.name = p.name ∧
          q.default = p.default ∧ (p.annotation = .jaxArray → q.annotation = .tensor) ∧
          (p.annotation ≠ .jaxArray → q.annotation = p.annotation)) := by
  constructor
  · rintro ⟨ns, rfl, n, hn, hno⟩
    simp only [wrapAsTorchFunction]
    rw [if_neg]
    intro h
    have := List.all_eq_true.1 h n hn
    exact hno (by simpa using this)
  · intro h
    have hok : (match names with
        | some ns => ns
        | none => annotatedNames f.sig).all (fun n => f.sig.any fun p => p.name = n) = true := by
      rw [List.all_eq_true]
      intro n hn
      cases names with
      | some ns => have := h ns rfl n hn; simpa using this
      | none =>
        obtain ⟨p, hp, rfl⟩ := List.mem_map.1 hn
        exact List.any_eq_true.2 ⟨p, List.mem_of_mem_filter hp, by simp⟩
    refine ⟨_, _, by simp only [wrapAsTorchFunction]; rw [if_pos]; exact hok, by simp, ?_⟩
    intro i p hp
    refine ⟨{ p with annotation := if p.annotation = .jaxArray then .tensor else p.annotation },
      by rw [List.getElem?_map, hp]; rfl, rfl, rfl, ?_, ?_⟩
    · intro h; simp [h]
    · intro h; simp [h]

/-- Without Torch installed functions can be wrapped but not called. -/
theorem C41_torch_missing (hw : wrapAsTorchFunction jt false f names = .ok (sig, w))
    (args : List (PyTree V)) (kw : Kwargs V) : w args kw = .error .runtimeError := by
  obtain ⟨rfl, -⟩ := wrapAsTorchFunction_ok hw
  rfl

/-- The gradients of a function with one output: conjugated before and after the reverse rule of
JAX, whatever the strides and flags of the incoming gradient. -/
theorem C41_gradient (vjp : PyTree V → Except PyErr (List (PyTree V))) (g : Tensor) (rs : List JArray)
    (h : vjp (.leaf (.array g.toArray.conj)) = .ok (rs.map fun r => .leaf (.array r))) :
    ∃ ts : List Tensor, wrappedBackward vjp [g] = .ok (ts.map fun t => .leaf (.tensor t)) ∧
      ts.map Tensor.toArray = rs.map JArray.conj := by
  refine ⟨rs.map fun r => (jaxArrayToTorchTensor r).lazyConj, ?_, ?_⟩
  · rw [wrappedBackward_one vjp g rs h, List.map_map]; rfl
  · rw [List.map_map]
    apply List.map_congr_left
    intro r _
    rw [Function.comp, toArray_lazyConj, toArray_jaxArrayToTorchTensor]

/-- The gradients of a function with no outputs or several cannot be computed: a `TypeError`. -/
theorem C41_gradient_tuple (vjp : PyTree V → Except PyErr (List (PyTree V))) (gs : List Tensor)
    (h : gs.length ≠ 1) : wrappedBackward vjp gs = .error .typeError :=
  wrappedBackward_many vjp gs h

/-- A module of wrapped functions has a wrapped function for each function of the source module
whose name does not begin with an underscore, and is otherwise as it was. -/
theorem C41_module (avail : Bool) (m : List (PyStr × Member V)) (hm : (m.map Prod.fst).Nodup)
    (ns : PyStr → Option (List (Param V) × (List (PyTree V) → Kwargs V → Except PyErr (PyTree V)))) :
    ∃ ns', populateNamespace jt avail ns m = .ok ns' ∧
      (∀ n f, (n, Member.routine f) ∈ m → n.head? ≠ some '_' →
        ∃ w, wrapAsTorchFunction jt avail f none = .ok w ∧ ns' n = some w) ∧
      ∀ n, (∀ f, (n, Member.routine f) ∈ m → n.head? = some '_') → ns' n = ns n :=
  populateNamespace_spec jt avail m hm ns

/-- The names with the flag set. -/
theorem annotatedNames_of_sig {s : List (String × Bool)} (h : f.HasSig s) :
    annotatedNames f.sig = (s.filter fun q => q.2).map fun q => q.1.toList := by
  have key : ∀ (l : List (Param V)) (s : List (String × Bool)),
      l.map (fun p => (p.name, decide (p.annotation = .jaxArray))) = s.map (fun q => (q.1.toList, q.2)) →
      annotatedNames l = (s.filter fun q => q.2).map fun q => q.1.toList := by
    intro l
    induction l with
    | nil => intro s h; cases s with
      | nil => rfl
      | cons _ _ => cases h
    | cons p l ih =>
      intro s h
      cases s with
      | nil => cases h
      | cons q s =>
        simp only [List.map_cons, List.cons.injEq, Prod.mk.injEq] at h
        have := ih s h.2
        unfold annotatedNames at this ⊢
        by_cases hp : p.annotation = .jaxArray
        · have hq : q.2 = true := by rw [← h.1.2]; simpa using hp
          rw [List.filter_cons_of_pos (by simpa using hp), List.filter_cons_of_pos hq,
            List.map_cons, List.map_cons, this, h.1.1]
        · have hq : ¬ q.2 = true := by rw [← h.1.2]; simpa using hp
          rw [List.filter_cons_of_neg (by simpa using hp), List.filter_cons_of_neg hq, this]
  exact key _ _ h

/-- Of the transforms the package wraps, the arguments that are converted are the signal or the
coefficients and, where there is one, the kernel; of the functions making kernels, none. -/
theorem C41_converted (x : String) :
    (f.HasSig (sphericalSig x) → annotatedNames f.sig = [x.toList]) ∧
    (f.HasSig (wignerSig x) → annotatedNames f.sig = [x.toList]) ∧
    (f.HasSig (precomputeSphericalSig x) → annotatedNames f.sig = [x.toList, "kernel".toList]) ∧
    (f.HasSig (precomputeWignerSig x) → annotatedNames f.sig = [x.toList, "kernel".toList]) ∧
    (f.HasSig (healpixFftSig x) → annotatedNames f.sig = [x.toList]) ∧
    (f.HasSig sphericalKernelSig → annotatedNames f.sig = []) ∧
    (f.HasSig wignerKernelSig → annotatedNames f.sig = []) := by
  refine ⟨?_, ?_, ?_, ?_, ?_, ?_, ?_⟩ <;> intro h <;> rw [annotatedNames_of_sig h] <;> rfl

end

/-- The wrapped spherical transforms document the recursion coefficients `precomps` as a list of
tensors, but tensors in it are not converted: a function that, as JAX functions do, refuses tensors
raises, though it takes the same data as JAX arrays. -/
theorem C41_precomps_not_converted : ∃ (f : Fn Unit) (sig : List (Param Unit))
    (w : List (PyTree Unit) → Kwargs Unit → Except PyErr (PyTree Unit)) (x p : PyTree Unit),
    f.HasSig (sphericalSig "flm") ∧ wrapAsTorchFunction (fun _ => true) true f none = .ok (sig, w) ∧
    x.NoArray ∧ p.NoArray ∧
    (∃ out, f.call [x.asJax] [("precomps".toList, p.asJax)] = .ok out) ∧
    w [x] [("precomps".toList, p)] = .error .typeError := by
  let t : Tensor := ⟨[1], [1], 0, [1], false, false⟩
  let f : Fn Unit := ⟨(sphericalSig "flm").map fun q =>
      ⟨q.1.toList, some (.node .none []), if q.2 then .jaxArray else .other⟩,
    fun vals => if PyTree.allL (Leaf.isJax fun _ => true) vals then .ok (.node .none [])
      else .error .typeError⟩
  have hw := C41_names (jt := fun _ => true) true f none
  obtain ⟨sig, w, hw, -⟩ := hw.2 (by intro ns h; cases h)
  have hnd : (f.sig.map Param.name).Nodup := by decide
  have hN : annotatedNames f.sig = ["flm".toList] := rfl
  refine ⟨f, sig, w, .leaf (.tensor t), .node .list [.leaf (.tensor t)], rfl, hw, rfl, rfl, ?_, ?_⟩
  · exact ⟨.node .none [], rfl⟩
  · have := C41_call hw hnd (by
      intro p hp v hv
      obtain ⟨q, -, rfl⟩ := List.mem_map.1 hp
      cases hv
      rfl) [.leaf (.tensor t)] [("precomps".toList, .node .list [.leaf (.tensor t)])] (by
      refine ⟨?_, ?_, ?_⟩
      · intro i p a _ ha _
        cases i with
        | zero => cases ha; rfl
        | succ i => simp at ha
      · intro p hp hpN
        simp only [List.mem_singleton] at hp
        subst hp
        simp [hN] at hpN
      · intro p hp _ v hv
        obtain ⟨q, -, rfl⟩ := List.mem_map.1 hp
        cases hv
        rfl)
    have hc : f.call (jaxArgs ((none : Option (List PyStr)).getD (annotatedNames f.sig)) f.sig
        [.leaf (.tensor t)]) (jaxKwargs ((none : Option (List PyStr)).getD (annotatedNames f.sig))
        [("precomps".toList, .node .list [.leaf (.tensor t)])]) = .error .typeError := rfl
    rw [hc] at this
    exact this

/-- The hypotheses of `C41_call` are met: the spherical inverse called with a tensor that requires a
gradient and two keyword arguments. -/
example : ∃ (f : Fn ℤ) (sig : List (Param ℤ))
    (w : List (PyTree ℤ) → Kwargs ℤ → Except PyErr (PyTree ℤ)) (x : PyTree ℤ) (kw : Kwargs ℤ),
    f.HasSig (sphericalSig "flm") ∧ wrapAsTorchFunction (fun _ => true) true f none = .ok (sig, w) ∧
    (f.sig.map Param.name).Nodup ∧ (∀ p ∈ f.sig, ∀ v, p.default = some v → v.NoTensor) ∧
    NumericArgs (fun _ => true) (annotatedNames f.sig) f.sig [x] kw ∧ kw.length = 2 ∧
    Fits f.sig [x] kw ∧ x.NoArray ∧ ¬ x.NoTensor := by
  let f : Fn ℤ := ⟨(sphericalSig "flm").map fun q =>
      ⟨q.1.toList, if q.1 = "flm" ∨ q.1 = "L" then none else some (.leaf (.val 0)),
        if q.2 then .jaxArray else .other⟩,
    fun vals => .ok (vals.getD 0 (.node .none []))⟩
  obtain ⟨sig, w, hw, -⟩ := (C41_names (jt := fun _ => true) true f none).2 (by intro ns h; cases h)
  let t : Tensor := ⟨[1], [1], 0, [Complex.I], true, true⟩
  let kw : Kwargs ℤ := [("spin".toList, .leaf (.val 1)), ("L".toList, .leaf (.val 4))]
  have hN : annotatedNames f.sig = ["flm".toList] := rfl
  have hd : ∀ p ∈ f.sig, ∀ v, p.default = some v → v = .leaf (.val 0) := by
    intro p hp v hv
    obtain ⟨q, -, rfl⟩ := List.mem_map.1 hp
    simp only at hv
    split at hv
    · cases hv
    · cases hv; rfl
  refine ⟨f, sig, w, .leaf (.tensor t), kw, rfl, hw, by decide, ?_, ?_, rfl, ?_, rfl, by
    intro h; exact Bool.false_ne_true h⟩
  · intro p hp v hv; rw [hd p hp v hv]; rfl
  · refine ⟨?_, ?_, ?_⟩
    · intro i p a _ ha _
      cases i with
      | zero => cases ha; rfl
      | succ i => simp at ha
    · intro p hp _
      rcases List.mem_cons.1 hp with rfl | hp
      · rfl
      · simp only [List.mem_singleton] at hp; subst hp; rfl
    · intro p hp _ v hv; rw [hd p hp v hv]; rfl
  · exact fits_of_bind f.sig [.leaf (.tensor t)] kw _ rfl

end S2fft
