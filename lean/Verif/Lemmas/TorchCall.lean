import Verif.Lemmas.TorchArrays

/-!
# Calls of wrapped functions
-/

namespace S2fft
namespace TorchWrap

variable {V : Type}

theorem ok_bind {α β : Type} (a : α) (f : α → Except PyErr β) : (Except.ok a >>= f) = f a := rfl

mutual
theorem PyTree.mapM_ok {f : Leaf V → Except PyErr (Leaf V)} {g : Leaf V → Leaf V}
    (h : ∀ x, f x = .ok (g x)) : ∀ t : PyTree V, t.mapM f = .ok (t.map g)
  | .leaf x => by simp [PyTree.mapM, PyTree.map, h]
  | .node k l => by simp [PyTree.mapM, PyTree.map, PyTree.mapML_ok h l]
theorem PyTree.mapML_ok {f : Leaf V → Except PyErr (Leaf V)} {g : Leaf V → Leaf V}
    (h : ∀ x, f x = .ok (g x)) : ∀ l : List (PyTree V), PyTree.mapML f l = .ok (PyTree.mapL g l)
  | [] => rfl
  | t :: ts => by simp [PyTree.mapML, PyTree.mapL, PyTree.mapM_ok h t, PyTree.mapML_ok h ts]; rfl
end

theorem PyTree.mapL_eq (g : Leaf V → Leaf V) (l : List (PyTree V)) : PyTree.mapL g l = l.map (PyTree.map g) := by
  induction l with
  | nil => rfl
  | cons t ts ih => simp [PyTree.mapL, ih]

theorem PyTree.allL_eq (p : Leaf V → Bool) (l : List (PyTree V)) : PyTree.allL p l = l.all (PyTree.all p) := by
  induction l with
  | nil => rfl
  | cons t ts ih => simp [PyTree.allL, ih]

mutual
theorem PyTree.map_map (f g : Leaf V → Leaf V) : ∀ t : PyTree V, (t.map f).map g = t.map (g ∘ f)
  | .leaf x => rfl
  | .node k l => by simp [PyTree.map, PyTree.mapL_mapL f g l]
theorem PyTree.mapL_mapL (f g : Leaf V → Leaf V) :
    ∀ l : List (PyTree V), PyTree.mapL g (PyTree.mapL f l) = PyTree.mapL (g ∘ f) l
  | [] => rfl
  | t :: ts => by simp [PyTree.mapL, PyTree.map_map f g t, PyTree.mapL_mapL f g ts]
end

mutual
/-- Leaves that pass the test `p` are kept by `f`. -/
theorem PyTree.map_eq_self {p : Leaf V → Bool} {f : Leaf V → Leaf V} (h : ∀ x, p x = true → f x = x) :
    ∀ t : PyTree V, t.all p = true → t.map f = t
  | .leaf x => by intro hp; simp only [PyTree.map]; rw [h x hp]
  | .node k l => by intro hp; simp only [PyTree.map]; rw [PyTree.mapL_eq_self h l hp]
theorem PyTree.mapL_eq_self {p : Leaf V → Bool} {f : Leaf V → Leaf V} (h : ∀ x, p x = true → f x = x) :
    ∀ l : List (PyTree V), PyTree.allL p l = true → PyTree.mapL f l = l
  | [] => by intro; rfl
  | t :: ts => by
    intro hp
    simp only [PyTree.allL, Bool.and_eq_true] at hp
    simp only [PyTree.mapL]
    rw [PyTree.map_eq_self h t hp.1, PyTree.mapL_eq_self h ts hp.2]
end

mutual
theorem PyTree.all_map {p q : Leaf V → Bool} {f : Leaf V → Leaf V}
    (h : ∀ x, p x = true → q (f x) = true) :
    ∀ t : PyTree V, t.all p = true → (t.map f).all q = true
  | .leaf x => by intro hp; exact h x hp
  | .node k l => by intro hp; exact PyTree.allL_map h l hp
theorem PyTree.allL_map {p q : Leaf V → Bool} {f : Leaf V → Leaf V}
    (h : ∀ x, p x = true → q (f x) = true) :
    ∀ l : List (PyTree V), PyTree.allL p l = true → PyTree.allL q (PyTree.mapL f l) = true
  | [] => by intro; rfl
  | t :: ts => by
    intro hp
    simp only [PyTree.allL, Bool.and_eq_true] at hp
    simp only [PyTree.mapL, PyTree.allL, Bool.and_eq_true]
    exact ⟨PyTree.all_map h t hp.1, PyTree.allL_map h ts hp.2⟩
end

/-- A leaf with an array replaced by a tensor of its data. -/
def Leaf.asTorch : Leaf V → Leaf V
  | .array a => .tensor (jaxArrayToTorchTensor a)
  | x => x

theorem treeToJax_eq (t : PyTree V) : treeToJax t = .ok t.asJax := by
  apply PyTree.mapM_ok
  intro x
  cases x with
  | tensor t => simp [torchTensorToJaxArray_eq, Leaf.asJax]
  | array a => rfl
  | val v => rfl

theorem treeToTorch_eq (t : PyTree V) : treeToTorch t = .ok (t.map Leaf.asTorch) := by
  apply PyTree.mapM_ok
  intro x
  cases x <;> rfl

theorem PyTree.asJax_of_noTensor {t : PyTree V} (h : t.NoTensor) : t.asJax = t := by
  refine PyTree.map_eq_self ?_ t h
  intro x hx
  cases x with
  | tensor t => simp at hx
  | array a => rfl
  | val v => rfl

/-- The tensors made from the arrays of a tree hold the data of the arrays. -/
theorem PyTree.asJax_asTorch {t : PyTree V} (h : t.NoTensor) : (t.map Leaf.asTorch).asJax = t := by
  unfold PyTree.asJax
  rw [PyTree.map_map]
  refine PyTree.map_eq_self ?_ t h
  intro x hx
  cases x with
  | tensor t => simp at hx
  | array a => simp [Leaf.asTorch, Leaf.asJax, toArray_jaxArrayToTorchTensor]
  | val v => rfl

theorem PyTree.noArray_asTorch {t : PyTree V} : (t.map Leaf.asTorch).NoArray := by
  refine PyTree.all_map (p := fun _ => true) ?_ t ?_
  · intro x _; cases x <;> rfl
  · have : ∀ t : PyTree V, t.all (fun _ => true) = true := by
      intro t
      exact PyTree.rec (motive_1 := fun t => t.all (fun _ => true) = true)
        (motive_2 := fun l => PyTree.allL (fun _ => true) l = true)
        (fun x => rfl) (fun k l h => h) rfl (fun t l h h' => by simp [PyTree.allL, h, h']) t
    exact this t

theorem PyTree.noTensor_of_isJax {jt : V → Bool} {t : PyTree V} (h : t.all (Leaf.isJax jt) = true) :
    t.NoTensor := by
  have := PyTree.all_map (p := Leaf.isJax jt) (f := id)
    (q := fun | .tensor _ => false | _ => true) (by intro x hx; cases x <;> simp_all [Leaf.isJax]) t h
  have hid : t.map id = t := PyTree.map_eq_self (p := Leaf.isJax jt) (by simp) t h
  rw [hid] at this
  exact this

/-! ## Binding -/

/-- What becomes of a bound argument. -/
noncomputable def conv (N : List PyStr) (p : PyStr × PyTree V) : PyStr × PyTree V :=
  (p.1, if p.1 ∈ N then p.2.asJax else p.2)

theorem get?_jaxKwargs (N : List PyStr) (kw : Kwargs V) (n : PyStr) :
    (jaxKwargs N kw).get? n = (kw.get? n).map fun v => if n ∈ N then v.asJax else v := by
  induction kw with
  | nil => rfl
  | cons p kw ih =>
    by_cases h : p.1 = n
    · simp [jaxKwargs, Kwargs.get?, h]
    · simp only [Kwargs.get?, jaxKwargs, List.map_cons] at ih ⊢
      rw [List.find?_cons_of_neg (by simpa using h), List.find?_cons_of_neg (by simpa using h)]
      exact ih

theorem erase_jaxKwargs (N : List PyStr) (kw : Kwargs V) (n : PyStr) :
    (jaxKwargs N kw).erase n = jaxKwargs N (kw.erase n) := by
  simp [jaxKwargs, Kwargs.erase, List.filter_map, Function.comp_def]

/-- Binding the replaced arguments gives the replaced bound arguments. -/
theorem bind_jax (N : List PyStr) : ∀ (ps : List (Param V)),
    (∀ p ∈ ps, ∀ v, p.default = some v → v.NoTensor) → ∀ (args : List (PyTree V)) (kw : Kwargs V),
    bind ps (jaxArgs N ps args) (jaxKwargs N kw) = (bind ps args kw).map (List.map (conv N)) := by
  intro ps
  induction ps with
  | nil =>
    intro _ args kw
    cases args with
    | nil => cases kw <;> rfl
    | cons a as => rfl
  | cons p ps ih =>
    intro hd args kw
    have ih := ih (fun q hq => hd q (List.mem_cons_of_mem _ hq))
    cases args with
    | cons a as =>
      simp only [jaxArgs, bind, get?_jaxKwargs, Option.isSome_map]
      split
      · rfl
      · rw [ih as kw]
        cases bind ps as kw <;> rfl
    | nil =>
      have hnil : ∀ qs : List (Param V), jaxArgs N qs [] = [] := by intro qs; cases qs <;> rfl
      simp only [jaxArgs, bind, get?_jaxKwargs]
      cases hk : kw.get? p.name with
      | some v =>
        have := ih [] (kw.erase p.name)
        rw [hnil] at this
        simp only [Option.map_some, erase_jaxKwargs, this]
        cases bind ps [] (kw.erase p.name) <;> rfl
      | none =>
        have := ih [] kw
        rw [hnil] at this
        simp only [Option.map_none]
        cases hp : p.default with
        | none => rfl
        | some v =>
          simp only [this]
          have hv : (if p.name ∈ N then v.asJax else v) = v := by
            split
            · exact PyTree.asJax_of_noTensor (hd p (List.mem_cons_self ..) v hp)
            · rfl
          cases bind ps [] kw with
          | error e => rfl
          | ok b =>
            show Except.ok _ = Except.ok _
            simp only [List.map_cons, conv, hv]

/-- Each parameter gets a value. -/
theorem bind_names : ∀ (ps : List (Param V)) (args : List (PyTree V)) (kw : Kwargs V)
    (b : List (PyStr × PyTree V)), bind ps args kw = .ok b → b.map Prod.fst = ps.map Param.name := by
  intro ps
  induction ps with
  | nil =>
    intro args kw b h
    cases args with
    | nil =>
      cases kw with
      | nil => cases h; rfl
      | cons _ _ => cases h
    | cons _ _ => cases h
  | cons p ps ih =>
    have step : ∀ (v : PyTree V) (as : List (PyTree V)) (kw : Kwargs V) (b : List (PyStr × PyTree V)),
        (do return (p.name, v) :: (← bind ps as kw) : Except PyErr _) = .ok b →
        b.map Prod.fst = (p :: ps).map Param.name := by
      intro v as kw b h
      cases hb : bind ps as kw with
      | error e => rw [hb] at h; cases h
      | ok b' => rw [hb] at h; cases h; simp [ih as kw b' hb]
    intro args kw b h
    cases args with
    | cons a as =>
      rw [bind] at h
      split at h
      · cases h
      · exact step a as kw b h
    | nil =>
      rw [bind] at h
      split at h
      · exact step _ _ _ b h
      · split at h
        · exact step _ _ _ b h
        · cases h

/-- A call with all the values by position. -/
theorem bind_positional : ∀ (ps : List (Param V)) (vs : List (PyTree V)), vs.length = ps.length →
    bind ps vs [] = .ok ((ps.map Param.name).zip vs) := by
  intro ps
  induction ps with
  | nil => intro vs h; cases vs with
    | nil => rfl
    | cons _ _ => cases h
  | cons p ps ih =>
    intro vs h
    cases vs with
    | nil => cases h
    | cons v vs =>
      simp only [bind, Kwargs.get?, List.find?_nil, Option.map_none, Option.isSome_none,
        Bool.false_eq_true, if_false, ih vs (by simpa using h)]
      rfl

theorem get?_mem {kw : Kwargs V} {n : PyStr} {v : PyTree V} (h : kw.get? n = some v) : (n, v) ∈ kw := by
  simp only [Kwargs.get?, Option.map_eq_some_iff] at h
  obtain ⟨p, hp, rfl⟩ := h
  have h1 := List.find?_some hp
  have h2 := List.mem_of_find?_eq_some hp
  simp only [decide_eq_true_eq] at h1
  rw [← h1]
  exact h2

/-- Bound arguments are arguments or defaults. -/
theorem bind_numeric (jt : V → Bool) (N : List PyStr) : ∀ (ps : List (Param V)) (args : List (PyTree V))
    (kw : Kwargs V) (b : List (PyStr × PyTree V)), NumericArgs jt N ps args kw →
    bind ps args kw = .ok b → ∀ p ∈ b, p.1 ∈ N → p.2.Numeric jt := by
  intro ps
  induction ps with
  | nil =>
    intro args kw b _ h
    cases args with
    | nil =>
      cases kw with
      | nil => cases h; simp
      | cons _ _ => cases h
    | cons _ _ => cases h
  | cons q ps ih =>
    have step : ∀ (v : PyTree V) (as : List (PyTree V)) (kw : Kwargs V) (b : List (PyStr × PyTree V)),
        (q.name ∈ N → v.Numeric jt) → NumericArgs jt N ps as kw →
        (do return (q.name, v) :: (← bind ps as kw) : Except PyErr _) = .ok b →
        ∀ p ∈ b, p.1 ∈ N → p.2.Numeric jt := by
      intro v as kw b hv hn h p hp hpN
      cases hb : bind ps as kw with
      | error e => rw [hb] at h; cases h
      | ok b' =>
        rw [hb] at h; cases h
        rcases List.mem_cons.1 hp with rfl | hp
        · exact hv hpN
        · exact ih as kw b' hn hb p hp hpN
    intro args kw b hn h
    cases args with
    | cons a as =>
      rw [bind] at h
      split at h
      · cases h
      · refine step a as kw b (hn.1 0 q a rfl rfl) ⟨?_, hn.2.1, ?_⟩ h
        · intro i p a' h1 h2; exact hn.1 (i + 1) p a' (by simpa using h1) (by simpa using h2)
        · intro p hp; exact hn.2.2 p (List.mem_cons_of_mem _ hp)
    | nil =>
      rw [bind] at h
      have hd : ∀ p ∈ ps, p.name ∈ N → ∀ v, p.default = some v → v.Numeric jt :=
        fun p hp => hn.2.2 p (List.mem_cons_of_mem _ hp)
      split at h
      · next v hv =>
        refine step v [] _ b (hn.2.1 _ (get?_mem hv)) ⟨by simp, ?_, hd⟩ h
        intro p hp; exact hn.2.1 p (List.mem_of_mem_filter hp)
      · split at h
        · next v hv =>
          exact step v [] _ b (fun hN => hn.2.2 q (List.mem_cons_self ..) hN v hv)
            ⟨by simp, hn.2.1, hd⟩ h
        · cases h

theorem find?_of_nodup (b : List (PyStr × PyTree V)) (hn : (b.map Prod.fst).Nodup)
    (p : PyStr × PyTree V) (hp : p ∈ b) : b.find? (fun q => q.1 = p.1) = some p := by
  induction b with
  | nil => cases hp
  | cons q b ih =>
    simp only [List.map_cons, List.nodup_cons] at hn
    rcases List.mem_cons.1 hp with rfl | hp
    · simp
    · have : q.1 ≠ p.1 := by
        intro h; apply hn.1; rw [h]; exact List.mem_map_of_mem hp
      rw [List.find?_cons_of_neg (by simpa using this)]
      exact ih hn.2 hp

/-- Assigning one value to each of some names. -/
theorem foldl_assign (N : List PyStr) (g : PyStr → PyTree V) : ∀ b : List (PyStr × PyTree V),
    (N.zip (N.map g)).foldl (fun b p => assign b p.1 p.2) b =
      b.map fun p => if p.1 ∈ N then (p.1, g p.1) else p := by
  induction N with
  | nil => intro b; simp
  | cons n N ih =>
    intro b
    simp only [List.map_cons, List.zip_cons_cons, List.foldl_cons, ih]
    simp only [assign, List.map_map]
    apply List.map_congr_left
    intro p _
    simp only [Function.comp, List.mem_cons]
    by_cases h : p.1 = n
    · by_cases h' : n ∈ N <;> simp [h, h']
    · simp [h]

theorem mapM_ok {α β : Type} {f : α → Except PyErr β} {g : α → β} : ∀ (l : List α),
    (∀ x ∈ l, f x = .ok (g x)) → l.mapM f = .ok (l.map g) := by
  intro l
  induction l with
  | nil => intro _; rfl
  | cons a l ih =>
    intro h
    rw [List.mapM_cons, h a (List.mem_cons_self ..), ih fun x hx => h x (List.mem_cons_of_mem _ hx)]
    rfl

/-- What a wrapped call comes down to. -/
theorem torchFunction_eq (jt : V → Bool) (f : Fn V) (N : List PyStr)
    (hN : ∀ n ∈ N, n ∈ f.sig.map Param.name) (hnd : (f.sig.map Param.name).Nodup)
    (args : List (PyTree V)) (kw : Kwargs V) (b : List (PyStr × PyTree V))
    (hb : bind f.sig args kw = .ok b)
    (hj : ∀ p ∈ b, p.1 ∈ N → p.2.Numeric jt) :
    torchFunction jt f N true args kw =
      (do
        let out ← f.body (b.map fun p => (conv N p).2)
        if PyTree.all (Leaf.isJax jt) out then treeToTorch out else .error .typeError) := by
  have hnames := bind_names _ _ _ _ hb
  have hbn : (b.map Prod.fst).Nodup := by rw [hnames]; exact hnd
  let look : PyStr → PyTree V := fun n =>
    match b.find? fun p => p.1 = n with
    | some p => p.2
    | none => .node .none []
  have hlook : ∀ p ∈ b, look p.1 = p.2 := by
    intro p hp; simp only [look, find?_of_nodup b hbn p hp]
  have hmem : ∀ n ∈ N, ∃ p ∈ b, p.1 = n := by
    intro n hn
    have := hN n hn
    rw [← hnames] at this
    simpa using this
  have hdiff : N.mapM (lookup b) = Except.ok (N.map look) := by
    apply mapM_ok
    intro n hn
    obtain ⟨p, hp, rfl⟩ := hmem n hn
    simp only [lookup, find?_of_nodup b hbn p hp, hlook p hp]
  have hjax : treeToJax (.node .tuple (N.map look)) =
      .ok (.node .tuple (N.map fun n => (look n).asJax)) := by
    rw [treeToJax_eq]
    simp only [PyTree.asJax, PyTree.map, PyTree.mapL_eq, List.map_map]
    rfl
  have hall : PyTree.allL (Leaf.isJax jt) (N.map fun n => (look n).asJax) = true := by
    rw [PyTree.allL_eq, List.all_eq_true]
    intro t ht
    obtain ⟨n, hn, rfl⟩ := List.mem_map.1 ht
    obtain ⟨p, hp, rfl⟩ := hmem n hn
    rw [hlook p hp]
    exact hj p hp hn
  have hass : (N.zip (N.map fun n => (look n).asJax)).foldl (fun b p => assign b p.1 p.2) b =
      b.map (conv N) := by
    rw [foldl_assign N (fun n => (look n).asJax)]
    apply List.map_congr_left
    intro p hp
    simp only [conv, hlook p hp]
    split <;> rfl
  have hcall : f.call ((b.map (conv N)).map Prod.snd) [] = f.body (b.map fun p => (conv N p).2) := by
    have hl : ((b.map (conv N)).map Prod.snd).length = f.sig.length := by
      have := congrArg List.length hnames
      simpa using this
    simp only [Fn.call, bind_positional f.sig _ hl]
    show f.body _ = _
    congr 1
    have hl' : (f.sig.map Param.name).length = ((b.map (conv N)).map Prod.snd).length := by
      rw [hl]; simp
    rw [List.map_snd_zip (by omega)]
    simp [List.map_map, Function.comp_def]
  unfold torchFunction
  simp only [Bool.not_true, Bool.false_eq_true, if_false, hb, ok_bind, hdiff, hjax]
  change (jaxVjp jt _ (N.map fun n => (look n).asJax) >>= fun out => treeToTorch out) = _
  simp only [jaxVjp, hall, if_true, hass, hcall]
  cases f.body (b.map fun p => (conv N p).2) with
  | error e => rfl
  | ok out =>
    simp only [ok_bind]
    show (do
      let out ← (if PyTree.all (Leaf.isJax jt) out = true then Except.ok out else .error .typeError)
      treeToTorch out) = (if PyTree.all (Leaf.isJax jt) out = true then treeToTorch out
        else .error .typeError)
    split <;> rfl

/-- Binding fails only with a type error. -/
theorem bind_error : ∀ (ps : List (Param V)) (args : List (PyTree V)) (kw : Kwargs V) (e : PyErr),
    bind ps args kw = .error e → e = .typeError := by
  intro ps
  induction ps with
  | nil =>
    intro args kw e h
    cases args with
    | nil => cases kw <;> cases h; rfl
    | cons _ _ => cases h; rfl
  | cons p ps ih =>
    have step : ∀ (v : PyTree V) (as : List (PyTree V)) (kw : Kwargs V) (e : PyErr),
        (do return (p.name, v) :: (← bind ps as kw) : Except PyErr _) = .error e → e = .typeError := by
      intro v as kw e h
      cases hb : bind ps as kw with
      | error e' => rw [hb] at h; cases h; exact ih _ _ _ hb
      | ok b' => rw [hb] at h; cases h
    intro args kw e h
    cases args with
    | cons a as =>
      rw [bind] at h
      split at h
      · cases h; rfl
      · exact step _ _ _ _ h
    | nil =>
      rw [bind] at h
      split at h
      · exact step _ _ _ _ h
      · split at h
        · exact step _ _ _ _ h
        · cases h; rfl

theorem torchFunction_bind_error (jt : V → Bool) (f : Fn V) (N : List PyStr) (args : List (PyTree V))
    (kw : Kwargs V) (e : PyErr) (h : bind f.sig args kw = .error e) :
    torchFunction jt f N true args kw = .error e := by
  unfold torchFunction
  simp only [Bool.not_true, Bool.false_eq_true, if_false, h]
  rfl

/-- What wrapping returns. -/
theorem wrapAsTorchFunction_ok {jt : V → Bool} {avail : Bool} {f : Fn V} {names : Option (List PyStr)}
    {sig : List (Param V)} {w : List (PyTree V) → Kwargs V → Except PyErr (PyTree V)}
    (h : wrapAsTorchFunction jt avail f names = .ok (sig, w)) :
    w = torchFunction jt f (names.getD (annotatedNames f.sig)) avail ∧
      ∀ n ∈ names.getD (annotatedNames f.sig), n ∈ f.sig.map Param.name := by
  have key : ∀ N : List PyStr, (if N.all fun n => f.sig.any fun p => p.name = n then
      (.ok (f.sig.map fun p =>
        { p with annotation := if p.annotation = .jaxArray then .tensor else p.annotation },
      torchFunction jt f N avail) : Except PyErr _)
      else .error .valueError) = .ok (sig, w) →
      w = torchFunction jt f N avail ∧ ∀ n ∈ N, n ∈ f.sig.map Param.name := by
    intro N h
    split at h
    · next hN =>
      simp only [Except.ok.injEq, Prod.mk.injEq] at h
      refine ⟨h.2.symm, ?_⟩
      intro n hn
      have := List.all_eq_true.1 hN n hn
      simpa using this
    · cases h
  cases names with
  | none => exact key _ h
  | some ns => exact key _ h

end TorchWrap
end S2fft
