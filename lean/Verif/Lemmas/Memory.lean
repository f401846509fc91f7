import Verif.Model.Memory

/-! # Memory and values: the in-place functions against the functions on values -/

namespace S2fft
open Act

/-- Every array in use in `m` has the same contents in `m'`. -/
structure Kept (m m' : Mem) : Prop where
  next : m.next ≤ m'.next
  arr : ∀ a, a < m.next → m'.arr a = m.arr a
  tab : ∀ a, a < m.next → m'.tab a = m.tab a

theorem Kept.refl (m : Mem) : Kept m m := ⟨le_rfl, fun _ _ => rfl, fun _ _ => rfl⟩

theorem Kept.trans {m₁ m₂ m₃ : Mem} (h : Kept m₁ m₂) (h' : Kept m₂ m₃) : Kept m₁ m₃ :=
  ⟨h.next.trans h'.next,
    fun a ha => (h'.arr a (ha.trans_le h.next)).trans (h.arr a ha),
    fun a ha => (h'.tab a (ha.trans_le h.next)).trans (h.tab a ha)⟩

/-- `x` run in `m` raises what `v` raises, or returns something related to the value of `v`; the
arrays of `m₀` are kept. -/
def Agrees {α β : Type} (m₀ : Mem) (m : Mem) (x : Act α) (v : Except PyErr β)
    (R : α → β → Mem → Prop) : Prop :=
  Kept m₀ (x m).2 ∧
  match v with
  | .error e => (x m).1 = .error e
  | .ok b => ∃ a, (x m).1 = .ok a ∧ R a b (x m).2

theorem Agrees.pure {α β : Type} {m₀ m : Mem} {a : α} {b : β} {R : α → β → Mem → Prop}
    (hk : Kept m₀ m) (h : R a b m) :
    Agrees m₀ m (Pure.pure a : Act α) (Except.ok b) R := ⟨hk, a, rfl, h⟩

theorem Agrees.fail {α β : Type} {m₀ m : Mem} (e : PyErr) {R : α → β → Mem → Prop}
    (hk : Kept m₀ m) : Agrees m₀ m (Act.fail e : Act α) (Except.error e : Except PyErr β) R :=
  ⟨hk, rfl⟩

theorem Agrees.bind {α β γ δ : Type} {m₀ m : Mem} {x : Act α} {v : Except PyErr β}
    {R : α → β → Mem → Prop} {k : α → Act γ} {w : β → Except PyErr δ} {S : γ → δ → Mem → Prop}
    (hx : Agrees m₀ m x v R)
    (hk : ∀ a b m', v = .ok b → Kept m₀ m' → R a b m' → Agrees m₀ m' (k a) (w b) S) :
    Agrees m₀ m (x >>= k) (v >>= w) S := by
  obtain ⟨hkept, hres⟩ := hx
  show Agrees m₀ m (Act.bind x k) _ S
  unfold Agrees Act.bind
  cases v with
  | error e =>
    simp only at hres
    cases hxm : x m with
    | mk r m' =>
      rw [hxm] at hres hkept
      simp only at hres
      subst hres
      exact ⟨hkept, rfl⟩
  | ok b =>
    obtain ⟨a, ha, hR⟩ := hres
    cases hxm : x m with
    | mk r m' =>
      rw [hxm] at ha hR hkept
      simp only at ha
      subst ha
      exact hk a b m' rfl hkept hR

theorem Agrees.lift {α : Type} {m₀ m : Mem} (v : Except PyErr α) (hk : Kept m₀ m) :
    Agrees m₀ m (Act.lift v) v (fun a b m' => a = b ∧ m' = m) := by
  unfold Agrees Act.lift
  cases v with
  | error e => exact ⟨hk, rfl⟩
  | ok b => exact ⟨hk, b, rfl, rfl, rfl⟩

theorem Agrees.mono {α β : Type} {m₀ m : Mem} {x : Act α} {v : Except PyErr β}
    {R S : α → β → Mem → Prop} (hx : Agrees m₀ m x v R)
    (h : ∀ a b m', v = .ok b → Kept m₀ m' → R a b m' → S a b m') : Agrees m₀ m x v S := by
  obtain ⟨hkept, hres⟩ := hx
  refine ⟨hkept, ?_⟩
  cases v with
  | error e => exact hres
  | ok b => obtain ⟨a, ha, hR⟩ := hres; exact ⟨a, ha, h a b _ rfl hkept hR⟩

/-- What is kept from `m` on is kept from before `m` on. -/
theorem Agrees.up {α β : Type} {m₀ m : Mem} {x : Act α} {v : Except PyErr β}
    {R : α → β → Mem → Prop} (hk : Kept m₀ m) (h : Agrees m m x v R) :
    Agrees m₀ m x v (fun a b m' => R a b m' ∧ Kept m m') := by
  refine ⟨hk.trans h.1, ?_⟩
  cases v with
  | error e => exact h.2
  | ok b => obtain ⟨a, h3, h4⟩ := h.2; exact ⟨a, h3, h4, h.1⟩

/-- Statement that reads or writes without failing. -/
theorem Agrees.step {α γ δ : Type} {m₀ m m' : Mem} {x : Act α} {a : α} {k : α → Act γ}
    {v : Except PyErr δ} {S : γ → δ → Mem → Prop} (hx : x m = (.ok a, m'))
    (hk : Agrees m₀ m' (k a) v S) : Agrees m₀ m (x >>= k) v S := by
  have : (x >>= k) m = k a m' := by
    show Act.bind x k m = _
    unfold Act.bind; rw [hx]
  unfold Agrees at hk ⊢
  rw [this]; exact hk

/-- The arrays of `m₀` are kept by writing to an address that is not in use in `m₀`. -/
theorem Kept.setArr {m₀ m : Mem} (hk : Kept m₀ m) {a : ℕ} (ha : m₀.next ≤ a) (v : Nd ℂ) :
    Kept m₀ { m with arr := Function.update m.arr a v } :=
  ⟨hk.next, fun b hb => by
    simp only [Function.update_of_ne (show b ≠ a by omega)]; exact hk.arr b hb, hk.tab⟩

theorem Kept.setTab {m₀ m : Mem} (hk : Kept m₀ m) {a : ℕ} (ha : m₀.next ≤ a)
    (v : ℤ → ℤ → ℤ → ℝ) : Kept m₀ { m with tab := Function.update m.tab a v } :=
  ⟨hk.next, hk.arr, fun b hb => by
    simp only [Function.update_of_ne (show b ≠ a by omega)]; exact hk.tab b hb⟩

theorem Kept.newArr {m₀ m : Mem} (hk : Kept m₀ m) (v : Nd ℂ) :
    Kept m₀ { m with arr := Function.update m.arr m.next v, next := m.next + 1 } :=
  ⟨hk.next.trans (Nat.le_succ _), fun b hb => by
    have := hk.next
    simp only [Function.update_of_ne (show b ≠ m.next by omega)]; exact hk.arr b hb, hk.tab⟩

theorem Kept.newTab {m₀ m : Mem} (hk : Kept m₀ m) (v : ℤ → ℤ → ℤ → ℝ) :
    Kept m₀ { m with tab := Function.update m.tab m.next v, next := m.next + 1 } :=
  ⟨hk.next.trans (Nat.le_succ _), hk.arr, fun b hb => by
    have := hk.next
    simp only [Function.update_of_ne (show b ≠ m.next by omega)]; exact hk.tab b hb⟩

theorem getArr_run (a : ℕ) (m : Mem) : getArr a m = (.ok (m.arr a), m) := rfl
theorem getTab_run (a : ℕ) (m : Mem) : getTab a m = (.ok (m.tab a), m) := rfl
theorem setArr_run (a : ℕ) (v : Nd ℂ) (m : Mem) :
    setArr a v m = (.ok (), { m with arr := Function.update m.arr a v }) := rfl
theorem setTab_run (a : ℕ) (v : ℤ → ℤ → ℤ → ℝ) (m : Mem) :
    setTab a v m = (.ok (), { m with tab := Function.update m.tab a v }) := rfl
theorem newArr_run (v : Nd ℂ) (m : Mem) : newArr v m
    = (.ok m.next, { m with arr := Function.update m.arr m.next v, next := m.next + 1 }) := rfl
theorem newTab_run (v : ℤ → ℤ → ℤ → ℝ) (m : Mem) : newTab v m
    = (.ok m.next, { m with tab := Function.update m.tab m.next v, next := m.next + 1 }) := rfl
theorem copyArr_run (a : ℕ) (m : Mem) : copyArr a m
    = (.ok m.next, { m with arr := Function.update m.arr m.next (m.arr a), next := m.next + 1 }) :=
  rfl
theorem copyTab_run (a : ℕ) (m : Mem) : copyTab a m
    = (.ok m.next, { m with tab := Function.update m.tab m.next (m.tab a), next := m.next + 1 }) :=
  rfl

theorem act_bind_ok {α β : Type} {x : Act α} {k : α → Act β} {m m' : Mem} {a : α}
    (h : x m = (.ok a, m')) : (x >>= k) m = k a m' := by
  show Act.bind x k m = _
  unfold Act.bind; rw [h]

theorem act_pure {α : Type} (a : α) (m : Mem) : (Pure.pure a : Act α) m = (.ok a, m) := rfl

/-- A loop against a loop on values. -/
theorem Agrees.forRange {σ τ : Type} {m₀ m : Mem} {lo hi : ℤ} {body : ℤ → σ → Act σ}
    {pbody : ℤ → τ → Except PyErr τ} {s : σ} {t : τ} (R : ℤ → σ → τ → Mem → Prop)
    (hk : Kept m₀ m) (h0 : R lo s t m)
    (hs : ∀ i s t m', lo ≤ i → i < hi → Kept m₀ m' → R i s t m' →
      Agrees m₀ m' (body i s) (pbody i t) (R (i + 1))) :
    Agrees m₀ m (Act.forRange lo hi body s) (forRangeM lo hi pbody t) (R (max lo hi)) := by
  rcases le_total lo hi with hle | hle
  · rw [max_eq_right hle]
    obtain ⟨n, rfl⟩ : ∃ n : ℕ, hi = lo + n := ⟨(hi - lo).toNat, by omega⟩
    unfold Act.forRange forRangeM
    clear hle
    induction n with
    | zero =>
      rw [forRange_of_le (by simp), forRange_of_le (by simp)]
      simpa using Agrees.pure hk h0
    | succ n ih =>
      rw [show lo + ((n + 1 : ℕ) : ℤ) = lo + n + 1 by push_cast; ring]
      rw [forRange_succ (by omega), forRange_succ (by omega)]
      refine Agrees.bind (ih (fun i s t m' h1 h2 => hs i s t m' h1 (by push_cast; omega))) ?_
      intro a b m' _ hk' hR
      exact hs _ a b m' (by omega) (by push_cast; omega) hk' hR
  · rw [max_eq_left hle]
    unfold Act.forRange forRangeM
    rw [forRange_of_le hle, forRange_of_le hle]
    exact Agrees.pure hk h0

/-- A loop whose body never raises. -/
theorem act_forRange_ok {σ : Type} {lo hi : ℤ} (body : ℤ → σ → Act σ) (s : σ) (m : Mem)
    (f : ℤ → σ × Mem → σ × Mem)
    (h : ∀ i s m, body i s m = (.ok (f i (s, m)).1, (f i (s, m)).2)) :
    Act.forRange lo hi body s m
      = (.ok (S2fft.forRange lo hi f (s, m)).1, (S2fft.forRange lo hi f (s, m)).2) := by
  unfold Act.forRange
  rcases le_total lo hi with hle | hle
  · obtain ⟨n, rfl⟩ : ∃ n : ℕ, hi = lo + n := ⟨(hi - lo).toNat, by omega⟩
    clear hle
    induction n with
    | zero => rw [forRange_of_le (by simp), forRange_of_le (by simp)]; rfl
    | succ n ih =>
      rw [show lo + ((n + 1 : ℕ) : ℤ) = lo + n + 1 by push_cast; ring]
      rw [forRange_succ (by omega), forRange_succ (by omega), act_bind_ok ih, h]
  · rw [forRange_of_le hle, forRange_of_le hle]; rfl

/-! ## The recursion -/

/-- A turn of the loop does not raise; it changes row `i` of the table at `a` only. -/
theorem pmStepMem_run {α : Type} (R : PmRef) (a : ℕ) (L mm i : ℤ) (β : ℤ → ℝ)
    (emit : ℤ → (ℤ → ℤ → ℝ) → α → α) (k : ℤ) (s : α × PmLocal) (m : Mem) :
    pmStepMem R a L mm i β emit k s m =
      (let st : PmState := ⟨s.2.entry, s.2.d0, s.2.d1, m.tab a i⟩
       let e := pmEntry (R.with (m.tab a)) L mm i β k st
       let st' := pmUpdate L k e st
       (.ok (emit k (fun t el => e t el * (R.with (m.tab a)).exp i el (st.lr t el)) s.1,
          ⟨st'.entry, st'.d0, st'.d1⟩),
        { m with tab := Function.update m.tab a (fun j => if j = i then st'.lr else m.tab a j) })) :=
  rfl

/-- The recursion in memory against the recursion on values. -/
theorem pmLoopMem_run {α : Type} (R : PmRef) (a : ℕ) (L mm i : ℤ) (β : ℤ → ℝ) (hi : ℤ)
    (emit : ℤ → (ℤ → ℤ → ℝ) → α → α) (acc : α) (m : Mem) :
    ∃ (T : ℤ → ℤ → ℤ → ℝ) (loc : PmLocal), (∀ j, j ≠ i → T j = m.tab a j) ∧
      Act.forRange 2 hi (pmStepMem R a L mm i β emit) (acc,
        ⟨(pmInit (R.with (m.tab a)) L mm i β).entry, (pmInit (R.with (m.tab a)) L mm i β).d0,
          (pmInit (R.with (m.tab a)) L mm i β).d1⟩) m
      = (.ok (pmLoop (R.with (m.tab a)) L mm i β hi emit acc, loc),
          { m with tab := Function.update m.tab a T }) := by
  set P := R.with (m.tab a) with hP
  suffices h : ∀ n : ℕ, ∃ T : ℤ → ℤ → ℤ → ℝ, (∀ j, j ≠ i → T j = m.tab a j) ∧
      let r := S2fft.forRange 2 (2 + n) (fun k (s : α × PmState) =>
        let e := pmEntry P L mm i β k s.2
        (emit k (fun t el => e t el * P.exp i el (s.2.lr t el)) s.1, pmUpdate L k e s.2))
        (acc, pmInit P L mm i β)
      T i = r.2.lr ∧
      Act.forRange 2 (2 + n) (pmStepMem R a L mm i β emit) (acc,
        ⟨(pmInit P L mm i β).entry, (pmInit P L mm i β).d0, (pmInit P L mm i β).d1⟩) m
      = (.ok (r.1, ⟨r.2.entry, r.2.d0, r.2.d1⟩), { m with tab := Function.update m.tab a T }) by
    rcases le_total 2 hi with hle | hle
    · obtain ⟨n, rfl⟩ : ∃ n : ℕ, hi = 2 + n := ⟨(hi - 2).toNat, by omega⟩
      obtain ⟨T, h1, h2, h3⟩ := h n
      exact ⟨T, _, h1, h3⟩
    · refine ⟨m.tab a, ⟨(pmInit P L mm i β).entry, (pmInit P L mm i β).d0,
        (pmInit P L mm i β).d1⟩, fun _ _ => rfl, ?_⟩
      unfold pmLoop Act.forRange
      rw [forRange_of_le hle, forRange_of_le hle, Function.update_eq_self]
      rfl
  intro n
  induction n with
  | zero =>
    refine ⟨m.tab a, fun _ _ => rfl, ?_⟩
    unfold Act.forRange
    rw [forRange_of_le (by simp), forRange_of_le (by simp), Function.update_eq_self]
    exact ⟨rfl, rfl⟩
  | succ n ih =>
    obtain ⟨T, h1, h2, h3⟩ := ih
    rw [show (2 : ℤ) + ((n + 1 : ℕ) : ℤ) = 2 + n + 1 by push_cast; ring]
    unfold Act.forRange at h3 ⊢
    rw [forRange_succ (by omega), forRange_succ (by omega), act_bind_ok h3, pmStepMem_run]
    have hE : ∀ st k, pmEntry (R.with T) L mm i β k st = pmEntry P L mm i β k st :=
      fun _ _ => rfl
    have hX : ∀ el x, (R.with T).exp i el x = P.exp i el x := fun _ _ => rfl
    simp only at h2
    simp only [Function.update_self, Function.update_idem, hE, hX, h2]
    exact ⟨_, fun j hj => by rw [if_neg hj, h1 j hj], if_pos rfl, rfl⟩

/-- A pass in memory against a pass on values. -/
theorem otfPassMem_run {α : Type} (R : PmRef) (a : ℕ) (L mm lo : ℤ) (β : ℤ → ℝ) (i : ℤ)
    (emit : ℤ → ℤ → ℤ → (ℤ → ℤ → ℝ) → α → α) (acc : α) (m : Mem) :
    ∃ T : ℤ → ℤ → ℤ → ℝ, (∀ j, j ≠ i → T j = m.tab a j) ∧
      otfPassMem R a L mm lo β i emit acc m
      = (.ok (otfPass (R.with (m.tab a)) L mm lo β i emit acc),
          { m with tab := Function.update m.tab a T }) := by
  unfold otfPassMem
  rw [act_bind_ok (getTab_run a m)]
  obtain ⟨T, loc, h1, h2⟩ := pmLoopMem_run R a L mm i β (L - 1 + i)
    (fun m' v => emit i m' lo (fun t el => v t el * (R.with (m.tab a)).vsign
      (pmRow (2 * L - 1) i m') el))
    (emit i 1 (L - 2) (fun t el => (pmInit (R.with (m.tab a)) L mm i β).d1 t (max el lo)
      * (R.with (m.tab a)).vsign (pmRow (2 * L - 1) i 1) (max el lo)
      * (R.with (m.tab a)).exp i (max el lo)
        ((pmInit (R.with (m.tab a)) L mm i β).lr t (max el lo)))
      (emit i 0 (L - 1) (fun t el => (pmInit (R.with (m.tab a)) L mm i β).d0 t el
        * (R.with (m.tab a)).vsign (pmRow (2 * L - 1) i 0) el
        * (R.with (m.tab a)).exp i el ((pmInit (R.with (m.tab a)) L mm i β).lr t el)) acc)) m
  refine ⟨T, h1, ?_⟩
  rw [act_bind_ok h2]
  rfl

/-- A pass uses its own row of the logarithms only. -/
theorem otfPass_congr {α : Type} (R : PmRef) {t t' : ℤ → ℤ → ℤ → ℝ} (L mm lo : ℤ) (β : ℤ → ℝ)
    (i : ℤ) (emit : ℤ → ℤ → ℤ → (ℤ → ℤ → ℝ) → α → α) (acc : α) (h : t' i = t i) :
    otfPass (R.with t') L mm lo β i emit acc = otfPass (R.with t) L mm lo β i emit acc := by
  have hI : pmInit (R.with t') L mm i β = pmInit (R.with t) L mm i β := by
    unfold pmInit PmRef.with; simp only [h]
  unfold otfPass pmLoop
  simp only [hI]
  rfl

theorem act_forRange_two {σ : Type} (body : ℤ → σ → Act σ) (s : σ) :
    Act.forRange 0 2 body s = ((Pure.pure s >>= body 0) >>= body 1) := by
  unfold Act.forRange
  rw [show (2 : ℤ) = 0 + 1 + 1 by norm_num, forRange_succ (by norm_num), forRange_succ (by norm_num),
    forRange_of_le le_rfl]
  rfl

theorem forRange_passes {σ : Type} (body : ℤ → σ → σ) (s : σ) :
    forRange 0 2 body s = body 1 (body 0 s) := by
  rw [show (2 : ℤ) = 0 + 1 + 1 by norm_num, forRange_succ (by norm_num), forRange_succ (by norm_num),
    forRange_of_le le_rfl]
  rfl

/-- Both passes. -/
theorem otfRowsMem_run {α : Type} (R : PmRef) (a : ℕ) (L mm lo : ℤ) (β : ℤ → ℝ) (reality : Bool)
    (emit : ℤ → ℤ → ℤ → (ℤ → ℤ → ℝ) → α → α) (acc : α) (m : Mem) :
    ∃ T : ℤ → ℤ → ℤ → ℝ, otfRowsMem R a L mm lo β reality emit acc m
      = (.ok (otfRows (R.with (m.tab a)) L mm lo β reality emit acc),
          { m with tab := Function.update m.tab a T }) := by
  unfold otfRowsMem otfRows
  rw [act_forRange_two, forRange_passes]
  beta_reduce
  obtain ⟨T₀, acc₀, hT₀, h₀, ha₀⟩ : ∃ (T₀ : ℤ → ℤ → ℤ → ℝ) (acc₀ : α),
      (∀ j, j ≠ 0 → T₀ j = m.tab a j) ∧
      ((Pure.pure acc : Act α) >>= fun acc => if reality = true ∧ (0 : ℤ) = 0 then Pure.pure acc
        else otfPassMem R a L mm lo β 0 emit acc) m
      = (.ok acc₀, { m with tab := Function.update m.tab a T₀ }) ∧
      acc₀ = (if reality = true ∧ (0 : ℤ) = 0 then acc
        else otfPass (R.with (m.tab a)) L mm lo β 0 emit acc) := by
    rw [act_bind_ok (act_pure acc m)]
    by_cases hr : reality = true ∧ (0 : ℤ) = 0
    · refine ⟨m.tab a, acc, fun _ _ => rfl, ?_, by rw [if_pos hr]⟩
      rw [if_pos hr, Function.update_eq_self]; rfl
    · obtain ⟨T, h1, h2⟩ := otfPassMem_run R a L mm lo β 0 emit acc m
      exact ⟨T, _, h1, by rw [if_neg hr, h2], by rw [if_neg hr]⟩
  rw [act_bind_ok h₀, if_neg (by norm_num), if_neg (by norm_num), ← ha₀]
  obtain ⟨T, h1, h2⟩ := otfPassMem_run R a L mm lo β 1 emit acc₀
    { m with tab := Function.update m.tab a T₀ }
  refine ⟨T, ?_⟩
  rw [h2]
  simp only [Function.update_self, Function.update_idem]
  rw [otfPass_congr R L mm lo β 1 emit acc₀ (hT₀ 1 (by norm_num))]

/-! ## The latitudinal steps -/

/-- Addresses in use. -/
def PmRef.In (R : PmRef) (m : Mem) : Prop := R.lr < m.next

theorem PmRef.read_kept {R : PmRef} {m m' : Mem} (h : R.In m) (hk : Kept m m') :
    R.read m' = R.read m := by
  unfold PmRef.read; rw [hk.tab _ h]

theorem PmRef.In.mono {R : PmRef} {m m' : Mem} (h : R.In m) (hk : Kept m m') : R.In m' :=
  lt_of_lt_of_le h hk.next

/-- The `precomps` argument in use, and its value. -/
def PmOptIn (p : Option PmRef) (m : Mem) : Prop := ∀ R, p = some R → R.In m

def pmOptRead (p : Option PmRef) (m : Mem) : Option PmPre := p.map (·.read m)

theorem PmOptIn.mono {p : Option PmRef} {m m' : Mem} (h : PmOptIn p m) (hk : Kept m m') :
    PmOptIn p m' := fun R hR => (h R hR).mono hk

theorem pmOptRead_kept {p : Option PmRef} {m m' : Mem} (h : PmOptIn p m) (hk : Kept m m') :
    pmOptRead p m' = pmOptRead p m := by
  cases p with
  | none => rfl
  | some R => simp only [pmOptRead, Option.map_some, PmRef.read_kept (h R rfl) hk]

theorem otfPrecompsMem_agrees (G : Machine) {p : Option PmRef} (L spin : ℤ)
    (sampling : PyStr) (nside : Option ℤ) (forward : Bool) {m₀ m : Mem} (hk : Kept m₀ m)
    (hp : PmOptIn p m) :
    Agrees m₀ m (otfPrecompsMem G p L spin sampling nside forward)
      (otfPrecomps G (pmOptRead p m) L spin sampling nside forward)
      (fun R P m' => R.read m' = P ∧ R.In m') := by
  cases p with
  | some R => exact Agrees.pure hk ⟨rfl, hp R rfl⟩
  | none =>
    show Agrees m₀ m (Act.lift _ >>= _) (precomputesNumpy G L spin sampling nside forward) _
    have := Agrees.bind (w := fun P => Except.ok P)
      (S := fun (R : PmRef) (P : PmPre) m' => R.read m' = P ∧ R.In m')
      (k := fun P => P.store)
      (Agrees.lift (precomputesNumpy G L spin sampling nside forward) hk) (by
        rintro P P' m' _ hk' ⟨rfl, rfl⟩
        refine Agrees.step (newTab_run _ _) ?_
        refine Agrees.pure (hk'.newTab _) ⟨?_, ?_⟩
        · simp [PmRef.read, PmRef.with]
        · exact Nat.lt_succ_self _)
    convert this using 1
    cases precomputesNumpy G L spin sampling nside forward <;> rfl

/-- A latitudinal step in memory: the table is copied, so that nothing in use changes. -/
theorem copyRows_agrees {α : Type} (R : PmRef) (L mm lo : ℤ) (β : ℤ → ℝ) (reality : Bool)
    (emit : ℤ → ℤ → ℤ → (ℤ → ℤ → ℝ) → α → α) (acc : α) {m₀ m : Mem} (hk : Kept m₀ m) :
    Agrees m₀ m (do
      let a ← copyTab R.lr
      if L = 1 then Act.fail .indexError
      else otfRowsMem R a L mm lo β reality emit acc)
      (if L = 1 then .error .indexError else .ok (otfRows (R.read m) L mm lo β reality emit acc))
      (fun x y _ => x = y) := by
  refine Agrees.step (copyTab_run _ _) ?_
  by_cases hL : L = 1
  · rw [if_pos hL, if_pos hL]; exact Agrees.fail _ (hk.newTab _)
  · rw [if_neg hL, if_neg hL]
    obtain ⟨T, h⟩ := otfRowsMem_run R m.next L mm lo β reality emit acc
      { m with tab := Function.update m.tab m.next (m.tab R.lr), next := m.next + 1 }
    unfold Agrees
    rw [h]
    refine ⟨(hk.newTab _).setTab (a := m.next) hk.next T, _, rfl, ?_⟩
    simp only [Function.update_self]
    rfl

theorem inverseLatitudinalStepMem_agrees (G : Machine) (flm : ℤ → ℤ → ℂ) (β : ℤ → ℝ) (L spin : ℤ)
    (nside : Option ℤ) (sampling : PyStr) (reality : Bool) {p : Option PmRef} (lo : ℤ)
    {m₀ m : Mem} (hk : Kept m₀ m) (hp : PmOptIn p m) :
    Agrees m₀ m (inverseLatitudinalStepMem G flm β L spin nside sampling reality p lo)
      (inverseLatitudinalStep G flm β L spin nside sampling reality (pmOptRead p m) lo)
      (fun x y _ => x = y) := by
  unfold inverseLatitudinalStepMem inverseLatitudinalStep
  refine Agrees.bind (Agrees.lift _ hk) ?_
  rintro shape _ m' _ hk' ⟨rfl, rfl⟩
  refine Agrees.bind (otfPrecompsMem_agrees G L spin sampling nside false hk' hp) ?_
  rintro R P m'' _ hk'' ⟨rfl, _⟩
  exact copyRows_agrees R L (-spin) lo β reality _ _ hk''

theorem forwardLatitudinalStepMem_agrees (G : Machine) (ftm : ℤ → ℤ → ℂ) (β : ℤ → ℝ)
    (nt L spin width : ℤ) (nside : Option ℤ) (sampling : PyStr) (reality : Bool)
    {p : Option PmRef} (lo : ℤ) {m₀ m : Mem} (hk : Kept m₀ m) (hp : PmOptIn p m) :
    Agrees m₀ m
      (forwardLatitudinalStepMem G ftm β nt L spin width nside sampling reality p lo)
      (forwardLatitudinalStep G ftm β nt L spin width nside sampling reality (pmOptRead p m) lo)
      (fun x y _ => x = y) := by
  unfold forwardLatitudinalStepMem forwardLatitudinalStep
  refine Agrees.bind (otfPrecompsMem_agrees G L spin sampling nside true hk hp) ?_
  rintro R P m'' _ hk'' ⟨rfl, _⟩
  exact copyRows_agrees R L (-spin) lo β reality _ _ hk''

/-! ## The spherical transforms -/

/-- The result is a new array, not in use in `m₀`, with the given contents. -/
def Fresh (m₀ : Mem) (a : ℕ) (v : Nd ℂ) (m : Mem) : Prop :=
  m₀.next ≤ a ∧ a < m.next ∧ m.arr a = v

theorem newArr_agrees (v : Nd ℂ) {m₀ m : Mem} (hk : Kept m₀ m) :
    Agrees m₀ m (newArr v) (.ok v) (Fresh m₀) :=
  ⟨hk.newArr v, m.next, rfl, hk.next, Nat.lt_succ_self _, by simp [newArr_run]⟩

theorem Agrees.lift_new (v : Except PyErr (Nd ℂ)) {m₀ m : Mem} (hk : Kept m₀ m) :
    Agrees m₀ m (do let f ← Act.lift v; newArr f) v (Fresh m₀) := by
  have := Agrees.bind (w := fun v => Except.ok v) (S := Fresh m₀) (k := fun v => newArr v)
    (Agrees.lift v hk) (by rintro v _ m3 _ hk4 ⟨rfl, rfl⟩; exact newArr_agrees v hk4)
  cases v <;> exact this

theorem requireLower_agrees {α β : Type} {lo : ℤ} {m₀ m : Mem} {x : Act α} {v : Except PyErr β}
    {R : α → β → Mem → Prop} (hk : Kept m₀ m) (h : Agrees m₀ m x v R) :
    Agrees m₀ m (requireLowerMem lo x) (requireLower lo v) R := by
  unfold requireLowerMem requireLower
  by_cases hlo : lo < 0
  · rw [if_pos hlo, if_pos hlo]; exact Agrees.fail _ hk
  · rw [if_neg hlo, if_neg hlo]; exact h

theorem inverseNumpyMem_agrees (G : Machine) (flm : ℕ) (L spin : ℤ) (nside : Option ℤ)
    (sampling : PyStr) (reality : Bool) {p : Option PmRef} (lo : ℤ) {m₀ m : Mem} (hk : Kept m₀ m)
    (hp : PmOptIn p m) :
    Agrees m₀ m (inverseNumpyMem G flm L spin nside sampling reality p lo)
      (otfInverseNumpy G (m.arr flm) L spin nside sampling reality (pmOptRead p m) lo)
      (Fresh m₀) := by
  unfold inverseNumpyMem otfInverseNumpy
  refine requireLower_agrees hk ?_
  refine Agrees.bind (Agrees.lift _ hk) ?_
  rintro ⟨nt, θ⟩ _ m' _ hk' ⟨rfl, rfl⟩
  refine Agrees.step (copyArr_run _ _) ?_
  refine Agrees.step (getArr_run _ _) ?_
  simp only [Function.update_self]
  by_cases hs : (m'.arr flm).shape ≠ [L, 2 * L - 1]
  · rw [if_pos hs, if_pos hs]; exact Agrees.fail _ (hk'.newArr _)
  · rw [if_neg hs, if_neg hs]
    refine Agrees.step (setArr_run _ _ _) ?_
    refine Agrees.step (getArr_run _ _) ?_
    simp only [Function.update_self, Function.update_idem]
    have hk2 : Kept m' { m' with
        arr := Function.update m'.arr m'.next (.d2 L (2 * L - 1) (otfNormalise (m'.arr flm).get2 lo)),
        next := m'.next + 1 } := (Kept.refl m').newArr _
    have := inverseLatitudinalStepMem_agrees G (otfNormalise (m'.arr flm).get2 lo) θ L spin nside
      sampling reality (p := p) lo (hk'.trans hk2) (hp.mono hk2)
    rw [pmOptRead_kept hp hk2] at this
    refine Agrees.bind this ?_
    rintro ftm _ m2 _ hk3 rfl
    exact Agrees.lift_new (otfInverseTail ftm (otfNormalise (m'.arr flm).get2 lo) nt L spin nside
      sampling reality lo) hk3

theorem forwardPolesNumpyMem_agrees (G : Machine) (ftm : ℤ → ℤ → ℂ) (θ : ℤ → ℝ)
    (nt L spin width : ℤ) (nside : Option ℤ) (s : PyStr) (reality : Bool)
    {p : Option PmRef} (lo : ℤ) {m₀ m : Mem} (hk : Kept m₀ m) (hp : PmOptIn p m) :
    Agrees m₀ m (forwardPolesNumpyMem G ftm θ nt L spin width nside s reality p lo)
      (forwardPolesNumpy G ftm θ nt L spin width nside s reality (pmOptRead p m) lo)
      (fun x y _ => x = y) := by
  unfold forwardPolesNumpyMem forwardPolesNumpy
  by_cases hs : lower s = sMWSS
  · simp only [if_pos hs]
    refine Agrees.bind (forwardLatitudinalStepMem_agrees G _ _ _ L spin width nside s reality lo hk
      hp) ?_
    rintro flm _ m' _ hk' rfl
    exact (Agrees.lift _ hk').mono (fun _ _ _ _ _ h => h.1)
  · simp only [if_neg hs]
    exact forwardLatitudinalStepMem_agrees G ftm θ nt L spin width nside s reality lo hk hp

theorem forwardNumpyMem_agrees (G : Machine) (f : ℕ) (L spin : ℤ) (nside : Option ℤ)
    (sampling : PyStr) (reality : Bool) {p : Option PmRef} (lo : ℤ) {m₀ m : Mem} (hk : Kept m₀ m)
    (hp : PmOptIn p m) :
    Agrees m₀ m (forwardNumpyMem G f L spin nside sampling reality p lo)
      (otfForwardNumpy G (m.arr f) L spin nside sampling reality (pmOptRead p m) lo)
      (Fresh m₀) := by
  unfold forwardNumpyMem otfForwardNumpy
  refine requireLower_agrees hk ?_
  refine Agrees.step (getArr_run _ _) ?_
  refine Agrees.bind (Agrees.lift _ hk) ?_
  rintro ⟨ftm, s, nt, θ, width⟩ _ m' _ hk' ⟨rfl, rfl⟩
  refine Agrees.bind (forwardPolesNumpyMem_agrees G ftm θ nt L spin width nside s reality lo hk' hp)
    ?_
  rintro flm _ m2 _ hk2 rfl
  exact newArr_agrees _ hk2

/-- The refinement assigns into an array that the first forward transform made. -/
theorem refineMem_agrees {f : ℕ} {n : ℤ} {fwd bwd : ℕ → Act ℕ} {pf pb : Nd ℂ → Except PyErr (Nd ℂ)}
    {m₀ m : Mem} (hk : Kept m₀ m) (hf : f < m₀.next)
    (hfwd : ∀ a m', Kept m₀ m' → a < m'.next → Agrees m' m' (fwd a) (pf (m'.arr a)) (Fresh m'))
    (hbwd : ∀ a m', Kept m₀ m' → a < m'.next → Agrees m' m' (bwd a) (pb (m'.arr a)) (Fresh m')) :
    Agrees m₀ m (refineMem f n fwd bwd)
      (refine (m.arr f) n pf pb (Nd.map2 (· - ·)) (Nd.map2 (· + ·))) (Fresh m₀) := by
  unfold refineMem refine
  refine Agrees.bind (Agrees.up hk (hfwd f m hk (hf.trans_le hk.next))) ?_
  rintro a v m1 _ hk1 ⟨⟨h1, h2, h3⟩, h4⟩
  have hfm : m.arr f = m₀.arr f := hk.arr f hf
  refine (Agrees.forRange (fun _ => Fresh m₀) hk1 ⟨hk.next.trans h1, h2, h3⟩ ?_)
  rintro i a v m1 _ _ hk1 ⟨h1, h2, rfl⟩
  refine Agrees.bind (Agrees.up hk1 (hbwd a m1 hk1 h2)) ?_
  rintro g w m2 _ hk2 ⟨⟨h3, h4, rfl⟩, h5⟩
  refine Agrees.step (getArr_run _ _) ?_
  refine Agrees.step (getArr_run _ _) ?_
  refine Agrees.step (newArr_run _ _) ?_
  have hk3 := (Kept.refl m2).newArr (Nd.map2 (· - ·) (m2.arr f) (m2.arr g))
  have hb := Agrees.up (hk2.trans hk3) (hfwd m2.next _ (hk2.trans hk3) (Nat.lt_succ_self _))
  simp only [Function.update_self] at hb
  rw [hk2.arr f hf, ← hfm] at hb hk3 ⊢
  refine Agrees.bind hb ?_
  rintro e w m3 _ hk4 ⟨⟨h6, h7, rfl⟩, h8⟩
  refine Agrees.step (getArr_run _ _) ?_
  refine Agrees.step (getArr_run _ _) ?_
  refine Agrees.step (setArr_run _ _ _) ?_
  have ha : m3.arr a = m1.arr a := by
    rw [h8.arr a (by have := h5.next; simp only; omega)]
    rw [hk3.arr a (by have := h5.next; omega), h5.arr a h2]
  refine Agrees.pure (hk4.setArr h1 _) ⟨h1, ?_, ?_⟩
  · have := h8.next; have := h5.next; simp only at *; omega
  · simp only [Function.update_self, ha]

/-! ## The Wigner transforms -/

/-- A list of coefficients in use; their values. -/
def WigIn (ps : ℤ → PmRef) (count : ℤ) (m : Mem) : Prop := ∀ i, 0 ≤ i → i < count → (ps i).In m

theorem wignerPrecompsMem_agrees (G : Machine) (L N : ℤ) (sampling : PyStr) (nside : Option ℤ)
    (forward reality : Bool) {m₀ m : Mem} (hk : Kept m₀ m) :
    Agrees m₀ m (wignerPrecompsMem G L N sampling nside forward reality)
      (wignerPrecompsNumpy G L N sampling nside forward reality)
      (fun ps pp m' => WigIn ps (N - wigStart N reality) m' ∧
        ∀ i, 0 ≤ i → i < N - wigStart N reality → (ps i).read m' = pp i) := by
  unfold wignerPrecompsMem wignerPrecompsNumpy
  refine (Agrees.forRange (fun k ps pp m' => ∀ j, 0 ≤ j → j < k - wigStart N reality →
    (ps j).In m' ∧ (ps j).read m' = pp j) hk (by intro j h1 h2; omega) ?_).mono ?_
  · intro n ps pp m' h1 h2 hk' hR
    refine Agrees.bind (Agrees.lift _ hk') ?_
    rintro P _ m' _ hk' ⟨rfl, rfl⟩
    refine Agrees.step (a := ⟨m'.next, P.vsign, P.cpi, P.cp2, P.nan⟩) (m' := { m' with
      tab := Function.update m'.tab m'.next P.lr, next := m'.next + 1 }) rfl ?_
    have hk2 := (Kept.refl m').newTab P.lr
    refine Agrees.pure (hk'.trans hk2) ?_
    intro j h3 h4
    unfold set1
    by_cases hj : j = n - wigStart N reality
    · simp only [if_pos hj]
      exact ⟨Nat.lt_succ_self _, by simp [PmRef.read, PmRef.with]⟩
    · simp only [if_neg hj]
      obtain ⟨h5, h6⟩ := hR j h3 (by omega)
      exact ⟨h5.mono hk2, by rw [PmRef.read_kept h5 hk2, h6]⟩
  · intro ps pp m' _ _ h
    exact ⟨fun i h1 h2 => (h i h1 (by omega)).1, fun i h1 h2 => (h i h1 (by omega)).2⟩

/-- The `precomps` argument of the Wigner transforms in use, and its value. -/
def WigOptIn (p : Option (ℤ → PmRef)) (count : ℤ) (m : Mem) : Prop :=
  ∀ ps, p = some ps → WigIn ps count m

def wigOptRead (p : Option (ℤ → PmRef)) (m : Mem) : Option (ℤ → PmPre) :=
  p.map (fun ps i => (ps i).read m)

theorem orGenerateMem_agrees (G : Machine) (L N : ℤ) (sampling : PyStr) (nside : Option ℤ)
    (forward reality : Bool) {p : Option (ℤ → PmRef)} {m₀ m : Mem} (hk : Kept m₀ m)
    (hp : WigOptIn p (N - wigStart N reality) m) :
    Agrees m₀ m (orGenerateMem p (wignerPrecompsMem G L N sampling nside forward reality))
      (orGenerate (wigOptRead p m) (wignerPrecompsNumpy G L N sampling nside forward reality))
      (fun ps pp m' => (WigIn ps (N - wigStart N reality) m' ∧
        ∀ i, 0 ≤ i → i < N - wigStart N reality → (ps i).read m' = pp i) ∧ Kept m m') := by
  cases p with
  | some ps => exact Agrees.pure hk ⟨⟨hp ps rfl, fun _ _ _ => rfl⟩, Kept.refl m⟩
  | none =>
    exact Agrees.up hk (wignerPrecompsMem_agrees G L N sampling nside forward reality (Kept.refl m))

theorem wignerInverseNumpyMem_agrees (G : Machine) {flmn : ℕ} (L N : ℤ) (nside : Option ℤ)
    (sampling : PyStr) (reality : Bool) {p : Option (ℤ → PmRef)} (lo : ℤ) {m₀ m : Mem}
    (hk : Kept m₀ m) (hf : flmn < m.next) (hp : WigOptIn p (N - wigStart N reality) m) :
    Agrees m₀ m (wignerInverseNumpyMem G flmn L N nside sampling reality p lo)
      (otfWignerInverseNumpy G (m.arr flmn) L N nside sampling reality (wigOptRead p m) lo)
      (Fresh m₀) := by
  unfold wignerInverseNumpyMem otfWignerInverseNumpy
  refine requireLower_agrees hk ?_
  refine Agrees.bind (orGenerateMem_agrees G L N sampling nside false reality hk hp) ?_
  rintro ps pp m1 _ hk1 ⟨⟨hin, hrd⟩, hm1⟩
  refine Agrees.bind (Agrees.lift _ hk1) ?_
  rintro shape _ m1' _ _ ⟨rfl, rfl⟩
  refine Agrees.step (copyArr_run _ _) ?_
  refine Agrees.step (getArr_run _ _) ?_
  simp only [Function.update_self]
  rw [hm1.arr _ hf]
  by_cases hs : (m.arr flmn).shape
      ≠ [(flmn_shape L N).1, (flmn_shape L N).2.1, (flmn_shape L N).2.2]
  · rw [if_pos hs, if_pos hs]; exact Agrees.fail _ (hk1.newArr _)
  · rw [if_neg hs, if_neg hs]
    refine Agrees.step (setArr_run _ _ _) ?_
    simp only [Function.update_idem]
    have hk2 := (Kept.refl m1').newArr (.d3 (flmn_shape L N).1 (flmn_shape L N).2.1
      (flmn_shape L N).2.2 (wigScale (m.arr flmn).get3 lo))
    set m2 : Mem := ⟨Function.update m1'.arr m1'.next (.d3 (flmn_shape L N).1
      (flmn_shape L N).2.1 (flmn_shape L N).2.2 (wigScale (m.arr flmn).get3 lo)), m1'.tab,
      m1'.next + 1⟩ with hm2
    unfold wigInverseLoop
    refine Agrees.bind (R := fun x y _ => x = y) ((Agrees.up (hk1.trans hk2) (Agrees.forRange
      (fun _ x y _ => x = y) (Kept.refl m2) rfl ?_)).mono (fun _ _ _ _ _ h => h.1)) ?_
    · rintro n fban _ m3 h1 h2 hk3 rfl
      refine Agrees.step (getArr_run _ _) ?_
      refine Agrees.step (newArr_run _ _) ?_
      have ha : m3.arr m1'.next = .d3 (flmn_shape L N).1 (flmn_shape L N).2.1
          (flmn_shape L N).2.2 (wigScale (m.arr flmn).get3 lo) := by
        rw [hk3.arr _ (Nat.lt_succ_self _), hm2]; simp
      rw [ha]
      have hk4 := (Kept.refl m3).newArr (.d2 (flm_shape L).1 (flm_shape L).2
        (wigScale (m.arr flmn).get3 lo (N - 1 + n)))
      have hR : (ps (n - wigStart N reality)).In m1' := hin _ (by omega) (by omega)
      have hR2 := hR.mono (hk2.trans hk3)
      have := inverseNumpyMem_agrees G m3.next L (-n) nside sampling
        (if n = 0 then reality else false) (p := some (ps (n - wigStart N reality))) lo
        (hk3.trans hk4) (by rintro R hR'; cases hR'; exact hR2.mono hk4)
      rw [pmOptRead_kept (m := m1') (by rintro R hR'; cases hR'; exact hR)
        ((hk2.trans hk3).trans hk4)] at this
      simp only [pmOptRead, Option.map_some, Function.update_self,
        hrd (n - wigStart N reality) (by omega) (by omega)] at this
      refine Agrees.bind this ?_
      rintro a v m4 _ hk5 ⟨_, _, rfl⟩
      refine Agrees.step (getArr_run _ _) ?_
      exact Agrees.pure hk5 rfl
    · rintro fban _ m3 _ hk3 rfl
      exact Agrees.lift_new _ hk3

theorem wignerForwardNumpyMem_agrees (G : Machine) {f : ℕ} (L N : ℤ) (nside : Option ℤ)
    (sampling : PyStr) (reality : Bool) {p : Option (ℤ → PmRef)} (lo : ℤ) {m₀ m : Mem}
    (hk : Kept m₀ m) (hf : f < m.next) (hp : WigOptIn p (N - wigStart N reality) m) :
    Agrees m₀ m (wignerForwardNumpyMem G f L N nside sampling reality p lo)
      (otfWignerForwardNumpy G (m.arr f) L N nside sampling reality (wigOptRead p m) lo)
      (Fresh m₀) := by
  unfold wignerForwardNumpyMem otfWignerForwardNumpy
  refine requireLower_agrees hk ?_
  refine Agrees.bind (orGenerateMem_agrees G L N sampling nside true reality hk hp) ?_
  rintro ps pp m1 _ hk1 ⟨⟨hin, hrd⟩, hm1⟩
  refine Agrees.bind (Agrees.lift _ hk1) ?_
  rintro shape _ m1' _ _ ⟨rfl, rfl⟩
  refine Agrees.step (getArr_run _ _) ?_
  rw [hm1.arr _ hf]
  by_cases hs : (m.arr f).shape ≠ shape
  · rw [if_pos hs, if_pos hs]; exact Agrees.fail _ hk1
  · rw [if_neg hs, if_neg hs]
    refine Agrees.bind (R := fun x y _ => x = y) ((Agrees.up hk1 (Agrees.forRange
      (fun _ x y _ => x = y) (Kept.refl m1') rfl ?_)).mono (fun _ _ _ _ _ h => h.1)) ?_
    · rintro n flmn _ m3 h1 h2 hk3 rfl
      refine Agrees.step (newArr_run _ _) ?_
      have hk4 := (Kept.refl m3).newArr (planeOf shape
        (wignerBaseFban (m.arr f).get3 N reality (n - wigStart N reality)))
      have hR : (ps (n - wigStart N reality)).In m1' := hin _ (by omega) (by omega)
      have hR2 := hR.mono hk3
      have := forwardNumpyMem_agrees G m3.next L (-n) nside sampling
        (if n = 0 then reality else false) (p := some (ps (n - wigStart N reality))) lo
        (hk3.trans hk4) (by rintro R hR'; cases hR'; exact hR2.mono hk4)
      rw [pmOptRead_kept (m := m1') (by rintro R hR'; cases hR'; exact hR)
        (hk3.trans hk4)] at this
      simp only [pmOptRead, Option.map_some, Function.update_self,
        hrd (n - wigStart N reality) (by omega) (by omega)] at this
      refine Agrees.bind this ?_
      rintro a v m4 _ hk5 ⟨_, _, rfl⟩
      refine Agrees.step (getArr_run _ _) ?_
      by_cases hc : reality = true ∧ n ≠ 0
      · rw [if_pos hc, if_pos hc]; exact Agrees.pure hk5 rfl
      · rw [if_neg hc, if_neg hc]; exact Agrees.pure hk5 rfl
    · rintro flmn _ m3 _ hk3 rfl
      exact newArr_agrees _ hk3

/-! ## Only the coefficients of the list are used -/

theorem except_ok_bind {α β : Type} (a : α) (k : α → Except PyErr β) :
    ((Except.ok a : Except PyErr α) >>= k) = k a := rfl

theorem forRangeM_congr {σ : Type} {lo hi : ℤ} {b b' : ℤ → σ → Except PyErr σ}
    (h : ∀ i s, lo ≤ i → i < hi → b i s = b' i s) (s : σ) :
    forRangeM lo hi b s = forRangeM lo hi b' s := by
  unfold forRangeM
  rcases le_total lo hi with hle | hle
  · obtain ⟨n, rfl⟩ : ∃ n : ℕ, hi = lo + n := ⟨(hi - lo).toNat, by omega⟩
    clear hle
    induction n with
    | zero => rw [forRange_of_le (by simp), forRange_of_le (by simp)]
    | succ n ih =>
      rw [show lo + ((n + 1 : ℕ) : ℤ) = lo + n + 1 by push_cast; ring]
      rw [forRange_succ (by omega), forRange_succ (by omega),
        ih (fun i s h1 h2 => h i s h1 (by push_cast; omega))]
      congr 1
      funext s
      exact h _ s (by omega) (by push_cast; omega)
  · rw [forRange_of_le hle, forRange_of_le hle]

theorem otfWignerInverseNumpy_precomps (G : Machine) (flmn : Nd ℂ) (L N : ℤ) (nside : Option ℤ)
    (sampling : PyStr) (reality : Bool) {ps ps' : ℤ → PmPre} (lo : ℤ)
    (h : ∀ i, 0 ≤ i → i < N - wigStart N reality → ps i = ps' i) :
    otfWignerInverseNumpy G flmn L N nside sampling reality (some ps) lo
      = otfWignerInverseNumpy G flmn L N nside sampling reality (some ps') lo := by
  have key : wigInverseLoop N reality (fun n => (-1) ^ n) (fun n =>
      otfInverseNumpy G (.d2 (flm_shape L).1 (flm_shape L).2 (wigScale flmn.get3 lo (N - 1 + n))) L
        (-n) nside sampling (if n = 0 then reality else false)
        (some (ps (n - wigStart N reality))) lo)
      = wigInverseLoop N reality (fun n => (-1) ^ n) (fun n =>
      otfInverseNumpy G (.d2 (flm_shape L).1 (flm_shape L).2 (wigScale flmn.get3 lo (N - 1 + n))) L
        (-n) nside sampling (if n = 0 then reality else false)
        (some (ps' (n - wigStart N reality))) lo) := by
    unfold wigInverseLoop
    refine forRangeM_congr (fun n s h1 h2 => ?_) _
    beta_reduce
    rw [h _ (by omega) (by omega)]
  unfold otfWignerInverseNumpy
  simp only [orGenerate, except_ok_bind, key]

theorem otfWignerForwardNumpy_precomps (G : Machine) (f : Nd ℂ) (L N : ℤ) (nside : Option ℤ)
    (sampling : PyStr) (reality : Bool) {ps ps' : ℤ → PmPre} (lo : ℤ)
    (h : ∀ i, 0 ≤ i → i < N - wigStart N reality → ps i = ps' i) :
    otfWignerForwardNumpy G f L N nside sampling reality (some ps) lo
      = otfWignerForwardNumpy G f L N nside sampling reality (some ps') lo := by
  have key : ∀ shape, forRangeM (wigStart N reality) N (fun n flmn => do
      let flm ← otfForwardNumpy G (planeOf shape (wignerBaseFban f.get3 N reality
        (n - wigStart N reality))) L (-n) nside
        sampling (if n = 0 then reality else false) (some (ps (n - wigStart N reality))) lo
      let flmn := setPlane flmn (N - 1 + n) (fun l j => (-1) ^ n * flm.get2 l j)
      if reality = true ∧ n ≠ 0 then
        pure (setPlane flmn (N - 1 - n) (wigMirror (flmn (N - 1 + n)) L n))
      else pure flmn) (fun _ _ _ => 0)
      = forRangeM (wigStart N reality) N (fun n flmn => do
      let flm ← otfForwardNumpy G (planeOf shape (wignerBaseFban f.get3 N reality
        (n - wigStart N reality))) L (-n) nside
        sampling (if n = 0 then reality else false) (some (ps' (n - wigStart N reality))) lo
      let flmn := setPlane flmn (N - 1 + n) (fun l j => (-1) ^ n * flm.get2 l j)
      if reality = true ∧ n ≠ 0 then
        pure (setPlane flmn (N - 1 - n) (wigMirror (flmn (N - 1 + n)) L n))
      else pure flmn) (fun _ _ _ => 0) := by
    intro shape
    refine forRangeM_congr (fun n s h1 h2 => ?_) _
    beta_reduce
    rw [h _ (by omega) (by omega)]
  unfold otfWignerForwardNumpy
  simp only [orGenerate, except_ok_bind, key]

/-! ## `compute_all_slices` for `L = 3` -/

theorem computeAllSlices_three (R : PmRef) (β : ℤ → ℝ) (m : Mem) : ∃ d m',
    computeAllSlices β 3 0 (.seven R) m = (.ok d, m') ∧
    m'.tab R.lr 1 0 2 = m.tab R.lr 1 0 2 + Real.log |R.cpi 1 2 * ((R.cpi 0 2
      * (1 * pmLamb 3 0 1 1 (β 0) 2)) * pmLamb 3 0 1 2 (β 0) 2) - R.cp2 1 2 * 1| ∧
    d 2 0 2 = (R.cpi 1 2 * ((R.cpi 0 2 * (1 * pmLamb 3 0 1 1 (β 0) 2))
      * pmLamb 3 0 1 2 (β 0) 2) - R.cp2 1 2 * 1)
      * (if R.nan 1 2 then 0 else Real.exp (m.tab R.lr 1 0 2)) * R.vsign 2 2 := by
  refine ⟨_, _, rfl, ?_, ?_⟩
  · simp [pmUpdate, pmEntry, pmInit, PmRef.with]
  · simp [pmUpdate, pmEntry, pmInit, PmRef.with, pmRow, PmPre.exp]

end S2fft
