import Verif.Lemmas.Memory
import Verif.Props.C39

/-!
# C42: calls and the arrays of the caller

The NumPy transforms assign into arrays as they go. These theorems are about a memory that the caller
shares with the functions (`Mem`): the signals, coefficients and precomputed tables that the caller
holds are its addresses below `next`.
-/

namespace S2fft
open Spec Act

/-- Everything that was in memory is still there, unchanged. -/
def Spec.Intact (m m' : Mem) : Prop :=
  ∀ a, a < m.next → a < m'.next ∧ m'.arr a = m.arr a ∧ m'.tab a = m.tab a

/-- The arrays that a call is given are in memory. -/
def Call.Args (m : Mem) : Call → Prop
  | .inverse a _ _ _ _ _ p _ | .forward a _ _ _ _ _ p _ _ =>
    a < m.next ∧ ∀ R ∈ p, R.lr < m.next
  | .wignerInverse a _ N _ _ reality p _ | .wignerForward a _ N _ _ reality p _ =>
    a < m.next ∧ ∀ ps ∈ p, ∀ i, 0 ≤ i → i < N - (if reality then 0 else -N + 1) → (ps i).lr < m.next

/-- The result of the same call as a function of the contents of these arrays: the transforms of the
model on values, with `method="numpy"`. -/
noncomputable def Call.value (B : Backends) (G : Machine) (m : Mem) : Call → Except PyErr (Nd ℂ)
  | .inverse a L spin nside s reality p lo =>
    sphericalInverse B G (m.arr a) L spin nside s mNumpy reality (p.map (·.read m)) lo 1
  | .forward a L spin nside s reality p lo iter =>
    sphericalForward B G (m.arr a) L spin nside s mNumpy reality (p.map (·.read m)) lo iter 1
  | .wignerInverse a L N nside s reality p lo =>
    S2fft.wignerInverse B G (m.arr a) L N nside s mNumpy reality
      (p.elim .none (fun ps => .numpy fun i => (ps i).read m)) lo 1
  | .wignerForward a L N nside s reality p lo =>
    S2fft.wignerForward B G (m.arr a) L N nside s mNumpy reality
      (p.elim .none (fun ps => .numpy fun i => (ps i).read m)) lo 1

/-- `r` is what `v` says: the same exception, or an array of `m'` that was not in `m` and holds the
value. -/
def Spec.Returns (m m' : Mem) (r : Except PyErr ℕ) (v : Except PyErr (Nd ℂ)) : Prop :=
  match v with
  | .error e => r = .error e
  | .ok x => ∃ a, r = .ok a ∧ m.next ≤ a ∧ a < m'.next ∧ m'.arr a = x

theorem agrees_returns {m : Mem} {x : Act ℕ} {v : Except PyErr (Nd ℂ)}
    (h : Agrees m m x v (Fresh m)) : Intact m (x m).2 ∧ Returns m (x m).2 (x m).1 v := by
  refine ⟨fun a ha => ⟨ha.trans_le h.1.next, h.1.arr a ha, h.1.tab a ha⟩, ?_⟩
  have := h.2
  unfold Returns
  cases v with
  | error e => exact this
  | ok b => obtain ⟨a, h1, h2, h3, h4⟩ := this; exact ⟨a, h1, h2, h3, h4⟩

theorem call_agrees (B : Backends) (G : Machine) (c : Call) (m : Mem) (h : c.Args m) :
    Agrees m m (c.run G) (c.value B G m) (Fresh m) := by
  cases c with
  | inverse a L spin nside s reality p lo =>
    obtain ⟨h1, h2⟩ := h
    simp only [Call.run, Call.value]
    unfold sphericalInverse
    rw [if_neg (show ¬ mNumpy ∉ sphericalMethods by decide)]
    by_cases hs : spin ≥ 8
    · simp only [if_pos hs, if_pos (show spin ≥ 8 ∧ mNumpy ∈ otfMethods from ⟨hs, by decide⟩)]
      exact Agrees.fail _ (Kept.refl m)
    · simp only [if_neg hs, if_neg (show ¬ (spin ≥ 8 ∧ mNumpy ∈ otfMethods) from fun h => hs h.1),
        if_neg (show ¬ mNumpy = mHealpy by decide), if_neg (show ¬ mNumpy = mSsht by decide),
        otfInverse, if_true]
      exact inverseNumpyMem_agrees G a L spin nside s reality lo (Kept.refl m)
        (fun R hR => h2 R hR)
  | forward a L spin nside s reality p lo iter =>
    obtain ⟨h1, h2⟩ := h
    have hp : PmOptIn p m := fun R hR => h2 R hR
    simp only [Call.run, Call.value]
    unfold sphericalForward
    rw [if_neg (show ¬ mNumpy ∉ sphericalMethods by decide)]
    by_cases hs : spin ≥ 8
    · simp only [if_pos hs, if_pos (show spin ≥ 8 ∧ mNumpy ∈ otfMethods from ⟨hs, by decide⟩)]
      exact Agrees.fail _ (Kept.refl m)
    · simp only [if_neg hs, if_neg (show ¬ (spin ≥ 8 ∧ mNumpy ∈ otfMethods) from fun h => hs h.1),
        if_neg (show ¬ mNumpy = mHealpy by decide), if_neg (show ¬ mNumpy = mSsht by decide),
        if_neg (show ¬ (lower s = sHP ∧ mNumpy = mHealpy) from fun h => absurd h.2 (by decide)),
        otfInverse, otfForward, if_true]
      by_cases hi : iter.getD 0 > 0
      · simp only [if_pos hi]
        refine refineMem_agrees (Kept.refl m) h1 ?_ ?_
        · intro b m' hk hb
          have := forwardNumpyMem_agrees G b L spin nside s reality lo (Kept.refl m') (hp.mono hk)
          rw [pmOptRead_kept hp hk] at this
          exact this
        · intro b m' hk hb
          exact inverseNumpyMem_agrees G b L spin nside s reality (p := none) lo (Kept.refl m')
            (fun R hR => by cases hR)
      · simp only [if_neg hi]
        exact forwardNumpyMem_agrees G a L spin nside s reality lo (Kept.refl m) hp
  | wignerInverse a L N nside s reality p lo =>
    obtain ⟨h1, h2⟩ := h
    have hp : WigOptIn p (N - wigStart N reality) m := fun ps hps i h3 h4 => h2 ps hps i h3 h4
    simp only [Call.run, Call.value]
    unfold S2fft.wignerInverse
    rw [if_neg (show ¬ mNumpy ∉ wignerMethods by decide)]
    by_cases hs : N ≥ 8
    · simp only [if_pos hs, if_pos (show N ≥ 8 ∧ mNumpy ∈ [mNumpy, mJax, mTorch] from
        ⟨hs, by decide⟩)]
      exact Agrees.fail _ (Kept.refl m)
    · simp only [if_neg hs, if_neg (show ¬ (N ≥ 8 ∧ mNumpy ∈ [mNumpy, mJax, mTorch]) from
        fun h => hs h.1), if_neg (show ¬ mNumpy = mSsht by decide), if_true]
      have := wignerInverseNumpyMem_agrees G L N nside s reality lo (Kept.refl m) h1 hp
      cases p <;> exact this
  | wignerForward a L N nside s reality p lo =>
    obtain ⟨h1, h2⟩ := h
    have hp : WigOptIn p (N - wigStart N reality) m := fun ps hps i h3 h4 => h2 ps hps i h3 h4
    simp only [Call.run, Call.value]
    unfold S2fft.wignerForward
    rw [if_neg (show ¬ mNumpy ∉ wignerMethods by decide)]
    by_cases hs : N ≥ 8
    · simp only [if_pos hs, if_pos (show N ≥ 8 ∧ mNumpy ∈ [mNumpy, mJax, mTorch] from
        ⟨hs, by decide⟩)]
      exact Agrees.fail _ (Kept.refl m)
    · simp only [if_neg hs, if_neg (show ¬ (N ≥ 8 ∧ mNumpy ∈ [mNumpy, mJax, mTorch]) from
        fun h => hs h.1), if_neg (show ¬ mNumpy = mSsht by decide), if_true]
      have := wignerForwardNumpyMem_agrees G L N nside s reality lo (Kept.refl m) h1 hp
      cases p <;> exact this

/-- A call of a NumPy transform, whether it returns or raises, leaves every array of the caller as it
was: the signal or coefficients, the precomputed tables, and all others. It returns a new array, with
what the transform on values gives. -/
theorem C42_call (B : Backends) (G : Machine) (c : Call) (m : Mem) (h : c.Args m) :
    Intact m (c.run G m).2 ∧ Returns m (c.run G m).2 (c.run G m).1 (c.value B G m) :=
  agrees_returns (call_agrees B G c m h)

/-- A sequence of calls each of which is given arrays in memory at its time, among them the results of
earlier ones. -/
def History (G : Machine) : List Call → Mem → Prop
  | [], _ => True
  | c :: cs, m => c.Args m ∧ History G cs (c.run G m).2

theorem runCalls_kept (G : Machine) (cs : List Call) (m : Mem) (h : History G cs m) :
    Kept m (runCalls G cs m) := by
  induction cs generalizing m with
  | nil => exact Kept.refl m
  | cons c cs ih =>
    have B : Backends := ⟨fun _ _ _ _ _ _ _ _ => .error .valueError,
      fun _ _ _ _ _ _ _ _ => .error .valueError, fun _ _ _ _ _ _ => .error .valueError,
      fun _ _ _ _ _ _ => .error .valueError, fun _ _ _ => .error .valueError,
      fun _ _ _ _ => .error .valueError⟩
    exact (call_agrees B G c m h.1).1.trans (ih _ h.2)

theorem Call.Args.mono {c : Call} {m m' : Mem} (h : c.Args m) (hk : Kept m m') : c.Args m' := by
  have := hk.next
  cases c <;> exact ⟨lt_of_lt_of_le h.1 this, by
    first
    | exact fun R hR => lt_of_lt_of_le (h.2 R hR) this
    | exact fun ps hps i h1 h2 => lt_of_lt_of_le (h.2 ps hps i h1 h2) this⟩

theorem Call.value_kept (B : Backends) (G : Machine) {c : Call} {m m' : Mem} (h : c.Args m)
    (hk : Kept m m') : c.value B G m' = c.value B G m := by
  cases c with
  | inverse a L spin nside s reality p lo =>
    have := pmOptRead_kept (p := p) (fun R hR => h.2 R hR) hk
    unfold pmOptRead at this
    unfold Call.value; simp only [hk.arr a h.1, this]
  | forward a L spin nside s reality p lo iter =>
    have := pmOptRead_kept (p := p) (fun R hR => h.2 R hR) hk
    unfold pmOptRead at this
    unfold Call.value; simp only [hk.arr a h.1, this]
  | wignerInverse a L N nside s reality p lo =>
    unfold Call.value
    cases p with
    | none => simp only [hk.arr a h.1, Option.elim]
    | some ps =>
      have key := otfWignerInverseNumpy_precomps G (m.arr a) L N nside s reality lo (fun i h1 h2 =>
        PmRef.read_kept (h.2 ps rfl i h1 h2) hk)
      simp only [hk.arr a h.1, Option.elim, S2fft.wignerInverse, WigPrecomps.forNumpy, if_true,
        except_ok_bind, key]
  | wignerForward a L N nside s reality p lo =>
    unfold Call.value
    cases p with
    | none => simp only [hk.arr a h.1, Option.elim]
    | some ps =>
      have key := otfWignerForwardNumpy_precomps G (m.arr a) L N nside s reality lo (fun i h1 h2 =>
        PmRef.read_kept (h.2 ps rfl i h1 h2) hk)
      simp only [hk.arr a h.1, Option.elim, S2fft.wignerForward, WigPrecomps.forNumpy, if_true,
        except_ok_bind, key]

/-- Calls do not interfere. In every history, a call that is given arrays the caller had at the start
gives what it gives on its own at the start, whatever was called before; and its result is still
there, unchanged, after whatever is called later. -/
theorem C42_history (B : Backends) (G : Machine) (before after : List Call) (c : Call) (m : Mem)
    (h : History G (before ++ c :: after) m) (hc : c.Args m) :
    Returns (runCalls G before m) (runCalls G (before ++ c :: after) m)
      (c.run G (runCalls G before m)).1 (c.value B G m) ∧
    Intact m (runCalls G (before ++ c :: after) m) := by
  have hsplit : ∀ (cs ds : List Call) (m : Mem), History G (cs ++ ds) m →
      History G cs m ∧ History G ds (runCalls G cs m) ∧
      runCalls G (cs ++ ds) m = runCalls G ds (runCalls G cs m) := by
    intro cs
    induction cs with
    | nil => intro ds m h; exact ⟨trivial, h, rfl⟩
    | cons d cs ih =>
      intro ds m h
      obtain ⟨h1, h2, h3⟩ := ih ds _ h.2
      exact ⟨⟨h.1, h1⟩, h2, h3⟩
  obtain ⟨h1, h2, h3⟩ := hsplit before (c :: after) m h
  have hk1 := runCalls_kept G before m h1
  have hk2 := runCalls_kept G after _ h2.2
  have hall := runCalls_kept G _ m h
  obtain ⟨_, h4⟩ := C42_call B G c _ h2.1
  rw [Call.value_kept B G hc hk1] at h4
  refine ⟨?_, fun a ha => ⟨ha.trans_le hall.next, hall.arr a ha, hall.tab a ha⟩⟩
  rw [h3]
  unfold Returns at h4 ⊢
  cases hv : c.value B G m with
  | error e => rw [hv] at h4; exact h4
  | ok v =>
    rw [hv] at h4
    obtain ⟨a, h5, h6, h7, h8⟩ := h4
    exact ⟨a, h5, h6, h7.trans_le hk2.next, (hk2.arr a h7).trans h8⟩

/-- `compute_all_slices` (NumPy) does not keep to this: given a set of seven arrays that holds the
library's own coefficients, for `L = 3` and the equator, a call changes the caller's `lrenorm`, and
the same call once more gives another value. (Without coefficients, or with the five arrays that
`generate_precomputes` returns, it raises.) -/
theorem C42_all_slices_modifies (m : Mem) :
    ∃ R m₁ d₁ m₂ d₂ m₃,
      (generatePrecomputes 3 0 (fun _ => Real.pi / 2)).store m = (.ok R, m₁) ∧
      R.read m₁ = generatePrecomputes 3 0 (fun _ => Real.pi / 2) ∧
      computeAllSlices (fun _ => Real.pi / 2) 3 0 (.seven R) m₁ = (.ok d₁, m₂) ∧
      computeAllSlices (fun _ => Real.pi / 2) 3 0 (.seven R) m₂ = (.ok d₂, m₃) ∧
      ¬ Intact m₁ m₂ ∧ d₂ 2 0 2 ≠ d₁ 2 0 2 ∧
      computeAllSlices (fun _ => Real.pi / 2) 3 0 .none m = (.error .attributeError, m) ∧
      computeAllSlices (fun _ => Real.pi / 2) 3 0 (.five R) m₁ = (.error .valueError, m₁) := by
  set P := generatePrecomputes 3 0 (fun _ => Real.pi / 2) with hP
  set R : PmRef := ⟨m.next, P.vsign, P.cpi, P.cp2, P.nan⟩ with hR
  set m₁ : Mem := ⟨m.arr, Function.update m.tab m.next P.lr, m.next + 1⟩ with hm₁
  obtain ⟨d₁, m₂, e₁, t₁, v₁⟩ := computeAllSlices_three R (fun _ => Real.pi / 2) m₁
  obtain ⟨d₂, m₃, e₂, t₂, v₂⟩ := computeAllSlices_three R (fun _ => Real.pi / 2) m₂
  have hlam : pmLamb 3 0 1 1 (Real.pi / 2) 2 = 0 := by
    unfold pmLamb pmHalf; rw [Real.cos_pi_div_two]; norm_num
  have hcp : R.cp2 1 2 = 2 / √6 := by
    show npRoll (3 + 1) (3 - 2 - 1) (pmCp2 3 2) 1 = _
    unfold npRoll pmCp2 pmCpi
    norm_num
  have h6 : (0 : ℝ) < √6 := Real.sqrt_pos.2 (by norm_num)
  have h62 : (2 : ℝ) < √6 := by
    rw [show (2 : ℝ) = √4 by rw [show (4 : ℝ) = 2 ^ 2 by norm_num, Real.sqrt_sq (by norm_num)]]
    exact Real.sqrt_lt_sqrt (by norm_num) (by norm_num)
  have hE : |(2 : ℝ) / √6| = 2 / √6 := abs_of_pos (by positivity)
  have hlt : (2 : ℝ) / √6 < 1 := by rw [div_lt_one h6]; exact h62
  have hlog : Real.log (2 / √6) < 0 := Real.log_neg (by positivity) hlt
  simp only [hlam, mul_zero, zero_mul, zero_sub, mul_one, abs_neg, hcp, hE] at t₁ t₂ v₁ v₂
  have hnan : R.nan 1 2 = false := by
    show pmNan 3 (-0) 1 2 = false
    decide
  have hvs : R.vsign 2 2 ≠ 0 := by
    show pmVsign 3 (-0) 2 2 ≠ 0
    unfold pmVsign
    norm_num
  have hin : R.lr < m₁.next := Nat.lt_succ_self _
  refine ⟨R, m₁, d₁, m₂, d₂, m₃, rfl, ?_, e₁, e₂, ?_, ?_, rfl, rfl⟩
  · simp [PmRef.read, PmRef.with, hR, hm₁]
  · intro h
    have := (h R.lr hin).2.2
    rw [this] at t₁
    linarith
  · rw [v₁, v₂, t₁, hnan]
    simp only [Bool.false_eq_true, if_false]
    intro h
    have h1 := mul_right_cancel₀ hvs h
    have h2 : (-(2 / √6) : ℝ) ≠ 0 := by
      have : (0 : ℝ) < 2 / √6 := by positivity
      linarith
    have h3 := Real.exp_injective (mul_left_cancel₀ h2 h1)
    linarith

/-- A memory with an array of coefficients and a table, and a history of three calls that use them
both, the last one on the result of the first. -/
example (G : Machine) : ∃ (m : Mem) (R : PmRef) (B : Backends),
    let c₁ := Call.inverse 0 3 (-1) none sDH false none 0
    let c₂ := Call.inverse 0 3 (-1) none sDH false (some R) 0
    History G ([c₁] ++ c₂ :: [.forward 2 3 (-1) none sDH false (some R) 0 (some 2)]) m ∧ c₂.Args m ∧
      ∃ v, c₁.value B G m = .ok v := by
  have B : Backends := ⟨fun _ _ _ _ _ _ _ _ => .error .valueError,
    fun _ _ _ _ _ _ _ _ => .error .valueError, fun _ _ _ _ _ _ => .error .valueError,
    fun _ _ _ _ _ _ => .error .valueError, fun _ _ _ => .error .valueError,
    fun _ _ _ _ => .error .valueError⟩
  let m : Mem := ⟨fun _ => .d2 3 5 (fun el j => if el = 0 ∧ j = 2 then 1 else 0), fun _ _ _ _ => 0, 2⟩
  let R : PmRef := ⟨1, fun _ _ => 1, fun _ _ => 1, fun _ _ => 1, fun _ _ => false⟩
  obtain ⟨v, hv, _⟩ := C39_low_degree_leak B G .dh 3 none ⟨by norm_num, fun h => (nomatch h)⟩ (fun h => (nomatch h)) mNumpy
    (by decide) (by norm_num) 1 1
  have a1 : Call.Args m (.inverse 0 3 (-1) none sDH false none 0) :=
    ⟨by decide, fun R hR => by cases hR⟩
  have a2 : Call.Args m (.inverse 0 3 (-1) none sDH false (some R) 0) :=
    ⟨by decide, fun R' hR => by cases hR; decide⟩
  have k1 := (call_agrees B G _ m a1).1
  have k2 := (call_agrees B G _ _ (a2.mono k1)).1
  have hv' : Call.value B G m (.inverse 0 3 (-1) none sDH false none 0) = .ok v := hv
  refine ⟨m, R, B, ⟨a1, a2.mono k1, ⟨?_, ?_⟩, trivial⟩, a2, v, hv'⟩
  · have := (C42_call B G _ m a1).2
    rw [hv'] at this
    obtain ⟨a, h1, h2, h3, _⟩ := this
    exact lt_of_lt_of_le (lt_of_le_of_lt h2 h3) k2.next
  · intro R' hR'
    cases hR'
    exact lt_of_lt_of_le (show 1 < m.next by decide) (k1.next.trans k2.next)

end S2fft
