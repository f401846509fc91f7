import Verif.Lemmas.TorchCall

/-!
# Which arguments a call takes
-/

namespace S2fft
namespace TorchWrap

variable {V : Type}

theorem get?_isSome_iff (kw : Kwargs V) (n : PyStr) : (kw.get? n).isSome = true ↔ ∃ q ∈ kw, q.1 = n := by
  simp [Kwargs.get?]

theorem get?_erase (kw : Kwargs V) {n k : PyStr} (h : k ≠ n) : (kw.erase n).get? k = kw.get? k := by
  induction kw with
  | nil => rfl
  | cons q kw ih =>
    simp only [Kwargs.get?, Kwargs.erase] at ih ⊢
    by_cases hq : q.1 = n
    · rw [List.filter_cons_of_neg (by simpa using hq), ih,
        List.find?_cons_of_neg (by simp only [decide_eq_true_eq]; intro h'; exact h (h'.symm.trans hq))]
    · rw [List.filter_cons_of_pos (by simpa using hq)]
      by_cases hk : q.1 = k
      · rw [List.find?_cons_of_pos (by simpa using hk), List.find?_cons_of_pos (by simpa using hk)]
      · rw [List.find?_cons_of_neg (by simpa using hk), List.find?_cons_of_neg (by simpa using hk), ih]

/-- Binding arguments that fit. -/
theorem bind_fits : ∀ (ps : List (Param V)), (ps.map Param.name).Nodup → ∀ (args : List (PyTree V))
    (kw : Kwargs V), Fits ps args kw → ∃ b, bind ps args kw = .ok b ∧ b.length = ps.length ∧
      ∀ i p, ps[i]? = some p → (b[i]?).map Prod.snd = valueFor args kw i p := by
  intro ps
  induction ps with
  | nil =>
    intro _ args kw h
    have h1 : args = [] := by
      have := h.1; simpa using this
    have h2 : kw = [] := by
      rw [List.eq_nil_iff_forall_not_mem]
      intro q hq
      obtain ⟨i, p, -, h', -⟩ := h.2.1 q hq
      simp at h'
    subst h1; subst h2
    exact ⟨[], rfl, rfl, by simp⟩
  | cons p ps ih =>
    intro hnd args kw h
    simp only [List.map_cons, List.nodup_cons] at hnd
    have hne : ∀ (i : ℕ) (q : Param V), ps[i]? = some q → q.name ≠ p.name := by
      intro i q hq he
      exact hnd.1 (he ▸ List.mem_map_of_mem (List.mem_of_getElem? hq))
    cases args with
    | cons a as =>
      have hno : ¬ (kw.get? p.name).isSome = true := by
        rw [get?_isSome_iff]
        rintro ⟨q, hq, hqn⟩
        obtain ⟨i, p', hi, hp', hn⟩ := h.2.1 q hq
        cases i with
        | zero => simp at hi
        | succ i => exact hne i p' (by simpa using hp') (hn.trans hqn)
      obtain ⟨b, hb, hl, hv⟩ := ih hnd.2 as kw ⟨by simpa using h.1, by
          intro q hq
          obtain ⟨i, p', hi, hp', hn⟩ := h.2.1 q hq
          cases i with
          | zero => simp at hi
          | succ i => exact ⟨i, p', by simpa using hi, by simpa using hp', hn⟩, by
          intro i p' hi hp' hd
          exact h.2.2 (i + 1) p' (by simpa using hi) (by simpa using hp') hd⟩
      refine ⟨(p.name, a) :: b, ?_, by simp [hl], ?_⟩
      · rw [bind, if_neg hno, hb]; rfl
      · intro i q hq
        cases i with
        | zero => simp [valueFor]
        | succ i =>
          have := hv i q (by simpa using hq)
          simpa [valueFor] using this
    | nil =>
      have hrest : ∀ kw' : Kwargs V, (∀ q ∈ kw', q ∈ kw ∧ q.1 ≠ p.name) →
          (∀ q ∈ kw, q.1 ≠ p.name → q ∈ kw') → Fits ps [] kw' := by
        intro kw' h1 h1'
        refine ⟨by simp, ?_, ?_⟩
        · intro q hq
          obtain ⟨i, p', hi, hp', hn⟩ := h.2.1 q (h1 q hq).1
          cases i with
          | zero =>
            simp only [List.getElem?_cons_zero, Option.some.injEq] at hp'
            exact absurd (hp' ▸ hn).symm (h1 q hq).2
          | succ i => exact ⟨i, p', by simp, by simpa using hp', hn⟩
        · intro i p' _ hp' hd
          obtain ⟨q, hq, hqn⟩ := h.2.2 (i + 1) p' (by simp) (by simpa using hp') hd
          exact ⟨q, h1' q hq (hqn ▸ hne i p' hp'), hqn⟩
      cases hk : kw.get? p.name with
      | some v =>
        obtain ⟨b, hb, hl, hv⟩ := ih hnd.2 [] (kw.erase p.name) (hrest _
          (by intro q hq; simpa [Kwargs.erase] using hq)
          (by intro q hq hn; simp [Kwargs.erase, hq, hn]))
        refine ⟨(p.name, v) :: b, ?_, by simp [hl], ?_⟩
        · rw [bind, hk]; simp only [hb]; rfl
        · intro i q hq
          cases i with
          | zero =>
            simp only [List.getElem?_cons_zero, Option.some.injEq] at hq
            subst hq
            simp [valueFor, hk]
          | succ i =>
            have hq : ps[i]? = some q := by simpa using hq
            have := hv i q hq
            simpa [valueFor, get?_erase kw (hne i q hq)] using this
      | none =>
        have hno : ∀ q ∈ kw, q.1 ≠ p.name := by
          intro q hq hn
          have := (get?_isSome_iff kw p.name).2 ⟨q, hq, hn⟩
          rw [hk] at this
          cases this
        obtain ⟨b, hb, hl, hv⟩ := ih hnd.2 [] kw (hrest kw (fun q hq => ⟨hq, hno q hq⟩)
          (fun q hq _ => hq))
        cases hd : p.default with
        | none =>
          obtain ⟨q, hq, hn⟩ := h.2.2 0 p (by simp) (by simp) hd
          exact absurd hn (hno q hq)
        | some v =>
          refine ⟨(p.name, v) :: b, ?_, by simp [hl], ?_⟩
          · rw [bind, hk, hd]; simp only [hb]; rfl
          · intro i q hq
            cases i with
            | zero =>
              simp only [List.getElem?_cons_zero, Option.some.injEq] at hq
              subst hq
              simp [valueFor, hk, hd]
            | succ i =>
              have := hv i q (by simpa using hq)
              simpa [valueFor] using this

/-- Only arguments that fit are taken. -/
theorem fits_of_bind : ∀ (ps : List (Param V)) (args : List (PyTree V)) (kw : Kwargs V)
    (b : List (PyStr × PyTree V)), bind ps args kw = .ok b → Fits ps args kw := by
  intro ps
  induction ps with
  | nil =>
    intro args kw b h
    cases args with
    | nil =>
      cases kw with
      | nil => exact ⟨by simp, by simp, by simp⟩
      | cons _ _ => cases h
    | cons _ _ => cases h
  | cons p ps ih =>
    have step : ∀ (v : PyTree V) (as : List (PyTree V)) (kw : Kwargs V) (b : List (PyStr × PyTree V)),
        (do return (p.name, v) :: (← bind ps as kw) : Except PyErr _) = .ok b → Fits ps as kw := by
      intro v as kw b h
      cases hb : bind ps as kw with
      | error e => rw [hb] at h; cases h
      | ok b' => exact ih as kw b' hb
    intro args kw b h
    cases args with
    | cons a as =>
      rw [bind] at h
      split at h
      · cases h
      · have hf := step a as kw b h
        refine ⟨by simpa using hf.1, ?_, ?_⟩
        · intro q hq
          obtain ⟨i, p', hi, hp', hn⟩ := hf.2.1 q hq
          exact ⟨i + 1, p', by simpa using hi, by simpa using hp', hn⟩
        · intro i p' hi hp' hd
          cases i with
          | zero => simp at hi
          | succ i => exact hf.2.2 i p' (by simpa using hi) (by simpa using hp') hd
    | nil =>
      rw [bind] at h
      split at h
      · next v hv =>
        have hf := step _ _ _ b h
        refine ⟨by simp, ?_, ?_⟩
        · intro q hq
          by_cases hn : q.1 = p.name
          · exact ⟨0, p, by simp, by simp, hn.symm⟩
          · obtain ⟨i, p', hi, hp', hn'⟩ := hf.2.1 q (by simp [Kwargs.erase, hq, hn])
            exact ⟨i + 1, p', by simp, by simpa using hp', hn'⟩
        · intro i p' hi hp' hd
          cases i with
          | zero =>
            simp only [List.getElem?_cons_zero, Option.some.injEq] at hp'
            subst hp'
            exact ⟨_, get?_mem hv, rfl⟩
          | succ i =>
            obtain ⟨q, hq, hn⟩ := hf.2.2 i p' (by simp) (by simpa using hp') hd
            exact ⟨q, List.mem_of_mem_filter hq, hn⟩
      · split at h
        · next v hv =>
          have hf := step _ _ _ b h
          refine ⟨by simp, ?_, ?_⟩
          · intro q hq
            obtain ⟨i, p', hi, hp', hn'⟩ := hf.2.1 q hq
            exact ⟨i + 1, p', by simp, by simpa using hp', hn'⟩
          · intro i p' hi hp' hd
            cases i with
            | zero =>
              simp only [List.getElem?_cons_zero, Option.some.injEq] at hp'
              subst hp'
              rw [hv] at hd; cases hd
            | succ i => exact hf.2.2 i p' (by simp) (by simpa using hp') hd
        · cases h

end TorchWrap
end S2fft
