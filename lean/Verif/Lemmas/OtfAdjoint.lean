import Verif.Lemmas.OtfLower

/-! # The latitudinal steps are transposes of each other -/

namespace S2fft

theorem forRange_rel_idx {σ τ : Type*} {lo hi : ℤ} (hle : lo ≤ hi) {b : ℤ → σ → σ} {c : ℤ → τ → τ}
    {s : σ} {t : τ} (R : ℤ → σ → τ → Prop) (h0 : R lo s t)
    (h : ∀ i s t, lo ≤ i → i < hi → R i s t → R (i + 1) (b i s) (c i t)) :
    R hi (forRange lo hi b s) (forRange lo hi c t) := by
  induction hi, hle using Int.le_induction with
  | base => rwa [forRange_of_le le_rfl, forRange_of_le le_rfl]
  | succ n hn ih =>
    rw [forRange_succ hn, forRange_succ hn]
    exact h n _ _ hn (by omega) (ih fun i s t h1 h2 => h i s t h1 (by omega))

theorem forRange_two {σ : Type*} (b : ℤ → σ → σ) (s : σ) : forRange 0 2 b s = b 1 (b 0 s) := rfl

section
variable (P P' : PmPre) (β β' : ℤ → ℝ) (c : ℤ)

/-- Coefficients and angles of which the second are those of the first from ring `c` on. -/
structure ShiftedBy : Prop where
  lr : ∀ i t el, P.lr i (t + c) el = P'.lr i t el
  vsign : P.vsign = P'.vsign
  cpi : P.cpi = P'.cpi
  cp2 : P.cp2 = P'.cp2
  angle : ∀ t, β (t + c) = β' t
  nan : P.nan = P'.nan

theorem shiftedBy_jax (L spin : ℤ) : ShiftedBy (generatePrecomputesJax L spin β)
    (generatePrecomputesJax L spin (fun t => β (t + c))) β (fun t => β (t + c)) c :=
  ⟨fun _ _ _ => rfl, rfl, rfl, rfl, fun _ => rfl, rfl⟩

/-- The same for the state of the recursion. -/
structure StateShiftedBy (s s' : PmState) : Prop where
  entry : ∀ t el, s.entry (t + c) el = s'.entry t el
  d0 : ∀ t el, s.d0 (t + c) el = s'.d0 t el
  d1 : ∀ t el, s.d1 (t + c) el = s'.d1 t el
  lr : ∀ t el, s.lr (t + c) el = s'.lr t el

variable {P P' β β' c}

theorem ShiftedBy.exp (h : ShiftedBy P P' β β' c) (i el : ℤ) (x : ℝ) : P.exp i el x = P'.exp i el x := by
  unfold PmPre.exp
  rw [h.nan]

theorem pmInit_shifted (h : ShiftedBy P P' β β' c) (L mm i : ℤ) :
    StateShiftedBy c (pmInit P L mm i β) (pmInit P' L mm i β') := by
  refine ⟨fun _ _ => rfl, fun _ _ => rfl, fun t el => ?_, fun t el => h.lr i t el⟩
  unfold pmInit
  simp only [h.cpi, h.angle]

theorem pmEntry_shifted (h : ShiftedBy P P' β β' c) (L mm i m : ℤ) {s s' : PmState}
    (hs : StateShiftedBy c s s') (t el : ℤ) :
    pmEntry P L mm i β m s (t + c) el = pmEntry P' L mm i β' m s' t el := by
  unfold pmEntry
  rw [h.cpi, h.cp2, h.angle, hs.entry, hs.d0, hs.d1]

theorem pmUpdate_shifted (L m : ℤ) {e e' : ℤ → ℤ → ℝ} (he : ∀ t el, e (t + c) el = e' t el)
    {s s' : PmState} (hs : StateShiftedBy c s s') :
    StateShiftedBy c (pmUpdate L m e s) (pmUpdate L m e' s') := by
  refine ⟨he, fun t el => ?_, fun t el => ?_, fun t el => ?_⟩ <;>
  simp only [pmUpdate, he, hs.d0, hs.d1, hs.lr]

theorem pmLoop_rel_idx {α α' : Type*} (h : ShiftedBy P P' β β' c) (R : ℤ → α → α' → Prop)
    (L mm i hi : ℤ) {emit : ℤ → (ℤ → ℤ → ℝ) → α → α} {emit' : ℤ → (ℤ → ℤ → ℝ) → α' → α'} {a : α}
    {a' : α'} (h0 : R 2 a a')
    (hs : ∀ m (v v' : ℤ → ℤ → ℝ) a a', 2 ≤ m → m < hi → (∀ t el, v (t + c) el = v' t el) → R m a a' →
      R (m + 1) (emit m v a) (emit' m v' a')) :
    R (max 2 hi) (pmLoop P L mm i β hi emit a) (pmLoop P' L mm i β' hi emit' a') := by
  unfold pmLoop
  rcases le_total 2 hi with h2 | h2
  · rw [max_eq_right h2]
    refine (forRange_rel_idx h2 (fun m (s : α × PmState) (t : α' × PmState) =>
      R m s.1 t.1 ∧ StateShiftedBy c s.2 t.2) ⟨h0, pmInit_shifted h L mm i⟩ ?_).1
    rintro m ⟨s, p⟩ ⟨t, p'⟩ h1 h3 ⟨hr, hp⟩
    have he := pmEntry_shifted h L mm i m hp
    exact ⟨hs m _ _ _ _ h1 h3 (fun t el => by rw [he, hp.lr, h.exp]) hr, pmUpdate_shifted L m he hp⟩
  · rw [max_eq_left h2, forRange_of_le h2, forRange_of_le h2]
    exact h0

end

section Dual
variable (g F : ℤ → ℤ → ℂ) (L off c nt : ℤ)

/-- Column by column, the pairing of what was synthesised with `g` is that of what was analysed with
`F`. -/
def Paired (ftm flm : ℤ → ℤ → ℂ) : Prop :=
  ∀ D, 0 ≤ D → D < 2 * L - 1 →
    ∑ t ∈ Finset.Ico 0 nt, g (t + c) (D + off) * ftm (t + c) (D + off)
      = ∑ l ∈ Finset.Ico 0 L, flm l D * F l D

/-- Before row `m` of pass `i` the columns not reached are zero. -/
def Unreached (i m : ℤ) (ftm flm : ℤ → ℤ → ℂ) : Prop :=
  (∀ t k, k < off → ftm t k = 0) ∧
  ∀ D l, (if i = 0 then m ≤ D else max (L - 1) 2 ≤ D ∧ D ≤ 2 * L - 2 - m) → flm l D = 0

theorem emit_paired {L : ℤ} (hL : 2 ≤ L) {i m from_ : ℤ} (hi : i = 0 ∨ i = 1) (hm : 0 ≤ m)
    (hmi : m < L - 1 + i ∨ m = 1)
    (hf0 : 0 ≤ from_) (hz : L = 2 → m = 0 ∨ from_ = 0)
    {W W' : ℤ → ℤ → ℝ} (hW : ∀ t el, W (t + c) el = W' t el)
    {ftm flm : ℤ → ℤ → ℂ} (hp : Paired g F L off c nt ftm flm) (hu : Unreached L off i m ftm flm)
    (hoff : 0 ≤ off) :
    Paired g F L off c nt
      (fun t k => if k = otfCol (2 * L - 1 + off) off i m then
        ∑ el ∈ Finset.Ico from_ L, (W t el : ℂ) * F el (pmRow (2 * L - 1) i m) else ftm t k)
      (fun l k => if k = pmRow (2 * L - 1) i m ∧ from_ ≤ l then
        ∑ t ∈ Finset.Ico 0 nt, (W' t l : ℂ) * g (t + c) (otfCol (2 * L - 1 + off) off i m)
        else flm l k) ∧
    Unreached L off i (m + 1)
      (fun t k => if k = otfCol (2 * L - 1 + off) off i m then
        ∑ el ∈ Finset.Ico from_ L, (W t el : ℂ) * F el (pmRow (2 * L - 1) i m) else ftm t k)
      (fun l k => if k = pmRow (2 * L - 1) i m ∧ from_ ≤ l then
        ∑ t ∈ Finset.Ico 0 nt, (W' t l : ℂ) * g (t + c) (otfCol (2 * L - 1 + off) off i m)
        else flm l k) := by
  have hcol : otfCol (2 * L - 1 + off) off i m = pmRow (2 * L - 1) i m + off := by
    unfold otfCol pmRow
    rcases hi with rfl | rfl <;> simp <;> ring
  have hrow : pmRow (2 * L - 1) i m = if i = 0 then m else 2 * L - 2 - m := by
    unfold pmRow
    split_ifs <;> ring
  have hD0 : 0 ≤ pmRow (2 * L - 1) i m := by
    rw [hrow]; rcases hi with rfl | rfl <;> simp <;> omega
  rw [hcol]
  refine ⟨fun D d0 d1 => ?_, fun t k hk => ?_, fun D l h => ?_⟩
  · beta_reduce
    by_cases hD : D = pmRow (2 * L - 1) i m
    · subst hD
      have hzero : ∀ l, 0 ≤ l → l < from_ → flm l (pmRow (2 * L - 1) i m) = 0 := by
        intro l l0 l1
        refine hu.2 _ l ?_
        rw [hrow]
        rcases hi with rfl | rfl
        · simp
        · simp only [one_ne_zero, if_false]
          refine ⟨?_, le_rfl⟩
          rcases Classical.em (L = 2) with h2 | h2
          · have h3 := hz h2
            omega
          · rw [max_le_iff]
            constructor <;> omega
      have e1 : ∑ l ∈ Finset.Ico 0 L, (if pmRow (2 * L - 1) i m = pmRow (2 * L - 1) i m ∧ from_ ≤ l then
          ∑ t ∈ Finset.Ico 0 nt, (W' t l : ℂ) * g (t + c) (pmRow (2 * L - 1) i m + off)
          else flm l (pmRow (2 * L - 1) i m)) * F l (pmRow (2 * L - 1) i m)
          = ∑ l ∈ Finset.Ico from_ L, (∑ t ∈ Finset.Ico 0 nt, (W' t l : ℂ)
            * g (t + c) (pmRow (2 * L - 1) i m + off)) * F l (pmRow (2 * L - 1) i m) := by
        symm
        refine Finset.sum_subset_zero_on_sdiff (Finset.Ico_subset_Ico_left hf0) ?_ ?_
        · intro l hl
          rw [Finset.mem_sdiff, Finset.mem_Ico, Finset.mem_Ico] at hl
          rw [if_neg (fun h => hl.2 ⟨h.2, hl.1.2⟩), hzero l hl.1.1 (by
            by_contra h; exact hl.2 ⟨by omega, hl.1.2⟩), zero_mul]
        · intro l hl
          rw [Finset.mem_Ico] at hl
          rw [if_pos ⟨rfl, hl.1⟩]
      rw [e1]
      simp only [if_true]
      simp only [Finset.mul_sum, Finset.sum_mul]
      rw [Finset.sum_comm]
      refine Finset.sum_congr rfl fun l _ => Finset.sum_congr rfl fun t _ => ?_
      rw [hW]; ring
    · have h1 : ∀ t, (if D + off = pmRow (2 * L - 1) i m + off then
          ∑ el ∈ Finset.Ico from_ L, (W (t + c) el : ℂ) * F el (pmRow (2 * L - 1) i m)
          else ftm (t + c) (D + off)) = ftm (t + c) (D + off) := fun t => if_neg (by omega)
      have h2 : ∀ l, (if D = pmRow (2 * L - 1) i m ∧ from_ ≤ l then
          ∑ t ∈ Finset.Ico 0 nt, (W' t l : ℂ) * g (t + c) (pmRow (2 * L - 1) i m + off)
          else flm l D) = flm l D := fun l => if_neg (fun h => hD h.1)
      simp only [h1, h2]
      exact hp D d0 d1
  · beta_reduce
    rw [if_neg (by omega)]
    exact hu.1 t k hk
  · beta_reduce
    rw [if_neg]
    · refine hu.2 D l ?_
      split_ifs at h ⊢ with h0 <;> omega
    · rintro ⟨h1, -⟩
      rw [hrow] at h1
      split_ifs at h h1 with h0 <;> omega

/-- The sums of the latitudinal steps are transposes of each other, column by column. -/
theorem otf_dual {P P' : PmPre} {β β' : ℤ → ℝ} (h : ShiftedBy P P' β β' c) {L : ℤ} (hL : 2 ≤ L)
    (hoff : 0 ≤ off) (spin : ℤ) (reality : Bool) {lo : ℤ} (h0 : 0 ≤ lo) :
    Paired g F L off c nt (otfSynth P F β L spin off (2 * L - 1 + off) reality lo)
      (otfAnalyse P' (fun t k => g (t + c) k) β' L spin nt off (2 * L - 1 + off) reality lo) ∧
    ∀ t k, k < off → otfSynth P F β L spin off (2 * L - 1 + off) reality lo t k = 0 := by
  set emit : ℤ → ℤ → ℤ → (ℤ → ℤ → ℝ) → (ℤ → ℤ → ℂ) → ℤ → ℤ → ℂ := fun i m from_ W ftm => fun t k =>
    if k = otfCol (2 * L - 1 + off) off i m then
      ∑ el ∈ Finset.Ico from_ L, (W t el : ℂ) * F el (pmRow (2 * L - 1) i m)
    else ftm t k with hemit
  set emit' : ℤ → ℤ → ℤ → (ℤ → ℤ → ℝ) → (ℤ → ℤ → ℂ) → ℤ → ℤ → ℂ := fun i m from_ W flm => fun l k =>
    if k = pmRow (2 * L - 1) i m ∧ from_ ≤ l then
      ∑ t ∈ Finset.Ico 0 nt, (W t l : ℂ) * g (t + c) (otfCol (2 * L - 1 + off) off i m)
    else flm l k with hemit'
  have pass : ∀ i, i = 0 ∨ i = 1 → ∀ a a', Paired g F L off c nt a a' → Unreached L off i 0 a a' →
      Paired g F L off c nt (otfPass P L (-spin) lo β i emit a)
        (otfPass P' L (-spin) lo β' i emit' a') ∧
      Unreached L off i (max 2 (L - 1 + i)) (otfPass P L (-spin) lo β i emit a)
        (otfPass P' L (-spin) lo β' i emit' a') := by
    intro i hi a a' hp hu
    have hs := pmInit_shifted h L (-spin) i
    unfold otfPass
    refine pmLoop_rel_idx h (fun m a a' => Paired g F L off c nt a a' ∧ Unreached L off i m a a')
      L (-spin) i (L - 1 + i) ?_ ?_
    · have s0 := emit_paired g F off c nt hL hi (m := 0) (from_ := L - 1) le_rfl
        (by omega) (by omega) (fun _ => Or.inl rfl)
        (W := fun t el => (pmInit P L (-spin) i β).d0 t el * P.vsign (pmRow (2 * L - 1) i 0) el
          * P.exp i el ((pmInit P L (-spin) i β).lr t el))
        (W' := fun t el => (pmInit P' L (-spin) i β').d0 t el * P'.vsign (pmRow (2 * L - 1) i 0) el
          * P'.exp i el ((pmInit P' L (-spin) i β').lr t el))
        (fun t el => by rw [hs.d0, hs.lr, h.vsign, h.exp]) hp hu hoff
      exact emit_paired g F off c nt hL hi (m := 1) (from_ := L - 2) (by omega)
        (Or.inr rfl) (by omega) (fun h => Or.inr (by omega))
        (W := fun t el => (pmInit P L (-spin) i β).d1 t (max el lo)
          * P.vsign (pmRow (2 * L - 1) i 1) (max el lo)
          * P.exp i (max el lo) ((pmInit P L (-spin) i β).lr t (max el lo)))
        (W' := fun t el => (pmInit P' L (-spin) i β').d1 t (max el lo)
          * P'.vsign (pmRow (2 * L - 1) i 1) (max el lo)
          * P'.exp i (max el lo) ((pmInit P' L (-spin) i β').lr t (max el lo)))
        (fun t el => by rw [hs.d1, hs.lr, h.vsign, h.exp]) s0.1 s0.2 hoff
    · rintro m v v' b b' m2 m3 hv ⟨hp, hu⟩
      exact emit_paired g F off c nt hL hi (m := m) (from_ := lo) (by omega)
        (Or.inl m3) h0 (fun h => by omega)
        (W := fun t el => v t el * P.vsign (pmRow (2 * L - 1) i m) el)
        (W' := fun t el => v' t el * P'.vsign (pmRow (2 * L - 1) i m) el)
        (fun t el => by rw [hv, h.vsign]) hp hu hoff
  have z : Paired g F L off c nt (fun _ _ => 0) (fun _ _ => 0) := by
    intro D _ _
    simp
  have zu : ∀ i, Unreached L off i 0 (fun _ _ => 0) (fun _ _ => 0) :=
    fun i => ⟨fun _ _ _ => rfl, fun _ _ _ => rfl⟩
  have key : Paired g F L off c nt (otfRows P L (-spin) lo β reality emit (fun _ _ => 0))
      (otfRows P' L (-spin) lo β' reality emit' (fun _ _ => 0)) ∧
      ∀ t k, k < off → otfRows P L (-spin) lo β reality emit (fun _ _ => 0) t k = 0 := by
    unfold otfRows
    rw [forRange_two, forRange_two]
    have e1 : ∀ a : ℤ → ℤ → ℂ, (if reality = true ∧ (1 : ℤ) = 0 then a
        else otfPass P L (-spin) lo β 1 emit a) = otfPass P L (-spin) lo β 1 emit a :=
      fun a => if_neg (by norm_num)
    have e2 : ∀ a : ℤ → ℤ → ℂ, (if reality = true ∧ (1 : ℤ) = 0 then a
        else otfPass P' L (-spin) lo β' 1 emit' a) = otfPass P' L (-spin) lo β' 1 emit' a :=
      fun a => if_neg (by norm_num)
    rw [e1, e2]
    by_cases hr : reality = true
    · rw [if_pos ⟨hr, rfl⟩, if_pos ⟨hr, rfl⟩]
      have := pass 1 (Or.inr rfl) _ _ z (zu 1)
      exact ⟨this.1, this.2.1⟩
    · rw [if_neg (fun h => hr h.1), if_neg (fun h => hr h.1)]
      have s0 := pass 0 (Or.inl rfl) _ _ z (zu 0)
      have := pass 1 (Or.inr rfl) _ _ s0.1 ⟨s0.2.1, fun D l hD => s0.2.2 D l (by
        rw [if_neg (by norm_num)] at hD
        rw [if_pos rfl]
        omega)⟩
      exact ⟨this.1, this.2.1⟩
  exact key

end Dual

end S2fft
