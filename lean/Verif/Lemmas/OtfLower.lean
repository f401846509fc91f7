import Verif.Model.Wigner
import Verif.Lemmas.BaseLower

/-! # On-the-fly transforms: what `L_lower` leaves out -/

namespace S2fft
open Spec

theorem forRange_rel {σ τ : Type*} {lo hi : ℤ} {b : ℤ → σ → σ} {c : ℤ → τ → τ} {s : σ} {t : τ}
    (R : σ → τ → Prop) (h0 : R s t)
    (h : ∀ i s t, lo ≤ i → i < hi → R s t → R (b i s) (c i t)) :
    R (forRange lo hi b s) (forRange lo hi c t) := by
  rcases le_total lo hi with hle | hle
  · induction hi, hle using Int.le_induction with
    | base => rwa [forRange_of_le le_rfl, forRange_of_le le_rfl]
    | succ n hn ih =>
      rw [forRange_succ hn, forRange_succ hn]
      exact h n _ _ hn (by omega) (ih fun i s t h1 h2 => h i s t h1 (by omega))
  · rwa [forRange_of_le hle, forRange_of_le hle]

/-- Two runs that fail alike or succeed with related results. -/
def ExRel {α β : Type} (R : α → β → Prop) (x : Except PyErr α) (y : Except PyErr β) : Prop :=
  (∃ e, x = .error e ∧ y = .error e) ∨ ∃ a b, x = .ok a ∧ y = .ok b ∧ R a b

theorem ExRel.bind {α β γ δ : Type} {R : α → β → Prop} {S : γ → δ → Prop} {x : Except PyErr α}
    {y : Except PyErr β} {f : α → Except PyErr γ} {g : β → Except PyErr δ} (h : ExRel R x y)
    (hf : ∀ a b, R a b → ExRel S (f a) (g b)) : ExRel S (x >>= f) (y >>= g) := by
  rcases h with ⟨e, rfl, rfl⟩ | ⟨a, b, rfl, rfl, h⟩
  · exact Or.inl ⟨e, rfl, rfl⟩
  · exact hf a b h

theorem ExRel.rfl {α : Type} (x : Except PyErr α) : ExRel (· = ·) x x := by
  cases x with
  | error e => exact Or.inl ⟨e, Eq.refl _, Eq.refl _⟩
  | ok a => exact Or.inr ⟨a, a, Eq.refl _, Eq.refl _, Eq.refl _⟩

theorem ExRel.ok {α β : Type} {R : α → β → Prop} {a : α} {b : β} (h : R a b) :
    ExRel R (.ok a) (.ok b) := Or.inr ⟨a, b, Eq.refl _, Eq.refl _, h⟩

theorem ExRel.map {α β : Type} {x : Except PyErr α} {y : Except PyErr β} {g : β → α}
    (h : x = y.map g) : ExRel (fun a b => a = g b) x y := by
  subst h
  cases y with
  | error e => exact Or.inl ⟨e, Eq.refl _, Eq.refl _⟩
  | ok a => exact Or.inr ⟨_, a, Eq.refl _, Eq.refl _, Eq.refl _⟩

theorem ExRel.eq_map {α β : Type} {x : Except PyErr α} {y : Except PyErr β} {g : β → α}
    (h : ExRel (fun a b => a = g b) x y) : x = y.map g := by
  rcases h with ⟨e, rfl, rfl⟩ | ⟨a, b, rfl, rfl, rfl⟩ <;> exact Eq.refl _

theorem forRangeM_rel {σ τ : Type} {lo hi : ℤ} {b : ℤ → σ → Except PyErr σ}
    {c : ℤ → τ → Except PyErr τ} {s : σ} {t : τ} (R : σ → τ → Prop) (h0 : R s t)
    (h : ∀ i s t, lo ≤ i → i < hi → R s t → ExRel R (b i s) (c i t)) :
    ExRel R (forRangeM lo hi b s) (forRangeM lo hi c t) :=
  forRange_rel (ExRel R) (ExRel.ok h0) fun i _ _ h1 h2 hr => hr.bind fun _ _ => h i _ _ h1 h2

theorem pmLoop_rel {α α' : Type*} (R : α → α' → Prop) (P : PmPre) (L mm i : ℤ) (β : ℤ → ℝ) (hi : ℤ)
    {emit : ℤ → (ℤ → ℤ → ℝ) → α → α} {emit' : ℤ → (ℤ → ℤ → ℝ) → α' → α'} {a : α} {a' : α'}
    (h0 : R a a')
    (h : ∀ m v a a', 2 ≤ m → m < hi → R a a' → R (emit m v a) (emit' m v a')) :
    R (pmLoop P L mm i β hi emit a) (pmLoop P L mm i β hi emit' a') :=
  (forRange_rel (fun (s : α × PmState) (t : α' × PmState) => R s.1 t.1 ∧ s.2 = t.2) ⟨h0, rfl⟩
    (by
      rintro m ⟨s, p⟩ ⟨t, p'⟩ h1 h2 ⟨hr, hp⟩
      obtain rfl : p = p' := hp
      exact ⟨h m _ _ _ h1 h2 hr, rfl⟩)).1

/-- Two runs of the passes, with different starting degrees, keep a relation that each statement
keeps. -/
theorem otfRows_rel {α α' : Type*} (R : α → α' → Prop) (P : PmPre) (L mm lo lo' : ℤ) (β : ℤ → ℝ)
    (reality : Bool) {emit : ℤ → ℤ → ℤ → (ℤ → ℤ → ℝ) → α → α}
    {emit' : ℤ → ℤ → ℤ → (ℤ → ℤ → ℝ) → α' → α'} {a : α} {a' : α'} (h : R a a')
    (h0 : ∀ i W a a', 0 ≤ i → i < 2 → R a a' → R (emit i 0 (L - 1) W a) (emit' i 0 (L - 1) W a'))
    (h1 : ∀ i (D : ℤ → ℤ → ℝ) a a', 0 ≤ i → i < 2 → R a a' →
      R (emit i 1 (L - 2) (fun t el => D t (max el lo)) a)
        (emit' i 1 (L - 2) (fun t el => D t (max el lo')) a'))
    (h2 : ∀ i m W a a', 0 ≤ i → i < 2 → 2 ≤ m → m < L - 1 + i → R a a' →
      R (emit i m lo W a) (emit' i m lo' W a')) :
    R (otfRows P L mm lo β reality emit a) (otfRows P L mm lo' β reality emit' a') := by
  refine forRange_rel R h ?_
  intro i s t hi hi' hr
  by_cases hc : reality = true ∧ i = 0
  · simp only [if_pos hc]; exact hr
  · simp only [if_neg hc]
    unfold otfPass
    exact pmLoop_rel R P L mm i β _
      (h1 i (fun t el => (pmInit P L mm i β).d1 t el * P.vsign (pmRow (2 * L - 1) i 1) el
        * P.exp i el ((pmInit P L mm i β).lr t el)) _ _ hi hi' (h0 i _ _ _ hi hi' hr))
      (fun m v a a' hm hm' hr => h2 i m _ a a' hi hi' hm hm' hr)

/-! ## Inverse -/

theorem otfSynth_congr (P : PmPre) {F F' : ℤ → ℤ → ℂ} (β : ℤ → ℝ) (L spin off width : ℤ)
    (reality : Bool) {lo : ℤ} (hlo : lo < L - 1) (hF : ∀ el, lo ≤ el → F el = F' el) :
    otfSynth P F β L spin off width reality lo = otfSynth P F' β L spin off width reality lo := by
  refine otfRows_rel (· = ·) P L (-spin) lo lo β reality rfl ?_ ?_ ?_
  · rintro i W a _ - - rfl
    funext t k
    refine if_congr Iff.rfl (Finset.sum_congr rfl fun el hel => ?_) rfl
    rw [hF el (by have := (Finset.mem_Ico.1 hel).1; omega)]
  · rintro i D a _ - - rfl
    funext t k
    refine if_congr Iff.rfl (Finset.sum_congr rfl fun el hel => ?_) rfl
    rw [hF el (by have := (Finset.mem_Ico.1 hel).1; omega)]
  · rintro i m W a _ - - - - rfl
    funext t k
    refine if_congr Iff.rfl (Finset.sum_congr rfl fun el hel => ?_) rfl
    rw [hF el (Finset.mem_Ico.1 hel).1]

theorem southPole_congr (ftm : ℤ → ℤ → ℂ) {F F' : ℤ → ℤ → ℂ} (L spin nt a b : ℤ) {lo : ℤ}
    (hF : ∀ el, lo ≤ el → F el = F' el) :
    southPole ftm F L spin lo nt a b = southPole ftm F' L spin lo nt a b := by
  funext t k
  refine if_congr Iff.rfl (if_congr Iff.rfl (Finset.sum_congr rfl fun el hel => ?_) rfl) rfl
  rw [hF el (Finset.mem_Ico.1 hel).1]

theorem northPole_congr (ftm : ℤ → ℤ → ℂ) {F F' : ℤ → ℤ → ℂ} (L a b : ℤ) {lo : ℤ}
    (hF : ∀ el, lo ≤ el → F el = F' el) :
    northPole ftm F L lo a b = northPole ftm F' L lo a b := by
  funext t k
  refine if_congr Iff.rfl (if_congr Iff.rfl (Finset.sum_congr rfl fun el hel => ?_) rfl) rfl
  rw [hF el (Finset.mem_Ico.1 hel).1]

theorem otfNormalise_congr {F F' : ℤ → ℤ → ℂ} {lo : ℤ} (hF : ∀ el, lo ≤ el → F el = F' el) (el : ℤ)
    (h : lo ≤ el) : otfNormalise F lo el = otfNormalise F' lo el := by
  funext k
  unfold otfNormalise
  rw [hF el h]

theorem inversePolesNumpy_congr (ftm : ℤ → ℤ → ℂ) {F F' : ℤ → ℤ → ℂ} (L spin nt width : ℤ)
    (s : PyStr) {lo : ℤ} (hF : ∀ el, lo ≤ el → F el = F' el) :
    inversePolesNumpy ftm F L spin lo nt width s = inversePolesNumpy ftm F' L spin lo nt width s := by
  unfold inversePolesNumpy
  simp only [southPole_congr _ _ _ _ _ _ hF, northPole_congr _ _ _ _ hF]

theorem inverseLatitudinalStepJax_congr {F F' : ℤ → ℤ → ℂ} (β : ℤ → ℝ) (nt L spin : ℤ) (s : PyStr)
    (reality : Bool) (p : Option PmPre) {lo : ℤ} (hlo : lo < L - 1)
    (hF : ∀ el, lo ≤ el → F el = F' el) :
    inverseLatitudinalStepJax F β nt L spin s reality p lo
      = inverseLatitudinalStepJax F' β nt L spin s reality p lo := by
  unfold inverseLatitudinalStepJax
  simp only [southPole_congr _ _ _ _ _ _ hF, northPole_congr _ _ _ _ hF,
    otfSynth_congr _ _ _ _ _ _ _ hlo hF]

theorem otfInverseNumpy_congr (G : Machine) (r c : ℤ) {F F' : ℤ → ℤ → ℂ} (L spin : ℤ)
    (nside : Option ℤ) (s : PyStr) (reality : Bool) (p : Option PmPre) {lo : ℤ} (hlo : lo < L - 1)
    (hF : ∀ el, lo ≤ el → F el = F' el) :
    otfInverseNumpy G (.d2 r c F) L spin nside s reality p lo
      = otfInverseNumpy G (.d2 r c F') L spin nside s reality p lo := by
  unfold otfInverseNumpy inverseLatitudinalStep
  simp only [Nd.shape, Nd.get2, inversePolesNumpy_congr _ _ _ _ _ _ (otfNormalise_congr hF),
    otfSynth_congr _ _ _ _ _ _ _ hlo (otfNormalise_congr hF)]
  rfl

theorem otfInverseJax_congr (G : Machine) (r c : ℤ) {F F' : ℤ → ℤ → ℂ} (L spin : ℤ)
    (nside : Option ℤ) (s : PyStr) (reality : Bool) (p : Option PmPre) {lo : ℤ} (hlo : lo < L - 1)
    (hF : ∀ el, lo ≤ el → F el = F' el) :
    otfInverseJax G (.d2 r c F) L spin nside s reality p lo
      = otfInverseJax G (.d2 r c F') L spin nside s reality p lo := by
  unfold otfInverseJax
  simp only [Nd.shape, Nd.get2,
    inverseLatitudinalStepJax_congr _ _ _ _ _ _ _ hlo (otfNormalise_congr hF)]
  rfl

theorem wigScale_congr {F F' : ℤ → ℤ → ℤ → ℂ} {lo : ℤ} (hF : ∀ n el, lo ≤ el → F n el = F' n el)
    (n el : ℤ) (h : lo ≤ el) : wigScale F lo n el = wigScale F' lo n el := by
  funext k
  unfold wigScale
  rw [hF n el h]

theorem otfWignerInverseNumpy_congr (G : Machine) (p r c : ℤ) {F F' : ℤ → ℤ → ℤ → ℂ} (L N : ℤ)
    (nside : Option ℤ) (s : PyStr) (reality : Bool) (ps : Option (ℤ → PmPre)) {lo : ℤ}
    (hlo : lo < L - 1) (hF : ∀ n el, lo ≤ el → F n el = F' n el) :
    otfWignerInverseNumpy G (.d3 p r c F) L N nside s reality ps lo
      = otfWignerInverseNumpy G (.d3 p r c F') L N nside s reality ps lo := by
  have h := fun n r c spin rl q => otfInverseNumpy_congr G r c L spin nside s rl q hlo
    (wigScale_congr hF (N - 1 + n))
  unfold otfWignerInverseNumpy
  simp only [Nd.shape, Nd.get3, h]
  rfl

theorem otfWignerInverseJax_congr (G : Machine) (p r c : ℤ) {F F' : ℤ → ℤ → ℤ → ℂ} (L N : ℤ)
    (nside : Option ℤ) (s : PyStr) (reality : Bool) (ps : Option WigPreJax) {lo : ℤ}
    (hlo : lo < L - 1) (hF : ∀ n el, lo ≤ el → F n el = F' n el) :
    otfWignerInverseJax G (.d3 p r c F) L N nside s reality ps lo
      = otfWignerInverseJax G (.d3 p r c F') L N nside s reality ps lo := by
  have h := fun n r c spin rl q => otfInverseJax_congr G r c L spin nside s rl q hlo
    (wigScale_congr hF (N - 1 + n))
  unfold otfWignerInverseJax
  simp only [Nd.shape, Nd.get3, h]
  rfl

/-! ## Forward -/

/-- Degrees below `lo` set to zero. -/
def maskBelow (lo : ℤ) (a : ℤ → ℤ → ℂ) : ℤ → ℤ → ℂ := fun l k => if l < lo then 0 else a l k

theorem otfAnalyse_kept (P : PmPre) (ftm : ℤ → ℤ → ℂ) (β : ℤ → ℝ) (L spin nt off width : ℤ)
    (reality : Bool) {lo : ℤ} (hlo0 : 0 ≤ lo) (l k : ℤ) (hl : lo ≤ l) :
    otfAnalyse P ftm β L spin nt off width reality lo l k
      = otfAnalyse P ftm β L spin nt off width reality 0 l k := by
  refine otfRows_rel (fun a a' : ℤ → ℤ → ℂ => a l k = a' l k) P L (-spin) lo 0 β reality rfl
    ?_ ?_ ?_
  · intro i W a a' _ _ h
    beta_reduce
    rw [h]
  · intro i D a a' _ _ h
    beta_reduce
    rw [h, max_eq_left hl, max_eq_left (by omega : (0 : ℤ) ≤ l)]
  · intro i m W a a' _ _ _ _ h
    beta_reduce
    rw [h]
    refine if_congr ?_ rfl rfl
    constructor <;> rintro ⟨h1, _⟩ <;> exact ⟨h1, by omega⟩

theorem otfAnalyse_rest (P : PmPre) (ftm : ℤ → ℤ → ℂ) (β : ℤ → ℝ) (L spin nt off width : ℤ)
    (reality : Bool) {lo : ℤ} (hlo : lo < L - 1) (l k : ℤ) (hl : l < lo) :
    otfAnalyse P ftm β L spin nt off width reality lo l k = 0 := by
  refine otfRows_rel (fun (a : ℤ → ℤ → ℂ) (_ : ℤ → ℤ → ℂ) => a l k = 0) P L (-spin) lo lo β reality rfl
    ?_ ?_ ?_ (emit' := fun _ _ _ _ a => a) (a' := 0)
  · intro i W a a' _ _ h
    beta_reduce
    rw [if_neg (by omega), h]
  · intro i D a a' _ _ h
    beta_reduce
    rw [if_neg (by omega), h]
  · intro i m W a a' _ _ _ _ h
    beta_reduce
    rw [if_neg (by omega), h]

theorem otfAnalyse_mask (P : PmPre) (ftm : ℤ → ℤ → ℂ) (β : ℤ → ℝ) (L spin nt off width : ℤ)
    (reality : Bool) {lo : ℤ} (hlo0 : 0 ≤ lo) (hlo : lo < L - 1) :
    otfAnalyse P ftm β L spin nt off width reality lo
      = maskBelow lo (otfAnalyse P ftm β L spin nt off width reality 0) := by
  funext l k
  unfold maskBelow
  split_ifs with h
  · exact otfAnalyse_rest P ftm β L spin nt off width reality hlo l k h
  · exact otfAnalyse_kept P ftm β L spin nt off width reality hlo0 l k (not_lt.1 h)

theorem mask_mask (lo : ℤ) {a b : ℤ → ℤ → ℂ} (h : ∀ l k, lo ≤ l → a l k = b l k) :
    maskBelow lo a = maskBelow lo b := by
  funext l k
  unfold maskBelow
  split_ifs with hl
  · rfl
  · exact h l k (not_lt.1 hl)

theorem addSouth_above {a b : ℤ → ℤ → ℂ} {lo : ℤ} (hlo0 : 0 ≤ lo) (spin c : ℤ) (v : ℂ)
    (h : ∀ l k, lo ≤ l → a l k = b l k) (l k : ℤ) (hl : lo ≤ l) :
    addSouth a spin lo c v l k = addSouth b spin 0 c v l k := by
  unfold addSouth
  rw [h l k hl]
  exact if_congr (by constructor <;> rintro ⟨_, h2⟩ <;> exact ⟨by omega, h2⟩) rfl rfl

theorem addNorth_above {a b : ℤ → ℤ → ℂ} {lo : ℤ} (hlo0 : 0 ≤ lo) (c : ℤ) (v : ℂ)
    (h : ∀ l k, lo ≤ l → a l k = b l k) (l k : ℤ) (hl : lo ≤ l) :
    addNorth a lo c v l k = addNorth b 0 c v l k := by
  unfold addNorth
  rw [h l k hl]
  exact if_congr (by constructor <;> rintro ⟨_, h2⟩ <;> exact ⟨by omega, h2⟩) rfl rfl

theorem addSouth_below {a : ℤ → ℤ → ℂ} {lo : ℤ} (spin c : ℤ) (v : ℂ) (l k : ℤ) (hl : l < lo) :
    addSouth a spin lo c v l k = a l k := if_neg fun h => absurd h.1 (not_le.2 hl)

theorem addNorth_below {a : ℤ → ℤ → ℂ} {lo : ℤ} (c : ℤ) (v : ℂ) (l k : ℤ) (hl : l < lo) :
    addNorth a lo c v l k = a l k := if_neg fun h => absurd h.1 (not_le.2 hl)

theorem stepJax_above (ftm : ℤ → ℤ → ℂ) (β : ℤ → ℝ) (nt L spin width : ℤ) (s : PyStr)
    (reality : Bool) (p : Option PmPre) {lo : ℤ} (hlo0 : 0 ≤ lo) (l k : ℤ) (hl : lo ≤ l) :
    forwardLatitudinalStepJax ftm β nt L spin width s reality p lo l k
      = forwardLatitudinalStepJax ftm β nt L spin width s reality p 0 l k := by
  have h := fun P ftm β nt => otfAnalyse_kept P ftm β L spin nt (mOffset s) width reality hlo0
  unfold forwardLatitudinalStepJax
  split_ifs
  all_goals first
    | exact addNorth_above hlo0 _ _ (fun l k => addSouth_above hlo0 _ _ _ (h _ _ _ _) l k) l k hl
    | exact addNorth_above hlo0 _ _ (h _ _ _ _) l k hl
    | exact addSouth_above hlo0 _ _ _ (h _ _ _ _) l k hl
    | exact h _ _ _ _ l k hl

theorem stepJax_below (ftm : ℤ → ℤ → ℂ) (β : ℤ → ℝ) (nt L spin width : ℤ) (s : PyStr)
    (reality : Bool) (p : Option PmPre) {lo : ℤ} (hlo : lo < L - 1) (l k : ℤ) (hl : l < lo) :
    forwardLatitudinalStepJax ftm β nt L spin width s reality p lo l k = 0 := by
  have h := fun P ftm β nt =>
    otfAnalyse_rest P ftm β L spin nt (mOffset s) width reality hlo l k hl
  unfold forwardLatitudinalStepJax
  split_ifs
  all_goals
    try simp only [addNorth_below _ _ l k hl, addSouth_below _ _ _ l k hl]
    exact h _ _ _ _

/-- The end of the forward transforms: normalisation and conjugate symmetry. -/
noncomputable def otfFinish (flm : ℤ → ℤ → ℂ) (L lo : ℤ) (reality : Bool) : ℤ → ℤ → ℂ :=
  if reality then otfMirror (otfNormalise flm lo) L else otfNormalise flm lo

theorem otfFinish_above {a b : ℤ → ℤ → ℂ} (L : ℤ) (reality : Bool) {lo : ℤ} (hlo0 : 0 ≤ lo)
    (h : ∀ l k, lo ≤ l → a l k = b l k) (l k : ℤ) (hl : lo ≤ l) :
    otfFinish a L lo reality l k = otfFinish b L 0 reality l k := by
  have e : ∀ k, otfNormalise a lo l k = otfNormalise b 0 l k := fun k => by
    unfold otfNormalise
    rw [if_pos hl, if_pos (by omega), h l k hl]
  unfold otfFinish otfMirror
  cases reality <;> simp only [e, if_true, Bool.false_eq_true, if_false]

theorem otfFinish_below {a : ℤ → ℤ → ℂ} (L : ℤ) (reality : Bool) {lo : ℤ}
    (h : ∀ l k, l < lo → a l k = 0) (l k : ℤ) (hl : l < lo) :
    otfFinish a L lo reality l k = 0 := by
  have e : ∀ k, otfNormalise a lo l k = 0 := fun k => by
    unfold otfNormalise
    rw [if_neg (by omega), h l k hl]
  unfold otfFinish otfMirror
  cases reality <;> simp only [e, if_true, Bool.false_eq_true, if_false, map_zero, mul_zero, ite_self]

/-- An array with the degrees below `lo` set to zero. -/
def Nd.mask (lo : ℤ) : Nd ℂ → Nd ℂ
  | .d2 r c a => .d2 r c (maskBelow lo a)
  | x => x

/-- The same for Wigner coefficients. -/
def Nd.mask3 (lo : ℤ) : Nd ℂ → Nd ℂ
  | .d3 p r c a => .d3 p r c (fun n => maskBelow lo (a n))
  | x => x

/-- `a` is `b`, a table of coefficients, with the degrees below `lo` set to zero. -/
def Masked (lo : ℤ) (a b : Nd ℂ) : Prop :=
  ∃ r c g, b = .d2 r c g ∧ a = .d2 r c (maskBelow lo g)

theorem Masked.eq {lo : ℤ} {a b : Nd ℂ} (h : Masked lo a b) : a = Nd.mask lo b := by
  obtain ⟨r, c, g, rfl, rfl⟩ := h; rfl

theorem Masked.get2 {lo : ℤ} {a b : Nd ℂ} (h : Masked lo a b) :
    a.get2 = maskBelow lo b.get2 := by
  obtain ⟨r, c, g, rfl, rfl⟩ := h; rfl

theorem otfForwardJax_mask (G : Machine) (f : Nd ℂ) (L spin : ℤ) (nside : Option ℤ) (s : PyStr)
    (reality : Bool) (p : Option PmPre) {lo : ℤ} (hlo0 : 0 ≤ lo) (hlo : lo < L - 1) :
    ExRel (Masked lo) (otfForwardJax G f L spin nside s reality p lo)
      (otfForwardJax G f L spin nside s reality p 0) := by
  unfold otfForwardJax
  rw [requireLower_ok hlo0, requireLower_ok le_rfl]
  cases otfFourier G f L spin nside s reality mJax with
  | error e => exact Or.inl ⟨e, rfl, rfl⟩
  | ok v =>
    obtain ⟨ftm, s', nt, θ, width⟩ := v
    refine ExRel.ok ⟨_, _, _, rfl, congrArg (Nd.d2 _ _) ?_⟩
    funext l k
    unfold maskBelow
    simp only []
    show (if l < |spin| then 0 else otfFinish (forwardLatitudinalStepJax ftm θ nt L spin width s'
        reality p lo) L lo reality l k) * _ = if l < lo then 0 else (if l < |spin| then 0 else
      otfFinish (forwardLatitudinalStepJax ftm θ nt L spin width s'
        reality p 0) L 0 reality l k) * _
    by_cases h : l < lo
    · rw [if_pos h, otfFinish_below L reality
        (stepJax_below ftm θ nt L spin width s' reality p hlo) l k h, ite_self, zero_mul]
    · rw [if_neg h, otfFinish_above L reality hlo0
        (stepJax_above ftm θ nt L spin width s' reality p hlo0) l k (not_lt.1 h)]

/-- The degrees from `lo` up do not depend on `lo`, which may be anything here. -/
theorem otfForwardJax_kept (G : Machine) (f : Nd ℂ) (L spin : ℤ) (nside : Option ℤ) (s : PyStr)
    (reality : Bool) (p : Option PmPre) {lo : ℤ} (hlo0 : 0 ≤ lo) :
    ExRel (fun a b => ∀ l k, lo ≤ l → a.get2 l k = b.get2 l k)
      (otfForwardJax G f L spin nside s reality p lo)
      (otfForwardJax G f L spin nside s reality p 0) := by
  unfold otfForwardJax
  rw [requireLower_ok hlo0, requireLower_ok le_rfl]
  cases otfFourier G f L spin nside s reality mJax with
  | error e => exact Or.inl ⟨e, rfl, rfl⟩
  | ok v =>
    obtain ⟨ftm, s', nt, θ, width⟩ := v
    refine ExRel.ok fun l k hl => ?_
    show (if l < |spin| then 0 else otfFinish (forwardLatitudinalStepJax ftm θ nt L spin width s'
        reality p lo) L lo reality l k) * _ = (if l < |spin| then 0 else
      otfFinish (forwardLatitudinalStepJax ftm θ nt L spin width s'
        reality p 0) L 0 reality l k) * _
    rw [otfFinish_above L reality hlo0
        (stepJax_above ftm θ nt L spin width s' reality p hlo0) l k hl]

theorem stepNumpy_above (G : Machine) (ftm : ℤ → ℤ → ℂ) (θ : ℤ → ℝ) (nt L spin width : ℤ)
    (nside : Option ℤ) (s : PyStr) (reality : Bool) (p : Option PmPre) {lo : ℤ} (hlo0 : 0 ≤ lo) :
    (∃ e, forwardPolesNumpy G ftm θ nt L spin width nside s reality p lo = .error e ∧
      forwardPolesNumpy G ftm θ nt L spin width nside s reality p 0 = .error e) ∨
    ∃ a b, forwardPolesNumpy G ftm θ nt L spin width nside s reality p lo = .ok a ∧
      forwardPolesNumpy G ftm θ nt L spin width nside s reality p 0 = .ok b ∧
      ∀ l k, lo ≤ l → a l k = b l k := by
  have step : ∀ ftm θ nt,
      (∃ e, forwardLatitudinalStep G ftm θ nt L spin width nside s reality p lo = .error e ∧
        forwardLatitudinalStep G ftm θ nt L spin width nside s reality p 0 = .error e) ∨
      ∃ a b, forwardLatitudinalStep G ftm θ nt L spin width nside s reality p lo = .ok a ∧
        forwardLatitudinalStep G ftm θ nt L spin width nside s reality p 0 = .ok b ∧
        ∀ l k, lo ≤ l → a l k = b l k := by
    intro ftm θ nt
    unfold forwardLatitudinalStep
    cases otfPrecomps G p L spin s nside true with
    | error e => exact Or.inl ⟨e, rfl, rfl⟩
    | ok P =>
      by_cases hL : L = 1
      · subst hL; exact Or.inl ⟨.indexError, rfl, rfl⟩
      · refine Or.inr ⟨_, _, if_neg hL, if_neg hL, ?_⟩
        exact otfAnalyse_kept P ftm θ L spin nt _ width reality hlo0
  unfold forwardPolesNumpy
  by_cases hs : lower s = sMWSS
  · simp only [if_pos hs]
    rcases step (fun t k => ftm (t + 1) k) (fun t => θ (t + 1)) (nt - 2) with
      ⟨e, h1, h2⟩ | ⟨a, b, h1, h2, h3⟩
    · rw [h1, h2]; exact Or.inl ⟨e, rfl, rfl⟩
    rw [h1, h2]
    cases pyIndex width (L - 1 + spin + mOffset s) with
    | error e => exact Or.inl ⟨e, rfl, rfl⟩
    | ok i1 =>
      cases pyIndex (2 * L - 1) (L - 1 + spin) with
      | error e => exact Or.inl ⟨e, rfl, rfl⟩
      | ok i2 =>
        cases pyIndex width (L - 1 - spin + mOffset s) with
        | error e => exact Or.inl ⟨e, rfl, rfl⟩
        | ok i3 =>
          cases pyIndex (2 * L - 1) (L - 1 - spin) with
          | error e => exact Or.inl ⟨e, rfl, rfl⟩
          | ok i4 =>
            exact Or.inr ⟨_, _, rfl, rfl,
              addNorth_above hlo0 _ _ (addSouth_above hlo0 _ _ _ h3)⟩
  · simp only [if_neg hs]
    exact step _ _ _

theorem otfForwardNumpy_mask (G : Machine) (f : Nd ℂ) (L spin : ℤ) (nside : Option ℤ) (s : PyStr)
    (reality : Bool) (p : Option PmPre) {lo : ℤ} (hlo0 : 0 ≤ lo) :
    ExRel (Masked lo) (otfForwardNumpy G f L spin nside s reality p lo)
      (otfForwardNumpy G f L spin nside s reality p 0) := by
  unfold otfForwardNumpy
  rw [requireLower_ok hlo0, requireLower_ok le_rfl]
  cases otfFourier G f L spin nside s reality mNumpy with
  | error e => exact Or.inl ⟨e, rfl, rfl⟩
  | ok v =>
    obtain ⟨ftm, s', nt, θ, width⟩ := v
    rcases stepNumpy_above G ftm θ nt L spin width nside s' reality p hlo0 with
      ⟨e, h1, h2⟩ | ⟨a, b, h1, h2, h3⟩
    · show ExRel _ (forwardPolesNumpy G ftm θ nt L spin width nside s' reality p lo >>= _)
        (forwardPolesNumpy G ftm θ nt L spin width nside s' reality p 0 >>= _)
      rw [h1, h2]; exact Or.inl ⟨e, rfl, rfl⟩
    · show ExRel _ (forwardPolesNumpy G ftm θ nt L spin width nside s' reality p lo >>= _)
        (forwardPolesNumpy G ftm θ nt L spin width nside s' reality p 0 >>= _)
      rw [h1, h2]
      refine ExRel.ok ⟨_, _, _, rfl, congrArg (Nd.d2 _ _) ?_⟩
      funext l k
      unfold maskBelow
      simp only []
      show (if l < max |spin| lo then 0 else otfFinish a L lo reality l k) * _
        = if l < lo then 0 else (if l < max |spin| 0 then 0 else otfFinish b L 0 reality l k) * _
      by_cases h : l < lo
      · rw [if_pos h, if_pos (lt_of_lt_of_le h (le_max_right _ _)), zero_mul]
      · rw [if_neg h, otfFinish_above L reality hlo0 h3 l k (not_lt.1 h), max_eq_left (abs_nonneg spin)]
        congr 1
        refine if_congr ?_ rfl rfl
        rw [lt_max_iff, or_iff_left h]

/-! ## Wigner transforms -/

theorem setPlane_mask {lo : ℤ} {a b : ℤ → ℤ → ℤ → ℂ} (h : ∀ q, a q = maskBelow lo (b q)) (p : ℤ)
    {v w : ℤ → ℤ → ℂ} (hv : v = maskBelow lo w) (q : ℤ) :
    setPlane a p v q = maskBelow lo (setPlane b p w q) := by
  unfold setPlane
  split_ifs
  · exact hv
  · exact h q

theorem mul_mask (lo : ℤ) (c : ℂ) (g : ℤ → ℤ → ℂ) :
    (fun l j => c * maskBelow lo g l j) = maskBelow lo (fun l j => c * g l j) := by
  funext l j
  unfold maskBelow
  split_ifs <;> simp

theorem wigMirror_mask (lo : ℤ) (g : ℤ → ℤ → ℂ) (L n : ℤ) :
    wigMirror (maskBelow lo g) L n = maskBelow lo (wigMirror g L n) := by
  funext l j
  unfold wigMirror maskBelow
  split_ifs <;> simp

theorem wigUnscale_mask {lo : ℤ} (hlo0 : 0 ≤ lo) {a b : ℤ → ℤ → ℤ → ℂ}
    (h : ∀ q, a q = maskBelow lo (b q)) (q : ℤ) :
    wigUnscale a lo q = maskBelow lo (wigUnscale b 0 q) := by
  funext l j
  unfold wigUnscale
  rw [h]
  unfold maskBelow
  by_cases hl : l < lo
  · rw [if_neg (by omega), if_pos hl, if_pos hl]
  · rw [if_pos (by omega), if_neg hl, if_neg hl]
    beta_reduce
    rw [if_pos (by omega)]

theorem wigMirrorAll_mask {lo : ℤ} {a b : ℤ → ℤ → ℤ → ℂ}
    (h : ∀ q, a q = maskBelow lo (b q)) (L N : ℤ) (reality : Bool) (q : ℤ) :
    wigMirrorAll a L N reality q = maskBelow lo (wigMirrorAll b L N reality q) := by
  unfold wigMirrorAll
  split_ifs
  · rw [h, wigMirror_mask]
  · exact h q

/-- `a` is `b`, a table of Wigner coefficients, with the degrees below `lo` set to zero. -/
def Masked3 (lo : ℤ) (a b : Nd ℂ) : Prop :=
  ∃ p r c g, b = .d3 p r c g ∧ a = .d3 p r c (fun n => maskBelow lo (g n))

theorem wigInverseLoop_mask {lo : ℤ} (N : ℤ) (reality : Bool) (sgn : ℤ → ℂ)
    {u v : ℤ → Except PyErr (Nd ℂ)} (h : ∀ n, ExRel (Masked lo) (u n) (v n)) :
    ExRel (fun a b => ∀ q, a q = maskBelow lo (b q)) (wigInverseLoop N reality sgn u)
      (wigInverseLoop N reality sgn v) := by
  refine forRangeM_rel _ (fun q => ?_) fun n a b _ _ hab => (h n).bind fun x y hxy => ExRel.ok ?_
  · funext l j
    unfold maskBelow
    split_ifs <;> rfl
  · refine setPlane_mask hab _ ?_
    rw [hxy.get2, mul_mask]

theorem otfWignerForwardJax_mask (G : Machine) (f : Nd ℂ) (L N : ℤ) (nside : Option ℤ) (s : PyStr)
    (reality : Bool) (p : Option WigPreJax) {lo : ℤ} (hlo0 : 0 ≤ lo) (hlo : lo < L - 1) :
    ExRel (Masked3 lo) (otfWignerForwardJax G f L N nside s reality p lo)
      (otfWignerForwardJax G f L N nside s reality p 0) := by
  unfold otfWignerForwardJax
  rw [requireLower_ok hlo0, requireLower_ok le_rfl]
  refine (ExRel.rfl _).bind fun ps _ h => ?_
  subst h
  refine (ExRel.rfl _).bind fun shape _ h => ?_
  subst h
  by_cases hs : f.shape ≠ shape
  · rw [if_pos hs, if_pos hs]; exact Or.inl ⟨_, rfl, rfl⟩
  rw [if_neg hs, if_neg hs]
  refine (wigInverseLoop_mask N reality _ fun n => otfForwardJax_mask G _ L (-n) nside s false _ hlo0
    hlo).bind fun a b h => ExRel.ok ⟨_, _, _, _, rfl, congrArg (Nd.d3 _ _ _) ?_⟩
  funext q
  exact wigUnscale_mask hlo0 (wigMirrorAll_mask h L N reality) q

theorem otfWignerForwardNumpy_mask (G : Machine) (f : Nd ℂ) (L N : ℤ) (nside : Option ℤ) (s : PyStr)
    (reality : Bool) (p : Option (ℤ → PmPre)) {lo : ℤ} (hlo0 : 0 ≤ lo) :
    ExRel (Masked3 lo) (otfWignerForwardNumpy G f L N nside s reality p lo)
      (otfWignerForwardNumpy G f L N nside s reality p 0) := by
  unfold otfWignerForwardNumpy
  rw [requireLower_ok hlo0, requireLower_ok le_rfl]
  refine (ExRel.rfl _).bind fun ps _ h => ?_
  subst h
  refine (ExRel.rfl _).bind fun shape _ h => ?_
  subst h
  by_cases hs : f.shape ≠ shape
  · rw [if_pos hs, if_pos hs]; exact Or.inl ⟨_, rfl, rfl⟩
  rw [if_neg hs, if_neg hs]
  refine ExRel.bind (R := fun a b : ℤ → ℤ → ℤ → ℂ => ∀ q, a q = maskBelow lo (b q)) ?_
    (fun a b h => ExRel.ok ⟨_, _, _, _, rfl, congrArg (Nd.d3 _ _ _)
      (funext fun q => wigUnscale_mask hlo0 h q)⟩)
  refine forRangeM_rel _ (fun q => ?_) fun n a b _ _ hab => ?_
  · funext l j
    unfold maskBelow
    split_ifs <;> rfl
  · refine ExRel.bind (otfForwardNumpy_mask G _ L (-n) nside s _ _ hlo0) fun x y hxy => ?_
    have h1 := setPlane_mask hab (N - 1 + n) (v := fun l j => (-1) ^ n * x.get2 l j)
      (w := fun l j => (-1) ^ n * y.get2 l j) (by rw [hxy.get2, mul_mask])
    by_cases hc : reality = true ∧ n ≠ 0
    · simp only [if_pos hc]
      refine ExRel.ok (setPlane_mask h1 _ ?_)
      rw [h1, wigMirror_mask]
    · simp only [if_neg hc]
      exact ExRel.ok h1

end S2fft
