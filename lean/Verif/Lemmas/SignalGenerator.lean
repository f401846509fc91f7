import Verif.Model.SignalGenerator
import Verif.Lemmas.Loops

/-! # Lemmas for the signal generator -/

namespace S2fft

theorem mem_trilIndices (L r c : ℤ) : (r, c) ∈ trilIndices L ↔ 0 ≤ c ∧ c < r ∧ r < L := by
  unfold trilIndices
  simp only [List.mem_flatMap, List.mem_range, List.mem_map, Prod.mk.injEq]
  constructor
  · rintro ⟨a, ha, b, hb, rfl, rfl⟩; omega
  · rintro ⟨h1, h2, h3⟩
    exact ⟨r.toNat, by omega, c.toNat, by omega, by omega, by omega⟩

theorem nodup_trilIndices (L : ℤ) : (trilIndices L).Nodup := by
  unfold trilIndices
  rw [List.nodup_flatMap]
  refine ⟨fun r _ => ?_, ?_⟩
  · refine List.Nodup.map ?_ List.nodup_range
    intro a b h
    simpa using h
  · refine List.Pairwise.imp ?_ (List.nodup_range (n := L.toNat))
    intro a b hab
    simp only [Function.onFun, List.disjoint_left, List.mem_map, List.mem_range]
    rintro ⟨p, q⟩ ⟨c, _, h⟩ ⟨c', _, h'⟩
    simp only [Prod.mk.injEq] at h h'
    omega

theorem mem_idx {L min_el : ℤ} (h0 : 0 ≤ min_el) (l m : ℤ) :
    (l, m) ∈ complexElAndMIndices L min_el ↔ min_el ≤ l ∧ l < L ∧ 1 ≤ m ∧ m ≤ l := by
  have h : (l, m) ∈ (trilIndices L).map (fun p => (p.1, p.2 + 1)) ↔ 1 ≤ m ∧ m ≤ l ∧ l < L := by
    rw [List.mem_map]
    constructor
    · rintro ⟨⟨r, c⟩, hp, he⟩
      rw [mem_trilIndices] at hp
      simp only [Prod.mk.injEq] at he
      omega
    · rintro ⟨h1, h2, h3⟩
      exact ⟨(l, m - 1), by rw [mem_trilIndices]; omega, by simp⟩
  unfold complexElAndMIndices
  simp only
  split_ifs with hp
  · rw [List.mem_filter, h]
    simp only [ge_iff_le, decide_eq_true_eq]
    omega
  · rw [h]; omega

theorem nodup_idx (L min_el : ℤ) : (complexElAndMIndices L min_el).Nodup := by
  have h : ((trilIndices L).map (fun p => (p.1, p.2 + 1))).Nodup := by
    refine List.Nodup.map ?_ (nodup_trilIndices L)
    rintro ⟨a, b⟩ ⟨c, d⟩ h
    simp only [Prod.mk.injEq] at h ⊢
    omega
  unfold complexElAndMIndices
  simp only
  split_ifs
  · exact h.filter _
  · exact h

theorem assignIdx_notMem (idx : List (ℤ × ℤ)) (v : ℕ → ℂ) (a : ℤ → ℤ → ℂ) (k : ℕ) {x y : ℤ}
    (h : (x, y) ∉ idx) : assignIdx idx v a k x y = a x y := by
  induction idx generalizing a k with
  | nil => rfl
  | cons p r ih =>
    rw [List.mem_cons, not_or] at h
    rw [assignIdx, ih _ _ h.2]
    unfold set2
    rw [if_neg]
    rintro ⟨rfl, rfl⟩
    exact h.1 rfl

theorem assignIdx_get (idx : List (ℤ × ℤ)) (hn : idx.Nodup) (v : ℕ → ℂ) (a : ℤ → ℤ → ℂ) (k : ℕ)
    {x y : ℤ} (h : (x, y) ∈ idx) : assignIdx idx v a k x y = v (k + idx.idxOf (x, y)) := by
  induction idx generalizing a k with
  | nil => simp at h
  | cons p r ih =>
    rw [List.nodup_cons] at hn
    rw [assignIdx]
    by_cases hp : p = (x, y)
    · subst hp
      rw [assignIdx_notMem _ _ _ _ hn.1, List.idxOf_cons_self]
      simp [set2]
    · rw [List.mem_cons] at h
      rw [ih hn.2 _ _ (h.resolve_left (Ne.symm hp)), List.idxOf_cons_ne _ hp]
      congr 1; omega

theorem idxOf_map_inj {f : ℤ × ℤ → ℤ × ℤ} (hf : Function.Injective f) (idx : List (ℤ × ℤ))
    (p : ℤ × ℤ) : (idx.map f).idxOf (f p) = idx.idxOf p := by
  induction idx with
  | nil => rfl
  | cons q r ih =>
    rw [List.map_cons]
    by_cases h : q = p
    · subst h; rw [List.idxOf_cons_self, List.idxOf_cons_self]
    · rw [List.idxOf_cons_ne _ (fun e => h (hf e)), List.idxOf_cons_ne _ h, ih]

/-- Index list moved to array columns by an injective map of the order. -/
theorem assign_col (idx : List (ℤ × ℤ)) (hn : idx.Nodup) (g : ℤ → ℤ) (hg : Function.Injective g)
    (v : ℕ → ℂ) (a : ℤ → ℤ → ℂ) (l m : ℤ) :
    assignIdx (idx.map fun p => (p.1, g p.2)) v a 0 l (g m)
      = if (l, m) ∈ idx then v (idx.idxOf (l, m)) else a l (g m) := by
  have hi : Function.Injective (fun p : ℤ × ℤ => (p.1, g p.2)) := by
    rintro ⟨a, b⟩ ⟨c, d⟩ h
    simp only [Prod.mk.injEq] at h ⊢
    exact ⟨h.1, hg h.2⟩
  have hm : (l, g m) ∈ idx.map (fun p => (p.1, g p.2)) ↔ (l, m) ∈ idx :=
    List.mem_map_of_injective (a := (l, m)) hi
  split_ifs with h
  · rw [assignIdx_get _ (hn.map hi) _ _ _ (hm.2 h)]
    congr 1
    rw [zero_add]
    exact idxOf_map_inj hi idx (l, m)
  · exact assignIdx_notMem _ _ _ _ (fun h' => h (hm.1 h'))

theorem nthIdx_idxOf {idx : List (ℤ × ℤ)} {p : ℤ × ℤ} (h : p ∈ idx) : nthIdx idx (idx.idxOf p) = p := by
  unfold nthIdx
  rw [List.getD_eq_getElem?_getD, List.getElem?_eq_getElem (List.idxOf_lt_length_iff.2 h)]
  exact List.getElem_idxOf _

theorem standardNormal_ok (x : ℕ → ℝ) (pos : ℕ) {size : ℤ} (h : 0 ≤ size) :
    standardNormal x pos size = .ok (fun i => x (pos + i.toNat), pos + size.toNat) := by
  unfold standardNormal; rw [if_neg (by omega)]

theorem complexNormal_ok (x : ℕ → ℝ) (pos : ℕ) {size : ℤ} (h : 0 ≤ size) :
    complexNormal x pos size 2 = .ok (fun i => (x (pos + i.toNat) : ℂ)
      + Complex.I * x (pos + size.toNat + i.toNat), pos + size.toNat + size.toNat) := by
  unfold complexNormal
  simp only [standardNormal_ok _ _ h, bind, Except.bind, pure, Except.pure]
  congr 2
  ext i
  rw [show (2 : ℝ) / 2 = 1 by norm_num, Real.sqrt_one]
  simp

theorem setCol_at (a : ℤ → ℤ → ℂ) (lo hi L : ℤ) (v : ℤ → ℂ) (l m : ℤ) :
    setCol a lo hi (L - 1) v l (m + L - 1)
      = if lo ≤ l ∧ l < hi ∧ m = 0 then v (l - lo) else a l (m + L - 1) := by
  unfold setCol
  congr 1
  exact propext ⟨fun h => by omega, fun h => by omega⟩

theorem assign_pos {L : ℤ} (idx : List (ℤ × ℤ)) (hn : idx.Nodup) (v : ℕ → ℂ) (a : ℤ → ℤ → ℂ)
    (l m : ℤ) : assignIdx (idx.map fun p => (p.1, L - 1 + p.2)) v a 0 l (m + L - 1)
      = if (l, m) ∈ idx then v (idx.idxOf (l, m)) else a l (m + L - 1) := by
  have := assign_col idx hn (fun m => L - 1 + m) (fun a b h => by simpa using h) v a l m
  rwa [show L - 1 + m = m + L - 1 by ring] at this

theorem assign_neg {L : ℤ} (idx : List (ℤ × ℤ)) (hn : idx.Nodup) (v : ℕ → ℂ) (a : ℤ → ℤ → ℂ)
    (l m : ℤ) : assignIdx (idx.map fun p => (p.1, L - 1 - p.2)) v a 0 l (m + L - 1)
      = if (l, -m) ∈ idx then v (idx.idxOf (l, -m)) else a l (m + L - 1) := by
  have := assign_col idx hn (fun m => L - 1 - m) (fun a b h => by simpa using h) v a l (-m)
  rwa [show L - 1 - -m = m + L - 1 by ring] at this

/-- Position, inside the block of samples drawn for one value of `n`, of the first (`b = false`) and
second (`b = true`) sample used for entry `(l, m)`; `base` samples are drawn for `m = 0`. -/
def slotIn (idx : List (ℤ × ℤ)) (n0 base : ℕ) (lo l m : ℤ) (b : Bool) : ℕ :=
  if m = 0 then (l - lo).toNat + (if b then n0 else 0)
  else if 0 < m then base + idx.idxOf (l, m) + (if b then idx.length else 0)
  else base + 2 * idx.length + idx.idxOf (l, -m) + (if b then idx.length else 0)

theorem slotIn_zero (idx : List (ℤ × ℤ)) (n0 base : ℕ) {lo l m : ℤ} (b : Bool) (h : m = 0) :
    slotIn idx n0 base lo l m b = (l - lo).toNat + (if b then n0 else 0) := if_pos h

theorem slotIn_pos (idx : List (ℤ × ℤ)) (n0 base : ℕ) {lo l m : ℤ} (b : Bool) (h : 0 < m) :
    slotIn idx n0 base lo l m b = base + idx.idxOf (l, m) + (if b then idx.length else 0) := by
  unfold slotIn; rw [if_neg (show ¬ m = 0 by omega), if_pos h]

theorem slotIn_neg (idx : List (ℤ × ℤ)) (n0 base : ℕ) {lo l m : ℤ} (b : Bool) (h : m < 0) :
    slotIn idx n0 base lo l m b
      = base + 2 * idx.length + idx.idxOf (l, -m) + (if b then idx.length else 0) := by
  unfold slotIn; rw [if_neg (show ¬ m = 0 by omega), if_neg (show ¬ 0 < m by omega)]

theorem slotIn_lt {L lo l m : ℤ} (h0 : 0 ≤ lo) {base : ℕ} {b : Bool} (half : Bool) (h1 : lo ≤ l)
    (h2 : l < L) (h3 : |m| ≤ l) (hh : half = true → 0 ≤ m)
    (hb : m = 0 → (L - lo).toNat + (if b then (L - lo).toNat else 0) ≤ base) :
    slotIn (complexElAndMIndices L lo) (L - lo).toNat base lo l m b
      < base + (if half then 2 else 4) * (complexElAndMIndices L lo).length := by
  have hmem := fun l m => mem_idx (L := L) h0 l m
  generalize complexElAndMIndices L lo = idx at hmem ⊢
  rw [abs_le] at h3
  have g : 0 < m → idx.idxOf (l, m) < idx.length := fun h =>
    List.idxOf_lt_length_iff.2 ((hmem l m).2 (by omega))
  have g' : m < 0 → idx.idxOf (l, -m) < idx.length := fun h =>
    List.idxOf_lt_length_iff.2 ((hmem l (-m)).2 (by omega))
  unfold slotIn
  rcases lt_trichotomy m 0 with h | h | h
  · have g' := g' h
    rw [if_neg (by omega), if_neg (by omega)]
    cases half
    · cases b <;> simp <;> omega
    · simp at hh; omega
  · rw [if_pos h]
    have hb := hb h
    cases half <;> cases b <;> simp at hb ⊢ <;> omega
  · have g := g h
    rw [if_neg (by omega), if_pos h]
    cases half <;> cases b <;> simp <;> omega

theorem slotIn_inj {L lo l m l' m' : ℤ} (h0 : 0 ≤ lo) {base : ℕ} {b b' : Bool} (h1 : lo ≤ l)
    (h2 : l < L) (h3 : |m| ≤ l) (hb : m = 0 → (L - lo).toNat + (if b then (L - lo).toNat else 0) ≤ base)
    (h1' : lo ≤ l') (h2' : l' < L) (h3' : |m'| ≤ l')
    (hb' : m' = 0 → (L - lo).toNat + (if b' then (L - lo).toNat else 0) ≤ base)
    (e : slotIn (complexElAndMIndices L lo) (L - lo).toNat base lo l m b
      = slotIn (complexElAndMIndices L lo) (L - lo).toNat base lo l' m' b') :
    l = l' ∧ m = m' ∧ b = b' := by
  have hmem := fun l m => mem_idx (L := L) h0 l m
  generalize complexElAndMIndices L lo = idx at hmem e
  rw [abs_le] at h3 h3'
  have g : 0 < m → idx.idxOf (l, m) < idx.length := fun h =>
    List.idxOf_lt_length_iff.2 ((hmem l m).2 (by omega))
  have g' : m < 0 → idx.idxOf (l, -m) < idx.length := fun h =>
    List.idxOf_lt_length_iff.2 ((hmem l (-m)).2 (by omega))
  have k : 0 < m' → idx.idxOf (l', m') < idx.length := fun h =>
    List.idxOf_lt_length_iff.2 ((hmem l' m').2 (by omega))
  have k' : m' < 0 → idx.idxOf (l', -m') < idx.length := fun h =>
    List.idxOf_lt_length_iff.2 ((hmem l' (-m')).2 (by omega))
  have hinj : ∀ l m l' m', (l, m) ∈ idx → idx.idxOf (l, m) = idx.idxOf (l', m') →
      l = l' ∧ m = m' := by
    intro l m l' m' a e
    have := (List.idxOf_inj a).1 e
    simpa using this
  have hb2 : ∀ b b' : Bool, (b = b') ∨ (b = true ∧ b' = false) ∨ (b = false ∧ b' = true) := by decide
  rcases lt_trichotomy m 0 with h | h | h <;> rcases lt_trichotomy m' 0 with h' | h' | h'
  · have g' := g' h
    have k' := k' h'
    rw [slotIn_neg _ _ _ _ h, slotIn_neg _ _ _ _ h'] at e
    have i1 := hinj l (-m) l' (-m') ((hmem l (-m)).2 (by omega))
    rcases hb2 b b' with rfl | ⟨rfl, rfl⟩ | ⟨rfl, rfl⟩
    · have := i1 (by omega)
      exact ⟨this.1, by omega, rfl⟩
    · simp at e; omega
    · simp at e; omega
  · have g' := g' h
    have hb' := hb' h'
    rw [slotIn_neg _ _ _ _ h, slotIn_zero _ _ _ _ h'] at e
    cases b <;> cases b' <;> simp at e hb' <;> omega
  · have g' := g' h
    have k := k h'
    rw [slotIn_neg _ _ _ _ h, slotIn_pos _ _ _ _ h'] at e
    cases b <;> cases b' <;> simp at e <;> omega
  · have k' := k' h'
    have hb := hb h
    rw [slotIn_zero _ _ _ _ h, slotIn_neg _ _ _ _ h'] at e
    cases b <;> cases b' <;> simp at e hb <;> omega
  · have hb' := hb' h'
    have hb := hb h
    rw [slotIn_zero _ _ _ _ h, slotIn_zero _ _ _ _ h'] at e
    refine ⟨?_, by omega, ?_⟩ <;> cases b <;> cases b' <;> simp at e hb hb' ⊢ <;> omega
  · have k := k h'
    have hb := hb h
    rw [slotIn_zero _ _ _ _ h, slotIn_pos _ _ _ _ h'] at e
    cases b <;> cases b' <;> simp at e hb <;> omega
  · have g := g h
    have k' := k' h'
    rw [slotIn_pos _ _ _ _ h, slotIn_neg _ _ _ _ h'] at e
    cases b <;> cases b' <;> simp at e <;> omega
  · have g := g h
    have hb' := hb' h'
    rw [slotIn_pos _ _ _ _ h, slotIn_zero _ _ _ _ h'] at e
    cases b <;> cases b' <;> simp at e hb' <;> omega
  · have g := g h
    have k := k h'
    rw [slotIn_pos _ _ _ _ h, slotIn_pos _ _ _ _ h'] at e
    have i1 := hinj l m l' m' ((hmem l m).2 (by omega))
    rcases hb2 b b' with rfl | ⟨rfl, rfl⟩ | ⟨rfl, rfl⟩
    · have := i1 (by omega)
      exact ⟨this.1, by omega, rfl⟩
    · simp at e; omega
    · simp at e; omega

/-! ## `generate_flmn` -/

theorem onPlane_pos (a : ℤ → ℤ → ℤ → ℂ) (N n n' : ℤ) (f : (ℤ → ℤ → ℂ) → ℤ → ℤ → ℂ) (l c : ℤ) :
    onPlane a (N - 1 + n) f (N - 1 + n') l c
      = if n' = n then f (a (N - 1 + n')) l c else a (N - 1 + n') l c := by
  unfold onPlane
  by_cases h : n' = n
  · rw [if_pos h, if_pos (by omega)]
  · rw [if_neg h, if_neg (by omega)]

theorem onPlane_neg (a : ℤ → ℤ → ℤ → ℂ) (N n n' : ℤ) (f : (ℤ → ℤ → ℂ) → ℤ → ℤ → ℂ) (l c : ℤ) :
    onPlane a (N - 1 - n) f (N - 1 + n') l c
      = if n' = -n then f (a (N - 1 + n')) l c else a (N - 1 + n') l c := by
  have := onPlane_pos a N (-n) n' f l c
  rwa [show N - 1 + -n = N - 1 - n by ring] at this

/-- The iteration of the loop over `n` that sets the entries of plane `n'` and order `m`. -/
def writer (reality : Bool) (n' m : ℤ) : ℤ :=
  if reality then (if 0 < m then n' else if m < 0 then -n' else |n'|) else n'

/-- Number of samples drawn for `m = 0` in iteration `n`. -/
def flmnBase (reality : Bool) (n0 : ℕ) (n : ℤ) : ℕ :=
  if reality then (if n = 0 then n0 else if 0 < n then 2 * n0 else 0) else 2 * n0

/-- A complex sample. -/
noncomputable def pairAt (x : ℕ → ℝ) (p : ℕ) (slot : Bool → ℕ) : ℂ :=
  x (p + slot false) + Complex.I * x (p + slot true)

/-- The value iteration `n = writer n' m`, started at stream position `p`, gives entry
`(n', l, m)`. -/
noncomputable def flmnVal (x : ℕ → ℝ) (p : ℕ) (reality : Bool) (slot : ℤ → ℤ → Bool → ℕ)
    (n' l m : ℤ) : ℂ :=
  if reality = true → (0 < m ∨ m = 0 ∧ 0 ≤ n') then
    if reality = true ∧ m = 0 ∧ n' = 0 then (x (p + slot l m false) : ℂ) else pairAt x p (slot l m)
  else (-1) ^ (m + n') * (starRingEnd ℂ) (pairAt x p (slot l (-m)))

theorem exists_ok {α : Type} {P : α → Prop} {a : α} {q q' : ℕ} (hq : q = q') (h : P a) :
    ∃ b, (Except.ok (a, q) : Except PyErr (α × ℕ)) = .ok (b, q') ∧ P b :=
  ⟨a, by rw [hq], h⟩

theorem neg_one_zpow_inv (n : ℤ) : ((-1 : ℂ) ^ n)⁻¹ = (-1) ^ n := by
  rcases Int.even_or_odd n with h | h
  · rw [h.neg_one_zpow, inv_one]
  · rw [h.neg_one_zpow, inv_neg, inv_one]

theorem flmnOrderZero_ok (x : ℕ → ℝ) (L N lo : ℤ) (reality : Bool) (n : ℤ)
    (a : ℤ → ℤ → ℤ → ℂ) (p : ℕ) (h1 : lo ≤ L) :
    ∃ a1, flmnOrderZero x L N lo reality n (a, p)
        = .ok (a1, p + flmnBase reality (L - lo).toNat n) ∧
      ∀ idx n' l m, a1 (N - 1 + n') l (m + L - 1)
        = if m = 0 ∧ writer reality n' m = n ∧ lo ≤ l ∧ l < L then
            flmnVal x p reality (slotIn idx (L - lo).toNat (flmnBase reality (L - lo).toNat n) lo)
              n' l m
          else a (N - 1 + n') l (m + L - 1) := by
  have hs : 0 ≤ L - lo := by omega
  unfold flmnOrderZero
  cases reality
  · rw [if_neg Bool.false_ne_true]
    simp only [complexNormal_ok x _ hs, bind, Except.bind, pure, Except.pure]
    refine exists_ok ?_ ?_
    · rw [show flmnBase false (L - lo).toNat n = (L - lo).toNat + (L - lo).toNat by
        simp [flmnBase]; ring, ← add_assoc]
    intro idx n' l m
    rw [onPlane_pos, setCol_at]
    unfold writer flmnVal
    simp only [Bool.false_eq_true, if_false, false_imp_iff, if_true, false_and]
    by_cases hn : n' = n
    · rw [if_pos hn]
      by_cases hr : lo ≤ l ∧ l < L ∧ m = 0
      · rw [if_pos hr, if_pos (by omega)]
        unfold pairAt
        rw [slotIn_zero _ _ _ _ hr.2.2, slotIn_zero _ _ _ _ hr.2.2]
        simp only [Bool.false_eq_true, if_false, if_true, add_zero]
        congr 4; omega
      · rw [if_neg hr, if_neg (by omega)]
    · rw [if_neg hn, if_neg (by omega)]
  · rw [if_pos rfl]
    rcases lt_trichotomy n 0 with hn | hn | hn
    · rw [if_neg (by omega), if_neg (by omega)]
      refine ⟨a, ?_, ?_⟩
      · rw [show flmnBase true (L - lo).toNat n = 0 by
          simp [flmnBase, hn.ne, hn.not_gt]]
        rfl
      · intro idx n' l m
        rw [if_neg]
        rintro ⟨rfl, h, _⟩
        simp [writer] at h
        have := abs_nonneg n'
        omega
    · rw [if_pos hn]
      simp only [standardNormal_ok x _ hs, bind, Except.bind, pure, Except.pure]
      refine exists_ok ?_ ?_
      · rw [show flmnBase true (L - lo).toNat n = (L - lo).toNat by simp [flmnBase, hn]]
      intro idx n' l m
      have := onPlane_pos a N 0 n' (fun f => setCol f lo L (L - 1) (fun i => (x (p + i.toNat) : ℂ)))
        l (m + L - 1)
      rw [add_zero] at this
      rw [this, setCol_at]
      unfold writer flmnVal
      by_cases hr : lo ≤ l ∧ l < L ∧ m = 0
      · by_cases hn' : n' = 0
        · subst hn'
          obtain ⟨h2, h3, rfl⟩ := hr
          rw [if_pos rfl, if_pos ⟨h2, h3, rfl⟩, if_pos (by simp; omega), if_pos (by simp),
            if_pos (by simp), slotIn_zero _ _ _ _ rfl]
          simp
        · rw [if_neg hn', if_neg]
          rintro ⟨_, h, _⟩
          simp [hr.2.2] at h
          have := abs_pos.2 hn'
          omega
      · rw [if_neg hr, if_neg (c := m = 0 ∧ _) (fun h => hr ⟨h.2.2.1, h.2.2.2, h.1⟩), ite_self]
    · rw [if_neg (by omega), if_pos hn]
      simp only [complexNormal_ok x _ hs, bind, Except.bind, pure, Except.pure]
      refine exists_ok ?_ ?_
      · rw [show flmnBase true (L - lo).toNat n = (L - lo).toNat + (L - lo).toNat by
          simp [flmnBase, hn, hn.ne']; ring, ← add_assoc]
      intro idx n' l m
      rw [onPlane_neg, setCol_at, onPlane_pos (c := m + L - 1), setCol_at]
      have hpair : m = 0 → pairAt x p (slotIn idx (L - lo).toNat
          (flmnBase true (L - lo).toNat n) lo l m)
          = (x (p + (l - lo).toNat) : ℂ) + Complex.I * x (p + (L - lo).toNat + (l - lo).toNat) := by
        intro hm
        unfold pairAt
        rw [slotIn_zero _ _ _ _ hm, slotIn_zero _ _ _ _ hm]
        simp only [Bool.false_eq_true, if_false, if_true, add_zero]
        congr 4; omega
      unfold writer flmnVal
      by_cases hr : lo ≤ l ∧ l < L ∧ m = 0
      · obtain ⟨h2, h3, rfl⟩ := hr
        by_cases hn' : n' = n
        · subst hn'
          rw [if_neg (by omega), if_pos rfl, if_pos ⟨h2, h3, rfl⟩,
            if_pos ⟨rfl, by simp [abs_of_pos hn], h2, h3⟩, if_pos (by simp; omega),
            if_neg (by simp; omega), hpair rfl]
        · by_cases hn2 : n' = -n
          · subst hn2
            have h5 := onPlane_pos a N n n (fun f => setCol f lo L (L - 1) (fun i =>
              (x (p + i.toNat) : ℂ) + Complex.I * x (p + (L - lo).toNat + i.toNat))) l (0 + L - 1)
            beta_reduce at h5 ⊢
            rw [if_pos rfl, setCol_at, if_pos ⟨h2, h3, rfl⟩, zero_add] at h5
            rw [if_pos rfl, if_pos ⟨h2, h3, rfl⟩,
              if_pos ⟨rfl, by simp [abs_of_pos hn], h2, h3⟩, if_neg (by simp; omega),
              show lo + (l - lo) = l by ring, h5, neg_zero, hpair rfl, zero_add, zpow_neg,
              neg_one_zpow_inv]
          · rw [if_neg hn2, if_neg hn', if_neg]
            rintro ⟨_, h, _⟩
            simp at h
            rcases abs_choice n' with e | e <;> omega
      · rw [if_neg hr, if_neg hr, if_neg (c := m = 0 ∧ _) (fun h => hr ⟨h.2.2.1, h.2.2.2, h.1⟩),
          ite_self, ite_self]

theorem flmnOrders_ok (x : ℕ → ℝ) (L N lo : ℤ) (reality : Bool) (n : ℤ)
    (a : ℤ → ℤ → ℤ → ℂ) (p n0 base : ℕ) (h0 : 0 ≤ lo) :
    ∃ a1, flmnOrders x L N lo reality n (a, p + base)
        = .ok (a1, p + (base + (if reality then 2 else 4) * (complexElAndMIndices L lo).length)) ∧
      ∀ n' l m, a1 (N - 1 + n') l (m + L - 1)
        = if m ≠ 0 ∧ writer reality n' m = n ∧ lo ≤ l ∧ l < L ∧ |m| ≤ l then
            flmnVal x p reality (slotIn (complexElAndMIndices L lo) n0 base lo) n' l m
          else a (N - 1 + n') l (m + L - 1) := by
  have hmem := fun l m => mem_idx (L := L) h0 l m
  have hnd := nodup_idx L lo
  unfold flmnOrders
  simp only
  generalize complexElAndMIndices L lo = idx at hmem hnd ⊢
  have hlen : (0 : ℤ) ≤ idx.length := by positivity
  simp only [complexNormal_ok x _ hlen, bind, Except.bind, pure, Except.pure, Int.toNat_natCast]
  have hpos : ∀ l m : ℤ, 0 < m → pairAt x p (slotIn idx n0 base lo l m)
      = (x (p + base + idx.idxOf (l, m)) : ℂ)
        + Complex.I * x (p + base + idx.length + idx.idxOf (l, m)) := by
    intro l m hm
    unfold pairAt
    rw [slotIn_pos _ _ _ _ hm, slotIn_pos _ _ _ _ hm]
    simp only [Bool.false_eq_true, if_false, if_true, add_zero]
    rw [show p + (base + idx.idxOf (l, m)) = p + base + idx.idxOf (l, m) by omega,
      show p + (base + idx.idxOf (l, m) + idx.length)
        = p + base + idx.length + idx.idxOf (l, m) by omega]
  have hneg : ∀ l m : ℤ, m < 0 → pairAt x p (slotIn idx n0 base lo l m)
      = (x (p + base + idx.length + idx.length + idx.idxOf (l, -m)) : ℂ)
        + Complex.I * x (p + base + idx.length + idx.length + idx.length + idx.idxOf (l, -m)) := by
    intro l m hm
    unfold pairAt
    rw [slotIn_neg _ _ _ _ hm, slotIn_neg _ _ _ _ hm]
    simp only [Bool.false_eq_true, if_false, if_true, add_zero]
    rw [show p + (base + 2 * idx.length + idx.idxOf (l, -m))
        = p + base + idx.length + idx.length + idx.idxOf (l, -m) by omega,
      show p + (base + 2 * idx.length + idx.idxOf (l, -m) + idx.length)
        = p + base + idx.length + idx.length + idx.length + idx.idxOf (l, -m) by omega]
  cases reality
  · rw [if_neg Bool.false_ne_true, if_neg Bool.false_ne_true]
    refine exists_ok (by omega) ?_
    intro n' l m
    rw [onPlane_pos, assign_neg _ hnd, onPlane_pos, assign_pos _ hnd]
    have hw : writer false n' m = n' := rfl
    have hv : flmnVal x p false (slotIn idx n0 base lo) n' l m
        = pairAt x p (slotIn idx n0 base lo l m) := by
      unfold flmnVal; simp
    rw [hw, hv]
    by_cases hn : n' = n
    · rw [if_pos hn, if_pos hn]
      by_cases h : (l, -m) ∈ idx
      · have h' := (hmem _ _).1 h
        rw [if_pos h, if_pos ⟨by omega, hn, h'.1, h'.2.1, by rw [abs_le]; omega⟩,
          hneg l m (by omega)]
      · rw [if_neg h]
        by_cases h2 : (l, m) ∈ idx
        · have h' := (hmem _ _).1 h2
          rw [if_pos h2, if_pos ⟨by omega, hn, h'.1, h'.2.1, by rw [abs_le]; omega⟩,
            hpos l m (by omega)]
        · rw [if_neg h2, if_neg]
          rintro ⟨h3, _, h4, h5, h6⟩
          rw [hmem] at h h2
          rw [abs_le] at h6
          omega
    · rw [if_neg hn, if_neg hn, if_neg (fun h => hn h.2.1)]
  · rw [if_pos rfl, if_pos rfl]
    refine exists_ok (by omega) ?_
    intro n' l m
    rw [onPlane_neg, assign_neg _ hnd, onPlane_pos (c := m + L - 1), assign_pos _ hnd]
    rcases lt_trichotomy m 0 with hm | hm | hm
    · have hw : writer true n' m = -n' := by
        unfold writer; rw [if_pos rfl, if_neg (by omega), if_pos hm]
      have hv : flmnVal x p true (slotIn idx n0 base lo) n' l m
          = (-1) ^ (m + n') * (starRingEnd ℂ) (pairAt x p (slotIn idx n0 base lo l (-m))) := by
        unfold flmnVal; rw [if_neg]; intro h; have := h rfl; omega
      have h2 : (l, m) ∉ idx := by rw [hmem]; omega
      rw [hw, hv, if_neg h2, ite_self]
      by_cases hn : n' = -n
      · rw [if_pos hn]
        by_cases h : (l, -m) ∈ idx
        · have h' := (hmem _ _).1 h
          rw [if_pos h, if_pos ⟨by omega, by omega, h'.1, h'.2.1, by rw [abs_le]; omega⟩,
            hpos l (-m) (by omega), nthIdx_idxOf h]
          have e := onPlane_pos a N n n (assignIdx (idx.map fun p => (p.1, L - 1 + p.2))
            (fun k => (x (p + base + k) : ℂ) + Complex.I * x (p + base + idx.length + k)))
            l (-m + L - 1)
          rw [if_pos rfl, assign_pos _ hnd, if_pos h] at e
          simp only
          rw [show L - 1 + -m = -m + L - 1 by ring, e, hn,
            show -m + n = -(m + -n) by ring, zpow_neg, neg_one_zpow_inv]
        · rw [if_neg h, if_neg]
          rintro ⟨h3, _, h4, h5, h6⟩
          rw [hmem] at h
          rw [abs_le] at h6
          omega
      · rw [if_neg hn, if_neg]
        rintro ⟨_, h, _⟩
        omega
    · have h : (l, -m) ∉ idx := by rw [hmem]; omega
      have h2 : (l, m) ∉ idx := by rw [hmem]; omega
      rw [if_neg h, if_neg h2, ite_self, ite_self, if_neg (fun h => h.1 hm)]
    · have hw : writer true n' m = n' := by
        unfold writer; rw [if_pos rfl, if_pos hm]
      have hv : flmnVal x p true (slotIn idx n0 base lo) n' l m
          = pairAt x p (slotIn idx n0 base lo l m) := by
        unfold flmnVal; rw [if_pos (fun _ => Or.inl hm), if_neg (by omega)]
      have h : (l, -m) ∉ idx := by rw [hmem]; omega
      rw [hw, hv, if_neg h, ite_self]
      by_cases hn : n' = n
      · rw [if_pos hn]
        by_cases h2 : (l, m) ∈ idx
        · have h' := (hmem _ _).1 h2
          rw [if_pos h2, if_pos ⟨by omega, hn, h'.1, h'.2.1, by rw [abs_le]; omega⟩, hpos l m hm]
        · rw [if_neg h2, if_neg]
          rintro ⟨h3, _, h4, h5, h6⟩
          rw [hmem] at h2
          rw [abs_le] at h6
          omega
      · rw [if_neg hn, if_neg (fun h => hn h.2.1)]

theorem abs_writer (reality : Bool) (n' m : ℤ) : |writer reality n' m| = |n'| := by
  unfold writer
  split_ifs <;> simp

/-- Number of samples drawn in iteration `n`. -/
noncomputable def flmnCost (reality : Bool) (L L_lower n : ℤ) : ℕ :=
  flmnBase reality (L - max L_lower |n|).toNat n
    + (if reality then 2 else 4) * (complexElAndMIndices L (max L_lower |n|)).length

/-- Stream position at the start of iteration `n`. -/
noncomputable def flmnStart (reality : Bool) (L N L_lower : ℤ) (pos : ℕ) (n : ℤ) : ℕ :=
  pos + ∑ i ∈ Finset.Ico (-N + 1) n, flmnCost reality L L_lower i

/-- Position of a sample inside the block of its iteration. -/
noncomputable def flmnSlot (reality : Bool) (L L_lower n : ℤ) : ℤ → ℤ → Bool → ℕ :=
  slotIn (complexElAndMIndices L (max L_lower |n|)) (L - max L_lower |n|).toNat
    (flmnBase reality (L - max L_lower |n|).toNat n) (max L_lower |n|)

theorem flmnStart_succ (reality : Bool) (L N L_lower : ℤ) (pos : ℕ) {n : ℤ} (h : -N + 1 ≤ n) :
    flmnStart reality L N L_lower pos (n + 1)
      = flmnStart reality L N L_lower pos n + flmnCost reality L L_lower n := by
  unfold flmnStart
  rw [sum_Ico_succ_top' h, add_assoc]

theorem flmnStart_mono (reality : Bool) (L N L_lower : ℤ) (pos : ℕ) {n k : ℤ} (h : n ≤ k) :
    flmnStart reality L N L_lower pos n ≤ flmnStart reality L N L_lower pos k := by
  unfold flmnStart
  refine Nat.add_le_add_left (Finset.sum_le_sum_of_subset ?_) _
  exact Finset.Ico_subset_Ico_right h

theorem generateFlmn_ok (x : ℕ → ℝ) (pos : ℕ) (L N L_lower : ℤ) (reality : Bool) (hL : 1 ≤ L)
    (hN : 1 ≤ N) (h : max L_lower (N - 1) ≤ L) :
    ∃ a, generateFlmn x pos L N L_lower reality
        = .ok (.d3 (2 * N - 1) L (2 * L - 1) a, flmnStart reality L N L_lower pos N) ∧
      ∀ n l m, a (N - 1 + n) l (m + L - 1)
        = if |n| < N ∧ max L_lower |n| ≤ l ∧ l < L ∧ |m| ≤ l then
            flmnVal x (flmnStart reality L N L_lower pos (writer reality n m)) reality
              (flmnSlot reality L L_lower (writer reality n m)) n l m
          else 0 := by
  obtain ⟨⟨a, p⟩, h1, h2, h3⟩ := forRangeM_ind (show -N + 1 ≤ N by omega)
    (fun n s => do
      let s ← flmnOrderZero x L N (max L_lower |n|) reality n s
      flmnOrders x L N (max L_lower |n|) reality n s) (fun _ _ _ => (0 : ℂ), pos)
    (fun k s => s.2 = flmnStart reality L N L_lower pos k ∧ ∀ n l m, s.1 (N - 1 + n) l (m + L - 1)
        = if writer reality n m < k ∧ |n| < N ∧ max L_lower |n| ≤ l ∧ l < L ∧ |m| ≤ l then
            flmnVal x (flmnStart reality L N L_lower pos (writer reality n m)) reality
              (flmnSlot reality L L_lower (writer reality n m)) n l m
          else 0)
    ⟨by simp [flmnStart], fun n l m => by
      rw [if_neg]
      rintro ⟨h1, h2, -⟩
      have := abs_writer reality n m
      rw [← this, abs_lt] at h2
      omega⟩
    (by
      rintro k ⟨a, p⟩ hk hk' ⟨h2, h3⟩
      simp only at h2 h3
      subst h2
      have hk2 : |k| ≤ N - 1 := by rw [abs_le]; omega
      obtain ⟨a1, e1, v1⟩ := flmnOrderZero_ok x L N (max L_lower |k|) reality k a
        (flmnStart reality L N L_lower pos k) (by omega)
      obtain ⟨a2, e2, v2⟩ := flmnOrders_ok x L N (max L_lower |k|) reality k a1
        (flmnStart reality L N L_lower pos k) (L - max L_lower |k|).toNat
        (flmnBase reality (L - max L_lower |k|).toNat k) (le_max_of_le_right (abs_nonneg _))
      refine ⟨(a2, flmnStart reality L N L_lower pos (k + 1)), ?_, rfl, ?_⟩
      · rw [e1, flmnStart_succ _ _ _ _ _ hk]
        exact e2
      · intro n l m
        simp only
        rw [v2, v1 (complexElAndMIndices L (max L_lower |k|)), h3]
        have hw := abs_writer reality n m
        by_cases hwk : writer reality n m = k
        · rw [hwk] at hw ⊢
          by_cases hr : |n| < N ∧ max L_lower |n| ≤ l ∧ l < L ∧ |m| ≤ l
          · rw [if_pos (c := k < k + 1 ∧ _) ⟨by omega, hr⟩]
            by_cases hm : m = 0
            · rw [if_neg (fun h => h.1 hm), if_pos ⟨hm, rfl, by rw [hw]; exact hr.2.1, hr.2.2.1⟩]
              rfl
            · rw [if_pos ⟨hm, rfl, by rw [hw]; exact hr.2.1, hr.2.2⟩]
              rfl
          · rw [if_neg (c := k < k + 1 ∧ _) (fun h => hr h.2)]
            rw [hw]
            have hkN : |n| < N := by omega
            have : 0 ≤ max L_lower |n| := le_max_of_le_right (abs_nonneg _)
            rw [if_neg (fun h => hr ⟨hkN, h.2.2⟩), if_neg, if_neg (fun h => hr h.2)]
            rintro ⟨h1, -, h2, h3⟩
            exact hr ⟨hkN, h2, h3, by rw [h1, abs_zero]; omega⟩
        · rw [if_neg (fun h => hwk h.2.1), if_neg (fun h => hwk h.2.1)]
          congr 1
          exact propext ⟨fun h => ⟨by omega, h.2⟩, fun h => ⟨by omega, h.2⟩⟩)
  simp only at h2 h3
  refine ⟨a, ?_, ?_⟩
  · unfold generateFlmn
    rw [if_neg (by simp only [flmn_shape]; omega)]
    show (forRangeM (-N + 1) N _ _ >>= _) = _
    rw [h1, h2]
    rfl
  · intro n l m
    rw [h3]
    congr 1
    refine propext ⟨fun h => h.2, fun h => ⟨?_, h⟩⟩
    have := abs_writer reality n m
    have h := h.1
    rw [← this, abs_lt] at h
    omega

theorem forRangeM_error_at {σ : Type} {lo hi : ℤ} (body : ℤ → σ → Except PyErr σ) (s : σ)
    (e : PyErr) (hb : ∀ i s, (∃ s', body i s = .ok s') ∨ body i s = .error e) (k : ℤ)
    (h1 : lo ≤ k) (h2 : k < hi) (hk : ∀ s, body k s = .error e) :
    forRangeM lo hi body s = .error e := by
  have := forRange_ind (show lo ≤ hi by omega) (fun i (st : Except PyErr σ) => st >>= body i) (.ok s)
    (fun i (st : Except PyErr σ) => ((∃ s', st = .ok s') ∨ st = .error e) ∧
      (k < i → st = .error e)) ⟨Or.inl ⟨s, rfl⟩, fun h => by omega⟩ (by
      rintro i st h3 h4 ⟨h5, h6⟩
      rcases h5 with ⟨s', rfl⟩ | rfl
      · refine ⟨hb i s', fun h => ?_⟩
        rcases eq_or_lt_of_le (show k ≤ i by omega) with h7 | h7
        · subst h7; exact hk s'
        · exact absurd (h6 h7) (by simp)
      · exact ⟨Or.inr rfl, fun _ => rfl⟩)
  exact this.2 h2

end S2fft
