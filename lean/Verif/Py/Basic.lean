import Mathlib.Tactic
import Mathlib.Algebra.BigOperators.Intervals
import Mathlib.Data.Complex.Basic
import Mathlib.Data.Int.Interval
import Mathlib.Order.Interval.Finset.Basic

/-!
# Python / NumPy primitives

Meaning given to the Python constructs used by the modelled code: integer loops, in-place array
writes, exceptions, strings.
-/

namespace S2fft

/-- The exception classes raised by the modelled code (messages are not modelled). -/
inductive PyErr
  | valueError | assertionError | indexError | keyError | typeError | warning
  | attributeError | overflowError | notImplementedError | zeroDivisionError | runtimeError
  deriving DecidableEq, Repr

/-- Python strings: a list of characters. -/
abbrev PyStr := List Char

/-- `str.lower` (ASCII letters; the scheme names are ASCII). -/
def lower (s : PyStr) : PyStr := s.map Char.toLower

/-- Run `body 0`, `body 1`, …, `body (n-1)` in this order. -/
def forN {σ : Type*} : ℕ → (ℕ → σ → σ) → σ → σ
  | 0, _, s => s
  | n + 1, body, s => body n (forN n body s)

/-- `for i in range(lo, hi): s = body(i, s)`. -/
def forRange {σ : Type*} (lo hi : ℤ) (body : ℤ → σ → σ) (s : σ) : σ :=
  forN (hi - lo).toNat (fun k s => body (lo + k) s) s

/-- A loop whose body may raise. -/
def forRangeM {σ : Type} (lo hi : ℤ) (body : ℤ → σ → Except PyErr σ) (s : σ) :
    Except PyErr σ :=
  forRange lo hi (fun i st => st >>= body i) (.ok s)

/-- `np.concatenate` of chunks given as (length, contents). -/
def concatChunks {α : Type*} [Zero α] : List (ℤ × (ℤ → α)) → ℤ → α
  | [], _ => 0
  | (n, a) :: r, i => if i < n then a i else concatChunks r (i - n)

/-- `a[i] = v`. -/
def set1 {α : Type*} (a : ℤ → α) (i : ℤ) (v : α) : ℤ → α :=
  fun x => if x = i then v else a x

/-- `a[i, j] = v`. -/
def set2 {α : Type*} (a : ℤ → ℤ → α) (i j : ℤ) (v : α) : ℤ → ℤ → α :=
  fun x y => if x = i ∧ y = j then v else a x y

/-- `a[i, j, k] = v`. -/
def set3 {α : Type*} (a : ℤ → ℤ → ℤ → α) (i j k : ℤ) (v : α) : ℤ → ℤ → ℤ → α :=
  fun x y z => if x = i ∧ y = j ∧ z = k then v else a x y z

/-- `a[i] += v`. -/
def add1 {α : Type*} [Add α] (a : ℤ → α) (i : ℤ) (v : α) : ℤ → α :=
  set1 a i (a i + v)

/-- `a[i, j] += v`. -/
def add2 {α : Type*} [Add α] (a : ℤ → ℤ → α) (i j : ℤ) (v : α) : ℤ → ℤ → α :=
  set2 a i j (a i j + v)

/-- `a[i, j, k] += v`. -/
def add3 {α : Type*} [Add α] (a : ℤ → ℤ → ℤ → α) (i j k : ℤ) (v : α) : ℤ → ℤ → ℤ → α :=
  set3 a i j k (a i j k + v)

/-- An n-dimensional array with its shape: dimensions 1, 2 and 3 with contents (indexed from 0),
any other number of dimensions without. -/
inductive Nd (α : Type*)
  | d1 (n : ℤ) (a : ℤ → α)
  | d2 (r c : ℤ) (a : ℤ → ℤ → α)
  | d3 (p r c : ℤ) (a : ℤ → ℤ → ℤ → α)
  | other (ndim : ℕ)

/-- Python `int(x)` for a float: truncation towards zero. -/
noncomputable def pyInt (x : ℝ) : ℤ := if 0 ≤ x then ⌊x⌋ else ⌈x⌉

@[simp] theorem set1_same {α : Type*} (a : ℤ → α) (i : ℤ) (v : α) : set1 a i v i = v := by
  simp [set1]

theorem set1_ne {α : Type*} (a : ℤ → α) {i x : ℤ} (v : α) (h : x ≠ i) : set1 a i v x = a x := by
  simp [set1, h]

/-! ## Loop rules -/

theorem forRange_of_le {σ : Type*} {lo hi : ℤ} (h : hi ≤ lo) (body : ℤ → σ → σ) (s : σ) :
    forRange lo hi body s = s := by
  unfold forRange
  rw [Int.toNat_eq_zero.2 (by omega)]; rfl

theorem forRange_succ {σ : Type*} {lo hi : ℤ} (h : lo ≤ hi) (body : ℤ → σ → σ) (s : σ) :
    forRange lo (hi + 1) body s = body hi (forRange lo hi body s) := by
  unfold forRange
  have : (hi + 1 - lo).toNat = (hi - lo).toNat + 1 := by omega
  rw [this, forN]
  congr 1
  omega

/-- Induction rule for `for i in range(lo, hi)`. -/
theorem forRange_ind {σ : Type*} {lo hi : ℤ} (hle : lo ≤ hi) (body : ℤ → σ → σ) (s : σ)
    (P : ℤ → σ → Prop) (h0 : P lo s)
    (hs : ∀ i s, lo ≤ i → i < hi → P i s → P (i + 1) (body i s)) :
    P hi (forRange lo hi body s) := by
  obtain ⟨n, rfl⟩ : ∃ n : ℕ, hi = lo + n := ⟨(hi - lo).toNat, by omega⟩
  clear hle
  induction n with
  | zero => simpa [forRange_of_le] using h0
  | succ n ih =>
    have h1 := ih (fun i s hi1 hi2 => hs i s hi1 (by push_cast; omega))
    have := hs (lo + n) _ (by omega) (by push_cast; omega) h1
    have e : lo + ((n + 1 : ℕ) : ℤ) = (lo + n) + 1 := by push_cast; ring
    rw [e, forRange_succ (by omega)]
    exact this

/-- An observation not touched by any iteration is unchanged. -/
theorem forRange_frame {σ τ : Type*} (lo hi : ℤ) (body : ℤ → σ → σ) (s : σ) (get : σ → τ)
    (h : ∀ i s, lo ≤ i → i < hi → get (body i s) = get s) :
    get (forRange lo hi body s) = get s := by
  rcases le_total lo hi with hle | hle
  · exact forRange_ind hle body s (fun _ s' => get s' = get s) rfl
      (fun i s' h1 h2 h3 => (h i s' h1 h2).trans h3)
  · rw [forRange_of_le hle]

/-- An observation written by exactly one iteration holds the value written. -/
theorem forRange_write {σ τ : Type*} (lo hi : ℤ) (body : ℤ → σ → σ) (s : σ) (get : σ → τ)
    (k : ℤ) (v : τ) (h1 : lo ≤ k) (h2 : k < hi)
    (hk : ∀ s, get (body k s) = v)
    (hne : ∀ i s, lo ≤ i → i < hi → i ≠ k → get (body i s) = get s) :
    get (forRange lo hi body s) = v := by
  have := forRange_ind (by omega : lo ≤ hi) body s
    (fun i s' => k < i → get s' = v) (by intro h; omega)
    (by
      intro i s' h3 h4 h5 h6
      rcases eq_or_ne i k with rfl | hik
      · exact hk s'
      · rw [hne i s' h3 h4 hik]; exact h5 (by omega))
  exact this h2

theorem sum_Ico_succ_top' {M : Type*} [AddCommMonoid M] {a b : ℤ} (hab : a ≤ b) (f : ℤ → M) :
    ∑ k ∈ Finset.Ico a (b + 1), f k = (∑ k ∈ Finset.Ico a b, f k) + f b := by
  have : Finset.Ico a (b + 1) = insert b (Finset.Ico a b) := by
    ext x; simp; omega
  rw [this, Finset.sum_insert (by simp), add_comm]

/-- An observation to which every iteration adds `g i` ends with the sum added. -/
theorem forRange_sum {σ M : Type*} [AddCommMonoid M] (lo hi : ℤ) (body : ℤ → σ → σ) (s : σ)
    (get : σ → M) (g : ℤ → M)
    (h : ∀ i s, lo ≤ i → i < hi → get (body i s) = get s + g i) :
    get (forRange lo hi body s) = get s + ∑ i ∈ Finset.Ico lo hi, g i := by
  rcases le_total lo hi with hle | hle
  · refine forRange_ind hle body s
      (fun j s' => get s' = get s + ∑ i ∈ Finset.Ico lo j, g i) (by simp) ?_
    intro i s' h1 h2 h3
    rw [h i s' h1 h2, h3, sum_Ico_succ_top' h1, add_assoc]
  · rw [forRange_of_le hle]; simp [Finset.Ico_eq_empty_of_le hle]

/-- Induction rule for loops that may raise: if no iteration raises, neither does the loop. -/
theorem forRangeM_ind {σ : Type} {lo hi : ℤ} (hle : lo ≤ hi) (body : ℤ → σ → Except PyErr σ)
    (s : σ) (P : ℤ → σ → Prop) (h0 : P lo s)
    (hs : ∀ i s, lo ≤ i → i < hi → P i s → ∃ s', body i s = .ok s' ∧ P (i + 1) s') :
    ∃ s', forRangeM lo hi body s = .ok s' ∧ P hi s' := by
  refine forRange_ind hle _ (Except.ok s) (fun i (st : Except PyErr σ) =>
    ∃ s', st = Except.ok s' ∧ P i s') ⟨s, rfl, h0⟩ ?_
  rintro i _ h1 h2 ⟨s', rfl, h3⟩
  obtain ⟨s'', h4, h5⟩ := hs i s' h1 h2 h3
  exact ⟨s'', h4, h5⟩

/-- If the first iteration raises, so does the loop. -/
theorem forRangeM_error {σ : Type} {lo hi : ℤ} (hlt : lo < hi) (body : ℤ → σ → Except PyErr σ)
    (s : σ) (e : PyErr) (h : body lo s = .error e) :
    forRangeM lo hi body s = .error e := by
  have := forRange_ind (by omega : lo ≤ hi) (fun i (st : Except PyErr σ) => st >>= body i) (.ok s)
    (fun i (st : Except PyErr σ) => (i = lo → st = .ok s) ∧ (lo < i → st = .error e)) (by simp) (by
      intro i st h1 h2 h3
      refine ⟨fun h => by omega, fun _ => ?_⟩
      rcases eq_or_lt_of_le h1 with h4 | h4
      · rw [h3.1 h4.symm, ← h4]; exact h
      · rw [h3.2 h4]; rfl)
  exact this.2 hlt

end S2fft
