import Verif.Model.Double
import Verif.Lemmas.Healpix
import Mathlib.Analysis.SpecialFunctions.Trigonometric.Bounds
import Mathlib.Data.Int.Log
import Mathlib.Tactic

/-! # Double precision: helper lemmas -/

namespace S2fft
open Spec

theorem isDouble_int {k : ℤ} (h : |k| ≤ 2 ^ 53) : IsDouble k := ⟨k, 0, h, by norm_num, by simp⟩

theorem isDouble_half {k : ℤ} (h : |k| ≤ 2 ^ 53) : IsDouble ((k : ℝ) / 2) :=
  ⟨k, -1, h, by norm_num, by rw [zpow_neg_one]; ring⟩

theorem fl_of_double {fl : ℝ → ℝ} (hf : RoundsToNearest fl) {x : ℝ} (h : IsDouble x) : fl x = x := by
  have := (hf x).2 x h
  rw [sub_self, abs_zero] at this
  have := abs_nonpos_iff.1 this
  linarith

theorem fl_int {fl : ℝ → ℝ} (hf : RoundsToNearest fl) {k : ℤ} (h : |k| ≤ 2 ^ 53) : fl k = k :=
  fl_of_double hf (isDouble_int h)

/-- Exponent of the last digit. -/
noncomputable def sigExp (x : ℝ) : ℤ := max (Int.log 2 |x| - 52) (-1074)

/-- The double found by rounding the significand. -/
noncomputable def roundSig (x : ℝ) : ℝ :=
  round (x / (2 : ℝ) ^ sigExp x) * (2 : ℝ) ^ sigExp x

theorem roundSig_near (x : ℝ) : |x - roundSig x| ≤ (2 : ℝ) ^ sigExp x / 2 := by
  have hp : (0 : ℝ) < (2 : ℝ) ^ sigExp x := by positivity
  unfold roundSig
  generalize hq : (2 : ℝ) ^ sigExp x = q at hp
  have h := abs_sub_round (x / q)
  have e : x - round (x / q) * q = (x / q - round (x / q)) * q := by field_simp
  rw [e, abs_mul, abs_of_pos hp]
  nlinarith

theorem log_bounds {x : ℝ} (hx : x ≠ 0) :
    (2 : ℝ) ^ (Int.log 2 |x|) ≤ |x| ∧ |x| < (2 : ℝ) ^ (Int.log 2 |x| + 1) := by
  have h := Int.zpow_log_le_self (b := 2) (r := |x|) (by norm_num) (abs_pos.2 hx)
  have h' := Int.lt_zpow_succ_log_self (b := 2) (by norm_num) |x|
  exact ⟨by exact_mod_cast h, by exact_mod_cast h'⟩

theorem zpow_split (e : ℤ) : (2 : ℝ) ^ e = (2 : ℝ) ^ (e - 52) * 2 ^ 52 := by
  rw [show e = (e - 52) + (52 : ℕ) by push_cast; ring, zpow_add₀ (by norm_num), zpow_natCast]
  norm_num

theorem roundSig_zero : roundSig 0 = 0 := by simp [roundSig]

theorem roundSig_rel {x B : ℝ} (hx : |x| ≤ B) (hB : 1 / 2 ^ 200 ≤ B) :
    |x - roundSig x| ≤ B / 2 ^ 53 := by
  have hB0 : 0 < B := lt_of_lt_of_le (by positivity) hB
  by_cases h0 : x = 0
  · subst h0; rw [roundSig_zero]; simp; positivity
  · refine le_trans (roundSig_near x) ?_
    have e : B / 2 ^ 53 = B / 2 ^ 52 / 2 := by ring
    rw [e]
    have : (2 : ℝ) ^ sigExp x ≤ B / 2 ^ 52 := by
      rcases le_total (Int.log 2 |x| - 52) (-1074) with h | h
      · rw [sigExp, max_eq_right h, le_div_iff₀ (by positivity)]
        refine le_trans ?_ hB
        have h1 : (2 : ℝ) ^ (-1074 : ℤ) ≤ (2 : ℝ) ^ (-252 : ℤ) :=
          zpow_le_zpow_right₀ (by norm_num) (by norm_num)
        have h2 : (2 : ℝ) ^ (-252 : ℤ) * 2 ^ 52 = 1 / 2 ^ 200 := by norm_num
        rw [← h2]
        gcongr
      · rw [sigExp, max_eq_left h, le_div_iff₀ (by positivity), ← zpow_split]
        exact le_trans (log_bounds h0).1 hx
    linarith

theorem roundSig_double (x : ℝ) : IsDouble (roundSig x) := by
  by_cases hx : x = 0
  · subst hx; exact ⟨0, 0, by simp, by norm_num, by simp [roundSig]⟩
  · refine ⟨_, _, ?_, le_max_right _ _, rfl⟩
    have h2 := (log_bounds hx).2
    rw [zpow_add₀ (by norm_num), zpow_split, zpow_one] at h2
    have hp : (0 : ℝ) < (2 : ℝ) ^ sigExp x := by positivity
    have hle : (2 : ℝ) ^ (Int.log 2 |x| - 52) ≤ (2 : ℝ) ^ sigExp x :=
      zpow_le_zpow_right₀ (by norm_num) (le_max_left _ _)
    generalize (2 : ℝ) ^ (Int.log 2 |x| - 52) = q' at h2 hle
    unfold sigExp at *
    generalize (2 : ℝ) ^ (max (Int.log 2 |x| - 52) (-1074)) = q at hle hp
    have h3 : |x / q| < 2 ^ 53 := by
      rw [abs_div, abs_of_pos hp, div_lt_iff₀ hp]
      calc |x| < q' * 2 ^ 52 * 2 := h2
        _ = 2 ^ 53 * q' := by ring
        _ ≤ 2 ^ 53 * q := by gcongr
    have h4 := abs_sub_round (x / q)
    have h5 : (|(round (x / q) : ℝ)|) < 2 ^ 53 + 1 := by
      have : |(round (x / q) : ℝ)| ≤ |x / q| + |x / q - round (x / q)| := by
        have := abs_sub_abs_le_abs_sub (round (x / q) : ℝ) (x / q)
        rw [abs_sub_comm] at this
        linarith
      linarith
    have h6 : |round (x / q)| < 2 ^ 53 + 1 := by exact_mod_cast h5
    omega

/-- Rounding the significand gives a nearest double. -/
theorem roundSig_nearest : RoundsToNearest roundSig := by
  intro x
  refine ⟨roundSig_double x, ?_⟩
  rintro y ⟨m, e, hm, hemin, rfl⟩
  by_cases hx : x = 0
  · subst hx
    rw [roundSig_zero, sub_self, abs_zero]
    exact abs_nonneg _
  · obtain ⟨q0, hq0⟩ : ∃ q0, q0 = sigExp x := ⟨_, rfl⟩
    have hp : (0 : ℝ) < (2 : ℝ) ^ q0 := by positivity
    -- the rounded number is nearest among multiples of `2 ^ q0`
    have key : ∀ k : ℤ, |x - roundSig x| ≤ |x - k * (2 : ℝ) ^ q0| := by
      intro k
      unfold roundSig
      rw [← hq0]
      have h := round_le (x / (2 : ℝ) ^ q0) k
      have e1 : ∀ c : ℝ, |x - c * (2 : ℝ) ^ q0| = |x / (2 : ℝ) ^ q0 - c| * (2 : ℝ) ^ q0 := by
        intro c
        rw [← abs_of_pos hp, ← abs_mul, abs_of_pos hp]
        congr 1
        field_simp
      rw [e1, e1]
      exact mul_le_mul_of_nonneg_right h hp.le
    rcases le_or_gt q0 e with h | h
    · have : (m : ℝ) * (2 : ℝ) ^ e = ((m * 2 ^ (e - q0).toNat : ℤ) : ℝ) * (2 : ℝ) ^ q0 := by
        push_cast
        rw [mul_assoc, ← zpow_natCast, ← zpow_add₀ (by norm_num), Int.toNat_of_nonneg (by omega)]
        congr 2; ring
      rw [this]
      exact key _
    · have hq1 : q0 = Int.log 2 |x| - 52 := by
        rw [hq0, sigExp] at h ⊢
        omega
      have h1 := (log_bounds hx).1
      rw [zpow_split, ← hq1] at h1
      have h2 : |(m : ℝ) * (2 : ℝ) ^ e| ≤ (2 : ℝ) ^ q0 * 2 ^ 52 := by
        rw [abs_mul, abs_of_pos (by positivity : (0 : ℝ) < (2 : ℝ) ^ e)]
        have hm' : |(m : ℝ)| ≤ 2 ^ 53 := by exact_mod_cast hm
        have he : (2 : ℝ) ^ e ≤ (2 : ℝ) ^ (q0 - 1) := zpow_le_zpow_right₀ (by norm_num) (by omega)
        have he2 : (2 : ℝ) ^ (q0 - 1) = (2 : ℝ) ^ q0 / 2 := by
          rw [zpow_sub₀ (by norm_num)]; norm_num
        rw [he2] at he
        have h0 : (0 : ℝ) < (2 : ℝ) ^ e := by positivity
        nlinarith [abs_nonneg (m : ℝ)]
      rcases lt_or_ge 0 x with hpos | hneg
      · have k1 := key (2 ^ 52)
        push_cast at k1
        rw [abs_of_pos hpos] at h1
        rw [abs_le] at h2
        rw [abs_of_nonneg (show 0 ≤ x - 4503599627370496 * (2 : ℝ) ^ q0 by linarith)] at k1
        rw [abs_of_nonneg (show 0 ≤ x - m * (2 : ℝ) ^ e by linarith)]
        linarith
      · have k1 := key (-2 ^ 52)
        push_cast at k1
        rw [abs_of_nonpos hneg] at h1
        rw [abs_le] at h2
        rw [abs_of_nonpos (show x - -4503599627370496 * (2 : ℝ) ^ q0 ≤ 0 by linarith)] at k1
        rw [abs_of_nonpos (show x - m * (2 : ℝ) ^ e ≤ 0 by linarith)]
        linarith

/-- A floating point library exists. -/
noncomputable def exactLib : DoubleLib where
  fl := roundSig
  cos := Real.cos
  sin := Real.sin
  arccos := Real.arccos
  nearest := roundSig_nearest
  cos_near := fun x => by simp
  sin_near := fun x => by simp
  arccos_near := fun x _ _ => by simp

/-- The error of rounding a number of size at most `B`. -/
theorem fl_near {fl : ℝ → ℝ} (hf : RoundsToNearest fl) {x B : ℝ} (hx : |x| ≤ B)
    (hB : 1 / 2 ^ 200 ≤ B := by first | (norm_num; done) | linarith) : |fl x - x| ≤ B / 2 ^ 53 := by
  rw [abs_sub_comm]
  exact le_trans ((hf x).2 _ (roundSig_double x)) (roundSig_rel hx hB)

theorem fl_zero {fl : ℝ → ℝ} (hf : RoundsToNearest fl) : fl 0 = 0 := by
  simpa using fl_int hf (k := 0) (by simp)

theorem fl_nonneg {fl : ℝ → ℝ} (hf : RoundsToNearest fl) {x : ℝ} (hx : 0 ≤ x) : 0 ≤ fl x := by
  have h := (hf x).2 0 (by simpa using isDouble_int (k := 0) (by simp))
  rw [sub_zero, abs_of_nonneg hx] at h
  have := (abs_le.1 h).2
  linarith

/-- Error of a rounding on top of an error `e` of its argument. -/
theorem fl_step {fl : ℝ → ℝ} (hf : RoundsToNearest fl) {x a e B : ℝ} (h : |x - a| ≤ e)
    (hB : |a| + e ≤ B) (hB1 : 1 / 2 ^ 200 ≤ B := by first | (norm_num; done) | linarith) :
    |fl x - a| ≤ e + B / 2 ^ 53 := by
  have h2 : |x| ≤ B := by
    have := abs_sub_abs_le_abs_sub x a
    linarith
  have h1 := fl_near hf h2 hB1
  have h3 : |fl x - a| ≤ |fl x - x| + |x - a| := abs_sub_le _ _ _
  linarith

/-- `ind2elm` in double precision, for degrees below `2²⁶`. -/
theorem ind2elmF_eq (F : DoubleLib) {k n : ℤ} (hk0 : 0 ≤ k) (hk : k + 1 ≤ 2 ^ 26) (h1 : k ^ 2 ≤ n)
    (h2 : n < (k + 1) ^ 2) : ind2elmF F n = ((k : ℝ), ((n - k ^ 2 - k : ℤ) : ℝ)) := by
  have hf := F.nearest
  have hk2 : (k + 1) ^ 2 ≤ 2 ^ 52 := by nlinarith
  have hn0 : 0 ≤ n := le_trans (by positivity) h1
  have hn53 : |n| ≤ 2 ^ 53 := by rw [abs_of_nonneg hn0]; omega
  have hn0' : (0 : ℝ) ≤ n := by exact_mod_cast hn0
  have hk0' : (0 : ℝ) ≤ k := by exact_mod_cast hk0
  have hk' : (k : ℝ) + 1 ≤ 2 ^ 26 := by exact_mod_cast hk
  have h1' : (k : ℝ) ^ 2 ≤ n := by exact_mod_cast h1
  have h2' : (n : ℝ) + 1 ≤ ((k : ℝ) + 1) ^ 2 := by exact_mod_cast h2
  obtain ⟨s, hs⟩ : ∃ s, s = Real.sqrt n := ⟨_, rfl⟩
  have hs0 : 0 ≤ s := by rw [hs]; exact Real.sqrt_nonneg _
  have hss : s ^ 2 = n := by rw [hs]; exact Real.sq_sqrt hn0'
  have hsk : (k : ℝ) ≤ s := by nlinarith
  have hsk1 : s < k + 1 := by nlinarith
  have hfl : ⌊F.fl s⌋ = k := by
    rw [Int.floor_eq_iff]
    have hnear := fl_near hf (x := s) (B := 2 ^ 26) (by rw [abs_of_nonneg hs0]; linarith)
    constructor
    · by_contra hc
      push Not at hc
      have h := (hf s).2 k (isDouble_int (by rw [abs_of_nonneg hk0]; omega))
      rw [abs_of_nonneg (show 0 ≤ s - F.fl s by linarith), abs_of_nonneg (by linarith)] at h
      linarith
    · have hgap : 1 / 2 ^ 27 < (k : ℝ) + 1 - s := by
        rw [div_lt_iff₀ (by positivity)]
        have : ((k : ℝ) + 1 - s) * (k + 1 + s) ≥ 1 := by nlinarith
        have hlt : (k : ℝ) + 1 + s < 2 ^ 27 := by linarith
        nlinarith
      have : F.fl s - s ≤ 2 ^ 26 / 2 ^ 53 := le_trans (le_abs_self _) hnear
      have h3 : (2 : ℝ) ^ 26 / 2 ^ 53 = 1 / 2 ^ 27 := by norm_num
      linarith
  unfold ind2elmF
  simp only
  rw [fl_int hf hn53, ← hs, hfl]
  have e2 : F.fl ((k : ℝ) ^ 2) = ((k ^ 2 : ℤ) : ℝ) := by
    rw [← fl_int hf (k := k ^ 2) (by rw [abs_of_nonneg (by positivity)]; nlinarith)]
    push_cast; rfl
  have e3 : F.fl ((n : ℝ) - ((k ^ 2 : ℤ) : ℝ)) = ((n - k ^ 2 : ℤ) : ℝ) := by
    rw [← fl_int hf (k := n - k ^ 2) (by rw [abs_of_nonneg (by omega)]; nlinarith)]
    push_cast; rfl
  have e4 : F.fl (((n - k ^ 2 : ℤ) : ℝ) - k) = ((n - k ^ 2 - k : ℤ) : ℝ) := by
    rw [← fl_int hf (k := n - k ^ 2 - k) (by rw [abs_le]; constructor <;> nlinarith)]
    push_cast; rfl
  rw [e2, e3, e4]

theorem fl_rel {fl : ℝ → ℝ} (hf : RoundsToNearest fl) (x : ℝ) (hx1 : x = 0 ∨ 1 / 2 ^ 200 ≤ |x|) :
    ∃ δ : ℝ, |δ| ≤ 1 / 2 ^ 53 ∧ fl x = x * (1 + δ) := by
  by_cases hx : x = 0
  · refine ⟨0, by simp, ?_⟩
    subst hx
    have := fl_int hf (k := 0) (by simp)
    simpa using this
  · refine ⟨(fl x - x) / x, ?_, by field_simp; ring⟩
    have h := fl_near hf le_rfl (hx1.resolve_left hx)
    rw [abs_div, div_le_iff₀ (abs_pos.2 hx)]
    calc |fl x - x| ≤ |x| / 2 ^ 53 := h
      _ = 1 / 2 ^ 53 * |x| := by ring

theorem rel_step {X δ e : ℝ} (h : |X - 1| ≤ e) (he : e ≤ 1 / 4) (hδ : |δ| ≤ 1 / 2 ^ 53) :
    |X * (1 + δ) - 1| ≤ e + 5 / 4 * (1 / 2 ^ 53) := by
  have e1 : X * (1 + δ) - 1 = (X - 1) + X * δ := by ring
  have h1 : |X| ≤ 5 / 4 := by
    have := abs_sub_abs_le_abs_sub X 1
    rw [abs_one] at this; linarith
  have h2 : |X * δ| ≤ 5 / 4 * (1 / 2 ^ 53) := by
    rw [abs_mul]
    exact mul_le_mul h1 hδ (abs_nonneg _) (by norm_num)
  rw [e1]
  exact le_trans (abs_add_le _ _) (by linarith)

/-- Rounding a positive number that is not too small. -/
theorem fl_rel_pos {fl : ℝ → ℝ} (hf : RoundsToNearest fl) {x c : ℝ} (h : c ≤ x)
    (hc : 1 / 2 ^ 200 ≤ c) : ∃ δ : ℝ, |δ| ≤ 1 / 2 ^ 53 ∧ fl x = x * (1 + δ) ∧ c / 2 ≤ fl x := by
  have h0 : 0 < c := lt_of_lt_of_le (by positivity) hc
  obtain ⟨δ, h1, h2⟩ := fl_rel hf x (Or.inr (by rw [abs_of_pos (by linarith)]; linarith))
  refine ⟨δ, h1, h2, ?_⟩
  rw [h2]
  have := (abs_le.1 h1).1
  have h3 : (1 : ℝ) / 2 ≤ 1 + δ := by norm_num at this ⊢; linarith
  nlinarith

theorem flPi_pos (F : DoubleLib) : 0 < F.fl Real.pi := by
  have hpi := Real.pi_pos
  have h := fl_near F.nearest (le_refl |Real.pi|) (by
    rw [abs_of_pos hpi]; exact le_trans (by norm_num) Real.two_le_pi)
  rw [abs_of_pos hpi] at h
  have := neg_le_of_abs_le h
  have : Real.pi / 2 ^ 53 < Real.pi := by
    rw [div_lt_iff₀ (by positivity)]; nlinarith
  linarith

theorem flPi_bounds (F : DoubleLib) : 1 ≤ F.fl Real.pi ∧ F.fl Real.pi ≤ 8 := by
  have h := fl_near F.nearest (x := Real.pi) (B := 4) (by
    rw [abs_of_pos Real.pi_pos]; exact Real.pi_le_four)
  have h1 := abs_le.1 h
  have := Real.two_le_pi
  have := Real.pi_le_four
  norm_num at h1
  constructor <;> linarith [h1.1, h1.2]

theorem flPi_le_four (F : DoubleLib) : F.fl Real.pi ≤ 4 := by
  have h4 : IsDouble 4 := by simpa using isDouble_int (k := 4) (by norm_num)
  have h := (F.nearest Real.pi).2 4 h4
  by_contra hc
  push Not at hc
  have := Real.pi_le_four
  rw [abs_of_nonpos (by linarith), abs_of_nonpos (by linarith)] at h
  linarith

/-- The azimuth of a pixel in units of a quarter turn: the stored value of `π` cancels. -/
theorem quarterF_near (F : DoubleLib) {i : ℤ} {x : ℝ} (hi : 1 ≤ i) (hi2 : |2 * i| ≤ 2 ^ 53)
    (hx0 : x = 0 ∨ 1 / 2 ≤ x) (hx1 : x ≤ 4 * i) :
    |F.fl (F.fl (2 * F.fl (F.fl (F.fl Real.pi / F.fl ((2 * i : ℤ) : ℝ)) * x)) / F.fl Real.pi)
        - x / i| ≤ 1 / 2 ^ 48 ∧
      0 ≤ F.fl (F.fl (2 * F.fl (F.fl (F.fl Real.pi / F.fl ((2 * i : ℤ) : ℝ)) * x)) / F.fl Real.pi) := by
  have hf := F.nearest
  obtain ⟨hP1, hP8⟩ := flPi_bounds F
  have hP := flPi_pos F
  rw [fl_int hf hi2]
  generalize F.fl Real.pi = P at hP hP1 hP8
  have hi' : (0 : ℝ) < i := by exact_mod_cast (by omega : 0 < i)
  have hi2' : ((2 * i : ℤ) : ℝ) ≤ 2 ^ 53 := by
    rw [abs_of_pos (by omega)] at hi2; exact_mod_cast hi2
  rcases hx0 with rfl | hx0
  · simp [fl_zero hf]
  obtain ⟨a, ha, ea, la⟩ := fl_rel_pos hf (x := P / ((2 * i : ℤ) : ℝ)) (c := 1 / 2 ^ 53) (by
    have : (0 : ℝ) < ((2 * i : ℤ) : ℝ) := by push_cast; linarith
    rw [div_le_div_iff₀ (by positivity) this]; nlinarith) (by norm_num)
  obtain ⟨b, hb, eb, lb⟩ := fl_rel_pos hf (x := F.fl (P / ((2 * i : ℤ) : ℝ)) * x) (c := 1 / 2 ^ 55) (by
    norm_num at la ⊢; nlinarith) (by norm_num)
  obtain ⟨c, hc, ec, lc⟩ := fl_rel_pos hf (x := 2 * F.fl (F.fl (P / ((2 * i : ℤ) : ℝ)) * x))
    (c := 1 / 2 ^ 55) (by norm_num at lb ⊢; linarith) (by norm_num)
  obtain ⟨d, hd, ed, -⟩ := fl_rel_pos hf (x := F.fl (2 * F.fl (F.fl (P / ((2 * i : ℤ) : ℝ)) * x)) / P)
    (c := 1 / 2 ^ 60) (by
      rw [div_le_div_iff₀ (by positivity) hP]; norm_num at lc ⊢; linarith) (by norm_num)
  have h1 := rel_step (X := 1) (e := 0) (by simp) (by norm_num) ha
  have h2 := rel_step h1 (by norm_num) hb
  have h3 := rel_step h2 (by norm_num) hc
  have h4 := rel_step h3 (by norm_num) hd
  have hE : F.fl (F.fl (2 * F.fl (F.fl (P / ((2 * i : ℤ) : ℝ)) * x)) / P)
      = x / i * (1 * (1 + a) * (1 + b) * (1 + c) * (1 + d)) := by
    rw [ed, ec, eb, ea]
    push_cast
    field_simp
  rw [hE]
  generalize 1 * (1 + a) * (1 + b) * (1 + c) * (1 + d) = K at h4
  have hT0 : 0 ≤ x / i := by positivity
  have hT1 : x / i ≤ 4 := by rw [div_le_iff₀ hi']; linarith
  generalize x / (i : ℝ) = T at hT0 hT1
  have hK : 0 ≤ K := by
    have := (abs_le.1 h4).1
    norm_num at this
    linarith
  refine ⟨?_, by positivity⟩
  have e : T * K - T = T * (K - 1) := by ring
  rw [e, abs_mul, abs_of_nonneg hT0]
  calc T * |K - 1| ≤ 4 * (0 + 5 / 4 * (1 / 2 ^ 53) + 5 / 4 * (1 / 2 ^ 53) + 5 / 4 * (1 / 2 ^ 53)
      + 5 / 4 * (1 / 2 ^ 53)) := mul_le_mul hT1 h4 (abs_nonneg _) (by norm_num)
    _ ≤ 1 / 2 ^ 48 := by norm_num

theorem pyInt_near {x : ℝ} {k : ℤ} (h0 : 0 ≤ k) (h : |x - (k + 1 / 2)| ≤ 1 / 4) : pyInt x = k := by
  obtain ⟨h1, h2⟩ := abs_le.1 h
  exact pyInt_eq h0 (by linarith) (by linarith)

/-- The argument of the truncations in the equatorial branch. -/
theorem equatorialF_near (F : DoubleLib) {n : ℤ} {tt z T Z : ℝ} (hn : 1 ≤ n) (hn1 : n ≤ 2 ^ 18)
    (ht : |tt - T| ≤ 1 / 2 ^ 48) (hz : |z - Z| ≤ 1 / 2 ^ 48) (hT0 : 0 ≤ T) (hT1 : T ≤ 4)
    (hZ : |Z| ≤ 1) :
    |F.fl (n * F.fl (F.fl (1 / 2 + tt) - F.fl (3 / 4 * z))) - n * (1 / 2 + T - 3 / 4 * Z)| ≤ 1 / 4 ∧
    |F.fl (n * F.fl (F.fl (1 / 2 + tt) + F.fl (3 / 4 * z))) - n * (1 / 2 + T + 3 / 4 * Z)| ≤ 1 / 4 := by
  have hf := F.nearest
  have hn0 : (1 : ℝ) ≤ n := by exact_mod_cast hn
  have hn2 : (n : ℝ) ≤ 2 ^ 18 := by exact_mod_cast hn1
  obtain ⟨z1, z2⟩ := abs_le.1 hZ
  have a : |F.fl (1 / 2 + tt) - (1 / 2 + T)| ≤ 1 / 2 ^ 48 + 8 / 2 ^ 53 :=
    fl_step hf (by rw [show 1 / 2 + tt - (1 / 2 + T) = tt - T by ring]; exact ht)
      (by rw [abs_of_nonneg (by linarith)]; norm_num; linarith)
  have b : |F.fl (3 / 4 * z) - 3 / 4 * Z| ≤ 1 / 2 ^ 48 + 8 / 2 ^ 53 :=
    fl_step hf (by
        rw [show 3 / 4 * z - 3 / 4 * Z = 3 / 4 * (z - Z) by ring, abs_mul,
          abs_of_pos (by norm_num : (0 : ℝ) < 3 / 4)]
        have := abs_nonneg (z - Z)
        linarith)
      (by rw [abs_mul, abs_of_pos (by norm_num : (0 : ℝ) < 3 / 4)]; norm_num; linarith)
  obtain ⟨a1, a2⟩ := abs_le.1 a
  obtain ⟨b1, b2⟩ := abs_le.1 b
  have fin : ∀ x C : ℝ, |x - C| ≤ 2 * (1 / 2 ^ 48 + 8 / 2 ^ 53) → |C| ≤ 7 →
      |F.fl (n * F.fl x) - n * C| ≤ 1 / 4 := by
    intro x C h1 h2
    have h3 := fl_step hf h1 (B := 8) (by norm_num at *; linarith)
    have h4 : |n * F.fl x - n * C| ≤ n * (2 * (1 / 2 ^ 48 + 8 / 2 ^ 53) + 8 / 2 ^ 53) := by
      rw [← mul_sub, abs_mul, abs_of_pos (by linarith : (0 : ℝ) < n)]
      exact mul_le_mul_of_nonneg_left h3 (by linarith)
    have h5 := fl_step hf h4 (B := 8 * n) (by
      rw [abs_mul, abs_of_pos (by linarith : (0 : ℝ) < n)]
      norm_num at *
      nlinarith)
    refine le_trans h5 ?_
    norm_num at *
    linarith
  constructor
  · refine fin _ _ ?_ ?_
    · rw [abs_le]; constructor <;> linarith
    · rw [abs_le]; constructor <;> linarith
  · refine fin _ _ ?_ ?_
    · rw [abs_le]; constructor <;> linarith
    · rw [abs_le]; constructor <;> linarith

/-- The equatorial branch in double precision near the centre of a pixel. -/
theorem equatorialF_lookup (F : DoubleLib) {n i p : ℤ} {z φ : ℝ} (hn : 1 ≤ n) (hn1 : n ≤ 2 ^ 18)
    (h1 : n ≤ i) (h2 : i ≤ 3 * n) (hp0 : 0 ≤ p) (hp1 : p < 4 * n)
    (hz : |z - (4 / 3 - 2 * (i : ℝ) / (3 * n))| ≤ 1 / 2 ^ 48)
    (ht : |F.fl (F.fl (2 * φ) / F.fl Real.pi) - (p + ((i - n + 1) % 2 : ℤ) / 2) / n| ≤ 1 / 2 ^ 48)
    (hb : |z| < F.fl (2 / 3)) :
    hp_zphi2pixF F n z φ = 2 * n * (n - 1) + 4 * n * (i - n) + p := by
  have hf := F.nearest
  have hn0 : (0 : ℝ) < n := by exact_mod_cast (by omega : 0 < n)
  obtain ⟨s, hs⟩ : ∃ s, s = (i - n + 1) % 2 := ⟨_, rfl⟩
  have hs01 : s = 0 ∨ s = 1 := by omega
  rw [← hs] at ht
  obtain ⟨j, hj⟩ : ∃ j, s + i - n - 1 = 2 * j := ⟨(s + i - n - 1) / 2, by omega⟩
  obtain ⟨k, hk⟩ : ∃ k, s + 3 * n - i - 1 = 2 * k := ⟨(s + 3 * n - i - 1) / 2, by omega⟩
  have hj' : (s : ℝ) + i - n - 1 = 2 * j := by exact_mod_cast hj
  have hk' : (s : ℝ) + 3 * n - i - 1 = 2 * k := by exact_mod_cast hk
  have h1' : (n : ℝ) ≤ i := by exact_mod_cast h1
  have h2' : (i : ℝ) ≤ 3 * n := by exact_mod_cast h2
  have hs0' : (0 : ℝ) ≤ s := by exact_mod_cast (by omega : 0 ≤ s)
  have hs1' : (s : ℝ) ≤ 1 := by exact_mod_cast (by omega : s ≤ 1)
  have hp0' : (0 : ℝ) ≤ p := by exact_mod_cast hp0
  have hp1' : (p : ℝ) + 1 ≤ 4 * n := by exact_mod_cast hp1
  have hT0 : 0 ≤ ((p : ℝ) + s / 2) / n := by positivity
  have hT1 : ((p : ℝ) + s / 2) / n ≤ 4 := by rw [div_le_iff₀ hn0]; linarith
  have hZ : |4 / 3 - 2 * (i : ℝ) / (3 * n)| ≤ 1 := by
    have e : 2 * (i : ℝ) / (3 * n) = 2 / 3 * (i / n) := by field_simp
    have a : 1 ≤ (i : ℝ) / n := by rw [le_div_iff₀ hn0]; linarith
    have b : (i : ℝ) / n ≤ 3 := by rw [div_le_iff₀ hn0]; linarith
    rw [e, abs_le]; constructor <;> linarith
  obtain ⟨e1, e2⟩ := equatorialF_near F hn hn1 ht hz hT0 hT1 hZ
  have c1 : (n : ℝ) * (1 / 2 + (p + (s : ℝ) / 2) / n - 3 / 4 * (4 / 3 - 2 * (i : ℝ) / (3 * n)))
      = ((p + j : ℤ) : ℝ) + 1 / 2 := by
    push_cast; field_simp; linarith
  have c2 : (n : ℝ) * (1 / 2 + (p + (s : ℝ) / 2) / n + 3 / 4 * (4 / 3 - 2 * (i : ℝ) / (3 * n)))
      = ((p + k : ℤ) : ℝ) + 1 / 2 := by
    push_cast; field_simp; linarith
  rw [c1] at e1
  rw [c2] at e2
  have d1 := pyInt_near (by omega) e1
  have d2 := pyInt_near (by omega) e2
  unfold hp_zphi2pixF
  simp only
  rw [if_pos hb, fl_int hf (k := n) (by rw [abs_of_pos (by omega)]; omega), d1, d2]
  have e3 : n + 1 + (p + j) - (p + k) = i - n + 1 := by omega
  rw [e3]
  have e4 : pyInt (F.fl (((p + j + (p + k) - n + (if (i - n + 1) % 2 = 0 then 1 else 0) + 1 : ℤ) : ℝ)
      / 2)) = p := by
    have : (p + j + (p + k) - n + (if (i - n + 1) % 2 = 0 then 1 else 0) + 1 : ℤ) = 2 * p + 1 := by
      split_ifs <;> omega
    rw [this, fl_of_double hf (isDouble_half (by rw [abs_of_pos (by omega)]; omega))]
    exact pyInt_eq hp0 (by push_cast; linarith) (by push_cast; linarith)
  rw [e4]
  ring

/-- A square root, given its argument up to an error. -/
theorem sqrt_near {w s η : ℝ} (hs : 0 < s) (hw : 0 ≤ w) (h : |w - s ^ 2| ≤ η) :
    |Real.sqrt w - s| ≤ η / s := by
  rw [le_div_iff₀ hs]
  have h0 := Real.sqrt_nonneg w
  have e : w - s ^ 2 = (Real.sqrt w - s) * (Real.sqrt w + s) := by
    have := Real.sq_sqrt hw
    nlinarith
  rw [e, abs_mul, abs_of_nonneg (by linarith : 0 ≤ Real.sqrt w + s)] at h
  nlinarith [abs_nonneg (Real.sqrt w - s)]

/-- The width of a polar triangle, in double precision. -/
theorem widthF_near (F : DoubleLib) {n i : ℤ} {za : ℝ} (hi : 1 ≤ i) (hin : i ≤ n)
    (hn1 : n ≤ 2 ^ 18) (hz : |za - (1 - (i : ℝ) ^ 2 / (3 * (n : ℝ) ^ 2))| ≤ 1 / 2 ^ 48) :
    |F.fl (Real.sqrt (F.fl (3 * F.fl (1 - za)))) - (i : ℝ) / n| ≤ 1 / 2 ^ 26 := by
  have hf := F.nearest
  have hi0 : (1 : ℝ) ≤ i := by exact_mod_cast hi
  have hn0 : (0 : ℝ) < n := by exact_mod_cast (by omega : 0 < n)
  have hin' : (i : ℝ) ≤ n := by exact_mod_cast hin
  have hn2 : (n : ℝ) ≤ 2 ^ 18 := by exact_mod_cast hn1
  obtain ⟨s, hs⟩ : ∃ s, s = (i : ℝ) / n := ⟨_, rfl⟩
  have hs1 : s ≤ 1 := by rw [hs, div_le_one hn0]; exact hin'
  have hs2 : 1 / 2 ^ 18 ≤ s := by
    rw [hs, div_le_div_iff₀ (by positivity) hn0]; nlinarith
  have hs0 : 0 < s := lt_of_lt_of_le (by positivity) hs2
  have e : (i : ℝ) ^ 2 / (3 * (n : ℝ) ^ 2) = s ^ 2 / 3 := by rw [hs]; field_simp
  rw [e] at hz
  rw [← hs]
  have hsq : s ^ 2 ≤ 1 := by nlinarith
  have hsq2 : 1 / 2 ^ 36 ≤ s ^ 2 := by
    calc (1 : ℝ) / 2 ^ 36 = (1 / 2 ^ 18) ^ 2 := by norm_num
      _ ≤ s ^ 2 := by gcongr
  have a : |F.fl (1 - za) - s ^ 2 / 3| ≤ 1 / 2 ^ 48 + 1 / 2 ^ 53 := by
    refine fl_step hf ?_ ?_
    · rw [show 1 - za - s ^ 2 / 3 = -(za - (1 - s ^ 2 / 3)) by ring, abs_neg]; exact hz
    · rw [abs_of_nonneg (by positivity)]; norm_num; linarith
  have b : |F.fl (3 * F.fl (1 - za)) - s ^ 2| ≤ 3 * (1 / 2 ^ 48 + 1 / 2 ^ 53) + 2 / 2 ^ 53 := by
    refine fl_step hf ?_ ?_
    · rw [show 3 * F.fl (1 - za) - s ^ 2 = 3 * (F.fl (1 - za) - s ^ 2 / 3) by ring, abs_mul,
        abs_of_pos (by norm_num : (0 : ℝ) < 3)]
      linarith
    · rw [abs_of_nonneg (by positivity)]; norm_num; linarith
  have c := sqrt_near hs0 (by
    have := (abs_le.1 b).1
    norm_num at *
    linarith) b
  have d : (3 * (1 / 2 ^ 48 + 1 / 2 ^ 53) + 2 / 2 ^ 53) / s ≤ 1 / 2 ^ 27 := by
    rw [div_le_iff₀ hs0]
    norm_num at *
    linarith
  have f := fl_step hf (le_trans c d) (B := 2) (by
    rw [abs_of_pos hs0]; norm_num; linarith)
  refine le_trans f ?_
  norm_num

/-- The argument of the truncations in the polar branch. -/
theorem polarF_arg (F : DoubleLib) {n i : ℤ} {d D w : ℝ} (hi : 1 ≤ i) (hin : i ≤ n)
    (hn1 : n ≤ 2 ^ 18) (hD0 : 0 ≤ D) (hD1 : D ≤ 1) (hd : |d - D| ≤ 1 / 2 ^ 46)
    (hw : |w - (i : ℝ) / n| ≤ 1 / 2 ^ 26) :
    |F.fl (F.fl (n * d) * w) - i * D| ≤ 1 / 4 := by
  have hf := F.nearest
  have hi0 : (1 : ℝ) ≤ i := by exact_mod_cast hi
  have hn0 : (0 : ℝ) < n := by exact_mod_cast (by omega : 0 < n)
  have hn3 : (1 : ℝ) ≤ n := by exact_mod_cast (by omega : 1 ≤ n)
  have hin' : (i : ℝ) ≤ n := by exact_mod_cast hin
  have hn2 : (n : ℝ) ≤ 2 ^ 18 := by exact_mod_cast hn1
  obtain ⟨s, hs⟩ : ∃ s, s = (i : ℝ) / n := ⟨_, rfl⟩
  rw [← hs] at hw
  have hs1 : s ≤ 1 := by rw [hs, div_le_one hn0]; exact hin'
  have hs0 : 0 < s := by rw [hs]; positivity
  have e : (i : ℝ) * D = n * D * s := by rw [hs]; field_simp
  rw [e]
  have a : |F.fl (n * d) - n * D| ≤ n * (1 / 2 ^ 46) + 2 * n / 2 ^ 53 := by
    refine fl_step hf ?_ ?_
    · rw [← mul_sub, abs_mul, abs_of_pos hn0]; gcongr
    · rw [abs_of_nonneg (by positivity)]; norm_num; nlinarith
  have hA : n * (1 / 2 ^ 46) + 2 * n / 2 ^ 53 ≤ (1 : ℝ) / 2 ^ 27 := by
    norm_num at *; linarith
  replace a := le_trans a hA
  generalize F.fl (n * d) = A at a
  have hnD0 : 0 ≤ n * D := by positivity
  have hnD : n * D ≤ n := by nlinarith
  have b : |A * w - n * D * s| ≤ 1 / 2 ^ 27 * 2 + n * (1 / 2 ^ 26) := by
    have e1 : A * w - n * D * s = (A - n * D) * w + n * D * (w - s) := by ring
    have hw2 : |w| ≤ 2 := by
      have := abs_sub_abs_le_abs_sub w s
      rw [abs_of_pos hs0] at this
      norm_num at *
      linarith
    rw [e1]
    refine le_trans (abs_add_le _ _) ?_
    rw [abs_mul, abs_mul, abs_of_nonneg hnD0]
    refine add_le_add (mul_le_mul a hw2 (abs_nonneg _) (by norm_num)) ?_
    exact mul_le_mul hnD hw (abs_nonneg _) hn0.le
  have c := fl_step hf b (B := 2 * n) (by
    rw [abs_of_nonneg (by positivity)]
    have : n * D * s ≤ n := by nlinarith
    norm_num at *
    linarith)
  refine le_trans c ?_
  norm_num at *
  linarith

/-- The polar branch in double precision near the centre of a pixel. -/
theorem polarF_lookup (F : DoubleLib) {n i p : ℤ} {z φ : ℝ} (hn1 : n ≤ 2 ^ 18) (h1 : 1 ≤ i)
    (h2 : i ≤ n) (hp0 : 0 ≤ p) (hp1 : p < 4 * i)
    (hz : |(|z|) - (1 - (i : ℝ) ^ 2 / (3 * (n : ℝ) ^ 2))| ≤ 1 / 2 ^ 48)
    (ht : |F.fl (F.fl (2 * φ) / F.fl Real.pi) - ((p : ℝ) + 1 / 2) / i| ≤ 1 / 2 ^ 48)
    (hb : ¬ |z| < F.fl (2 / 3)) :
    hp_zphi2pixF F n z φ
      = if z ≤ 0 then 12 * n ^ 2 - 2 * i * (i + 1) + p else 2 * i * (i - 1) + p := by
  have hf := F.nearest
  have hi0 : (1 : ℝ) ≤ i := by exact_mod_cast h1
  have hi : (0 : ℝ) < i := by linarith
  have hi18 : (i : ℝ) ≤ 2 ^ 18 := by exact_mod_cast le_trans h2 hn1
  have hw := widthF_near F h1 h2 hn1 hz
  unfold hp_zphi2pixF
  simp only
  rw [if_neg hb, fl_int hf (k := n) (by rw [abs_of_pos (by omega)]; omega)]
  generalize F.fl (F.fl (2 * φ) / F.fl Real.pi) = tt at ht
  have hdiv : (p : ℝ) = i * ((p / i : ℤ) : ℝ) + ((p % i : ℤ) : ℝ) := by
    exact_mod_cast (Int.mul_ediv_add_emod p i).symm
  have hr0 : 0 ≤ p % i := Int.emod_nonneg p (by omega)
  have hr1 : p % i < i := Int.emod_lt_of_pos p (by omega)
  have hq0 : 0 ≤ p / i := Int.ediv_nonneg hp0 (by omega)
  have hq3 : p / i < 4 := Int.ediv_lt_of_lt_mul (by omega) hp1
  have hr0' : (0 : ℝ) ≤ ((p % i : ℤ) : ℝ) := by exact_mod_cast hr0
  have hr1' : ((p % i : ℤ) : ℝ) + 1 ≤ i := by exact_mod_cast hr1
  have hp0' : (0 : ℝ) ≤ p := by exact_mod_cast hp0
  have hp1' : (p : ℝ) + 1 ≤ 4 * i := by exact_mod_cast hp1
  have hT : ((p : ℝ) + 1 / 2) / i = ((p / i : ℤ) : ℝ) + (((p % i : ℤ) : ℝ) + 1 / 2) / i := by
    field_simp
    linarith
  obtain ⟨D, hD⟩ : ∃ D, D = (((p % i : ℤ) : ℝ) + 1 / 2) / i := ⟨_, rfl⟩
  have hDi : (i : ℝ) * D = ((p % i : ℤ) : ℝ) + 1 / 2 := by rw [hD]; field_simp
  have hpD : (p : ℝ) + 1 / 2 = i * (((p / i : ℤ) : ℝ) + D) := by rw [mul_add, hDi]; linarith
  rw [hT, ← hD] at ht
  have hD1 : 1 / 2 ^ 19 ≤ D := by
    rw [hD, div_le_div_iff₀ (by positivity) hi]; nlinarith
  have hD2 : D ≤ 1 - 1 / 2 ^ 19 := by
    have : 1 - D = (i - ((p % i : ℤ) : ℝ) - 1 / 2) / i := by rw [hD]; field_simp; ring
    have h3 : 1 / 2 ^ 19 ≤ 1 - D := by
      rw [this, div_le_div_iff₀ (by positivity) hi]; nlinarith
    linarith
  obtain ⟨t1, t2⟩ := abs_le.1 ht
  have e0 : pyInt tt = p / i := pyInt_eq hq0 (by norm_num at *; linarith) (by norm_num at *; linarith)
  rw [e0, fl_int hf (k := p / i) (by rw [abs_of_nonneg hq0]; omega)]
  have htp : |F.fl (tt - ((p / i : ℤ) : ℝ)) - D| ≤ 1 / 2 ^ 48 + 2 / 2 ^ 53 := by
    refine fl_step hf ?_ ?_
    · rw [show tt - ((p / i : ℤ) : ℝ) - D = tt - (((p / i : ℤ) : ℝ) + D) by ring]; exact ht
    · rw [abs_of_nonneg (by norm_num at *; linarith)]; norm_num at *; linarith
  generalize F.fl (tt - ((p / i : ℤ) : ℝ)) = tp at htp
  have htq : |F.fl (1 - tp) - (1 - D)| ≤ 1 / 2 ^ 48 + 2 / 2 ^ 53 + 2 / 2 ^ 53 := by
    refine fl_step hf ?_ ?_
    · rw [show 1 - tp - (1 - D) = -(tp - D) by ring, abs_neg]; exact htp
    · rw [abs_of_nonneg (by norm_num at *; linarith)]; norm_num at *; linarith
  have a1 := polarF_arg F h1 h2 hn1 (by norm_num at *; linarith) (by norm_num at *; linarith)
    (le_trans htp (by norm_num)) hw
  have a2 := polarF_arg F h1 h2 hn1 (D := 1 - D) (by norm_num at *; linarith)
    (by norm_num at *; linarith) (le_trans htq (by norm_num)) hw
  rw [hDi] at a1
  have e1 := pyInt_near hr0 a1
  have e2 := pyInt_near (k := i - p % i - 1) (by omega)
    (by refine le_of_eq_of_le ?_ a2; congr 2; push_cast; linarith)
  rw [e1, e2, show p % i + (i - p % i - 1) + 1 = i by ring,
    fl_int hf (k := i) (by rw [abs_of_pos (by omega)]; omega)]
  have a3 : |tt * i - (p + 1 / 2)| ≤ i * (1 / 2 ^ 48) := by
    rw [hpD, show tt * i - i * (((p / i : ℤ) : ℝ) + D) = i * (tt - (((p / i : ℤ) : ℝ) + D)) by ring,
      abs_mul, abs_of_pos hi]
    gcongr
  have a4 := fl_step hf a3 (B := 5 * i) (by
    rw [abs_of_nonneg (by linarith)]; norm_num at *; linarith)
  have e3 : pyInt (F.fl (tt * i)) = p := pyInt_near hp0 (le_trans a4 (by norm_num at *; linarith))
  rw [e3, if_neg (show ¬ p + 1 > 4 * i by omega)]
  split_ifs <;> ring

/-- The height of a ring before the inverse cosine is taken. -/
theorem storedZF_near (F : DoubleLib) {n t : ℤ} (hn : 1 ≤ n) (hn1 : n ≤ 2 ^ 18) (ht0 : 0 ≤ t)
    (ht1 : t < 4 * n - 1) :
    ∃ zf, t2theta_healpixF F t n = F.arccos zf ∧ |zf - ringZ n t| ≤ 1 / 2 ^ 50 := by
  have hf := F.nearest
  have hn0 : (0 : ℝ) < n := by exact_mod_cast (by omega : 0 < n)
  have hn3 : (1 : ℝ) ≤ n := by exact_mod_cast hn
  have hn2 : (n : ℝ) ≤ 2 ^ 18 := by exact_mod_cast hn1
  unfold t2theta_healpixF
  refine ⟨_, rfl, ?_⟩
  have i3 : |3 * n ^ 2| ≤ 2 ^ 53 := by rw [abs_of_pos (by positivity)]; nlinarith
  have i1 : |t + 1| ≤ 2 ^ 53 := by rw [abs_of_pos (by omega)]; omega
  have f1 : F.fl ((t : ℝ) + 1) = (t : ℝ) + 1 := by
    have := fl_int hf i1
    push_cast at this; exact this
  split_ifs with h h' h''
  · have hz := ringZ_north (n := n) ht0 (by omega)
    have hb := polar_bound (n := n) (i := t + 1) (by omega) (by omega)
    have i2 : |(t + 1) ^ 2| ≤ 2 ^ 53 := by rw [abs_of_nonneg (by positivity)]; nlinarith
    have f2 : F.fl (((t : ℝ) + 1) ^ 2) = ((t : ℝ) + 1) ^ 2 := by
      have := fl_int hf i2
      push_cast at this; exact this
    rw [f1, f2, fl_int hf i3]
    push_cast at hb ⊢
    rw [hz]
    generalize ((t : ℝ) + 1) ^ 2 / (3 * (n : ℝ) ^ 2) = Q at hb
    have a := fl_step hf (x := Q) (a := Q) (e := 0) (B := 1) (by simp)
      (by rw [abs_of_pos hb.1]; linarith)
    have b := fl_step hf (x := 1 - F.fl Q) (a := 1 - Q) (e := 0 + 1 / 2 ^ 53) (B := 2)
      (by rw [show 1 - F.fl Q - (1 - Q) = -(F.fl Q - Q) by ring, abs_neg]; exact a)
      (by rw [abs_of_nonneg (by linarith)]; norm_num; linarith)
    refine le_trans b (by norm_num)
  · have hz := ringZ_mid (n := n) (t := t) (by omega) (by omega)
    have i2 : |2 * (t + 1)| ≤ 2 ^ 53 := by rw [abs_of_nonneg (by positivity)]; omega
    have i4 : |3 * n| ≤ 2 ^ 53 := by rw [abs_of_pos (by omega)]; omega
    have f2 : F.fl (2 * ((t : ℝ) + 1)) = 2 * ((t : ℝ) + 1) := by
      have := fl_int hf i2
      push_cast at this; exact this
    rw [f1, f2, fl_int hf i4]
    push_cast
    rw [hz]
    have hQ : 0 ≤ 2 * ((t : ℝ) + 1) / (3 * (n : ℝ)) ∧ 2 * ((t : ℝ) + 1) / (3 * (n : ℝ)) ≤ 2 := by
      have ht0' : (0 : ℝ) ≤ t := by exact_mod_cast ht0
      have ht3 : (t : ℝ) + 1 ≤ 3 * n := by exact_mod_cast (by omega : t + 1 ≤ 3 * n)
      refine ⟨by positivity, ?_⟩
      rw [div_le_iff₀ (by positivity)]; linarith
    generalize 2 * ((t : ℝ) + 1) / (3 * (n : ℝ)) = Q at hQ
    have a := fl_step hf (x := Q) (a := Q) (e := 0) (B := 2) (by simp)
      (by rw [abs_of_nonneg hQ.1]; linarith)
    have a' := fl_step hf (x := 4 / 3) (a := 4 / 3) (e := 0) (B := 2) (by simp)
      (by rw [abs_of_nonneg (by norm_num)]; norm_num)
    have b := fl_step hf (x := F.fl (4 / 3) - F.fl Q) (a := 4 / 3 - Q)
      (e := (0 + 2 / 2 ^ 53) + (0 + 2 / 2 ^ 53)) (B := 2)
      (by
        rw [show F.fl (4 / 3) - F.fl Q - (4 / 3 - Q) = (F.fl (4 / 3) - 4 / 3) - (F.fl Q - Q) by ring]
        exact le_trans (abs_sub _ _) (add_le_add a' a))
      (by
        have : |4 / 3 - Q| ≤ 4 / 3 := by rw [abs_le]; constructor <;> linarith
        norm_num at *; linarith)
    refine le_trans b (by norm_num)
  · have hz := ringZ_south (n := n) hn ht1 (by omega)
    have hb := polar_bound (n := n) (i := 4 * n - 1 - t) (by omega) (by omega)
    have i2 : |4 * n - 1| ≤ 2 ^ 53 := by rw [abs_of_nonneg (by omega)]; omega
    have i4 : |4 * n - 1 - t| ≤ 2 ^ 53 := by rw [abs_of_nonneg (by omega)]; omega
    have i5 : |(4 * n - 1 - t) ^ 2| ≤ 2 ^ 53 := by rw [abs_of_nonneg (by positivity)]; nlinarith
    have f2 : F.fl (((4 * n - 1 : ℤ) : ℝ) - t) = ((4 * n - 1 - t : ℤ) : ℝ) := by
      rw [← fl_int hf i4]; push_cast; rfl
    have f3 : F.fl (((4 * n - 1 - t : ℤ) : ℝ) ^ 2) = ((4 * n - 1 - t : ℤ) : ℝ) ^ 2 := by
      have := fl_int hf i5
      push_cast at this ⊢; exact this
    rw [fl_int hf i2, f2, f3, fl_int hf i3]
    rw [hz]
    have e3 : ((3 * n ^ 2 : ℤ) : ℝ) = 3 * (n : ℝ) ^ 2 := by push_cast; ring
    rw [e3]
    generalize ((4 * n - 1 - t : ℤ) : ℝ) ^ 2 / (3 * (n : ℝ) ^ 2) = Q at hb
    have a := fl_step hf (x := Q) (a := Q) (e := 0) (B := 1) (by simp)
      (by rw [abs_of_pos hb.1]; linarith)
    have b := fl_step hf (x := F.fl Q - 1) (a := -(1 - Q)) (e := 0 + 1 / 2 ^ 53) (B := 2)
      (by rw [show F.fl Q - 1 - -(1 - Q) = F.fl Q - Q by ring]; exact a)
      (by rw [abs_neg, abs_of_nonneg (by linarith)]; norm_num; linarith)
    refine le_trans b (by norm_num)
  · omega

/-- The stored height of a ring. -/
theorem ringZF_near (F : DoubleLib) {n t : ℤ} (hn : 1 ≤ n) (hn1 : n ≤ 2 ^ 18) (ht0 : 0 ≤ t)
    (ht1 : t < 4 * n - 1) : |F.cos (t2theta_healpixF F t n) - ringZ n t| ≤ 1 / 2 ^ 48 := by
  have hf := F.nearest
  have hn0 : (0 : ℝ) < n := by exact_mod_cast (by omega : 0 < n)
  have hn3 : (1 : ℝ) ≤ n := by exact_mod_cast hn
  have hn2 : (n : ℝ) ≤ 2 ^ 18 := by exact_mod_cast hn1
  have key : ∀ zf : ℝ, |zf - ringZ n t| ≤ 1 / 2 ^ 50 →
      |F.cos (F.arccos zf) - ringZ n t| ≤ 1 / 2 ^ 48 := by
    intro zf hzf
    have hgap : |ringZ n t| ≤ 1 - 1 / 2 ^ 38 := by
      have hg : ∀ i : ℤ, 1 ≤ i → 1 / 2 ^ 38 ≤ (i : ℝ) ^ 2 / (3 * (n : ℝ) ^ 2) := by
        intro i hi
        have hi' : (1 : ℝ) ≤ i := by exact_mod_cast hi
        rw [div_le_div_iff₀ (by positivity) (by positivity)]
        have : (n : ℝ) ^ 2 ≤ 2 ^ 36 := by
          calc (n : ℝ) ^ 2 ≤ (2 ^ 18) ^ 2 := by gcongr
            _ = 2 ^ 36 := by norm_num
        nlinarith
      rcases le_or_gt (t + 1) n with h | h
      · have hb := polar_bound (n := n) (i := t + 1) (by omega) h
        have hz := ringZ_north ht0 h
        have := hg (t + 1) (by omega)
        push_cast at this hb
        rw [hz, abs_of_nonneg (by linarith)]; linarith
      · rcases le_or_gt (3 * n) (t + 1) with h' | h'
        · have hb := polar_bound (n := n) (i := 4 * n - 1 - t) (by omega) (by omega)
          have hz := ringZ_south hn ht1 h'
          have := hg (4 * n - 1 - t) (by omega)
          rw [hz, abs_neg, abs_of_nonneg (by linarith)]; linarith
        · rw [ringZ_mid (by omega) (by omega)]
          have := mid_bound h h'
          norm_num at *
          linarith
    obtain ⟨g1, g2⟩ := abs_le.1 hgap
    obtain ⟨f1, f2⟩ := abs_le.1 hzf
    have hm : -1 ≤ zf := by norm_num at *; linarith
    have hM : zf ≤ 1 := by norm_num at *; linarith
    have h1 := F.cos_near (F.arccos zf)
    have h2 := F.arccos_near zf hm hM
    have h3 : |Real.cos (F.arccos zf) - zf| ≤ 1 / 2 ^ 50 := by
      have e : zf = Real.cos (Real.arccos zf) := (Real.cos_arccos hm hM).symm
      calc |Real.cos (F.arccos zf) - zf|
          = |Real.cos (F.arccos zf) - Real.cos (Real.arccos zf)| := by rw [← e]
        _ ≤ |F.arccos zf - Real.arccos zf| := Real.abs_cos_sub_cos_le _ _
        _ ≤ _ := h2
    obtain ⟨a1, a2⟩ := abs_le.1 h1
    obtain ⟨b1, b2⟩ := abs_le.1 h3
    rw [abs_le]
    constructor <;> (norm_num at *; linarith)
  obtain ⟨zf, h1, h2⟩ := storedZF_near F hn hn1 ht0 ht1
  rw [h1]
  exact key zf h2

/-- The azimuth of the centre of a pixel of the equatorial zone. -/
theorem midQuarterF (F : DoubleLib) {n t p : ℤ} (hn : 1 ≤ n) (hn1 : n ≤ 2 ^ 18) (h1 : n ≤ t + 1)
    (h2 : t + 1 ≤ 3 * n) (hp0 : 0 ≤ p) (hp1 : p < 4 * n) :
    |F.fl (F.fl (2 * p2phi_ringF F t p n) / F.fl Real.pi)
      - (p + ((t + 1 - n + 1) % 2 : ℤ) / 2) / n| ≤ 1 / 2 ^ 48 := by
  have hf := F.nearest
  obtain ⟨s, hs⟩ : ∃ s, s = (t + 1 - n + 1) % 2 := ⟨_, rfl⟩
  have hs01 : s = 0 ∨ s = 1 := by omega
  have e1 : F.fl (1 / 2 * (s : ℝ)) = (s : ℝ) / 2 := by
    rw [show 1 / 2 * (s : ℝ) = (s : ℝ) / 2 by ring]
    exact fl_of_double hf (isDouble_half (by rw [abs_of_nonneg (by omega)]; omega))
  have e2 : F.fl ((p : ℝ) + (s : ℝ) / 2) = (p : ℝ) + (s : ℝ) / 2 := by
    have := fl_of_double hf (isDouble_half (k := 2 * p + s) (by rw [abs_of_nonneg (by omega)]; omega))
    rw [show (p : ℝ) + (s : ℝ) / 2 = ((2 * p + s : ℤ) : ℝ) / 2 by push_cast; ring]
    exact this
  unfold p2phi_ringF
  simp only
  rw [if_pos ⟨by omega, by omega⟩, show t - n + 2 = t + 1 - n + 1 by ring, ← hs, e1, e2]
  have hs0' : (0 : ℝ) ≤ s := by exact_mod_cast (by omega : 0 ≤ s)
  have hs1' : (s : ℝ) ≤ 1 := by exact_mod_cast (by omega : s ≤ 1)
  have hp0' : (0 : ℝ) ≤ p := by exact_mod_cast hp0
  have hp1' : (p : ℝ) + 1 ≤ 4 * n := by exact_mod_cast hp1
  have hx : (p : ℝ) + (s : ℝ) / 2 = 0 ∨ 1 / 2 ≤ (p : ℝ) + (s : ℝ) / 2 := by
    rcases (show 2 * p + s = 0 ∨ 1 ≤ 2 * p + s by omega) with h | h
    · left
      have : 2 * (p : ℝ) + s = 0 := by exact_mod_cast h
      linarith
    · right
      have : 1 ≤ 2 * (p : ℝ) + s := by exact_mod_cast h
      linarith
  exact (quarterF_near F hn (by rw [abs_of_pos (by omega)]; omega) hx (by linarith)).1

/-- The azimuth of the centre of a pixel of a polar cap. -/
theorem polarQuarterF (F : DoubleLib) {n t p i : ℤ} (hn1 : n ≤ 2 ^ 18) (hi : 1 ≤ i)
    (hin : i ≤ n) (hit : i = t + 1 ∨ i = 4 * n - 1 - t) (hp0 : 0 ≤ p) (hp1 : p < 4 * i) :
    |F.fl (F.fl (2 * p2phi_ringF F t p n) / F.fl Real.pi) - ((p : ℝ) + 1 / 2) / i| ≤ 1 / 2 ^ 48 := by
  have hf := F.nearest
  have hi' : (0 : ℝ) < i := by exact_mod_cast (by omega : 0 < i)
  have hp0' : (0 : ℝ) ≤ p := by exact_mod_cast hp0
  have hp1' : (p : ℝ) + 1 ≤ 4 * i := by exact_mod_cast hp1
  have e2 : F.fl ((p : ℝ) + 1 / 2) = (p : ℝ) + 1 / 2 := by
    have := fl_of_double hf (isDouble_half (k := 2 * p + 1) (by rw [abs_of_nonneg (by omega)]; omega))
    rw [show (p : ℝ) + 1 / 2 = ((2 * p + 1 : ℤ) : ℝ) / 2 by push_cast; ring]
    exact this
  by_cases hmid : t + 1 ≥ n ∧ t + 1 ≤ 3 * n
  · have hin' : i = n := by omega
    subst hin'
    have h := midQuarterF F (t := t) (p := p) (by omega) hn1 hmid.1 hmid.2 hp0 hp1
    have : (t + 1 - i + 1) % 2 = 1 := by omega
    rw [this] at h
    push_cast at h; exact h
  · unfold p2phi_ringF
    simp only
    rw [if_neg hmid]
    have hq := (quarterF_near F hi (x := (p : ℝ) + 1 / 2) (by rw [abs_of_pos (by omega)]; omega)
      (Or.inr (by linarith)) (by linarith)).1
    split_ifs with h
    · rw [e2, show 2 * (4 * n - t - 1) = 2 * i by omega]; exact hq
    · rw [e2, show 2 * (t + 1) = 2 * i by omega]; exact hq

end S2fft
