import Verif.Model.Trapani
import Verif.Lemmas.Wigner

/-! # Trapani & Navaza recursion: identities at `π/2` and loop invariants -/

namespace S2fft
open Spec

/-- `d^l_{mn}(π/2)`. -/
noncomputable def Delta (l m n : ℤ) : ℝ := wignerd l m n (Real.pi / 2)

theorem Delta_outside (l m n : ℤ) (h : l < |m| ∨ l < |n|) : Delta l m n = 0 :=
  wignerd_outside _ _ _ _ h

theorem Delta_neg_left (l m n : ℤ) : Delta l (-m) n = (-1) ^ (l + n) * Delta l m n := by
  have := wignerd_pi_sub l m n (Real.pi / 2)
  rw [show Real.pi - Real.pi / 2 = Real.pi / 2 by ring] at this
  unfold Delta
  rw [this, ← mul_assoc, negOne_self, one_mul]

theorem Delta_transpose (l m n : ℤ) : Delta l m n = (-1) ^ (m + n) * Delta l n m :=
  wignerd_transpose _ _ _ _

theorem Delta_neg_right (l m n : ℤ) : Delta l m (-n) = (-1) ^ (l + m) * Delta l m n := by
  rw [Delta_transpose, Delta_neg_left, Delta_transpose l n m, ← mul_assoc, ← mul_assoc, negOne_mul,
    negOne_mul]
  congr 1
  exact negOne_congr ⟨m, by ring⟩

theorem sqrt_prod (a b : ℤ) (ha : 0 ≤ a) : √((a * b : ℤ) : ℝ) = √(a : ℝ) * √(b : ℝ) := by
  push_cast
  exact Real.sqrt_mul (by exact_mod_cast ha) _

theorem ladder_code (l m : ℤ) (h : m ≤ l) :
    √(((l - m) * (l + m + 1) : ℤ) : ℝ) = ladder l (m + 1) := by
  rw [sqrt_prod _ _ (by omega)]
  unfold ladder
  push_cast
  rw [mul_comm]
  congr 2
  · ring
  · ring

/-- The step from `m + 1`, `m + 2` down to `m`. -/
theorem Delta_down (l m n : ℤ) (hm : -l ≤ m + 1) (hm' : m + 1 < l) :
    Delta l m n = 2 * n / √(((l - m) * (l + m + 1) : ℤ) : ℝ) * Delta l (m + 1) n
      - √((((l - m - 1) * (l + m + 2) : ℤ) : ℝ) / ((l - m : ℤ) : ℝ) / ((l + m + 1 : ℤ) : ℝ)) *
        Delta l (m + 2) n := by
  by_cases hn : |n| ≤ l
  · have h3 := wignerd_three l (m + 1) n (Real.pi / 2) (by rw [abs_le]; omega) hn
    rw [Real.cos_pi_div_two, Real.sin_pi_div_two, show m + 1 + 1 = m + 2 by ring,
      show m + 1 - 1 = m by ring] at h3
    change ((n : ℝ) - ((m + 1 : ℤ) : ℝ) * 0) * Delta l (m + 1) n
      = 1 / 2 * (ladder l (m + 2) * Delta l (m + 2) n + ladder l (m + 1) * Delta l m n) at h3
    by_cases hb : m + 1 = -l
    · -- below the plane: `ladder = 0`
      have hz : Delta l m n = 0 := Delta_outside _ _ _ (Or.inl (by rw [lt_abs]; omega))
      have e1 : ladder l (m + 1) = 0 := by rw [hb, ladder_bot]
      rw [ladder_code l m (by omega), e1, hz, show l + m + 1 = 0 by omega]
      simp
    · have hp := ladder_pos l (m + 1) (by omega) (by omega)
      have e2 : √((((l - m - 1) * (l + m + 2) : ℤ) : ℝ) / ((l - m : ℤ) : ℝ) / ((l + m + 1 : ℤ) : ℝ))
          = ladder l (m + 2) / ladder l (m + 1) := by
        rw [div_div, ← Int.cast_mul, Real.sqrt_div (by
          exact_mod_cast mul_nonneg (by omega) (by omega)), ladder_code l m (by omega)]
        have := ladder_code l (m + 1) (by omega)
        rw [show l - (m + 1) = l - m - 1 by ring, show l + (m + 1) + 1 = l + m + 2 by ring,
          show m + 1 + 1 = m + 2 by ring] at this
        rw [this]
      rw [e2, ladder_code l m (by omega)]
      field_simp
      linear_combination (-2 : ℝ) * h3
  · rw [Delta_outside _ _ _ (Or.inr (by omega)), Delta_outside _ _ _ (Or.inr (by omega)),
      Delta_outside _ _ _ (Or.inr (by omega))]
    ring

/-- The first step down, from `m = l`. -/
theorem Delta_first (l n : ℤ) (hl : 1 ≤ l) :
    Delta l (l - 1) n
      = 2 * n / √(((l - (l - 1)) * (l + (l - 1) + 1) : ℤ) : ℝ) * Delta l (l - 1 + 1) n := by
  by_cases hn : |n| ≤ l
  · have h3 := wignerd_three l l n (Real.pi / 2) (by rw [abs_le]; omega) hn
    rw [Real.cos_pi_div_two, Real.sin_pi_div_two, ladder_top] at h3
    change ((n : ℝ) - (l : ℝ) * 0) * Delta l l n
      = 1 / 2 * (0 * _ + ladder l l * Delta l (l - 1) n) at h3
    have hp := ladder_pos l l (by omega) (by omega)
    rw [ladder_code l (l - 1) (by omega), show l - 1 + 1 = l by ring]
    field_simp
    linear_combination (-2 : ℝ) * h3
  · rw [Delta_outside _ _ _ (Or.inr (by omega)), Delta_outside _ _ _ (Or.inr (by omega))]
    ring

theorem Delta_top (l n : ℤ) (hn : |n| ≤ l) :
    Delta l l n = nrm (2 * l) (2 * l) / nrm (2 * l) (l + n) *
      ((-1) ^ (l - n) * (√2 / 2) ^ (2 * l).toNat) := by
  unfold Delta
  rw [wignerd_top l n _ hn, show Real.pi / 2 / 2 = Real.pi / 4 by ring, Real.cos_pi_div_four,
    Real.sin_pi_div_four, neg_pow]
  rw [abs_le] at hn
  rw [negOne_toNat (by omega), show (2 * l).toNat = (l + n).toNat + (l - n).toNat by omega, pow_add]
  ring

theorem fact_two_pred (z : ℤ) (h : 2 ≤ z) : fact z = z * (z - 1) * fact (z - 2) := by
  rw [fact_pred z (by omega), fact_pred (z - 1) (by omega), show z - 1 - 1 = z - 2 by ring]
  push_cast; ring

theorem nrm_top_ratio (l : ℤ) (hl : 1 ≤ l) :
    nrm (2 * l) (2 * l) = √((2 * l : ℝ) * (2 * l - 1)) * nrm (2 * (l - 1)) (2 * (l - 1)) := by
  have h1 : (1 : ℝ) ≤ l := by exact_mod_cast hl
  unfold nrm
  rw [← Real.sqrt_mul (by nlinarith), sub_self, sub_self, fact_two_pred (2 * l) (by omega),
    show 2 * (l - 1) = 2 * l - 2 by ring]
  congr 1
  push_cast; ring

/-- Equation (9) of Trapani & Navaza. -/
theorem Delta_eq9 (l : ℤ) (hl : 1 ≤ l) :
    Delta l l 0 = -√((2 * l - 1) / (2 * l)) * Delta (l - 1) (l - 1) 0 := by
  have h1 : (1 : ℝ) ≤ l := by exact_mod_cast hl
  rw [Delta_top l 0 (by rw [abs_zero]; omega), Delta_top (l - 1) 0 (by rw [abs_zero]; omega),
    nrm_top_ratio l hl, show (2 * l).toNat = (2 * (l - 1)).toNat + 2 by omega, pow_add,
    show (√(2 : ℝ) / 2) ^ 2 = 1 / 2 by rw [div_pow, Real.sq_sqrt (by norm_num)]; norm_num,
    show (-1 : ℝ) ^ (l - 0) = -(-1) ^ (l - 1 - 0) by
      rw [show l - 0 = l - 1 - 0 + 1 by ring, zpow_add_one₀ (by norm_num)]; ring]
  have hn : nrm (2 * l) (l + 0) = l * nrm (2 * (l - 1)) (l - 1 + 0) := by
    unfold nrm
    rw [show 2 * l - (l + 0) = l by ring, show 2 * (l - 1) - (l - 1 + 0) = l - 1 by ring,
      add_zero, add_zero, fact_pred l hl, Real.sqrt_mul_self (by
        have := fact_pos (l - 1); positivity), Real.sqrt_mul_self (fact_pos _).le]
  rw [hn]
  have hs : √((2 * l : ℝ) * (2 * l - 1)) = 2 * l * √((2 * l - 1) / (2 * l)) := by
    rw [show (2 * l : ℝ) * (2 * l - 1) = (2 * l) ^ 2 * ((2 * l - 1) / (2 * l)) by field_simp,
      Real.sqrt_mul (by positivity), Real.sqrt_sq (by linarith)]
  rw [hs]
  have h2 := nrm_ne (2 * (l - 1)) (l - 1 + 0)
  field_simp

/-- Equation (10) of Trapani & Navaza. -/
theorem Delta_eq10 (l n : ℤ) (hl : 1 ≤ l) (hn : 1 ≤ n) :
    Delta l l n = √((l : ℝ) / 2 * (2 * l - 1) / (l + n) / (l + n - 1)) *
      Delta (l - 1) (l - 1) (n - 1) := by
  by_cases hnl : n ≤ l
  · have h1 : (1 : ℝ) ≤ l := by exact_mod_cast hl
    have h2 : (1 : ℝ) ≤ n := by exact_mod_cast hn
    rw [Delta_top l n (by rw [abs_le]; omega), Delta_top (l - 1) (n - 1) (by rw [abs_le]; omega),
      nrm_top_ratio l hl, show (2 * l).toNat = (2 * (l - 1)).toNat + 2 by omega, pow_add,
      show (√(2 : ℝ) / 2) ^ 2 = 1 / 2 by rw [div_pow, Real.sq_sqrt (by norm_num)]; norm_num,
      show l - 1 - (n - 1) = l - n by ring]
    have hn' : nrm (2 * l) (l + n) = √(((l : ℝ) + n) * (l + n - 1)) *
        nrm (2 * (l - 1)) (l - 1 + (n - 1)) := by
      unfold nrm
      rw [← Real.sqrt_mul (by nlinarith), show 2 * l - (l + n) = l - n by ring,
        show 2 * (l - 1) - (l - 1 + (n - 1)) = l - n by ring, fact_two_pred (l + n) (by omega),
        show l - 1 + (n - 1) = l + n - 2 by ring]
      congr 1; push_cast; ring
    rw [hn']
    have hs : √((l : ℝ) / 2 * (2 * l - 1) / (l + n) / (l + n - 1))
        = √((2 * l : ℝ) * (2 * l - 1)) / √(((l : ℝ) + n) * (l + n - 1)) / 2 := by
      rw [div_div, Real.sqrt_div (by nlinarith),
        show (l : ℝ) / 2 * (2 * l - 1) = (2 * l : ℝ) * (2 * l - 1) / 2 ^ 2 by ring,
        Real.sqrt_div' _ (by norm_num : (0 : ℝ) ≤ 2 ^ 2),
        Real.sqrt_sq (by norm_num : (0 : ℝ) ≤ 2)]
      ring
    rw [hs]
    have h3 := nrm_ne (2 * (l - 1)) (l - 1 + (n - 1))
    have h4 : √(((l : ℝ) + n) * (l + n - 1)) ≠ 0 := by
      rw [Real.sqrt_ne_zero (by nlinarith)]; nlinarith
    field_simp
  · rw [Delta_outside _ _ _ (Or.inr (by rw [lt_abs]; omega)),
      Delta_outside _ _ _ (Or.inr (by rw [lt_abs]; omega)), mul_zero]

end S2fft
