import Verif.Model.GridDouble
import Verif.Lemmas.Double
import Verif.Lemmas.Grid
import Mathlib.Analysis.Real.Pi.Bounds
import Mathlib.Tactic

/-! # The sample angles in double precision: helper lemmas -/

namespace S2fft
open Spec

/-- Rounding a number close to a double that has exactly 53 digits. -/
theorem fl_eq_of_close {fl : ℝ → ℝ} (hf : RoundsToNearest fl) {x : ℝ} {j k : ℤ} (hj : 2 ^ 52 < j)
    (hj' : j ≤ 2 ^ 53) (hk : -1074 ≤ k) (h : |x - j * (2 : ℝ) ^ k| < (2 : ℝ) ^ k / 2) :
    fl x = j * (2 : ℝ) ^ k := by
  have hq : (0 : ℝ) < (2 : ℝ) ^ k := by positivity
  have hd : IsDouble (j * (2 : ℝ) ^ k) :=
    ⟨j, k, by rw [abs_of_pos (by omega)]; exact hj', hk, rfl⟩
  obtain ⟨⟨m, e, hm, he, hme⟩, hn⟩ := hf x
  have h1 := hn _ hd
  have h2 : |fl x - j * (2 : ℝ) ^ k| < (2 : ℝ) ^ k := by
    have e1 : fl x - j * (2 : ℝ) ^ k = (x - j * (2 : ℝ) ^ k) - (x - fl x) := by ring
    rw [e1]
    exact lt_of_le_of_lt (abs_sub _ _) (by linarith)
  by_cases hek : k ≤ e
  · obtain ⟨i, rfl⟩ : ∃ i : ℕ, e = k + i := ⟨(e - k).toNat, by omega⟩
    have e2 : fl x = ((m * 2 ^ i : ℤ) : ℝ) * (2 : ℝ) ^ k := by
      rw [hme, zpow_add₀ (by norm_num), zpow_natCast]; push_cast; ring
    rw [e2, ← sub_mul, abs_mul, abs_of_pos hq] at h2
    have h3 : |((m * 2 ^ i : ℤ) : ℝ) - j| < 1 := by
      by_contra hc
      push Not at hc
      nlinarith
    have h4 : |m * 2 ^ i - j| < 1 := by exact_mod_cast h3
    have h5 : m * 2 ^ i = j := by have := Int.abs_lt_one_iff.1 h4; omega
    rw [e2, h5]
  · exfalso
    have h3 : (2 : ℝ) ^ e ≤ (2 : ℝ) ^ (k - 1) := zpow_le_zpow_right₀ (by norm_num) (by omega)
    have h4 : (2 : ℝ) ^ (k - 1) = (2 : ℝ) ^ k / 2 := by rw [zpow_sub₀ (by norm_num)]; norm_num
    have hm' : (m : ℝ) ≤ 2 ^ 53 := by exact_mod_cast le_trans (le_abs_self _) hm
    have hj1 : (2 : ℝ) ^ 52 + 1 ≤ j := by exact_mod_cast hj
    have h5 : fl x ≤ 2 ^ 53 * ((2 : ℝ) ^ k / 2) := by
      rw [hme, ← h4]
      have : (0 : ℝ) < (2 : ℝ) ^ e := by positivity
      calc (m : ℝ) * (2 : ℝ) ^ e ≤ 2 ^ 53 * (2 : ℝ) ^ e := by gcongr
        _ ≤ _ := by gcongr
    have h6 := (abs_lt.1 h2).1
    have h7 : ((2 : ℝ) ^ 52 + 1) * (2 : ℝ) ^ k ≤ j * (2 : ℝ) ^ k := by gcongr
    norm_num at h5 h7
    linarith

/-- `np.pi`. -/
theorem flPi_eq (F : DoubleLib) : F.fl Real.pi = 7074237752028440 / 2 ^ 51 := by
  have h := fl_eq_of_close F.nearest (x := Real.pi) (j := 7074237752028440) (k := -51) (by norm_num)
    (by norm_num) (by norm_num) (by
      have h1 := Real.pi_gt_d20
      have h2 := Real.pi_lt_d20
      rw [abs_lt]
      constructor <;> (norm_num; norm_num at h1 h2; linarith))
  rw [h]; norm_num

/-- A multiple of `π` divided by an integer. -/
theorem ratioF_rel (F : DoubleLib) {a b : ℤ} (ha : 0 ≤ a) (ha' : a ≤ 2 ^ 53) (hb : 1 ≤ b)
    (hb' : b ≤ 2 ^ 53) :
    |F.fl (F.fl (a * F.fl Real.pi) / b) - a * Real.pi / b| ≤ a * Real.pi / b / 2 ^ 51 := by
  have hf := F.nearest
  have hb0 : (1 : ℝ) ≤ b := by exact_mod_cast hb
  have hb1 : (b : ℝ) ≤ 2 ^ 53 := by exact_mod_cast hb'
  rcases (by omega : a = 0 ∨ 1 ≤ a) with rfl | ha1
  · simp [fl_zero hf]
  have ha0 : (1 : ℝ) ≤ a := by exact_mod_cast ha1
  have hpi := Real.two_le_pi
  obtain ⟨x, hx, ex, lx⟩ := fl_rel_pos hf (x := Real.pi) (c := 2) hpi (by norm_num)
  obtain ⟨y, hy, ey, ly⟩ := fl_rel_pos hf (x := a * F.fl Real.pi) (c := 1) (by nlinarith) (by norm_num)
  obtain ⟨z, hz, ez, -⟩ := fl_rel_pos hf (x := F.fl (a * F.fl Real.pi) / b) (c := 1 / 2 ^ 54) (by
    rw [div_le_div_iff₀ (by positivity) (by linarith)]
    norm_num at *; linarith) (by norm_num)
  have h1 := rel_step (X := 1) (e := 0) (by simp) (by norm_num) hx
  have h2 := rel_step h1 (by norm_num) hy
  have h3 := rel_step h2 (by norm_num) hz
  rw [ez, ey, ex]
  have e : a * (Real.pi * (1 + x)) * (1 + y) / b * (1 + z) - a * Real.pi / b
      = a * Real.pi / b * (1 * (1 + x) * (1 + y) * (1 + z) - 1) := by ring
  have hp : (0 : ℝ) ≤ a * Real.pi / b := by positivity
  rw [e, abs_mul, abs_of_nonneg hp]
  calc a * Real.pi / b * _ ≤ a * Real.pi / b * (1 / 2 ^ 51) := by
        gcongr; exact le_trans h3 (by norm_num)
    _ = _ := by ring

/-- Numbers known to a relative error keep their order if they are far enough apart. -/
theorem rel_lt {a b c x y : ℝ} (hc : 0 < c) (ha : 0 ≤ a) (hab : a + 1 / 2 ≤ b) (hb : b ≤ 2 ^ 46)
    (hx : |x - a * c| ≤ a * c / 2 ^ 51) (hy : |y - b * c| ≤ b * c / 2 ^ 51) : x < y := by
  have h1 := (abs_le.1 hx).2
  have h2 := (abs_le.1 hy).1
  have h3 : a * c / 2 ^ 51 ≤ c / 2 ^ 5 := by
    rw [div_le_div_iff₀ (by positivity) (by positivity)]; nlinarith
  have h4 : b * c / 2 ^ 51 ≤ c / 2 ^ 5 := by
    rw [div_le_div_iff₀ (by positivity) (by positivity)]; nlinarith
  have h5 : a * c + c / 2 ≤ b * c := by nlinarith
  norm_num at h3 h4
  linarith

/-! ## Colatitudes -/

theorem t2thetaF_mw (F : DoubleLib) {t L : ℤ} {s : PyStr} {nside : Option ℤ} (hs : lower s = sMW)
    (hL : 1 ≤ L) (hL1 : L ≤ 2 ^ 40) (h0 : 0 ≤ t) (h1 : t ≤ 2 ^ 42) :
    t2thetaF F t (some L) s nside
      = .ok (F.fl (F.fl ((2 * t + 1 : ℤ) * F.fl Real.pi) / (2 * L - 1 : ℤ))) := by
  have hf := F.nearest
  have a1 : F.fl (t : ℝ) = t := fl_int hf (by rw [abs_of_nonneg h0]; omega)
  have a2 : F.fl (2 * (t : ℝ)) = 2 * t := by
    have := fl_int hf (k := 2 * t) (by rw [abs_of_nonneg (by omega)]; omega)
    push_cast at this; exact this
  have a3 : F.fl (2 * (t : ℝ) + 1) = (2 * t + 1 : ℤ) := by
    rw [← fl_int hf (k := 2 * t + 1) (by rw [abs_of_nonneg (by omega)]; omega)]; push_cast; rfl
  have a4 := fl_int hf (k := 2 * L - 1) (by rw [abs_of_nonneg (by omega)]; omega)
  unfold t2thetaF
  rw [if_neg (by rw [hs]; decide)]
  simp only
  rw [if_pos hs, a1, a2, a3, a4]

theorem t2thetaF_mwss (F : DoubleLib) {t L : ℤ} {s : PyStr} {nside : Option ℤ} (hs : lower s = sMWSS)
    (hL : 1 ≤ L) (hL1 : L ≤ 2 ^ 40) (h0 : 0 ≤ t) (h1 : t ≤ 2 ^ 42) :
    t2thetaF F t (some L) s nside
      = .ok (F.fl (F.fl ((2 * t : ℤ) * F.fl Real.pi) / (2 * L : ℤ))) := by
  have hf := F.nearest
  have a1 : F.fl (t : ℝ) = t := fl_int hf (by rw [abs_of_nonneg h0]; omega)
  have a2 : F.fl (2 * (t : ℝ)) = (2 * t : ℤ) := by
    rw [← fl_int hf (k := 2 * t) (by rw [abs_of_nonneg (by omega)]; omega)]; push_cast; rfl
  have a4 := fl_int hf (k := 2 * L) (by rw [abs_of_nonneg (by omega)]; omega)
  unfold t2thetaF
  rw [if_neg (by rw [hs]; decide)]
  simp only
  rw [if_neg (by rw [hs]; decide), if_pos hs, a1, a2, a4]

theorem t2thetaF_dh (F : DoubleLib) {t L : ℤ} {s : PyStr} {nside : Option ℤ} (hs : lower s = sDH)
    (hL : 1 ≤ L) (hL1 : L ≤ 2 ^ 40) (h0 : 0 ≤ t) (h1 : t ≤ 2 ^ 42) :
    t2thetaF F t (some L) s nside
      = .ok (F.fl (F.fl ((2 * t + 1 : ℤ) * F.fl Real.pi) / (4 * L : ℤ))) := by
  have hf := F.nearest
  have a1 : F.fl (t : ℝ) = t := fl_int hf (by rw [abs_of_nonneg h0]; omega)
  have a2 : F.fl (2 * (t : ℝ)) = 2 * t := by
    have := fl_int hf (k := 2 * t) (by rw [abs_of_nonneg (by omega)]; omega)
    push_cast at this; exact this
  have a3 : F.fl (2 * (t : ℝ) + 1) = (2 * t + 1 : ℤ) := by
    rw [← fl_int hf (k := 2 * t + 1) (by rw [abs_of_nonneg (by omega)]; omega)]; push_cast; rfl
  have a4 := fl_int hf (k := 4 * L) (by rw [abs_of_nonneg (by omega)]; omega)
  unfold t2thetaF
  rw [if_neg (by rw [hs]; decide)]
  simp only
  rw [if_neg (by rw [hs]; decide), if_neg (by rw [hs]; decide), if_pos hs, a1, a2, a3, a4]

/-- The colatitude of an equiangular ring is `thNum π / thDen`. -/
def thNum (t : ℤ) : Scheme → ℤ
  | .mwss => 2 * t
  | _ => 2 * t + 1

/-- See `thNum`. -/
def thDen (L : ℤ) : Scheme → ℤ
  | .mw => 2 * L - 1
  | .mwss => 2 * L
  | _ => 4 * L

theorem theta_ratio (nodes : ℤ → ℤ → ℝ) {σ : Scheme} (hσ : σ = .mw ∨ σ = .mwss ∨ σ = .dh)
    (L nside t : ℤ) :
    σ.theta nodes L nside t = thNum t σ * Real.pi / thDen L σ := by
  rcases hσ with rfl | rfl | rfl
  · simp only [Scheme.theta, thNum, thDen]; push_cast; ring
  · simp only [Scheme.theta, thNum, thDen]; push_cast
    rw [mul_assoc, mul_div_mul_left _ _ (by norm_num : (2 : ℝ) ≠ 0)]
  · simp only [Scheme.theta, thNum, thDen]; push_cast; ring

theorem t2thetaF_eq (F : DoubleLib) {σ : Scheme} (hσ : σ = .mw ∨ σ = .mwss ∨ σ = .dh) {s : PyStr}
    (hs : lower s = σ.name) {t L : ℤ} {nside : Option ℤ} (hL : 1 ≤ L) (hL1 : L ≤ 2 ^ 40) (h0 : 0 ≤ t)
    (h1 : t ≤ 2 ^ 42) :
    t2thetaF F t (some L) s nside
      = .ok (F.fl (F.fl (thNum t σ * F.fl Real.pi) / thDen L σ)) := by
  rcases hσ with rfl | rfl | rfl
  · exact t2thetaF_mw F hs hL hL1 h0 h1
  · exact t2thetaF_mwss F hs hL hL1 h0 h1
  · exact t2thetaF_dh F hs hL hL1 h0 h1

/-- The stored colatitudes. -/
theorem thetasF_eq (F : DoubleLib) (lg : ℤ → ℤ → ℝ) {σ : Scheme}
    (hσ : σ = .mw ∨ σ = .mwss ∨ σ = .dh) {s : PyStr} (hs : lower s = σ.name) {L n0 : ℤ}
    {nside : Option ℤ} (hL : 1 ≤ L) (hL1 : L ≤ 2 ^ 40) :
    ∃ T, thetasF F lg (some L) s nside = .ok (σ.rings L n0, T) ∧ ∀ t, 0 ≤ t → t ≤ 2 ^ 42 →
      T t = F.fl (F.fl (thNum t σ * F.fl Real.pi) / thDen L σ) := by
  refine ⟨fun t => match t2thetaF F t (some L) s nside with
      | .ok θ => θ
      | .error _ => 0, ?_, ?_⟩
  · have hn : ntheta (some L) s nside = .ok (σ.rings L n0) := by
      unfold ntheta
      rcases hσ with rfl | rfl | rfl
      · rw [name_mw] at hs; simp [hs, Scheme.rings, show ¬ sMW = sHP by decide]
      · rw [name_mwss] at hs
        simp [hs, Scheme.rings, show ¬ sMWSS = sHP by decide, show ¬ sMWSS = sMW by decide,
          show ¬ sMWSS = sGL by decide]
      · rw [name_dh] at hs
        simp [hs, Scheme.rings, show ¬ sDH = sHP by decide, show ¬ sDH = sMW by decide,
          show ¬ sDH = sMWSS by decide, show ¬ sDH = sGL by decide]
    have hg : ¬ lower s = sGL := by
      rcases hσ with rfl | rfl | rfl <;> (rw [hs]; decide)
    unfold thetasF
    rw [if_neg hg, hn, t2thetaF_eq F hσ hs hL hL1 le_rfl (by norm_num)]
    rfl
  · intro t h0 h1
    simp only [t2thetaF_eq F hσ hs (nside := nside) hL hL1 h0 h1]

theorem thNum_bounds {σ : Scheme} (hσ : σ = .mw ∨ σ = .mwss ∨ σ = .dh) {t L n0 : ℤ} (hL1 : L ≤ 2 ^ 40)
    (h0 : 0 ≤ t) (h1 : t < σ.rings L n0) :
    0 ≤ thNum t σ ∧ thNum t σ ≤ 2 ^ 43 ∧ thNum t σ ≤ thDen L σ ∧ t ≤ 2 ^ 42 ∧
      (σ = .dh ∨ t < σ.rings L n0 - 1 → thNum t σ < thDen L σ) := by
  rcases hσ with rfl | rfl | rfl <;> simp only [Scheme.rings] at h1 <;>
    simp only [thNum, thDen, Scheme.rings] <;> simp <;> omega

theorem thDen_bounds {σ : Scheme} (hσ : σ = .mw ∨ σ = .mwss ∨ σ = .dh) {L : ℤ} (hL : 1 ≤ L)
    (hL1 : L ≤ 2 ^ 40) : 1 ≤ thDen L σ ∧ thDen L σ ≤ 2 ^ 42 := by
  rcases hσ with rfl | rfl | rfl <;> simp only [thDen] <;> omega

theorem thNum_lt {t u : ℤ} (σ : Scheme) (h : t < u) : thNum t σ + 1 ≤ thNum u σ := by
  cases σ <;> simp only [thNum] <;> omega

/-! ## HEALPix -/

theorem ringZ_gap {n t : ℤ} (hn : 1 ≤ n) (h0 : 0 ≤ t) (h1 : t + 1 < 4 * n - 1) :
    1 / (2 * (n : ℝ) ^ 2) ≤ ringZ n t - ringZ n (t + 1) := by
  have hnr : (1 : ℝ) ≤ n := by exact_mod_cast hn
  have ht : (0 : ℝ) ≤ t := by exact_mod_cast h0
  rcases lt_or_ge (t + 1) n with h | h
  · rw [ringZ_north h0 (by omega), ringZ_north (by omega) (by omega)]
    push_cast
    have e : 1 - ((t : ℝ) + 1) ^ 2 / (3 * (n : ℝ) ^ 2) - (1 - ((t : ℝ) + 1 + 1) ^ 2 / (3 * (n : ℝ) ^ 2))
        = (2 * t + 3) / (3 * (n : ℝ) ^ 2) := by field_simp; ring
    rw [e, div_le_div_iff₀ (by positivity) (by positivity)]
    nlinarith [sq_nonneg (n : ℝ), mul_nonneg ht (sq_nonneg (n : ℝ))]
  · rcases lt_or_ge (t + 1) (3 * n) with h' | h'
    · rw [ringZ_mid (by omega) (by omega), ringZ_mid (by omega) (by omega)]
      push_cast
      have e : 4 / 3 - 2 * ((t : ℝ) + 1) / (3 * (n : ℝ)) - (4 / 3 - 2 * ((t : ℝ) + 1 + 1) / (3 * (n : ℝ)))
          = 2 / (3 * (n : ℝ)) := by field_simp; ring
      rw [e, div_le_div_iff₀ (by positivity) (by positivity)]
      nlinarith
    · rw [ringZ_south hn (by omega) (by omega), ringZ_south hn (by omega) (by omega)]
      have h2 : (t : ℝ) + 3 ≤ 4 * n := by exact_mod_cast (by omega : t + 3 ≤ 4 * n)
      push_cast
      have e : -(1 - (4 * (n : ℝ) - 1 - t) ^ 2 / (3 * (n : ℝ) ^ 2))
            - -(1 - (4 * (n : ℝ) - 1 - (t + 1)) ^ 2 / (3 * (n : ℝ) ^ 2))
          = (2 * (4 * n - 1 - t) - 1) / (3 * (n : ℝ) ^ 2) := by field_simp; ring
      rw [e, div_le_div_iff₀ (by positivity) (by positivity)]
      nlinarith [mul_nonneg (show (0 : ℝ) ≤ 4 * n - 3 - t by linarith) (sq_nonneg (n : ℝ)),
        sq_nonneg (n : ℝ)]

theorem ringZ_cap {n t : ℤ} (hn : 1 ≤ n) (h0 : 0 ≤ t) (h1 : t < 4 * n - 1) :
    |ringZ n t| ≤ 1 - 1 / (3 * (n : ℝ) ^ 2) := by
  have hn0 : (1 : ℝ) ≤ n := by exact_mod_cast hn
  have hg : ∀ i : ℤ, 1 ≤ i → 1 / (3 * (n : ℝ) ^ 2) ≤ (i : ℝ) ^ 2 / (3 * (n : ℝ) ^ 2) := by
    intro i hi
    have hi' : (1 : ℝ) ≤ i := by exact_mod_cast hi
    gcongr
    nlinarith
  rcases le_or_gt (t + 1) n with h | h
  · have hb := polar_bound (n := n) (i := t + 1) (by omega) h
    have hz := ringZ_north h0 h
    have := hg (t + 1) (by omega)
    push_cast at this hb
    rw [hz, abs_of_nonneg (by linarith)]; linarith
  · rcases le_or_gt (3 * n) (t + 1) with h' | h'
    · have hb := polar_bound (n := n) (i := 4 * n - 1 - t) (by omega) (by omega)
      have hz := ringZ_south hn h1 h'
      have := hg (4 * n - 1 - t) (by omega)
      rw [hz, abs_neg, abs_of_nonneg (by linarith)]; linarith
    · rw [ringZ_mid (by omega) (by omega)]
      have := mid_bound h h'
      have h3 : 1 / (3 * (n : ℝ) ^ 2) ≤ 1 / 3 := by
        rw [div_le_div_iff₀ (by positivity) (by norm_num)]; nlinarith
      linarith

/-- The inverse cosine is expanding. -/
theorem arccos_expand {a b : ℝ} (ha : -1 ≤ a) (hab : a ≤ b) (hb : b ≤ 1) :
    b - a ≤ Real.arccos a - Real.arccos b := by
  have h := Real.abs_cos_sub_cos_le (Real.arccos b) (Real.arccos a)
  rw [Real.cos_arccos (by linarith) hb, Real.cos_arccos ha (by linarith),
    abs_of_nonneg (by linarith), abs_sub_comm,
    abs_of_nonneg (sub_nonneg.2 (Real.arccos_le_arccos hab))] at h
  exact h

/-- The inverse cosine away from the poles. -/
theorem arccos_lipschitz {a b c : ℝ} (hc : 0 < c) (hc1 : c ≤ 1) (ha : |a| ≤ 1 - c ^ 2)
    (hb : |b| ≤ 1 - c ^ 2) : |Real.arccos a - Real.arccos b| ≤ 2 / c * |a - b| := by
  wlog hab : a ≤ b generalizing a b
  · rw [abs_sub_comm, abs_sub_comm a]; exact this hb ha (by linarith)
  have a1 := abs_le.1 ha
  have b1 := abs_le.1 hb
  have hc2 : 0 < c ^ 2 := by positivity
  have ha' : -1 ≤ a ∧ a ≤ 1 := ⟨by linarith, by linarith⟩
  have hb' : -1 ≤ b ∧ b ≤ 1 := ⟨by linarith, by linarith⟩
  obtain ⟨x, hx⟩ : ∃ x, x = Real.arccos a := ⟨_, rfl⟩
  obtain ⟨y, hy⟩ : ∃ y, y = Real.arccos b := ⟨_, rfl⟩
  have hx0 : 0 ≤ x ∧ x ≤ Real.pi := hx ▸ ⟨Real.arccos_nonneg _, Real.arccos_le_pi _⟩
  have hy0 : 0 ≤ y ∧ y ≤ Real.pi := hy ▸ ⟨Real.arccos_nonneg _, Real.arccos_le_pi _⟩
  have ca : Real.cos x = a := by rw [hx, Real.cos_arccos ha'.1 ha'.2]
  have cb : Real.cos y = b := by rw [hy, Real.cos_arccos hb'.1 hb'.2]
  have hyx : y ≤ x := by rw [hx, hy]; exact Real.arccos_le_arccos hab
  have sin_ge : ∀ w, 0 ≤ w → w ≤ Real.pi → |Real.cos w| ≤ 1 - c ^ 2 → c ≤ Real.sin w := by
    intro w w0 w1 hw
    have s0 := Real.sin_nonneg_of_nonneg_of_le_pi w0 w1
    have sq := Real.sin_sq_add_cos_sq w
    have : Real.cos w ^ 2 ≤ (1 - c ^ 2) ^ 2 := sq_le_sq' (by linarith [(abs_le.1 hw).1]) (abs_le.1 hw).2
    by_contra hcon
    push Not at hcon
    have h2 : Real.sin w ^ 2 < c ^ 2 := by nlinarith
    nlinarith
  have sx := sin_ge x hx0.1 hx0.2 (by rw [ca]; exact ha)
  have sy := sin_ge y hy0.1 hy0.2 (by rw [cb]; exact hb)
  -- `sin` of the middle is at least the smaller of the two
  have hmid : c ≤ Real.sin ((x + y) / 2) := by
    have hxi : x ∈ Set.Icc 0 Real.pi := ⟨hx0.1, hx0.2⟩
    have hyi : y ∈ Set.Icc 0 Real.pi := ⟨hy0.1, hy0.2⟩
    have hcv := strictConcaveOn_sin_Icc.concaveOn.2 hxi hyi (by norm_num : (0 : ℝ) ≤ 1 / 2)
      (by norm_num : (0 : ℝ) ≤ 1 / 2) (by norm_num)
    simp only [smul_eq_mul] at hcv
    rw [show 1 / 2 * x + 1 / 2 * y = (x + y) / 2 by ring] at hcv
    linarith
  have hj := Real.mul_le_sin (x := (x - y) / 2) (by linarith) (by linarith)
  have hcc := Real.cos_sub_cos y x
  rw [ca, cb] at hcc
  have e1 : Real.sin ((y - x) / 2) = -Real.sin ((x - y) / 2) := by
    rw [← Real.sin_neg]; congr 1; ring
  rw [e1, add_comm y x] at hcc
  have hpi := Real.pi_le_four
  have hpp := Real.pi_pos
  have hj2 : (x - y) / 4 ≤ Real.sin ((x - y) / 2) := by
    refine le_trans ?_ hj
    rw [show 2 / Real.pi * ((x - y) / 2) = (x - y) / Real.pi by field_simp]
    exact div_le_div_of_nonneg_left (by linarith) hpp hpi
  rw [← hx, ← hy, abs_of_nonneg (by linarith), abs_sub_comm, abs_of_nonneg (by linarith), hcc,
    div_mul_eq_mul_div, le_div_iff₀ hc]
  have hs0 : 0 ≤ Real.sin ((x - y) / 2) := by linarith
  nlinarith [mul_le_mul hmid hj2 (by linarith) (by linarith)]

/-- The stored colatitude of a ring. -/
theorem ringThetaF_near (F : DoubleLib) {n t : ℤ} (hn : 1 ≤ n) (hn1 : n ≤ 2 ^ 18) (h0 : 0 ≤ t)
    (h1 : t < 4 * n - 1) :
    |t2theta_healpixF F t n - Real.arccos (Scheme.healpixZ n t)| ≤ n / 2 ^ 47 := by
  obtain ⟨z, hz, hz1⟩ := storedZF_near F hn hn1 h0 h1
  have hn0 : (1 : ℝ) ≤ n := by exact_mod_cast hn
  have hn2 : (n : ℝ) ≤ 2 ^ 18 := by exact_mod_cast hn1
  have hcap := ringZ_cap hn h0 h1
  have hsq : (n : ℝ) ^ 2 ≤ 2 ^ 36 := by
    calc (n : ℝ) ^ 2 ≤ (2 ^ 18) ^ 2 := by gcongr
      _ = 2 ^ 36 := by norm_num
  have hg : 1 / (2 * (n : ℝ)) ^ 2 + 1 / 2 ^ 50 ≤ 1 / (3 * (n : ℝ) ^ 2) := by
    have e : 1 / (3 * (n : ℝ) ^ 2) = 1 / (2 * (n : ℝ)) ^ 2 + 1 / (12 * (n : ℝ) ^ 2) := by
      field_simp; norm_num
    rw [e]
    gcongr
    linarith
  have hz2 : |z| ≤ 1 - (1 / (2 * (n : ℝ))) ^ 2 := by
    have := abs_sub_abs_le_abs_sub z (ringZ n t)
    rw [div_pow, one_pow]
    linarith
  have hz3 : |ringZ n t| ≤ 1 - (1 / (2 * (n : ℝ))) ^ 2 := by
    rw [div_pow, one_pow]
    have : (0 : ℝ) ≤ 1 / 2 ^ 50 := by positivity
    linarith
  have hA := arccos_lipschitz (c := 1 / (2 * (n : ℝ))) (by positivity)
    (by rw [div_le_one (by positivity)]; linarith) hz2 hz3
  have hB := F.arccos_near z (by have := (abs_le.1 hz2).1; nlinarith [sq_nonneg (1 / (2 * (n : ℝ)))])
    (by have := (abs_le.1 hz2).2; nlinarith [sq_nonneg (1 / (2 * (n : ℝ)))])
  have hC : 2 / (1 / (2 * (n : ℝ))) * |z - ringZ n t| ≤ n / 2 ^ 48 := by
    rw [show 2 / (1 / (2 * (n : ℝ))) = 4 * n by field_simp; norm_num]
    calc 4 * (n : ℝ) * |z - ringZ n t| ≤ 4 * n * (1 / 2 ^ 50) := by gcongr
      _ = n / 2 ^ 48 := by ring
  rw [hz, healpixZ_eq hn h0 h1]
  have e : F.arccos z - Real.arccos (ringZ n t)
      = (F.arccos z - Real.arccos z) + (Real.arccos z - Real.arccos (ringZ n t)) := by ring
  rw [e]
  refine le_trans (abs_add_le _ _) ?_
  have hD := le_trans hA hC
  norm_num at hB hD ⊢
  linarith

/-- Consecutive rings are stored in order. -/
theorem ringThetaF_lt_succ (F : DoubleLib) {n t : ℤ} (hn : 1 ≤ n) (hn1 : n ≤ 2 ^ 18) (h0 : 0 ≤ t)
    (h1 : t + 1 < 4 * n - 1) : t2theta_healpixF F t n < t2theta_healpixF F (t + 1) n := by
  obtain ⟨z, hz, hz1⟩ := storedZF_near F hn hn1 h0 (by omega)
  obtain ⟨w, hw, hw1⟩ := storedZF_near F hn hn1 (t := t + 1) (by omega) h1
  have hn0 : (1 : ℝ) ≤ n := by exact_mod_cast hn
  have hn2 : (n : ℝ) ≤ 2 ^ 18 := by exact_mod_cast hn1
  have hgap := ringZ_gap hn h0 h1
  have c1 := abs_le.1 (ringZ_cap hn h0 (by omega))
  have c2 := abs_le.1 (ringZ_cap hn (t := t + 1) (by omega) h1)
  have hsq : (n : ℝ) ^ 2 ≤ 2 ^ 36 := by
    calc (n : ℝ) ^ 2 ≤ (2 ^ 18) ^ 2 := by gcongr
      _ = 2 ^ 36 := by norm_num
  have g1 : 1 / 2 ^ 37 ≤ 1 / (2 * (n : ℝ) ^ 2) := by
    gcongr; norm_num at hsq ⊢; linarith
  have g2 : 1 / 2 ^ 38 ≤ 1 / (3 * (n : ℝ) ^ 2) := by
    gcongr; norm_num at hsq ⊢; linarith
  obtain ⟨z2, z3⟩ := abs_le.1 hz1
  obtain ⟨w2, w3⟩ := abs_le.1 hw1
  generalize 1 / (2 * (n : ℝ) ^ 2) = G at *
  generalize 1 / (3 * (n : ℝ) ^ 2) = H at *
  norm_num at g1 g2 z2 z3 w2 w3
  have hA := F.arccos_near z (by linarith) (by linarith)
  have hB := F.arccos_near w (by linarith) (by linarith)
  have hE := arccos_expand (a := w) (b := z) (by linarith) (by linarith) (by linarith)
  obtain ⟨a1, a2⟩ := abs_le.1 hA
  obtain ⟨b1, b2⟩ := abs_le.1 hB
  rw [hz, hw]
  norm_num at a1 a2 b1 b2
  linarith

theorem ringThetaF_lt (F : DoubleLib) {n t u : ℤ} (hn : 1 ≤ n) (hn1 : n ≤ 2 ^ 18) (h0 : 0 ≤ t)
    (htu : t < u) (h1 : u < 4 * n - 1) : t2theta_healpixF F t n < t2theta_healpixF F u n := by
  obtain ⟨k, rfl⟩ : ∃ k : ℕ, u = t + 1 + k := ⟨(u - t - 1).toNat, by omega⟩
  clear htu
  induction k with
  | zero => simpa using ringThetaF_lt_succ F hn hn1 h0 (by simpa using h1)
  | succ k ih =>
    push_cast at h1 ⊢
    refine lt_trans (ih (by omega)) ?_
    have := ringThetaF_lt_succ F hn hn1 (t := t + 1 + k) (by omega) (by omega)
    rwa [show t + 1 + (k : ℤ) + 1 = t + 1 + (k + 1) by ring] at this

/-- An azimuth on a ring of `4 i` pixels. -/
theorem ringPhiF_rel (F : DoubleLib) {i : ℤ} {x : ℝ} (hi : 1 ≤ i) (hi2 : 2 * i ≤ 2 ^ 53)
    (hx0 : x = 0 ∨ 1 / 2 ≤ x) :
    |F.fl (F.fl (F.fl Real.pi / F.fl ((2 * i : ℤ) : ℝ)) * x) - Real.pi / (2 * i) * x|
      ≤ Real.pi / (2 * i) * x / 2 ^ 51 := by
  have hf := F.nearest
  rw [fl_int hf (by rw [abs_of_pos (by omega)]; exact hi2)]
  rcases hx0 with rfl | hx0
  · simp [fl_zero hf]
  have hpi := Real.two_le_pi
  have hi' : (1 : ℝ) ≤ i := by exact_mod_cast hi
  have hi2' : ((2 * i : ℤ) : ℝ) ≤ 2 ^ 53 := by exact_mod_cast hi2
  have hp2 : (0 : ℝ) < ((2 * i : ℤ) : ℝ) := by push_cast; linarith
  obtain ⟨a, ha, ea, la⟩ := fl_rel_pos hf (x := Real.pi) (c := 2) hpi (by norm_num)
  obtain ⟨b, hb, eb, lb⟩ := fl_rel_pos hf (x := F.fl Real.pi / ((2 * i : ℤ) : ℝ)) (c := 1 / 2 ^ 53) (by
    rw [div_le_div_iff₀ (by positivity) hp2]; nlinarith) (by norm_num)
  obtain ⟨c, hc, ec, -⟩ := fl_rel_pos hf (x := F.fl (F.fl Real.pi / ((2 * i : ℤ) : ℝ)) * x)
    (c := 1 / 2 ^ 55) (by norm_num at lb ⊢; nlinarith) (by norm_num)
  have h1 := rel_step (X := 1) (e := 0) (by simp) (by norm_num) ha
  have h2 := rel_step h1 (by norm_num) hb
  have h3 := rel_step h2 (by norm_num) hc
  rw [ec, eb, ea]
  push_cast
  have e : Real.pi * (1 + a) / (2 * i) * (1 + b) * x * (1 + c) - Real.pi / (2 * i) * x
      = Real.pi / (2 * i) * x * (1 * (1 + a) * (1 + b) * (1 + c) - 1) := by ring
  have hp : (0 : ℝ) ≤ Real.pi / (2 * i) * x := by positivity
  rw [e, abs_mul, abs_of_nonneg hp]
  calc Real.pi / (2 * i) * x * _ ≤ Real.pi / (2 * i) * x * (1 / 2 ^ 51) := by
        gcongr; exact le_trans h3 (by norm_num)
    _ = _ := by ring

/-- The stored azimuth of a HEALPix pixel. -/
theorem p2phi_ringF_rel (F : DoubleLib) {n t p : ℤ} (L : ℤ) (hn : 1 ≤ n) (hn1 : n ≤ 2 ^ 40)
    (h0 : 0 ≤ t) (h1 : t < 4 * n - 1) (hp0 : 0 ≤ p) (hp1 : p < ringSize n t) :
    |p2phi_ringF F t p n - Scheme.healpix.phi L n t p| ≤ Scheme.healpix.phi L n t p / 2 ^ 51 := by
  have hf := F.nearest
  have hpb : p ≤ 2 ^ 44 := by
    have : ringSize n t ≤ 4 * n := by unfold ringSize; omega
    omega
  obtain ⟨i, hi1, hi2, hi3⟩ : ∃ i : ℤ, 1 ≤ i ∧ i ≤ n ∧ ringSize n t = 4 * i := by
    unfold ringSize; exact ⟨_, by omega, by omega, rfl⟩
  have hi' : (0 : ℝ) < i := by exact_mod_cast (by omega : 0 < i)
  have hphi : ∀ x : ℝ, x = p + Scheme.healpix.shift n t →
      Scheme.healpix.phi L n t p = Real.pi / (2 * i) * x := by
    intro x hx
    unfold Scheme.phi
    rw [← hx]
    simp only [Scheme.ringLen]
    rw [hi3]; push_cast; field_simp; ring
  have hp0' : (0 : ℝ) ≤ p := by exact_mod_cast hp0
  have ehalf : F.fl ((p : ℝ) + 1 / 2) = (p : ℝ) + 1 / 2 := by
    have := fl_of_double hf (isDouble_half (k := 2 * p + 1) (by rw [abs_of_nonneg (by omega)]; omega))
    rw [show (p : ℝ) + 1 / 2 = ((2 * p + 1 : ℤ) : ℝ) / 2 by push_cast; ring]
    exact this
  unfold p2phi_ringF
  simp only
  split_ifs with hm hs
  · obtain ⟨s, hs⟩ : ∃ s, s = (t - n + 2) % 2 := ⟨_, rfl⟩
    have hs01 : s = 0 ∨ s = 1 := by omega
    have hin : i = n := by rw [ringSize_mid (by omega) (by omega)] at hi3; omega
    have e1 : F.fl (1 / 2 * (s : ℝ)) = (s : ℝ) / 2 := by
      rw [show 1 / 2 * (s : ℝ) = (s : ℝ) / 2 by ring]
      exact fl_of_double hf (isDouble_half (by rw [abs_of_nonneg (by omega)]; omega))
    have e2 : F.fl ((p : ℝ) + (s : ℝ) / 2) = (p : ℝ) + (s : ℝ) / 2 := by
      have := fl_of_double hf (isDouble_half (k := 2 * p + s) (by rw [abs_of_nonneg (by omega)]; omega))
      rw [show (p : ℝ) + (s : ℝ) / 2 = ((2 * p + s : ℤ) : ℝ) / 2 by push_cast; ring]
      exact this
    have hsh : Scheme.healpix.shift n t = (s : ℝ) / 2 := by
      simp only [Scheme.shift]
      rw [if_neg (by omega)]
      rcases hs01 with h | h
      · rw [if_neg (by omega), h]; norm_num
      · rw [if_pos (by omega), h]; norm_num
    have hx : (p : ℝ) + (s : ℝ) / 2 = 0 ∨ 1 / 2 ≤ (p : ℝ) + (s : ℝ) / 2 := by
      rcases (show 2 * p + s = 0 ∨ 1 ≤ 2 * p + s by omega) with h | h
      · left
        have : 2 * (p : ℝ) + s = 0 := by exact_mod_cast h
        linarith
      · right
        have : 1 ≤ 2 * (p : ℝ) + s := by exact_mod_cast h
        linarith
    rw [← hs, e1, e2, hphi _ (by rw [hsh]), ← hin]
    exact ringPhiF_rel F hi1 (by omega) hx
  · have hsh : Scheme.healpix.shift n t = 1 / 2 := by
      simp only [Scheme.shift]
      rw [if_pos (by omega)]
    have hin : i = 4 * n - t - 1 := by rw [ringSize_south (by omega) (by omega)] at hi3; omega
    rw [ehalf, ← hin, hphi _ (by rw [hsh])]
    exact ringPhiF_rel F hi1 (by omega) (Or.inr (by linarith))
  · have hsh : Scheme.healpix.shift n t = 1 / 2 := by
      simp only [Scheme.shift]
      rw [if_pos (by omega)]
    have hin : i = t + 1 := by rw [ringSize_north (by omega) h0] at hi3; omega
    rw [ehalf, ← hin, hphi _ (by rw [hsh])]
    exact ringPhiF_rel F hi1 (by omega) (Or.inr (by linarith))

end S2fft
