import Verif.Lemmas.Healpix
import Verif.Spec.HealpixPixels
import Mathlib.Tactic

/-! # HEALPix pixels in the plane: helper lemmas -/

namespace S2fft
open Spec

/-- The equatorial branch of the lookup, for a point inside a pixel. -/
theorem equatorial_lookup_inside {n i p : ℤ} (h1 : n ≤ i) (h2 : i ≤ 3 * n) (h3 : 0 ≤ p)
    (z φ : ℝ) (hz : |z| < 2 / 3) (hφ : 0 ≤ φ)
    (h : |n * (2 * φ / Real.pi) - (p + ((i - n + 1) % 2 : ℤ) / 2)| + |3 / 4 * n * z - (n - i / 2)|
      < 1 / 2) :
    hp_zphi2pix n z φ = 2 * n * (n - 1) + 4 * n * (i - n) + p := by
  set tt : ℝ := 2 * φ / Real.pi with htt
  have htt0 : 0 ≤ tt := by rw [htt]; have := Real.pi_pos; positivity
  obtain ⟨s, hs⟩ : ∃ s, s = (i - n + 1) % 2 := ⟨_, rfl⟩
  have hs01 : s = 0 ∨ s = 1 := by omega
  rw [← hs] at h
  obtain ⟨j, hj⟩ : ∃ j, s + i - n - 1 = 2 * j := ⟨(s + i - n - 1) / 2, by omega⟩
  obtain ⟨k, hk⟩ : ∃ k, s + 3 * n - i - 1 = 2 * k := ⟨(s + 3 * n - i - 1) / 2, by omega⟩
  have hj' : (s : ℝ) + i - n - 1 = 2 * j := by exact_mod_cast hj
  have hk' : (s : ℝ) + 3 * n - i - 1 = 2 * k := by exact_mod_cast hk
  obtain ⟨a1, a2⟩ := abs_le.1 (le_refl |n * tt - (p + (s : ℝ) / 2)|)
  obtain ⟨b1, b2⟩ := abs_le.1 (le_refl |3 / 4 * n * z - ((n : ℝ) - i / 2)|)
  have e1 : pyInt ((n : ℝ) * (1 / 2 + tt - 3 / 4 * z)) = p + j :=
    pyInt_eq (by omega) (by push_cast; nlinarith) (by push_cast; nlinarith)
  have e2 : pyInt ((n : ℝ) * (1 / 2 + tt + 3 / 4 * z)) = p + k :=
    pyInt_eq (by omega) (by push_cast; nlinarith) (by push_cast; nlinarith)
  have hp0 : (0 : ℝ) ≤ p := by exact_mod_cast h3
  unfold hp_zphi2pix
  simp only
  rw [← htt]
  rw [if_pos hz, e1, e2]
  have e3 : n + 1 + (p + j) - (p + k) = i - n + 1 := by omega
  rw [e3]
  have e4 : pyInt (((p + j + (p + k) - n + (if (i - n + 1) % 2 = 0 then 1 else 0) + 1 : ℤ) : ℝ) / 2)
      = p := by
    have : (p + j + (p + k) - n + (if (i - n + 1) % 2 = 0 then 1 else 0) + 1 : ℤ) = 2 * p + 1 := by
      split_ifs <;> omega
    rw [this]
    exact pyInt_eq h3 (by push_cast; linarith) (by push_cast; linarith)
  rw [e4]
  ring

/-- The polar branch of the lookup, for a point inside a pixel. -/
theorem polar_lookup_inside {n i q r : ℤ} (h1 : 1 ≤ i) (hr0 : 0 ≤ r) (hr1 : r < i)
    (hq0 : 0 ≤ q) (hq1 : q ≤ 3) (z φ : ℝ) (hz : 2 / 3 ≤ |z|) (hφ : 0 ≤ φ)
    (hq : ⌊2 * φ / Real.pi⌋ = q)
    (hu : |n * hpSigma z * (2 * φ / Real.pi - q) - (r + 1 / 2)| < 1 / 2)
    (hv : |n * hpSigma z * (1 - (2 * φ / Real.pi - q)) - (i - r - 1 / 2)| < 1 / 2) :
    hp_zphi2pix n z φ
      = if z ≤ 0 then 12 * n ^ 2 - 2 * i * (i + 1) + (q * i + r)
        else 2 * i * (i - 1) + (q * i + r) := by
  set tt : ℝ := 2 * φ / Real.pi with htt
  have htt0 : 0 ≤ tt := by rw [htt]; have := Real.pi_pos; positivity
  have hi : (0 : ℝ) < i := by exact_mod_cast (by omega : 0 < i)
  have hr0' : (0 : ℝ) ≤ r := by exact_mod_cast hr0
  have hr1' : (r : ℝ) + 1 ≤ i := by exact_mod_cast hr1
  obtain ⟨u1, u2⟩ := abs_lt.1 hu
  obtain ⟨v1, v2⟩ := abs_lt.1 hv
  obtain ⟨w, hw⟩ : ∃ w, w = (n : ℝ) * hpSigma z := ⟨_, rfl⟩
  rw [← hw] at u1 u2 v1 v2
  have e0 : pyInt tt = q := by
    rw [Int.floor_eq_iff] at hq
    exact pyInt_eq hq0 hq.1 hq.2
  have e1 : pyInt ((n : ℝ) * (tt - q) * hpSigma z) = r := by
    have : (n : ℝ) * (tt - q) * hpSigma z = w * (tt - q) := by rw [hw]; ring
    rw [this]
    exact pyInt_eq hr0 (by linarith) (by linarith)
  have e2 : pyInt ((n : ℝ) * (1 - (tt - q)) * hpSigma z) = i - r - 1 := by
    have : (n : ℝ) * (1 - (tt - q)) * hpSigma z = w * (1 - (tt - q)) := by rw [hw]; ring
    rw [this]
    exact pyInt_eq (by omega) (by push_cast; linarith) (by push_cast; linarith)
  have hw0 : 0 < w := by linarith
  have e3 : pyInt (tt * (i : ℝ)) = q * i + r := by
    refine pyInt_eq (by positivity) ?_ ?_
    · push_cast
      have : (r : ℝ) < (tt - q) * i := by
        by_contra hc
        push Not at hc
        nlinarith
      linarith
    · push_cast
      have : (tt - q) * i < (r : ℝ) + 1 := by
        by_contra hc
        push Not at hc
        nlinarith
      linarith
  unfold hp_zphi2pix
  simp only
  rw [← htt, if_neg (not_lt.2 hz), e0]
  change (if z ≤ 0 then _ else _) - 1 = _
  rw [show Real.sqrt (3 * (1 - |z|)) = hpSigma z from rfl, e1, e2,
    show r + (i - r - 1) + 1 = i by ring, e3,
    if_neg (show ¬ q * i + r + 1 > 4 * i by push Not; nlinarith)]
  split_ifs <;> ring

theorem hpSigma_le_one {z : ℝ} (hz : 2 / 3 ≤ |z|) : hpSigma z ≤ 1 := by
  unfold hpSigma
  exact Real.sqrt_le_iff.2 ⟨by norm_num, by linarith⟩

theorem hpSigma_nonneg (z : ℝ) : 0 ≤ hpSigma z := Real.sqrt_nonneg _

theorem hpSigma_edge {z : ℝ} (hz : |z| = 2 / 3) : hpSigma z = 1 := by
  unfold hpSigma
  rw [hz]; norm_num

/-- First coordinate of a direction in a polar cap, in units of `π / (2 n)`. -/
theorem hpX_polar (n : ℤ) {z : ℝ} (φ : ℝ) (hz : 2 / 3 ≤ |z|) :
    2 * n / Real.pi * hpX z φ = n * (⌊2 * φ / Real.pi⌋ + 1 / 2) +
      n * hpSigma z * (2 * φ / Real.pi - ⌊2 * φ / Real.pi⌋ - 1 / 2) := by
  have hpi := Real.pi_pos
  unfold hpX
  split_ifs with h
  · rw [hpSigma_edge (le_antisymm h hz)]
    field_simp; ring
  · unfold hpMiddle
    generalize ((⌊2 * φ / Real.pi⌋ : ℤ) : ℝ) = q
    field_simp; ring

theorem hpX_equatorial (n : ℤ) {z : ℝ} (φ : ℝ) (hz : |z| ≤ 2 / 3) :
    2 * n / Real.pi * hpX z φ = n * (2 * φ / Real.pi) := by
  unfold hpX
  rw [if_pos hz]; ring

theorem hpY_equatorial (n : ℤ) {z : ℝ} (hz : |z| ≤ 2 / 3) :
    2 * n / Real.pi * hpY z = 3 / 4 * n * z := by
  have hpi := Real.pi_pos
  unfold hpY
  rw [if_pos hz]; field_simp; ring

theorem hpY_north (n : ℤ) {z : ℝ} (hz : 2 / 3 ≤ |z|) (h0 : 0 < z) :
    2 * n / Real.pi * hpY z = n - n * hpSigma z / 2 := by
  have hpi := Real.pi_pos
  unfold hpY
  split_ifs with h
  · have h2 := le_antisymm h hz
    rw [hpSigma_edge h2]
    rw [abs_of_pos h0] at h2
    rw [h2]; field_simp; ring
  · field_simp; ring

theorem hpY_south (n : ℤ) {z : ℝ} (hz : 2 / 3 ≤ |z|) (h0 : z ≤ 0) :
    2 * n / Real.pi * hpY z = -(n - n * hpSigma z / 2) := by
  have hpi := Real.pi_pos
  unfold hpY
  split_ifs with h h1
  · have h2 := le_antisymm h hz
    rw [hpSigma_edge h2]
    rw [abs_of_nonpos h0] at h2
    rw [show z = -(2 / 3) by linarith]; field_simp; ring
  · exact absurd h0 (not_le.2 h1)
  · field_simp; ring

theorem hpSigma_ring {n i : ℤ} (h1 : 1 ≤ i) (h2 : i ≤ n) {z : ℝ}
    (hz : |z| = 1 - (i : ℝ) ^ 2 / (3 * (n : ℝ) ^ 2)) : hpSigma z = i / n := by
  have hi : (0 : ℝ) < i := by exact_mod_cast (by omega : 0 < i)
  have hn : (0 : ℝ) < n := by exact_mod_cast (by omega : 0 < n)
  unfold hpSigma
  rw [hz]
  have : 3 * (1 - (1 - (i : ℝ) ^ 2 / (3 * (n : ℝ) ^ 2))) = ((i : ℝ) / n) ^ 2 := by
    field_simp; ring
  rw [this]; exact Real.sqrt_sq (by positivity)

/-- First coordinate of the centre of a pixel of a polar cap. -/
theorem hpX_polar_centre {n i p : ℤ} (h1 : 1 ≤ i) (h2 : i ≤ n) {z φ : ℝ}
    (hz : |z| = 1 - (i : ℝ) ^ 2 / (3 * (n : ℝ) ^ 2))
    (hφ : 2 * φ / Real.pi = ((p : ℝ) + 1 / 2) / i) :
    2 * n / Real.pi * hpX z φ
      = n * ((p / i : ℤ) + 1 / 2) + ((p % i : ℤ) + 1 / 2 - i / 2) := by
  have hi : (0 : ℝ) < i := by exact_mod_cast (by omega : 0 < i)
  have hn : (0 : ℝ) < n := by exact_mod_cast (by omega : 0 < n)
  have hb := polar_bound h1 h2
  have hdiv : (p : ℝ) = i * ((p / i : ℤ) : ℝ) + ((p % i : ℤ) : ℝ) := by
    exact_mod_cast (Int.mul_ediv_add_emod p i).symm
  have hr0 : (0 : ℝ) ≤ ((p % i : ℤ) : ℝ) := by exact_mod_cast Int.emod_nonneg p (by omega)
  have hr1 : ((p % i : ℤ) : ℝ) + 1 ≤ i := by exact_mod_cast Int.emod_lt_of_pos p (by omega)
  have hq : ⌊((p : ℝ) + 1 / 2) / i⌋ = p / i := by
    rw [Int.floor_eq_iff]
    constructor
    · rw [le_div_iff₀ hi]; nlinarith
    · rw [div_lt_iff₀ hi]; nlinarith
  rw [hpX_polar n φ (by rw [hz]; linarith), hφ, hq, hpSigma_ring h1 h2 hz]
  rw [hdiv]
  generalize ((p / i : ℤ) : ℝ) = q
  generalize ((p % i : ℤ) : ℝ) = r
  field_simp
  ring

theorem abs_ringZ_north {n t : ℤ} (h0 : 0 ≤ t) (h : t + 1 ≤ n) :
    |ringZ n t| = 1 - ((t + 1 : ℤ) : ℝ) ^ 2 / (3 * (n : ℝ) ^ 2) ∧ 0 < ringZ n t := by
  have hb := polar_bound (n := n) (i := t + 1) (by omega) h
  have hz := ringZ_north h0 h
  have hpos : 0 < ringZ n t := by rw [hz]; push_cast at hb; linarith
  refine ⟨?_, hpos⟩
  rw [abs_of_pos hpos, hz]; push_cast; ring

theorem abs_ringZ_south {n t : ℤ} (hn : 1 ≤ n) (h0 : t < 4 * n - 1) (h : 3 * n ≤ t + 1) :
    |ringZ n t| = 1 - ((4 * n - 1 - t : ℤ) : ℝ) ^ 2 / (3 * (n : ℝ) ^ 2) ∧ ringZ n t < 0 := by
  have hb := polar_bound (n := n) (i := 4 * n - 1 - t) (by omega) (by omega)
  have hz := ringZ_south hn h0 h
  have hneg : ringZ n t < 0 := by rw [hz]; linarith
  refine ⟨?_, hneg⟩
  rw [abs_of_neg hneg, hz]; ring

theorem abs_ringZ_mid {n t : ℤ} (hn : 1 ≤ n) (h1 : n ≤ t + 1) (h2 : t + 1 ≤ 3 * n) :
    |ringZ n t| ≤ 2 / 3 := by
  have hn' : (0 : ℝ) < n := by exact_mod_cast (by omega : 0 < n)
  have h1' : (n : ℝ) ≤ t + 1 := by exact_mod_cast h1
  have h2' : (t : ℝ) + 1 ≤ 3 * n := by exact_mod_cast h2
  rw [ringZ_mid h1 h2, abs_le]
  have : 2 * ((t : ℝ) + 1) / (3 * n) = 2 / 3 * (((t : ℝ) + 1) / n) := by field_simp
  rw [this]
  have a : 1 ≤ ((t : ℝ) + 1) / n := by rw [le_div_iff₀ hn']; linarith
  have b : ((t : ℝ) + 1) / n ≤ 3 := by rw [div_le_iff₀ hn']; linarith
  constructor <;> linarith

/-- Second coordinate of the centres of the pixels of a ring. -/
theorem hpY_ring {n t : ℤ} (hn : 1 ≤ n) (h0 : 0 ≤ t) (h1 : t < 4 * n - 1) :
    2 * n / Real.pi * hpY (ringZ n t) = n - ((t : ℝ) + 1) / 2 := by
  have hn' : (0 : ℝ) < n := by exact_mod_cast (by omega : 0 < n)
  rcases lt_or_ge (t + 1) n with h | h
  · obtain ⟨a, b⟩ := abs_ringZ_north h0 h.le
    have hb := polar_bound (n := n) (i := t + 1) (by omega) h.le
    rw [hpY_north n (by rw [a]; linarith) b, hpSigma_ring (by omega) h.le a]
    push_cast; field_simp
  · rcases le_or_gt (t + 1) (3 * n) with h' | h'
    · rw [hpY_equatorial n (abs_ringZ_mid hn h h'), ringZ_mid h h']
      field_simp; ring
    · obtain ⟨a, b⟩ := abs_ringZ_south hn h1 h'.le
      have hb := polar_bound (n := n) (i := 4 * n - 1 - t) (by omega) (by omega)
      rw [hpY_south n (by rw [a]; linarith) b.le, hpSigma_ring (by omega) (by omega) a]
      push_cast; field_simp; ring

theorem hpX_ring_mid {n t : ℤ} (p : ℤ) (hn : 1 ≤ n) (h1 : n ≤ t + 1) (h2 : t + 1 ≤ 3 * n) :
    2 * n / Real.pi * hpX (ringZ n t) (p2phi_ring t p n) = p + (((t + 1) - n + 1) % 2 : ℤ) / 2 := by
  have hn' : (0 : ℝ) < n := by exact_mod_cast (by omega : 0 < n)
  have hpi := Real.pi_pos
  rw [hpX_equatorial n _ (abs_ringZ_mid hn h1 h2)]
  unfold p2phi_ring
  rw [if_pos ⟨by omega, by omega⟩, show t - n + 2 = t + 1 - n + 1 by ring]
  field_simp

theorem hpX_ring_north {n t : ℤ} (p : ℤ) (h0 : 0 ≤ t) (h : t + 1 ≤ n) :
    2 * n / Real.pi * hpX (ringZ n t) (p2phi_ring t p n)
      = n * ((p / (t + 1) : ℤ) + 1 / 2) + ((p % (t + 1) : ℤ) + 1 / 2 - (t + 1 : ℤ) / 2) := by
  have hpi := Real.pi_pos
  have ht : (0 : ℝ) < (t : ℝ) + 1 := by exact_mod_cast (by omega : 0 < t + 1)
  refine hpX_polar_centre (by omega) h (abs_ringZ_north h0 h).1 ?_
  unfold p2phi_ring
  rcases eq_or_lt_of_le h with h' | h'
  · rw [if_pos ⟨by omega, by omega⟩]
    have : (t - n + 2) % 2 = 1 := by omega
    rw [this, ← h']; push_cast; field_simp
  · rw [if_neg (by omega), if_neg (by omega)]; push_cast; field_simp

theorem hpX_ring_south {n t : ℤ} (p : ℤ) (hn : 1 ≤ n) (h0 : t < 4 * n - 1) (h : 3 * n ≤ t + 1) :
    2 * n / Real.pi * hpX (ringZ n t) (p2phi_ring t p n)
      = n * ((p / (4 * n - 1 - t) : ℤ) + 1 / 2) +
        ((p % (4 * n - 1 - t) : ℤ) + 1 / 2 - (4 * n - 1 - t : ℤ) / 2) := by
  have hpi := Real.pi_pos
  have ht : (0 : ℝ) < 4 * (n : ℝ) - t - 1 := by
    have : (0 : ℝ) < ((4 * n - t - 1 : ℤ) : ℝ) := by exact_mod_cast (by omega : 0 < 4 * n - t - 1)
    push_cast at this; exact this
  refine hpX_polar_centre (by omega) (by omega) (abs_ringZ_south hn h0 h).1 ?_
  have e : (((4 * n - 1 - t : ℤ)) : ℝ) = 4 * (n : ℝ) - t - 1 := by push_cast; ring
  rw [e]
  unfold p2phi_ring
  rcases eq_or_lt_of_le h with h' | h'
  · rw [if_pos ⟨by omega, by omega⟩]
    have : (t - n + 2) % 2 = 1 := by omega
    rw [this]
    have e2 : 4 * (n : ℝ) - t - 1 = n := by rw [← e]; exact_mod_cast (by omega : 4 * n - 1 - t = n)
    rw [e2] at ht ⊢
    push_cast; field_simp
  · rw [if_neg (by omega), if_pos (by omega)]; field_simp

/-- A point of a polar cap inside a pixel lies in the quarter of its centre. -/
theorem polar_inside {n i q r q0 : ℤ} {w d : ℝ} (hi : i ≤ n) (hr0 : 0 ≤ r) (hr1 : r < i)
    (hw0 : 0 ≤ w) (hw1 : w ≤ n) (hd0 : 0 ≤ d) (hd1 : d ≤ 1)
    (h : |(n * (q0 + 1 / 2) + w * (d - 1 / 2)) - (n * (q + 1 / 2) + (r + 1 / 2 - i / 2))|
      + |w / 2 - (i : ℝ) / 2| < 1 / 2) :
    q0 = q ∧ |w * d - (r + 1 / 2)| < 1 / 2 ∧ |w * (1 - d) - (i - r - 1 / 2)| < 1 / 2 := by
  have hi' : (i : ℝ) ≤ n := by exact_mod_cast hi
  have hr0' : (0 : ℝ) ≤ r := by exact_mod_cast hr0
  have hr1' : (r : ℝ) + 1 ≤ i := by exact_mod_cast hr1
  have hn : (0 : ℝ) ≤ n := by linarith
  obtain ⟨b1, b2⟩ := abs_le.1 (le_refl |w / 2 - (i : ℝ) / 2|)
  obtain ⟨a1, a2⟩ := abs_le.1 (le_refl
    |(n * (q0 + 1 / 2) + w * (d - 1 / 2)) - (n * (q + 1 / 2) + (r + 1 / 2 - (i : ℝ) / 2))|)
  have c1 : -(w / 2) ≤ w * (d - 1 / 2) := by nlinarith
  have c2 : w * (d - 1 / 2) ≤ w / 2 := by nlinarith
  have hq : q0 = q := by
    rcases lt_trichotomy q0 q with hlt | heq | hgt
    · exfalso
      have : (q0 : ℝ) + 1 ≤ q := by exact_mod_cast hlt
      have : (n : ℝ) * q0 + n ≤ n * q := by nlinarith
      nlinarith
    · exact heq
    · exfalso
      have : (q : ℝ) + 1 ≤ q0 := by exact_mod_cast hgt
      have : (n : ℝ) * q + n ≤ n * q0 := by nlinarith
      nlinarith
  subst hq
  refine ⟨rfl, ?_, ?_⟩
  · rw [abs_lt]; constructor <;> nlinarith
  · rw [abs_lt]; constructor <;> nlinarith

theorem ringStart_mid' {n t : ℤ} (hn : 1 ≤ n) (h1 : n ≤ t + 1) (h2 : t + 1 ≤ 3 * n) :
    ringStart n t = 2 * n * (n - 1) + 4 * n * (t + 1 - n) := by
  rcases eq_or_lt_of_le h1 with h | h
  · obtain ⟨k, rfl⟩ := Int.eq_ofNat_of_zero_le (by omega : 0 ≤ t)
    subst h
    rw [ringStart_north _ k (by omega)]; ring
  · obtain ⟨k, rfl⟩ : ∃ k : ℕ, t = n + k := ⟨(t - n).toNat, by omega⟩
    rw [ringStart_mid n (by omega) k (by omega)]; ring

theorem ringStart_north' {n t : ℤ} (h0 : 0 ≤ t) (h1 : t + 1 ≤ n) :
    ringStart n t = 2 * (t + 1) * (t + 1 - 1) := by
  obtain ⟨k, rfl⟩ := Int.eq_ofNat_of_zero_le h0
  rw [ringStart_north n k (by omega)]; ring

theorem ringStart_south' {n t : ℤ} (hn : 1 ≤ n) (h0 : t < 4 * n - 1) (h1 : 3 * n ≤ t + 1) :
    ringStart n t = 12 * n ^ 2 - 2 * (4 * n - 1 - t) * (4 * n - 1 - t + 1) := by
  rcases eq_or_lt_of_le h1 with h | h
  · rw [ringStart_mid' hn (by omega) (by omega), show t = 3 * n - 1 by omega]; ring
  · obtain ⟨k, rfl⟩ : ∃ k : ℕ, t = 3 * n + k := ⟨(t - 3 * n).toNat, by omega⟩
    rw [ringStart_south n (by omega) k (by omega)]; ring

theorem floor_quarter {φ : ℝ} (h0 : 0 ≤ φ) (h1 : φ < 2 * Real.pi) :
    0 ≤ ⌊2 * φ / Real.pi⌋ ∧ ⌊2 * φ / Real.pi⌋ ≤ 3 := by
  have hpi := Real.pi_pos
  constructor
  · exact Int.floor_nonneg.2 (by positivity)
  · have : ⌊2 * φ / Real.pi⌋ < 4 := by
      rw [Int.floor_lt, div_lt_iff₀ hpi]; push_cast; linarith
    omega

/-- The lookup of any point inside a pixel; `k` is the number of turns between the azimuths. -/
theorem lookup_inside {n t p : ℤ} (k : ℤ) (hn : 1 ≤ n) (ht0 : 0 ≤ t) (ht1 : t < 4 * n - 1)
    (hp0 : 0 ≤ p) (hp1 : p < ringSize n t) (hk : k = 0 ∨ k = 1) {z φ : ℝ} (hz : |z| ≤ 1)
    (hφ0 : 0 ≤ φ) (hφ1 : φ < 2 * Real.pi)
    (h : |2 * n / Real.pi * hpX z φ - 4 * n * k
          - 2 * n / Real.pi * hpX (ringZ n t) (p2phi_ring t p n)|
        + |2 * n / Real.pi * hpY z - 2 * n / Real.pi * hpY (ringZ n t)| < 1 / 2) :
    hp_zphi2pix n z φ = ringStart n t + p + 4 * n * k := by
  have hn' : (0 : ℝ) < n := by exact_mod_cast (by omega : 0 < n)
  have hn1 : (1 : ℝ) ≤ n := by exact_mod_cast hn
  rw [hpY_ring hn ht0 ht1] at h
  obtain ⟨b1, b2⟩ := abs_le.1 (le_refl |2 * n / Real.pi * hpY z - ((n : ℝ) - ((t : ℝ) + 1) / 2)|)
  have b0 := abs_nonneg (2 * n / Real.pi * hpX z φ - 4 * n * k
          - 2 * n / Real.pi * hpX (ringZ n t) (p2phi_ring t p n))
  rcases lt_or_ge |z| (2 / 3) with hz1 | hz1
  · rw [hpY_equatorial n hz1.le] at h b1 b2
    obtain ⟨z1, z2⟩ := abs_lt.1 hz1
    have z1' : -(2 / 3 * (n : ℝ)) < n * z := by nlinarith
    have z2' : (n : ℝ) * z < 2 / 3 * n := by nlinarith
    have i1 : n ≤ t + 1 := by
      have : (n : ℝ) < (t : ℝ) + 1 + 1 := by nlinarith
      have : n < t + 1 + 1 := by exact_mod_cast this
      omega
    have i2 : t + 1 ≤ 3 * n := by
      have : (t : ℝ) + 1 < 3 * n + 1 := by nlinarith
      have : t + 1 < 3 * n + 1 := by exact_mod_cast this
      omega
    rw [hpX_ring_mid p hn i1 i2, hpX_equatorial n φ hz1.le] at h
    rw [equatorial_lookup_inside (i := t + 1) (p := p + 4 * n * k) i1 i2
      (by rcases hk with rfl | rfl <;> omega) z φ hz1 hφ0 ?_, ringStart_mid' hn i1 i2]
    · ring
    · push_cast at h ⊢
      refine lt_of_eq_of_lt ?_ h
      congr 2
      ring
  · obtain ⟨q0, q1⟩ := floor_quarter hφ0 hφ1
    have hs0 := hpSigma_nonneg z
    have hs1 := hpSigma_le_one hz1
    have hw0 : 0 ≤ (n : ℝ) * hpSigma z := by positivity
    have hw1 : (n : ℝ) * hpSigma z ≤ n := by nlinarith
    have hd0 : 0 ≤ 2 * φ / Real.pi - ⌊2 * φ / Real.pi⌋ := sub_nonneg.2 (Int.floor_le _)
    have hd1 : 2 * φ / Real.pi - ⌊2 * φ / Real.pi⌋ ≤ 1 := by
      have := Int.lt_floor_add_one (2 * φ / Real.pi); linarith
    rw [hpX_polar n φ hz1] at h b0
    rcases lt_or_ge 0 z with hzp | hzn
    · rw [hpY_north n hz1 hzp] at h b1 b2
      have i1 : t + 1 ≤ n := by
        have : (t : ℝ) + 1 < n + 1 := by nlinarith
        have : t + 1 < n + 1 := by exact_mod_cast this
        omega
      have hp1' := hp1
      rw [ringSize_north (by omega) ht0] at hp1'
      have hr0 : 0 ≤ p % (t + 1) := Int.emod_nonneg p (by omega)
      have hr1 : p % (t + 1) < t + 1 := Int.emod_lt_of_pos p (by omega)
      rw [hpX_ring_north p ht0 i1] at h
      obtain ⟨e, hu, hv⟩ := polar_inside (n := n) (i := t + 1) (q := p / (t + 1)) (r := p % (t + 1))
        (q0 := ⌊2 * φ / Real.pi⌋ - 4 * k) (w := n * hpSigma z)
        (d := 2 * φ / Real.pi - ⌊2 * φ / Real.pi⌋) i1 hr0 hr1 hw0 hw1 hd0 hd1 (by
          refine lt_of_eq_of_lt ?_ h
          congr 1
          · congr 1; push_cast; ring
          · rw [abs_sub_comm]; congr 1; push_cast; ring)
      have hq : 0 ≤ p / (t + 1) := Int.ediv_nonneg hp0 (by omega)
      have hk0 : k = 0 := by omega
      subst hk0
      rw [polar_lookup_inside (i := t + 1) (q := ⌊2 * φ / Real.pi⌋) (r := p % (t + 1)) (by omega)
        hr0 hr1 q0 q1 z φ hz1 hφ0 rfl hu hv, if_neg (not_le.2 hzp), ringStart_north' ht0 i1]
      have := Int.mul_ediv_add_emod p (t + 1)
      rw [show ⌊2 * φ / Real.pi⌋ = p / (t + 1) by omega]
      linarith
    · rw [hpY_south n hz1 hzn] at h b1 b2
      have i1 : 3 * n ≤ t + 1 := by
        have : 3 * (n : ℝ) < t + 1 + 1 := by nlinarith
        have : 3 * n < t + 1 + 1 := by exact_mod_cast this
        omega
      have hp1' := hp1
      rw [ringSize_south (by omega) (by omega)] at hp1'
      obtain ⟨i, hi⟩ : ∃ i, i = 4 * n - 1 - t := ⟨_, rfl⟩
      have hi' : (i : ℝ) = 4 * n - 1 - t := by rw [hi]; push_cast; ring
      have hr0 : 0 ≤ p % i := Int.emod_nonneg p (by omega)
      have hr1 : p % i < i := Int.emod_lt_of_pos p (by omega)
      rw [hpX_ring_south p hn ht1 i1, ← hi] at h
      obtain ⟨e, hu, hv⟩ := polar_inside (n := n) (i := i) (q := p / i) (r := p % i)
        (q0 := ⌊2 * φ / Real.pi⌋ - 4 * k) (w := n * hpSigma z)
        (d := 2 * φ / Real.pi - ⌊2 * φ / Real.pi⌋) (by omega) hr0 hr1 hw0 hw1 hd0 hd1 (by
          refine lt_of_eq_of_lt ?_ h
          congr 1
          · congr 1; push_cast; ring
          · congr 1; rw [hi']; ring)
      have hq : 0 ≤ p / i := Int.ediv_nonneg hp0 (by omega)
      have hk0 : k = 0 := by omega
      subst hk0
      rw [polar_lookup_inside (i := i) (q := ⌊2 * φ / Real.pi⌋) (r := p % i) (by omega)
        hr0 hr1 q0 q1 z φ hz1 hφ0 rfl hu hv, if_pos hzn, ringStart_south' hn ht1 i1, ← hi]
      have := Int.mul_ediv_add_emod p i
      rw [show ⌊2 * φ / Real.pi⌋ = p / i by omega]
      linarith

/-- A point of the equatorial zone is in a pixel, or on its edge. -/
theorem equatorial_cover {n : ℤ} (hn : 1 ≤ n) {x y : ℝ} (hx0 : 0 ≤ x) (hx1 : x < 4 * n)
    (hy : |y| < n / 2) :
    ∃ i p k : ℤ, n ≤ i ∧ i ≤ 3 * n ∧ 0 ≤ p ∧ p < 4 * n ∧ (k = 0 ∨ k = 1) ∧
      |x - 4 * n * k - (p + ((i - n + 1) % 2 : ℤ) / 2)| + |y - (n - i / 2)| ≤ 1 / 2 := by
  obtain ⟨y1, y2⟩ := abs_lt.1 hy
  obtain ⟨a, ha⟩ : ∃ a, a = ⌊(n : ℝ) / 2 + x - y⌋ := ⟨_, rfl⟩
  obtain ⟨b, hb⟩ : ∃ b, b = ⌊(n : ℝ) / 2 + x + y⌋ := ⟨_, rfl⟩
  have a1 : (a : ℝ) ≤ n / 2 + x - y := by rw [ha]; exact Int.floor_le _
  have a2 : (n : ℝ) / 2 + x - y < a + 1 := by rw [ha]; exact Int.lt_floor_add_one _
  have b1 : (b : ℝ) ≤ n / 2 + x + y := by rw [hb]; exact Int.floor_le _
  have b2 : (n : ℝ) / 2 + x + y < b + 1 := by rw [hb]; exact Int.lt_floor_add_one _
  have c1 : b - a < n + 1 := by
    have : (b : ℝ) - a < n + 1 := by linarith
    exact_mod_cast this
  have c2 : a - b < n + 1 := by
    have : (a : ℝ) - b < n + 1 := by linarith
    exact_mod_cast this
  have c3 : n - 2 < a + b := by
    have : (n : ℝ) - 2 < a + b := by linarith
    exact_mod_cast this
  have c4 : a + b < 9 * n := by
    have : (a : ℝ) + b < 9 * n := by linarith
    exact_mod_cast this
  obtain ⟨i, hi⟩ : ∃ i, i = a - b + 2 * n := ⟨_, rfl⟩
  obtain ⟨s, hs⟩ : ∃ s, s = (i - n + 1) % 2 := ⟨_, rfl⟩
  obtain ⟨P, hP⟩ : ∃ P, a + b = 2 * P + s + n - 1 := ⟨(a + b - s - n + 1) / 2, by omega⟩
  have hi' : (i : ℝ) = a - b + 2 * n := by rw [hi]; push_cast; ring
  have hP' : (a : ℝ) + b = 2 * P + s + n - 1 := by exact_mod_cast hP
  have key : |x - (P + (s : ℝ) / 2)| + |y - (n - (i : ℝ) / 2)| ≤ 1 / 2 := by
    rcases abs_cases (x - (P + (s : ℝ) / 2)) with ⟨e1, _⟩ | ⟨e1, _⟩ <;>
      rcases abs_cases (y - (n - (i : ℝ) / 2)) with ⟨e2, _⟩ | ⟨e2, _⟩ <;>
      rw [e1, e2] <;> linarith
  rcases lt_or_ge P (4 * n) with hlt | hge
  · refine ⟨i, P, 0, by omega, by omega, by omega, hlt, Or.inl rfl, ?_⟩
    rw [← hs]
    simpa using key
  · have hP4 : P = 4 * n := by omega
    refine ⟨i, 0, 1, by omega, by omega, le_refl _, by omega, Or.inr rfl, ?_⟩
    rw [← hs]
    rw [hP4] at key
    push_cast at key ⊢
    refine le_of_eq_of_le ?_ key
    congr 2
    ring

/-- A point of a polar triangle is in a pixel, or on its edge. -/
theorem polar_cover {n : ℤ} (hn : 1 ≤ n) {w d : ℝ} (hw0 : 0 ≤ w) (hw1 : w ≤ n)
    (hd0 : 0 ≤ d) (hd1 : d ≤ 1) :
    ∃ i r : ℤ, 1 ≤ i ∧ i ≤ n ∧ 0 ≤ r ∧ r < i ∧
      |w * (d - 1 / 2) - (r + 1 / 2 - i / 2)| + |w / 2 - (i : ℝ) / 2| ≤ 1 / 2 := by
  have key : ∀ r j : ℤ, |w * d - (r + 1 / 2)| ≤ 1 / 2 → |w * (1 - d) - (j + 1 / 2)| ≤ 1 / 2 →
      |w * (d - 1 / 2) - (r + 1 / 2 - (r + j + 1 : ℤ) / 2)| + |w / 2 - ((r + j + 1 : ℤ) : ℝ) / 2|
        ≤ 1 / 2 := by
    intro r j h1 h2
    rw [abs_le] at h1 h2
    push_cast
    rcases abs_cases (w * (d - 1 / 2) - ((r : ℝ) + 1 / 2 - (r + j + 1) / 2)) with ⟨e1, _⟩ | ⟨e1, _⟩ <;>
      rcases abs_cases (w / 2 - ((r : ℝ) + j + 1) / 2) with ⟨e2, _⟩ | ⟨e2, _⟩ <;>
      rw [e1, e2] <;> nlinarith
  have hu0 : 0 ≤ w * d := by positivity
  have hv0 : 0 ≤ w * (1 - d) := mul_nonneg hw0 (by linarith)
  obtain ⟨r, hr⟩ : ∃ r, r = ⌊w * d⌋ := ⟨_, rfl⟩
  obtain ⟨j, hj⟩ : ∃ j, j = ⌊w * (1 - d)⌋ := ⟨_, rfl⟩
  have r0 : 0 ≤ r := by rw [hr]; exact Int.floor_nonneg.2 hu0
  have j0 : 0 ≤ j := by rw [hj]; exact Int.floor_nonneg.2 hv0
  have r1 : (r : ℝ) ≤ w * d := by rw [hr]; exact Int.floor_le _
  have r2 : w * d < r + 1 := by rw [hr]; exact Int.lt_floor_add_one _
  have j1 : (j : ℝ) ≤ w * (1 - d) := by rw [hj]; exact Int.floor_le _
  have j2 : w * (1 - d) < j + 1 := by rw [hj]; exact Int.lt_floor_add_one _
  have hsum : r + j ≤ n := by
    have : (r : ℝ) + j ≤ n := by nlinarith
    exact_mod_cast this
  rcases lt_or_ge (r + j) n with h | h
  · exact ⟨r + j + 1, r, by omega, by omega, r0, by omega,
      key r j (by rw [abs_le]; constructor <;> linarith) (by rw [abs_le]; constructor <;> linarith)⟩
  · have e : (r : ℝ) + j = n := by exact_mod_cast (by omega : r + j = n)
    have er : w * d = r := by nlinarith
    have ej : w * (1 - d) = j := by nlinarith
    rcases lt_or_ge 0 r with hpos | hneg
    · exact ⟨(r - 1) + j + 1, r - 1, by omega, by omega, by omega, by omega,
        key (r - 1) j (by rw [er]; push_cast; rw [abs_le]; constructor <;> linarith)
          (by rw [abs_le]; constructor <;> linarith)⟩
    · exact ⟨r + (j - 1) + 1, r, by omega, by omega, by omega, by omega,
        key r (j - 1) (by rw [abs_le]; constructor <;> linarith)
          (by rw [ej]; push_cast; rw [abs_le]; constructor <;> linarith)⟩

/-- Every direction is in a pixel, or on its edge. -/
theorem pixels_cover {n : ℤ} (hn : 1 ≤ n) {z φ : ℝ} (hφ0 : 0 ≤ φ)
    (hφ1 : φ < 2 * Real.pi) :
    ∃ t p k : ℤ, 0 ≤ t ∧ t < 4 * n - 1 ∧ 0 ≤ p ∧ p < ringSize n t ∧ (k = 0 ∨ k = 1) ∧
      |2 * n / Real.pi * hpX z φ - 4 * n * k
          - 2 * n / Real.pi * hpX (ringZ n t) (p2phi_ring t p n)|
        + |2 * n / Real.pi * hpY z - 2 * n / Real.pi * hpY (ringZ n t)| ≤ 1 / 2 := by
  have hn' : (0 : ℝ) < n := by exact_mod_cast (by omega : 0 < n)
  have hpi := Real.pi_pos
  rcases lt_or_ge |z| (2 / 3) with hz1 | hz1
  · have hx1 : (n : ℝ) * (2 * φ / Real.pi) < 4 * n := by
      have : 2 * φ / Real.pi < 4 := by rw [div_lt_iff₀ hpi]; linarith
      nlinarith
    have hy : |3 / 4 * (n : ℝ) * z| < n / 2 := by
      rw [abs_mul, abs_of_pos (by positivity : 0 < 3 / 4 * (n : ℝ))]; nlinarith
    obtain ⟨i, p, k, i1, i2, p0, p1, hk, h⟩ := equatorial_cover hn
      (x := n * (2 * φ / Real.pi)) (by positivity) hx1 hy
    refine ⟨i - 1, p, k, by omega, by omega, p0, ?_, hk, ?_⟩
    · rw [ringSize_mid (by omega) (by omega)]; exact p1
    · rw [hpX_ring_mid p hn (by omega) (by omega), hpY_ring hn (by omega) (by omega),
        hpX_equatorial n φ hz1.le, hpY_equatorial n hz1.le, show i - 1 + 1 = i by ring]
      refine le_of_eq_of_le ?_ h
      push_cast
      congr 3
      ring
  · obtain ⟨q0, q1⟩ := floor_quarter hφ0 hφ1
    have hs0 := hpSigma_nonneg z
    have hs1 := hpSigma_le_one hz1
    have hw0 : 0 ≤ (n : ℝ) * hpSigma z := by positivity
    have hw1 : (n : ℝ) * hpSigma z ≤ n := by nlinarith
    have hd0 : 0 ≤ 2 * φ / Real.pi - ⌊2 * φ / Real.pi⌋ := sub_nonneg.2 (Int.floor_le _)
    have hd1 : 2 * φ / Real.pi - ⌊2 * φ / Real.pi⌋ ≤ 1 := by
      have := Int.lt_floor_add_one (2 * φ / Real.pi); linarith
    obtain ⟨i, r, i1, i2, r0, r1, h⟩ := polar_cover hn hw0 hw1 hd0 hd1
    have ediv : (⌊2 * φ / Real.pi⌋ * i + r) / i = ⌊2 * φ / Real.pi⌋ := by
      rw [Int.add_comm, Int.add_mul_ediv_right _ _ (by omega), Int.ediv_eq_zero_of_lt r0 r1]; ring
    have emod : (⌊2 * φ / Real.pi⌋ * i + r) % i = r := by
      rw [Int.add_comm, Int.add_mul_emod_self_right, Int.emod_eq_of_lt r0 r1]
    rcases lt_or_ge 0 z with hzp | hzn
    · refine ⟨i - 1, ⌊2 * φ / Real.pi⌋ * i + r, 0, by omega, by omega, by positivity, ?_,
        Or.inl rfl, ?_⟩
      · rw [ringSize_north (by omega) (by omega)]; nlinarith
      · rw [hpX_ring_north _ (by omega) (by omega), hpY_ring hn (by omega) (by omega),
          hpX_polar n φ hz1, hpY_north n hz1 hzp, show i - 1 + 1 = i by ring, ediv, emod]
        refine le_of_eq_of_le ?_ h
        congr 1
        · congr 1; push_cast; ring
        · rw [abs_sub_comm]; congr 1; push_cast; ring
    · refine ⟨4 * n - 1 - i, ⌊2 * φ / Real.pi⌋ * i + r, 0, by omega, by omega, by positivity, ?_,
        Or.inl rfl, ?_⟩
      · rw [ringSize_south (by omega) (by omega)]; nlinarith
      · rw [hpX_ring_south _ hn (by omega) (by omega), hpY_ring hn (by omega) (by omega),
          hpX_polar n φ hz1, hpY_south n hz1 hzn, show 4 * n - 1 - (4 * n - 1 - i) = i by ring,
          ediv, emod]
        refine le_of_eq_of_le ?_ h
        congr 1
        · congr 1; push_cast; ring
        · congr 1; push_cast; ring

theorem scaled_lt {n : ℤ} (hn : 1 ≤ n) {a b c d : ℝ}
    (h : |a - b| + |c - d| < Real.pi / (4 * (n : ℝ))) :
    |2 * n / Real.pi * a - 2 * n / Real.pi * b| + |2 * n / Real.pi * c - 2 * n / Real.pi * d|
      < 1 / 2 := by
  have hn' : (0 : ℝ) < n := by exact_mod_cast (by omega : 0 < n)
  have hpi := Real.pi_pos
  have hc : 0 < 2 * n / Real.pi := by positivity
  rw [← mul_sub, ← mul_sub, abs_mul, abs_mul, abs_of_pos hc, ← mul_add]
  calc 2 * n / Real.pi * (|a - b| + |c - d|)
      < 2 * n / Real.pi * (Real.pi / (4 * (n : ℝ))) := by gcongr
    _ = 1 / 2 := by field_simp; norm_num

theorem le_of_scaled {n : ℤ} (hn : 1 ≤ n) {a b c d : ℝ}
    (h : |2 * n / Real.pi * a - 2 * n / Real.pi * b| + |2 * n / Real.pi * c - 2 * n / Real.pi * d|
      ≤ 1 / 2) :
    |a - b| + |c - d| ≤ Real.pi / (4 * (n : ℝ)) := by
  by_contra hc
  push Not at hc
  have hn' : (0 : ℝ) < n := by exact_mod_cast (by omega : 0 < n)
  have hpi := Real.pi_pos
  have hc' : 0 < 2 * n / Real.pi := by positivity
  rw [← mul_sub, ← mul_sub, abs_mul, abs_mul, abs_of_pos hc', ← mul_add] at h
  have : 2 * n / Real.pi * (Real.pi / (4 * (n : ℝ))) < 2 * n / Real.pi * (|a - b| + |c - d|) := by
    gcongr
  rw [show 2 * n / Real.pi * (Real.pi / (4 * (n : ℝ))) = 1 / 2 by field_simp; norm_num] at this
  linarith

end S2fft
