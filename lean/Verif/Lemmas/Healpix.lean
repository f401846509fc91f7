import Verif.Model.Samples
import Verif.Spec.Healpix

/-! # HEALPix ring geometry: helper lemmas -/

namespace S2fft
open Spec

theorem ringSize_north {n t : ℤ} (h1 : t < n) (h2 : 0 ≤ t) : ringSize n t = 4 * (t + 1) := by
  unfold ringSize; rw [min_eq_left]; exact le_min (by omega) (by omega)

theorem ringSize_mid {n t : ℤ} (h1 : n - 1 ≤ t) (h2 : t ≤ 3 * n - 1) : ringSize n t = 4 * n := by
  unfold ringSize
  rw [min_eq_left (by omega : n ≤ 4 * n - 1 - t), min_eq_right (by omega)]

theorem ringSize_south {n t : ℤ} (h1 : 3 * n - 1 ≤ t) (h2 : 0 ≤ n) :
    ringSize n t = 4 * (4 * n - 1 - t) := by
  unfold ringSize
  rw [min_eq_right (by omega : 4 * n - 1 - t ≤ n), min_eq_right (by omega)]

theorem nphi_ring_ok {n t : ℤ} (h0 : 0 ≤ t) (h1 : t < 4 * n - 1) :
    nphi_ring t n = .ok (ringSize n t) := by
  unfold nphi_ring
  split_ifs with h2 h3 h4
  · rw [ringSize_north (by omega) h0]
  · rw [ringSize_mid h3.1 h3.2]
  · rw [ringSize_south (by omega) (by omega)]; congr 1; ring
  · omega

theorem ringStart_succ (n t : ℤ) (h : 0 ≤ t) : ringStart n (t + 1) = ringStart n t + ringSize n t := by
  unfold ringStart; rw [sum_Ico_succ_top' h]

theorem ringStart_north (n : ℤ) (t : ℕ) (h1 : (t : ℤ) ≤ n) : ringStart n t = 2 * t * (t + 1) := by
  induction t with
  | zero => simp [ringStart]
  | succ t ih =>
    push_cast at *
    rw [ringStart_succ n t (by omega), ih (by omega), ringSize_north (by omega) (by omega)]
    ring

theorem ringStart_mid (n : ℤ) (hn : 0 ≤ n) (k : ℕ) (h1 : (k : ℤ) ≤ 2 * n) :
    ringStart n (n + k) = 2 * n * (n + 1) + 4 * n * k := by
  induction k with
  | zero =>
    obtain ⟨m, rfl⟩ := Int.eq_ofNat_of_zero_le hn
    simp [ringStart_north m m le_rfl]
  | succ k ih =>
    push_cast at *
    rw [← add_assoc, ringStart_succ n _ (by omega), ih (by omega),
      ringSize_mid (by omega) (by omega)]
    ring

theorem ringStart_south (n : ℤ) (hn : 0 ≤ n) (k : ℕ) (h1 : (k : ℤ) < n) :
    ringStart n (3 * n + k) = 12 * n ^ 2 - 2 * (n - 1 - k) * (n - k) := by
  induction k with
  | zero =>
    have := ringStart_mid n hn (2 * n).toNat (by omega)
    have e : ((2 * n).toNat : ℤ) = 2 * n := by omega
    rw [e] at this
    have e2 : 3 * n + ((0 : ℕ) : ℤ) = n + 2 * n := by push_cast; ring
    rw [e2, this]; push_cast; ring
  | succ k ih =>
    push_cast at *
    rw [← add_assoc, ringStart_succ n _ (by omega), ih (by omega),
      ringSize_south (by omega) (by omega)]
    ring

theorem ringStart_total (n : ℤ) (hn : 1 ≤ n) : ringStart n (4 * n - 1) = 12 * n ^ 2 := by
  have h := ringStart_south n (by omega) (n - 1).toNat (by omega)
  have e : ((n - 1).toNat : ℤ) = n - 1 := by omega
  rw [e] at h
  have e2 : 3 * n + (n - 1) = 4 * n - 1 := by ring
  rw [e2] at h
  rw [h]; ring

theorem pyInt_eq {x : ℝ} {k : ℤ} (h0 : 0 ≤ k) (h1 : (k : ℝ) ≤ x) (h2 : x < k + 1) :
    pyInt x = k := by
  unfold pyInt
  have : (0 : ℝ) ≤ k := by exact_mod_cast h0
  rw [if_pos (le_trans this h1), Int.floor_eq_iff]
  exact ⟨h1, h2⟩

/-- The height of a ring. -/
noncomputable def ringZ (n t : ℤ) : ℝ :=
  if t < n - 1 then 1 - ((t : ℝ) + 1) ^ 2 / (3 * (n : ℝ) ^ 2)
  else if t ≤ 3 * n - 1 then 4 / 3 - 2 * ((t : ℝ) + 1) / (3 * (n : ℝ))
  else (4 * (n : ℝ) - 1 - t) ^ 2 / (3 * (n : ℝ) ^ 2) - 1

theorem t2theta_healpix_eq {n t : ℤ} (h1 : t < 4 * n - 1) :
    t2theta_healpix t n = Real.arccos (ringZ n t) := by
  unfold t2theta_healpix ringZ
  congr 1
  split_ifs <;> first | rfl | omega

/-- Polar cap rings. -/
theorem ringZ_north {n t : ℤ} (h0 : 0 ≤ t) (h : t + 1 ≤ n) :
    ringZ n t = 1 - ((t : ℝ) + 1) ^ 2 / (3 * (n : ℝ) ^ 2) := by
  unfold ringZ
  split_ifs with h1 h2
  · rfl
  · have : (n : ℝ) = t + 1 := by exact_mod_cast (by omega : n = t + 1)
    have ht : (t : ℝ) + 1 ≠ 0 := by
      have : (0 : ℝ) ≤ t := by exact_mod_cast h0
      positivity
    rw [this]; field_simp; norm_num
  · omega

theorem ringZ_south {n t : ℤ} (hn : 1 ≤ n) (h0 : t < 4 * n - 1) (h : 3 * n ≤ t + 1) :
    ringZ n t = -(1 - ((4 * n - 1 - t : ℤ) : ℝ) ^ 2 / (3 * (n : ℝ) ^ 2)) := by
  unfold ringZ
  have hn' : (n : ℝ) ≠ 0 := by
    have : (n : ℤ) ≠ 0 := by omega
    exact_mod_cast this
  split_ifs with h1 h2
  · omega
  · have : (t : ℝ) = 3 * n - 1 := by
      have : t = 3 * n - 1 := by omega
      rw [this]; push_cast; ring
    push_cast
    rw [this]; field_simp; ring
  · push_cast; ring

theorem ringZ_mid {n t : ℤ} (h1 : n ≤ t + 1) (h2 : t + 1 ≤ 3 * n) :
    ringZ n t = 4 / 3 - 2 * ((t : ℝ) + 1) / (3 * (n : ℝ)) := by
  unfold ringZ
  rw [if_neg (by omega), if_pos (by omega)]

theorem polar_bound {n i : ℤ} (h1 : 1 ≤ i) (h2 : i ≤ n) :
    (0 : ℝ) < (i : ℝ) ^ 2 / (3 * (n : ℝ) ^ 2) ∧ (i : ℝ) ^ 2 / (3 * (n : ℝ) ^ 2) ≤ 1 / 3 := by
  have hi : (1 : ℝ) ≤ i := by exact_mod_cast h1
  have hn : (i : ℝ) ≤ n := by exact_mod_cast h2
  have hn0 : (0 : ℝ) < n := by linarith
  constructor
  · positivity
  · rw [div_le_div_iff₀ (by positivity) (by norm_num)]
    nlinarith

theorem mid_bound {n t : ℤ} (h1 : n < t + 1) (h2 : t + 1 < 3 * n) :
    |4 / 3 - 2 * ((t : ℝ) + 1) / (3 * (n : ℝ))| < 2 / 3 := by
  have hn : (0 : ℝ) < n := by exact_mod_cast (by omega : 0 < n)
  have h1' : (n : ℝ) < t + 1 := by exact_mod_cast h1
  have h2' : (t : ℝ) + 1 < 3 * n := by exact_mod_cast h2
  rw [abs_lt]
  constructor
  · have : 2 * ((t : ℝ) + 1) / (3 * n) < 2 := by rw [div_lt_iff₀ (by positivity)]; linarith
    linarith
  · have : 2 / 3 < 2 * ((t : ℝ) + 1) / (3 * n) := by rw [lt_div_iff₀ (by positivity)]; linarith
    linarith

theorem ringZ_lt {n t : ℤ} (hn : 1 ≤ n) (h0 : 0 ≤ t) (h1 : t < 4 * n - 1) :
    -1 < ringZ n t ∧ ringZ n t < 1 := by
  rcases le_or_gt (t + 1) n with h | h
  · rw [ringZ_north h0 h]
    have := polar_bound (n := n) (i := t + 1) (by omega) h
    push_cast at this
    constructor <;> linarith
  · rcases lt_or_ge (t + 1) (3 * n) with h' | h'
    · rw [ringZ_mid (by omega) (by omega)]
      have := abs_lt.1 (mid_bound h h')
      constructor <;> linarith
    · rw [ringZ_south hn h1 h']
      have := polar_bound (n := n) (i := 4 * n - 1 - t) (by omega) (by omega)
      constructor <;> linarith

theorem cos_t2theta {n t : ℤ} (hn : 1 ≤ n) (h0 : 0 ≤ t) (h1 : t < 4 * n - 1) :
    Real.cos (t2theta_healpix t n) = ringZ n t := by
  rw [t2theta_healpix_eq h1]
  have := ringZ_lt hn h0 h1
  exact Real.cos_arccos this.1.le this.2.le

/-- The polar-cap branch of the lookup, at the centre of pixel `p` of the `i`-th ring from a
pole. -/
theorem polar_lookup {n i p : ℤ} (h1 : 1 ≤ i) (h2 : i ≤ n) (h3 : 0 ≤ p) (h4 : p < 4 * i)
    (z phi : ℝ) (hz : |z| = 1 - (i : ℝ) ^ 2 / (3 * (n : ℝ) ^ 2))
    (hphi : phi = Real.pi / (2 * (i : ℝ)) * ((p : ℝ) + 1 / 2)) :
    hp_zphi2pix n z phi
      = if z ≤ 0 then 12 * n ^ 2 - 2 * i * (i + 1) + p else 2 * i * (i - 1) + p := by
  have hi : (0 : ℝ) < i := by exact_mod_cast (by omega : 0 < i)
  have hn : (0 : ℝ) < n := by exact_mod_cast (by omega : 0 < n)
  have hb := polar_bound h1 h2
  have htt : 2 * phi / Real.pi = ((p : ℝ) + 1 / 2) / i := by
    rw [hphi]; field_simp
  have hnot : ¬ |z| < 2 / 3 := by rw [hz]; push Not; linarith
  have hsq : Real.sqrt (3 * (1 - |z|)) = i / n := by
    rw [hz]
    have : 3 * (1 - (1 - (i : ℝ) ^ 2 / (3 * (n : ℝ) ^ 2))) = ((i : ℝ) / n) ^ 2 := by
      field_simp; ring
    rw [this]; exact Real.sqrt_sq (by positivity)
  have hdiv : (p : ℝ) = i * ((p / i : ℤ) : ℝ) + ((p % i : ℤ) : ℝ) := by
    exact_mod_cast (Int.mul_ediv_add_emod p i).symm
  have hr0 : 0 ≤ p % i := Int.emod_nonneg p (by omega)
  have hr1 : p % i < i := Int.emod_lt_of_pos p (by omega)
  have hr0' : (0 : ℝ) ≤ ((p % i : ℤ) : ℝ) := by exact_mod_cast hr0
  have hr1' : ((p % i : ℤ) : ℝ) + 1 ≤ i := by exact_mod_cast hr1
  have hq : pyInt (((p : ℝ) + 1 / 2) / i) = p / i := by
    apply pyInt_eq (Int.ediv_nonneg h3 (by omega))
    · rw [le_div_iff₀ hi, hdiv]
      have : ((i : ℝ) * ((p / i : ℤ) : ℝ) + ((p % i : ℤ) : ℝ)) = (p : ℝ) := hdiv.symm
      nlinarith
    · rw [div_lt_iff₀ hi]; nlinarith
  have htp : ((p : ℝ) + 1 / 2) / i - ((p / i : ℤ) : ℝ) = (((p % i : ℤ) : ℝ) + 1 / 2) / i := by
    have : (p : ℝ) - i * ((p / i : ℤ) : ℝ) = ((p % i : ℤ) : ℝ) := by linarith
    field_simp
    linarith
  have hjp : pyInt ((n : ℝ) * ((((p % i : ℤ) : ℝ) + 1 / 2) / i) * (i / n)) = p % i := by
    have e : (n : ℝ) * ((((p % i : ℤ) : ℝ) + 1 / 2) / i) * (i / n) = ((p % i : ℤ) : ℝ) + 1 / 2 := by
      field_simp
    rw [e]
    exact pyInt_eq hr0 (by linarith) (by linarith)
  have hjm : pyInt ((n : ℝ) * (1 - (((p % i : ℤ) : ℝ) + 1 / 2) / i) * (i / n)) = i - p % i - 1 := by
    have e : (n : ℝ) * (1 - (((p % i : ℤ) : ℝ) + 1 / 2) / i) * (i / n)
        = i - (((p % i : ℤ) : ℝ) + 1 / 2) := by
      field_simp
    rw [e]
    exact pyInt_eq (by omega) (by push_cast; linarith) (by push_cast; linarith)
  have hip : pyInt (((p : ℝ) + 1 / 2) / i * (i : ℝ)) = p := by
    rw [div_mul_cancel₀ _ hi.ne']
    exact pyInt_eq h3 (by linarith) (by linarith)
  unfold hp_zphi2pix
  simp only [htt, hq, htp, hsq, hjp, hjm, hnot, if_false]
  have e : p % i + (i - p % i - 1) + 1 = i := by ring
  rw [e, hip]
  rw [if_neg (by omega : ¬ p + 1 > 4 * i)]
  split_ifs <;> ring

/-- The equatorial branch at the centre of pixel `p` of ring `t`. -/
theorem equatorial_lookup {n t p : ℤ} (h1 : n < t + 1) (h2 : t + 1 < 3 * n) (h3 : 0 ≤ p) :
    hp_zphi2pix n (ringZ n t) (p2phi_ring t p n) = 2 * n * (n - 1) + 4 * n * (t + 1 - n) + p := by
  have hn : (0 : ℝ) < n := by exact_mod_cast (by omega : 0 < n)
  have hz : ringZ n t = 4 / 3 - 2 * ((t : ℝ) + 1) / (3 * (n : ℝ)) := ringZ_mid (by omega) (by omega)
  have hphi : 2 * p2phi_ring t p n / Real.pi
      = ((p : ℝ) + 1 / 2 * (((t - n + 2) % 2 : ℤ) : ℝ)) / n := by
    unfold p2phi_ring
    rw [if_pos ⟨by omega, by omega⟩]
    have := Real.pi_pos
    field_simp
  have hmod : (t - n + 2) % 2 = 0 ∨ (t - n + 2) % 2 = 1 := by omega
  unfold hp_zphi2pix
  simp only [hphi, hz, if_pos (mid_bound h1 h2)]
  have ep : (n : ℝ) * (1 / 2 + ((p : ℝ) + 1 / 2 * (((t - n + 2) % 2 : ℤ) : ℝ)) / n
      - 3 / 4 * (4 / 3 - 2 * ((t : ℝ) + 1) / (3 * (n : ℝ))))
      = p + 1 / 2 * (((t - n + 2) % 2 : ℤ) : ℝ) + ((t : ℝ) + 1 - n) / 2 := by
    field_simp; ring
  have em : (n : ℝ) * (1 / 2 + ((p : ℝ) + 1 / 2 * (((t - n + 2) % 2 : ℤ) : ℝ)) / n
      + 3 / 4 * (4 / 3 - 2 * ((t : ℝ) + 1) / (3 * (n : ℝ))))
      = p + 1 / 2 * (((t - n + 2) % 2 : ℤ) : ℝ) + (3 * (n : ℝ) - t - 1) / 2 := by
    field_simp; ring
  rw [ep, em]
  rcases hmod with hm | hm
  · -- no shift: t + 1 - n odd
    obtain ⟨k, hk⟩ : ∃ k, t + 1 - n = 2 * k + 1 := ⟨(t - n) / 2, by omega⟩
    obtain ⟨j, hj⟩ : ∃ j, 3 * n - t - 1 = 2 * j + 1 := ⟨(3 * n - t - 2) / 2, by omega⟩
    have hk' : (t : ℝ) + 1 - n = 2 * k + 1 := by exact_mod_cast hk
    have hj' : 3 * (n : ℝ) - t - 1 = 2 * j + 1 := by exact_mod_cast hj
    rw [hm, hk', hj']
    have e1 : pyInt ((p : ℝ) + 1 / 2 * ((0 : ℤ) : ℝ) + (2 * (k : ℝ) + 1) / 2) = p + k :=
      pyInt_eq (by omega) (by push_cast; linarith) (by push_cast; linarith)
    have e2 : pyInt ((p : ℝ) + 1 / 2 * ((0 : ℤ) : ℝ) + (2 * (j : ℝ) + 1) / 2) = p + j :=
      pyInt_eq (by omega) (by push_cast; linarith) (by push_cast; linarith)
    rw [e1, e2, if_pos (by omega : (n + 1 + (p + k) - (p + j)) % 2 = 0)]
    have e3 : p + k + (p + j) - n + 1 + 1 = 2 * p + 1 := by omega
    rw [e3]
    have e4 : pyInt (((2 * p + 1 : ℤ) : ℝ) / 2) = p :=
      pyInt_eq h3 (by push_cast; linarith) (by push_cast; linarith)
    rw [e4]
    have e5 : n + 1 + (p + k) - (p + j) - 1 = t + 1 - n := by omega
    rw [e5]; ring
  · obtain ⟨k, hk⟩ : ∃ k, t + 1 - n = 2 * k := ⟨(t + 1 - n) / 2, by omega⟩
    obtain ⟨j, hj⟩ : ∃ j, 3 * n - t - 1 = 2 * j := ⟨(3 * n - t - 1) / 2, by omega⟩
    have hk' : (t : ℝ) + 1 - n = 2 * k := by exact_mod_cast hk
    have hj' : 3 * (n : ℝ) - t - 1 = 2 * j := by exact_mod_cast hj
    rw [hm, hk', hj']
    have e1 : pyInt ((p : ℝ) + 1 / 2 * ((1 : ℤ) : ℝ) + (2 * (k : ℝ)) / 2) = p + k :=
      pyInt_eq (by omega) (by push_cast; linarith) (by push_cast; linarith)
    have e2 : pyInt ((p : ℝ) + 1 / 2 * ((1 : ℤ) : ℝ) + (2 * (j : ℝ)) / 2) = p + j :=
      pyInt_eq (by omega) (by push_cast; linarith) (by push_cast; linarith)
    rw [e1, e2, if_neg (by omega : ¬ (n + 1 + (p + k) - (p + j)) % 2 = 0)]
    have e3 : p + k + (p + j) - n + 0 + 1 = 2 * p + 1 := by omega
    rw [e3]
    have e4 : pyInt (((2 * p + 1 : ℤ) : ℝ) / 2) = p :=
      pyInt_eq h3 (by push_cast; linarith) (by push_cast; linarith)
    rw [e4]
    have e5 : n + 1 + (p + k) - (p + j) - 1 = t + 1 - n := by omega
    rw [e5]; ring

/-- Ring heights strictly decrease. -/
theorem ringZ_anti {n t : ℤ} (hn : 1 ≤ n) (h0 : 0 ≤ t) (h1 : t + 1 < 4 * n - 1) :
    ringZ n (t + 1) < ringZ n t := by
  have hnr : (0 : ℝ) < n := by exact_mod_cast (by omega : 0 < n)
  have ht : (0 : ℝ) ≤ t := by exact_mod_cast h0
  rcases lt_or_ge (t + 1) n with h | h
  · rw [ringZ_north h0 (by omega), ringZ_north (by omega) (by omega)]
    push_cast
    have : ((t : ℝ) + 1) ^ 2 / (3 * (n : ℝ) ^ 2) < ((t : ℝ) + 1 + 1) ^ 2 / (3 * (n : ℝ) ^ 2) := by
      apply div_lt_div_of_pos_right _ (by positivity); nlinarith
    linarith
  · rcases lt_or_ge (t + 1) (3 * n) with h' | h'
    · rw [ringZ_mid (by omega) (by omega), ringZ_mid (by omega) (by omega)]
      push_cast
      have : 2 * ((t : ℝ) + 1) / (3 * n) < 2 * ((t : ℝ) + 1 + 1) / (3 * n) := by
        apply div_lt_div_of_pos_right _ (by positivity); linarith
      linarith
    · rw [ringZ_south hn (by omega) h', ringZ_south hn (by omega) (by omega)]
      have h3 : (1 : ℝ) ≤ ((4 * n - 1 - (t + 1) : ℤ) : ℝ) := by
        exact_mod_cast (by omega : 1 ≤ 4 * n - 1 - (t + 1))
      have h4 : ((4 * n - 1 - t : ℤ) : ℝ) = ((4 * n - 1 - (t + 1) : ℤ) : ℝ) + 1 := by
        push_cast; ring
      have : ((4 * n - 1 - (t + 1) : ℤ) : ℝ) ^ 2 / (3 * (n : ℝ) ^ 2)
          < ((4 * n - 1 - t : ℤ) : ℝ) ^ 2 / (3 * (n : ℝ) ^ 2) := by
        apply div_lt_div_of_pos_right _ (by positivity)
        rw [h4]; nlinarith
      linarith

end S2fft
