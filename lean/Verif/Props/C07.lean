import Verif.Lemmas.HealpixPixels

/-! # C07: HEALPix pixel lookup -/

namespace S2fft
open Spec

/-- The lookup of the centre of pixel `p` of ring `t` is the number of pixels in earlier rings
plus `p`, for every resolution, ring and pixel. -/
theorem C07_pixel_centres (nside t p : ℤ) (hn : 1 ≤ nside) (ht0 : 0 ≤ t) (ht1 : t < 4 * nside - 1)
    (hp0 : 0 ≤ p) (hp1 : p < ringSize nside t) :
    hp_ang2pix nside (t2theta_healpix t nside) (p2phi_ring t p nside)
      = ringStart nside t + p := by
  unfold hp_ang2pix
  rw [cos_t2theta hn ht0 ht1]
  rcases le_or_gt (t + 1) nside with h | h
  · have hz := ringZ_north ht0 h
    have hb := polar_bound (n := nside) (i := t + 1) (by omega) h
    rw [ringSize_north (by omega) ht0] at hp1
    have hpos : 0 < ringZ nside t := by rw [hz]; push_cast at hb; linarith
    rw [polar_lookup (n := nside) (i := t + 1) (p := p) (by omega) h hp0 hp1 _ _
      (by rw [abs_of_pos hpos, hz]; push_cast; ring) ?_, if_neg (by push Not; exact hpos)]
    · obtain ⟨k, rfl⟩ := Int.eq_ofNat_of_zero_le ht0
      rw [ringStart_north nside k (by omega)]; ring
    · unfold p2phi_ring
      rcases eq_or_lt_of_le h with h' | h'
      · rw [if_pos ⟨by omega, by omega⟩]
        have : (t - nside + 2) % 2 = 1 := by omega
        rw [this, ← h']; push_cast; ring
      · rw [if_neg (by omega), if_neg (by omega)]; push_cast; ring
  · rcases lt_or_ge (t + 1) (3 * nside) with h' | h'
    · rw [equatorial_lookup h h' hp0]
      obtain ⟨k, rfl⟩ : ∃ k : ℕ, t = nside + k := ⟨(t - nside).toNat, by omega⟩
      rw [ringStart_mid nside (by omega) k (by omega)]; ring
    · have hz := ringZ_south hn ht1 h'
      have hb := polar_bound (n := nside) (i := 4 * nside - 1 - t) (by omega) (by omega)
      rw [ringSize_south (by omega) (by omega)] at hp1
      have hneg : ringZ nside t < 0 := by rw [hz]; linarith
      rw [polar_lookup (n := nside) (i := 4 * nside - 1 - t) (p := p) (by omega) (by omega) hp0 hp1
        _ _ (by rw [abs_of_neg hneg, hz]; ring) ?_, if_pos hneg.le]
      · rcases eq_or_lt_of_le h' with h'' | h''
        · have ht : t = nside + (((2 * nside - 1).toNat : ℕ) : ℤ) := by omega
          have e : (((2 * nside - 1).toNat : ℕ) : ℤ) = 2 * nside - 1 := by omega
          have := ringStart_mid nside (by omega) (2 * nside - 1).toNat (by omega)
          rw [← ht, e] at this
          rw [this]
          have ht' : t = 3 * nside - 1 := by omega
          rw [ht']; ring
        · obtain ⟨k, rfl⟩ : ∃ k : ℕ, t = 3 * nside + k := ⟨(t - 3 * nside).toNat, by omega⟩
          rw [ringStart_south nside (by omega) k (by omega)]; ring
      · unfold p2phi_ring
        rcases eq_or_lt_of_le h' with h'' | h''
        · rw [if_pos ⟨by omega, by omega⟩]
          have : (t - nside + 2) % 2 = 1 := by omega
          rw [this]
          have e : 4 * nside - 1 - t = nside := by omega
          rw [e]; push_cast; ring
        · rw [if_neg (by omega), if_pos (by omega)]; push_cast
          have : (4 * (nside : ℝ) - 1 - t) = 4 * nside - t - 1 := by ring
          rw [this]

/-- Witness: the first pixel of the equatorial ring of `nside = 2` has index 20. -/
example : (1 : ℤ) ≤ 2 ∧ (0 : ℤ) ≤ 3 ∧ (3 : ℤ) < 4 * 2 - 1 ∧ (0 : ℤ) < ringSize 2 3 ∧
    ringStart 2 3 = 20 := by decide

/-- The general form of the property fails (1): quarter turns permute the pixels of a ring, so the
angles `(π/2, 3π/10)` and `(π/2, 3π/10 + 3π/2)` must fall on the same ring. The lookup puts the
first on the equatorial ring of `nside = 1` (pixels 4 to 7), the second on the southern ring
(pixels 8 to 11): the azimuth index is not wrapped at `2π`. -/
theorem C07_general_false_wrap :
    hp_ang2pix 1 (Real.pi / 2) (3 * Real.pi / 10) = ringStart 1 1 + 1 ∧
    hp_ang2pix 1 (Real.pi / 2) (3 * Real.pi / 10 + 3 * Real.pi / 2) = ringStart 1 2 ∧
    3 * Real.pi / 10 + 3 * Real.pi / 2 < 2 * Real.pi := by
  have hpi := Real.pi_pos
  have h1 : ringStart 1 1 = 4 := by decide
  have h2 : ringStart 1 2 = 8 := by decide
  refine ⟨?_, ?_, by linarith⟩
  · rw [h1]
    have e : 2 * (3 * Real.pi / 10) / Real.pi = 3 / 5 := by field_simp; norm_num
    have e1 : pyInt (((1 : ℤ) : ℝ) * (1 / 2 + 3 / 5 - 3 / 4 * 0)) = 1 :=
      pyInt_eq (by norm_num) (by norm_num) (by norm_num)
    have e2 : pyInt (((1 : ℤ) : ℝ) * (1 / 2 + 3 / 5 + 3 / 4 * 0)) = 1 :=
      pyInt_eq (by norm_num) (by norm_num) (by norm_num)
    have e3 : pyInt (((1 + 1 - 1 + 1 + 1 : ℤ) : ℝ) / 2) = 1 :=
      pyInt_eq (by norm_num) (by norm_num) (by norm_num)
    unfold hp_ang2pix hp_zphi2pix
    rw [Real.cos_pi_div_two]
    simp only [e, e1, e2]
    rw [if_pos (by norm_num), if_pos (by norm_num), e3]
    norm_num
  · rw [h2]
    have e : 2 * (3 * Real.pi / 10 + 3 * Real.pi / 2) / Real.pi = 18 / 5 := by
      field_simp; norm_num
    have e1 : pyInt (((1 : ℤ) : ℝ) * (1 / 2 + 18 / 5 - 3 / 4 * 0)) = 4 :=
      pyInt_eq (by norm_num) (by norm_num) (by norm_num)
    have e2 : pyInt (((1 : ℤ) : ℝ) * (1 / 2 + 18 / 5 + 3 / 4 * 0)) = 4 :=
      pyInt_eq (by norm_num) (by norm_num) (by norm_num)
    have e3 : pyInt (((4 + 4 - 1 + 1 + 1 : ℤ) : ℝ) / 2) = 4 :=
      pyInt_eq (by norm_num) (by norm_num) (by norm_num)
    unfold hp_ang2pix hp_zphi2pix
    rw [Real.cos_pi_div_two]
    simp only [e, e1, e2]
    rw [if_pos (by norm_num), if_pos (by norm_num), e3]
    norm_num

/-- The general form fails (2): the point `cos θ = -2/3, φ = 0` of the southern hemisphere is
assigned pixel 0, whose centre is at `cos θ = 2/3`, at `nside = 1`. (The reference HEALPix code
sends `|z| = 2/3` to the equatorial branch; this code sends it to the polar branch.) -/
theorem C07_general_false_boundary :
    hp_ang2pix 1 (Real.arccos (-2 / 3)) 0 = 0 ∧ Real.cos (t2theta_healpix 0 1) = 2 / 3 := by
  constructor
  · unfold hp_ang2pix hp_zphi2pix
    rw [Real.cos_arccos (by norm_num) (by norm_num)]
    have e0 : |(-2 / 3 : ℝ)| = 2 / 3 := by rw [abs_of_neg (by norm_num)]; norm_num
    have e1 : Real.sqrt (3 * (1 - 2 / 3)) = 1 := by
      rw [show (3 * (1 - 2 / 3) : ℝ) = 1 by norm_num]; simp
    have p0 : pyInt 0 = 0 := pyInt_eq (by norm_num) (by norm_num) (by norm_num)
    have p1 : pyInt 1 = 1 := pyInt_eq (by norm_num) (by norm_num) (by norm_num)
    simp only [e0, e1, lt_irrefl, if_false, mul_zero, zero_div, p0, Int.cast_zero, sub_zero,
      Int.cast_one, mul_one, p1, zero_mul]
    norm_num
  · rw [cos_t2theta (by norm_num) (by norm_num) (by norm_num), ringZ_north (by norm_num) (by norm_num)]
    norm_num

/-- Every direction strictly inside a pixel, and not across azimuth zero from its centre, is assigned
this pixel: its index is the number of pixels in earlier rings plus the position in the ring. Pixels
are squares of the plane of the HEALPix projection. -/
theorem C07_inside_partial (nside t p : ℤ) (θ φ : ℝ) (hn : 1 ≤ nside) (ht0 : 0 ≤ t)
    (ht1 : t < 4 * nside - 1) (hp0 : 0 ≤ p) (hp1 : p < ringSize nside t)
    (hφ0 : 0 ≤ φ) (hφ1 : φ < 2 * Real.pi)
    (h : hpDist θ φ (t2theta_healpix t nside) (p2phi_ring t p nside)
      < Real.pi / (4 * (nside : ℝ))) :
    hp_ang2pix nside θ φ = ringStart nside t + p := by
  have hn' : (0 : ℝ) < nside := by exact_mod_cast (by omega : 0 < nside)
  unfold hpDist at h
  rw [cos_t2theta hn ht0 ht1] at h
  have := lookup_inside 0 hn ht0 ht1 hp0 hp1 (Or.inl rfl) (Real.abs_cos_le_one θ) hφ0 hφ1
    (by simpa using scaled_lt hn h)
  rw [hp_ang2pix, this]; ring

/-- Every direction inside a pixel but across azimuth zero from its centre is assigned a wrong index,
`4 nside` too large. -/
theorem C07_inside_turn (nside t p : ℤ) (θ φ : ℝ) (hn : 1 ≤ nside) (ht0 : 0 ≤ t)
    (ht1 : t < 4 * nside - 1) (hp0 : 0 ≤ p) (hp1 : p < ringSize nside t)
    (hφ0 : 0 ≤ φ) (hφ1 : φ < 2 * Real.pi)
    (h : hpDistTurn θ φ (t2theta_healpix t nside) (p2phi_ring t p nside)
      < Real.pi / (4 * (nside : ℝ))) :
    hp_ang2pix nside θ φ = ringStart nside t + p + 4 * nside := by
  have hpi := Real.pi_pos
  unfold hpDistTurn at h
  rw [cos_t2theta hn ht0 ht1] at h
  have := lookup_inside 1 hn ht0 ht1 hp0 hp1 (Or.inr rfl) (Real.abs_cos_le_one θ) hφ0 hφ1
    (by
      have h' := scaled_lt hn h
      refine lt_of_eq_of_lt ?_ h'
      congr 2
      push_cast; field_simp; ring)
  rw [hp_ang2pix, this]; ring

/-- The two theorems above cover all directions but the edges of pixels: every direction is in a pixel
or on an edge of one. -/
theorem C07_pixels_cover (nside : ℤ) (θ φ : ℝ) (hn : 1 ≤ nside) (hφ0 : 0 ≤ φ)
    (hφ1 : φ < 2 * Real.pi) :
    ∃ t p : ℤ, 0 ≤ t ∧ t < 4 * nside - 1 ∧ 0 ≤ p ∧ p < ringSize nside t ∧
      (hpDist θ φ (t2theta_healpix t nside) (p2phi_ring t p nside) ≤ Real.pi / (4 * (nside : ℝ)) ∨
        hpDistTurn θ φ (t2theta_healpix t nside) (p2phi_ring t p nside)
          ≤ Real.pi / (4 * (nside : ℝ))) := by
  have hpi := Real.pi_pos
  obtain ⟨t, p, k, ht0, ht1, hp0, hp1, hk, h⟩ := pixels_cover hn (z := Real.cos θ) hφ0 hφ1
  refine ⟨t, p, ht0, ht1, hp0, hp1, ?_⟩
  unfold hpDist hpDistTurn
  rw [cos_t2theta hn ht0 ht1]
  rcases hk with rfl | rfl
  · left
    exact le_of_scaled hn (by simpa using h)
  · right
    refine le_of_scaled hn (le_of_eq_of_le ?_ h)
    congr 2
    push_cast; field_simp; ring

/-- Directions with a wrong index exist at every resolution: just below azimuth `2π` on the ring below
the northern edge of the equatorial zone, the index is the one of the first pixel of the next ring. -/
theorem C07_general_false (nside : ℤ) (hn : 1 ≤ nside) :
    hpDistTurn (t2theta_healpix nside nside) (2 * Real.pi - Real.pi / (8 * (nside : ℝ)))
        (t2theta_healpix nside nside) (p2phi_ring nside 0 nside) < Real.pi / (4 * (nside : ℝ)) ∧
      hp_ang2pix nside (t2theta_healpix nside nside) (2 * Real.pi - Real.pi / (8 * (nside : ℝ)))
        = ringStart nside (nside + 1) := by
  have hpi := Real.pi_pos
  have hn' : (0 : ℝ) < nside := by exact_mod_cast (by omega : 0 < nside)
  have hn1 : (1 : ℝ) ≤ nside := by exact_mod_cast hn
  have h0 : (0 : ℝ) < Real.pi / (8 * nside) := by positivity
  have h1 : Real.pi / (8 * (nside : ℝ)) ≤ Real.pi := by
    rw [div_le_iff₀ (by positivity)]; nlinarith
  have h2 : Real.pi / (8 * (nside : ℝ)) < Real.pi / (4 * nside) := by
    apply div_lt_div_of_pos_left hpi (by positivity); linarith
  have hd : hpDistTurn (t2theta_healpix nside nside) (2 * Real.pi - Real.pi / (8 * (nside : ℝ)))
      (t2theta_healpix nside nside) (p2phi_ring nside 0 nside) < Real.pi / (4 * (nside : ℝ)) := by
    unfold hpDistTurn
    rw [cos_t2theta hn (by omega) (by omega), hpX, hpX,
      if_pos (abs_ringZ_mid hn (by omega) (by omega)), if_pos (abs_ringZ_mid hn (by omega) (by omega))]
    have e : p2phi_ring nside 0 nside = 0 := by
      unfold p2phi_ring
      rw [if_pos ⟨by omega, by omega⟩]; simp
    rw [e]
    have e2 : 2 * Real.pi - Real.pi / (8 * (nside : ℝ)) - 2 * Real.pi - 0
        = -(Real.pi / (8 * (nside : ℝ))) := by ring
    rw [e2, sub_self, abs_zero, add_zero, abs_neg, abs_of_pos h0]
    exact h2
  refine ⟨hd, ?_⟩
  rw [C07_inside_turn nside nside 0 _ _ hn (by omega) (by omega) le_rfl
    (by rw [ringSize_mid (by omega) (by omega)]; omega) (by linarith) (by linarith) hd,
    ringStart_succ nside nside (by omega), ringSize_mid (by omega) (by omega)]
  ring

/-- Witness for `C07_inside_partial`: centres are inside their pixels, and so are directions away from
them, such as azimuth 0.1 on the equator in the pixel with its centre at azimuth 0 for `nside = 1`. -/
example : hpDist (Real.pi / 2) (1 / 10) (t2theta_healpix 1 1) (p2phi_ring 1 0 1)
    < Real.pi / (4 * ((1 : ℤ) : ℝ)) := by
  have hpi := Real.two_le_pi
  have hz : ringZ 1 1 = 0 := by rw [ringZ_mid (by norm_num) (by norm_num)]; norm_num
  have e : p2phi_ring 1 0 1 = 0 := by unfold p2phi_ring; norm_num
  unfold hpDist
  rw [cos_t2theta (by norm_num) (by norm_num) (by norm_num), hz, e, Real.cos_pi_div_two, hpX, hpX,
    if_pos (by norm_num), if_pos (by norm_num)]
  norm_num
  linarith

end S2fft
