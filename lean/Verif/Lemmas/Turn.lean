import Verif.Spec.Turn
import Verif.Lemmas.OrderOp

/-! # Turned signals -/

namespace S2fft
open Spec

theorem cis_same {x y : ℝ} (h : SameAngle x y) (m : ℤ) : cis (m * x) = cis (m * y) := by
  obtain ⟨k, rfl⟩ := h
  rw [show (m : ℝ) * (y + 2 * Real.pi * k) = m * y + 2 * Real.pi * ((m * k : ℤ) : ℝ) by
    push_cast; ring, cis_add, cis_two_pi_int, mul_one]

theorem cis_same_neg {x y : ℝ} (h : SameAngle x y) (m : ℤ) : cis (-(m * x)) = cis (-(m * y)) := by
  have := cis_same h (-m)
  push_cast at this
  simpa only [neg_mul] using this

/-- Equally spaced angles that coincide up to whole turns. -/
theorem sameAngle_index {n : ℤ} (hn : 0 < n) {p q : ℤ} {c : ℝ}
    (h : SameAngle (2 * Real.pi * (p + c) / n) (2 * Real.pi * (q + c) / n)) : n ∣ p - q := by
  obtain ⟨k, hk⟩ := h
  have hn' : (n : ℝ) ≠ 0 := by exact_mod_cast hn.ne'
  have hp := Real.pi_ne_zero
  refine ⟨k, ?_⟩
  have : ((p - q : ℤ) : ℝ) = ((n * k : ℤ) : ℝ) := by
    push_cast
    field_simp at hk
    linarith
  exact_mod_cast this

section
variable {n : ℤ} (hn : 0 < n) {c α : ℝ} {x y : ℤ → ℂ}
  (h : ∀ p, 0 ≤ p → p < n → ∃ p', 0 ≤ p' ∧ p' < n ∧
    SameAngle (2 * Real.pi * (p' + c) / n) (2 * Real.pi * (p + c) / n + α) ∧ y p' = x p)
include hn h

/-- One ring: turning is a rotation of the samples. -/
theorem ring_roll : ∃ s : ℤ, SameAngle α (2 * Real.pi * s / n) ∧
    ∀ p, 0 ≤ p → p < n → y p = x ((p - s) % n) := by
  have hn' : (n : ℝ) ≠ 0 := by exact_mod_cast hn.ne'
  obtain ⟨s, _, _, ⟨j, hj⟩, _⟩ := h 0 le_rfl hn
  have hα : α = 2 * Real.pi * s / n + 2 * Real.pi * ((-j : ℤ) : ℝ) := by
    have : 2 * Real.pi * (s + c) / n = 2 * Real.pi * s / n + 2 * Real.pi * ((0 : ℤ) + c) / n := by
      push_cast; field_simp; ring
    rw [this] at hj
    push_cast at hj ⊢
    linarith
  refine ⟨s, ⟨-j, hα⟩, fun p p0 p1 => ?_⟩
  have q0 := Int.emod_nonneg (p - s) hn.ne'
  have q1 := Int.emod_lt_of_pos (p - s) hn
  obtain ⟨p', a, b, ⟨k, hk⟩, e⟩ := h _ q0 q1
  rw [← e]
  congr 1
  have hd : n ∣ p' - ((p - s) % n + s) := by
    apply sameAngle_index hn (c := c)
    refine ⟨k - j, ?_⟩
    rw [hk, hα]
    push_cast
    field_simp
    ring
  have h2 : n ∣ p - p' := by
    have h3 : n ∣ (p - s) - (p - s) % n := Int.dvd_self_sub_emod
    have := dvd_sub h3 hd
    rwa [show p - s - (p - s) % n - (p' - ((p - s) % n + s)) = p - p' by ring] at this
  exact ((dvd_sub_iff_of_range ⟨a, b⟩ ⟨p0, p1⟩).1 h2).symm

/-- The Fourier sums of one ring. -/
theorem ring_turned (m : ℤ) :
    ∑ p ∈ Finset.Ico 0 n, y p * cis (-(m * (2 * Real.pi * (p + c) / n)))
      = cis (-(m * α)) * ∑ p ∈ Finset.Ico 0 n, x p * cis (-(m * (2 * Real.pi * (p + c) / n))) := by
  obtain ⟨s, hα, e⟩ := ring_roll hn h
  have hn' : (n : ℝ) ≠ 0 := by exact_mod_cast hn.ne'
  rw [Finset.mul_sum, ← sum_Ico_emod hn (-s) (fun p => cis (-(m * α))
    * (x p * cis (-(m * (2 * Real.pi * (p + c) / n)))))]
  refine Finset.sum_congr rfl fun p hp => ?_
  rw [Finset.mem_Ico] at hp
  rw [e p hp.1 hp.2, ← sub_eq_add_neg, mul_left_comm]
  congr 1
  rw [← cis_add, show -(m * α) + -(m * (2 * Real.pi * (((p - s) % n : ℤ) + c) / n))
    = -((m : ℝ) * (2 * Real.pi * (((p - s) % n : ℤ) + c) / n + α)) by ring]
  apply cis_same_neg
  obtain ⟨k, rfl⟩ := hα
  refine ⟨(p - s) / n - k, ?_⟩
  have : (((p - s) % n : ℤ) : ℝ) = p - s - n * ((p - s) / n : ℤ) := by
    have := Int.emod_add_mul_ediv (p - s) n
    have : (((p - s) % n + n * ((p - s) / n) : ℤ) : ℝ) = ((p - s : ℤ) : ℝ) := by rw [this]
    push_cast at this ⊢
    linarith
  rw [this]
  push_cast
  field_simp
  ring

end

/-- The Fourier sums of the rings of a turned signal. -/
theorem ringSum_turned {σ : Scheme} {L ns : ℤ} (hv : σ.Valid L ns) {α : ℝ} {f f' : ℤ → ℤ → ℂ}
    (h : Turned σ L ns α f f') (m : ℤ) {t : ℤ} (t0 : 0 ≤ t) (t1 : t < σ.rings L ns) :
    ringSum σ L ns f' t m = cis (-(m * α)) * ringSum σ L ns f t m := by
  refine ring_turned (ringLen_pos hv t0 t1) (c := σ.shift ns t) (α := α)
    (x := fun p => f (σ.pos ns t p).1 (σ.pos ns t p).2)
    (y := fun p => f' (σ.pos ns t p).1 (σ.pos ns t p).2) (fun p p0 p1 => ?_) m
  obtain ⟨p', hp, ha, e⟩ := h t p ⟨t0, t1, p0, p1⟩
  exact ⟨p', hp.2.2.1, hp.2.2.2, ha, e⟩

/-! ## Analysis -/

theorem fAt_smul {A B : ℤ → ℤ → ℂ} {spin nt : ℤ} (α w : ℤ → ℝ) (el : ℤ) {m : ℤ} {c : ℂ}
    (h : ∀ t, 0 ≤ t → t < nt → B t m = c * A t m) :
    fAt B spin nt α w el m = c * fAt A spin nt α w el m := by
  unfold fAt
  rw [Finset.mul_sum]
  refine Finset.sum_congr rfl fun t ht => ?_
  rw [Finset.mem_Ico] at ht
  rw [h t ht.1 ht.2]
  ring

theorem conj_phase (x : ℝ) (m : ℤ) :
    (starRingEnd ℂ) (cis (-(((-m : ℤ) : ℝ) * x))) = cis (-(m * x)) := by
  rw [conj_cis]
  congr 1
  push_cast
  ring

theorem forward_turned {σ : Scheme} {L ns : ℤ} (hv : σ.Valid L ns) {a : ℝ} {f f' : ℤ → ℤ → ℂ}
    (h : Turned σ L ns a f f') (reality : Bool) (spin : ℤ) (α w : ℤ → ℝ) (el : ℤ) {m : ℤ}
    (m0 : -L < m) (m1 : m < L) :
    symm reality (fAt (ringSum σ.inner L ns (innerSignal σ L spin f')) spin (innerRings σ L ns) α w el) m
      = cis (-(m * a)) * symm reality (fAt (ringSum σ.inner L ns (innerSignal σ L spin f)) spin
        (innerRings σ L ns) α w el) m := by
  have key : ∀ m, -L < m → m < L →
      fAt (ringSum σ.inner L ns (innerSignal σ L spin f')) spin (innerRings σ L ns) α w el m
        = cis (-(m * a)) * fAt (ringSum σ.inner L ns (innerSignal σ L spin f)) spin
          (innerRings σ L ns) α w el m := fun m m0 m1 =>
    fAt_smul α w el (ringSum_inner_smul hv.1 m0 m1 fun t t0 t1 => ringSum_turned hv h m t0 t1)
  unfold symm
  split_ifs with hR
  · rw [key (-m) (by omega) (by omega), map_mul, conj_phase]
    ring
  · exact key m m0 m1

theorem sphSignal_turn (L : ℤ) (F : ℤ → ℤ → ℂ) (a θ φ : ℝ) :
    sphSignal L L (fun m k => cis (-(m * a)) * F m k) θ φ = sphSignal L L F θ (φ - a) := by
  unfold sphSignal trigPoly
  refine Finset.sum_congr rfl fun m _ => ?_
  rw [show (m : ℝ) * (φ - a) = -(m * a) + m * φ by ring, cis_add]
  simp only [Finset.sum_mul]
  refine Finset.sum_congr rfl fun k _ => ?_
  ring

theorem sphSignal_same (L : ℤ) (F : ℤ → ℤ → ℂ) (θ : ℝ) {x y : ℝ} (h : SameAngle x y) :
    sphSignal L L F θ x = sphSignal L L F θ y := by
  unfold sphSignal
  exact Finset.sum_congr rfl fun m _ => by rw [cis_same h]

theorem sameAngle_sub {x y a : ℝ} (h : SameAngle x (y + a)) : SameAngle (x - a) y := by
  obtain ⟨k, rfl⟩ := h
  exact ⟨k, by ring⟩

/-- Every sample of a turned signal is one of the given signal. -/
theorem turned_back {σ : Scheme} {L ns : ℤ} (hv : σ.Valid L ns) {a : ℝ} {f f' : ℤ → ℤ → ℂ}
    (h : Turned σ L ns a f f') {t p : ℤ} (ht : σ.Has L ns t p) :
    ∃ q, σ.Has L ns t q ∧ SameAngle (σ.phi L ns t p) (σ.phi L ns t q + a) ∧
      f' (σ.pos ns t p).1 (σ.pos ns t p).2 = f (σ.pos ns t q).1 (σ.pos ns t q).2 := by
  have hn := ringLen_pos hv ht.1 ht.2.1
  have hn' : ((σ.ringLen L ns t : ℤ) : ℝ) ≠ 0 := by exact_mod_cast hn.ne'
  obtain ⟨s, hα, e⟩ := ring_roll hn (c := σ.shift ns t) (α := a)
    (x := fun p => f (σ.pos ns t p).1 (σ.pos ns t p).2)
    (y := fun p => f' (σ.pos ns t p).1 (σ.pos ns t p).2) (fun p p0 p1 => by
      obtain ⟨p', hp, ha, e⟩ := h t p ⟨ht.1, ht.2.1, p0, p1⟩
      exact ⟨p', hp.2.2.1, hp.2.2.2, ha, e⟩)
  refine ⟨(p - s) % σ.ringLen L ns t, ⟨ht.1, ht.2.1, Int.emod_nonneg _ hn.ne',
    Int.emod_lt_of_pos _ hn⟩, ?_, e p ht.2.2.1 ht.2.2.2⟩
  obtain ⟨k, rfl⟩ := hα
  set n := σ.ringLen L ns t with hnd
  refine ⟨(p - s) / n - k, ?_⟩
  unfold Scheme.phi
  rw [← hnd]
  have : (((p - s) % n : ℤ) : ℝ) = p - s - n * ((p - s) / n : ℤ) := by
    have := Int.emod_add_mul_ediv (p - s) n
    have : (((p - s) % n + n * ((p - s) / n) : ℤ) : ℝ) = ((p - s : ℤ) : ℝ) := by rw [this]
    push_cast at this ⊢
    linarith
  rw [this]
  push_cast
  field_simp
  ring

/-- Rotating every ring by the same angle is a turn. -/
theorem turned_of_rolls {σ : Scheme} {L ns : ℤ} (hv : σ.Valid L ns) {a : ℝ} {f f' : ℤ → ℤ → ℂ}
    (s : ℤ → ℤ) (hs : ∀ t, 0 ≤ t → t < σ.rings L ns → SameAngle a (2 * Real.pi * s t / σ.ringLen L ns t))
    (h : ∀ t p, σ.Has L ns t p → f' (σ.pos ns t p).1 (σ.pos ns t p).2
      = f (σ.pos ns t ((p - s t) % σ.ringLen L ns t)).1 (σ.pos ns t ((p - s t) % σ.ringLen L ns t)).2) :
    Turned σ L ns a f f' := by
  intro t p ht
  have hn := ringLen_pos hv ht.1 ht.2.1
  have hn' : ((σ.ringLen L ns t : ℤ) : ℝ) ≠ 0 := by exact_mod_cast hn.ne'
  obtain ⟨k, hk⟩ := hs t ht.1 ht.2.1
  have hq : σ.Has L ns t ((p + s t) % σ.ringLen L ns t) :=
    ⟨ht.1, ht.2.1, Int.emod_nonneg _ hn.ne', Int.emod_lt_of_pos _ hn⟩
  refine ⟨_, hq, ?_, ?_⟩
  · refine ⟨-((p + s t) / σ.ringLen L ns t) - k, ?_⟩
    unfold Scheme.phi
    have : (((p + s t) % σ.ringLen L ns t : ℤ) : ℝ)
        = p + s t - σ.ringLen L ns t * ((p + s t) / σ.ringLen L ns t : ℤ) := by
      have := Int.emod_add_mul_ediv (p + s t) (σ.ringLen L ns t)
      have : (((p + s t) % σ.ringLen L ns t + σ.ringLen L ns t * ((p + s t) / σ.ringLen L ns t) : ℤ) : ℝ)
        = ((p + s t : ℤ) : ℝ) := by rw [this]
      push_cast at this ⊢
      linarith
    rw [this, hk]
    push_cast
    field_simp
    ring
  · rw [h t _ hq, Int.emod_sub_emod, add_sub_cancel_right, Int.emod_eq_of_lt ht.2.2.1 ht.2.2.2]

theorem realInput_turned {nodes : ℤ → ℤ → ℝ} {σ : Scheme} {L ns : ℤ} (hv : σ.Valid L ns) {a : ℝ}
    {f f' : ℤ → ℤ → ℂ} (h : Turned σ L ns a f f') (hf : RealInput nodes σ L ns f) :
    RealInput nodes σ L ns f' := by
  unfold RealInput at hf ⊢
  split_ifs at hf ⊢ with hσ
  · obtain ⟨F, h1, h2, h3⟩ := hf
    refine ⟨fun m k => cis (-(m * a)) * F m k, fun m k => ?_, fun θ φ => ?_, fun t p ht => ?_⟩
    · beta_reduce
      rw [h1 m k]
      ring
    · rw [sphSignal_turn]
      exact h2 _ _
    · obtain ⟨q, hq, ha, e⟩ := turned_back hv h ht
      rw [e, h3 t q hq, sphSignal_turn, sphSignal_same L F _ (sameAngle_sub ha)]
  · intro t p ht
    obtain ⟨q, hq, -, e⟩ := turned_back hv h ht
    rw [e]
    exact hf t q hq

/-! ## Synthesis -/

theorem sYlm_same (s l m : ℤ) (θ a : ℝ) {x y : ℝ} (h : SameAngle x (y + a)) :
    cis (-(m * a)) * sYlm s l m θ x = sYlm s l m θ y := by
  unfold sYlm
  rw [cis_same h, mul_add, cis_add, mul_left_comm, mul_left_comm (cis (-(m * a))),
    mul_comm (cis (-(m * a))), cis_mul_neg, mul_one]

theorem harmonicSum_turn (lo L s : ℤ) {c c' : ℤ → ℤ → ℂ} (θ a : ℝ) {x y : ℝ}
    (h : SameAngle x (y + a)) (hc : ∀ l m, c' l m = cis (-(m * a)) * c l m) :
    harmonicSum lo L s c' θ x = harmonicSum lo L s c θ y := by
  unfold harmonicSum
  refine Finset.sum_congr rfl fun l _ => Finset.sum_congr rfl fun m _ => ?_
  rw [hc, mul_right_comm, mul_comm, ← mul_comm (sYlm s l m θ x), mul_comm (sYlm s l m θ x),
    sYlm_same s l m θ a h]

theorem turnCoeffs_cis (L : ℤ) (a : ℝ) (c : ℤ → ℤ → ℂ) (l m : ℤ) :
    turnCoeffs L a c l (m + L - 1) = cis (-(m * a)) * c l (m + L - 1) := by
  unfold turnCoeffs cis
  rw [show m + L - 1 - L + 1 = m by ring]
  push_cast
  ring_nf

theorem coeffs_turn (c : ℤ → ℤ → ℂ) (L spin : ℤ) (reality : Bool) (a : ℝ) (l m : ℤ) :
    coeffs (turnCoeffs L a c) L spin reality l m = cis (-(m * a)) * coeffs c L spin reality l m := by
  unfold coeffs
  split_ifs
  · unfold realCoeffs
    beta_reduce
    split_ifs
    · rw [turnCoeffs_cis, map_mul, conj_phase]
      ring
    · exact turnCoeffs_cis L a c l m
  · exact turnCoeffs_cis L a c l m

theorem turnCoeffs_zero (L : ℤ) (a : ℝ) (c : ℤ → ℤ → ℂ) (l : ℤ) :
    turnCoeffs L a c l (L - 1) = c l (L - 1) := by
  have := turnCoeffs_cis L a c l 0
  rw [zero_add] at this
  rw [this]
  simp

theorem realOrderZero_turn {c : ℤ → ℤ → ℂ} {L spin lo : ℤ} {reality : Bool} (a : ℝ)
    (h : RealOrderZero c L spin reality lo) : RealOrderZero (turnCoeffs L a c) L spin reality lo := by
  intro h1 h2 el e0 e1
  rw [turnCoeffs_zero]
  exact h h1 h2 el e0 e1

end S2fft
