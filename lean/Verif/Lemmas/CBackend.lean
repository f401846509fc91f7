import Verif.Model.CBackend
import Verif.Lemmas.Reindex
import Verif.Lemmas.Gradient
import Verif.Props.C02
import Verif.Props.C03
import Verif.Lemmas.Wigner
import Verif.Lemmas.Risbo
import Verif.Lemmas.HealpixRings

/-! # The wrappers of the C libraries -/

namespace S2fft
open Spec

theorem sshtInd_eq (l m : ℤ) : sshtInd l m = elm2ind l m := by
  unfold sshtInd elm2ind; ring

/-- Coefficients on their way to SSHT. -/
theorem to_ssht {L : ℤ} (hL : 1 ≤ L) (a : ℤ → ℤ → ℂ) :
    ∃ c, ndOfList (flm_2d_to_1d_fast a L) = .d1 (L ^ 2) c ∧
      ∀ l m, l < L → |m| ≤ l → c (sshtInd l m) = a l (L - 1 + m) := by
  obtain ⟨b, hb, h1, h2⟩ := C02_fast_2d_to_1d L hL a
  obtain ⟨b', hb', h3⟩ := to1d_ok L a
  rw [hb] at hb'
  injection hb' with hb'
  injection hb' with _ hb'
  subst hb'
  refine ⟨ofList1 (flm_2d_to_1d_fast a L), by unfold ndOfList; rw [h1], fun l m hl hm => ?_⟩
  have hr := elm2ind_range hm hl
  rw [sshtInd_eq]
  unfold ofList1
  rw [if_pos hr.1, List.getD_eq_getElem?_getD, h2 _ hr.1 hr.2, h3 l m hl hm]
  rfl

/-- Coefficients on their way back. -/
theorem from_ssht {L : ℤ} (hL : 1 ≤ L) (c : ℤ → ℂ) :
    ∃ a, flm_1d_to_2d_fast (L ^ 2) c L = .ok a ∧
      ∀ x y, a x y = if 0 ≤ x ∧ x < L ∧ |y - (L - 1)| ≤ x then c (sshtInd x (y - (L - 1))) else 0 := by
  obtain ⟨b, a, hb, ha, h⟩ := C02_fast_1d_to_2d L hL c
  obtain ⟨b', hb', h3⟩ := to2d_ok L c
  rw [hb] at hb'
  injection hb' with hb'
  injection hb' with _ _ hb'
  subst hb'
  refine ⟨a, ha, fun x y => ?_⟩
  rw [h, h3]
  simp only [sshtInd_eq]

theorem hp_pairs (L l m : ℤ) : healpyInd L l m = hp_getidx L l m := rfl

theorem to_healpy {L : ℤ} (hL : 1 ≤ L) (a : ℤ → ℤ → ℂ) :
    ∃ c, ndOfList (flm_2d_to_hp_fast a L) = .d1 (L * (L + 1) / 2) c ∧
      ∀ l m, 0 ≤ m → m ≤ l → l < L → c (healpyInd L l m) = a l (L - 1 + m) := by
  obtain ⟨b, hb, h1, h2⟩ := C03_fast_2d_to_hp L hL a
  obtain ⟨b', hb', h3⟩ := tohp_ok L a
  rw [hb] at hb'
  injection hb' with hb'
  injection hb' with _ hb'
  subst hb'
  refine ⟨ofList1 (flm_2d_to_hp_fast a L), by unfold ndOfList; rw [h1], fun l m h0 hm hl => ?_⟩
  have hr := hp_getidx_range h0 hm hl
  rw [hp_pairs]
  unfold ofList1
  rw [if_pos hr.1, List.getD_eq_getElem?_getD, h2 _ hr.1 hr.2, h3 l m h0 hm hl]
  rfl

theorem from_healpy {L : ℤ} (hL : 1 ≤ L) (c : ℤ → ℂ) (x y : ℤ) :
    flm_hp_to_2d_fast c L x y = if 0 ≤ x ∧ x < L ∧ |y - (L - 1)| ≤ x then
        (if L - 1 ≤ y then c (healpyInd L x (y - (L - 1)))
         else (-1) ^ (L - 1 - y).toNat * (starRingEnd ℂ) (c (healpyInd L x (L - 1 - y))))
        else 0 := by
  obtain ⟨b, hb, h⟩ := C03_fast_hp_to_2d L hL c
  obtain ⟨b', hb', h3⟩ := hp2d_ok L c
  rw [hb] at hb'
  injection hb' with hb'
  injection hb' with _ _ hb'
  subst hb'
  rw [h, h3]
  rfl

/-- A product sum over an array of coefficients, of which one factor is zero off the triangle. -/
theorem dot2_lmSum {L : ℤ} (a x : ℤ → ℤ → ℂ)
    (ha : ∀ l k, 0 ≤ l → l < L → 0 ≤ k → k < 2 * L - 1 → ¬ |k - (L - 1)| ≤ l → a l k = 0) :
    dot2 L (2 * L - 1) a x
      = lmSum 0 L (fun l m => a l (L - 1 + m) * x l (L - 1 + m)) := by
  unfold dot2 lmSum
  refine Finset.sum_congr rfl fun l hl => ?_
  rw [Finset.mem_Ico] at hl
  have : ∑ m ∈ Finset.Ico (-l) (l + 1), a l (L - 1 + m) * x l (L - 1 + m)
      = ∑ k ∈ Finset.Ico (L - 1 - l) (L + l), a l k * x l k := by
    refine Finset.sum_bij (fun m _ => L - 1 + m) ?_ ?_ ?_ ?_
    · intro i hi; rw [Finset.mem_Ico] at hi ⊢; omega
    · intro i _ j _ h; exact add_left_cancel h
    · intro j hj; rw [Finset.mem_Ico] at hj
      exact ⟨j - (L - 1), by rw [Finset.mem_Ico]; omega, by ring⟩
    · intro i _; rfl
  rw [this]
  symm
  refine Finset.sum_subset (Finset.Ico_subset_Ico (by omega) (by omega)) ?_
  intro k hk hk'
  rw [Finset.mem_Ico] at hk hk'
  rw [ha l k hl.1 hl.2 hk.1 hk.2 (by rw [abs_le]; omega), zero_mul]

theorem lmSum_congr {lo L : ℤ} {a b : ℤ → ℤ → ℂ}
    (h : ∀ l m, lo ≤ l → l < L → |m| ≤ l → a l m = b l m) : lmSum lo L a = lmSum lo L b := by
  unfold lmSum
  refine Finset.sum_congr rfl fun l hl => Finset.sum_congr rfl fun m hm => ?_
  rw [Finset.mem_Ico] at hl hm
  exact h l m hl.1 hl.2 (by rw [abs_le]; omega)

/-- Degrees below the spin do not count. -/
theorem lmSum_lower {s L : ℤ} (hs : |s| < L) (a : ℤ → ℤ → ℂ) :
    lmSum 0 L (fun l m => if l < |s| then 0 else a l m) = lmSum |s| L a := by
  unfold lmSum
  symm
  rw [← Finset.sum_subset (Finset.Ico_subset_Ico_left (abs_nonneg s) : Finset.Ico |s| L ⊆ _)]
  · refine Finset.sum_congr rfl fun l hl => Finset.sum_congr rfl fun m _ => ?_
    rw [Finset.mem_Ico] at hl
    beta_reduce
    rw [if_neg (by omega)]
  · intro l hl hl'
    rw [Finset.mem_Ico] at hl hl'
    refine Finset.sum_eq_zero fun m _ => ?_
    beta_reduce
    rw [if_pos (by omega)]

theorem gridSum_congr {σ : Scheme} {L ns : ℤ} {a b : ℤ → ℤ → ℂ}
    (h : ∀ t p, σ.Has L ns t p → a t p = b t p) : gridSum σ L ns a = gridSum σ L ns b := by
  unfold gridSum
  refine Finset.sum_congr rfl fun t ht => Finset.sum_congr rfl fun p hp => ?_
  rw [Finset.mem_Ico] at ht hp
  exact h t p ⟨ht.1, ht.2, hp.1, hp.2⟩

theorem gridSum_lmSum (σ : Scheme) (L ns lo : ℤ) (a : ℤ → ℤ → ℤ → ℤ → ℂ) :
    gridSum σ L ns (fun t p => lmSum lo L (fun l m => a l m t p))
      = lmSum lo L (fun l m => gridSum σ L ns (fun t p => a l m t p)) := by
  unfold gridSum lmSum
  have e1 : ∀ t, ∑ p ∈ Finset.Ico 0 (σ.ringLen L ns t), ∑ l ∈ Finset.Ico lo L,
        ∑ m ∈ Finset.Ico (-l) (l + 1), a l m t p
      = ∑ l ∈ Finset.Ico lo L, ∑ m ∈ Finset.Ico (-l) (l + 1),
        ∑ p ∈ Finset.Ico 0 (σ.ringLen L ns t), a l m t p := by
    intro t
    rw [Finset.sum_comm]
    refine Finset.sum_congr rfl fun l _ => ?_
    rw [Finset.sum_comm]
  simp only [e1]
  rw [Finset.sum_comm]
  refine Finset.sum_congr rfl fun l _ => ?_
  rw [Finset.sum_comm]

theorem gridSum_mul (σ : Scheme) (L ns : ℤ) (a : ℤ → ℤ → ℂ) (c : ℂ) :
    gridSum σ L ns (fun t p => a t p * c) = gridSum σ L ns a * c := by
  unfold gridSum
  simp only [Finset.sum_mul]

theorem gridSum_mul_left (σ : Scheme) (L ns : ℤ) (a : ℤ → ℤ → ℂ) (c : ℂ) :
    gridSum σ L ns (fun t p => c * a t p) = c * gridSum σ L ns a := by
  unfold gridSum
  simp only [Finset.mul_sum]

theorem lmSum_mul_left (lo L : ℤ) (a : ℤ → ℤ → ℂ) (c : ℂ) :
    lmSum lo L (fun l m => c * a l m) = c * lmSum lo L a := by
  unfold lmSum
  simp only [Finset.mul_sum]

theorem conj_gridSum (σ : Scheme) (L ns : ℤ) (a : ℤ → ℤ → ℂ) :
    (starRingEnd ℂ) (gridSum σ L ns a) = gridSum σ L ns (fun t p => (starRingEnd ℂ) (a t p)) := by
  unfold gridSum
  simp only [map_sum]

theorem conj_lmSum (lo L : ℤ) (a : ℤ → ℤ → ℂ) :
    (starRingEnd ℂ) (lmSum lo L a) = lmSum lo L (fun l m => (starRingEnd ℂ) (a l m)) := by
  unfold lmSum
  simp only [map_sum]

theorem gridSum_dot2 {σ : Scheme} (h : σ ≠ .healpix) (L : ℤ) (a b : ℤ → ℤ → ℂ) :
    dot2 (σ.rings L 0) (σ.ringLen L 0 0) a b = gridSum σ L 0 (fun t p => a t p * b t p) := by
  cases σ
  case healpix => exact absurd rfl h
  all_goals rfl

/-! ## Real signals -/

theorem sYlm_zero_neg (l m : ℤ) (θ φ : ℝ) :
    sYlm 0 l (-m) θ φ = (-1) ^ m * (starRingEnd ℂ) (sYlm 0 l m θ φ) := by
  unfold sYlm
  have h := wignerd_neg_neg l m 0 θ
  rw [neg_zero, add_zero] at h
  rw [neg_zero, h]
  simp only [map_mul, map_zpow₀, Complex.conj_ofReal, conj_cis, zpow_zero, map_one]
  push_cast
  rw [neg_mul]
  ring

theorem sum_symmetric {l : ℤ} (hl : 0 ≤ l) (f : ℤ → ℂ) :
    ∑ m ∈ Finset.Ico (-l) (l + 1), f m = f 0 + ∑ m ∈ Finset.Ico 1 (l + 1), (f m + f (-m)) := by
  rw [Finset.sum_add_distrib]
  have e : ∑ m ∈ Finset.Ico 1 (l + 1), f (-m) = ∑ m ∈ Finset.Ico (-l) 0, f m := by
    refine Finset.sum_bij (fun m _ => -m) ?_ ?_ ?_ ?_
    · intro i hi; rw [Finset.mem_Ico] at hi ⊢; omega
    · intro i _ j _ h; exact neg_injective h
    · intro j hj; rw [Finset.mem_Ico] at hj
      exact ⟨-j, by rw [Finset.mem_Ico]; omega, by ring⟩
    · intro i _; rfl
  rw [e, ← Finset.Ico_union_Ico_eq_Ico (by omega : -l ≤ 0) (by omega : (0 : ℤ) ≤ l + 1),
    Finset.sum_union (Finset.Ico_disjoint_Ico_consecutive _ _ _), sum_Ico_first (by omega : (0 : ℤ) < l + 1), zero_add]
  ring

/-- The values of a real signal: with `b` symmetric, negative orders repeat the positive ones. -/
theorem sum_realSignal {l : ℤ} (hl : 0 ≤ l) (x : ℤ → ℤ → ℂ) {b : ℤ → ℂ}
    (hb : ∀ m, b (-m) = (-1) ^ m * (starRingEnd ℂ) (b m)) :
    ∑ m ∈ Finset.Ico (-l) (l + 1), realSignal x l m * b m
      = ((x l 0 * b 0 + ∑ m ∈ Finset.Ico 1 (l + 1), 2 * (x l m * b m)).re : ℂ) := by
  rw [sum_symmetric hl]
  have h0 : (b 0).im = 0 := by
    have := hb 0
    rw [neg_zero, zpow_zero, one_mul] at this
    exact Complex.conj_eq_iff_im.1 this.symm
  have h0' : b 0 = ((b 0).re : ℂ) := by
    apply Complex.ext <;> simp [h0]
  have e : ∀ m ∈ Finset.Ico 1 (l + 1), realSignal x l m * b m + realSignal x l (-m) * b (-m)
      = (((2 * (x l m * b m)).re : ℝ) : ℂ) := by
    intro m hm
    rw [Finset.mem_Ico] at hm
    unfold realSignal
    rw [if_neg (by omega), if_neg (by omega), if_pos (by omega), neg_neg, hb m]
    have hs : ((-1 : ℂ) ^ (-m)) * (-1) ^ m = 1 := by
      rw [← zpow_add₀ (by norm_num), neg_add_cancel, zpow_zero]
    have : (-1 : ℂ) ^ (-m) * (starRingEnd ℂ) (x l m) * ((-1) ^ m * (starRingEnd ℂ) (b m))
        = (starRingEnd ℂ) (x l m * b m) := by
      rw [map_mul]
      linear_combination (starRingEnd ℂ) (x l m) * (starRingEnd ℂ) (b m) * hs
    rw [this, Complex.add_conj]
    congr 1
    simp
  rw [Finset.sum_congr rfl e]
  have z : realSignal x l 0 * b 0 = ((x l 0 * b 0).re : ℂ) := by
    unfold realSignal
    rw [if_neg (by omega), if_pos rfl, h0']
    simp
  rw [z, Complex.add_re, Complex.re_sum]
  push_cast
  rfl

/-! ## healpy's arrays -/

/-- A sum over the pixels, ring by ring. -/
theorem sum_pixels {nside : ℤ} (hn : 1 ≤ nside) (L : ℤ) (f : ℤ → ℂ) :
    ∑ i ∈ Finset.Ico 0 (12 * nside ^ 2), f i
      = gridSum .healpix L nside (fun t p => f (ringStart nside t + p)) := by
  have key : ∀ n : ℕ, (n : ℤ) ≤ 4 * nside - 1 → ∑ i ∈ Finset.Ico 0 (ringStart nside n), f i
      = ∑ t ∈ Finset.Ico 0 (n : ℤ), ∑ p ∈ Finset.Ico 0 (ringSize nside t),
          f (ringStart nside t + p) := by
    intro n
    induction n with
    | zero => intro _; simp [ringStart]
    | succ n ih =>
      intro h
      push_cast at h ⊢
      have h1 := ringStart_mono (n := nside) (le_refl (0 : ℤ)) (by omega : (0 : ℤ) ≤ n) (by omega)
      have h2 := ringStart_mono (n := nside) (by omega : (0 : ℤ) ≤ n) (by omega : (n : ℤ) ≤ n + 1)
        (by omega)
      have h0 : ringStart nside 0 = 0 := by simp [ringStart]
      rw [sum_Ico_last (by omega : (0 : ℤ) < n + 1), add_sub_cancel_right, ← ih (by omega),
        ← Finset.Ico_union_Ico_eq_Ico (by omega : 0 ≤ ringStart nside n) h2,
        Finset.sum_union (Finset.Ico_disjoint_Ico_consecutive _ _ _)]
      congr 1
      rw [ringStart_succ nside n (by omega)]
      have := sum_Ico_shift' f (ringSize nside n) (ringStart nside n)
      rw [add_comm (ringStart nside n) (ringSize nside n), ← this]
      refine Finset.sum_congr rfl fun p _ => ?_
      rw [add_comm]
  have := key (4 * nside - 1).toNat (by omega)
  rw [Int.toNat_of_nonneg (by omega), ringStart_total nside hn] at this
  exact this

/-- A sum over coefficients in healpy's order. -/
theorem sum_healpy {L : ℤ} (hL : 1 ≤ L) (f : ℤ → ℂ) :
    ∑ i ∈ Finset.Ico 0 (L * (L + 1) / 2), f i
      = ∑ l ∈ Finset.Ico 0 L, ∑ m ∈ Finset.Ico 0 (l + 1), f (healpyInd L l m) := by
  rw [Finset.sum_sigma']
  symm
  obtain ⟨h1, h2, h3⟩ := C03_bijection L (by omega)
  refine Finset.sum_bij (fun q _ => healpyInd L q.1 q.2) ?_ ?_ ?_ ?_
  · rintro ⟨l, m⟩ h
    simp only [Finset.mem_sigma, Finset.mem_Ico] at h
    have := h1 (show (l, m) ∈ {p : ℤ × ℤ | 0 ≤ p.2 ∧ p.2 ≤ p.1 ∧ p.1 < L} from
      ⟨h.2.1, by simp only; omega, h.1.2⟩)
    exact Finset.mem_Ico.2 this
  · rintro ⟨l, m⟩ h ⟨l', m'⟩ h' e
    simp only [Finset.mem_sigma, Finset.mem_Ico] at h h'
    have := h2 (show (l, m) ∈ {p : ℤ × ℤ | 0 ≤ p.2 ∧ p.2 ≤ p.1 ∧ p.1 < L} from
      ⟨h.2.1, by simp only; omega, h.1.2⟩) (show (l', m') ∈ _ from
      ⟨h'.2.1, by simp only; omega, h'.1.2⟩) e
    injection this with e1 e2
    subst e1 e2
    rfl
  · intro k hk
    rw [Finset.mem_Ico] at hk
    obtain ⟨⟨l, m⟩, h, e⟩ := h3 (show k ∈ {k | 0 ≤ k ∧ k < L * (L + 1) / 2} from hk)
    simp only [Set.mem_setOf_eq] at h
    refine ⟨⟨l, m⟩, ?_, e⟩
    simp only [Finset.mem_sigma, Finset.mem_Ico]
    omega
  · intro _ _; rfl

/-- The first `L` entries are those of order zero. -/
theorem healpyInd_order {L l m : ℤ} (h0 : 0 ≤ m) (h1 : m ≤ l) (h2 : l < L) :
    healpyInd L l m < L ↔ m = 0 := by
  unfold healpyInd
  constructor
  · intro h
    by_contra hm
    have : 2 * L - 2 ≤ m * (2 * L - 1 - m) := by
      have := mul_nonneg (by omega : 0 ≤ m - 1) (by omega : 0 ≤ 2 * L - 2 - m)
      nlinarith
    have : L - 1 ≤ m * (2 * L - 1 - m) / 2 := by omega
    omega
  · rintro rfl
    simpa using h2

theorem healpyScale_ind {L l m nside : ℤ} (h0 : 0 ≤ m) (h1 : m ≤ l) (h2 : l < L) :
    healpyScale L nside (healpyInd L l m)
      = (if m = 0 then 1 else 2) * (3 * (nside : ℝ) ^ 2) / Real.pi := by
  unfold healpyScale
  simp only [healpyInd_order h0 h1 h2]

/-- Positions of the pixels. -/
theorem pixel_range {nside : ℤ} (hn : 1 ≤ nside) {L t p : ℤ} (h : Scheme.healpix.Has L nside t p) :
    0 ≤ ringStart nside t + p ∧ ringStart nside t + p < 12 * nside ^ 2 := by
  have h1 := ringStart_mono (n := nside) (le_refl (0 : ℤ)) h.1 (le_of_lt h.2.1)
  have h2 := ringStart_mono (n := nside) (s := t + 1) (t := 4 * nside - 1) (by have := h.1; omega)
    (by have : t < 4 * nside - 1 := h.2.1
        omega) le_rfl
  rw [ringStart_succ nside t h.1, ringStart_total nside hn] at h2
  have h0 : ringStart nside 0 = 0 := by simp [ringStart]
  have h3 : p < ringSize nside t := h.2.2.2
  have h4 := h.2.2.1
  omega

theorem gridSum_sum {ι : Type} (σ : Scheme) (L ns : ℤ) (u : Finset ι) (a : ι → ℤ → ℤ → ℂ) :
    gridSum σ L ns (fun t p => ∑ i ∈ u, a i t p) = ∑ i ∈ u, gridSum σ L ns (a i) := by
  unfold gridSum
  rw [Finset.sum_comm]
  refine Finset.sum_congr rfl fun t _ => ?_
  rw [Finset.sum_comm]

/-- The values of a real signal, as a sum over orders `m ≥ 0`. -/
theorem sum_realSignal_half {l : ℤ} (hl : 0 ≤ l) (x : ℤ → ℤ → ℂ) {b : ℤ → ℂ}
    (hb : ∀ m, b (-m) = (-1) ^ m * (starRingEnd ℂ) (b m)) :
    ∑ m ∈ Finset.Ico (-l) (l + 1), realSignal x l m * b m
      = ((∑ m ∈ Finset.Ico 0 (l + 1), (if m = 0 then 1 else 2) * (x l m * b m)).re : ℂ) := by
  rw [sum_realSignal hl x hb, sum_Ico_first (by omega : (0 : ℤ) < l + 1), if_pos rfl, one_mul, zero_add]
  have : ∑ m ∈ Finset.Ico 1 (l + 1), (if m = 0 then 1 else 2) * (x l m * b m)
      = ∑ m ∈ Finset.Ico 1 (l + 1), 2 * (x l m * b m) := by
    refine Finset.sum_congr rfl fun m hm => ?_
    rw [Finset.mem_Ico] at hm
    rw [if_neg (by omega)]
  rw [this]

/-- Pairing a real map with the synthesis of a real map. -/
theorem pair_real_map {nside : ℤ} (hn : 1 ≤ nside) (L : ℤ) (u v : ℤ → ℂ) (c : ℤ → ℤ → ℂ)
    (hu : ∀ i, 0 ≤ i → i < 12 * nside ^ 2 → (u i).im = 0)
    (hv : ∀ t p, Scheme.healpix.Has L nside t p → v (ringStart nside t + p)
      = lmSum 0 L (fun l m => realSignal c l m * sYlm 0 l m (hpTheta nside t) (hpPhi nside t p))) :
    (dot1 (12 * nside ^ 2) u v).re
      = (∑ l ∈ Finset.Ico 0 L, ∑ m ∈ Finset.Ico 0 (l + 1), (if m = 0 then 1 else 2) * c l m
          * gridSum .healpix L nside (fun t p => u (ringStart nside t + p)
            * sYlm 0 l m (hpTheta nside t) (hpPhi nside t p))).re := by
  unfold dot1
  rw [sum_pixels hn L]
  have hr := fun t p (h : Scheme.healpix.Has L nside t p) => pixel_range hn h
  have e : (gridSum .healpix L nside (fun t p => u (ringStart nside t + p) * v (ringStart nside t + p))).re
      = (gridSum .healpix L nside (fun t p => ∑ l ∈ Finset.Ico 0 L, ∑ m ∈ Finset.Ico 0 (l + 1),
          (if m = 0 then 1 else 2) * c l m * (u (ringStart nside t + p)
            * sYlm 0 l m (hpTheta nside t) (hpPhi nside t p)))).re := by
    unfold gridSum
    rw [Complex.re_sum, Complex.re_sum]
    refine Finset.sum_congr rfl fun t ht => ?_
    rw [Complex.re_sum, Complex.re_sum]
    refine Finset.sum_congr rfl fun p hp => ?_
    rw [Finset.mem_Ico] at ht hp
    have hh : Scheme.healpix.Has L nside t p := ⟨ht.1, ht.2, hp.1, hp.2⟩
    beta_reduce
    rw [hv t p hh]
    unfold lmSum
    have e1 : ∑ l ∈ Finset.Ico 0 L, ∑ m ∈ Finset.Ico (-l) (l + 1),
          realSignal c l m * sYlm 0 l m (hpTheta nside t) (hpPhi nside t p)
        = ((∑ l ∈ Finset.Ico 0 L, ∑ m ∈ Finset.Ico 0 (l + 1), (if m = 0 then 1 else 2)
          * (c l m * sYlm 0 l m (hpTheta nside t) (hpPhi nside t p))).re : ℂ) := by
      rw [Complex.re_sum]
      push_cast
      refine Finset.sum_congr rfl fun l hl => ?_
      rw [Finset.mem_Ico] at hl
      rw [← sum_realSignal_half hl.1 c (fun m => sYlm_zero_neg l m _ _)]
    rw [e1]
    have hu' := hu _ (hr t p hh).1 (hr t p hh).2
    rw [Complex.mul_re, Complex.ofReal_re, Complex.ofReal_im, mul_zero, sub_zero]
    have e2 : ∑ l ∈ Finset.Ico 0 L, ∑ m ∈ Finset.Ico 0 (l + 1),
          (if m = 0 then 1 else 2) * c l m * (u (ringStart nside t + p)
            * sYlm 0 l m (hpTheta nside t) (hpPhi nside t p))
        = u (ringStart nside t + p) * ∑ l ∈ Finset.Ico 0 L, ∑ m ∈ Finset.Ico 0 (l + 1),
          (if m = 0 then 1 else 2) * (c l m * sYlm 0 l m (hpTheta nside t) (hpPhi nside t p)) := by
      simp only [Finset.mul_sum]
      refine Finset.sum_congr rfl fun l _ => Finset.sum_congr rfl fun m _ => ?_
      ring
    rw [e2, Complex.mul_re, hu', zero_mul, sub_zero]
  rw [e, gridSum_sum]
  simp only [gridSum_sum, gridSum_mul_left]

end S2fft
