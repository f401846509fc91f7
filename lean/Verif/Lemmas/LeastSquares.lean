import Verif.Spec.LeastSquares
import Verif.Lemmas.AdjointWigner
import Verif.Lemmas.PrecomputeDoubleForward

/-! # The distance of samples from synthesized signals -/

namespace S2fft
open Spec

theorem gridSum_conj (σ : Scheme) (L ns : ℤ) (a : ℤ → ℤ → ℂ) :
    (starRingEnd ℂ) (gridSum σ L ns a) = gridSum σ L ns fun t p => (starRingEnd ℂ) (a t p) := by
  unfold gridSum; simp only [map_sum]

theorem sampleInner_conj (σ : Scheme) (L ns : ℤ) (w : ℤ → ℝ) (f g : ℤ → ℤ → ℂ) :
    (starRingEnd ℂ) (sampleInner σ L ns w f g) = sampleInner σ L ns w g f := by
  unfold sampleInner
  rw [gridSum_conj]
  congr 1
  funext t p
  simp only [map_mul, Complex.conj_ofReal, Complex.conj_conj]
  ring

theorem sampleInner_sub (σ : Scheme) (L ns : ℤ) (w : ℤ → ℝ) (f h : ℤ → ℤ → ℂ) :
    sampleInner σ L ns w (f - h) (f - h) = sampleInner σ L ns w f f - sampleInner σ L ns w f h
      - sampleInner σ L ns w h f + sampleInner σ L ns w h h := by
  unfold sampleInner gridSum
  simp only [← Finset.sum_sub_distrib, ← Finset.sum_add_distrib]
  refine Finset.sum_congr rfl fun t _ => Finset.sum_congr rfl fun p _ => ?_
  simp only [Pi.sub_apply, map_sub]
  ring

theorem coeffInner_conj (lo L : ℤ) (a b : ℤ → ℤ → ℂ) :
    (starRingEnd ℂ) (coeffInner lo L a b) = coeffInner lo L b a := by
  unfold coeffInner lmSum
  simp only [map_sum, map_mul, Complex.conj_conj]
  exact Finset.sum_congr rfl fun t _ => Finset.sum_congr rfl fun p _ => mul_comm _ _

theorem coeffInner_sub (lo L : ℤ) (a b : ℤ → ℤ → ℂ) :
    coeffInner lo L (a - b) (a - b) = coeffInner lo L a a - coeffInner lo L a b
      - coeffInner lo L b a + coeffInner lo L b b := by
  unfold coeffInner lmSum
  simp only [← Finset.sum_sub_distrib, ← Finset.sum_add_distrib]
  refine Finset.sum_congr rfl fun t _ => Finset.sum_congr rfl fun p _ => ?_
  simp only [Pi.sub_apply, map_sub]
  ring

/-- Pythagoras, from an adjoint pair that conserves energy. -/
theorem pythagoras {σ : Scheme} {lo L ns : ℤ} {w : ℤ → ℝ} {f F H : ℤ → ℤ → ℂ} {g c : ℤ → ℤ → ℂ}
    (h1 : coeffInner lo L g c = sampleInner σ L ns w f H)
    (h2 : coeffInner lo L g g = sampleInner σ L ns w f F)
    (h3 : sampleEnergy σ L ns w H = coeffEnergy lo L c)
    (h4 : sampleEnergy σ L ns w F = coeffEnergy lo L g) :
    sampleEnergy σ L ns w (f - H) = sampleEnergy σ L ns w (f - F) + coeffEnergy lo L (g - c) := by
  have h1' := congrArg (starRingEnd ℂ) h1
  have h2' := congrArg (starRingEnd ℂ) h2
  rw [coeffInner_conj, sampleInner_conj] at h1' h2'
  have h3' := congrArg (fun x : ℝ => (x : ℂ)) h3
  have h4' := congrArg (fun x : ℝ => (x : ℂ)) h4
  simp only [← sampleInner_self, ← coeffInner_self] at h3' h4'
  have : ((sampleEnergy σ L ns w (f - H) : ℝ) : ℂ)
      = (sampleEnergy σ L ns w (f - F) + coeffEnergy lo L (g - c) : ℝ) := by
    push_cast
    rw [← sampleInner_self, ← sampleInner_self, ← coeffInner_self, sampleInner_sub, sampleInner_sub,
      coeffInner_sub, ← h1, ← h2, ← h1', ← h2', h3', h4']
    ring
  exact_mod_cast this

theorem coeffEnergy_nonneg (lo L : ℤ) (c : ℤ → ℤ → ℂ) : 0 ≤ coeffEnergy lo L c :=
  Finset.sum_nonneg fun _ _ => Finset.sum_nonneg fun _ _ => by positivity

theorem coeffEnergy_eq_zero {lo L : ℤ} {c : ℤ → ℤ → ℂ} :
    coeffEnergy lo L c = 0 ↔ ∀ l m, lo ≤ l → l < L → |m| ≤ l → c l m = 0 := by
  unfold coeffEnergy
  rw [Finset.sum_eq_zero_iff_of_nonneg fun _ _ => Finset.sum_nonneg fun _ _ => by positivity]
  constructor
  · intro h l m l0 l1 hm
    have := h l (Finset.mem_Ico.2 ⟨l0, l1⟩)
    rw [Finset.sum_eq_zero_iff_of_nonneg fun _ _ => by positivity] at this
    have := this m (Finset.mem_Ico.2 (by rw [abs_le] at hm; omega))
    simpa using this
  · intro h l hl
    rw [Finset.mem_Ico] at hl
    refine Finset.sum_eq_zero fun m hm => ?_
    rw [Finset.mem_Ico] at hm
    rw [h l m hl.1 hl.2 (by rw [abs_le]; omega)]
    simp

theorem sampleEnergy_nonneg {σ : Scheme} {L ns : ℤ} {w : ℤ → ℝ}
    (hw : ∀ t, 0 ≤ t → t < σ.rings L ns → 0 < w t) (f : ℤ → ℤ → ℂ) :
    0 ≤ sampleEnergy σ L ns w f :=
  Finset.sum_nonneg fun t ht => Finset.sum_nonneg fun _ _ => by
    rw [Finset.mem_Ico] at ht
    exact mul_nonneg (hw t ht.1 ht.2).le (by positivity)

theorem sampleEnergy_eq_zero {σ : Scheme} {L ns : ℤ} {w : ℤ → ℝ}
    (hw : ∀ t, 0 ≤ t → t < σ.rings L ns → 0 < w t) {f : ℤ → ℤ → ℂ} :
    sampleEnergy σ L ns w f = 0
      ↔ ∀ t p, σ.Has L ns t p → f (σ.pos ns t p).1 (σ.pos ns t p).2 = 0 := by
  unfold sampleEnergy
  have hp : ∀ t ∈ Finset.Ico 0 (σ.rings L ns), ∀ p : ℤ,
      0 ≤ w t * ‖f (σ.pos ns t p).1 (σ.pos ns t p).2‖ ^ 2 := fun t ht p => by
    rw [Finset.mem_Ico] at ht
    exact mul_nonneg (hw t ht.1 ht.2).le (by positivity)
  rw [Finset.sum_eq_zero_iff_of_nonneg fun t ht => Finset.sum_nonneg fun p _ => hp t ht p]
  constructor
  · intro h t p ht
    have m := Finset.mem_Ico.2 ⟨ht.1, ht.2.1⟩
    have := h t m
    rw [Finset.sum_eq_zero_iff_of_nonneg fun p _ => hp t m p] at this
    have := this p (Finset.mem_Ico.2 ht.2.2)
    rcases mul_eq_zero.1 this with h | h
    · exact absurd h (hw t ht.1 ht.2.1).ne'
    · simpa using h
  · intro h t ht
    rw [Finset.mem_Ico] at ht
    refine Finset.sum_eq_zero fun p hp => ?_
    rw [Finset.mem_Ico] at hp
    rw [h t p ⟨ht.1, ht.2, hp.1, hp.2⟩]
    simp

/-- The weights of the equiangular and Gauss–Legendre rules are positive. -/
theorem innerWeight_pos (G : GlTables) {σ : Scheme} (hσ : σ = .dh ∨ σ = .gl) {L ns : ℤ} (hL : 1 ≤ L)
    (hS : SamplingTheorem G σ L) (t : ℤ) (h0 : 0 ≤ t) (h1 : t < σ.rings L ns) :
    0 < innerWeight G σ L ns t := by
  rcases hσ with rfl | rfl
  · exact dh_weight_pos hL h0 h1
  · have h := hS.2 rfl
    have h1' : t < L := h1
    show 0 < G.weights L t
    rw [h.weight t h0 h1']
    obtain ⟨N, rfl⟩ : ∃ N : ℕ, L = N + 1 := ⟨(L - 1).toNat, by omega⟩
    have hn : ((N : ℤ) + 1).toNat = N + 1 := by omega
    have hr := h.root (N + 1 - 1 - t) (by omega) (by omega)
    have hne := gl_node_ne N (G.nodes (N + 1)) (fun i j => h.mono i j)
      (fun i a b => by have := h.root i a b; rwa [hn] at this) (N + 1 - 1 - t) (by omega) (by omega)
    have habs := legendre_root_abs _ _ hr
    rw [hn]
    have h2 : 0 < 1 - G.nodes (N + 1) (N + 1 - 1 - t) ^ 2 := by nlinarith [habs.1, habs.2]
    have h3 := hne.2
    have h4 : (0 : ℝ) < 2 * ((N + 1 : ℤ) : ℝ) - 1 := by push_cast; linarith [(Nat.cast_nonneg N : (0 : ℝ) ≤ N)]
    have := Real.pi_pos
    positivity

/-- The best approximation, from an adjoint pair that conserves energy. -/
theorem closer_of {σ : Scheme} {lo L ns : ℤ} {w : ℤ → ℝ} {f F H : ℤ → ℤ → ℂ} {g c : ℤ → ℤ → ℂ}
    (h1 : coeffInner lo L g c = sampleInner σ L ns w f H)
    (h2 : coeffInner lo L g g = sampleInner σ L ns w f F)
    (h3 : sampleEnergy σ L ns w H = coeffEnergy lo L c)
    (h4 : sampleEnergy σ L ns w F = coeffEnergy lo L g) : Closer σ L ns w lo f F H g c := by
  have h := pythagoras h1 h2 h3 h4
  refine ⟨h, by linarith [coeffEnergy_nonneg lo L (g - c)], ?_⟩
  rw [h, left_eq_add, coeffEnergy_eq_zero]
  simp only [Pi.sub_apply, sub_eq_zero]

theorem captures_of {σ : Scheme} {lo L ns : ℤ} {w : ℤ → ℝ} {f F : ℤ → ℤ → ℂ} {g : ℤ → ℤ → ℂ}
    (hw : ∀ t, 0 ≤ t → t < σ.rings L ns → 0 < w t)
    (h2 : coeffInner lo L g g = sampleInner σ L ns w f F)
    (h4 : sampleEnergy σ L ns w F = coeffEnergy lo L g) : Captures σ L ns w lo f F g := by
  have h2' := congrArg (starRingEnd ℂ) h2
  rw [coeffInner_conj, sampleInner_conj] at h2'
  have h : sampleEnergy σ L ns w f = coeffEnergy lo L g + sampleEnergy σ L ns w (f - F) := by
    have h4' := congrArg (fun x : ℝ => (x : ℂ)) h4
    simp only [← sampleInner_self, ← coeffInner_self] at h4'
    have : ((sampleEnergy σ L ns w f : ℝ) : ℂ)
        = (coeffEnergy lo L g + sampleEnergy σ L ns w (f - F) : ℝ) := by
      push_cast
      rw [← sampleInner_self, ← sampleInner_self, ← coeffInner_self, sampleInner_sub, ← h2, ← h2',
        h4']
      ring
    exact_mod_cast this
  refine ⟨h, by linarith [sampleEnergy_nonneg hw (f - F)], ?_⟩
  rw [h, left_eq_add, sampleEnergy_eq_zero hw]
  simp only [Pi.sub_apply, sub_eq_zero]

theorem coeffInner_low {lo L s : ℤ} {g : ℤ → ℤ → ℂ}
    (hg : ∀ l m, lo ≤ l → l < |s| → l < L → |m| ≤ l → g l m = 0)
    (c : ℤ → ℤ → ℂ) : coeffInner lo L g c = coeffInner (max lo |s|) L g c := by
  unfold coeffInner
  rw [show lmSum lo L (fun l m => g l m * (starRingEnd ℂ) (c l m))
      = lmSum lo L fun l m => if l < |s| then 0 else g l m * (starRingEnd ℂ) (c l m) from
    lmSum_congr fun l m l0 l1 hm => by
      split_ifs with h
      · rw [hg l m l0 h l1 hm, zero_mul]
      · rfl, lmSum_low (s := s) fun l m hl => by rw [if_pos hl]]
  exact lmSum_congr fun l m l0 l1 hm => by rw [if_neg (by omega)]

/-! ## On the rotation group -/

theorem so3Inner_conj (σ : Scheme) (L N ns : ℤ) (w : ℤ → ℝ) (f g : ℤ → ℤ → ℤ → ℂ) :
    (starRingEnd ℂ) (so3Inner σ L N ns w f g) = so3Inner σ L N ns w g f := by
  unfold so3Inner
  simp only [map_mul, map_div₀, map_sub, map_sum, sampleInner_conj, Complex.conj_ofReal, map_ofNat,
    map_one, map_intCast]

theorem so3Inner_sub (σ : Scheme) (L N ns : ℤ) (w : ℤ → ℝ) (f h : ℤ → ℤ → ℤ → ℂ) :
    so3Inner σ L N ns w (f - h) (f - h) = so3Inner σ L N ns w f f - so3Inner σ L N ns w f h
      - so3Inner σ L N ns w h f + so3Inner σ L N ns w h h := by
  unfold so3Inner
  simp only [Pi.sub_apply, sampleInner_sub, Finset.sum_sub_distrib, Finset.sum_add_distrib]
  ring

theorem wignerInner_conj (lo L N : ℤ) (a b : ℤ → ℤ → ℤ → ℂ) :
    (starRingEnd ℂ) (wignerInner lo L N a b) = wignerInner lo L N b a := by
  unfold wignerInner lmSum
  simp only [map_sum, map_mul, map_div₀, map_add, map_pow, map_one, map_ofNat, map_intCast,
    Complex.conj_conj, Complex.conj_ofReal]
  exact Finset.sum_congr rfl fun n _ => Finset.sum_congr rfl fun t _ =>
    Finset.sum_congr rfl fun p _ => by ring

theorem wignerInner_sub (lo L N : ℤ) (a b : ℤ → ℤ → ℤ → ℂ) :
    wignerInner lo L N (a - b) (a - b) = wignerInner lo L N a a - wignerInner lo L N a b
      - wignerInner lo L N b a + wignerInner lo L N b b := by
  unfold wignerInner lmSum
  simp only [← Finset.sum_sub_distrib, ← Finset.sum_add_distrib]
  refine Finset.sum_congr rfl fun n _ => Finset.sum_congr rfl fun t _ =>
    Finset.sum_congr rfl fun p _ => ?_
  simp only [Pi.sub_apply, map_sub]
  ring

theorem pythagoras_wigner {σ : Scheme} {lo L N ns : ℤ} {w : ℤ → ℝ} {f F H : ℤ → ℤ → ℤ → ℂ}
    {g c : ℤ → ℤ → ℤ → ℂ}
    (h1 : wignerInner lo L N g c = so3Inner σ L N ns w f H)
    (h2 : wignerInner lo L N g g = so3Inner σ L N ns w f F)
    (h3 : so3Energy σ L N ns w H = wignerEnergy lo L N c)
    (h4 : so3Energy σ L N ns w F = wignerEnergy lo L N g) :
    so3Energy σ L N ns w (f - H) = so3Energy σ L N ns w (f - F) + wignerEnergy lo L N (g - c) := by
  have h1' := congrArg (starRingEnd ℂ) h1
  have h2' := congrArg (starRingEnd ℂ) h2
  rw [wignerInner_conj, so3Inner_conj] at h1' h2'
  have h3' := congrArg (fun x : ℝ => (x : ℂ)) h3
  have h4' := congrArg (fun x : ℝ => (x : ℂ)) h4
  simp only [← so3Inner_self, ← wignerInner_self] at h3' h4'
  have : ((so3Energy σ L N ns w (f - H) : ℝ) : ℂ)
      = (so3Energy σ L N ns w (f - F) + wignerEnergy lo L N (g - c) : ℝ) := by
    push_cast
    rw [← so3Inner_self, ← so3Inner_self, ← wignerInner_self, so3Inner_sub, so3Inner_sub,
      wignerInner_sub, ← h1, ← h2, ← h1', ← h2', h3', h4']
    ring
  exact_mod_cast this

theorem wignerWeight_pos {l : ℤ} (hl : 0 ≤ l) : 0 < (2 * (l : ℝ) + 1) / (8 * Real.pi ^ 2) := by
  have : (0 : ℝ) ≤ l := by exact_mod_cast hl
  have := Real.pi_pos
  positivity

theorem wignerEnergy_nonneg {lo : ℤ} (L N : ℤ) (h0 : 0 ≤ lo) (c : ℤ → ℤ → ℤ → ℂ) :
    0 ≤ wignerEnergy lo L N c :=
  Finset.sum_nonneg fun n _ => Finset.sum_nonneg fun l hl => Finset.sum_nonneg fun _ _ => by
    rw [Finset.mem_Ico] at hl
    have := wignerWeight_pos (l := l) (by omega)
    positivity

theorem wignerEnergy_eq_zero {lo L N : ℤ} (h0 : 0 ≤ lo) {c : ℤ → ℤ → ℤ → ℂ} :
    wignerEnergy lo L N c = 0
      ↔ ∀ n l m, |n| < N → max lo |n| ≤ l → l < L → |m| ≤ l → c n l m = 0 := by
  have hp : ∀ n : ℤ, ∀ l ∈ Finset.Ico (max lo |n|) L, ∀ m,
      0 ≤ (2 * (l : ℝ) + 1) / (8 * Real.pi ^ 2) * ‖c n l m‖ ^ 2 := fun n l hl m => by
    rw [Finset.mem_Ico] at hl
    have := wignerWeight_pos (l := l) (by omega)
    positivity
  unfold wignerEnergy
  rw [Finset.sum_eq_zero_iff_of_nonneg fun n _ => Finset.sum_nonneg fun l hl =>
    Finset.sum_nonneg fun m _ => hp n l hl m]
  constructor
  · intro h n l m hn l0 l1 hm
    have := h n (Finset.mem_Ioo.2 (abs_lt.1 hn))
    rw [Finset.sum_eq_zero_iff_of_nonneg fun l hl => Finset.sum_nonneg fun m _ => hp n l hl m] at this
    have hl := Finset.mem_Ico.2 ⟨l0, l1⟩
    have := this l hl
    rw [Finset.sum_eq_zero_iff_of_nonneg fun m _ => hp n l hl m] at this
    have := this m (Finset.mem_Ico.2 (by rw [abs_le] at hm; omega))
    rcases mul_eq_zero.1 this with h | h
    · exact absurd h (wignerWeight_pos (by omega)).ne'
    · simpa using h
  · intro h n hn
    rw [Finset.mem_Ioo] at hn
    refine Finset.sum_eq_zero fun l hl => Finset.sum_eq_zero fun m hm => ?_
    rw [Finset.mem_Ico] at hl hm
    rw [h n l m (abs_lt.2 hn) hl.1 hl.2 (by rw [abs_le]; omega)]
    simp

theorem so3Energy_nonneg {σ : Scheme} {L N ns : ℤ} (hN : 1 ≤ N) {w : ℤ → ℝ}
    (hw : ∀ t, 0 ≤ t → t < σ.rings L ns → 0 < w t) (f : ℤ → ℤ → ℤ → ℂ) :
    0 ≤ so3Energy σ L N ns w f := by
  have h : (1 : ℝ) ≤ N := by exact_mod_cast hN
  have hpi := Real.pi_pos
  exact mul_nonneg (div_nonneg (by positivity) (by linarith))
    (Finset.sum_nonneg fun k _ => sampleEnergy_nonneg hw _)

theorem so3Energy_eq_zero {σ : Scheme} {L N ns : ℤ} (hN : 1 ≤ N) {w : ℤ → ℝ}
    (hw : ∀ t, 0 ≤ t → t < σ.rings L ns → 0 < w t) {f : ℤ → ℤ → ℤ → ℂ} :
    so3Energy σ L N ns w f = 0 ↔ ∀ k t p, 0 ≤ k → k < 2 * N - 1 → σ.Has L ns t p →
      f k (σ.pos ns t p).1 (σ.pos ns t p).2 = 0 := by
  have h : (1 : ℝ) ≤ N := by exact_mod_cast hN
  have hpi := Real.pi_pos
  unfold so3Energy
  rw [mul_eq_zero, or_iff_right (div_pos (by positivity) (by linarith)).ne',
    Finset.sum_eq_zero_iff_of_nonneg fun k _ => sampleEnergy_nonneg hw _]
  constructor
  · intro h k t p k0 k1 ht
    exact (sampleEnergy_eq_zero hw).1 (h k (Finset.mem_Ico.2 ⟨k0, k1⟩)) t p ht
  · intro h k hk
    rw [Finset.mem_Ico] at hk
    exact (sampleEnergy_eq_zero hw).2 fun t p ht => h k t p hk.1 hk.2 ht

theorem closer_wigner {σ : Scheme} {lo L N ns : ℤ} (h0 : 0 ≤ lo) {w : ℤ → ℝ}
    {f F H : ℤ → ℤ → ℤ → ℂ} {g c : ℤ → ℤ → ℤ → ℂ}
    (h1 : wignerInner lo L N g c = so3Inner σ L N ns w f H)
    (h2 : wignerInner lo L N g g = so3Inner σ L N ns w f F)
    (h3 : so3Energy σ L N ns w H = wignerEnergy lo L N c)
    (h4 : so3Energy σ L N ns w F = wignerEnergy lo L N g) :
    CloserSo3 σ L N ns w lo f F H g c := by
  have h := pythagoras_wigner h1 h2 h3 h4
  refine ⟨h, by linarith [wignerEnergy_nonneg L N h0 (g - c)], ?_⟩
  rw [h, left_eq_add, wignerEnergy_eq_zero h0]
  simp only [Pi.sub_apply, sub_eq_zero]

theorem captures_wigner {σ : Scheme} {lo L N ns : ℤ} (hN : 1 ≤ N) {w : ℤ → ℝ}
    {f F : ℤ → ℤ → ℤ → ℂ} {g : ℤ → ℤ → ℤ → ℂ}
    (hw : ∀ t, 0 ≤ t → t < σ.rings L ns → 0 < w t)
    (h2 : wignerInner lo L N g g = so3Inner σ L N ns w f F)
    (h4 : so3Energy σ L N ns w F = wignerEnergy lo L N g) : CapturesSo3 σ L N ns w lo f F g := by
  have h2' := congrArg (starRingEnd ℂ) h2
  rw [wignerInner_conj, so3Inner_conj] at h2'
  have h : so3Energy σ L N ns w f = wignerEnergy lo L N g + so3Energy σ L N ns w (f - F) := by
    have h4' := congrArg (fun x : ℝ => (x : ℂ)) h4
    simp only [← so3Inner_self, ← wignerInner_self] at h4'
    have : ((so3Energy σ L N ns w f : ℝ) : ℂ)
        = (wignerEnergy lo L N g + so3Energy σ L N ns w (f - F) : ℝ) := by
      push_cast
      rw [← so3Inner_self, ← so3Inner_self, ← wignerInner_self, so3Inner_sub, ← h2, ← h2', h4']
      ring
    exact_mod_cast this
  refine ⟨h, by linarith [so3Energy_nonneg hN hw (f - F)], ?_⟩
  rw [h, left_eq_add, so3Energy_eq_zero hN hw]
  simp only [Pi.sub_apply, sub_eq_zero]

end S2fft
