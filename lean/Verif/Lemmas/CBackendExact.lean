import Verif.Lemmas.CBackendInstance
import Verif.Props.C39
import Verif.Lemmas.BaseWigner
import Mathlib.LinearAlgebra.Basis.VectorSpace
import Mathlib.LinearAlgebra.Pi

/-! # Exactness of the wrapped forward transforms -/

namespace S2fft
open Spec

theorem sYlm_below {s l : ℤ} (h : l < |s|) (m : ℤ) (θ φ : ℝ) : sYlm s l m θ φ = 0 := by
  unfold sYlm
  rw [wignerd_outside _ _ _ _ (Or.inr (by rwa [abs_neg]))]
  simp

/-- Coefficients as sums over the grid. -/
theorem fAt_gridSum {nodes : ℤ → ℤ → ℝ} {σ : Scheme} {L ns s : ℤ} {w : ℤ → ℝ} {f : ℤ → ℤ → ℂ}
    (el m : ℤ) :
    fAt (ringSum σ L ns f) s (σ.rings L ns) (fun t => σ.theta nodes L ns t) w el m
      = gridSum σ L ns (fun t p => w t
          * (starRingEnd ℂ) (sYlm s el m (σ.theta nodes L ns t) (σ.phi L ns t p))
          * f (σ.pos ns t p).1 (σ.pos ns t p).2) := by
  unfold fAt gridSum ringSum
  refine Finset.sum_congr rfl fun t _ => ?_
  rw [Finset.mul_sum]
  refine Finset.sum_congr rfl fun p _ => ?_
  unfold sYlm elfactor
  simp only [map_mul, map_zpow₀, map_neg, map_one, Complex.conj_ofReal, conj_cis]
  push_cast
  ring

/-- One coefficient. -/
theorem lmSum_single {L l m : ℤ} (h0 : 0 ≤ l) (h1 : l < L) (h2 : |m| ≤ l) (a : ℤ → ℤ → ℂ) :
    lmSum 0 L (fun l' m' => if l = l' ∧ m = m' then a l' m' else 0) = a l m := by
  unfold lmSum
  rw [abs_le] at h2
  rw [Finset.sum_eq_single l, Finset.sum_eq_single m]
  · exact if_pos ⟨rfl, rfl⟩
  · intro m' _ hm
    exact if_neg (fun h => hm h.2.symm)
  · intro h
    rw [Finset.mem_Ico] at h
    omega
  · intro l' _ hl
    refine Finset.sum_eq_zero fun m' _ => ?_
    exact if_neg (fun h => hl h.1.symm)
  · intro h
    rw [Finset.mem_Ico] at h
    omega

/-- Every scheme of SSHT recovers coefficients. -/
theorem ssht_ortho {S : Ssht} {G : GlTables} {K : Scheme → ℤ → ℤ → ℤ → ℤ → ℤ → ℤ → ℂ}
    (hS : SshtContract S G.nodes (sshtWeight G.weights) K) (hK : SshtExact G.nodes K) {σ : Scheme}
    {L s : ℤ} (hL : 1 ≤ L) (hσ : SamplingTheorem G σ L) {l m l' m' : ℤ} (a : |s| ≤ l) (b : l < L)
    (c : |m| ≤ l) (a' : |s| ≤ l') (b' : l' < L) (c' : |m'| ≤ l') :
    gridSum σ L 0 (fun t p =>
      K σ L s l m t p * sYlm s l' m' (σ.theta G.nodes L 0 t) (σ.phi L 0 t p))
      = if l = l' ∧ m = m' then 1 else 0 := by
  by_cases hq : σ = .mw ∨ σ = .mwss
  · exact hK σ L s l m l' m' hq hL a b c a' b' c'
  have hd : σ = .dh ∨ σ = .gl := by
    have := hσ.1
    revert this hq
    cases σ <;> simp
  have hv : σ.Valid L 0 := ⟨hL, fun h => absurd h hσ.1⟩
  set f : ℤ → ℤ → ℂ := fun t p => sYlm s l' m' (σ.theta G.nodes L 0 t) (σ.phi L 0 t p) with hf
  have key := analysis_exact (G := G) (reality := false) (spin := s) hv hσ
    (c := fun l m => if l' = l ∧ m' = m then 1 else 0) (f := .d2 (σ.rings L 0) (σ.ringLen L 0 0) f) (by
      intro t p _
      rw [pos_plain hσ.1]
      show f t p = lmSum 0 L (fun l m => (if l' = l ∧ m' = m then 1 else 0)
        * sYlm s l m (σ.theta G.nodes L 0 t) (σ.phi L 0 t p))
      simp only [ite_mul, zero_mul, one_mul]
      rw [lmSum_single ((abs_nonneg s).trans a') b' c'
        (fun l m => sYlm s l m (σ.theta G.nodes L 0 t) (σ.phi L 0 t p))])
    (fun h => nomatch h) (fun h => nomatch h) (el := l) (m := m) ((abs_nonneg s).trans a) b
    (by rw [abs_le] at c; omega) (by rw [abs_le] at c; omega) a
  rw [if_pos c] at key
  have hin : σ.inner = σ ∧ innerSignal σ L s f = f ∧ innerRings σ L 0 = σ.rings L 0 ∧
      innerTheta G.nodes σ L 0 = (fun t => σ.theta G.nodes L 0 t) ∧
      innerWeight G σ L 0 = sshtWeight G.weights σ L := by
    rcases hd with rfl | rfl <;> exact ⟨rfl, rfl, rfl, rfl, rfl⟩
  unfold symm at key
  rw [if_neg (by simp)] at key
  rw [show (Nd.d2 (σ.rings L 0) (σ.ringLen L 0 0) f).get2 = f from rfl, hin.1, hin.2.1, hin.2.2.1,
    hin.2.2.2.1, hin.2.2.2.2, fAt_gridSum] at key
  rw [show (if l = l' ∧ m = m' then (1 : ℂ) else 0) = if l' = l ∧ m' = m then 1 else 0 by
    simp only [eq_comm], ← key]
  refine gridSum_congr fun t p _ => ?_
  rw [hS.kernel_quad σ L s l m t p hd, pos_plain hσ.1]

/-- The forward transforms of SSHT recover the coefficients of an expansion from its samples. -/
theorem ssht_recover {S : Ssht} {G : GlTables} {K : Scheme → ℤ → ℤ → ℤ → ℤ → ℤ → ℤ → ℂ}
    (hS : SshtContract S G.nodes (sshtWeight G.weights) K) (hK : SshtExact G.nodes K) {σ : Scheme}
    {L s : ℤ} (hL : 1 ≤ L) (hσ : SamplingTheorem G σ L) {c f : ℤ → ℤ → ℂ}
    (hf : SamplesOf G.nodes σ L 0 f (harmonicSum 0 L s c)) {l m : ℤ} (a : |s| ≤ l) (b : l < L)
    (hm : |m| ≤ l) :
    gridSum σ L 0 (fun t p => K σ L s l m t p * f t p) = c l m := by
  have e : gridSum σ L 0 (fun t p => K σ L s l m t p * f t p)
      = gridSum σ L 0 (fun t p => lmSum 0 L (fun l' m' => K σ L s l m t p
          * sYlm s l' m' (σ.theta G.nodes L 0 t) (σ.phi L 0 t p) * c l' m')) := by
    refine gridSum_congr fun t p h => ?_
    have := hf t p h
    rw [pos_plain hσ.1] at this
    rw [this]
    show _ * lmSum 0 L (fun l' m' => c l' m' * sYlm s l' m' _ _) = _
    rw [← lmSum_mul_left]
    exact lmSum_congr fun l' m' _ _ _ => by ring
  rw [e, gridSum_lmSum]
  simp only [gridSum_mul]
  rw [← lmSum_single ((abs_nonneg s).trans a) b hm c]
  refine lmSum_congr fun l' m' h0 h1 h2 => ?_
  by_cases hl : |s| ≤ l'
  · rw [ssht_ortho hS hK hL hσ a b hm hl h1 h2]
    split_ifs <;> simp
  · rw [if_neg (by rintro ⟨rfl, -⟩; exact hl a)]
    rw [show gridSum σ L 0 (fun t p => K σ L s l m t p
        * sYlm s l' m' (σ.theta G.nodes L 0 t) (σ.phi L 0 t p)) = gridSum σ L 0 (fun _ _ => 0) from
      gridSum_congr fun t p _ => by rw [sYlm_below (not_le.1 hl), mul_zero]]
    simp [gridSum]

/-! ## An SSHT that is exact -/

/-- Harmonics are determined by their samples. -/
theorem samples_zero (G : GlTables) {σ : Scheme} (hσ : σ = .mw ∨ σ = .mwss) {L s : ℤ} (hL : 1 ≤ L)
    {c : ℤ → ℤ → ℂ} (h : ∀ t p, σ.Has L 0 t p →
      harmonicSum 0 L s c (σ.theta G.nodes L 0 t) (σ.phi L 0 t p) = 0) {l m : ℤ} (a : |s| ≤ l)
    (b : l < L) (hm : |m| ≤ l) : c l m = 0 := by
  have hne : σ ≠ .healpix := by rcases hσ with rfl | rfl <;> decide
  have hST : SamplingTheorem G σ L := ⟨hne, by rcases hσ with rfl | rfl <;> exact fun h => nomatch h⟩
  have hv : σ.Valid L 0 := ⟨hL, fun h => absurd h hne⟩
  have hm' := abs_le.1 hm
  have key := fun (c : ℤ → ℤ → ℂ) hs => analysis_exact (G := G) (reality := false) (spin := s) hv hST
    (c := c) (f := .d2 (σ.rings L 0) (σ.ringLen L 0 0) (fun _ _ => 0)) hs
    (fun h => nomatch h) (fun h => nomatch h) (el := l) (m := m) ((abs_nonneg s).trans a) b
    (by omega) (by omega) a
  have h1 := key c (fun t p ht => (h t p ht).symm)
  have h2 := key (fun _ _ => 0) (fun t p _ => by simp [harmonicSum, Nd.get2])
  rw [if_pos hm] at h1 h2
  rw [← h1, h2]

/-- The triangle of degrees and orders. -/
noncomputable def triangle (s L : ℤ) : Finset (ℤ × ℤ) :=
  (Finset.Ico |s| L ×ˢ Finset.Ioo (-L) L).filter (fun q => |q.2| ≤ q.1)

theorem mem_triangle {s L l m : ℤ} : (l, m) ∈ triangle s L ↔ |s| ≤ l ∧ l < L ∧ |m| ≤ l := by
  unfold triangle
  rw [Finset.mem_filter, Finset.mem_product, Finset.mem_Ico, Finset.mem_Ioo]
  constructor
  · rintro ⟨⟨h, -⟩, h'⟩; exact ⟨h.1, h.2, h'⟩
  · rintro ⟨h1, h2, h3⟩
    refine ⟨⟨⟨h1, h2⟩, ?_⟩, h3⟩
    have := abs_le.1 h3
    constructor <;> simp only <;> omega

/-- A kernel of analysis for one grid and one spin. -/
theorem exists_kernel (G : GlTables) {σ : Scheme} (hσ : σ = .mw ∨ σ = .mwss) {L : ℤ} (s : ℤ)
    (hL : 1 ≤ L) : ∃ k : ℤ → ℤ → ℤ → ℤ → ℂ, ∀ l m l' m', |s| ≤ l → l < L → |m| ≤ l →
      |s| ≤ l' → l' < L → |m'| ≤ l' → gridSum σ L 0 (fun t p =>
        k l m t p * sYlm s l' m' (σ.theta G.nodes L 0 t) (σ.phi L 0 t p))
        = if l = l' ∧ m = m' then 1 else 0 := by
  classical
  let T := triangle s L
  let J := Finset.Ico 0 (σ.rings L 0) ×ˢ Finset.Ico 0 (σ.ringLen L 0 0)
  have hlen : ∀ t, σ.ringLen L 0 t = σ.ringLen L 0 0 := by rcases hσ with rfl | rfl <;> exact fun _ => rfl
  let Y : ℤ × ℤ → ℤ × ℤ → ℂ := fun i j =>
    sYlm s i.1 i.2 (σ.theta G.nodes L 0 j.1) (σ.phi L 0 j.1 j.2)
  let A : (T → ℂ) →ₗ[ℂ] (J → ℂ) :=
    { toFun := fun c j => ∑ i : T, c i * Y i.1 j.1
      map_add' := fun c d => by
        funext j
        simp only [Pi.add_apply, add_mul, Finset.sum_add_distrib]
      map_smul' := fun r c => by
        funext j
        simp only [Pi.smul_apply, smul_eq_mul, RingHom.id_apply, Finset.mul_sum, mul_assoc] }
  have hA : LinearMap.ker A = ⊥ := by
    rw [LinearMap.ker_eq_bot']
    intro c hc
    funext i
    obtain ⟨⟨l, m⟩, hi⟩ := i
    let c' : ℤ → ℤ → ℂ := fun l m => if h : (l, m) ∈ T then c ⟨(l, m), h⟩ else 0
    have h0 := mem_triangle.1 hi
    have : c' l m = 0 := by
      refine samples_zero G hσ hL (fun t p ht => ?_) h0.1 h0.2.1 h0.2.2
      have hj : (t, p) ∈ J := by
        rw [Finset.mem_product, Finset.mem_Ico, Finset.mem_Ico]
        exact ⟨⟨ht.1, ht.2.1⟩, ht.2.2.1, by rw [← hlen t]; exact ht.2.2.2⟩
      have hz := congrFun hc ⟨(t, p), hj⟩
      refine Eq.trans ?_ hz
      show lmSum 0 L (fun l m => c' l m * sYlm s l m _ _) = ∑ i : T, c i * Y i.1 (t, p)
      have e1 : ∑ i : T, c i * Y i.1 (t, p) = ∑ q ∈ T, c' q.1 q.2 * Y q (t, p) := by
        rw [← Finset.sum_coe_sort T]
        refine Finset.sum_congr rfl fun i _ => ?_
        show _ = (if h : (i.1.1, i.1.2) ∈ T then c ⟨(i.1.1, i.1.2), h⟩ else 0) * _
        rw [dif_pos i.2]
      rw [e1]
      have e2 : lmSum 0 L (fun l m => c' l m * sYlm s l m (σ.theta G.nodes L 0 t) (σ.phi L 0 t p))
          = ∑ l ∈ Finset.Ico 0 L, ∑ m ∈ Finset.Ioo (-L) L, c' l m * Y (l, m) (t, p) := by
        unfold lmSum
        refine Finset.sum_congr rfl fun l hl => ?_
        rw [Finset.mem_Ico] at hl
        refine Finset.sum_subset (fun m hm => ?_) (fun m _ hm => ?_)
        · rw [Finset.mem_Ico] at hm; rw [Finset.mem_Ioo]; omega
        · rw [Finset.mem_Ico] at hm
          show (if h : (l, m) ∈ T then c ⟨(l, m), h⟩ else 0) * _ = 0
          rw [dif_neg, zero_mul]
          intro h
          have := (mem_triangle.1 h).2.2
          rw [abs_le] at this
          omega
      rw [e2, ← Finset.sum_product']
      symm
      refine Finset.sum_subset (fun q hq => ?_) (fun q _ hq => ?_)
      · obtain ⟨l, m⟩ := q
        have h := mem_triangle.1 hq
        have h2 := abs_le.1 h.2.2
        have h3 := abs_nonneg s
        rw [Finset.mem_product, Finset.mem_Ico, Finset.mem_Ioo]
        constructor <;> constructor <;> simp only <;> omega
      · show (if h : (q.1, q.2) ∈ T then c ⟨(q.1, q.2), h⟩ else 0) * _ = 0
        rw [dif_neg hq, zero_mul]
    show c ⟨(l, m), hi⟩ = 0
    rw [← this]
    show _ = if h : (l, m) ∈ T then c ⟨(l, m), h⟩ else 0
    rw [dif_pos hi]
  obtain ⟨g, hg⟩ := A.exists_leftInverse_of_injective hA
  refine ⟨fun l m t p => if h : (l, m) ∈ T ∧ (t, p) ∈ J then
    g (Pi.single ⟨(t, p), h.2⟩ 1) ⟨(l, m), h.1⟩ else 0, fun l m l' m' a b c a' b' c' => ?_⟩
  have hi : (l, m) ∈ T := mem_triangle.2 ⟨a, b, c⟩
  have hi' : (l', m') ∈ T := mem_triangle.2 ⟨a', b', c'⟩
  have h1 := congrFun (LinearMap.congr_fun hg (Pi.single ⟨(l', m'), hi'⟩ 1)) ⟨(l, m), hi⟩
  have h2 : A (Pi.single ⟨(l', m'), hi'⟩ 1) = fun j => Y (l', m') j.1 := by
    funext j
    show ∑ i : T, (Pi.single (M := fun _ => ℂ) ⟨(l', m'), hi'⟩ 1 : T → ℂ) i * Y i.1 j.1 = _
    rw [Finset.sum_eq_single ⟨(l', m'), hi'⟩]
    · simp
    · intro i _ hne
      rw [Pi.single_eq_of_ne hne, zero_mul]
    · intro h; exact absurd (Finset.mem_univ _) h
  rw [LinearMap.comp_apply, h2, LinearMap.pi_apply_eq_sum_univ g, LinearMap.id_apply] at h1
  rw [Finset.sum_apply] at h1
  have h3 : (if l = l' ∧ m = m' then (1 : ℂ) else 0)
      = (Pi.single (M := fun _ => ℂ) ⟨(l', m'), hi'⟩ 1 : T → ℂ) ⟨(l, m), hi⟩ := by
    by_cases h : l = l' ∧ m = m'
    · obtain ⟨rfl, rfl⟩ := h
      simp
    · rw [if_neg h, Pi.single_eq_of_ne]
      intro e
      have := congrArg Subtype.val e
      simp only [Prod.mk.injEq] at this
      exact h this
  rw [h3, ← h1]
  have h4 : gridSum σ L 0 (fun t p => (if h : (l, m) ∈ T ∧ (t, p) ∈ J then
        g (Pi.single ⟨(t, p), h.2⟩ 1) ⟨(l, m), h.1⟩ else 0) * Y (l', m') (t, p))
      = ∑ q ∈ J, (if h : (l, m) ∈ T ∧ q ∈ J then
        g (Pi.single ⟨q, h.2⟩ 1) ⟨(l, m), h.1⟩ else 0) * Y (l', m') q := by
    unfold gridSum
    rw [Finset.sum_product]
    refine Finset.sum_congr rfl fun t _ => ?_
    rw [hlen t]
  refine h4.trans ?_
  rw [← Finset.sum_coe_sort J]
  refine Finset.sum_congr rfl fun j _ => ?_
  rw [dif_pos ⟨hi, j.2⟩]
  simp only [Pi.smul_apply, smul_eq_mul]
  rw [mul_comm]
  have h5 : (Pi.single (M := fun _ => ℂ) j 1 : J → ℂ) = fun x => if j = x then 1 else 0 := by
    funext x
    by_cases h : x = j
    · subst h; simp
    · rw [Pi.single_eq_of_ne h, if_neg (fun e => h e.symm)]
  rw [← h5]

/-- An exact kernel with the symmetry of real signals. -/
theorem exists_kernel_real (G : GlTables) {σ : Scheme} (hσ : σ = .mw ∨ σ = .mwss) {L : ℤ} (s : ℤ)
    (hL : 1 ≤ L) : ∃ k : ℤ → ℤ → ℤ → ℤ → ℂ,
      (s = 0 → ∀ l m t p, k l (-m) t p = (-1) ^ m * (starRingEnd ℂ) (k l m t p)) ∧
      ∀ l m l' m', |s| ≤ l → l < L → |m| ≤ l →
      |s| ≤ l' → l' < L → |m'| ≤ l' → gridSum σ L 0 (fun t p =>
        k l m t p * sYlm s l' m' (σ.theta G.nodes L 0 t) (σ.phi L 0 t p))
        = if l = l' ∧ m = m' then 1 else 0 := by
  obtain ⟨k, hk⟩ := exists_kernel G hσ s hL
  by_cases h0 : s = 0
  swap
  · exact ⟨k, fun h => absurd h h0, hk⟩
  subst h0
  have hz : ∀ m : ℤ, ((-1 : ℂ)) ^ m * (-1) ^ m = 1 := neg_one_zpow_sq
  refine ⟨fun l m t p => (k l m t p + (-1) ^ m * (starRingEnd ℂ) (k l (-m) t p)) / 2, ?_, ?_⟩
  · intro _ l m t p
    beta_reduce
    rw [neg_neg, neg_one_zpow_neg]
    simp only [map_div₀, map_add, map_mul, map_zpow₀, map_neg, map_one, Complex.conj_conj, map_ofNat]
    linear_combination (-(k l (-m) t p) / 2) * hz m
  · intro l m l' m' a b c a' b' c'
    have e : gridSum σ L 0 (fun t p => (k l m t p + (-1) ^ m * (starRingEnd ℂ) (k l (-m) t p)) / 2
          * sYlm 0 l' m' (σ.theta G.nodes L 0 t) (σ.phi L 0 t p))
        = (gridSum σ L 0 (fun t p => k l m t p
            * sYlm 0 l' m' (σ.theta G.nodes L 0 t) (σ.phi L 0 t p))
          + (-1) ^ m * (-1) ^ m' * (starRingEnd ℂ) (gridSum σ L 0 (fun t p => k l (-m) t p
            * sYlm 0 l' (-m') (σ.theta G.nodes L 0 t) (σ.phi L 0 t p)))) / 2 := by
      rw [conj_gridSum, ← gridSum_mul_left, div_eq_mul_inv, add_mul, ← gridSum_mul, ← gridSum_mul]
      unfold gridSum
      rw [← Finset.sum_add_distrib]
      refine Finset.sum_congr rfl fun t _ => ?_
      rw [← Finset.sum_add_distrib]
      refine Finset.sum_congr rfl fun p _ => ?_
      beta_reduce
      rw [sYlm_zero_neg]
      simp only [map_mul, map_zpow₀, map_neg, map_one, Complex.conj_conj]
      linear_combination (-(-1) ^ m * (starRingEnd ℂ) (k l (-m) t p)
        * sYlm 0 l' m' (σ.theta G.nodes L 0 t) (σ.phi L 0 t p) / 2) * hz m'
    rw [e, hk l m l' m' a b c a' b' c', hk l (-m) l' (-m') a b (by rwa [abs_neg]) a' b'
      (by rwa [abs_neg])]
    by_cases h : l = l' ∧ m = m'
    · rw [if_pos h, if_pos (by obtain ⟨rfl, rfl⟩ := h; simp), h.2, hz]
      simp
    · rw [if_neg h, if_neg (by rintro ⟨h1, h2⟩; exact h ⟨h1, by omega⟩)]
      simp

/-- There is a library that meets the contract and the sampling theorems. -/
theorem sshtExact_met (G : GlTables) : ∃ S K,
    SshtContract S G.nodes (sshtWeight G.weights) K ∧ SshtExact G.nodes K := by
  classical
  choose k hr hk using fun (q : {q : Scheme × ℤ × ℤ // (q.1 = .mw ∨ q.1 = .mwss) ∧ 1 ≤ q.2.1}) =>
    exists_kernel_real G q.2.1 q.1.2.2 q.2.2
  let K : Scheme → ℤ → ℤ → ℤ → ℤ → ℤ → ℤ → ℂ := fun σ L s l m t p =>
    if h : (σ = .mw ∨ σ = .mwss) ∧ 1 ≤ L then k ⟨(σ, L, s), h⟩ l m t p else plainKernel G σ L s l m t p
  refine ⟨kernelSsht G K, K, kernelSsht_contract G (fun σ L s l m t p h => ?_)
    (fun σ L l m t p => ?_), fun σ L s l m l' m' h hL a b c a' b' c' => ?_⟩
  · have hn : ¬ ((σ = .mw ∨ σ = .mwss) ∧ 1 ≤ L) := by
      rcases h with rfl | rfl <;> simp
    simp only [K, dif_neg hn]
    exact (plainSsht_contract G).kernel_quad σ L s l m t p h
  · by_cases h : (σ = .mw ∨ σ = .mwss) ∧ 1 ≤ L
    · simp only [K, dif_pos h]
      exact hr ⟨(σ, L, 0), h⟩ rfl l m t p
    · simp only [K, dif_neg h]
      exact (plainSsht_contract G).kernel_real σ L l m t p
  · simp only [K, dif_pos (show (σ = .mw ∨ σ = .mwss) ∧ 1 ≤ L from ⟨h, hL⟩)]
    exact hk ⟨(σ, L, s), ⟨h, hL⟩⟩ l m l' m' a b c a' b' c'

end S2fft
