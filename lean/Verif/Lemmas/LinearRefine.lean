import Verif.Lemmas.LinearComb
import Verif.Props.C40

/-! # Linear combinations through the iterative refinement on HEALPix -/

namespace S2fft
open Spec

theorem forRange_rel3 {σ : Type*} {lo hi : ℤ} {b c d : ℤ → σ → σ} {s t u : σ}
    (R : σ → σ → σ → Prop) (h0 : R s t u)
    (h : ∀ i s t u, lo ≤ i → i < hi → R s t u → R (b i s) (c i t) (d i u)) :
    R (forRange lo hi b s) (forRange lo hi c t) (forRange lo hi d u) := by
  rcases le_total lo hi with hle | hle
  · induction hi, hle using Int.leInduction with
    | base => rwa [forRange_of_le le_rfl, forRange_of_le le_rfl, forRange_of_le le_rfl]
    | succ n hn ih =>
      rw [forRange_succ hn, forRange_succ hn, forRange_succ hn]
      exact h n _ _ _ hn (by omega) (ih fun i s t u a b => h i s t u a (by omega))
  · rwa [forRange_of_le hle, forRange_of_le hle, forRange_of_le hle]

/-- Three runs of the refinement. -/
theorem refine_rel3 {α β : Type} {f f' f'' : α} (n : ℤ) {fwd : α → Except PyErr β}
    {bwd : β → Except PyErr α} {sub : α → α → α} {add : β → β → β} (R : β → β → β → Prop)
    (h0 : ∃ x y z, fwd f = .ok x ∧ fwd f' = .ok y ∧ fwd f'' = .ok z ∧ R x y z)
    (hs : ∀ x y z, R x y z → ∃ u v w d e g, bwd x = .ok u ∧ bwd y = .ok v ∧ bwd z = .ok w ∧
      fwd (sub f u) = .ok d ∧ fwd (sub f' v) = .ok e ∧ fwd (sub f'' w) = .ok g ∧
      R (add x d) (add y e) (add z g)) :
    ∃ x y z, refine f n fwd bwd sub add = .ok x ∧ refine f' n fwd bwd sub add = .ok y ∧
      refine f'' n fwd bwd sub add = .ok z ∧ R x y z := by
  obtain ⟨x, y, z, e1, e2, e3, h⟩ := h0
  unfold refine
  rw [e1, e2, e3]
  simp only [bind, Except.bind, forRangeM]
  refine forRange_rel3 (fun (p q r : Except PyErr β) =>
    ∃ x y z, p = .ok x ∧ q = .ok y ∧ r = .ok z ∧ R x y z) ⟨x, y, z, rfl, rfl, rfl, h⟩ ?_
  rintro i _ _ _ _ _ ⟨b, b', b'', rfl, rfl, rfl, hb⟩
  obtain ⟨u, v, w, d, e, g, h1, h2, h3, h4, h5, h6, h7⟩ := hs b b' b'' hb
  refine ⟨_, _, _, ?_, ?_, ?_, h7⟩
  · simp only [h1, h4]
    rfl
  · simp only [h2, h5]
    rfl
  · simp only [h3, h6]
    rfl

section
variable (G : GlTables) {L ns : ℤ} (hL : 1 ≤ L) (hn : 1 ≤ ns) (hhp : 2 * ns ≤ L) {spin lo : ℤ}
  (h0 : 0 ≤ lo) (h1 : lo < L) {a b : ℂ} {reality : Bool}
  (hab : reality = true → spin = 0 → a.im = 0 ∧ b.im = 0)
include hL hn hhp h0 h1

/-- Real pixels. -/
def HpReal (ns : ℤ) (reality : Bool) (spin : ℤ) (x : ℤ → ℂ) : Prop :=
  reality = true → spin = 0 → ∀ i, 0 ≤ i → i < 12 * ns ^ 2 → (x i).im = 0

/-- Analysis of pixels. -/
theorem hpForward_values (x : ℤ → ℂ) (hx : HpReal ns reality spin x) :
    ∃ u, baseForwardWith G (.d1 (12 * ns ^ 2) x) L spin sHP bVec (some ns) reality lo
        = .ok (.d2 L (2 * L - 1) u) ∧ RealOrderZero u L spin reality lo ∧
      ∀ el m, 0 ≤ el → el < L → -L < m → m < L → u el (m + L - 1)
        = if el < elStart lo spin then 0 else fAt (ringSum .healpix L ns (fun _ j => x j)) spin
          (Scheme.healpix.rings L ns) (fun t => snapAngle (Scheme.healpix.theta G.nodes L ns t))
          (quad_weights_hp ns) el m := by
  have hv : Scheme.healpix.Valid L ((some ns).getD 0) := ⟨hL, fun _ => hn⟩
  have hre : reality = true → spin = 0 →
      RealRings .healpix L ns (Scheme.healpix.rings L ns) (fun _ j => x j) := by
    intro hr hs t p a b c d
    have := pixel_range hn (L := L) ⟨a, b, c, d⟩
    exact hx hr hs _ this.1 this.2
  obtain ⟨u, e, hu, hz⟩ := baseForwardWith_values G (lower_name .healpix) (method := bVec)
    (by simp [baseMethods]) (fun _ _ => rfl) (spin := spin) hv (fun _ _ => hhp)
    (.d1 (12 * ns ^ 2) x) rfl reality h0 h1 (fun _ hr hs => by subst hs; exact hre hr rfl)
  have hval : ∀ el m, elStart lo spin ≤ el → el < L → -L < m → m < L → u el (m + L - 1)
      = fAt (ringSum .healpix L ns (fun _ j => x j)) spin
          (Scheme.healpix.rings L ns) (fun t => snapAngle (Scheme.healpix.theta G.nodes L ns t))
          (quad_weights_hp ns) el m := by
    intro el m a b m0 m1
    rw [hu el m a b m0 m1]
    show symm _ (fVal (ringSum .healpix L ns (fun _ j => x j)) spin (Scheme.healpix.rings L ns)
      (fun t => Scheme.healpix.theta G.nodes L ns t) (quad_weights_hp ns) el) m = _
    rw [← fAt_snap]
    by_cases hr : effReality reality spin = true
    · have hs := effReality_spin hr
      subst hs
      exact symm_realRings (hre (effReality_true hr) rfl) _ _ _ _ _
    · unfold symm
      rw [if_neg (fun h => hr h.1)]
  refine ⟨u, e, ?_, fun el m a b m0 m1 => ?_⟩
  · intro hr hs el a b
    by_cases hel : el < elStart lo spin
    · rw [hz el _ hel]; rfl
    · have := hval el 0 (not_lt.1 hel) b (by omega) (by omega)
      rw [zero_add] at this
      rw [this]
      subst hs
      apply Complex.conj_eq_iff_im.1
      unfold fAt
      rw [map_sum]
      refine Finset.sum_congr rfl fun t ht => ?_
      rw [Finset.mem_Ico] at ht
      have hA : (starRingEnd ℂ) (ringSum .healpix L ns (fun _ j => x j) t 0)
          = ringSum .healpix L ns (fun _ j => x j) t 0 := by
        unfold ringSum
        rw [map_sum]
        refine Finset.sum_congr rfl fun p hp => ?_
        rw [Finset.mem_Ico] at hp
        have hq := hre hr rfl t p ht.1 ht.2 hp.1 hp.2
        rw [map_mul, Complex.conj_eq_iff_im.2 hq]
        simp [cis]
      simp only [map_mul, hA, Complex.conj_ofReal, zpow_zero, map_one]
  · split_ifs with hel
    · exact hz el _ hel
    · exact hval el m (not_lt.1 hel) b m0 m1

omit hL hhp h0 h1 in
theorem ringSum_pixels {x y z : ℤ → ℂ} (h : ∀ i, 0 ≤ i → i < 12 * ns ^ 2 → z i = a * x i + b * y i)
    {t : ℤ} (t0 : 0 ≤ t) (t1 : t < Scheme.healpix.rings L ns) (m : ℤ) :
    ringSum .healpix L ns (fun _ j => z j) t m = a * ringSum .healpix L ns (fun _ j => x j) t m
      + b * ringSum .healpix L ns (fun _ j => y j) t m := by
  rw [← congrFun (congrFun (ringSum_lin a b .healpix L ns (fun _ j => x j) (fun _ j => y j)) t) m]
  refine Finset.sum_congr rfl fun p hp => ?_
  rw [Finset.mem_Ico] at hp
  have := pixel_range hn (L := L) ⟨t0, t1, hp.1, hp.2⟩
  exact congrArg (· * _) (h _ this.1 this.2)

/-- Three coefficient arrays, the last the combination of the others. -/
def LinRel (a b : ℂ) (L lo spin : ℤ) (reality : Bool) (x y z : Nd ℂ) : Prop :=
  ∃ u v w, x = .d2 L (2 * L - 1) u ∧ y = .d2 L (2 * L - 1) v ∧ z = .d2 L (2 * L - 1) w ∧
    RealOrderZero u L spin reality lo ∧ RealOrderZero v L spin reality lo ∧
    RealOrderZero w L spin reality lo ∧
    ∀ el m, 0 ≤ el → el < L → -L < m → m < L →
      w el (m + L - 1) = a * u el (m + L - 1) + b * v el (m + L - 1)

theorem hpForward_lin {x y z : ℤ → ℂ} (hx : HpReal ns reality spin x)
    (hy : HpReal ns reality spin y) (hz : HpReal ns reality spin z)
    (h : ∀ i, 0 ≤ i → i < 12 * ns ^ 2 → z i = a * x i + b * y i) :
    ∃ u v w, baseForwardWith G (.d1 (12 * ns ^ 2) x) L spin sHP bVec (some ns) reality lo = .ok u ∧
      baseForwardWith G (.d1 (12 * ns ^ 2) y) L spin sHP bVec (some ns) reality lo = .ok v ∧
      baseForwardWith G (.d1 (12 * ns ^ 2) z) L spin sHP bVec (some ns) reality lo = .ok w ∧
      LinRel a b L lo spin reality u v w := by
  obtain ⟨u, e1, r1, h1'⟩ := hpForward_values G hL hn hhp h0 h1 x hx
  obtain ⟨v, e2, r2, h2'⟩ := hpForward_values G hL hn hhp h0 h1 y hy
  obtain ⟨w, e3, r3, h3'⟩ := hpForward_values G hL hn hhp h0 h1 z hz
  refine ⟨_, _, _, e1, e2, e3, u, v, w, rfl, rfl, rfl, r1, r2, r3, fun el m a0 b0 m0 m1 => ?_⟩
  rw [h1' el m a0 b0 m0 m1, h2' el m a0 b0 m0 m1, h3' el m a0 b0 m0 m1]
  split_ifs
  · ring
  · rw [← fAt_lin]
    unfold fAt
    refine Finset.sum_congr rfl fun t ht => ?_
    rw [Finset.mem_Ico] at ht
    rw [ringSum_pixels hn h ht.1 ht.2]

include hab in
theorem hpInverse_lin {x y z : Nd ℂ} (h : LinRel a b L lo spin reality x y z) :
    ∃ u v w, baseInverseWith G x L spin sHP bVec (some ns) reality lo = .ok (.d1 (12 * ns ^ 2) u) ∧
      baseInverseWith G y L spin sHP bVec (some ns) reality lo = .ok (.d1 (12 * ns ^ 2) v) ∧
      baseInverseWith G z L spin sHP bVec (some ns) reality lo = .ok (.d1 (12 * ns ^ 2) w) ∧
      HpReal ns reality spin u ∧ HpReal ns reality spin v ∧ HpReal ns reality spin w ∧
      ∀ i, 0 ≤ i → i < 12 * ns ^ 2 → w i = a * u i + b * v i := by
  have hv : Scheme.healpix.Valid L ((some ns).getD 0) := ⟨hL, fun _ => hn⟩
  have hpos : 0 < 12 * ns ^ 2 := by positivity
  have key : ∀ u, RealOrderZero u L spin reality lo → ∃ f,
      baseInverseWith G (.d2 L (2 * L - 1) u) L spin sHP bVec (some ns) reality lo
        = .ok (.d1 (12 * ns ^ 2) f) ∧ HpReal ns reality spin f ∧
      ∀ t p, Scheme.healpix.Has L ns t p → f (ringStart ns t + p)
        = harmonicSum lo L spin (coeffs u L spin reality)
          (snapAngle (Scheme.healpix.theta G.nodes L ns t)) (Scheme.healpix.phi L ns t p) := by
    intro u hu
    obtain ⟨out, e, hsh, hf⟩ := baseInverse_snapped G .healpix L spin lo (some ns) hv bVec (by simp)
      (fun _ _ => hhp) h0 h1 u reality (fun _ => hu)
    obtain ⟨f, rfl⟩ := Nd.eq_d1 hpos hsh
    refine ⟨f, e, ?_, fun t p ht => hf t p ht⟩
    intro hr hs i i0 i1
    obtain ⟨t, p, t0, t1, p0, p1, rfl⟩ := ring_tile i0 i1 hn
    have := hf t p ⟨t0, t1, p0, p1⟩
    change f (ringStart ns t + p) = _ at this
    rw [this]
    subst hs hr
    unfold coeffs
    rw [if_pos ⟨rfl, rfl⟩]
    refine harmonicSum_real (realCoeffs_real _ fun l a0 b0 => ?_) _ _
    rw [zero_add]
    exact hu rfl rfl l a0 b0
  obtain ⟨u, v, w, rfl, rfl, rfl, r1, r2, r3, hl⟩ := h
  obtain ⟨f, e1, i1, h1'⟩ := key u r1
  obtain ⟨f', e2, i2, h2'⟩ := key v r2
  obtain ⟨f'', e3, i3, h3'⟩ := key w r3
  refine ⟨f, f', f'', e1, e2, e3, i1, i2, i3, fun i a0 b0 => ?_⟩
  obtain ⟨t, p, t0, t1, p0, p1, rfl⟩ := ring_tile a0 b0 hn
  have ht : Scheme.healpix.Has L ns t p := ⟨t0, t1, p0, p1⟩
  rw [h1' t p ht, h2' t p ht, h3' t p ht, ← harmonicSum_lin,
    ← coeffs_lin a b hab L u v]
  refine harmonicSum_congr _ _ fun l m l0 l1 hm => ?_
  rw [abs_le] at hm
  have key2 := fun m x y => hl l m (h0.trans l0) l1 x y
  unfold coeffs
  split_ifs
  · unfold realCoeffs
    split_ifs
    · beta_reduce
      rw [key2 (-m) (by omega) (by omega)]
    · exact key2 _ (by omega) (by omega)
  · exact key2 _ (by omega) (by omega)

include hab in
/-- Analysis with iterative refinement. -/
theorem hpRefined_lin {x y : ℤ → ℂ} (hx : HpReal ns reality spin x) (hy : HpReal ns reality spin y)
    (iter : ℤ) :
    ∃ u v w, baseForward G (.d1 (12 * ns ^ 2) x) L spin sHP (some ns) reality lo iter = .ok u ∧
      baseForward G (.d1 (12 * ns ^ 2) y) L spin sHP (some ns) reality lo iter = .ok v ∧
      baseForward G (.d1 (12 * ns ^ 2) fun i => a * x i + b * y i) L spin sHP (some ns) reality lo iter
        = .ok w ∧ LinRel a b L lo spin reality u v w := by
  have hlin : ∀ {x y : ℤ → ℂ}, HpReal ns reality spin x → HpReal ns reality spin y →
      HpReal ns reality spin (fun i => a * x i + b * y i) := by
    intro x y hx hy hr hs i i0 i1
    have e1 := hx hr hs i i0 i1
    have e2 := hy hr hs i i0 i1
    simp [Complex.mul_im, hab hr hs, e1, e2]
  have hsub : ∀ {x y : ℤ → ℂ}, HpReal ns reality spin x → HpReal ns reality spin y →
      HpReal ns reality spin (fun i => x i - y i) := by
    intro x y hx hy hr hs i i0 i1
    beta_reduce
    rw [Complex.sub_im, hx hr hs i i0 i1, hy hr hs i i0 i1, sub_zero]
  have base := hpForward_lin G hL hn hhp h0 h1 (a := a) (b := b) hx hy (hlin hx hy) (fun _ _ _ => rfl)
  unfold baseForward
  by_cases hi : iter = 0
  · simp only [hi, if_true]
    exact base
  · simp only [hi, if_false]
    refine refine_rel3 iter (LinRel a b L lo spin reality) base ?_
    intro p q r hR
    obtain ⟨f, f', f'', e1, e2, e3, r1, r2, r3, hf⟩ := hpInverse_lin G hL hn hhp h0 h1 hab hR
    obtain ⟨d, e, g, d1, d2, d3, hR'⟩ := hpForward_lin G hL hn hhp h0 h1 (a := a) (b := b)
      (hsub hx r1) (hsub hy r2) (hsub (hlin hx hy) r3) (fun i i0 i1 => by
        rw [hf i i0 i1]
        ring)
    refine ⟨_, _, _, _, _, _, e1, e2, e3, d1, d2, d3, ?_⟩
    obtain ⟨u, v, w, rfl, rfl, rfl, a1, a2, a3, a4⟩ := hR
    obtain ⟨u', v', w', rfl, rfl, rfl, b1, b2, b3, b4⟩ := hR'
    refine ⟨_, _, _, rfl, rfl, rfl, ?_, ?_, ?_, fun el m p0 p1 p2 p3 => ?_⟩
    · intro hr hs el p0 p1
      rw [Complex.add_im, a1 hr hs el p0 p1, b1 hr hs el p0 p1, add_zero]
    · intro hr hs el p0 p1
      rw [Complex.add_im, a2 hr hs el p0 p1, b2 hr hs el p0 p1, add_zero]
    · intro hr hs el p0 p1
      rw [Complex.add_im, a3 hr hs el p0 p1, b3 hr hs el p0 p1, add_zero]
    · rw [a4 el m p0 p1 p2 p3, b4 el m p0 p1 p2 p3]
      ring

end

end S2fft
