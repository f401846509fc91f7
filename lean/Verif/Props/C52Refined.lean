import Verif.Props.C52
import Verif.Lemmas.LinearRefine

/-!
# C52: analysis with iterative refinement commutes with turns
-/

namespace S2fft
open Spec

/-- Two coefficient arrays, the second those of the turned signal. -/
private def TurnRel (α : ℝ) (L lo spin : ℤ) (reality : Bool) (x y : Nd ℂ) : Prop :=
  ∃ u v, x = .d2 L (2 * L - 1) u ∧ y = .d2 L (2 * L - 1) v ∧
    RealOrderZero u L spin reality lo ∧ RealOrderZero v L spin reality lo ∧
    ∀ el m, 0 ≤ el → el < L → -L < m → m < L → v el (m + L - 1) = cis (-(m * α)) * u el (m + L - 1)

private theorem hpReal_sub {ns spin : ℤ} {reality : Bool} {x y : ℤ → ℂ} (hx : HpReal ns reality spin x)
    (hy : HpReal ns reality spin y) : HpReal ns reality spin (fun i => x i - y i) := by
  intro hr hs i i0 i1
  beta_reduce
  rw [Complex.sub_im, hx hr hs i i0 i1, hy hr hs i i0 i1, sub_zero]

private theorem hpReal_turned {L ns spin : ℤ} (hL : 1 ≤ L) (hn : 1 ≤ ns) {reality : Bool} {α : ℝ}
    {x y : ℤ → ℂ} (h : Turned .healpix L ns α (fun _ i => x i) (fun _ i => y i))
    (hx : HpReal ns reality spin x) : HpReal ns reality spin y := by
  intro hr hs i i0 i1
  obtain ⟨t, p, t0, t1, p0, p1, rfl⟩ := ring_tile i0 i1 hn
  obtain ⟨q, hq, _, e⟩ := turned_back ⟨hL, fun _ => hn⟩ h (t := t) (p := p) ⟨t0, t1, p0, p1⟩
  change y (ringStart ns t + p) = x (ringStart ns t + q) at e
  rw [e]
  have := pixel_range hn hq
  exact hx hr hs _ this.1 this.2

section
variable (G : GlTables) {L ns : ℤ} (hL : 1 ≤ L) (hn : 1 ≤ ns) (hhp : 2 * ns ≤ L) {spin lo : ℤ}
  (h0 : 0 ≤ lo) (h1 : lo < L) {α : ℝ} {reality : Bool}
include hL hn hhp h0 h1

private theorem hpForward_turned {x y : ℤ → ℂ} (hx : HpReal ns reality spin x)
    (h : Turned .healpix L ns α (fun _ i => x i) (fun _ i => y i)) :
    ∃ u v, baseForwardWith G (.d1 (12 * ns ^ 2) x) L spin sHP bVec (some ns) reality lo = .ok u ∧
      baseForwardWith G (.d1 (12 * ns ^ 2) y) L spin sHP bVec (some ns) reality lo = .ok v ∧
      TurnRel α L lo spin reality u v := by
  have hv : Scheme.healpix.Valid L ns := ⟨hL, fun _ => hn⟩
  obtain ⟨u, e1, r1, h1'⟩ := hpForward_values G hL hn hhp h0 h1 x hx
  obtain ⟨v, e2, r2, h2'⟩ := hpForward_values G hL hn hhp h0 h1 y (hpReal_turned hL hn h hx)
  refine ⟨_, _, e1, e2, u, v, rfl, rfl, r1, r2, fun el m a0 b0 m0 m1 => ?_⟩
  rw [h1' el m a0 b0 m0 m1, h2' el m a0 b0 m0 m1]
  split_ifs
  · ring
  · exact fAt_smul _ _ _ fun t t0 t1 => ringSum_turned hv h m t0 t1

private theorem hpInverse_turned {x y : Nd ℂ}
    (h : TurnRel α L lo spin reality x y) :
    ∃ u v, baseInverseWith G x L spin sHP bVec (some ns) reality lo = .ok (.d1 (12 * ns ^ 2) u) ∧
      baseInverseWith G y L spin sHP bVec (some ns) reality lo = .ok (.d1 (12 * ns ^ 2) v) ∧
      HpReal ns reality spin u ∧
      ∀ t p p', Scheme.healpix.Has L ns t p → Scheme.healpix.Has L ns t p' →
        SameAngle (Scheme.healpix.phi L ns t p') (Scheme.healpix.phi L ns t p + α) →
        v (ringStart ns t + p') = u (ringStart ns t + p) := by
  have hpos : 0 < 12 * ns ^ 2 := by positivity
  have hv : Scheme.healpix.Valid L ((some ns).getD 0) := ⟨hL, fun _ => hn⟩
  obtain ⟨u, v, rfl, rfl, r1, r2, hl⟩ := h
  have key : ∀ u, RealOrderZero u L spin reality lo → ∃ f,
      baseInverseWith G (.d2 L (2 * L - 1) u) L spin sHP bVec (some ns) reality lo
        = .ok (.d1 (12 * ns ^ 2) f) ∧ HpReal ns reality spin f ∧
      ∀ t p, Scheme.healpix.Has L ns t p → f (ringStart ns t + p)
        = harmonicSum lo L spin (coeffs u L spin reality)
          (snapAngle (Scheme.healpix.theta G.nodes L ns t)) (Scheme.healpix.phi L ns t p) := by
    intro u hu
    obtain ⟨out, e, hsh, hf⟩ := baseInverse_snapped G .healpix L spin lo (some ns) hv bVec (by simp)
      (fun _ _ => hhp) h0 h1 u reality (fun _ => hu)
    obtain ⟨f, rfl⟩ := Nd.eq_d1 hpos hsh
    refine ⟨f, e, ?_, fun t p ht => hf t p ht⟩
    obtain ⟨f', _, w, e', _, _, i1, _, _, _⟩ := hpInverse_lin G hL hn hhp h0 h1
      (a := 1) (b := 0) (reality := reality) (spin := spin) (fun _ _ => by simp)
      (x := .d2 L (2 * L - 1) u) (y := .d2 L (2 * L - 1) u) (z := .d2 L (2 * L - 1) u)
      ⟨u, u, u, rfl, rfl, rfl, hu, hu, hu, fun _ _ _ _ _ _ => by ring⟩
    have : Nd.d1 (12 * ns ^ 2) f = Nd.d1 (12 * ns ^ 2) f' := Except.ok.inj (e.symm.trans e')
    injection this with _ h
    rw [h]
    exact i1
  obtain ⟨f, e1, i1, h1'⟩ := key u r1
  obtain ⟨f', e2, i2, h2'⟩ := key v r2
  refine ⟨f, f', e1, e2, i1, fun t p p' hp hp' ha => ?_⟩
  rw [h1' t p hp, h2' t p' hp', ← harmonicSum_turn lo L spin _ α ha (coeffs_turn u L spin reality α)]
  refine harmonicSum_congr _ _ fun l m l0 l1 hm => ?_
  rw [abs_le] at hm
  have key2 : ∀ m, -L < m → m < L → v l (m + L - 1) = turnCoeffs L α u l (m + L - 1) := by
    intro m a b
    rw [turnCoeffs_cis]
    exact hl l m (h0.trans l0) l1 a b
  unfold coeffs
  split_ifs
  · unfold realCoeffs
    split_ifs
    · beta_reduce
      rw [key2 (-m) (by omega) (by omega)]
    · exact key2 _ (by omega) (by omega)
  · exact key2 _ (by omega) (by omega)

end

/-- With any number of refinement iterations on HEALPix maps. -/
theorem C52_refined (G : GlTables) (L ns spin lo : ℤ) (hL : 1 ≤ L) (hn : 1 ≤ ns) (hhp : 2 * ns ≤ L)
    (h0 : 0 ≤ lo) (h1 : lo < L) (α : ℝ) (reality : Bool) (x y : ℤ → ℂ)
    (hx : reality = true → spin = 0 → ∀ i, 0 ≤ i → i < 12 * ns ^ 2 → (x i).im = 0)
    (ht : Turned .healpix L ns α (fun _ i => x i) (fun _ i => y i)) (iter : ℤ) :
    ∃ u v, baseForward G (.d1 (12 * ns ^ 2) x) L spin sHP (some ns) reality lo iter
        = .ok (.d2 L (2 * L - 1) u) ∧
      baseForward G (.d1 (12 * ns ^ 2) y) L spin sHP (some ns) reality lo iter
        = .ok (.d2 L (2 * L - 1) v) ∧
      ∀ el m, 0 ≤ el → el < L → -L < m → m < L →
        v el (m + L - 1) = turnCoeffs L α u el (m + L - 1) := by
  have base := hpForward_turned G hL hn hhp h0 h1 hx ht
  suffices h : ∃ u v w, baseForward G (.d1 (12 * ns ^ 2) x) L spin sHP (some ns) reality lo iter = .ok u ∧
      baseForward G (.d1 (12 * ns ^ 2) y) L spin sHP (some ns) reality lo iter = .ok v ∧
      baseForward G (.d1 (12 * ns ^ 2) y) L spin sHP (some ns) reality lo iter = .ok w ∧
      TurnRel α L lo spin reality u v ∧ w = v by
    obtain ⟨_, _, _, e, e', _, ⟨u, v, rfl, rfl, _, _, h⟩, _⟩ := h
    exact ⟨u, v, e, e', fun el m a b c d => (h el m a b c d).trans (turnCoeffs_cis L α u el m).symm⟩
  unfold baseForward
  by_cases hi : iter = 0
  · simp only [hi, if_true]
    obtain ⟨u, v, e, e', h⟩ := base
    exact ⟨u, v, v, e, e', e', h, rfl⟩
  · simp only [hi, if_false]
    refine refine_rel3 iter (fun u v w => TurnRel α L lo spin reality u v ∧ w = v) ?_ ?_
    · obtain ⟨u, v, e, e', h⟩ := base
      exact ⟨u, v, v, e, e', e', h, rfl⟩
    rintro p q _ ⟨hR, rfl⟩
    obtain ⟨f, f', e1, e2, r1, hf⟩ := hpInverse_turned G hL hn hhp h0 h1 hR
    obtain ⟨d, d', d1, d2, hR'⟩ := hpForward_turned G hL hn hhp h0 h1 (α := α)
      (y := fun i => y i - f' i) (hpReal_sub hx r1) (fun t p hp => by
        obtain ⟨p', hp', ha, e⟩ := ht t p hp
        refine ⟨p', hp', ha, ?_⟩
        change y (ringStart ns t + p') = x (ringStart ns t + p) at e
        change y (ringStart ns t + p') - f' (ringStart ns t + p')
          = x (ringStart ns t + p) - f (ringStart ns t + p)
        rw [e, hf t p p' hp hp' ha])
    refine ⟨_, _, _, _, _, _, e1, e2, e2, d1, d2, d2, ?_, rfl⟩
    obtain ⟨u, v, rfl, rfl, a1, a2, a3⟩ := hR
    obtain ⟨u', v', rfl, rfl, b1, b2, b3⟩ := hR'
    refine ⟨_, _, rfl, rfl, ?_, ?_, fun el m p0 p1 p2 p3 => ?_⟩
    · intro hr hs el p0 p1
      rw [Complex.add_im, a1 hr hs el p0 p1, b1 hr hs el p0 p1, add_zero]
    · intro hr hs el p0 p1
      rw [Complex.add_im, a2 hr hs el p0 p1, b2 hr hs el p0 p1, add_zero]
    · rw [a3 el m p0 p1 p2 p3, b3 el m p0 p1 p2 p3]
      ring

/-- The conditions are met with the reality flag, two iterations and arbitrary real pixels, turned by
a quarter. -/
example (G : GlTables) (x y : ℤ → ℝ) (h : ∀ t p, 0 ≤ t → t < 4 * 2 - 1 → 0 ≤ p → p < ringSize 2 t →
      (y (ringStart 2 t + p) : ℂ) = x (ringStart 2 t + (p - 1 * (ringSize 2 t / 4)) % ringSize 2 t)) :
    ∃ u v, baseForward G (.d1 (12 * 2 ^ 2) fun i => x i) 6 0 sHP (some 2) true 0 2 = .ok (.d2 6 11 u) ∧
      baseForward G (.d1 (12 * 2 ^ 2) fun i => y i) 6 0 sHP (some 2) true 0 2 = .ok (.d2 6 11 v) ∧
      ∀ el m, 0 ≤ el → el < 6 → -6 < m → m < 6 →
        v el (m + 6 - 1) = turnCoeffs 6 ((1 : ℤ) * (Real.pi / 2)) u el (m + 6 - 1) :=
  C52_refined G 6 2 0 0 (by norm_num) (by norm_num) (by norm_num) le_rfl (by norm_num) _ true
    (fun i => x i) (fun i => y i) (fun _ _ _ _ _ => Complex.ofReal_im _)
    (C52_quarter 6 2 (by norm_num) (by norm_num) 1 _ _ h) 2

end S2fft
