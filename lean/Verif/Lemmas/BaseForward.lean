import Verif.Lemmas.BaseInverseAll
import Verif.Props.C09

/-! # Values of the forward methods -/

namespace S2fft
open Spec

/-- The Fourier sum of order `m` over the samples of ring `t`. -/
noncomputable def ringSum (σ : Scheme) (L nside : ℤ) (f : ℤ → ℤ → ℂ) (t m : ℤ) : ℂ :=
  ∑ p ∈ Finset.Ico 0 (σ.ringLen L nside t),
    f (σ.pos nside t p).1 (σ.pos nside t p).2 * cis (-(m * σ.phi L nside t p))

/-- The coefficient of degree `el` and order `m`. -/
noncomputable def fVal (A : ℤ → ℤ → ℂ) (spin nt : ℤ) (θ w : ℤ → ℝ) (el m : ℤ) : ℂ :=
  ∑ t ∈ Finset.Ico 0 nt, w t * (-1) ^ spin * elfactor el
    * wignerd el m (-spin) (snapAngle (θ t)) * A t m

/-- Completion by conjugate symmetry. -/
noncomputable def symm (reality : Bool) (v : ℤ → ℂ) (m : ℤ) : ℂ :=
  if reality = true ∧ m < 0 then (-1) ^ m * (starRingEnd ℂ) (v (-m)) else v m

theorem symm_zero {reality : Bool} {v : ℤ → ℂ} {m : ℤ} (h1 : v m = 0) (h2 : v (-m) = 0) :
    symm reality v m = 0 := by
  unfold symm; split_ifs <;> simp [h1, h2]

theorem symm_sum {ι : Type*} (reality : Bool) (S : Finset ι) (v : ι → ℤ → ℂ) (m : ℤ) :
    ∑ i ∈ S, symm reality (v i) m = symm reality (fun m => ∑ i ∈ S, v i m) m := by
  unfold symm
  split_ifs
  · rw [map_sum, Finset.mul_sum]
  · rfl

theorem forRange_congr {σ : Type*} {lo hi : ℤ} {b c : ℤ → σ → σ} {s : σ}
    (h : ∀ i s, lo ≤ i → i < hi → b i s = c i s) : forRange lo hi b s = forRange lo hi c s := by
  rcases le_total lo hi with hle | hle
  · obtain ⟨n, rfl⟩ : ∃ n : ℕ, hi = lo + n := ⟨(hi - lo).toNat, by omega⟩
    clear hle
    induction n with
    | zero => simp [forRange_of_le]
    | succ n ih =>
      have e : lo + ((n + 1 : ℕ) : ℤ) = (lo + n) + 1 := by push_cast; ring
      rw [e, forRange_succ (by omega), forRange_succ (by omega),
        ih (fun i s h1 h2 => h i s h1 (by push_cast; omega)), h _ _ (by omega) (by push_cast; omega)]
  · rw [forRange_of_le hle, forRange_of_le hle]

/-- The innermost loop of the three methods that have one. -/
noncomputable def analStep (reality : Bool) (L el : ℤ) (v0 : ℂ) (v : ℤ → ℂ) (flm : ℤ → ℤ → ℂ) :
    ℤ → ℤ → ℂ :=
  if reality then
    forRange 1 (el + 1) (fun m flm =>
      add2 (add2 flm el (m + L - 1) (v m)) el (-m + L - 1) ((-1) ^ m * (starRingEnd ℂ) (v m)))
      (add2 flm el (L - 1) v0)
  else forRange (-el) (el + 1) (fun m flm => add2 flm el (m + L - 1) (v m)) flm

theorem analStep_row {reality : Bool} {L el x y : ℤ} {v0 : ℂ} {v : ℤ → ℂ} {flm : ℤ → ℤ → ℂ}
    (h : x ≠ el) : analStep reality L el v0 v flm x y = flm x y := by
  unfold analStep
  split_ifs
  · refine (forRange_frame _ _ _ _ (fun f : ℤ → ℤ → ℂ => f x y) ?_).trans ?_
    · intro m f _ _
      rw [add2_row_ne h, add2_row_ne h]
    · exact add2_row_ne h
  · refine forRange_frame _ _ _ _ (fun f : ℤ → ℤ → ℂ => f x y) ?_
    intro m f _ _
    exact add2_row_ne h

theorem analStep_apply' {reality : Bool} {L el m : ℤ} {v0 : ℂ} {v : ℤ → ℂ} {flm : ℤ → ℤ → ℂ}
    (h0 : reality = true → v0 = v 0) (hel : 0 ≤ el) (hv : ∀ m, el < |m| → v m = 0) :
    analStep reality L el v0 v flm el (m + L - 1) = flm el (m + L - 1) + symm reality v m := by
  unfold analStep
  split_ifs with h
  · rcases lt_trichotomy m 0 with hm | hm | hm
    · have hs : symm reality v m = (-1) ^ m * (starRingEnd ℂ) (v (-m)) := by
        unfold symm; rw [if_pos ⟨h, hm⟩]
      rw [hs]
      by_cases hb : -m ≤ el
      · refine (forRange_pick _ _ _ _ (fun f : ℤ → ℤ → ℂ => f el (m + L - 1)) (-m)
          ((-1) ^ m * (starRingEnd ℂ) (v (-m))) (by omega) (by omega) ?_ ?_).trans ?_
        · intro f
          rw [add2_apply, if_pos ⟨rfl, by omega⟩, add2_col_ne (by omega)]
          congr 2
          rw [zpow_neg, ← inv_zpow]; norm_num
        · intro i f _ _ hne
          rw [add2_col_ne (by omega), add2_col_ne (by omega)]
        · rw [add2_col_ne (by omega)]
      · rw [hv (-m) (by rw [abs_of_nonneg (by omega)]; omega), map_zero, mul_zero, add_zero]
        refine (forRange_frame _ _ _ _ (fun f : ℤ → ℤ → ℂ => f el (m + L - 1)) ?_).trans ?_
        · intro i f _ _
          rw [add2_col_ne (by omega), add2_col_ne (by omega)]
        · exact add2_col_ne (by omega)
    · subst hm
      have hs : symm reality v 0 = v 0 := by unfold symm; rw [if_neg (by omega)]
      rw [hs]
      refine (forRange_frame _ _ _ _ (fun f : ℤ → ℤ → ℂ => f el (0 + L - 1)) ?_).trans ?_
      · intro i f _ _
        rw [add2_col_ne (by omega), add2_col_ne (by omega)]
      · rw [add2_apply, if_pos ⟨rfl, by omega⟩, h0 h]
    · have hs : symm reality v m = v m := by unfold symm; rw [if_neg (by omega)]
      rw [hs]
      by_cases hb : m ≤ el
      · refine (forRange_pick _ _ _ _ (fun f : ℤ → ℤ → ℂ => f el (m + L - 1)) m
          (v m) (by omega) (by omega) ?_ ?_).trans ?_
        · intro f
          rw [add2_col_ne (by omega), add2_apply, if_pos ⟨rfl, rfl⟩]
        · intro i f _ _ hne
          rw [add2_col_ne (by omega), add2_col_ne (by omega)]
        · rw [add2_col_ne (by omega)]
      · rw [hv m (by rw [abs_of_nonneg (by omega)]; omega), add_zero]
        refine (forRange_frame _ _ _ _ (fun f : ℤ → ℤ → ℂ => f el (m + L - 1)) ?_).trans ?_
        · intro i f _ _
          rw [add2_col_ne (by omega), add2_col_ne (by omega)]
        · exact add2_col_ne (by omega)
  · have hs : symm reality v m = v m := by unfold symm; simp [h]
    rw [hs]
    by_cases hb : |m| ≤ el
    · rw [abs_le] at hb
      refine forRange_pick _ _ _ _ (fun f : ℤ → ℤ → ℂ => f el (m + L - 1)) m
          (v m) (by omega) (by omega) ?_ ?_
      · intro f
        rw [add2_apply, if_pos ⟨rfl, rfl⟩]
      · intro i f _ _ hne
        rw [add2_col_ne (by omega)]
    · rw [hv m (by omega), add_zero]
      refine forRange_frame _ _ _ _ (fun f : ℤ → ℤ → ℂ => f el (m + L - 1)) ?_
      intro i f a b
      rw [add2_col_ne]
      intro h
      apply hb; rw [abs_le]; omega

theorem analStep_congr {reality : Bool} {L el : ℤ} {v0 : ℂ} {v u : ℤ → ℂ} {flm : ℤ → ℤ → ℂ}
    (h : ∀ m, |m| ≤ el → (reality = true → 0 ≤ m) → v m = u m) :
    analStep reality L el v0 v flm = analStep reality L el v0 u flm := by
  unfold analStep
  split_ifs with hr
  · apply forRange_congr
    intro m f a b
    rw [h m (by rw [abs_le]; omega) (fun _ => by omega)]
  · apply forRange_congr
    intro m f a b
    rw [h m (by rw [abs_le]; omega) (fun h => absurd h hr)]

theorem analStep_apply {reality : Bool} {L el m : ℤ} {v0 : ℂ} {v u : ℤ → ℂ} {flm : ℤ → ℤ → ℂ}
    (h0 : reality = true → v0 = u 0) (hel : 0 ≤ el)
    (h : ∀ m, |m| ≤ el → (reality = true → 0 ≤ m) → v m = u m) (hv : ∀ m, el < |m| → u m = 0) :
    analStep reality L el v0 v flm el (m + L - 1) = flm el (m + L - 1) + symm reality u m := by
  rw [analStep_congr h, analStep_apply' h0 hel hv]

/-- What a method must return. -/
def ForwardValues (A : ℤ → ℤ → ℂ) (L spin nt : ℤ) (θ w : ℤ → ℝ) (reality : Bool) (Ll : ℤ)
    (r : Except PyErr (ℤ → ℤ → ℂ)) : Prop :=
  ∃ flm, r = .ok flm ∧
    (∀ el m, elStart Ll spin ≤ el → el < L → -L < m → m < L →
      flm el (m + L - 1) = symm reality (fVal A spin nt θ w el) m) ∧
    (∀ el j, el < elStart Ll spin → flm el j = 0)

theorem wig_zero {el m spin : ℤ} {β : ℝ} (h : el < |m|) : wignerd el m (-spin) β = 0 :=
  wignerd_outside _ _ _ _ (Or.inl h)

/-- The value added at ring `t`. -/
noncomputable def tVal (a : ℤ → ℂ) (spin : ℤ) (θ w : ℝ) (el m : ℤ) : ℂ :=
  w * (-1) ^ spin * elfactor el * wignerd el m (-spin) (snapAngle θ) * a m

theorem tVal_zero {a : ℤ → ℂ} {spin : ℤ} {θ w : ℝ} {el m : ℤ} (h : el < |m|) :
    tVal a spin θ w el m = 0 := by
  unfold tVal; rw [wig_zero h]; simp

theorem fVal_eq (A : ℤ → ℤ → ℂ) (spin nt : ℤ) (θ w : ℤ → ℝ) (el m : ℤ) :
    fVal A spin nt θ w el m = ∑ t ∈ Finset.Ico 0 nt, tVal (A t) spin (θ t) (w t) el m := rfl

/-- Two nested loops over rings and degrees whose body adds one degree's share. -/
theorem ringDegree_values {L spin Ll nt : ℤ} (A : ℤ → ℤ → ℂ) (θ w : ℤ → ℝ) (reality : Bool)
    (body : ℤ → ℤ → (ℤ → ℤ → ℂ) → ℤ → ℤ → ℂ)
    (hrow : ∀ t el f x y, x ≠ el → body t el f x y = f x y)
    (hval : ∀ t el f m, 0 ≤ t → t < nt → elStart Ll spin ≤ el → el < L → -L < m → m < L →
      body t el f el (m + L - 1) = f el (m + L - 1) + symm reality (tVal (A t) spin (θ t) (w t) el) m) :
    ForwardValues A L spin nt θ w reality Ll (.ok (forRange 0 nt (fun t f =>
      forRange (elStart Ll spin) L (fun el f => body t el f) f) (fun _ _ => 0))) := by
  refine ⟨_, rfl, ?_, ?_⟩
  · intro el m h0 h1 h2 h3
    refine (forRange_sum _ _ _ _ (fun f : ℤ → ℤ → ℂ => f el (m + L - 1))
      (fun t => symm reality (tVal (A t) spin (θ t) (w t) el) m) ?_).trans ?_
    · intro t f a b
      refine forRange_pick _ _ _ _ (fun f : ℤ → ℤ → ℂ => f el (m + L - 1)) el _ h0 h1 ?_ ?_
      · intro f
        exact hval t el f m a b h0 h1 h2 h3
      · intro i f _ _ hne
        exact hrow _ _ _ _ _ (Ne.symm hne)
    · simp only [zero_add]
      rw [symm_sum]
      rfl
  · intro el j h
    refine forRange_frame _ _ _ _ (fun f : ℤ → ℤ → ℂ => f el j) ?_
    intro t f _ _
    refine forRange_frame _ _ _ _ (fun f : ℤ → ℤ → ℂ => f el j) ?_
    intro i f a _
    exact hrow _ _ _ _ _ (by omega)

theorem forwardLoop_values {L spin Ll nt off : ℤ} (A ftm : ℤ → ℤ → ℂ) (θ w : ℤ → ℝ) (reality : Bool)
    (phase : ℤ → ℤ → ℂ) (hr : reality = true → spin = 0) 
    (hθ : ∀ t, 0 ≤ t → t < nt → 0 ≤ θ t ∧ θ t ≤ Real.pi)
    (hph : ∀ t, phase t 0 = 1)
    (hA : ∀ t m, 0 ≤ t → t < nt → -L < m → m < L → (reality = true → 0 ≤ m) →
      ftm t (m + L - 1 + off) * phase t m = A t m) :
    ForwardValues A L spin nt θ w reality Ll
      (.ok (forwardLoop ftm L spin nt θ w off phase reality Ll)) := by
  have e : forwardLoop ftm L spin nt θ w off phase reality Ll = forRange 0 nt (fun t f =>
      forRange (elStart Ll spin) L (fun el f => analStep reality L el
        (w t * (-1) ^ spin * elfactor el * baseSlice (θ t) el L spin reality (L - 1)
          * ftm t (L - 1 + off))
        (fun m => w t * (-1) ^ spin * elfactor el * baseSlice (θ t) el L spin reality (m + L - 1)
          * ftm t (m + L - 1 + off) * phase t m) f) f) (fun _ _ => 0) := rfl
  rw [e]
  apply ringDegree_values A θ w reality
  · intro t el f x y h
    exact analStep_row h
  · intro t el f m t0 t1 e0 e1 m0 m1
    have hb := elStart_bounds (L := L) e0
    have hsl := fun m hm => baseSlice_eq (θ t) el L spin reality (hθ t t0 t1).1 (hθ t t0 t1).2 hb.1
      e1 hr m hm
    have hel : 0 ≤ el := le_trans (abs_nonneg _) hb.1
    apply analStep_apply
    · intro h
      have h1 := hsl 0 (fun _ => le_rfl)
      have h2 := hA t 0 t0 t1 (by omega) (by omega) (fun _ => le_rfl)
      rw [zero_add] at h1 h2
      rw [h1]
      unfold tVal
      rw [← h2, hph, mul_one]
    · exact hel
    · intro m' hm' hr'
      rw [abs_le] at hm'
      rw [hsl m' hr']
      unfold tVal
      rw [← hA t m' t0 t1 (by omega) (by omega) hr']
      ring
    · intro m' hm'
      exact tVal_zero hm'

/-! ## The grid used by the forward transform -/

/-- Conditions on the rings handed to a forward method: for HEALPix they are those of the grid, for
the other schemes any (the MWSS grid is upsampled). -/
structure RingsOk (nodes : ℤ → ℤ → ℝ) (σ : Scheme) (L nside nt : ℤ) (θ : ℤ → ℝ) : Prop where
  range : ∀ t, 0 ≤ t → t < nt → 0 ≤ θ t ∧ θ t ≤ Real.pi
  hp : σ = .healpix → nt = 4 * nside - 1 ∧
    ∀ t, 0 ≤ t → t < nt → θ t = Scheme.healpix.theta nodes L nside t

theorem phisAt_rings {nodes : ℤ → ℤ → ℝ} {σ : Scheme} {s : PyStr} (hs : lower s = σ.name)
    {L nside nt t : ℤ} {θ : ℤ → ℝ} (hv : σ.Valid L nside) (hR : RingsOk nodes σ L nside nt θ)
    (h0 : 0 ≤ t) (h1 : t < nt) :
    phisAt L s nside t = .ok (σ.ringLen L nside t, fun p => σ.phi L nside t p) := by
  by_cases hh : σ = .healpix
  · apply phisAt_scheme' hs hv h0
    rw [(hR.hp hh).1] at h1
    subst hh
    exact h1
  · have hne : ¬ lower s = sHP := by rw [lower_hp_iff hs]; exact hh
    have e := phisAt_scheme' hs hv le_rfl (t := 0) (by
      have := hv.1
      cases σ <;> simp only [Scheme.rings] <;> first | omega | exact absurd rfl hh)
    have e1 : phisAt L s nside t = phisAt L s nside 0 := by
      unfold phisAt
      rw [if_neg hne, if_neg hne]
    rw [e1, e]
    cases σ <;> first | rfl | exact absurd rfl hh

theorem entryAt_rings {nodes : ℤ → ℤ → ℝ} {σ : Scheme} {s : PyStr} (hs : lower s = σ.name)
    {L nside nt t p : ℤ} {θ : ℤ → ℝ} (hv : σ.Valid L nside) (hR : RingsOk nodes σ L nside nt θ)
    (h0 : 0 ≤ t) (h1 : t < nt) (h2 : 0 ≤ p) (h3 : p < σ.ringLen L nside t) :
    entryAt s nside t p (θ t) (σ.phi L nside t p) = σ.pos nside t p := by
  by_cases hh : σ = .healpix
  · have h := hR.hp hh
    rw [h.2 t h0 h1]
    subst hh
    apply entryAt_scheme nodes hs hv
    exact ⟨h0, by rw [h.1] at h1; exact h1, h2, h3⟩
  · unfold entryAt
    have hne : ¬ lower s = sHP := by rw [lower_hp_iff hs]; exact hh
    rw [if_neg hne]
    cases σ <;> first | rfl | exact absurd rfl hh

theorem forwardDirect_values {nodes : ℤ → ℤ → ℝ} {σ : Scheme} {s : PyStr} (hs : lower s = σ.name)
    {L nside nt spin Ll ncol : ℤ} {θ w : ℤ → ℝ} (hv : σ.Valid L nside)
    (hR : RingsOk nodes σ L nside nt θ) (f : ℤ → ℤ → ℂ) (reality : Bool)
    (hr : reality = true → spin = 0) :
    ForwardValues (ringSum σ L nside f) L spin nt θ w reality Ll
      (forwardDirect f L spin s ncol nt θ w nside reality Ll) := by
  unfold forwardDirect
  rw [forRangeM_pure 0 nt _ (fun t flm => forRange (elStart Ll spin) L (fun el flm =>
      forRange 0 (σ.ringLen L nside t) (fun p flm => analStep reality L el
        (w t * (-1) ^ spin * elfactor el * baseSlice (θ t) el L spin reality (L - 1)
          * f (entryAt s nside t p (θ t) (σ.phi L nside t p)).1
              (entryAt s nside t p (θ t) (σ.phi L nside t p)).2)
        (fun m => w t * (-1) ^ spin * elfactor el * cis (-(m * σ.phi L nside t p))
          * baseSlice (θ t) el L spin reality (m + L - 1)
          * f (entryAt s nside t p (θ t) (σ.phi L nside t p)).1
              (entryAt s nside t p (θ t) (σ.phi L nside t p)).2) flm) flm) flm)]
  · apply ringDegree_values
    · intro t el f x y h
      refine forRange_frame _ _ _ _ (fun f : ℤ → ℤ → ℂ => f x y) ?_
      intro p f _ _
      exact analStep_row h
    · intro t el g m t0 t1 e0 e1 m0 m1
      have hb := elStart_bounds (L := L) e0
      have hsl := fun m hm => baseSlice_eq (θ t) el L spin reality (hR.range t t0 t1).1
        (hR.range t t0 t1).2 hb.1 e1 hr m hm
      have hel : 0 ≤ el := le_trans (abs_nonneg _) hb.1
      refine (forRange_sum _ _ _ _ (fun f : ℤ → ℤ → ℂ => f el (m + L - 1))
        (fun p => symm reality (tVal (fun m => f (σ.pos nside t p).1 (σ.pos nside t p).2
          * cis (-(m * σ.phi L nside t p))) spin (θ t) (w t) el) m) ?_).trans ?_
      · intro p g p0 p1
        rw [entryAt_rings hs hv hR t0 t1 p0 p1]
        apply analStep_apply
        · intro h
          have h1 := hsl 0 (fun _ => le_rfl)
          rw [zero_add] at h1
          rw [h1]
          unfold tVal
          simp
        · exact hel
        · intro m' hm' hr'
          rw [hsl m' hr']
          unfold tVal
          ring
        · intro m' hm'
          exact tVal_zero hm'
      · rw [symm_sum]
        congr 1
        congr 1
        ext m'
        unfold tVal ringSum
        rw [Finset.mul_sum]
  · intro t flm t0 t1
    rw [phisAt_rings hs hv hR t0 t1]
    rfl

theorem forwardSov_values {nodes : ℤ → ℤ → ℝ} {σ : Scheme} {s : PyStr} (hs : lower s = σ.name)
    {L nside nt spin Ll ncol : ℤ} {θ w : ℤ → ℝ} (hv : σ.Valid L nside)
    (hR : RingsOk nodes σ L nside nt θ) (f : ℤ → ℤ → ℂ) (reality : Bool)
    (hr : reality = true → spin = 0) :
    ForwardValues (ringSum σ L nside f) L spin nt θ w reality Ll
      (forwardSov f L spin s ncol nt θ w nside reality Ll) := by
  unfold forwardSov forwardSovFtm
  rw [forRangeM_pure 0 nt _ (fun t ftm => forRange 0 (σ.ringLen L nside t) (fun p ftm =>
      forRange (if reality then 0 else -L + 1) L (fun m ftm =>
        add2 ftm t (m + L - 1) (cis (-(m * σ.phi L nside t p))
          * f (entryAt s nside t p (θ t) (σ.phi L nside t p)).1
              (entryAt s nside t p (θ t) (σ.phi L nside t p)).2)) ftm) ftm)]
  · show ForwardValues _ _ _ _ _ _ _ _ (Except.ok _)
    apply forwardLoop_values (ringSum σ L nside f) _ θ w reality _ hr hR.range (fun _ => rfl)
    intro t m t0 t1 m0 m1 hm
    rw [mul_one, add_zero]
    refine (forRange_pick _ _ _ _ (fun f : ℤ → ℤ → ℂ => f t (m + L - 1)) t _ t0 t1 ?_
      ?_).trans (zero_add _)
    · intro g
      refine forRange_sum _ _ _ _ (fun f : ℤ → ℤ → ℂ => f t (m + L - 1)) _ ?_
      intro p g p0 p1
      rw [entryAt_rings hs hv hR t0 t1 p0 p1]
      refine (forRange_pick _ _ _ _ (fun f : ℤ → ℤ → ℂ => f t (m + L - 1)) m
        (f (σ.pos nside t p).1 (σ.pos nside t p).2 * cis (-(m * σ.phi L nside t p))) ?_ m1 ?_ ?_)
      · split_ifs with h
        · exact hm h
        · omega
      · intro g
        rw [add2_apply, if_pos ⟨rfl, rfl⟩, mul_comm]
      · intro i g _ _ hne
        exact add2_col_ne (by omega)
    · intro t' g _ _ hne
      refine forRange_frame _ _ _ _ (fun f : ℤ → ℤ → ℂ => f t (m + L - 1)) ?_
      intro p g _ _
      refine forRange_frame _ _ _ _ (fun f : ℤ → ℤ → ℂ => f t (m + L - 1)) ?_
      intro i g _ _
      exact add2_row_ne (Ne.symm hne)
  · intro t flm t0 t1
    rw [phisAt_rings hs hv hR t0 t1]
    rfl

end S2fft
