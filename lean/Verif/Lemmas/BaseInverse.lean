import Verif.Lemmas.BaseSlice
import Verif.Lemmas.Grid
import Verif.Lemmas.Dft
import Verif.Lemmas.Quadrature
import Verif.Lemmas.HealpixDispatch
import Verif.Props.C08

/-! # Values of the inverse methods -/

namespace S2fft
open Spec

/-! ## Loop rules -/

theorem forRangeM_pure {σ : Type} (lo hi : ℤ) (body : ℤ → σ → Except PyErr σ) (b : ℤ → σ → σ)
    (s : σ) (h : ∀ i s, lo ≤ i → i < hi → body i s = .ok (b i s)) :
    forRangeM lo hi body s = .ok (forRange lo hi b s) := by
  rcases le_total lo hi with hle | hle
  · obtain ⟨n, rfl⟩ : ∃ n : ℕ, hi = lo + n := ⟨(hi - lo).toNat, by omega⟩
    clear hle
    unfold forRangeM
    induction n with
    | zero => simp [forRange_of_le]
    | succ n ih =>
      have e : lo + ((n + 1 : ℕ) : ℤ) = (lo + n) + 1 := by push_cast; ring
      rw [e, forRange_succ (by omega), forRange_succ (by omega),
        ih (fun i s h1 h2 => h i s h1 (by push_cast; omega))]
      exact h _ _ (by omega) (by push_cast; omega)
  · unfold forRangeM
    rw [forRange_of_le hle, forRange_of_le hle]

theorem forRange_pick {σ M : Type*} [AddCommMonoid M] (lo hi : ℤ) (body : ℤ → σ → σ) (s : σ)
    (get : σ → M) (k : ℤ) (v : M) (h1 : lo ≤ k) (h2 : k < hi)
    (hk : ∀ s, get (body k s) = get s + v)
    (hne : ∀ i s, lo ≤ i → i < hi → i ≠ k → get (body i s) = get s) :
    get (forRange lo hi body s) = get s + v := by
  rw [forRange_sum lo hi body s get (fun i => if i = k then v else 0)]
  · rw [Finset.sum_ite_eq' _ k, if_pos (by simp; omega)]
  · intro i s a b
    split_ifs with h
    · rw [h]; exact hk s
    · rw [hne i s a b h, add_zero]

/-! ## The values computed -/

/-- The Fourier coefficients over the ring at colatitude `θ`. -/
noncomputable def gVal (flm : ℤ → ℤ → ℂ) (L spin Ll : ℤ) (θ : ℝ) (m : ℤ) : ℂ :=
  ∑ el ∈ Finset.Ico (elStart Ll spin) L,
    (-1) ^ spin * elfactor el * wignerd el m (-spin) (snapAngle θ) * flm el (m + L - 1)

/-- The sum over orders at azimuth `φ`. -/
noncomputable def synth (L : ℤ) (reality : Bool) (g : ℤ → ℂ) (φ : ℝ) : ℂ :=
  if reality then
    g 0 + ∑ m ∈ Finset.Ico 1 L, (g m * cis (m * φ) + (starRingEnd ℂ) (g m * cis (m * φ)))
  else ∑ m ∈ Finset.Ioo (-L) L, g m * cis (m * φ)

/-- The coefficients, completed for a real signal. -/
noncomputable def gEff (reality : Bool) (g : ℤ → ℂ) (m : ℤ) : ℂ :=
  if reality = true ∧ m < 0 then (starRingEnd ℂ) (g (-m)) else g m

theorem sum_Ioo_split {M : Type*} [AddCommMonoid M] {L : ℤ} (hL : 1 ≤ L) (f : ℤ → M) :
    ∑ m ∈ Finset.Ioo (-L) L, f m = f 0 + ∑ m ∈ Finset.Ico 1 L, (f m + f (-m)) := by
  obtain ⟨n, rfl⟩ : ∃ n : ℕ, L = 1 + n := ⟨(L - 1).toNat, by omega⟩
  clear hL
  induction n with
  | zero => simp [sum_Ioo_one]
  | succ n ih =>
    have e : (1 : ℤ) + ((n + 1 : ℕ) : ℤ) = (1 + n) + 1 := by push_cast; ring
    rw [e, sum_Ioo_succ (by omega), ih, sum_Ico_succ_top' (by omega), add_assoc]

theorem synth_eq {L : ℤ} (hL : 1 ≤ L) (reality : Bool) (g : ℤ → ℂ) (φ : ℝ) :
    synth L reality g φ = ∑ m ∈ Finset.Ioo (-L) L, gEff reality g m * cis (m * φ) := by
  unfold synth
  split_ifs with h
  · rw [sum_Ioo_split hL]
    congr 1
    · simp [gEff]
    · apply Finset.sum_congr rfl
      intro m hm
      rw [Finset.mem_Ico] at hm
      unfold gEff
      rw [if_neg (by omega), if_pos (by constructor; exact h; omega), map_mul, conj_cis, neg_neg]
      congr 3
      push_cast; ring
  · unfold gEff; simp [h]

theorem sum_order_extend {L el : ℤ} (hel : el < L) (f : ℤ → ℂ)
    (hf : ∀ m, el < |m| → f m = 0) :
    ∑ m ∈ Finset.Ico (-el) (el + 1), f m = ∑ m ∈ Finset.Ioo (-L) L, f m := by
  apply Finset.sum_subset
  · intro m; simp only [Finset.mem_Ico, Finset.mem_Ioo]; omega
  · intro m _ h
    apply hf
    simp only [Finset.mem_Ico, not_and_or] at h
    rw [lt_abs]; omega

theorem sum_order_extend_pos {L el : ℤ} (hel : el < L) (f : ℤ → ℂ)
    (hf : ∀ m, el < |m| → f m = 0) :
    ∑ m ∈ Finset.Ico 1 (el + 1), f m = ∑ m ∈ Finset.Ico 1 L, f m := by
  apply Finset.sum_subset
  · intro m; simp only [Finset.mem_Ico]; omega
  · intro m h1 h
    apply hf
    simp only [Finset.mem_Ico, not_and_or] at h h1
    rw [lt_abs]; omega

/-- Degree `el`'s share of a sample. -/
noncomputable def shareVal (flm : ℤ → ℤ → ℂ) (L spin : ℤ) (reality : Bool) (θ φ : ℝ) (el : ℤ) : ℂ :=
  synth L reality (fun m => (-1) ^ spin * elfactor el * wignerd el m (-spin) (snapAngle θ)
    * flm el (m + L - 1)) φ

theorem synth_gVal (flm : ℤ → ℤ → ℂ) (L spin Ll : ℤ) (reality : Bool) (θ φ : ℝ) :
    synth L reality (gVal flm L spin Ll θ) φ
      = ∑ el ∈ Finset.Ico (elStart Ll spin) L, shareVal flm L spin reality θ φ el := by
  unfold shareVal synth gVal
  split_ifs with h
  · simp only []
    rw [Finset.sum_add_distrib (f := fun el => (-1) ^ spin * (elfactor el : ℂ)
        * wignerd el 0 (-spin) (snapAngle θ) * flm el (0 + L - 1)),
      Finset.sum_comm (s := Finset.Ico (elStart Ll spin) L)]
    congr 1
    apply Finset.sum_congr rfl; intro m _
    rw [Finset.sum_mul, map_sum, ← Finset.sum_add_distrib]
  · simp only []
    rw [Finset.sum_comm]
    apply Finset.sum_congr rfl; intro m _
    rw [Finset.sum_mul]

theorem elStart_bounds {Ll spin el L : ℤ} (h : elStart Ll spin ≤ el) : |spin| ≤ el ∧ Ll ≤ el := by
  unfold elStart at h; omega

/-! ## Direct evaluation -/

theorem phisAt_scheme' {σ : Scheme} {s : PyStr} (hs : lower s = σ.name) {L nside t : ℤ}
    (hv : σ.Valid L nside) (h0 : 0 ≤ t) (h1 : t < σ.rings L nside) :
    phisAt L s nside t = .ok (σ.ringLen L nside t, fun p => σ.phi L nside t p) := by
  obtain ⟨φ, e, h⟩ := phisAt_scheme hs hv h0 h1
  rw [e, show φ = fun p => σ.phi L nside t p from funext h]

theorem add2_at (a : ℤ → ℤ → ℂ) (e : ℤ × ℤ) (v : ℂ) : add2 a e.1 e.2 v e.1 e.2 = a e.1 e.2 + v := by
  rw [add2_apply, if_pos ⟨rfl, rfl⟩]

theorem add2_off (a : ℤ → ℤ → ℂ) (e x : ℤ × ℤ) (v : ℂ) (h : e ≠ x) :
    add2 a e.1 e.2 v x.1 x.2 = a x.1 x.2 := by
  rw [add2_apply, if_neg, add_zero]
  rintro ⟨h1, h2⟩
  exact h (Prod.ext h1.symm h2.symm)

/-- What a method must return: each sample holds the sum over orders of the ring's Fourier series. -/
def InverseValues (nodes : ℤ → ℤ → ℝ) (σ : Scheme) (flm : ℤ → ℤ → ℂ) (L spin nside : ℤ)
    (reality : Bool) (Ll : ℤ) (r : Except PyErr (ℤ → ℤ → ℂ)) : Prop :=
  ∃ f, r = .ok f ∧ ∀ t p, σ.Has L nside t p →
    f (σ.pos nside t p).1 (σ.pos nside t p).2
      = synth L reality (gVal flm L spin Ll (σ.theta nodes L nside t)) (σ.phi L nside t p)

theorem inverseDirect_values (nodes : ℤ → ℤ → ℝ) {σ : Scheme} {s : PyStr} (hs : lower s = σ.name)
    {L nside spin Ll : ℤ} (hv : σ.Valid L nside) (flm : ℤ → ℤ → ℂ) (reality : Bool)
    (hr : reality = true → spin = 0) (θ : ℤ → ℝ)
    (hθ : ∀ t, 0 ≤ t → t < σ.rings L nside → θ t = σ.theta nodes L nside t) :
    InverseValues nodes σ flm L spin nside reality Ll
      (inverseDirect flm L spin s (σ.rings L nside) θ nside reality Ll) := by
  unfold inverseDirect
  refine ⟨_, forRangeM_pure _ _ _ (fun t f => forRange (elStart Ll spin) L (fun el f =>
      let dl := baseSlice (θ t) el L spin reality
      forRange 0 (σ.ringLen L nside t) (fun p f =>
        let e := entryAt s nside t p (θ t) (σ.phi L nside t p)
        if reality then
          let f := add2 f e.1 e.2 ((-1) ^ spin * elfactor el * dl (L - 1) * flm el (L - 1))
          forRange 1 (el + 1) (fun m f =>
            let val := (-1) ^ spin * elfactor el * cis (m * σ.phi L nside t p) * dl (m + L - 1)
              * flm el (m + L - 1)
            add2 f e.1 e.2 (val + (starRingEnd ℂ) val)) f
        else
          forRange (-el) (el + 1) (fun m f =>
            add2 f e.1 e.2 ((-1) ^ spin * elfactor el * cis (m * σ.phi L nside t p)
              * dl (m + L - 1) * flm el (m + L - 1))) f) f) f) _ ?_, ?_⟩
  · intro t f h0 h1
    simp only [phisAt_scheme' hs hv h0 h1]
    rfl
  intro t p hh
  obtain ⟨h0, h1, h2, h3⟩ := hh
  set X := σ.pos nside t p with hX
  have hent : ∀ t' p', 0 ≤ t' → t' < σ.rings L nside → 0 ≤ p' → p' < σ.ringLen L nside t' →
      entryAt s nside t' p' (θ t') (σ.phi L nside t' p') = σ.pos nside t' p' := by
    intro t' p' a b c d
    rw [hθ t' a b]; exact entryAt_scheme nodes hs hv ⟨a, b, c, d⟩
  have hother : ∀ t' p', σ.Has L nside t' p' → (t' ≠ t ∨ p' ≠ p) → σ.pos nside t' p' ≠ X := by
    intro t' p' a b c
    obtain ⟨d, e⟩ := pos_inj hv a ⟨h0, h1, h2, h3⟩ c
    omega
  rw [synth_gVal]
  refine (forRange_pick _ _ _ _ (fun f : ℤ → ℤ → ℂ => f X.1 X.2) t _ h0 h1 ?_ ?_).trans (zero_add _)
  · intro f
    refine forRange_sum _ _ _ _ (fun f : ℤ → ℤ → ℂ => f X.1 X.2) _ ?_
    intro el f he0 he1
    have hb := elStart_bounds (L := L) he0
    have hth := theta_mem nodes σ hv h0 h1
    rw [← hθ t h0 h1] at hth ⊢
    have hsl := fun m hm => baseSlice_eq (θ t) el L spin reality hth.1 hth.2 hb.1 he1 hr m hm
    refine forRange_pick _ _ _ _ (fun f : ℤ → ℤ → ℂ => f X.1 X.2) p _ h2 h3 ?_ ?_
    · intro f
      simp only [hent t p h0 h1 h2 h3, ← hX]
      unfold shareVal synth
      by_cases hre : reality = true
      · simp only [hre, if_true]
        refine (forRange_sum _ _ _ _ (fun f : ℤ → ℤ → ℂ => f X.1 X.2) (fun m =>
          (-1) ^ spin * elfactor el * wignerd el m (-spin) (snapAngle (θ t)) * flm el (m + L - 1)
            * cis (m * σ.phi L nside t p) + (starRingEnd ℂ) ((-1) ^ spin * elfactor el
            * wignerd el m (-spin) (snapAngle (θ t)) * flm el (m + L - 1)
            * cis (m * σ.phi L nside t p))) ?_).trans ?_
        · intro m f hm0 hm1
          rw [add2_at, ← hsl m (by intro _; omega)]
          rw [hre]
          congr 2
          · ring
          · congr 1; ring
        · have h0' := hsl 0 (by intro _; omega)
          rw [hre, zero_add] at h0'
          rw [add2_at, h0', sum_order_extend_pos he1 _ (fun m hm => by
            rw [wignerd_outside _ _ _ _ (Or.inl hm)]; simp), zero_add, add_assoc]
      · simp only [hre, Bool.false_eq_true, if_false]
        refine (forRange_sum _ _ _ _ (fun f : ℤ → ℤ → ℂ => f X.1 X.2) (fun m =>
          (-1) ^ spin * elfactor el * wignerd el m (-spin) (snapAngle (θ t)) * flm el (m + L - 1)
            * cis (m * σ.phi L nside t p)) ?_).trans ?_
        · intro m f hm0 hm1
          rw [add2_at, ← hsl m (fun h => absurd h hre)]
          simp only [hre]
          ring
        · rw [sum_order_extend he1 _ (fun m hm => by
            rw [wignerd_outside _ _ _ _ (Or.inl hm)]; simp)]
    · intro p' f a b hne
      have hne' := hother t p' ⟨h0, h1, a, b⟩ (Or.inr hne)
      simp only [hent t p' h0 h1 a b]
      split_ifs
      · refine (forRange_frame _ _ _ _ (fun f : ℤ → ℤ → ℂ => f X.1 X.2) ?_).trans ?_
        · intro m f _ _; exact add2_off _ _ _ _ hne'
        · exact add2_off _ _ _ _ hne'
      · refine (forRange_frame _ _ _ _ (fun f : ℤ → ℤ → ℂ => f X.1 X.2) ?_)
        intro m f _ _; exact add2_off _ _ _ _ hne'
  · intro t' f a b hne
    refine forRange_frame _ _ _ _ (fun f : ℤ → ℤ → ℂ => f X.1 X.2) ?_
    intro el f _ _
    refine forRange_frame _ _ _ _ (fun f : ℤ → ℤ → ℂ => f X.1 X.2) ?_
    intro p' f c d
    have hne' := hother t' p' ⟨a, b, c, d⟩ (Or.inl hne)
    simp only [hent t' p' a b c d]
    split_ifs
    · refine (forRange_frame _ _ _ _ (fun f : ℤ → ℤ → ℂ => f X.1 X.2) ?_).trans ?_
      · intro m f _ _; exact add2_off _ _ _ _ hne'
      · exact add2_off _ _ _ _ hne'
    · refine (forRange_frame _ _ _ _ (fun f : ℤ → ℤ → ℂ => f X.1 X.2) ?_)
      intro m f _ _; exact add2_off _ _ _ _ hne'

/-! ## Separation of variables -/

theorem orderLoop_apply (f : ℤ → ℤ → ℂ) (t lo el c m : ℤ) (v : ℤ → ℂ) :
    forRange lo (el + 1) (fun m' f => add2 f t (m' + c) (v m')) f t (m + c)
      = f t (m + c) + if lo ≤ m ∧ m ≤ el then v m else 0 := by
  split_ifs with h
  · refine forRange_pick _ _ _ _ (fun f : ℤ → ℤ → ℂ => f t (m + c)) m _ h.1 (by omega) ?_ ?_
    · intro f; rw [add2_apply, if_pos ⟨rfl, rfl⟩]
    · intro i f _ _ hne; rw [add2_apply, if_neg (by omega), add_zero]
  · rw [add_zero]
    refine forRange_frame _ _ _ _ (fun f : ℤ → ℤ → ℂ => f t (m + c)) ?_
    intro i f a b; rw [add2_apply, if_neg (by omega), add_zero]

theorem inverseSovFtm_values {L spin Ll nt t m : ℤ} (flm : ℤ → ℤ → ℂ) (θ : ℤ → ℝ) (reality : Bool)
    (hr : reality = true → spin = 0) (ht0 : 0 ≤ t) (ht1 : t < nt) (hθ0 : 0 ≤ θ t)
    (hθ1 : θ t ≤ Real.pi) (hm : reality = true → 0 ≤ m) :
    inverseSovFtm flm L spin nt θ reality Ll t (m + L - 1) = gVal flm L spin Ll (θ t) m := by
  unfold inverseSovFtm
  refine (forRange_pick _ _ _ _ (fun f : ℤ → ℤ → ℂ => f t (m + L - 1)) t _ ht0 ht1 ?_ ?_).trans
    (zero_add _)
  · intro f
    unfold gVal
    refine forRange_sum _ _ _ _ (fun f : ℤ → ℤ → ℂ => f t (m + L - 1)) _ ?_
    intro el f he0 he1
    have hb := elStart_bounds (L := L) he0
    have hsl := baseSlice_eq (θ t) el L spin reality hθ0 hθ1 hb.1 he1 hr m hm
    have := orderLoop_apply f t (if reality then 0 else -el) el (L - 1) m (fun m =>
      (-1) ^ spin * elfactor el * baseSlice (θ t) el L spin reality (m + L - 1) * flm el (m + L - 1))
    simp only [← add_sub_assoc] at this
    rw [this, hsl]
    congr 1
    split_ifs with h h' h' h'
    · rfl
    · rw [wignerd_outside _ _ _ _ (Or.inl (by have := hm h; rw [lt_abs]; omega))]; simp
    · rfl
    · rw [wignerd_outside _ _ _ _ (Or.inl (by rw [lt_abs]; omega))]; simp
  · intro t' f _ _ hne
    refine forRange_frame _ _ _ _ (fun f : ℤ → ℤ → ℂ => f t (m + L - 1)) ?_
    intro el f _ _
    refine forRange_frame _ _ _ _ (fun f : ℤ → ℤ → ℂ => f t (m + L - 1)) ?_
    intro m' f _ _
    rw [add2_apply, if_neg (by omega), add_zero]

theorem inverseSov_values (nodes : ℤ → ℤ → ℝ) {σ : Scheme} {s : PyStr} (hs : lower s = σ.name)
    {L nside spin Ll : ℤ} (hv : σ.Valid L nside) (flm : ℤ → ℤ → ℂ) (reality : Bool)
    (hr : reality = true → spin = 0) (θ : ℤ → ℝ)
    (hθ : ∀ t, 0 ≤ t → t < σ.rings L nside → θ t = σ.theta nodes L nside t) :
    InverseValues nodes σ flm L spin nside reality Ll
      (inverseSov flm L spin s (σ.rings L nside) θ nside reality Ll) := by
  unfold inverseSov
  have hf : ∀ t m, 0 ≤ t → t < σ.rings L nside → (reality = true → 0 ≤ m) →
      inverseSovFtm flm L spin (σ.rings L nside) θ reality Ll t (m + L - 1)
        = gVal flm L spin Ll (θ t) m := by
    intro t m a b c
    have hth := theta_mem nodes σ hv a b
    rw [← hθ t a b] at hth
    exact inverseSovFtm_values flm θ reality hr a b hth.1 hth.2 c
  generalize inverseSovFtm flm L spin (σ.rings L nside) θ reality Ll = ftm at hf
  refine ⟨_, forRangeM_pure _ _ _ (fun t f => forRange 0 (σ.ringLen L nside t) (fun p f =>
      let e := entryAt s nside t p (θ t) (σ.phi L nside t p)
      if reality then
        let f := add2 f e.1 e.2 (ftm t (L - 1))
        forRange 1 L (fun m f =>
          let val := ftm t (m + L - 1) * cis (m * σ.phi L nside t p)
          add2 f e.1 e.2 (val + (starRingEnd ℂ) val)) f
      else
        forRange (-(L - 1)) L (fun m f =>
          add2 f e.1 e.2 (ftm t (m + L - 1) * cis (m * σ.phi L nside t p))) f) f) _ ?_, ?_⟩
  · intro t f h0 h1
    simp only [phisAt_scheme' hs hv h0 h1]
    rfl
  intro t p hh
  obtain ⟨h0, h1, h2, h3⟩ := hh
  set X := σ.pos nside t p with hX
  have hent : ∀ t' p', 0 ≤ t' → t' < σ.rings L nside → 0 ≤ p' → p' < σ.ringLen L nside t' →
      entryAt s nside t' p' (θ t') (σ.phi L nside t' p') = σ.pos nside t' p' := by
    intro t' p' a b c d
    rw [hθ t' a b]; exact entryAt_scheme nodes hs hv ⟨a, b, c, d⟩
  have hother : ∀ t' p', σ.Has L nside t' p' → (t' ≠ t ∨ p' ≠ p) → σ.pos nside t' p' ≠ X := by
    intro t' p' a b c
    obtain ⟨d, e⟩ := pos_inj hv a ⟨h0, h1, h2, h3⟩ c
    omega
  have hframe : ∀ t' p' f, σ.Has L nside t' p' → (t' ≠ t ∨ p' ≠ p) →
      (if reality = true then
        forRange 1 L (fun m f =>
          add2 f (entryAt s nside t' p' (θ t') (σ.phi L nside t' p')).1
            (entryAt s nside t' p' (θ t') (σ.phi L nside t' p')).2
            (ftm t' (m + L - 1) * cis (m * σ.phi L nside t' p')
              + (starRingEnd ℂ) (ftm t' (m + L - 1) * cis (m * σ.phi L nside t' p'))))
          (add2 f (entryAt s nside t' p' (θ t') (σ.phi L nside t' p')).1
            (entryAt s nside t' p' (θ t') (σ.phi L nside t' p')).2 (ftm t' (L - 1)))
      else
        forRange (-(L - 1)) L (fun m f =>
          add2 f (entryAt s nside t' p' (θ t') (σ.phi L nside t' p')).1
            (entryAt s nside t' p' (θ t') (σ.phi L nside t' p')).2
            (ftm t' (m + L - 1) * cis (m * σ.phi L nside t' p'))) f : ℤ → ℤ → ℂ) X.1 X.2
        = f X.1 X.2 := by
    intro t' p' f hh hne
    have hne' := hother t' p' hh hne
    rw [hent t' p' hh.1 hh.2.1 hh.2.2.1 hh.2.2.2]
    split_ifs
    · refine (forRange_frame _ _ _ _ (fun f : ℤ → ℤ → ℂ => f X.1 X.2) ?_).trans ?_
      · intro m f _ _; exact add2_off _ _ _ _ hne'
      · exact add2_off _ _ _ _ hne'
    · refine (forRange_frame _ _ _ _ (fun f : ℤ → ℤ → ℂ => f X.1 X.2) ?_)
      intro m f _ _; exact add2_off _ _ _ _ hne'
  refine (forRange_pick _ _ _ _ (fun f : ℤ → ℤ → ℂ => f X.1 X.2) t _ h0 h1 ?_ ?_).trans (zero_add _)
  · intro f
    refine forRange_pick _ _ _ _ (fun f : ℤ → ℤ → ℂ => f X.1 X.2) p _ h2 h3 ?_ ?_
    · intro f
      simp only [hent t p h0 h1 h2 h3, ← hX, ← hθ t h0 h1]
      unfold synth
      by_cases hre : reality = true
      · simp only [hre, if_true]
        refine (forRange_sum _ _ _ _ (fun f : ℤ → ℤ → ℂ => f X.1 X.2) (fun m =>
          gVal flm L spin Ll (θ t) m * cis (m * σ.phi L nside t p) + (starRingEnd ℂ)
            (gVal flm L spin Ll (θ t) m * cis (m * σ.phi L nside t p))) ?_).trans ?_
        · intro m f hm0 hm1
          rw [add2_at, hf t m h0 h1 (by intro _; omega)]
        · have h0' := hf t 0 h0 h1 (by intro _; omega)
          rw [zero_add] at h0'
          rw [add2_at, h0', add_assoc]
      · simp only [hre, Bool.false_eq_true, if_false]
        refine (forRange_sum _ _ _ _ (fun f : ℤ → ℤ → ℂ => f X.1 X.2) (fun m =>
          gVal flm L spin Ll (θ t) m * cis (m * σ.phi L nside t p)) ?_).trans ?_
        · intro m f hm0 hm1
          rw [add2_at, hf t m h0 h1 (fun h => absurd h hre)]
        · congr 2
          ext m; simp only [Finset.mem_Ico, Finset.mem_Ioo]; omega
    · intro p' f a b hne
      exact hframe t p' f ⟨h0, h1, a, b⟩ (Or.inr hne)
  · intro t' f a b hne
    refine forRange_frame _ _ _ _ (fun f : ℤ → ℤ → ℂ => f X.1 X.2) ?_
    intro p' f c d
    exact hframe t' p' f ⟨a, b, c, d⟩ (Or.inl hne)

/-! ## Fourier synthesis -/

theorem phi_equi {σ : Scheme} (h : σ ≠ .healpix) (L nside t p : ℤ) :
    σ.phi L nside t p = 2 * Real.pi * p / σ.ringLen L nside t := by
  unfold Scheme.phi
  rw [show σ.shift nside t = 0 by revert h; cases σ <;> simp [Scheme.shift], add_zero]

theorem ringLen_equi {σ : Scheme} (h : σ ≠ .healpix) (L nside t : ℤ) :
    σ.ringLen L nside t = 2 * L - 1 + σ.off := by
  revert h; cases σ <;> simp [Scheme.ringLen, Scheme.off]

theorem off_cases (σ : Scheme) : σ.off = 0 ∨ σ.off = 1 := by cases σ <;> simp [Scheme.off]

theorem nphi_equi {σ : Scheme} {s : PyStr} (hs : lower s = σ.name) (h : σ ≠ .healpix) (L : ℤ) :
    nphi_equiang L s = .ok (2 * L - 1 + σ.off) := by
  have h1 : ¬ sMWSS = sMW := by decide
  have h2 : ¬ sMWSS = sGL := by decide
  have h3 : ¬ sDH = sMW := by decide
  have h4 : ¬ sDH = sGL := by decide
  have h5 : ¬ sDH = sMWSS := by decide
  unfold nphi_equiang
  cases σ with
  | mw => rw [name_mw] at hs; simp [hs, Scheme.off]
  | mwss => rw [name_mwss] at hs; simp [hs, h1, h2, Scheme.off]
  | dh => rw [name_dh] at hs; simp [hs, h3, h4, h5, Scheme.off]
  | gl => rw [name_gl] at hs; simp [hs, Scheme.off]
  | healpix => exact absurd rfl h

theorem two_re (z : ℂ) : ((2 * z.re : ℝ) : ℂ) = z + (starRingEnd ℂ) z := by
  rw [Complex.add_conj]

theorem ofReal_re_of_im {z : ℂ} (h : z.im = 0) : ((z.re : ℝ) : ℂ) = z :=
  Complex.ext (by simp) (by simp [h])

theorem inverseFftM_values {σ : Scheme} {s : PyStr} (hs : lower s = σ.name) (ho : mOffset s = σ.off)
    {method : PyStr} (hmt : method ∈ [mNumpy, mJax, mTorch])
    {L nside : ℤ} (hv : σ.Valid L nside) (hhp : σ = .healpix → 2 * nside ≤ L) (reality : Bool)
    (ftm g : ℤ → ℤ → ℂ)
    (hg0 : reality = true → ∀ t, 0 ≤ t → t < σ.rings L nside → (g t 0).im = 0)
    (h0 : ∀ t, σ.off = 1 → (reality = true → σ = .healpix) →
      (σ ≠ .healpix → 0 ≤ t ∧ t < σ.rings L nside) → ftm t 0 = 0)
    (hf : ∀ t m, 0 ≤ t → t < σ.rings L nside → -L < m → m < L →
      (reality = true → σ ≠ .healpix → 0 ≤ m) →
      ftm t (m + L - 1 + σ.off) = gEff reality (g t) m * cis (m * σ.phi L nside t 0)) :
    ∃ f, inverseFftM method ftm L s (2 * L - 1 + σ.off) nside reality = .ok f ∧
      ∀ t p, σ.Has L nside t p → f (σ.pos nside t p).1 (σ.pos nside t p).2
        = synth L reality (g t) (σ.phi L nside t p) := by
  have hL := hv.1
  unfold inverseFftM
  by_cases hh : σ = .healpix
  · rw [if_pos ((lower_hp_iff hs).2 hh)]
    subst hh
    have hn := hv.2 rfl
    obtain ⟨f, ftm', e, h⟩ := C08_pixels L nside hn (hhp rfl) (fun t m => gEff reality (g t) m)
      reality (by
        intro hr t m a b c d
        have := hg0 hr t a b
        unfold gEff
        rcases lt_trichotomy m 0 with h | h | h
        · rw [if_neg (by omega), if_pos ⟨hr, h⟩, Complex.conj_conj]
        · subst h; simp [Complex.conj_eq_iff_im.2 this]
        · rw [if_pos ⟨hr, by omega⟩, if_neg (by omega), neg_neg])
      method (by
        simp only [List.mem_cons, List.not_mem_nil, or_false] at hmt ⊢; tauto) noCuda (by
        rintro rfl; exact absurd hmt (by decide)) ftm (fun t => h0 t rfl
        (fun _ => rfl) (fun h => absurd rfl h)) (by
        intro t j a b c d
        have := hf t (j - (L - 1)) a b (by omega) (by omega) (by simp)
        simp only [Scheme.off] at this
        rw [show j - (L - 1) + L - 1 + 1 = j + 1 by ring] at this
        rw [this]
        congr 1
        unfold ring_phase_shifts_hp
        simp only [Bool.false_eq_true, if_false]
        rw [p2phi_rings_eq hn a b, p2phi_scheme (L := L) hn a b]
        congr 1; push_cast; ring)
    refine ⟨_, by rw [e]; rfl, ?_⟩
    intro t p ⟨a, b, c, d⟩
    simp only [Scheme.pos]
    rw [h t p a b c d, synth_eq hL, p2phi_scheme (L := L) hn a b]
  · rw [if_neg (by rw [lower_hp_iff hs]; exact hh)]
    have hpos : ∀ t p, σ.pos nside t p = (t, p) := by
      intro t p; revert hh; cases σ <;> simp [Scheme.pos]
    have hphi0 : ∀ t, σ.phi L nside t 0 = 0 := by
      intro t; rw [phi_equi hh]; simp
    by_cases hre : reality = true
    · rw [if_pos hre, nphi_equi hs hh]
      refine ⟨_, rfl, ?_⟩
      intro t p ⟨a, b, c, d⟩
      rw [hpos]
      simp only []
      rw [ho, phi_equi hh, ringLen_equi hh]
      have hcol : ∀ k, 0 ≤ k → k < L → ftm t (L - 1 + σ.off + k) = g t k := by
        intro k hk0 hk1
        have := hf t k a b (by omega) hk1 (fun _ _ => hk0)
        rw [hphi0, mul_zero, cis_zero, mul_one] at this
        rw [show L - 1 + σ.off + k = k + L - 1 + σ.off by ring, this]
        unfold gEff; rw [if_neg (by omega)]
      unfold irfft_fwd synth
      simp only [hre, if_true]
      have hhalf : (2 * L - 1 + σ.off + 1) / 2 = L := by
        rcases off_cases σ with h | h <;> rw [h] <;> omega
      rw [hhalf]
      have hnyq : ¬ (2 * L - 1 + σ.off) / 2 < 2 * L - 1 + σ.off - (L - 1 + σ.off) ∨
          ¬ (2 * L - 1 + σ.off) % 2 = 0 := by
        rcases off_cases σ with h | h <;> rw [h] <;> omega
      have hlast : (if (2 * L - 1 + σ.off) % 2 = 0 then
          (if (2 * L - 1 + σ.off) / 2 < 2 * L - 1 + σ.off - (L - 1 + σ.off) then
            ftm t (L - 1 + σ.off + (2 * L - 1 + σ.off) / 2) else 0).re * (cis (Real.pi * p)).re
          else 0) = 0 := by
        rcases hnyq with h | h
        · rw [if_neg h]; simp
        · rw [if_neg h]
      rw [hlast, add_zero, Complex.ofReal_add, Complex.ofReal_sum, if_pos (by omega),
        hcol 0 le_rfl (by omega), ofReal_re_of_im (hg0 hre t a b)]
      congr 1
      apply Finset.sum_congr rfl
      intro m hm
      rw [Finset.mem_Ico] at hm
      rw [if_pos (by omega), hcol m (by omega) hm.2, two_re]
      congr 3
      · congr 1; ring
      · congr 2; ring
    · rw [if_neg hre]
      refine ⟨_, rfl, ?_⟩
      intro t p ⟨a, b, c, d⟩
      rw [hpos]
      simp only []
      rw [phi_equi hh, ringLen_equi hh, ifft_fwd_ifftshift (by have := off_cases σ; omega)]
      unfold synth
      rw [if_neg hre, sum_Ioo_eq_Ico]
      have hcol : ∀ j, 0 ≤ j → j < 2 * L - 1 → ftm t (j + σ.off) = g t (j - (L - 1)) := by
        intro j hj0 hj1
        have := hf t (j - (L - 1)) a b (by omega) (by omega) (fun h => absurd h hre)
        rw [hphi0, mul_zero, cis_zero, mul_one] at this
        rw [show j - (L - 1) + L - 1 + σ.off = j + σ.off by ring] at this
        rw [this]
        unfold gEff; rw [if_neg (by tauto)]
      rcases off_cases σ with h | h
      · rw [h] at hcol ⊢
        rw [add_zero]
        apply Finset.sum_congr rfl
        intro j hj
        rw [Finset.mem_Ico] at hj
        have := hcol j hj.1 hj.2
        rw [add_zero] at this
        rw [this, show (2 * L - 1) / 2 = L - 1 by omega]
        unfold tw
        congr 2; push_cast; ring
      · rw [h] at hcol ⊢
        rw [sum_Ico_bot (by omega), h0 t h (fun h' => absurd h' hre) (fun _ => ⟨a, b⟩), zero_mul, zero_add,
          show Finset.Ico (0 + 1) (2 * L - 1 + 1) = Finset.Ico ((0 : ℤ) + 1) (2 * L - 1 + 1) from rfl,
          sum_Ico_shift]
        apply Finset.sum_congr rfl
        intro j hj
        rw [Finset.mem_Ico] at hj
        rw [hcol j hj.1 hj.2, show (2 * L - 1 + 1) / 2 = L by omega]
        unfold tw
        congr 2; push_cast; ring

theorem inverseFft_values {σ : Scheme} {s : PyStr} (hs : lower s = σ.name) (ho : mOffset s = σ.off)
    {L nside : ℤ} (hv : σ.Valid L nside) (hhp : σ = .healpix → 2 * nside ≤ L) (reality : Bool)
    (ftm g : ℤ → ℤ → ℂ)
    (hg0 : reality = true → ∀ t, 0 ≤ t → t < σ.rings L nside → (g t 0).im = 0)
    (h0 : ∀ t, σ.off = 1 → (reality = true → σ = .healpix) → ftm t 0 = 0)
    (hf : ∀ t m, 0 ≤ t → t < σ.rings L nside → -L < m → m < L →
      (reality = true → σ ≠ .healpix → 0 ≤ m) →
      ftm t (m + L - 1 + σ.off) = gEff reality (g t) m * cis (m * σ.phi L nside t 0)) :
    ∃ f, inverseFft ftm L s (2 * L - 1 + σ.off) nside reality = .ok f ∧
      ∀ t p, σ.Has L nside t p → f (σ.pos nside t p).1 (σ.pos nside t p).2
        = synth L reality (g t) (σ.phi L nside t p) :=
  inverseFftM_values hs ho (by simp) hv hhp reality ftm g hg0
    (fun t a b _ => h0 t a b) hf

end S2fft
