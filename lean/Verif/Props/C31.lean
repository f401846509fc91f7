import Verif.Lemmas.Linear
import Verif.Props.C24

/-! # C31: iterative refinement -/

namespace S2fft
open Spec

/-- With `n` iterations the result is the analysis of the residual series
`∑_{k ≤ n} A (I - S A)^k f`, and its residual is `(I - S A)^{n+1} f`, for any additive analysis `A`
and synthesis `S`. -/
theorem C31_series {V W : Type} [AddCommGroup V] [AddCommGroup W] (A : V →+ W) (S : W →+ V) (f : V)
    (n : ℕ) :
    ∃ w, refine f n (fun x => .ok (A x)) (fun y => .ok (S y)) (· - ·) (· + ·) = .ok w ∧
      w = ∑ k ∈ Finset.range (n + 1), A ((fun v => v - S (A v))^[k] f) ∧
      f - S w = (fun v => v - S (A v))^[n + 1] f := by
  unfold refine
  simp only [bind, Except.bind, pure, Except.pure]
  have := forRangeM_ind (lo := 0) (hi := (n : ℤ)) (by omega)
    (body := fun _ flm => .ok (flm + A (f - S flm))) (s := A f)
    (P := fun i w => w = ∑ k ∈ Finset.range (i.toNat + 1), A ((fun v => v - S (A v))^[k] f) ∧
      f - S w = (fun v => v - S (A v))^[i.toNat + 1] f) ⟨by simp, by simp⟩ (by
      rintro i w h0 _ ⟨h1, h2⟩
      refine ⟨_, rfl, ?_, ?_⟩
      · rw [show (i + 1).toNat = i.toNat + 1 by omega, Finset.sum_range_succ, ← h1, h2]
      · rw [show (i + 1).toNat = i.toNat + 1 by omega, Function.iterate_succ_apply', ← h2, map_add]
        abel)
  obtain ⟨w, e, h1, h2⟩ := this
  exact ⟨w, e, h1, h2⟩

/-- No iteration: the plain forward transform, whatever the two functions are. -/
theorem C31_zero {α β : Type} (f : α) (n : ℤ) (hn : n ≤ 0) (fwd : α → Except PyErr β)
    (bwd : β → Except PyErr α) (sub : α → α → α) (add : β → β → β) :
    refine f n fwd bwd sub add = fwd f := by
  unfold refine
  cases h : fwd f with
  | error e => rfl
  | ok v =>
    simp only [bind, Except.bind]
    unfold forRangeM
    rw [forRange_of_le hn]

/-- If the analysis inverts the synthesis, the iterations change nothing. -/
theorem C31_exact {V W : Type} [AddCommGroup V] [AddCommGroup W] (A : V →+ W) (S : W →+ V)
    (hAS : ∀ w, A (S w) = w) (f : V) (n : ℕ) :
    refine f n (fun x => .ok (A x)) (fun y => .ok (S y)) (· - ·) (· + ·) = .ok (A f) := by
  obtain ⟨w, e, h1, -⟩ := C31_series A S f n
  rw [e, h1, Finset.sum_range_succ']
  congr 1
  rw [Finset.sum_eq_zero, zero_add]
  · rfl
  · intro k _
    rw [Function.iterate_succ_apply', map_sub, hAS, sub_self]

/-- The hypotheses of `C31_exact` are met by a map that is not an isomorphism, and those of
`C31_series` by one that does not satisfy them. -/
example : ∃ (A : ℂ × ℂ →+ ℂ) (S : ℂ →+ ℂ × ℂ), (∀ w, A (S w) = w) ∧ ∃ v, S (A v) ≠ v :=
  ⟨AddMonoidHom.fst ℂ ℂ, AddMonoidHom.inl ℂ ℂ, fun _ => rfl, (0, 1), fun h => by
    have := congrArg Prod.snd h; simp at this⟩

theorem map2_shape {a b : Nd ℂ} (op : ℂ → ℂ → ℂ) (h : a.shape = b.shape) :
    (Nd.map2 op a b).shape = a.shape := by
  cases a <;> cases b <;> simp_all [Nd.map2, Nd.shape]

/-- On the schemes with a sampling theorem `forward` with any number of iterations returns what it
returns without, for every signal, band-limited or not. -/
theorem C31_base (G : GlTables) (σ : Scheme) (L spin L_lower iter : ℤ) (nside : Option ℤ)
    (hv : σ.Valid L (nside.getD 0)) (hσ : SamplingTheorem G σ L)
    (hex : GridExact G.nodes σ L (nside.getD 0)) (hex' : InnerExact G.nodes σ L (nside.getD 0))
    (h0 : 0 ≤ L_lower) (h1 : L_lower < L) (reality : Bool) (hr : reality = true → spin ≠ 0)
    (f : Nd ℂ) (hf : f.shape = σ.shape L (nside.getD 0)) :
    ∃ a b, baseForward G f L spin σ.name nside reality L_lower 0 = .ok (.d2 L (2 * L - 1) a) ∧
      baseForward G f L spin σ.name nside reality L_lower iter = .ok (.d2 L (2 * L - 1) b) ∧
      ∀ el j, 0 ≤ el → el < L → 0 ≤ j → j < 2 * L - 1 → b el j = a el j := by
  have hL := hv.1
  have hmem : bVec ∈ [bDirect, bSov, bSovFft, bVec] := by simp
  have her : effReality reality spin = false := by
    unfold effReality
    split_ifs with h
    · rfl
    · cases reality with
      | false => rfl
      | true => exact absurd ⟨rfl, hr rfl⟩ h
  have hval : ∀ g : Nd ℂ, g.shape = σ.shape L (nside.getD 0) → ∃ flm,
      baseForwardWith G g L spin σ.name bVec nside reality L_lower = .ok (.d2 L (2 * L - 1) flm) ∧
      (∀ el m, elStart L_lower spin ≤ el → el < L → -L < m → m < L → flm el (m + L - 1) =
        fVal (ringSum σ.inner L (nside.getD 0) (innerSignal σ L spin g.get2)) spin
          (innerRings σ L (nside.getD 0)) (innerTheta G.nodes σ L (nside.getD 0))
          (innerWeight G σ L (nside.getD 0)) el m) ∧
      (∀ el j, el < elStart L_lower spin → flm el j = 0) := by
    intro g hg
    obtain ⟨flm, e, h, hz⟩ := baseForwardWith_values G (lower_name σ) (method := bVec) hmem
      (fun _ h => absurd h hσ.1) (spin := spin) hv (fun _ h => absurd h hσ.1) g hg reality h0 h1
      (fun _ h h' => absurd h' (hr h))
    refine ⟨flm, e, fun el m a b c d => ?_, hz⟩
    rw [h el m a b c d, her]
    simp [symm]
  obtain ⟨a, ea, ha, haz⟩ := hval f hf
  have hfd : ∃ v, f = .d2 (σ.rings L (nside.getD 0)) (σ.ringLen L (nside.getD 0) 0) v := by
    apply Nd.eq_d2
    · have := hv.1
      revert hσ; cases σ <;> simp [SamplingTheorem, Scheme.rings] <;> omega
    · rw [hf]; revert hσ; cases σ <;> simp [SamplingTheorem, Scheme.shape]
  have key : ∃ b, refine f iter
      (fun f => baseForwardWith G f L spin σ.name bVec nside reality L_lower)
      (fun flm => baseInverseWith G flm L spin σ.name bVec nside reality L_lower)
      (Nd.map2 (· - ·)) (Nd.map2 (· + ·)) = .ok (.d2 L (2 * L - 1) b) ∧
      ∀ el j, 0 ≤ el → el < L → 0 ≤ j → j < 2 * L - 1 → b el j = a el j := by
    rcases le_or_gt iter 0 with hi | hi
    · exact ⟨a, by rw [C31_zero _ _ hi, ea], fun _ _ _ _ _ _ => rfl⟩
    unfold refine
    beta_reduce
    rw [ea]
    obtain ⟨w, e, b, rfl, hb⟩ := forRangeM_ind (lo := 0) (hi := iter) hi.le
      (body := fun _ flm => do
        let f_recov ← baseInverseWith G flm L spin σ.name bVec nside reality L_lower
        let e ← baseForwardWith G (Nd.map2 (fun x1 x2 => x1 - x2) f f_recov) L spin σ.name bVec
          nside reality L_lower
        pure (Nd.map2 (fun x1 x2 => x1 + x2) flm e))
      (s := .d2 L (2 * L - 1) a)
      (P := fun _ w => ∃ b, w = .d2 L (2 * L - 1) b ∧
        ∀ el j, 0 ≤ el → el < L → 0 ≤ j → j < 2 * L - 1 → b el j = a el j)
      ⟨a, rfl, fun _ _ _ _ _ _ => rfl⟩ (by
        rintro i w - - ⟨b, rfl, hb⟩
        obtain ⟨v, g, e1, e2, hg⟩ := C24_round_trip G σ L spin L_lower nside hv hσ hex hex' h0 h1
          bVec bVec hmem hmem b reality (fun x y => absurd y (hr x))
        obtain ⟨v', e1', hvs, -⟩ := C18_inverse_close G σ L spin L_lower nside bVec hmem hv
          (fun _ h => absurd h hσ.1) h0 h1 b reality (fun _ x y => absurd y (hr x))
        rw [e1] at e1'
        injection e1' with e1'
        subst e1'
        obtain ⟨g', e3, hg', hgz'⟩ := hval v hvs
        rw [e2] at e3
        injection e3 with e3
        injection e3 with _ _ e3
        subst e3
        obtain ⟨d, e4, hd, hdz⟩ := hval (Nd.map2 (fun x1 x2 => x1 - x2) f v)
          (by rw [map2_shape _ (by rw [hf, hvs]), hf])
        refine ⟨.d2 L (2 * L - 1) (fun i j => b i j + d i j), ?_, _, rfl, ?_⟩
        · beta_reduce
          rw [e1]
          show (do
            let e ← baseForwardWith G (Nd.map2 (fun x1 x2 => x1 - x2) f v) L spin σ.name bVec
              nside reality L_lower
            pure (Nd.map2 (fun x1 x2 => x1 + x2) (Nd.d2 L (2 * L - 1) b) e)) = _
          rw [e4]
          rfl
        · intro el j x0 x1 y0 y1
          rw [hb el j x0 x1 y0 y1]
          by_cases hel : el < elStart L_lower spin
          · rw [hdz el j hel, add_zero]
          · have hj : j = (j - L + 1) + L - 1 := by ring
            rw [hj, hd el _ (by omega) x1 (by omega) (by omega)]
            have hsub : (Nd.map2 (fun x1 x2 => x1 - x2) f v).get2
                = fun t p => f.get2 t p - v.get2 t p := by
              obtain ⟨u, rfl⟩ := hfd
              obtain ⟨u', rfl⟩ : ∃ v', v = .d2 (σ.rings L (nside.getD 0))
                  (σ.ringLen L (nside.getD 0) 0) v' := by
                apply Nd.eq_d2
                · revert hσ; cases σ <;> simp [SamplingTheorem, Scheme.rings] <;> omega
                · rw [hvs]; revert hσ; cases σ <;> simp [SamplingTheorem, Scheme.shape]
              rfl
            rw [hsub, innerSignal_sub, ringSum_sub, fVal_sub,
              ← ha el _ (by omega) x1 (by omega) (by omega),
              ← hg' el _ (by omega) x1 (by omega) (by omega), hg el _ x0 x1 (by omega) (by omega),
              ← hj]
            have hst : max |spin| L_lower ≤ el := by
              have : elStart L_lower spin = max |spin| L_lower := max_comm _ _
              omega
            by_cases hm : |j - L + 1| ≤ el
            · rw [if_pos ⟨hst, hm⟩]
              unfold coeffs
              rw [if_neg (by rintro ⟨x, y⟩; exact hr x y), ← hj, hb el j x0 x1 y0 y1]
              ring
            · rw [if_neg (by tauto)]
              have := ha el (j - L + 1) (by omega) x1 (by omega) (by omega)
              rw [← hj, fVal_outside _ _ _ _ _ (by omega)] at this
              rw [this]; ring)
    exact ⟨b, e, hb⟩
  obtain ⟨b, eb, hb⟩ := key
  refine ⟨a, ?_⟩
  unfold baseForward
  simp only [if_true]
  split_ifs with hi
  · exact ⟨a, ea, ea, fun _ _ _ _ _ _ => rfl⟩
  · exact ⟨b, ea, eb, hb⟩

end S2fft
