import Verif.Lemmas.BaseWigner

/-! # C26: Wigner transforms on the rotation group -/

namespace S2fft
open Spec

/-- Coefficients `flmn` (direction `n` in plane `n + N - 1`, order `m` in column `m + L - 1`) as the
transform understands them: with the reality flag only `n > 0`, and `n = 0` with `m ≥ 0`, are read,
the others being those of a real signal. -/
noncomputable def wignerCoeffs (flmn : ℤ → ℤ → ℤ → ℂ) (L N : ℤ) (reality : Bool) : ℤ → ℤ → ℤ → ℂ :=
  if reality then realWignerCoeffs (fun n l m => flmn (N - 1 + n) l (m + L - 1))
  else fun n l m => flmn (N - 1 + n) l (m + L - 1)

/-- With the reality flag the coefficients with `m = n = 0` are real, as those of every real signal
are. -/
def RealOrigin (flmn : ℤ → ℤ → ℤ → ℂ) (L N : ℤ) (reality : Bool) (L_lower : ℤ) : Prop :=
  reality = true → ∀ el, L_lower ≤ el → el < L → (flmn (N - 1) el (L - 1)).im = 0

theorem wignerCoeffs_real {flmn : ℤ → ℤ → ℤ → ℂ} {L N L_lower : ℤ}
    (hre : RealOrigin flmn L N true L_lower) :
    RealWigner (wignerCoeffs flmn L N true) L_lower L := by
  unfold wignerCoeffs
  rw [if_pos rfl]
  apply realWignerCoeffs_real
  intro l a b
  rw [add_zero, zero_add]
  exact hre rfl l a b

/-- `inverse` returns, at every sample `(α, β, γ)` of every grid, the Wigner expansion of the
coefficients. -/
theorem C26_inverse (G : GlTables) (σ : Scheme) (L N L_lower : ℤ) (nside : Option ℤ)
    (hv : σ.Valid L (nside.getD 0)) (hN : 1 ≤ N) (hhp : σ = .healpix → 2 * nside.getD 0 ≤ L)
    (h0 : 0 ≤ L_lower) (h1 : L_lower < L) (flmn : ℤ → ℤ → ℤ → ℂ) (reality : Bool)
    (hre : RealOrigin flmn L N reality L_lower)
    (hex : GridExact G.nodes σ L (nside.getD 0)) :
    ∃ out, wignerBaseInverse G (.d3 (2 * N - 1) L (2 * L - 1) flmn) L N L_lower σ.name reality nside
        = .ok out ∧
      out.shape = (2 * N - 1) :: σ.shape L (nside.getD 0) ∧
      ∀ g t p, 0 ≤ g → g < 2 * N - 1 → σ.Has L (nside.getD 0) t p →
        out.get3 g (σ.pos (nside.getD 0) t p).1 (σ.pos (nside.getD 0) t p).2
          = wignerSum L_lower L N (wignerCoeffs flmn L N reality)
              (σ.phi L (nside.getD 0) t p) (σ.theta G.nodes L (nside.getD 0) t) (gammaAt N g) := by
  set start : ℤ := if reality then 0 else -N + 1 with hst
  have hs0 : start ≤ N := by rw [hst]; split_ifs <;> omega
  set scaled : ℤ → ℤ → ℤ → ℂ := fun n l m =>
    flmn n l m * (√((2 * (l : ℝ) + 1) / (16 * Real.pi ^ 3)) : ℝ) with hsc
  obtain ⟨fban, e1, hf⟩ := forRangeM_ind hs0 (fun n (fban : ℤ → ℤ → ℤ → ℂ) => do
      let out ← baseInverse G (.d2 (flm_shape L).1 (flm_shape L).2 (scaled (N - 1 + n))) L (-n)
        σ.name nside reality L_lower
      pure (setPlane fban (N - 1 + n) (fun i j => (-1) ^ n * out.get2 i j))) (fun _ _ _ => 0)
    (fun k fban => ∀ n, start ≤ n → n < k → ∀ t p, σ.Has L (nside.getD 0) t p →
      fban (N - 1 + n) (σ.pos (nside.getD 0) t p).1 (σ.pos (nside.getD 0) t p).2
        = wigPlane L_lower L (wignerCoeffs flmn L N reality) n
            (σ.theta G.nodes L (nside.getD 0) t) (σ.phi L (nside.getD 0) t p))
    (fun n a b => by omega) (by
      intro k fban k0 k1 ih
      obtain ⟨out, e, -, ho⟩ := C18_inverse G σ L (-k) L_lower nside hv hhp h0 h1
        (scaled (N - 1 + k)) reality (by
          intro hr hk el a b
          have hk : k = 0 := by omega
          rw [hsc, hk, add_zero]
          simp only
          rw [Complex.mul_im, Complex.ofReal_im, hre hr el a b]
          ring) hex
      refine ⟨_, by
        show (baseInverse G (.d2 L (2 * L - 1) _) L _ _ _ _ _ >>= _) = _
        rw [e]; rfl, ?_⟩
      intro n n0 n1 t p ht
      unfold setPlane
      by_cases hn : n = k
      · subst hn
        rw [if_pos rfl, ho t p ht, wigPlane_harmonic h0]
        congr 2
        funext l m
        unfold coeffs wignerCoeffs
        cases reality
        · rw [if_neg (by simp), if_neg (by simp)]
        · rw [hst, if_pos rfl] at n0
          rw [if_pos (show true = true from rfl)]
          rcases eq_or_lt_of_le n0 with hz | hz
          · subst hz
            rw [if_pos (by simp)]
            unfold realCoeffs realWignerCoeffs
            by_cases hm : m < 0
            · rw [if_pos hm, if_pos (by omega)]
              simp only [map_mul, Complex.conj_ofReal, neg_zero, add_zero, hsc]
              ring
            · rw [if_neg hm, if_neg (by omega)]
          · rw [if_neg (by omega)]
            unfold realWignerCoeffs
            rw [if_neg (by omega)]
      · rw [if_neg (by omega)]
        exact ih n n0 (by omega) t p ht)
  obtain ⟨out, e2, hs, ho⟩ := packSo3_scheme (σ := σ) (L := L) (nside := nside.getD 0) N (fun g i j =>
      if reality then irfft_fwd (2 * N - 1 - (N - 1)) (fun k => fban (N - 1 + k) i j) (2 * N - 1) g
      else ifft_fwd (ngamma N) (ifftshift (ngamma N) (fun k => fban k i j)) g)
  refine ⟨out, ?_, hs, ?_⟩
  · unfold wignerBaseInverse
    rw [if_neg (by simp [Nd.shape, flmn_shape]), so3_shape hv]
    show (forRangeM start N _ _ >>= _) = _
    exact Eq.trans (congrArg (fun r : Except PyErr (ℤ → ℤ → ℤ → ℂ) => r >>= _) e1) e2
  · intro g t p g0 g1 ht
    rw [ho, wignerSum_planes]
    have hp := fun n a b => hf n a b t p ht
    generalize σ.theta G.nodes L (nside.getD 0) t = θ at *
    generalize σ.phi L (nside.getD 0) t p = φ at *
    generalize (σ.pos (nside.getD 0) t p).1 = i at *
    generalize (σ.pos (nside.getD 0) t p).2 = j at *
    cases reality
    · rw [if_neg Bool.false_ne_true] at hst ⊢
      have := ifft_gamma hN (fun n => fban (N - 1 + n) i j) g
      simp only [show ∀ k, N - 1 + (k - (N - 1)) = k from fun k => by ring] at this
      rw [this]
      refine Finset.sum_congr rfl fun n hn => ?_
      rw [Finset.mem_Ioo] at hn
      rw [hp n (by omega) hn.2]
    · rw [if_pos rfl] at hst ⊢
      rw [← irfft_gamma hN _ (fun n _ _ => wigPlane_conj (wignerCoeffs_real hre) n θ φ)]
      refine irfft_congr (by omega) fun k k0 k1 => hp k (by omega) (by omega)

/-- The samples of a signal on the rotation group. -/
def So3SamplesOf (nodes : ℤ → ℤ → ℝ) (σ : Scheme) (L N nside : ℤ) (f : ℤ → ℤ → ℤ → ℂ)
    (h : ℝ → ℝ → ℝ → ℂ) : Prop :=
  ∀ g t p, 0 ≤ g → g < 2 * N - 1 → σ.Has L nside t p →
    f g (σ.pos nside t p).1 (σ.pos nside t p).2
      = h (σ.phi L nside t p) (σ.theta nodes L nside t) (gammaAt N g)

/-- Analysis: applied to the samples of the Wigner expansion with coefficients `c`, `forward`
returns `c` (zero outside the degrees asked for and outside `|m| ≤ l`, `|n| ≤ l`). -/
theorem C26_forward (G : GlTables) (σ : Scheme) (L N L_lower lo : ℤ) (nside : Option ℤ)
    (hv : σ.Valid L (nside.getD 0)) (hN : 1 ≤ N) (hσ : SamplingTheorem G σ L)
    (hex : InnerExact G.nodes σ L (nside.getD 0)) (h0 : 0 ≤ lo) (h1 : L_lower < L)
    (hlo : lo ≤ L_lower) (c : ℤ → ℤ → ℤ → ℂ) (f : Nd ℂ)
    (hf : f.shape = (2 * N - 1) :: σ.shape L (nside.getD 0))
    (hs : So3SamplesOf G.nodes σ L N (nside.getD 0) f.get3 (wignerSum lo L N c))
    (reality : Bool) (hre : reality = true → RealWigner c lo L) :
    ∃ g, wignerBaseForward G f L N L_lower σ.name reality nside
        = .ok (.d3 (2 * N - 1) L (2 * L - 1) g) ∧
      ∀ n el m, |n| < N → 0 ≤ el → el < L → -L < m → m < L →
        g (N - 1 + n) el (m + L - 1)
          = if max |n| L_lower ≤ el ∧ |m| ≤ el then c n el m else 0 := by
  have hL := hv.1
  set start : ℤ := if reality then 0 else -N + 1 with hst
  have hs0 : start ≤ N := by rw [hst]; split_ifs <;> omega
  have hs1 : -N < start := by rw [hst]; split_ifs <;> omega
  obtain ⟨flmn, e1, hfl⟩ := forRangeM_ind hs0 (fun n (flmn : ℤ → ℤ → ℤ → ℂ) => do
      let flm ← baseForward G (planeOf ((2 * N - 1) :: σ.shape L (nside.getD 0))
        (wignerBaseFban f.get3 N reality (n - start))) L (-n) σ.name nside reality L_lower 0
      let flmn := setPlane flmn (N - 1 + n) (fun l j => (-1) ^ n * flm.get2 l j)
      if reality = true ∧ n ≠ 0 then
        pure (setPlane flmn (N - 1 - n) (fun l j => (starRingEnd ℂ)
          (flmn (N - 1 + n) l (2 * L - 1 - 1 - j)
            * (-1) ^ |-L + 1 + (2 * L - 1 - 1 - j)| * (-1) ^ n)))
      else pure flmn) (fun _ _ _ => 0)
    (fun k flmn => ∀ n el m, (start ≤ n ∧ n < k) ∨ (reality = true ∧ start ≤ -n ∧ -n < k) →
      0 ≤ el → el < L → -L < m → m < L →
        flmn (N - 1 + n) el (m + L - 1)
          = if max |n| L_lower ≤ el ∧ |m| ≤ el then c n el m * wigW el else 0)
    (fun n el m h => by omega) (by
      intro k flmn k0 k1 ih
      obtain ⟨g, e, hg⟩ := C24_forward G σ L (-k) L_lower lo nside hv hσ hex (by omega) h1 hlo bVec
        (by simp) (fun l m => (-1) ^ k * (c k l m * wigW l))
        (planeOf ((2 * N - 1) :: σ.shape L (nside.getD 0))
          (wignerBaseFban f.get3 N reality (k - start))) (planeOf_shape N _) (by
          intro t p ht
          rw [planeOf_get, fban_plane hN reality hre (fun g a b => hs g t p a b ht) (by omega) k1,
            wigPlane_scaled h0]) reality (by
          intro hr hk l m a b d
          have hk : k = 0 := by omega
          subst hk
          have := hre hr 0 l m a b d
          rw [neg_zero, add_zero] at this
          beta_reduce
          rw [this]
          simp only [zpow_zero, one_mul, map_mul, Complex.conj_ofReal]
          ring)
      have hplane : ∀ el m, 0 ≤ el → el < L → -L < m → m < L →
          (-1 : ℂ) ^ k * g el (m + L - 1)
            = if max |k| L_lower ≤ el ∧ |m| ≤ el then c k el m * wigW el else 0 := by
        intro el m a b d d'
        rw [hg el m a b d d', abs_neg]
        split_ifs
        · rw [← mul_assoc, neg_one_zpow_sq, one_mul]
        · rw [mul_zero]
      have eb : baseForward G (planeOf ((2 * N - 1) :: σ.shape L (nside.getD 0))
        (wignerBaseFban f.get3 N reality (k - start))) L (-k) σ.name nside reality L_lower 0
          = .ok (.d2 L (2 * L - 1) g) := e
      simp only [eb, bind, Except.bind, pure, Except.pure]
      have hown : ∀ n el m, (start ≤ n ∧ n < k + 1) ∨ (reality = true ∧ start ≤ -n ∧ -n < k) →
          0 ≤ el → el < L → -L < m → m < L →
          setPlane flmn (N - 1 + k) (fun l j => (-1) ^ k * (Nd.d2 L (2 * L - 1) g).get2 l j)
            (N - 1 + n) el (m + L - 1)
            = if max |n| L_lower ≤ el ∧ |m| ≤ el then c n el m * wigW el else 0 := by
        intro n el m hn a b d d'
        unfold setPlane
        by_cases hnk : n = k
        · subst hnk
          rw [if_pos rfl]
          exact hplane el m a b d d'
        · rw [if_neg (by omega)]
          exact ih n el m (hn.imp (fun h => ⟨h.1, by omega⟩) id) a b d d'
      by_cases hc : reality = true ∧ k ≠ 0
      · rw [if_pos hc]
        refine ⟨_, rfl, ?_⟩
        intro n el m hn a b d d'
        have hz : start = 0 := by rw [hst, if_pos hc.1]
        by_cases hnk : n = -k
        · subst hnk
          unfold setPlane
          rw [if_pos (by ring), if_pos rfl]
          have h3 := hplane el (-m) a b (by omega) (by omega)
          rw [show 2 * L - 1 - 1 - (m + L - 1) = -m + L - 1 by ring,
            show -L + 1 + (-m + L - 1) = -m by ring]
          simp only [Nd.get2]
          rw [h3, abs_neg, abs_neg]
          have hsg : ((-1 : ℂ)) ^ |m| = (-1) ^ m := by
            rcases abs_choice m with h | h
            · rw [h]
            · rw [h, neg_one_zpow_neg]
          have hone : ∀ k : ℤ, (starRingEnd ℂ) ((-1 : ℂ) ^ k) = (-1) ^ k := fun k => by
            rw [map_zpow₀, map_neg, map_one]
          split_ifs with h4
          · have h5 := hre hc.1 k el (-m) (by omega) b (by rw [abs_neg]; exact h4.2)
            rw [neg_neg] at h5
            rw [h5, hsg, map_mul, map_mul, map_mul, hone, hone, Complex.conj_ofReal,
              zpow_add₀ (by norm_num), neg_one_zpow_neg]
            ring
          · simp
        · unfold setPlane
          rw [if_neg (by omega)]
          exact hown n el m (hn.imp id (fun h => ⟨h.1, h.2.1, by omega⟩)) a b d d'
      · rw [if_neg hc]
        refine ⟨_, rfl, ?_⟩
        intro n el m hn a b d d'
        refine hown n el m ?_ a b d d'
        rcases hn with hn | ⟨hr, hn⟩
        · exact Or.inl hn
        · have : k = 0 := by by_contra h; exact hc ⟨hr, h⟩
          have hz : start = 0 := by rw [hst, if_pos hr]
          omega)
  refine ⟨fun n l m => flmn n l m * (√(4 * Real.pi / (2 * (l : ℝ) + 1)) : ℝ), ?_, ?_⟩
  · unfold wignerBaseForward
    rw [so3_shape hv]
    show (if f.shape ≠ (2 * N - 1) :: σ.shape L (nside.getD 0) then _ else _) = _
    rw [if_neg (by rw [hf]; simp)]
    exact congrArg (fun r : Except PyErr (ℤ → ℤ → ℤ → ℂ) => r >>= _) e1
  · intro n el m hn a b d d'
    beta_reduce
    rw [abs_lt] at hn
    rw [hfl n el m (by
      rw [hst]
      cases reality
      · left; rw [if_neg Bool.false_ne_true]; omega
      · rw [if_pos rfl]
        rcases le_total 0 n with h | h
        · left; omega
        · right; exact ⟨rfl, by omega, by omega⟩) a b d d']
    split_ifs
    · rw [mul_assoc, ← Complex.ofReal_mul, wigW_mul a, Complex.ofReal_one, mul_one]
    · rw [zero_mul]

/-- Round trip: `forward (inverse flmn) = flmn` at every degree `≥ max (|n|, L_lower)` and order
`|m| ≤ l`, zero elsewhere. -/
theorem C26_round_trip (G : GlTables) (σ : Scheme) (L N L_lower : ℤ) (nside : Option ℤ)
    (hv : σ.Valid L (nside.getD 0)) (hN : 1 ≤ N) (hσ : SamplingTheorem G σ L)
    (hex : GridExact G.nodes σ L (nside.getD 0)) (hex' : InnerExact G.nodes σ L (nside.getD 0))
    (h0 : 0 ≤ L_lower) (h1 : L_lower < L) (flmn : ℤ → ℤ → ℤ → ℂ) (reality : Bool)
    (hre : RealOrigin flmn L N reality L_lower) :
    ∃ f g, wignerBaseInverse G (.d3 (2 * N - 1) L (2 * L - 1) flmn) L N L_lower σ.name reality nside
        = .ok f ∧
      wignerBaseForward G f L N L_lower σ.name reality nside
        = .ok (.d3 (2 * N - 1) L (2 * L - 1) g) ∧
      ∀ n el m, |n| < N → 0 ≤ el → el < L → -L < m → m < L →
        g (N - 1 + n) el (m + L - 1) = if max |n| L_lower ≤ el ∧ |m| ≤ el
          then wignerCoeffs flmn L N reality n el m else 0 := by
  obtain ⟨f, e, hs, hf⟩ := C26_inverse G σ L N L_lower nside hv hN (fun h => absurd h hσ.1) h0 h1
    flmn reality hre hex
  obtain ⟨g, e', hg⟩ := C26_forward G σ L N L_lower L_lower nside hv hN hσ hex' h0 h1 le_rfl
    (wignerCoeffs flmn L N reality) f hs hf reality (by
      rintro rfl
      exact wignerCoeffs_real hre)
  exact ⟨f, g, e, e', hg⟩

/-- The hypotheses are met, e.g. by MW sampling with `L = 8`, `N = 3`, `L_lower = 1` and coefficients
that are all non-zero. -/
example (G : GlTables) : Scheme.mw.Valid 8 0 ∧ SamplingTheorem G .mw 8 ∧
    GridExact G.nodes .mw 8 0 ∧ InnerExact G.nodes .mw 8 0 ∧
    RealOrigin (fun n el m => 1 + ((n - 2 : ℤ) : ℂ) * Complex.I) 8 3 true 1 :=
  ⟨⟨by norm_num, by simp⟩, ⟨by simp, by simp⟩,
    (C24_grids G.nodes .mw 8 0 (Or.inl rfl) (by norm_num) (by norm_num)).1,
    (C24_grids G.nodes .mw 8 0 (Or.inl rfl) (by norm_num) (by norm_num)).2,
    fun _ el _ _ => by norm_num⟩

end S2fft
