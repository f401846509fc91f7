import Verif.Lemmas.GlGrid
import Verif.Lemmas.LegendreExist

/-! # C18: the inverse transform evaluates the harmonic expansion -/

namespace S2fft
open Spec

/-- Coefficients `flm` (order `m` in column `m + L - 1`) as the transform understands them: with
the reality flag (spin 0) only non-negative orders are read, the others being those of a real
signal. -/
noncomputable def coeffs (flm : ℤ → ℤ → ℂ) (L spin : ℤ) (reality : Bool) : ℤ → ℤ → ℂ :=
  if reality = true ∧ spin = 0 then realCoeffs (fun l m => flm l (m + L - 1))
  else fun l m => flm l (m + L - 1)

/-- With the reality flag the coefficients of order zero are real, as those of every real signal
are. -/
def RealOrderZero (flm : ℤ → ℤ → ℂ) (L spin : ℤ) (reality : Bool) (L_lower : ℤ) : Prop :=
  reality = true → spin = 0 → ∀ el, L_lower ≤ el → el < L → (flm el (L - 1)).im = 0

/-- `inverse` returns, at every sample of every grid, the sum over `L_lower ≤ l < L`, `|m| ≤ l` of
the coefficient times the spin spherical harmonic, for every spin, on grids without rings inside
the pole windows of the recursion (C13; see `C18_grids`). -/
theorem C18_inverse (G : GlTables) (σ : Scheme) (L spin L_lower : ℤ) (nside : Option ℤ)
    (hv : σ.Valid L (nside.getD 0)) (hhp : σ = .healpix → 2 * nside.getD 0 ≤ L)
    (h0 : 0 ≤ L_lower) (h1 : L_lower < L) (flm : ℤ → ℤ → ℂ) (reality : Bool)
    (hre : RealOrderZero flm L spin reality L_lower)
    (hex : GridExact G.nodes σ L (nside.getD 0)) :
    ∃ out, baseInverse G (.d2 L (2 * L - 1) flm) L spin σ.name nside reality L_lower = .ok out ∧
      out.shape = σ.shape L (nside.getD 0) ∧
      ∀ t p, σ.Has L (nside.getD 0) t p →
        out.get2 (σ.pos (nside.getD 0) t p).1 (σ.pos (nside.getD 0) t p).2
          = harmonicSum L_lower L spin (coeffs flm L spin reality)
              (σ.theta G.nodes L (nside.getD 0) t) (σ.phi L (nside.getD 0) t p) := by
  obtain ⟨out, e, hs, hf⟩ := baseInverseWith_values G (lower_name σ) (method := bVec)
    (by simp [baseMethods]) (fun _ => mOffset_name σ) (spin := spin) hv (fun _ => hhp) flm reality
    h0 h1 (fun _ => hre)
  refine ⟨out, e, hs, fun t p h => ?_⟩
  rw [hf t p h, synth_gVal_harmonic flm _ h0 hv.1 (by
    split_ifs with h
    · intro h'; cases h'
    · intro h'; by_contra hne; exact h ⟨h', hne⟩), snapAngle_eq _ (hex t h.1 h.2.1)]
  congr 1
  unfold coeffs
  by_cases a : reality = true <;> by_cases b : spin = 0 <;> simp [a, b]

/-- The same on every grid, rings inside the pole windows included: the value returned is that of
the expansion at a colatitude at most `3.2e-5` away. The same for each of the four methods (the
two without FFT need neither `2 nside ≤ L` nor real coefficients of order zero). -/
theorem C18_inverse_close (G : GlTables) (σ : Scheme) (L spin L_lower : ℤ) (nside : Option ℤ)
    (method : PyStr) (hmt : method ∈ [bDirect, bSov, bSovFft, bVec])
    (hv : σ.Valid L (nside.getD 0))
    (hhp : method = bSovFft ∨ method = bVec → σ = .healpix → 2 * nside.getD 0 ≤ L)
    (h0 : 0 ≤ L_lower) (h1 : L_lower < L) (flm : ℤ → ℤ → ℂ) (reality : Bool)
    (hre : method = bSovFft ∨ method = bVec → RealOrderZero flm L spin reality L_lower) :
    ∃ out, baseInverseWith G (.d2 L (2 * L - 1) flm) L spin σ.name method nside reality L_lower
        = .ok out ∧
      out.shape = σ.shape L (nside.getD 0) ∧
      ∀ t p, σ.Has L (nside.getD 0) t p →
        ∃ θ', |θ' - σ.theta G.nodes L (nside.getD 0) t| ≤ 3.2e-5 ∧
        (ExactAngle (σ.theta G.nodes L (nside.getD 0) t) →
          θ' = σ.theta G.nodes L (nside.getD 0) t) ∧
        out.get2 (σ.pos (nside.getD 0) t p).1 (σ.pos (nside.getD 0) t p).2
          = harmonicSum L_lower L spin (coeffs flm L spin reality) θ'
              (σ.phi L (nside.getD 0) t p) := by
  obtain ⟨out, e, hs, hf⟩ := baseInverseWith_values G (lower_name σ) (method := method)
    hmt (fun _ => mOffset_name σ) (spin := spin) hv hhp flm reality h0 h1 hre
  refine ⟨out, e, hs, fun t p h => ⟨_, snapAngle_close _, fun h => snapAngle_eq _ h, ?_⟩⟩
  rw [hf t p h, synth_gVal_harmonic flm _ h0 hv.1 (by
    split_ifs with h
    · intro h'; cases h'
    · intro h'; by_contra hne; exact h ⟨h', hne⟩)]
  congr 1
  unfold coeffs
  by_cases a : reality = true <;> by_cases b : spin = 0 <;> simp [a, b]

/-- The grids without rings inside the windows include every band-limit and resolution up to
20000 (for `gl` see `C18_gl_grid`). -/
theorem C18_grids (nodes : ℤ → ℤ → ℝ) (σ : Scheme) (L nside : ℤ) (hv : σ.Valid L nside)
    (hgl : σ ≠ .gl) (hL : L ≤ 20000) (hn : nside ≤ 20000) : GridExact nodes σ L nside := by
  intro t ht0 ht1
  have hpi := Real.pi_pos
  have hpi3 := Real.two_le_pi
  have hpi4 := Real.pi_le_four
  have hL1 : (1 : ℝ) ≤ L := by exact_mod_cast hv.1
  have hL2 : (L : ℝ) ≤ 20000 := by exact_mod_cast hL
  have h0 : (0 : ℝ) ≤ t := by exact_mod_cast ht0
  have hmem := theta_mem nodes σ hv ht0 ht1
  cases σ with
  | mw =>
    simp only [Scheme.rings] at ht1
    simp only [Scheme.theta] at hmem ⊢
    rcases eq_or_lt_of_le (show t + 1 ≤ L by omega) with h | h
    · right; left
      have : (L : ℝ) = t + 1 := by exact_mod_cast h.symm
      have h3 : (2 * (t : ℝ) + 1) ≠ 0 := by positivity
      rw [this, show 2 * ((t : ℝ) + 1) - 1 = 2 * t + 1 by ring, mul_div_cancel_left₀ _ h3]
    · right; right
      have h' : (t : ℝ) + 2 ≤ L := by exact_mod_cast (by omega : t + 2 ≤ L)
      have hd : (0 : ℝ) < 2 * L - 1 := by linarith
      rw [abs_of_nonneg hmem.1, abs_of_nonpos (by linarith), lt_div_iff₀ hd]
      constructor
      · nlinarith
      · have e : -((2 * (t : ℝ) + 1) * Real.pi / (2 * L - 1) - Real.pi)
            = (2 * L - 2 - 2 * t) * Real.pi / (2 * L - 1) := by field_simp; ring
        rw [e, lt_div_iff₀ hd]
        nlinarith
  | mwss =>
    simp only [Scheme.rings] at ht1
    simp only [Scheme.theta] at hmem ⊢
    rcases eq_or_lt_of_le (show t ≤ L by omega) with h | h
    · right; left
      rw [h]; field_simp
    · rcases eq_or_lt_of_le ht0 with h2 | h2
      · left; rw [← h2]; simp
      · right; right
        have h' : (t : ℝ) + 1 ≤ L := by exact_mod_cast h
        have h2' : (1 : ℝ) ≤ t := by exact_mod_cast h2
        have hd : (0 : ℝ) < L := by linarith
        rw [abs_of_nonneg hmem.1, abs_of_nonpos (by linarith), lt_div_iff₀ hd]
        constructor
        · nlinarith
        · have e : -((t : ℝ) * Real.pi / L - Real.pi) = (L - t) * Real.pi / L := by
            field_simp; ring
          rw [e, lt_div_iff₀ hd]
          nlinarith
  | dh =>
    simp only [Scheme.rings] at ht1
    simp only [Scheme.theta] at hmem ⊢
    right; right
    have h' : (t : ℝ) + 1 ≤ 2 * L := by exact_mod_cast ht1
    have hd : (0 : ℝ) < 4 * L := by linarith
    rw [abs_of_nonneg hmem.1, abs_of_nonpos (by linarith), lt_div_iff₀ hd]
    constructor
    · nlinarith
    · have e : -((2 * (t : ℝ) + 1) * Real.pi / (4 * L) - Real.pi)
          = (4 * L - 1 - 2 * t) * Real.pi / (4 * L) := by field_simp; ring
      rw [e, lt_div_iff₀ hd]
      nlinarith
  | gl => exact absurd rfl hgl
  | healpix =>
    right; right
    have hn1 := hv.2 rfl
    simp only [Scheme.rings] at ht1
    have hnr : (1 : ℝ) ≤ nside := by exact_mod_cast hn1
    have hnr2 : (nside : ℝ) ≤ 20000 := by exact_mod_cast hn
    -- `|cos θ| ≤ 1 - 1 / (3 nside²)` and `cos x ≥ 1 - x² / 2`
    have hz : |Scheme.healpixZ nside t| ≤ 1 - 1 / (3 * (nside : ℝ) ^ 2) := by
      rw [healpixZ_eq hn1 ht0 ht1]
      have hpos : (0 : ℝ) < 3 * (nside : ℝ) ^ 2 := by positivity
      rcases le_or_gt (t + 1) nside with h | h
      · rw [ringZ_north ht0 h]
        have hb := polar_bound (n := nside) (i := t + 1) (by omega) h
        push_cast at hb
        rw [abs_of_nonneg (by linarith)]
        have : 1 / (3 * (nside : ℝ) ^ 2) ≤ ((t : ℝ) + 1) ^ 2 / (3 * (nside : ℝ) ^ 2) := by
          apply div_le_div_of_nonneg_right _ hpos.le
          nlinarith
        linarith
      · rcases lt_or_ge (t + 1) (3 * nside) with h' | h'
        · rw [ringZ_mid (by omega) (by omega)]
          have := mid_bound h h'
          have : 1 / (3 * (nside : ℝ) ^ 2) ≤ 1 / 3 := by
            apply one_div_le_one_div_of_le (by norm_num)
            nlinarith
          linarith
        · rw [ringZ_south hn1 ht1 h', abs_neg]
          have hb := polar_bound (n := nside) (i := 4 * nside - 1 - t) (by omega) (by omega)
          rw [abs_of_nonneg (by linarith)]
          have : 1 / (3 * (nside : ℝ) ^ 2)
              ≤ ((4 * nside - 1 - t : ℤ) : ℝ) ^ 2 / (3 * (nside : ℝ) ^ 2) := by
            apply div_le_div_of_nonneg_right _ hpos.le
            have : (1 : ℝ) ≤ ((4 * nside - 1 - t : ℤ) : ℝ) := by
              exact_mod_cast (by omega : 1 ≤ 4 * nside - 1 - t)
            nlinarith
          linarith
    have hgap : (4e-5 : ℝ) ^ 2 / 2 < 1 / (3 * (nside : ℝ) ^ 2) := by
      rw [lt_div_iff₀ (by positivity)]
      nlinarith
    rw [abs_le] at hz
    have hc : Real.cos (Scheme.healpix.theta nodes L nside t) = Scheme.healpixZ nside t := by
      simp only [Scheme.theta]
      have : (0 : ℝ) < 1 / (3 * (nside : ℝ) ^ 2) := by positivity
      exact Real.cos_arccos (by linarith) (by linarith)
    generalize Scheme.healpix.theta nodes L nside t = x at hmem hc
    have hfar : ∀ y : ℝ, 0 ≤ y → Real.cos y ≤ 1 - 1 / (3 * (nside : ℝ) ^ 2) → 4e-5 < y := by
      intro y hy hcy
      by_contra hcon
      have := Real.one_sub_sq_div_two_le_cos (x := y)
      have : y ^ 2 ≤ (4e-5) ^ 2 := by nlinarith
      linarith
    have a1 := hfar x hmem.1 (by rw [hc]; exact hz.2)
    have a2 := hfar (Real.pi - x) (by linarith) (by rw [Real.cos_pi_sub, hc]; linarith)
    rw [abs_of_nonneg hmem.1, abs_of_nonpos (by linarith)]
    constructor
    · linarith
    · have := Real.pi_le_four
      have : Real.pi < 3.15 := Real.pi_lt_d2
      linarith

/-- The hypotheses are met, e.g. by MWSS sampling at `L = 16`, spin 2, `L_lower = 3`, and by
HEALPix with `nside = 8`. -/
example (nodes : ℤ → ℤ → ℝ) : Scheme.mwss.Valid 16 0 ∧ GridExact nodes .mwss 16 0 ∧
    Scheme.healpix.Valid 16 8 ∧ GridExact nodes .healpix 16 8 ∧
    RealOrderZero (fun _ _ => 1 + Complex.I) 16 2 true 3 := by
  refine ⟨⟨by norm_num, by simp⟩, C18_grids nodes _ _ _ ⟨by norm_num, by simp⟩ (by simp) (by norm_num)
    (by norm_num), ⟨by norm_num, by simp⟩, C18_grids nodes _ _ _ ⟨by norm_num, by simp⟩ (by simp)
    (by norm_num) (by norm_num), ?_⟩
  intro _ h; norm_num at h

/-- So does the Gauss–Legendre grid, whose nodes are the zeros of the Legendre polynomial. -/
theorem C18_gl_grid (nodes : ℤ → ℤ → ℝ) (L nside : ℤ) (hL : 1 ≤ L) (hL2 : L ≤ 20000)
    (hmono : ∀ i j, 0 ≤ i → i < j → j < L → nodes L i < nodes L j)
    (hroot : ∀ i, 0 ≤ i → i < L → (Legendre.P L.toNat).eval (nodes L i) = 0) :
    GridExact nodes .gl L nside := gl_gridExact nside hL hL2 hmono hroot

/-- The hypotheses are met: the zeros exist for every `L`. -/
example : ∃ nodes : ℤ → ℤ → ℝ, ∀ L, 1 ≤ L → (∀ i j, 0 ≤ i → i < j → j < L → nodes L i < nodes L j) ∧
    ∀ i, 0 ≤ i → i < L → (Legendre.P L.toNat).eval (nodes L i) = 0 := by
  choose x hx using legendre_roots_exist
  refine ⟨fun L => x (L - 1).toNat, fun L hL => ?_⟩
  obtain ⟨N, rfl⟩ : ∃ N : ℕ, L = N + 1 := ⟨(L - 1).toNat, by omega⟩
  beta_reduce
  rw [show ((N : ℤ) + 1 - 1).toNat = N by omega, show ((N : ℤ) + 1).toNat = N + 1 by omega]
  exact hx N

end S2fft
