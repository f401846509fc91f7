import Verif.Lemmas.MirrorWigner
import Verif.Props.C55
import Verif.Props.C52Wigner

/-!
# C55: conjugates and mirror images on the rotation group

The coefficients of the conjugate are `(-1)^(m+n) conj(c_{-n,l,-m})`, those of
`f(α, π - β, -γ)` are `(-1)^(l+m) c_{-n,l,m}`.
-/

namespace S2fft
open Spec

/-- `np.conj(f)`. -/
theorem C55_conj_so3 (σ : Scheme) (L N ns : ℤ) (f : ℤ → ℤ → ℤ → ℂ) :
    ConjugatesSo3 σ L N ns f (fun g t p => (starRingEnd ℂ) (f g t p)) := fun _ _ _ _ _ _ => rfl

/-- `np.roll(np.flip(f, (0, 1)), 1, axis=0)`. -/
theorem C55_flip_so3 (σ : Scheme) (hσ : σ ≠ .healpix) (L N : ℤ) (hN : 1 ≤ N) (f : ℤ → ℤ → ℤ → ℂ) :
    MirroredSo3 σ L N 0 f (fun g t p => f (-g % (2 * N - 1)) (σ.rings L 0 - 1 - t) p) := by
  intro g g0 g1
  have h : -(-g % (2 * N - 1)) % (2 * N - 1) = g := by
    have h1 : (-(-g % (2 * N - 1))) % (2 * N - 1) = g % (2 * N - 1) := by
      rw [Int.emod_eq_emod_iff_emod_sub_eq_zero]
      refine Int.emod_eq_zero_of_dvd ⟨-g / (2 * N - 1), ?_⟩
      have := Int.emod_add_mul_ediv (-g) (2 * N - 1)
      linarith
    rw [h1, Int.emod_eq_of_lt g0 g1]
  have := C55_flip σ hσ L (f g)
  beta_reduce
  rw [h]
  exact this

section
variable (B : Backends) (G : Machine) (T : GlTables) (σ : Scheme) (L N lo : ℤ) (nside : Option ℤ)

/-! ## The base transforms -/

theorem plainFwd_base (hσ : σ = .dh ∨ σ = .gl ∨ σ = .healpix) (hv : σ.Valid L (nside.getD 0))
    (hN : 1 ≤ N) (hhp : σ = .healpix → 2 * nside.getD 0 ≤ L) (h0 : 0 ≤ lo) (h1 : lo < L) (f : Nd ℂ)
    (hf : f.shape = (2 * N - 1) :: σ.shape L (nside.getD 0)) :
    ∃ g, wignerBaseForward T f L N lo σ.name false nside = .ok (.d3 (2 * N - 1) L (2 * L - 1) g) ∧
      PlainFwd σ L N (nside.getD 0) lo (fun t => snapAngle (σ.theta T.nodes L (nside.getD 0) t))
        (innerWeight T σ L (nside.getD 0)) f.get3 g := by
  have hR := plain_scheme σ hσ
  obtain ⟨g, e, hg⟩ := wignerBaseForward_values σ L N lo nside T hv hN hhp h0 h1 f hf false
    (by rintro ⟨⟩)
  refine ⟨g, e, fun n l m hn l0 l1 m0 m1 => ?_⟩
  rw [hg n l m hn l0 l1 m0 m1]
  by_cases hl : l < max |n| lo
  · rw [if_pos hl, mirrored_low σ L N lo nside hl, zero_mul]
  · rw [if_neg hl, wigFwdVal_plain T hR hN hf _ (by rw [max_comm]; exact not_lt.1 hl), plain_theta hR]

theorem C55_wigner_base_inverse_conj (hv : σ.Valid L (nside.getD 0)) (hN : 1 ≤ N)
    (hhp : σ = .healpix → 2 * nside.getD 0 ≤ L) (h0 : 0 ≤ lo) (h1 : lo < L)
    (flmn : ℤ → ℤ → ℤ → ℂ) (hex : GridExact T.nodes σ L (nside.getD 0)) :
    ∃ f f', wignerBaseInverse T (.d3 (2 * N - 1) L (2 * L - 1) flmn) L N lo σ.name false nside
        = .ok f ∧
      wignerBaseInverse T (.d3 (2 * N - 1) L (2 * L - 1) (conjWigner L N flmn)) L N lo σ.name
        false nside = .ok f' ∧ ConjugatesSo3 σ L N (nside.getD 0) f.get3 f'.get3 := by
  obtain ⟨f, e, -, hf⟩ := C26_inverse T σ L N lo nside hv hN hhp h0 h1 flmn false (by rintro ⟨⟩) hex
  obtain ⟨f', e', -, hf'⟩ := C26_inverse T σ L N lo nside hv hN hhp h0 h1 (conjWigner L N flmn)
    false (by rintro ⟨⟩) hex
  refine ⟨f, f', e, e', fun g g0 g1 t p hp => ?_⟩
  rw [hf g t p g0 g1 hp, hf' g t p g0 g1 hp]
  exact wignerSum_conj lo L N _ _ _ fun n l m _ _ _ _ => wignerCoeffs_conj flmn L N n l m

theorem C55_wigner_base_inverse_mirror (hv : σ.Valid L (nside.getD 0)) (hm : MirrorGrid T.nodes σ L)
    (hN : 1 ≤ N) (hhp : σ = .healpix → 2 * nside.getD 0 ≤ L) (h0 : 0 ≤ lo) (h1 : lo < L)
    (flmn : ℤ → ℤ → ℤ → ℂ) (hex : GridExact T.nodes σ L (nside.getD 0)) :
    ∃ f f', wignerBaseInverse T (.d3 (2 * N - 1) L (2 * L - 1) flmn) L N lo σ.name false nside
        = .ok f ∧
      wignerBaseInverse T (.d3 (2 * N - 1) L (2 * L - 1) (mirrorWigner L N flmn)) L N lo σ.name
        false nside = .ok f' ∧ MirroredSo3 σ L N (nside.getD 0) f.get3 f'.get3 := by
  obtain ⟨f, e, -, hf⟩ := C26_inverse T σ L N lo nside hv hN hhp h0 h1 flmn false (by rintro ⟨⟩) hex
  obtain ⟨f', e', -, hf'⟩ := C26_inverse T σ L N lo nside hv hN hhp h0 h1 (mirrorWigner L N flmn)
    false (by rintro ⟨⟩) hex
  refine ⟨f, f', e, e', fun g g0 g1 t p hp => ?_⟩
  rw [hf g t p g0 g1 hp, hf' _ _ p (Int.emod_nonneg _ (by omega)) (Int.emod_lt_of_pos _ (by omega))
    (mirror_has hp), mirror_theta hv hm hp.1 hp.2.1, mirror_phi, wignerSum_gamma hN]
  exact wignerSum_mirror lo L N _ _ _ fun n l m _ _ _ _ => wignerCoeffs_mirror flmn L N n l m

theorem C55_wigner_base_forward_conj (hσ : σ = .dh ∨ σ = .gl ∨ σ = .healpix)
    (hv : σ.Valid L (nside.getD 0)) (hN : 1 ≤ N)
    (hhp : σ = .healpix → 2 * nside.getD 0 ≤ L) (h0 : 0 ≤ lo) (h1 : lo < L)
    (f f' : Nd ℂ) (hf : f.shape = (2 * N - 1) :: σ.shape L (nside.getD 0))
    (hf' : f'.shape = (2 * N - 1) :: σ.shape L (nside.getD 0))
    (hc : ConjugatesSo3 σ L N (nside.getD 0) f.get3 f'.get3) :
    ∃ g g', wignerBaseForward T f L N lo σ.name false nside = .ok (.d3 (2 * N - 1) L (2 * L - 1) g) ∧
      wignerBaseForward T f' L N lo σ.name false nside = .ok (.d3 (2 * N - 1) L (2 * L - 1) g') ∧
      ∀ n el m, |n| < N → 0 ≤ el → el < L → -L < m → m < L → g' (N - 1 + n) el (m + L - 1)
        = conjWigner L N g (N - 1 + n) el (m + L - 1) := by
  obtain ⟨g, e, hg⟩ := plainFwd_base T σ L N lo nside hσ hv hN hhp h0 h1 f hf
  obtain ⟨g', e', hg'⟩ := plainFwd_base T σ L N lo nside hσ hv hN hhp h0 h1 f' hf'
  exact ⟨g, g', e, e', plainFwd_conj hg hg' hc⟩

theorem C55_wigner_base_forward_mirror (hσ : σ = .dh ∨ σ = .gl ∨ σ = .healpix)
    (hv : σ.Valid L (nside.getD 0)) (hm : MirrorGrid T.nodes σ L)
    (hw : σ = .gl → ∀ t, 0 ≤ t → t < L → T.weights L (L - 1 - t) = T.weights L t)
    (hex : GridExact T.nodes σ L (nside.getD 0)) (hN : 1 ≤ N)
    (hhp : σ = .healpix → 2 * nside.getD 0 ≤ L) (h0 : 0 ≤ lo) (h1 : lo < L)
    (f f' : Nd ℂ) (hf : f.shape = (2 * N - 1) :: σ.shape L (nside.getD 0))
    (hf' : f'.shape = (2 * N - 1) :: σ.shape L (nside.getD 0))
    (hc : MirroredSo3 σ L N (nside.getD 0) f.get3 f'.get3) :
    ∃ g g', wignerBaseForward T f L N lo σ.name false nside = .ok (.d3 (2 * N - 1) L (2 * L - 1) g) ∧
      wignerBaseForward T f' L N lo σ.name false nside = .ok (.d3 (2 * N - 1) L (2 * L - 1) g') ∧
      ∀ n el m, |n| < N → 0 ≤ el → el < L → -L < m → m < L → g' (N - 1 + n) el (m + L - 1)
        = mirrorWigner L N g (N - 1 + n) el (m + L - 1) := by
  have hR := plain_scheme σ hσ
  obtain ⟨g, e, hg⟩ := plainFwd_base T σ L N lo nside hσ hv hN hhp h0 h1 f hf
  obtain ⟨g', e', hg'⟩ := plainFwd_base T σ L N lo nside hσ hv hN hhp h0 h1 f' hf'
  refine ⟨g, g', e, e', plainFwd_mirror hN hg hg' hc (fun t t0 t1 => ?_)
    (fun t t0 t1 => mirror_weight hv.1 hR hw t0 t1)⟩
  rw [snapAngle_eq _ (hex _ (by omega) (by omega)), snapAngle_eq _ (hex t t0 t1),
    mirror_theta hv hm t0 t1]

/-! ## The on-the-fly transforms -/

theorem plainFwd_otf (hσ : σ = .dh ∨ σ = .gl ∨ σ = .healpix) (hv : σ.Valid L (nside.getD 0))
    (hN : 1 ≤ N) (hNL : N ≤ L) (hN8 : N < 8) (method : PyStr) (hmt : method ∈ [mNumpy, mJax, mTorch])
    (hhp : σ = .healpix → 2 * nside.getD 0 ≤ L ∧ (method ≠ mNumpy → 2 ≤ nside.getD 0))
    (hlo : LowerOk method L lo) (f : Nd ℂ) (hf : f.shape = (2 * N - 1) :: σ.shape L (nside.getD 0))
    (p : WigPrecomps) (hp : WigPrecompsArg G L N σ.name nside true false method p)
    (hr : ∀ n, |n| < N → OtfRegular G σ L (nside.getD 0) n true) (k : ℤ) :
    ∃ g, wignerForward B G f L N nside σ.name method false p lo k
        = .ok (.d3 (2 * N - 1) L (2 * L - 1) g) ∧
      PlainFwd σ L N (nside.getD 0) lo (fun t => G.rnd (σ.theta G.nodes L (nside.getD 0) t))
        (innerWeight G.toGlTables σ L (nside.getD 0)) f.get3 g := by
  have hR := plain_scheme σ hσ
  obtain ⟨g, e, hg⟩ := wignerForward_values B G σ L N lo nside hv hN hNL hN8 method hmt hhp hlo f hf
    false (by rintro ⟨⟩) p hp hr k
  have hθ : G.inner σ L (nside.getD 0) = fun t => G.rnd (σ.theta G.nodes L (nside.getD 0) t) := by
    funext t
    unfold Machine.inner
    rw [plain_theta hR]
  refine ⟨g, e, fun n l m hn l0 l1 m0 m1 => ?_⟩
  rw [hg n l m hn l0 l1 m0 m1, hθ]
  by_cases hl : l < max |n| lo
  · rw [if_pos hl, mirrored_low σ L N lo nside hl, zero_mul]
  · rw [if_neg hl, wigFwdVal_plain G.toGlTables hR hN hf _ (by rw [max_comm]; exact not_lt.1 hl)]

theorem C55_wigner_otf_inverse_conj (hv : σ.Valid L (nside.getD 0))
    (hhp : σ = .healpix → 2 * nside.getD 0 ≤ L) (hN : 1 ≤ N) (hNL : N ≤ L) (hN8 : N < 8)
    (μ ν : PyStr) (hμ : μ ∈ [mNumpy, mJax, mTorch]) (hν : ν ∈ [mNumpy, mJax, mTorch])
    (hlo : LowerOk μ L lo) (hlo' : LowerOk ν L lo) (flmn : ℤ → ℤ → ℤ → ℂ)
    (hf : ∀ n el k, -N < n → n < N → lo ≤ el → el < |n| → 0 ≤ k →
      k < 2 * L - 1 → flmn (N - 1 + n) el k = 0)
    (p p' : WigPrecomps) (hp : WigPrecompsArg G L N σ.name nside false false μ p)
    (hp' : WigPrecompsArg G L N σ.name nside false false ν p')
    (hr : ∀ n, |n| < N → OtfRegular G σ L (nside.getD 0) n false) (k : ℤ) :
    ∃ f f', wignerInverse B G (.d3 (2 * N - 1) L (2 * L - 1) flmn) L N nside σ.name μ false p
        lo k = .ok f ∧
      wignerInverse B G (.d3 (2 * N - 1) L (2 * L - 1) (conjWigner L N flmn)) L N nside σ.name
        ν false p' lo k = .ok f' ∧ ConjugatesSo3 σ L N (nside.getD 0) f.get3 f'.get3 := by
  obtain ⟨f, e, -, hg⟩ := C38_expansion_partial B G σ L N lo nside hv hhp hN hNL hN8 μ hμ hlo
    flmn hf false (by rintro ⟨⟩) (by rintro _ ⟨⟩) p hp hr k
  obtain ⟨f', e', -, hg'⟩ := C38_expansion_partial B G σ L N lo nside hv hhp hN hNL hN8 ν hν hlo'
    (conjWigner L N flmn) (fun n el k h1 h2 h3 h4 h5 h6 => by
      unfold conjWigner
      rw [show 2 * N - 2 - (N - 1 + n) = N - 1 + -n by ring,
        hf (-n) el _ (by omega) (by omega) h3 (by rwa [abs_neg]) (by omega) (by omega), map_zero,
        mul_zero]) false (by rintro ⟨⟩) (by rintro _ ⟨⟩) p' hp' hr k
  refine ⟨f, f', e, e', fun g g0 g1 t q hq => ?_⟩
  rw [hg g t q g0 g1 hq, hg' g t q g0 g1 hq]
  exact wignerSum_conj lo L N _ _ _ fun n l m _ _ _ _ => wignerCoeffs_conj flmn L N n l m

theorem C55_wigner_otf_inverse_mirror (hv : σ.Valid L (nside.getD 0)) (hm : MirrorGrid G.nodes σ L)
    (hst : ExactStored G σ L nside false)
    (hhp : σ = .healpix → 2 * nside.getD 0 ≤ L) (hN : 1 ≤ N) (hNL : N ≤ L) (hN8 : N < 8)
    (μ ν : PyStr) (hμ : μ ∈ [mNumpy, mJax, mTorch]) (hν : ν ∈ [mNumpy, mJax, mTorch])
    (hlo : LowerOk μ L lo) (hlo' : LowerOk ν L lo) (flmn : ℤ → ℤ → ℤ → ℂ)
    (hf : ∀ n el k, -N < n → n < N → lo ≤ el → el < |n| → 0 ≤ k →
      k < 2 * L - 1 → flmn (N - 1 + n) el k = 0)
    (p p' : WigPrecomps) (hp : WigPrecompsArg G L N σ.name nside false false μ p)
    (hp' : WigPrecompsArg G L N σ.name nside false false ν p')
    (hr : ∀ n, |n| < N → OtfRegular G σ L (nside.getD 0) n false) (k : ℤ) :
    ∃ f f', wignerInverse B G (.d3 (2 * N - 1) L (2 * L - 1) flmn) L N nside σ.name μ false p
        lo k = .ok f ∧
      wignerInverse B G (.d3 (2 * N - 1) L (2 * L - 1) (mirrorWigner L N flmn)) L N nside σ.name
        ν false p' lo k = .ok f' ∧ MirroredSo3 σ L N (nside.getD 0) f.get3 f'.get3 := by
  have hst' : ∀ t, 0 ≤ t → t < σ.rings L (nside.getD 0) →
      G.rnd (σ.theta G.nodes L (nside.getD 0) t) = σ.theta G.nodes L (nside.getD 0) t := hst
  obtain ⟨f, e, -, hg⟩ := C38_expansion_partial B G σ L N lo nside hv hhp hN hNL hN8 μ hμ hlo
    flmn hf false (by rintro ⟨⟩) (by rintro _ ⟨⟩) p hp hr k
  obtain ⟨f', e', -, hg'⟩ := C38_expansion_partial B G σ L N lo nside hv hhp hN hNL hN8 ν hν hlo'
    (mirrorWigner L N flmn) (fun n el k h1 h2 h3 h4 h5 h6 => by
      unfold mirrorWigner
      rw [show 2 * N - 2 - (N - 1 + n) = N - 1 + -n by ring,
        hf (-n) el _ (by omega) (by omega) h3 (by rwa [abs_neg]) h5 h6, mul_zero]) false
    (by rintro ⟨⟩) (by rintro _ ⟨⟩) p' hp' hr k
  refine ⟨f, f', e, e', fun g g0 g1 t q hq => ?_⟩
  have h' := mirror_has hq
  rw [hg g t q g0 g1 hq, hg' _ _ q (Int.emod_nonneg _ (by omega)) (Int.emod_lt_of_pos _ (by omega)) h',
    hst' t hq.1 hq.2.1, hst' _ h'.1 h'.2.1, mirror_theta hv hm hq.1 hq.2.1, mirror_phi,
    wignerSum_gamma hN]
  exact wignerSum_mirror lo L N _ _ _ fun n l m _ _ _ _ => wignerCoeffs_mirror flmn L N n l m

theorem C55_wigner_otf_forward_conj (hσ : σ = .dh ∨ σ = .gl ∨ σ = .healpix)
    (hv : σ.Valid L (nside.getD 0)) (hN : 1 ≤ N) (hNL : N ≤ L) (hN8 : N < 8)
    (μ ν : PyStr) (hμ : μ ∈ [mNumpy, mJax, mTorch]) (hν : ν ∈ [mNumpy, mJax, mTorch])
    (hhp : σ = .healpix → 2 * nside.getD 0 ≤ L ∧ (μ ≠ mNumpy ∨ ν ≠ mNumpy → 2 ≤ nside.getD 0))
    (hlo : LowerOk μ L lo) (hlo' : LowerOk ν L lo)
    (f f' : Nd ℂ) (hf : f.shape = (2 * N - 1) :: σ.shape L (nside.getD 0))
    (hf' : f'.shape = (2 * N - 1) :: σ.shape L (nside.getD 0))
    (hc : ConjugatesSo3 σ L N (nside.getD 0) f.get3 f'.get3)
    (p p' : WigPrecomps) (hp : WigPrecompsArg G L N σ.name nside true false μ p)
    (hp' : WigPrecompsArg G L N σ.name nside true false ν p')
    (hr : ∀ n, |n| < N → OtfRegular G σ L (nside.getD 0) n true) (k : ℤ) :
    ∃ g g', wignerForward B G f L N nside σ.name μ false p lo k
        = .ok (.d3 (2 * N - 1) L (2 * L - 1) g) ∧
      wignerForward B G f' L N nside σ.name ν false p' lo k
        = .ok (.d3 (2 * N - 1) L (2 * L - 1) g') ∧
      ∀ n el m, |n| < N → 0 ≤ el → el < L → -L < m → m < L → g' (N - 1 + n) el (m + L - 1)
        = conjWigner L N g (N - 1 + n) el (m + L - 1) := by
  obtain ⟨g, e, hg⟩ := plainFwd_otf B G σ L N lo nside hσ hv hN hNL hN8 μ hμ
    (fun h => ⟨(hhp h).1, fun h' => (hhp h).2 (Or.inl h')⟩) hlo f hf p hp hr k
  obtain ⟨g', e', hg'⟩ := plainFwd_otf B G σ L N lo nside hσ hv hN hNL hN8 ν hν
    (fun h => ⟨(hhp h).1, fun h' => (hhp h).2 (Or.inr h')⟩) hlo' f' hf' p' hp' hr k
  exact ⟨g, g', e, e', plainFwd_conj hg hg' hc⟩

theorem C55_wigner_otf_forward_mirror (hσ : σ = .dh ∨ σ = .gl ∨ σ = .healpix)
    (hv : σ.Valid L (nside.getD 0)) (hm : MirrorGrid G.nodes σ L)
    (hw : σ = .gl → ∀ t, 0 ≤ t → t < L → G.weights L (L - 1 - t) = G.weights L t)
    (hst : ExactStored G σ L nside false) (hN : 1 ≤ N) (hNL : N ≤ L) (hN8 : N < 8)
    (μ ν : PyStr) (hμ : μ ∈ [mNumpy, mJax, mTorch]) (hν : ν ∈ [mNumpy, mJax, mTorch])
    (hhp : σ = .healpix → 2 * nside.getD 0 ≤ L ∧ (μ ≠ mNumpy ∨ ν ≠ mNumpy → 2 ≤ nside.getD 0))
    (hlo : LowerOk μ L lo) (hlo' : LowerOk ν L lo)
    (f f' : Nd ℂ) (hf : f.shape = (2 * N - 1) :: σ.shape L (nside.getD 0))
    (hf' : f'.shape = (2 * N - 1) :: σ.shape L (nside.getD 0))
    (hc : MirroredSo3 σ L N (nside.getD 0) f.get3 f'.get3)
    (p p' : WigPrecomps) (hp : WigPrecompsArg G L N σ.name nside true false μ p)
    (hp' : WigPrecompsArg G L N σ.name nside true false ν p')
    (hr : ∀ n, |n| < N → OtfRegular G σ L (nside.getD 0) n true) (k : ℤ) :
    ∃ g g', wignerForward B G f L N nside σ.name μ false p lo k
        = .ok (.d3 (2 * N - 1) L (2 * L - 1) g) ∧
      wignerForward B G f' L N nside σ.name ν false p' lo k
        = .ok (.d3 (2 * N - 1) L (2 * L - 1) g') ∧
      ∀ n el m, |n| < N → 0 ≤ el → el < L → -L < m → m < L → g' (N - 1 + n) el (m + L - 1)
        = mirrorWigner L N g (N - 1 + n) el (m + L - 1) := by
  have hR := plain_scheme σ hσ
  have hst' : ∀ t, 0 ≤ t → t < σ.rings L (nside.getD 0) →
      G.rnd (σ.theta G.nodes L (nside.getD 0) t) = σ.theta G.nodes L (nside.getD 0) t := hst
  obtain ⟨g, e, hg⟩ := plainFwd_otf B G σ L N lo nside hσ hv hN hNL hN8 μ hμ
    (fun h => ⟨(hhp h).1, fun h' => (hhp h).2 (Or.inl h')⟩) hlo f hf p hp hr k
  obtain ⟨g', e', hg'⟩ := plainFwd_otf B G σ L N lo nside hσ hv hN hNL hN8 ν hν
    (fun h => ⟨(hhp h).1, fun h' => (hhp h).2 (Or.inr h')⟩) hlo' f' hf' p' hp' hr k
  refine ⟨g, g', e, e', plainFwd_mirror hN hg hg' hc (fun t t0 t1 => ?_)
    (fun t t0 t1 => mirror_weight hv.1 hR hw t0 t1)⟩
  rw [hst' t t0 t1, hst' _ (by omega) (by omega), mirror_theta hv hm t0 t1]

/-! ## The transforms with precomputed kernels -/

theorem plainFwd_precompute (hσ : σ = .dh ∨ σ = .gl ∨ σ = .healpix) (hv : σ.Valid L (nside.getD 0))
    (h1 : 1 ≤ N) (hN : N ≤ L) (κ mode : PyStr) (hm : ModeOk σ L mode) (ν : PyStr)
    (hν : ν ∈ [mNumpy, mJax, mTorch])
    (hhp : σ = .healpix → 2 * nside.getD 0 ≤ L ∧ (ν ≠ mNumpy → 2 ≤ nside.getD 0))
    (f : Nd ℂ) (hf : f.shape = (2 * N - 1) :: σ.shape L (nside.getD 0)) (k : Option Nd4)
    (hk : WignerKernelArg T L N false σ.name nside true ν κ mode k) :
    ∃ g, precomputeWignerForwardTop T f L N k σ.name false ν nside
        = .ok (.d3 (2 * N - 1) L (2 * L - 1) g) ∧
      PlainFwd σ L N (nside.getD 0) 0 (fun t => σ.theta T.nodes L (nside.getD 0) t)
        (innerWeight T σ L (nside.getD 0)) f.get3 g := by
  have hR := plain_scheme σ hσ
  obtain ⟨K, eK, hK⟩ := getWignerKernel_ok T hv h1 hN false true hm hk
  have top : precomputeWignerForwardTop T f L N k σ.name false ν nside
      = precomputeWignerForward f ⟨nDim N false, innerRings σ L (nside.getD 0), L, 2 * L - 1, K⟩
        L N σ.name false nside ν := by
    unfold precomputeWignerForwardTop
    rw [if_neg (by rw [not_not]; exact hν), eK]
    rfl
  obtain ⟨g, e', hg⟩ := precomputeWignerForward_values hν hv h1 (fun h => absurd h hR) hhp f hf false hK
  refine ⟨g, top.trans e', fun n l m hn l0 l1 m0 m1 => ?_⟩
  obtain ⟨n0, n1⟩ := abs_lt.1 hn
  rw [hg n l m n0 n1 l0 l1 (by omega) (by omega)]
  have key : wigFull false (wigCoef T σ L N (nside.getD 0) (fbanAt f.get3 N false)) n l m
      = (-1) ^ n * fAt (ringSum σ L (nside.getD 0) (gammaPlane f.get3 N n)) (-n)
          (σ.rings L (nside.getD 0)) (fun t => σ.theta T.nodes L (nside.getD 0) t)
          (innerWeight T σ L (nside.getD 0)) l m * (√(4 * Real.pi / (2 * (l : ℝ) + 1)) : ℝ) := by
    unfold wigFull wigCoef fAt
    rw [if_neg (by simp), plain_inner hR, plain_signal hR, plain_rings hR, plain_theta hR,
      Finset.mul_sum, Finset.sum_mul]
    refine Finset.sum_congr rfl fun t _ => ?_
    have hE : ((elfactor l : ℝ) : ℂ) * (√(4 * Real.pi / (2 * (l : ℝ) + 1)) : ℝ) = 1 := by
      rw [← Complex.ofReal_mul, elfactor_mul l0, Complex.ofReal_one]
    have hsg : (-1 : ℂ) ^ n * (-1) ^ (-n) = 1 := by
      rw [← zpow_add₀ (by norm_num), add_neg_cancel, zpow_zero]
    have hpl : ringSum σ L (nside.getD 0) (gammaPlane f.get3 N n) t m
        = 2 * Real.pi / (2 * (N : ℂ) - 1)
          * ringSum σ L (nside.getD 0) (fbanAt f.get3 N false n) t m := by
      unfold ringSum
      rw [Finset.mul_sum]
      refine Finset.sum_congr rfl fun p _ => ?_
      rw [← wignerBaseFban_plane h1]
      unfold wignerBaseFban fbanAt wignerFban ngamma
      rw [show nFirst N false = wigStart N false by unfold nFirst nStart wigStart; simp; try ring]
      simp only [Bool.false_eq_true, if_false]
      ring
    rw [hpl, neg_neg]
    have hEs : ((elfactor l : ℝ) : ℂ) * (√(4 * Real.pi / (2 * (l : ℝ) + 1)) : ℝ)
        * ((-1 : ℂ) ^ n * (-1) ^ (-n)) = 1 := by rw [hE, hsg, one_mul]
    linear_combination (-(wignerd l m n (σ.theta T.nodes L (nside.getD 0) t) : ℂ)
      * (innerWeight T σ L (nside.getD 0) t * (2 * Real.pi / (2 * (N : ℂ) - 1)))
      * ringSum σ L (nside.getD 0) (fbanAt f.get3 N false n) t m)
      * hEs
  rw [key]
  by_cases hl : l < max |n| 0
  · rw [if_pos hl, fAt_outside (Or.inr (by rw [abs_neg]; rwa [max_eq_left (abs_nonneg n)] at hl))]
    ring
  · rw [if_neg hl]

theorem C55_precompute_wigner_inverse_conj (hv : σ.Valid L (nside.getD 0)) (h1 : 1 ≤ N) (hN : N ≤ L)
    (hhp : σ = .healpix → 2 * nside.getD 0 ≤ L) (κ κ' mode mode' : PyStr) (hm : ModeOk σ L mode)
    (hm' : ModeOk σ L mode') (μ ν : PyStr)
    (hμ : μ ∈ [mNumpy, mJax, mTorch]) (hν : ν ∈ [mNumpy, mJax, mTorch]) (flmn : ℤ → ℤ → ℤ → ℂ)
    (k k' : Option Nd4) (hk : WignerKernelArg T L N false σ.name nside false μ κ mode k)
    (hk' : WignerKernelArg T L N false σ.name nside false ν κ' mode' k') :
    ∃ f f', precomputeWignerInverseTop T (.d3 (2 * N - 1) L (2 * L - 1) flmn) L N k σ.name
        false μ nside = .ok f ∧
      precomputeWignerInverseTop T (.d3 (2 * N - 1) L (2 * L - 1) (conjWigner L N flmn)) L N k'
        σ.name false ν nside = .ok f' ∧ ConjugatesSo3 σ L N (nside.getD 0) f.get3 f'.get3 := by
  obtain ⟨f, e, -, hf⟩ := C28_expansion_partial T σ L N nside hv h1 hN hhp κ mode hm μ hμ flmn
    false (by rintro ⟨⟩) k hk
  obtain ⟨f', e', -, hf'⟩ := C28_expansion_partial T σ L N nside hv h1 hN hhp κ' mode' hm' ν hν
    (conjWigner L N flmn) false (by rintro ⟨⟩) k' hk'
  refine ⟨f, f', e, e', fun g g0 g1 t p hp => ?_⟩
  rw [hf g t p hp, hf' g t p hp]
  exact wignerSum_conj 0 L N _ _ _ fun n l m _ _ _ _ => wignerCoeffs_conj flmn L N n l m

theorem C55_precompute_wigner_inverse_mirror (hv : σ.Valid L (nside.getD 0))
    (hg : MirrorGrid T.nodes σ L) (h1 : 1 ≤ N) (hN : N ≤ L)
    (hhp : σ = .healpix → 2 * nside.getD 0 ≤ L) (κ κ' mode mode' : PyStr) (hm : ModeOk σ L mode)
    (hm' : ModeOk σ L mode') (μ ν : PyStr)
    (hμ : μ ∈ [mNumpy, mJax, mTorch]) (hν : ν ∈ [mNumpy, mJax, mTorch]) (flmn : ℤ → ℤ → ℤ → ℂ)
    (k k' : Option Nd4) (hk : WignerKernelArg T L N false σ.name nside false μ κ mode k)
    (hk' : WignerKernelArg T L N false σ.name nside false ν κ' mode' k') :
    ∃ f f', precomputeWignerInverseTop T (.d3 (2 * N - 1) L (2 * L - 1) flmn) L N k σ.name
        false μ nside = .ok f ∧
      precomputeWignerInverseTop T (.d3 (2 * N - 1) L (2 * L - 1) (mirrorWigner L N flmn)) L N k'
        σ.name false ν nside = .ok f' ∧ MirroredSo3 σ L N (nside.getD 0) f.get3 f'.get3 := by
  obtain ⟨f, e, -, hf⟩ := C28_expansion_partial T σ L N nside hv h1 hN hhp κ mode hm μ hμ flmn
    false (by rintro ⟨⟩) k hk
  obtain ⟨f', e', -, hf'⟩ := C28_expansion_partial T σ L N nside hv h1 hN hhp κ' mode' hm' ν hν
    (mirrorWigner L N flmn) false (by rintro ⟨⟩) k' hk'
  refine ⟨f, f', e, e', fun g g0 g1 t p hp => ?_⟩
  rw [hf g t p hp, hf' _ _ p (mirror_has hp), mirror_theta hv hg hp.1 hp.2.1, mirror_phi,
    wignerSum_gamma h1]
  exact wignerSum_mirror 0 L N _ _ _ fun n l m _ _ _ _ => wignerCoeffs_mirror flmn L N n l m

theorem C55_precompute_wigner_forward_conj (hσ : σ = .dh ∨ σ = .gl ∨ σ = .healpix)
    (hv : σ.Valid L (nside.getD 0)) (h1 : 1 ≤ N) (hN : N ≤ L)
    (κ κ' mode mode' : PyStr) (hm : ModeOk σ L mode) (hm' : ModeOk σ L mode') (μ ν : PyStr)
    (hμ : μ ∈ [mNumpy, mJax, mTorch]) (hν : ν ∈ [mNumpy, mJax, mTorch])
    (hhp : σ = .healpix → 2 * nside.getD 0 ≤ L ∧ (μ ≠ mNumpy ∨ ν ≠ mNumpy → 2 ≤ nside.getD 0))
    (f f' : Nd ℂ) (hf : f.shape = (2 * N - 1) :: σ.shape L (nside.getD 0))
    (hf' : f'.shape = (2 * N - 1) :: σ.shape L (nside.getD 0))
    (hc : ConjugatesSo3 σ L N (nside.getD 0) f.get3 f'.get3)
    (k k' : Option Nd4) (hk : WignerKernelArg T L N false σ.name nside true μ κ mode k)
    (hk' : WignerKernelArg T L N false σ.name nside true ν κ' mode' k') :
    ∃ g g', precomputeWignerForwardTop T f L N k σ.name false μ nside
        = .ok (.d3 (2 * N - 1) L (2 * L - 1) g) ∧
      precomputeWignerForwardTop T f' L N k' σ.name false ν nside
        = .ok (.d3 (2 * N - 1) L (2 * L - 1) g') ∧
      ∀ n el m, |n| < N → 0 ≤ el → el < L → -L < m → m < L → g' (N - 1 + n) el (m + L - 1)
        = conjWigner L N g (N - 1 + n) el (m + L - 1) := by
  obtain ⟨g, e, hg⟩ := plainFwd_precompute T σ L N nside hσ hv h1 hN κ mode hm μ hμ
    (fun h => ⟨(hhp h).1, fun h' => (hhp h).2 (Or.inl h')⟩) f hf k hk
  obtain ⟨g', e', hg'⟩ := plainFwd_precompute T σ L N nside hσ hv h1 hN κ' mode' hm' ν hν
    (fun h => ⟨(hhp h).1, fun h' => (hhp h).2 (Or.inr h')⟩) f' hf' k' hk'
  exact ⟨g, g', e, e', plainFwd_conj hg hg' hc⟩

theorem C55_precompute_wigner_forward_mirror (hσ : σ = .dh ∨ σ = .gl ∨ σ = .healpix)
    (hv : σ.Valid L (nside.getD 0)) (hmg : MirrorGrid T.nodes σ L)
    (hw : σ = .gl → ∀ t, 0 ≤ t → t < L → T.weights L (L - 1 - t) = T.weights L t)
    (h1 : 1 ≤ N) (hN : N ≤ L)
    (κ κ' mode mode' : PyStr) (hm : ModeOk σ L mode) (hm' : ModeOk σ L mode') (μ ν : PyStr)
    (hμ : μ ∈ [mNumpy, mJax, mTorch]) (hν : ν ∈ [mNumpy, mJax, mTorch])
    (hhp : σ = .healpix → 2 * nside.getD 0 ≤ L ∧ (μ ≠ mNumpy ∨ ν ≠ mNumpy → 2 ≤ nside.getD 0))
    (f f' : Nd ℂ) (hf : f.shape = (2 * N - 1) :: σ.shape L (nside.getD 0))
    (hf' : f'.shape = (2 * N - 1) :: σ.shape L (nside.getD 0))
    (hc : MirroredSo3 σ L N (nside.getD 0) f.get3 f'.get3)
    (k k' : Option Nd4) (hk : WignerKernelArg T L N false σ.name nside true μ κ mode k)
    (hk' : WignerKernelArg T L N false σ.name nside true ν κ' mode' k') :
    ∃ g g', precomputeWignerForwardTop T f L N k σ.name false μ nside
        = .ok (.d3 (2 * N - 1) L (2 * L - 1) g) ∧
      precomputeWignerForwardTop T f' L N k' σ.name false ν nside
        = .ok (.d3 (2 * N - 1) L (2 * L - 1) g') ∧
      ∀ n el m, |n| < N → 0 ≤ el → el < L → -L < m → m < L → g' (N - 1 + n) el (m + L - 1)
        = mirrorWigner L N g (N - 1 + n) el (m + L - 1) := by
  have hR := plain_scheme σ hσ
  obtain ⟨g, e, hg⟩ := plainFwd_precompute T σ L N nside hσ hv h1 hN κ mode hm μ hμ
    (fun h => ⟨(hhp h).1, fun h' => (hhp h).2 (Or.inl h')⟩) f hf k hk
  obtain ⟨g', e', hg'⟩ := plainFwd_precompute T σ L N nside hσ hv h1 hN κ' mode' hm' ν hν
    (fun h => ⟨(hhp h).1, fun h' => (hhp h).2 (Or.inr h')⟩) f' hf' k' hk'
  exact ⟨g, g', e, e', plainFwd_mirror h1 hg hg' hc (fun t t0 t1 => mirror_theta hv hmg t0 t1)
    (fun t t0 t1 => mirror_weight hv.1 hR hw t0 t1)⟩

end

/-! ## The Fourier-Wigner transforms -/

section
variable (σ : Scheme) (hσ : σ = .mw ∨ σ = .mwss) (s : PyStr) (hs : lower s = σ.name) (L N : ℤ)
  (h1 : 1 ≤ N) (hN : N ≤ L) (μ ν : PyStr) (P P' : Option FwTables) (hP : FwPrecomps L P)
  (hP' : FwPrecomps L P')
include hσ hs h1 hN hP hP'

theorem C55_fourier_wigner_inverse_conj (flmn : ℤ → ℤ → ℤ → ℂ) :
    ∃ f f', fourierWignerInverse μ (.d3 (2 * N - 1) L (2 * L - 1) flmn) L N P false s = .ok f ∧
      fourierWignerInverse ν (.d3 (2 * N - 1) L (2 * L - 1) (conjWigner L N flmn)) L N P' false s
        = .ok f' ∧ ConjugatesSo3 σ L N 0 f.get3 f'.get3 := by
  have hh : σ ≠ .healpix := by rcases hσ with rfl | rfl <;> decide
  obtain ⟨f, e, -, hf⟩ := C29_expansion_partial (fun _ _ => 0) σ hσ s hs L N h1 hN μ flmn false
    (by rintro ⟨⟩) P hP
  obtain ⟨f', e', -, hf'⟩ := C29_expansion_partial (fun _ _ => 0) σ hσ s hs L N h1 hN ν
    (conjWigner L N flmn) false (by rintro ⟨⟩) P' hP'
  refine ⟨f, f', e, e', fun g g0 g1 t p hp => ?_⟩
  rw [equi_pos hh, hf g t p, hf' g t p]
  exact wignerSum_conj 0 L N _ _ _ fun n l m _ _ _ _ => wignerCoeffs_conj flmn L N n l m

omit hσ in
theorem C55_fourier_wigner_inverse_mirror (hm : σ = .mwss) (flmn : ℤ → ℤ → ℤ → ℂ) :
    ∃ f f', fourierWignerInverse μ (.d3 (2 * N - 1) L (2 * L - 1) flmn) L N P false s = .ok f ∧
      fourierWignerInverse ν (.d3 (2 * N - 1) L (2 * L - 1) (mirrorWigner L N flmn)) L N P' false s
        = .ok f' ∧ MirroredSo3 σ L N 0 f.get3 f'.get3 := by
  have hh : σ ≠ .healpix := by rw [hm]; decide
  have hv : σ.Valid L 0 := ⟨by omega, fun h => absurd h hh⟩
  obtain ⟨f, e, -, hf⟩ := C29_expansion_partial (fun _ _ => 0) σ (Or.inr hm) s hs L N h1 hN μ flmn false
    (by rintro ⟨⟩) P hP
  obtain ⟨f', e', -, hf'⟩ := C29_expansion_partial (fun _ _ => 0) σ (Or.inr hm) s hs L N h1 hN ν
    (mirrorWigner L N flmn) false (by rintro ⟨⟩) P' hP'
  refine ⟨f, f', e, e', fun g g0 g1 t p hp => ?_⟩
  rw [equi_pos hh, equi_pos hh, hf g t p, hf' _ _ p,
    mirror_theta hv ⟨by rw [hm]; decide, by rw [hm]; rintro ⟨⟩⟩ hp.1 hp.2.1, mirror_phi,
    wignerSum_gamma h1]
  exact wignerSum_mirror 0 L N _ _ _ fun n l m _ _ _ _ => wignerCoeffs_mirror flmn L N n l m

end

/-- The conditions are met: any samples on a DH grid, reflected. -/
example (T : GlTables) (x : ℤ → ℤ → ℤ → ℂ) :
    ∃ g g', wignerBaseForward T (.d3 5 12 11 x) 6 3 1 sDH false none = .ok (.d3 5 6 11 g) ∧
      wignerBaseForward T (.d3 5 12 11 fun g t p => x (-g % 5) (12 - 1 - t) p) 6 3 1 sDH false none
        = .ok (.d3 5 6 11 g') ∧
      ∀ n el m, |n| < 3 → 0 ≤ el → el < 6 → -6 < m → m < 6 → g' (3 - 1 + n) el (m + 6 - 1)
        = mirrorWigner 6 3 g (3 - 1 + n) el (m + 6 - 1) :=
  C55_wigner_base_forward_mirror T .dh 6 3 1 none (Or.inl rfl) ⟨by norm_num, by rintro ⟨⟩⟩
    ⟨by decide, by rintro ⟨⟩⟩ (by rintro ⟨⟩)
    (C18_grids T.nodes .dh 6 0 ⟨by norm_num, by rintro ⟨⟩⟩ (by simp) (by norm_num) (by norm_num))
    (by norm_num) (by rintro ⟨⟩) (by norm_num) (by norm_num) (.d3 5 12 11 x)
    (.d3 5 12 11 fun g t p => x (-g % 5) (12 - 1 - t) p) rfl rfl
    (C55_flip_so3 .dh (by decide) 6 3 (by norm_num) x)

end S2fft
