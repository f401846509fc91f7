import Verif.Lemmas.PrecomputeWigner
import Verif.Lemmas.Linear
import Verif.Props.C21

/-! # Forward Wigner transform with a precomputed kernel, and that of the base transforms -/

namespace S2fft
open Spec

/-! ## Multiplication by a number -/

theorem fft_smul (n : ℤ) (x : ℤ → ℂ) (c : ℂ) : fft n (fun i => x i * c) = fun k => fft n x k * c := by
  funext k; simp only [fft_eq, Finset.sum_mul]
  exact Finset.sum_congr rfl fun i _ => by ring

theorem fft_fwd_smul (n : ℤ) (x : ℤ → ℂ) (c : ℂ) :
    fft_fwd n (fun i => x i * c) = fun k => fft_fwd n x k * c := by
  funext k; unfold fft_fwd; rw [fft_smul]; ring

theorem ifft_fwd_smul (n : ℤ) (x : ℤ → ℂ) (c : ℂ) :
    ifft_fwd n (fun i => x i * c) = fun k => ifft_fwd n x k * c := by
  funext k; simp only [ifft_fwd_eq, Finset.sum_mul]
  exact Finset.sum_congr rfl fun i _ => by ring

theorem ifft_smul (n : ℤ) (x : ℤ → ℂ) (c : ℂ) :
    ifft n (fun i => x i * c) = fun k => ifft n x k * c := by
  funext k; unfold ifft; rw [ifft_fwd_smul]; ring

theorem fftshift_smul (n : ℤ) (x : ℤ → ℂ) (c : ℂ) :
    fftshift n (fun i => x i * c) = fun k => fftshift n x k * c := rfl

theorem ifftshift_smul (n : ℤ) (x : ℤ → ℂ) (c : ℂ) :
    ifftshift n (fun i => x i * c) = fun k => ifftshift n x k * c := rfl

theorem ite_smul_zero' (p : Prop) [Decidable p] (a c : ℂ) :
    (if p then a * c else 0) = (if p then a else 0) * c := by
  split_ifs <;> simp

theorem extensionRows_smul (L nt np off : ℤ) (f : ℤ → ℤ → ℤ → ℂ) (spin : ℤ → ℤ) (c : ℂ) :
    extensionRows L nt np off (fun b t p => f b t p * c) spin
      = fun b t j => extensionRows L nt np off f spin b t j * c := by
  unfold extensionRows
  simp only [ite_smul_zero', fft_smul, fftshift_smul]
  funext b t j
  split_ifs <;> ring

theorem mwssThetaRows_smul (f : ℤ → ℤ → ℤ → ℂ) (L : ℤ) (c : ℂ) :
    mwssThetaRows (fun b t p => f b t p * c) L = fun b p j => mwssThetaRows f L b p j * c := by
  unfold mwssThetaRows
  simp only [fft_fwd_smul, fftshift_smul]
  funext b p j
  split_ifs <;> ring

theorem mw_to_mwss_phi_smul (f : ℤ → ℤ → ℤ → ℂ) (L : ℤ) (c : ℂ) :
    mw_to_mwss_phi (fun b t p => f b t p * c) L = fun b t p => mw_to_mwss_phi f L b t p * c := by
  unfold mw_to_mwss_phi
  simp only [fft_fwd_smul, fftshift_smul, ite_smul_zero', ifft_fwd_smul, ifftshift_smul]

theorem mwssValues_smul (f : ℤ → ℤ → ℤ → ℂ) (L : ℤ) (spin : ℤ → ℤ) (c : ℂ) :
    mwssValues (fun b t p => f b t p * c) L spin = fun b t p => mwssValues f L spin b t p * c := by
  unfold mwssValues
  simp only [extensionRows_smul, ifftshift_smul, ifft_smul, mwssThetaRows_smul, ifft_fwd_smul,
    mw_to_mwss_phi_smul]

theorem upsampleValues_smul (f : ℤ → ℤ → ℤ → ℂ) (L : ℤ) (spin : ℤ → ℤ) (c : ℂ) :
    upsampleValues (fun b t p => f b t p * c) L spin
      = fun b t p => upsampleValues f L spin b t p * c := by
  have h : periodic_extension_spatial_mwss (fun b t p => f b t p * c) L spin
      = fun b t p => periodic_extension_spatial_mwss f L spin b t p * c := by
    unfold periodic_extension_spatial_mwss
    funext b t p
    split_ifs
    · rfl
    · rw [fftshift_smul]; ring
  unfold upsampleValues
  rw [h]
  unfold upsample_by_two_mwss_ext
  simp only [fft_fwd_smul, fftshift_smul, ite_smul_zero', ifft_fwd_smul, ifftshift_smul]

theorem innerSignal_smul (σ : Scheme) (L spin : ℤ) (f : ℤ → ℤ → ℂ) (c : ℂ) :
    innerSignal σ L spin (fun t p => f t p * c) = fun t p => innerSignal σ L spin f t p * c := by
  cases σ with
  | mw =>
    simp only [innerSignal]
    rw [mwssValues_smul (fun _ => f)]
    exact congrFun (upsampleValues_smul (fun _ => mwssValues (fun _ => f) L (fun _ => spin) 0)
      L (fun _ => spin) c) 0
  | mwss => exact congrFun (upsampleValues_smul (fun _ => f) L (fun _ => spin) c) 0
  | dh => rfl
  | gl => rfl
  | healpix => rfl

theorem ringSum_smul (σ : Scheme) (L nside : ℤ) (f : ℤ → ℤ → ℂ) (c : ℂ) (t m : ℤ) :
    ringSum σ L nside (fun t p => f t p * c) t m = ringSum σ L nside f t m * c := by
  simp only [ringSum, Finset.sum_mul]
  exact Finset.sum_congr rfl fun i _ => by ring

/-! ## The coefficients -/

/-- Direction `n`, degree `el`, order `m` of the coefficients, `F n` being the Fourier transform
over `γ`. -/
noncomputable def wigCoef (G : GlTables) (σ : Scheme) (L N nside : ℤ) (F : ℤ → ℤ → ℤ → ℂ)
    (n el m : ℤ) : ℂ :=
  ∑ t ∈ Finset.Ico 0 (innerRings σ L nside), wignerd el m n (innerTheta G.nodes σ L nside t)
    * (innerWeight G σ L nside t * (2 * Real.pi / (2 * (N : ℂ) - 1)))
    * ringSum σ.inner L nside (innerSignal σ L (-n) (F n)) t m

/-- Completion by conjugate symmetry in `n`. -/
noncomputable def wigFull (reality : Bool) (v : ℤ → ℤ → ℤ → ℂ) (n el m : ℤ) : ℂ :=
  if reality = true ∧ n < 0 then (starRingEnd ℂ) (v (-n) el (-m)) * (-1) ^ |m| * (-1) ^ |n|
  else v n el m

/-- The Fourier transform over `γ`, direction `n`. -/
noncomputable def fbanAt (f : ℤ → ℤ → ℤ → ℂ) (N : ℤ) (reality : Bool) (n : ℤ) : ℤ → ℤ → ℂ :=
  wignerFban f (2 * N - 1) reality (n - nFirst N reality)

theorem wigCoef_outside (G : GlTables) (σ : Scheme) (L N nside : ℤ) (F : ℤ → ℤ → ℤ → ℂ)
    {n el m : ℤ} (h : el < |m| ∨ el < |n|) : wigCoef G σ L N nside F n el m = 0 := by
  unfold wigCoef
  apply Finset.sum_eq_zero
  intro t _
  rw [wignerd_outside _ _ _ _ h]; simp

/-! ## The precomputed transform -/

theorem fbanPlanes_eq {N : ℤ} (hN : 1 ≤ N) (reality : Bool) :
    fbanPlanes (2 * N - 1) reality = nDim N reality := by
  unfold fbanPlanes nDim
  cases reality
  · simp
  · simp only [if_true]; omega

theorem mwssValues_plane (f : ℤ → ℤ → ℤ → ℂ) (L : ℤ) (spin : ℤ → ℤ) (b : ℤ) :
    mwssValues f L spin b = mwssValues (fun _ => f b) L (fun _ => spin b) 0 := by
  unfold mwssValues mw_to_mwss_phi mwssThetaRows extensionRows
  rfl

theorem upsampleValues_plane (f : ℤ → ℤ → ℤ → ℂ) (L : ℤ) (spin : ℤ → ℤ) (b : ℤ) :
    upsampleValues f L spin b = upsampleValues (fun _ => f b) L (fun _ => spin b) 0 := by
  unfold upsampleValues upsample_by_two_mwss_ext periodic_extension_spatial_mwss
  rfl

theorem wignerResample_ok {σ : Scheme} (method : PyStr) {L B : ℤ} (hL : 1 ≤ L) (spins : ℤ → ℤ)
    (hσ : σ ≠ .healpix) (hB : σ.Resampled → B ≠ 1) (nside : ℤ) (a : ℤ → ℤ → ℤ → ℂ) :
    ∃ b, wignerResample (.d3 B (σ.rings L nside) (σ.ringLen L nside 0) a) L spins σ.name method
        = .ok (.d3 B (innerRings σ L nside) (σ.inner.ringLen L nside 0) b, innerName σ σ.name) ∧
      ∀ k, b k = innerSignal σ L (spins k) (a k) := by
  have hj1 := fun f => (C23_jax L hL spins f).1
  have hj2 := fun f => (C23_jax L hL spins f).2
  have up : ∀ f, (if method = mNumpy then upsample_by_two_mwss else upsample_by_two_mwss_jax) f L
      spins = upsample_by_two_mwss f L spins := by
    intro f; split_ifs
    · rfl
    · exact hj2 f
  have tw : ∀ f, (if method = mNumpy then mw_to_mwss else mw_to_mwss_jax) f L
      spins = mw_to_mwss f L spins := by
    intro f; split_ifs
    · rfl
    · exact hj1 f
  unfold wignerResample
  simp only [up, tw, lower_name]
  by_cases hR : σ.Resampled
  · have hB' := hB hR
    unfold innerName innerRings
    simp only [if_pos hR]
    rcases hR with rfl | rfl
    · refine ⟨upsampleValues (mwssValues a L spins) L spins, ?_, fun k => by
        rw [upsampleValues_plane, mwssValues_plane]; rfl⟩
      rw [if_pos (show Scheme.mw.name = sMW from rfl), mw_to_mwss_d3]
      simp only [bind, Except.bind, pure, Except.pure]
      rw [if_pos (Or.inl (show Scheme.mw.name = sMW from rfl)), upsample_d3, if_neg hB']
      simp only [Scheme.rings, Scheme.inner, Scheme.ringLen]
    · refine ⟨upsampleValues a L spins, ?_, fun k => by rw [upsampleValues_plane]; rfl⟩
      rw [if_neg (by decide)]
      simp only [bind, Except.bind, pure, Except.pure]
      rw [if_pos (Or.inr (show Scheme.mwss.name = sMWSS from rfl)), upsample_d3, if_neg hB']
      simp only [Scheme.rings, Scheme.inner, Scheme.ringLen]
  · refine ⟨a, ?_, fun k => ?_⟩
    · have a1 : ¬ σ.name = sMW := by revert hR; cases σ <;> decide
      have a2 : ¬ σ.name = sMWSS := by revert hR; cases σ <;> decide
      rw [if_neg a1]
      simp only [bind, Except.bind, pure, Except.pure]
      rw [if_neg (by rintro (h | h); exacts [a1 h, a2 h])]
      unfold innerName innerRings
      rw [if_neg hR, if_neg hR]
      have : σ.inner = σ := by revert hR; cases σ <;> simp [Scheme.Resampled, Scheme.inner]
      rw [this]
    · revert hR; cases σ <;> simp [Scheme.Resampled, innerSignal]

/-- The rings of one plane, from the Fourier transform over `α` without the reality flag. -/
theorem wignerRings_plane {σ : Scheme} {method : PyStr} (hmt : method ∈ [mNumpy, mJax, mTorch])
    {L nside : ℤ} (hv : σ.Valid L nside)
    (hhp : σ = .healpix → 2 * nside ≤ L ∧ (method ≠ mNumpy → 2 ≤ nside)) (f : ℤ → ℤ → ℂ) :
    ∃ ftm, forwardFftM method f L (innerName σ σ.name) (σ.inner.ringLen L nside 0) nside false
        = .ok ftm ∧
      ∀ t m, 0 ≤ t → t < innerRings σ L nside → -L < m → m < L →
        ftm t (m + L - 1 + σ.inner.off) * cis (-(m * σ.inner.phi L nside t 0))
          = ringSum σ.inner L nside f t m := by
  have hsh : σ = .healpix → σ.name = sHP := by rintro rfl; rfl
  obtain ⟨F, e, h⟩ := forwardFftM_values (nodes := fun _ _ => 0) (lower_innerName (lower_name σ))
    (mOffset_innerName (lower_name σ) hsh) hmt (inner_valid hv) (fun h => hhp (inner_hp.1 h))
    (innerTheta_rings (fun _ _ => 0) hv) (ncol := σ.inner.ringLen L nside 0) (fun _ => rfl) f false
    (fun h => nomatch h)
  exact ⟨F, e, fun t m a b c d => h t m a b c d (fun h => nomatch h)⟩

/-- What the first stages of the forward transform return. -/
theorem wignerForward_rings {σ : Scheme} {method : PyStr} (hmt : method ∈ [mNumpy, mJax, mTorch])
    {L N : ℤ} {nside : Option ℤ} (hv : σ.Valid L (nside.getD 0)) (h1 : 1 ≤ N)
    (hN : σ.Resampled → 2 ≤ N)
    (hhp : σ = .healpix → 2 * nside.getD 0 ≤ L ∧ (method ≠ mNumpy → 2 ≤ nside.getD 0))
    (f : Nd ℂ) (hf : f.shape = (2 * N - 1) :: σ.shape L (nside.getD 0)) (reality : Bool) :
    ∃ fb A, wignerFbanNd f σ.name reality = .ok fb ∧
      (wignerResample fb L (fun k => -(nFirst N reality + k)) σ.name method >>= fun r =>
        wignerRings r.1 L N r.2 reality nside method)
          = .ok (nDim N reality, innerRings σ L (nside.getD 0), 2 * L - 1, A) ∧
      ∀ n t m, nFirst N reality ≤ n → n < N → 0 ≤ t → t < innerRings σ L (nside.getD 0) →
        -L < m → m < L →
        A (n - nFirst N reality) t (m + L - 1) * cis (-(m * σ.inner.phi L (nside.getD 0) t 0))
          = ringSum σ.inner L (nside.getD 0)
              (innerSignal σ L (-n) (fbanAt f.get3 N reality n)) t m := by
  have hL := hv.1
  have hb := nFirst_bounds h1 reality
  have hns := nStart_eq N reality
  have hsh : σ = .healpix → σ.name = sHP := by rintro rfl; rfl
  have hoff := mOffset_innerName (lower_name σ) hsh
  by_cases hh : σ = .healpix
  · subst hh
    have hsz : f.shape = [2 * N - 1, 12 * nside.getD 0 ^ 2] := by rw [hf]; rfl
    obtain ⟨a, rfl⟩ := Nd.eq_d2 (by omega) hsz
    have hfban : wignerFbanNd (.d2 (2 * N - 1) (12 * nside.getD 0 ^ 2) a) Scheme.healpix.name reality
        = .ok (.d2 (nDim N reality) (12 * nside.getD 0 ^ 2) (fun k p => wignerFban (fun g _ => a g)
          (2 * N - 1) reality k 0 p)) := by
      unfold wignerFbanNd
      simp only
      rw [lower_name, if_pos (show Scheme.healpix.name = sHP from rfl), fbanPlanes_eq h1]
    have hres : ∀ x : Nd ℂ, wignerResample x L (fun k => -(nFirst N reality + k))
        Scheme.healpix.name method = .ok (x, Scheme.healpix.name) := by
      intro x
      unfold wignerResample
      simp only [lower_name]
      rw [if_neg (by decide)]
      simp only [bind, Except.bind, pure, Except.pure]
      rw [if_neg (by decide)]
    have hplane : ∀ n, nFirst N reality ≤ n → n < N → ∃ r,
        healpix_fft noCuda ((Nd.d2 (nDim N reality) (12 * nside.getD 0 ^ 2) (fun k p =>
          wignerFban (fun g _ => a g) (2 * N - 1) reality k 0 p)).get3
            (if reality then n else N - 1 + n) 0) L (nside.getD 0) method false = .ok r ∧
        ∀ t m, 0 ≤ t → t < innerRings .healpix L (nside.getD 0) → -L < m → m < L →
          r.1 t (m + L - 1 + 1) * cis (-(m * Scheme.healpix.inner.phi L (nside.getD 0) t 0))
            = ringSum Scheme.healpix.inner L (nside.getD 0) (innerSignal .healpix L (-n)
              (fbanAt (Nd.d2 (2 * N - 1) (12 * nside.getD 0 ^ 2) a).get3 N reality n)) t m := by
      intro n n0 n1
      obtain ⟨F, e, h⟩ := wignerRings_plane hmt hv hhp
        (fbanAt (Nd.d2 (2 * N - 1) (12 * nside.getD 0 ^ 2) a).get3 N reality n)
      unfold forwardFftM at e
      rw [if_pos (by rw [lower_innerName (lower_name _)]; rfl)] at e
      have hind : (if reality then n else N - 1 + n) = n - nFirst N reality := by
        cases reality
        · rw [nFirst_false]; simp only [Bool.false_eq_true, if_false]; ring
        · rw [nFirst_true]; simp
      rw [hind]
      have hr : (Nd.d2 (nDim N reality) (12 * nside.getD 0 ^ 2) (fun k p =>
          wignerFban (fun g _ => a g) (2 * N - 1) reality k 0 p)).get3 (n - nFirst N reality) 0
          = fbanAt (Nd.d2 (2 * N - 1) (12 * nside.getD 0 ^ 2) a).get3 N reality n 0 := rfl
      rw [hr]
      cases hx : healpix_fft noCuda (fbanAt (Nd.d2 (2 * N - 1) (12 * nside.getD 0 ^ 2) a).get3 N
          reality n 0) L (nside.getD 0) method false with
      | error x => rw [hx] at e; exact absurd e (by simp [bind, Except.bind])
      | ok r =>
        rw [hx] at e
        simp only [bind, Except.bind, pure, Except.pure, Except.ok.injEq] at e
        exact ⟨r, rfl, fun t m t0 t1 m0 m1 => by rw [e]; exact h t m t0 t1 m0 m1⟩
    obtain ⟨temp, e, ht⟩ := forRangeM_ind (show nStart N reality - N + 1 ≤ N by omega)
      (fun n (temp : ℤ → ℤ → ℤ → ℂ) => do
        let r ← healpix_fft noCuda ((Nd.d2 (nDim N reality) (12 * nside.getD 0 ^ 2) (fun k p =>
          wignerFban (fun g _ => a g) (2 * N - 1) reality k 0 p)).get3
            (if reality then n else N - 1 + n) 0) L (nside.getD 0) method false
        pure (setPlane temp (N - 1 + n) r.1)) (fun _ _ _ => 0)
      (fun k temp => ∀ n, nFirst N reality ≤ n → n < k → ∀ t m, 0 ≤ t →
        t < innerRings .healpix L (nside.getD 0) → -L < m → m < L →
          temp (N - 1 + n) t (m + L - 1 + 1)
            * cis (-(m * Scheme.healpix.inner.phi L (nside.getD 0) t 0))
            = ringSum Scheme.healpix.inner L (nside.getD 0) (innerSignal .healpix L (-n)
              (fbanAt (Nd.d2 (2 * N - 1) (12 * nside.getD 0 ^ 2) a).get3 N reality n)) t m)
      (fun n a b => by omega) (by
        intro k temp k0 k1 ih
        obtain ⟨r, e, hr⟩ := hplane k (by omega) k1
        refine ⟨_, by rw [e]; rfl, ?_⟩
        intro n n0 n1
        unfold setPlane
        by_cases hnk : n = k
        · subst hnk
          rw [if_pos rfl]
          exact hr
        · rw [if_neg (by omega)]
          exact ih n n0 (by omega))
    refine ⟨_, fun k t j => temp (nStart N reality + k) t (1 + j), hfban, ?_,
      fun n t m n0 n1 t0 t1 m0 m1 => ?_⟩
    · rw [hres]
      simp only [bind, Except.bind]
      unfold wignerRings
      simp only
      rw [if_pos (inHealpix_iff.2 rfl), fnab_shape_scheme hv]
      have e' := e
      simp only [bind, Except.bind] at e' ⊢
      rw [e']
      simp only [pure, Except.pure, mOffset_name]
      have e1 : 2 * N - 1 - nStart N reality = nDim N reality := by rw [nDim_eq]; omega
      have e2 : Scheme.healpix.rings L (nside.getD 0) = innerRings .healpix L (nside.getD 0) := by
        rw [innerRings_hp rfl]; rfl
      have e3 : 2 * L - 1 + Scheme.healpix.off - Scheme.healpix.off = 2 * L - 1 := by ring
      rw [e1, e2, e3]
      rfl
    · rw [← ht n n0 n1 t m t0 t1 m0 m1]
      have e1 : nStart N reality + (n - nFirst N reality) = N - 1 + n := by omega
      have e2 : 1 + (m + L - 1) = m + L - 1 + 1 := by ring
      rw [← e1, ← e2]
  · have hsz : f.shape = [2 * N - 1, σ.rings L (nside.getD 0), σ.ringLen L (nside.getD 0) 0] := by
      rw [hf]; revert hh; cases σ <;> intro hh <;> first | rfl | exact absurd rfl hh
    obtain ⟨a, rfl⟩ : ∃ a, f = .d3 (2 * N - 1) (σ.rings L (nside.getD 0))
        (σ.ringLen L (nside.getD 0) 0) a := by
      cases f with
      | d3 x y z a =>
        simp only [Nd.shape, List.cons.injEq, and_true] at hsz
        obtain ⟨rfl, rfl, rfl⟩ := hsz
        exact ⟨a, rfl⟩
      | d1 n v => simp [Nd.shape] at hsz
      | d2 n m v => simp [Nd.shape] at hsz
      | other n =>
        exfalso
        simp only [Nd.shape] at hsz
        have : 0 < 2 * N - 1 := by omega
        revert hsz
        rcases n with _ | n <;> simp [List.replicate_succ] <;> omega
    have hfban : wignerFbanNd (.d3 (2 * N - 1) (σ.rings L (nside.getD 0))
          (σ.ringLen L (nside.getD 0) 0) a) σ.name reality
        = .ok (.d3 (nDim N reality) (σ.rings L (nside.getD 0)) (σ.ringLen L (nside.getD 0) 0)
          (wignerFban a (2 * N - 1) reality)) := by
      unfold wignerFbanNd
      simp only
      rw [lower_name, if_neg (by revert hh; cases σ <;> decide), fbanPlanes_eq h1]
    obtain ⟨b, e, hbv⟩ := wignerResample_ok method (B := nDim N reality) hL
      (fun k => -(nFirst N reality + k)) hh (fun hR => by
        have := hN hR
        unfold nDim; split_ifs <;> omega) (nside.getD 0) (wignerFban a (2 * N - 1) reality)
    have hh' : σ.inner ≠ .healpix := fun h => hh (inner_hp.1 h)
    refine ⟨_, fun k t j => fftshift (σ.inner.ringLen L (nside.getD 0) 0)
      (fft (σ.inner.ringLen L (nside.getD 0) 0) (b k t)) (σ.inner.off + j), hfban, ?_,
      fun n t m n0 n1 t0 t1 m0 m1 => ?_⟩
    · rw [e]
      simp only [bind, Except.bind]
      unfold wignerRings
      simp only
      have hn : innerName σ σ.name = σ.inner.name := by
        unfold innerName
        revert hh; cases σ <;> simp [Scheme.Resampled, Scheme.inner] <;> rfl
      rw [if_neg (by rw [hn, inHealpix_iff]; exact hh'), hoff]
      have : σ.inner.ringLen L (nside.getD 0) 0 - σ.inner.off = 2 * L - 1 := by
        revert hh; cases σ <;> intro hh <;> first | exact absurd rfl hh | skip
        all_goals simp [Scheme.inner, Scheme.ringLen, Scheme.off]
      rw [this]
    · obtain ⟨F, eF, h⟩ := wignerRings_plane hmt hv hhp (b (n - nFirst N reality))
      unfold forwardFftM at eF
      rw [if_neg (by rw [lower_hp_iff (lower_innerName (lower_name σ))]; exact hh'),
        if_neg Bool.false_ne_true] at eF
      simp only [pure, Except.pure, Except.ok.injEq] at eF
      have h := h t m t0 t1 m0 m1
      rw [← eF] at h
      rw [hbv] at h
      beta_reduce
      rw [show σ.inner.off + (m + L - 1) = m + L - 1 + σ.inner.off by ring, hbv]
      rw [h, show -(nFirst N reality + (n - nFirst N reality)) = -n by ring]
      rfl

/-- What the forward transform with a kernel returns. -/
theorem precomputeWignerForward_values {G : GlTables} {σ : Scheme} {method : PyStr}
    (hmt : method ∈ [mNumpy, mJax, mTorch])
    {L N : ℤ} {nside : Option ℤ} (hv : σ.Valid L (nside.getD 0)) (h1 : 1 ≤ N)
    (hN : σ.Resampled → 2 ≤ N)
    (hhp : σ = .healpix → 2 * nside.getD 0 ≤ L ∧ (method ≠ mNumpy → 2 ≤ nside.getD 0))
    (f : Nd ℂ) (hf : f.shape = (2 * N - 1) :: σ.shape L (nside.getD 0)) (reality : Bool)
    {K : ℤ → ℤ → ℤ → ℤ → ℂ} (hK : Kernel4Is K G σ L N (nside.getD 0) reality true) :
    ∃ g, precomputeWignerForward f ⟨nDim N reality, innerRings σ L (nside.getD 0), L, 2 * L - 1, K⟩
        L N σ.name reality nside method = .ok (.d3 (2 * N - 1) L (2 * L - 1) g) ∧
      ∀ n el m, -N < n → n < N → 0 ≤ el → el < L → -L < m → m < L →
        g (N - 1 + n) el (m + L - 1)
          = wigFull reality (wigCoef G σ L N (nside.getD 0) (fbanAt f.get3 N reality)) n el m := by
  obtain ⟨fb, A, e1, e2, hA⟩ := wignerForward_rings hmt hv h1 hN hhp f hf reality
  have hb := nFirst_bounds h1 reality
  have hns := nStart_eq N reality
  refine ⟨wignerFlmn A K L N (innerRings σ L (nside.getD 0)) reality, ?_, ?_⟩
  · unfold precomputeWignerForward
    rw [e1]
    cases hr : wignerResample fb L (fun k => -(nFirst N reality + k)) σ.name method with
    | error x => rw [hr] at e2; exact absurd e2 (by simp [bind, Except.bind])
    | ok r =>
      rw [hr] at e2
      simp only [bind, Except.bind] at e2 ⊢
      rw [hr]
      simp only
      rw [e2]
      simp only
      rw [if_neg (by simp)]
      rfl
  · have key : ∀ n el m, nFirst N reality ≤ n → n < N → 0 ≤ el → el < L → -L < m → m < L →
        (∑ t ∈ Finset.Ico 0 (innerRings σ L (nside.getD 0)),
          K (n - nFirst N reality) t el (m + L - 1) * A (n - nFirst N reality) t (m + L - 1))
          = wigCoef G σ L N (nside.getD 0) (fbanAt f.get3 N reality) n el m := by
      intro n el m n0 n1 a b c d
      unfold wigCoef
      refine Finset.sum_congr rfl fun t ht => ?_
      rw [Finset.mem_Ico] at ht
      have k1 := hK n t el m n0 n1 ht.1 ht.2 a b c d
      have k2 := hA n t m n0 n1 ht.1 ht.2 c d
      rw [k1, ← k2]
      simp only [wScale, if_true]
      have e3 : kTheta G.nodes σ L (nside.getD 0) true t = innerTheta G.nodes σ L (nside.getD 0) t :=
        rfl
      have e4 : kScheme σ true = σ.inner := rfl
      rw [e3, e4, neg_one_mul]
      ring
    intro n el m n0 n1 a b c d
    unfold wignerFlmn wigFull
    simp only
    cases reality
    · rw [nFirst_false] at key hns
      simp only [Bool.false_eq_true, if_false, false_and]
      rw [if_pos (by omega)]
      have := key n el m (by omega) n1 a b c d
      rwa [show n - (-N + 1) = N - 1 + n - nStart N false by omega] at this
    · rw [nFirst_true] at key hns
      simp only [if_true, true_and]
      by_cases hneg : n < 0
      · rw [if_pos (by omega), if_pos hneg, if_pos (by omega),
          show nStart N true + 1 + (N - 2 - (N - 1 + n)) - nStart N true = -n by ring,
          show 2 * L - 2 - (m + L - 1) = -m + L - 1 by ring,
          show -L + 1 + (m + L - 1) = m by ring, show -N + 1 + (N - 1 + n) = n by ring]
        have := key (-n) el (-m) (by omega) (by omega) a b (by omega) (by omega)
        rw [sub_zero] at this
        rw [this]
      · rw [if_neg (show ¬ N - 1 + n < nStart N true by omega), if_neg hneg,
          if_pos (show nStart N true ≤ N - 1 + n by omega)]
        have := key n el m (by omega) n1 a b c d
        rwa [show n - 0 = N - 1 + n - nStart N true by omega] at this

/-! ## The base transform -/

theorem elfactor_mul {el : ℤ} (h : 0 ≤ el) :
    elfactor el * √(4 * Real.pi / (2 * (el : ℝ) + 1)) = 1 := by
  have hl' : (0 : ℝ) ≤ el := by exact_mod_cast h
  have hpi := Real.pi_pos
  unfold elfactor
  rw [← Real.sqrt_mul (by positivity),
    show (2 * (el : ℝ) + 1) / (4 * Real.pi) * (4 * Real.pi / (2 * el + 1)) = 1 by field_simp]
  exact Real.sqrt_one

theorem baseFban_at (f : ℤ → ℤ → ℤ → ℂ) (N : ℤ) (reality : Bool) (n : ℤ) :
    wignerBaseFban f N reality (n - nFirst N reality)
      = fun i j => fbanAt f N reality n i j * (2 * Real.pi / (2 * (N : ℂ) - 1)) := by
  funext i j
  unfold wignerBaseFban fbanAt wignerFban ngamma
  rfl

theorem planeOf_get2 {σ : Scheme} {L N nside : ℤ} (f : Nd ℂ)
    (hN : 1 ≤ N) (hf : f.shape = (2 * N - 1) :: σ.shape L nside) (reality : Bool) (k : ℤ) :
    (planeOf ((2 * N - 1) :: σ.shape L nside) (wignerBaseFban f.get3 N reality k)).get2
      = wignerBaseFban f.get3 N reality k := by
  by_cases hh : σ = .healpix
  · subst hh
    have hsz : f.shape = [2 * N - 1, 12 * nside ^ 2] := by rw [hf]; rfl
    obtain ⟨a, rfl⟩ := Nd.eq_d2 (by omega) hsz
    rfl
  · revert hh
    cases σ <;> intro hh <;> first | exact absurd rfl hh | rfl

/-- What the base transform returns. -/
theorem wignerBaseForward_coefs (G : GlTables) {σ : Scheme} {L N : ℤ} {nside : Option ℤ}
    (hv : σ.Valid L (nside.getD 0)) (h1 : 1 ≤ N) (hhp : σ = .healpix → 2 * nside.getD 0 ≤ L)
    (hex : InnerExact G.nodes σ L (nside.getD 0))
    (f : Nd ℂ) (hf : f.shape = (2 * N - 1) :: σ.shape L (nside.getD 0)) (reality : Bool)
    (hre : reality = true → RealRings σ.inner L (nside.getD 0) (innerRings σ L (nside.getD 0))
      (innerSignal σ L 0 (fbanAt f.get3 N true 0))) :
    ∃ g, wignerBaseForward G f L N 0 σ.name reality nside = .ok (.d3 (2 * N - 1) L (2 * L - 1) g) ∧
      ∀ n el m, -N < n → n < N → 0 ≤ el → el < L → -L < m → m < L →
        g (N - 1 + n) el (m + L - 1)
          = wigFull reality (wigCoef G σ L N (nside.getD 0) (fbanAt f.get3 N reality)) n el m := by
  have hL := hv.1
  have hb := nFirst_bounds h1 reality
  set V := wigCoef G σ L N (nside.getD 0) (fbanAt f.get3 N reality) with hV
  set c : ℂ := 2 * Real.pi / (2 * (N : ℂ) - 1) with hc
  have hsh : σ = .healpix → σ.name = sHP := by rintro rfl; rfl
  -- one plane
  have hplane : ∀ n, nFirst N reality ≤ n → n < N → ∃ flm,
      baseForward G (planeOf ((2 * N - 1) :: σ.shape L (nside.getD 0))
        (wignerBaseFban f.get3 N reality (n - nFirst N reality))) L (-n) σ.name nside reality 0 0
        = .ok (.d2 L (2 * L - 1) flm) ∧
      ∀ el m, 0 ≤ el → el < L → -L < m → m < L →
        (-1) ^ n * flm el (m + L - 1) * (√(4 * Real.pi / (2 * (el : ℝ) + 1)) : ℝ) = V n el m := by
    intro n n0 n1
    have hget := planeOf_get2 f h1 hf reality (n - nFirst N reality)
    have hcr : ((starRingEnd ℂ) c) = c := by
      rw [hc, map_div₀, map_sub, map_mul, map_mul, Complex.conj_ofReal, map_one, map_intCast,
        map_ofNat]
    have hreal : reality = true → -n = 0 → RealRings σ.inner L (nside.getD 0)
        (innerRings σ L (nside.getD 0)) (innerSignal σ L (-n)
          (planeOf ((2 * N - 1) :: σ.shape L (nside.getD 0))
            (wignerBaseFban f.get3 N reality (n - nFirst N reality))).get2) := by
      intro hr hn
      have hn : n = 0 := by omega
      subst hn
      subst hr
      rw [hget, baseFban_at, neg_zero, innerSignal_smul]
      intro t p t0 t1 p0 p1
      beta_reduce
      rw [← Complex.conj_eq_iff_im, map_mul, ← hc, hcr,
        Complex.conj_eq_iff_im.2 (hre rfl t p t0 t1 p0 p1)]
    obtain ⟨flm, e, h, hz⟩ := baseForwardWith_values G (lower_name σ) (method := bVec)
      (by simp [baseMethods]) (fun _ => hsh) (spin := -n) hv (fun _ => hhp)
      (planeOf ((2 * N - 1) :: σ.shape L (nside.getD 0))
        (wignerBaseFban f.get3 N reality (n - nFirst N reality)))
      (planeOf_shape N _) reality le_rfl (by omega) (fun _ => hreal)
    refine ⟨flm, ?_, fun el m a b m0 m1 => ?_⟩
    · unfold baseForward
      rw [if_pos rfl]; exact e
    by_cases hel : el < elStart 0 (-n)
    · rw [hz el _ hel, hV, wigCoef_outside _ _ _ _ _ _ (Or.inr (by
        unfold elStart at hel; rw [abs_neg] at hel; omega))]
      simp
    · rw [h el m (by omega) b m0 m1]
      have hsymm : symm (effReality reality (-n)) (fVal (ringSum σ.inner L (nside.getD 0)
          (innerSignal σ L (-n) (planeOf ((2 * N - 1) :: σ.shape L (nside.getD 0))
            (wignerBaseFban f.get3 N reality (n - nFirst N reality))).get2)) (-n)
          (innerRings σ L (nside.getD 0)) (innerTheta G.nodes σ L (nside.getD 0))
          (innerWeight G σ L (nside.getD 0)) el) m
          = fVal (ringSum σ.inner L (nside.getD 0)
          (innerSignal σ L (-n) (planeOf ((2 * N - 1) :: σ.shape L (nside.getD 0))
            (wignerBaseFban f.get3 N reality (n - nFirst N reality))).get2)) (-n)
          (innerRings σ L (nside.getD 0)) (innerTheta G.nodes σ L (nside.getD 0))
          (innerWeight G σ L (nside.getD 0)) el m := by
        unfold symm
        split_ifs with hs
        · have hn := effReality_spin hs.1
          have hr := effReality_true hs.1
          have := fVal_conj (hreal hr hn) (innerTheta G.nodes σ L (nside.getD 0))
            (innerWeight G σ L (nside.getD 0)) el (-m)
          rw [neg_neg] at this
          rw [hn] at this ⊢
          rw [this, neg_one_zpow_neg]
        · rfl
      rw [hsymm, hget, baseFban_at, innerSignal_smul, ← hc, hV]
      unfold fVal wigCoef
      rw [Finset.mul_sum, Finset.sum_mul]
      refine Finset.sum_congr rfl fun t ht => ?_
      rw [Finset.mem_Ico] at ht
      rw [ringSum_smul, snapAngle_eq _ (hex t ht.1 ht.2), neg_neg, neg_one_zpow_neg, ← hc]
      have q1 := neg_one_zpow_sq n
      have q2 : (elfactor el : ℂ) * (√(4 * Real.pi / (2 * (el : ℝ) + 1)) : ℝ) = 1 := by
        exact_mod_cast elfactor_mul a
      generalize ((√(4 * Real.pi / (2 * (el : ℝ) + 1)) : ℝ) : ℂ) = s at q2
      generalize ((elfactor el : ℝ) : ℂ) = u at q2
      generalize ((-1 : ℂ)) ^ n = z at q1
      generalize ringSum σ.inner L (nside.getD 0) (innerSignal σ L (-n) (fbanAt f.get3 N reality n))
        t m = r
      linear_combination (innerWeight G σ L (nside.getD 0) t
        * wignerd el m n (innerTheta G.nodes σ L (nside.getD 0) t) * r * c : ℂ) * (u * s * q1 + q2)
  have hst : (if reality then 0 else -N + 1) = nFirst N reality := by
    cases reality
    · rw [nFirst_false]; simp
    · rw [nFirst_true]; simp
  obtain ⟨flmn, e1, hfl⟩ := forRangeM_ind (show nFirst N reality ≤ N by omega)
    (fun n (flmn : ℤ → ℤ → ℤ → ℂ) => do
      let flm ← baseForward G (planeOf ((2 * N - 1) :: σ.shape L (nside.getD 0))
        (wignerBaseFban f.get3 N reality (n - nFirst N reality))) L (-n) σ.name nside reality 0 0
      let flmn := setPlane flmn (N - 1 + n) (fun l j => (-1) ^ n * flm.get2 l j)
      if reality = true ∧ n ≠ 0 then
        pure (setPlane flmn (N - 1 - n) (fun l j => (starRingEnd ℂ)
          (flmn (N - 1 + n) l (2 * L - 1 - 1 - j)
            * (-1) ^ |-L + 1 + (2 * L - 1 - 1 - j)| * (-1) ^ n)))
      else pure flmn) (fun _ _ _ => 0)
    (fun k flmn => ∀ n el m, (nFirst N reality ≤ n ∧ n < k) ∨ (reality = true ∧ 0 ≤ -n ∧ -n < k) →
      0 ≤ el → el < L → -L < m → m < L →
        flmn (N - 1 + n) el (m + L - 1) * (√(4 * Real.pi / (2 * (el : ℝ) + 1)) : ℝ)
          = wigFull reality V n el m)
    (fun n el m h => by
      rcases h with h | ⟨hr, h⟩
      · omega
      · subst hr; rw [nFirst_true] at h; omega) (by
      intro k flmn k0 k1 ih
      obtain ⟨flm, e, hg⟩ := hplane k k0 k1
      have hk0 : reality = true → 0 ≤ k := by rintro rfl; rw [nFirst_true] at k0; exact k0
      have hfull : ∀ n el m, nFirst N reality ≤ n → wigFull reality V n el m = V n el m := by
        intro n el m hn
        unfold wigFull
        rw [if_neg]
        rintro ⟨rfl, h⟩
        rw [nFirst_true] at hn; omega
      simp only [e, bind, Except.bind, pure, Except.pure]
      have hown : ∀ n el m, (nFirst N reality ≤ n ∧ n < k + 1) ∨
            (reality = true ∧ 0 ≤ -n ∧ -n < k) → 0 ≤ el → el < L → -L < m → m < L →
          setPlane flmn (N - 1 + k) (fun l j => (-1) ^ k * (Nd.d2 L (2 * L - 1) flm).get2 l j)
            (N - 1 + n) el (m + L - 1) * (√(4 * Real.pi / (2 * (el : ℝ) + 1)) : ℝ)
            = wigFull reality V n el m := by
        intro n el m hn a b d d'
        unfold setPlane
        by_cases hnk : n = k
        · subst hnk
          rw [if_pos rfl, hfull n el m k0]
          exact hg el m a b d d'
        · rw [if_neg (by omega)]
          exact ih n el m (hn.imp (fun h => ⟨h.1, by omega⟩) id) a b d d'
      by_cases hc : reality = true ∧ k ≠ 0
      · rw [if_pos hc]
        refine ⟨_, rfl, ?_⟩
        intro n el m hn a b d d'
        have hk := hk0 hc.1
        by_cases hnk : n = -k
        · subst hnk
          unfold setPlane
          rw [if_pos (by ring), if_pos rfl]
          have h3 := hg el (-m) a b (by omega) (by omega)
          rw [show 2 * L - 1 - 1 - (m + L - 1) = -m + L - 1 by ring,
            show -L + 1 + (-m + L - 1) = -m by ring]
          simp only [Nd.get2]
          unfold wigFull
          rw [if_pos ⟨hc.1, by omega⟩, neg_neg, ← h3, abs_neg, abs_neg]
          have hone : ∀ k : ℤ, (starRingEnd ℂ) ((-1 : ℂ) ^ k) = (-1) ^ k := fun k => by
            rw [map_zpow₀, map_neg, map_one]
          rw [abs_of_nonneg hk]
          simp only [map_mul, hone, Complex.conj_ofReal]
          ring
        · unfold setPlane
          rw [if_neg (by omega)]
          exact hown n el m (hn.imp id (fun h => ⟨h.1, h.2.1, by omega⟩)) a b d d'
      · rw [if_neg hc]
        refine ⟨_, rfl, ?_⟩
        intro n el m hn a b d d'
        refine hown n el m ?_ a b d d'
        rcases hn with hn | ⟨hr, hn⟩
        · exact Or.inl hn
        · have : k = 0 := by by_contra h; exact hc ⟨hr, h⟩
          left
          omega)
  refine ⟨fun n l m => flmn n l m * (√(4 * Real.pi / (2 * (l : ℝ) + 1)) : ℝ), ?_, ?_⟩
  · unfold wignerBaseForward
    rw [so3_shape hv]
    show (if f.shape ≠ (2 * N - 1) :: σ.shape L (nside.getD 0) then _ else _) = _
    rw [if_neg (by rw [hf]; simp)]
    simp only [hst]
    exact congrArg (fun r : Except PyErr (ℤ → ℤ → ℤ → ℂ) => r >>= _) e1
  · intro n el m n0 n1 a b d d'
    beta_reduce
    refine hfl n el m ?_ a b d d'
    cases reality
    · left; rw [nFirst_false]; omega
    · rcases le_or_gt 0 n with h | h
      · left; rw [nFirst_true]; omega
      · right; exact ⟨rfl, by omega, by omega⟩

end S2fft
