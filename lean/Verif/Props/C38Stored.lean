import Verif.Lemmas.StableWigner
import Verif.Props.C39Stored

/-!
# C38: angles stored in double precision

As for the spherical transforms (C39): angles stored as doubles meet the condition of the theorems, and
the transforms return the expansion up to the error of the angles.
-/

namespace S2fft
open Spec

section
variable (B : Backends) (G : Machine) (σ : Scheme) (L N lo : ℤ) (nside : Option ℤ)

/-- Synthesis at stored angles. -/
theorem C38_expansion_doubles_partial (hv : σ.Valid L (nside.getD 0))
    (hhp : σ = .healpix → 2 * nside.getD 0 ≤ L) (hN : 1 ≤ N) (hNL : N ≤ L) (hN8 : N < 8)
    (method : PyStr) (hmt : method ∈ [mNumpy, mJax, mTorch]) (hlo : LowerOk method L lo)
    (flmn : ℤ → ℤ → ℤ → ℂ)
    (hf : ∀ n el k, -N < n → n < N → lo ≤ el → el < |n| → 0 ≤ k →
      k < 2 * L - 1 → flmn (N - 1 + n) el k = 0)
    (reality : Bool) (hre : RealOrigin flmn L N reality lo)
    (hpl : method ≠ mNumpy → reality = true →
      RealHarmonics (fun el m => flmn (N - 1) el (m + L - 1)) lo L)
    (p : WigPrecomps) (hp : WigPrecompsArg G L N σ.name nside false reality method p)
    (ε : ℝ) (hd : StoredDoubles G σ L (nside.getD 0) false ε) (k : ℤ) :
    ∃ out, wignerInverse B G (.d3 (2 * N - 1) L (2 * L - 1) flmn) L N nside σ.name method reality p
        lo k = .ok out ∧
      out.shape = (2 * N - 1) :: σ.shape L (nside.getD 0) ∧
      ∀ g t p, 0 ≤ g → g < 2 * N - 1 → σ.Has L (nside.getD 0) t p →
        ‖out.get3 g (σ.pos (nside.getD 0) t p).1 (σ.pos (nside.getD 0) t p).2
          - wignerSum lo L N (wignerCoeffs flmn L N reality) (σ.phi L (nside.getD 0) t p)
              (σ.theta G.nodes L (nside.getD 0) t) (gammaAt N g)‖
          ≤ L * ε * so3Size L N (wignerCoeffs flmn L N reality) := by
  obtain ⟨out, e, hs, h⟩ := C38_expansion_partial B G σ L N lo nside hv hhp hN hNL hN8 method hmt hlo
    flmn hf reality hre hpl p hp (fun n _ => C39_doubles_regular G σ L _ false ε hd n) k
  refine ⟨out, e, hs, fun g t p g0 g1 ht => ?_⟩
  rw [h g t p g0 g1 ht]
  refine (wignerSum_move hlo.1 L N _ _ _ _ _).trans ?_
  have hL : (0 : ℝ) ≤ L := by exact_mod_cast (by have := hv.1; omega : 0 ≤ L)
  exact mul_le_mul_of_nonneg_right (mul_le_mul_of_nonneg_left (hd.close hv ht.1 ht.2.1) hL)
    (so3Size_nonneg _ _ _)

/-- Analysis at stored angles of samples within `η` of those of an expansion. -/
theorem C38_analysis_doubles_partial (hv : σ.Valid L (nside.getD 0))
    (hσ : SamplingTheorem G.toGlTables σ L) (hN : 1 ≤ N) (hNL : N ≤ L) (hN8 : N < 8)
    (method : PyStr) (hmt : method ∈ [mNumpy, mJax, mTorch])
    (hlo : LowerOk method L lo) (c : ℤ → ℤ → ℤ → ℂ) (f : Nd ℂ)
    (hf : f.shape = (2 * N - 1) :: σ.shape L (nside.getD 0)) (η M : ℝ)
    (hM : ∀ g t p, 0 ≤ g → g < 2 * N - 1 → σ.Has L (nside.getD 0) t p → ‖f.get3 g t p‖ ≤ M)
    (hs : ∀ g t p, 0 ≤ g → g < 2 * N - 1 → σ.Has L (nside.getD 0) t p →
      ‖f.get3 g t p - wignerSum 0 L N c (σ.phi L (nside.getD 0) t p)
        (σ.theta G.nodes L (nside.getD 0) t) (gammaAt N g)‖ ≤ η) (reality : Bool)
    (hre : reality = true → RealWigner c 0 L ∧ RealSo3Input G.nodes σ L N (nside.getD 0) f.get3)
    (p : WigPrecomps) (hp : WigPrecompsArg G L N σ.name nside true reality method p)
    (ε : ℝ) (hd : StoredDoubles G σ L (nside.getD 0) true ε) (k : ℤ) :
    ∃ g, wignerForward B G f L N nside σ.name method reality p lo k
        = .ok (.d3 (2 * N - 1) L (2 * L - 1) g) ∧
      ∀ n el m, |n| < N → 0 ≤ el → el < L → -L < m → m < L →
        ‖g (N - 1 + n) el (m + L - 1) - (if max |n| lo ≤ el ∧ |m| ≤ el then c n el m else 0)‖
          ≤ 160 * Real.pi ^ 2 * (η + (el + 1) * ε * M) := by
  obtain ⟨g, e, h⟩ := wignerForward_values B G σ L N lo nside hv hN hNL hN8 method hmt
    (fun h => absurd h hσ.1) hlo f hf reality
    (by rintro rfl; exact realSo3_rings σ L N nside hv.1 hN (hre rfl).2) p hp
    (fun n _ => C39_doubles_regular G σ L _ true ε hd n) k
  refine ⟨g, e, fun n el m hn a b m0 m1 => ?_⟩
  rw [h n el m hn a b m0 m1]
  exact wigForward_near G.toGlTables σ L N lo nside hv hN hσ hlo.1 hd.1
    (fun t t0 t1 => hd.close hv t0 t1) hM hs reality (fun h => (hre h).1) hn a b m0 m1

/-- The round trip at stored angles, the two sides with methods of their own. (With `reality` on MW and
MWSS see the remark in C39.) -/
theorem C38_round_trip_doubles_partial (hv : σ.Valid L (nside.getD 0))
    (hσ : SamplingTheorem G.toGlTables σ L) (hN : 1 ≤ N) (hNL : N ≤ L) (hN8 : N < 8) (μ ν : PyStr)
    (hμ : μ ∈ [mNumpy, mJax, mTorch]) (hν : ν ∈ [mNumpy, mJax, mTorch])
    (hlo : LowerOk μ L 0) (hlo' : LowerOk ν L lo) (flmn : ℤ → ℤ → ℤ → ℂ)
    (hf : ∀ n el k, -N < n → n < N → 0 ≤ el → el < |n| → 0 ≤ k →
      k < 2 * L - 1 → flmn (N - 1 + n) el k = 0)
    (reality : Bool) (hrs : reality = true → σ = .dh ∨ σ = .gl) (hre : RealOrigin flmn L N reality 0)
    (hpl : μ ≠ mNumpy → reality = true →
      RealHarmonics (fun el m => flmn (N - 1) el (m + L - 1)) 0 L)
    (p p' : WigPrecomps) (hp : WigPrecompsArg G L N σ.name nside false reality μ p)
    (hp' : WigPrecompsArg G L N σ.name nside true reality ν p')
    (ε : ℝ) (hd : StoredDoubles G σ L (nside.getD 0) false ε)
    (hd' : StoredDoubles G σ L (nside.getD 0) true ε) (k : ℤ) :
    ∃ f g, wignerInverse B G (.d3 (2 * N - 1) L (2 * L - 1) flmn) L N nside σ.name μ reality p 0 k
        = .ok f ∧
      wignerForward B G f L N nside σ.name ν reality p' lo k = .ok (.d3 (2 * N - 1) L (2 * L - 1) g) ∧
      ∀ n el m, |n| < N → 0 ≤ el → el < L → -L < m → m < L →
        ‖g (N - 1 + n) el (m + L - 1)
          - (if max |n| lo ≤ el ∧ |m| ≤ el then wignerCoeffs flmn L N reality n el m else 0)‖
          ≤ 320 * Real.pi ^ 2 * (L * ε * so3Size L N (wignerCoeffs flmn L N reality)) := by
  have hL : (0 : ℝ) ≤ L := by exact_mod_cast (by have := hv.1; omega : 0 ≤ L)
  have hc := so3Size_nonneg L N (wignerCoeffs flmn L N reality)
  have hreal : reality = true → RealWigner (wignerCoeffs flmn L N reality) 0 L := by
    rintro rfl; exact wignerCoeffs_real hre
  obtain ⟨f, e, hs, h⟩ := C38_expansion_partial B G σ L N 0 nside hv (fun h => absurd h hσ.1) hN hNL hN8
    μ hμ hlo flmn hf reality hre hpl p hp (fun n _ => C39_doubles_regular G σ L _ false ε hd n) k
  have hpos := fun t p => pos_of_sampling (ns := nside.getD 0) hσ t p
  simp only [hpos] at h
  have him : reality = true → ∀ g t p, 0 ≤ g → g < 2 * N - 1 → σ.Has L (nside.getD 0) t p →
      (f.get3 g t p).im = 0 := by
    intro hr g t p g0 g1 ht
    rw [h g t p g0 g1 ht]
    exact wignerSum_real (hreal hr) N _ _ _
  obtain ⟨g, e', hg⟩ := C38_analysis_doubles_partial B G σ L N lo nside hv hσ hN hNL hN8 ν hν hlo'
    (wignerCoeffs flmn L N reality) f hs (L * ε * so3Size L N (wignerCoeffs flmn L N reality))
    (so3Size L N (wignerCoeffs flmn L N reality)) (fun g t p g0 g1 ht => by
      rw [h g t p g0 g1 ht]; exact norm_wignerSum_le le_rfl _ _ _ _ _ _) (fun g t p g0 g1 ht => by
      rw [h g t p g0 g1 ht]
      refine (wignerSum_move le_rfl L N _ _ _ _ _).trans ?_
      exact mul_le_mul_of_nonneg_right (mul_le_mul_of_nonneg_left (hd.close hv ht.1 ht.2.1) hL) hc)
    reality (fun hr => ⟨hreal hr, fun g t p g0 g1 ht => by
      rw [hpos]; exact him hr g t p g0 g1 ht, by
      unfold RealInput
      rw [if_neg (by rcases hrs hr with rfl | rfl <;> simp)]
      intro t p ht
      rw [hpos, Complex.im_sum]
      refine Finset.sum_eq_zero fun g hg => ?_
      rw [Finset.mem_Ico] at hg
      exact him hr g t p hg.1 hg.2 ht⟩) p' hp' ε hd' k
  refine ⟨f, g, e, e', fun n el m hn a b m0 m1 => (hg n el m hn a b m0 m1).trans ?_⟩
  have hel : (el : ℝ) + 1 ≤ L := by exact_mod_cast b
  have hε := hd.1
  have : ((el : ℝ) + 1) * ε * so3Size L N (wignerCoeffs flmn L N reality)
      ≤ L * ε * so3Size L N (wignerCoeffs flmn L N reality) := by gcongr
  calc _ ≤ 160 * Real.pi ^ 2 * (L * ε * so3Size L N (wignerCoeffs flmn L N reality)
          + L * ε * so3Size L N (wignerCoeffs flmn L N reality)) := by gcongr
    _ = _ := by ring

end

/-- The conditions are met: DH with `L = 8` (see `C39_rounded`), two directions. -/
example (F : DoubleLib) (G : GlTables) (forward : Bool) :
    StoredDoubles (storedAs G (rounded F)) .dh 8 0 forward (Real.pi / 2 ^ 53) ∧
      Scheme.dh.Valid 8 0 ∧ SamplingTheorem G .dh 8 ∧ LowerOk mNumpy 8 0 ∧
      ∀ reality, RealOrigin (fun _ el _ => if el < 2 then (0 : ℂ) else 1) 8 2 reality 0 := by
  have hpi := Real.pi_gt_three
  refine ⟨C39_rounded F G .dh 8 0 ⟨by norm_num, fun h => nomatch h⟩ (fun h => nomatch h) forward ?_,
    ⟨by norm_num, fun h => nomatch h⟩, ⟨by simp, by simp⟩, ⟨by norm_num, Or.inl (by norm_num)⟩,
    fun reality _ el _ _ => ?_⟩
  · intro t t0 t1 _
    have ht : (0 : ℝ) ≤ t := by exact_mod_cast t0
    have e : kTheta G.nodes .dh 8 0 forward t = (2 * t + 1) * Real.pi / (4 * (8 : ℤ)) := by
      cases forward <;> rfl
    rw [e]
    have : (1 : ℝ) / 2 ^ 200 ≤ 1 / 32 := by norm_num
    push_cast
    nlinarith
  · beta_reduce
    split_ifs <;> simp

end S2fft
