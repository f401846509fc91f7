import Verif.Model.Wigner
import Verif.Lemmas.BaseWigner
import Verif.Props.C39
import Verif.Props.C26

/-! # Lemmas for the on-the-fly Wigner transforms -/

namespace S2fft
open Spec

theorem wigStart_le {N : ℤ} (hN : 1 ≤ N) (reality : Bool) : wigStart N reality ≤ N := by
  unfold wigStart; split_ifs <;> omega

theorem wigStart_lt {N : ℤ} (hN : 1 ≤ N) (reality : Bool) : -N < wigStart N reality := by
  unfold wigStart; split_ifs <;> omega

/-! ## Coefficients of the recursion -/

theorem pmAngles_ok (G : Machine) {σ : Scheme} {s : PyStr} (hs : lower s = σ.name) {L : ℤ}
    {nside : Option ℤ} (hv : σ.Valid L (nside.getD 0)) (forward : Bool) :
    ∃ β, pmAngles G L s nside forward = .ok β := by
  cases forward
  · obtain ⟨β, e, -⟩ := pmAngles_inverse G hs hv; exact ⟨β, e⟩
  · obtain ⟨β, e, -⟩ := pmAngles_forward G hs hv; exact ⟨β, e⟩

theorem wignerPrecompsNumpy_ok (G : Machine) {σ : Scheme} {s : PyStr} (hs : lower s = σ.name)
    {L N : ℤ} {nside : Option ℤ} (hv : σ.Valid L (nside.getD 0)) (hN : 1 ≤ N) (hNL : N ≤ L)
    (forward reality : Bool) :
    ∃ ps, wignerPrecompsNumpy G L N s nside forward reality = .ok ps ∧
      ∀ n, wigStart N reality ≤ n → n < N →
        precomputesNumpy G L (-n) s nside forward = .ok (ps (n - wigStart N reality)) := by
  obtain ⟨β, e⟩ := pmAngles_ok G hs hv forward
  have hn : ∀ n, wigStart N reality ≤ n → n < N →
      precomputesNumpy G L (-n) s nside forward = .ok (generatePrecomputes L (-n) β) := by
    intro n n0 n1
    have := wigStart_lt hN reality
    unfold precomputesNumpy
    rw [e]
    simp only [bind, Except.bind, pure, Except.pure]
    rw [if_neg]
    rw [abs_neg, not_lt]
    exact (abs_lt.2 ⟨by omega, by omega⟩ : |n| < L).le
  unfold wignerPrecompsNumpy
  obtain ⟨ps, h1, h2⟩ := forRangeM_ind (wigStart_le hN reality) (fun n (ps : ℤ → PmPre) => do
      let P ← precomputesNumpy G L (-n) s nside forward
      pure (set1 ps (n - wigStart N reality) P)) (fun _ => ⟨0, 0, 0, 0, fun _ _ => false⟩)
    (fun k ps => ∀ n, wigStart N reality ≤ n → n < k →
      ps (n - wigStart N reality) = generatePrecomputes L (-n) β)
    (fun n a b => by omega) (by
      intro k ps k0 k1 ih
      refine ⟨set1 ps (k - wigStart N reality) (generatePrecomputes L (-k) β), ?_, ?_⟩
      · rw [hn k k0 k1]; rfl
      · intro n n0 n1
        unfold set1
        by_cases h : n = k
        · subst h; rw [if_pos rfl]
        · rw [if_neg (by omega)]; exact ih n n0 (by omega))
  exact ⟨ps, h1, fun n n0 n1 => by rw [hn n n0 n1, h2 n n0 n1]⟩

theorem wignerPrecompsJax_ok (G : Machine) {σ : Scheme} {s : PyStr} (hs : lower s = σ.name)
    {L N : ℤ} {nside : Option ℤ} (hv : σ.Valid L (nside.getD 0)) (hN : 1 ≤ N)
    (forward reality : Bool) :
    ∃ ps, wignerPrecompsJax G L N s nside forward reality = .ok ps ∧
      ∀ n, wigStart N reality ≤ n → n < N →
        precomputesJax G L (-n) s nside forward = .ok (ps.at (n - wigStart N reality)) := by
  obtain ⟨β, e⟩ := pmAngles_ok G hs hv forward
  have hn : ∀ n, precomputesJax G L (-n) s nside forward
      = .ok (generatePrecomputesJax L (-n) β) := by
    intro n
    unfold precomputesJax
    rw [e]
    rfl
  unfold wignerPrecompsJax
  obtain ⟨ps, h1, h2⟩ := forRangeM_ind (wigStart_le hN reality) (fun n (s' : WigPreJax × Bool) => do
      let P ← precomputesJax G L (-n) s nside forward
      pure ((⟨set1 s'.1.lr (n - wigStart N reality) P.lr,
        set1 s'.1.vsign (n - wigStart N reality) P.vsign,
        if s'.2 then s'.1.cpi else P.cpi, if s'.2 then s'.1.cp2 else P.cp2⟩ : WigPreJax), true))
      (⟨0, 0, 0, 0⟩, false)
    (fun k ps => (wigStart N reality < k → ps.2 = true) ∧
      (k = wigStart N reality → ps.2 = false) ∧ ∀ n, wigStart N reality ≤ n → n < k →
      ps.1.at (n - wigStart N reality) = generatePrecomputesJax L (-n) β)
    ⟨fun h => by omega, fun _ => rfl, fun n a b => by omega⟩ (by
      intro k ps k0 k1 ih
      refine ⟨_, by rw [hn k]; rfl, fun _ => rfl, fun h => by omega, ?_⟩
      intro n n0 n1
      rcases eq_or_lt_of_le k0 with hk | hk
      · have hnk : n = k := by omega
        subst hnk
        unfold WigPreJax.at set1
        simp only [ih.2.1 hk.symm, if_true, Bool.false_eq_true, if_false]
        rfl
      · have hc := ih.1 hk
        have hold := ih.2.2 (wigStart N reality) le_rfl hk
        unfold WigPreJax.at at hold
        unfold generatePrecomputesJax at hold
        injection hold with o1 o2 o3 o4
        unfold WigPreJax.at set1
        simp only [hc, if_true]
        by_cases h : n = k
        · subst h
          simp only [if_true]
          rw [o3, o4]
          rfl
        · simp only [if_neg (show ¬ n - wigStart N reality = k - wigStart N reality by omega)]
          exact ih.2.2 n n0 (by omega))
  obtain ⟨W, b⟩ := ps
  refine ⟨W, ?_, fun n n0 n1 => by rw [hn n, h2.2.2 n n0 n1]⟩
  rw [h1]; rfl

/-! ## Synthesis -/

section
variable {σ : Scheme} {L N lo : ℤ} {nside : ℤ}

/-- Planes that are those of an expansion are summed to it. -/
theorem wigInverse_sum (hN : 1 ≤ N) (reality : Bool) (sgn : ℤ → ℂ)
    (plane : ℤ → Except PyErr (Nd ℂ)) (c : ℤ → ℤ → ℤ → ℂ) (θ : ℤ → ℝ)
    (hc : reality = true → RealWigner c lo L)
    (h : ∀ n, wigStart N reality ≤ n → n < N → ∃ out, plane n = .ok out ∧
      ∀ t p, σ.Has L nside t p → sgn n * out.get2 (σ.pos nside t p).1 (σ.pos nside t p).2
        = wigPlane lo L c n (θ t) (σ.phi L nside t p)) :
    ∃ out, (wigInverseLoop N reality sgn plane >>= fun fban =>
        packSo3 ((2 * N - 1) :: σ.shape L nside) (wigGamma fban N reality)) = .ok out ∧
      out.shape = (2 * N - 1) :: σ.shape L nside ∧
      ∀ g t p, 0 ≤ g → g < 2 * N - 1 → σ.Has L nside t p →
        out.get3 g (σ.pos nside t p).1 (σ.pos nside t p).2
          = wignerSum lo L N c (σ.phi L nside t p) (θ t) (gammaAt N g) := by
  obtain ⟨fban, e1, hf⟩ : ∃ fban, wigInverseLoop N reality sgn plane = .ok fban ∧
      ∀ n, wigStart N reality ≤ n → n < N → ∀ t p, σ.Has L nside t p →
      fban (N - 1 + n) (σ.pos nside t p).1 (σ.pos nside t p).2
        = wigPlane lo L c n (θ t) (σ.phi L nside t p) := by
    unfold wigInverseLoop
    refine forRangeM_ind (wigStart_le hN reality) _ _ (fun k (fban : ℤ → ℤ → ℤ → ℂ) =>
      ∀ n, wigStart N reality ≤ n → n < k → ∀ t p, σ.Has L nside t p →
      fban (N - 1 + n) (σ.pos nside t p).1 (σ.pos nside t p).2
        = wigPlane lo L c n (θ t) (σ.phi L nside t p)) (fun n a b => by omega) ?_
    intro k fban k0 k1 ih
    obtain ⟨out, e, ho⟩ := h k k0 k1
    refine ⟨_, by rw [e]; rfl, ?_⟩
    intro n n0 n1 t p ht
    unfold setPlane
    by_cases hn : n = k
    · subst hn
      rw [if_pos rfl]; exact ho t p ht
    · rw [if_neg (by omega)]
      exact ih n n0 (by omega) t p ht
  obtain ⟨out, e2, hs, ho⟩ := packSo3_scheme (σ := σ) (L := L) (nside := nside) N
    (wigGamma fban N reality)
  refine ⟨out, ?_, hs, ?_⟩
  · rw [e1]; exact e2
  · intro g t p g0 g1 ht
    rw [ho, wignerSum_planes]
    have hp := fun n a b => hf n a b t p ht
    unfold wigGamma
    generalize θ t = θ at *
    generalize σ.phi L nside t p = φ at *
    generalize (σ.pos nside t p).1 = i at *
    generalize (σ.pos nside t p).2 = j at *
    unfold wigStart at hp
    cases reality
    · rw [if_neg Bool.false_ne_true] at hp ⊢
      have := ifft_gamma hN (fun n => fban (N - 1 + n) i j) g
      simp only [show ∀ k, N - 1 + (k - (N - 1)) = k from fun k => by ring] at this
      rw [this]
      refine Finset.sum_congr rfl fun n hn => ?_
      rw [Finset.mem_Ioo] at hn
      rw [hp n (by omega) hn.2]
    · rw [if_pos rfl] at hp ⊢
      rw [← irfft_gamma hN _ (fun n _ _ => wigPlane_conj (hc rfl) n θ φ)]
      refine irfft_congr (by omega) fun k k0 k1 => hp k (by omega) (by omega)

/-! ## Analysis -/

/-- The planes of negative direction of a real signal, in terms of those of positive direction. -/
noncomputable def mirrored (reality : Bool) (V : ℤ → ℤ → ℤ → ℂ) (n el m : ℤ) : ℂ :=
  if reality = true ∧ n < 0 then (-1) ^ (m + n) * (starRingEnd ℂ) (V (-n) el (-m)) else V n el m

theorem wigMirror_eq {plane V : ℤ → ℤ → ℂ} {n : ℤ}
    (h : ∀ el m, 0 ≤ el → el < L → -L < m → m < L → plane el (m + L - 1) = V el m) {el m : ℤ}
    (a : 0 ≤ el) (b : el < L) (d : -L < m) (d' : m < L) :
    wigMirror plane L n el (m + L - 1) = (-1) ^ (m + -n) * (starRingEnd ℂ) (V el (-m)) := by
  unfold wigMirror
  rw [show 2 * L - 1 - 1 - (m + L - 1) = -m + L - 1 by ring,
    show -L + 1 + (-m + L - 1) = -m by ring, h el (-m) a b (by omega) (by omega), abs_neg]
  have hone : ∀ k : ℤ, (starRingEnd ℂ) ((-1 : ℂ) ^ k) = (-1) ^ k := fun k => by
    rw [map_zpow₀, map_neg, map_one]
  rw [negOne_absC, map_mul, map_mul, hone, hone, zpow_add₀ (by norm_num), neg_one_zpow_neg]
  ring

/-- The loop of the NumPy and base functions. -/
theorem wigForward_loop (hN : 1 ≤ N) (reality : Bool)
    (plane : ℤ → Except PyErr (Nd ℂ)) (V : ℤ → ℤ → ℤ → ℂ)
    (h : ∀ n, wigStart N reality ≤ n → n < N → ∃ g, plane n = .ok (.d2 L (2 * L - 1) g) ∧
      ∀ el m, 0 ≤ el → el < L → -L < m → m < L → (-1) ^ n * g el (m + L - 1) = V n el m) :
    ∃ flmn, forRangeM (wigStart N reality) N (fun n (flmn : ℤ → ℤ → ℤ → ℂ) => do
        let flm ← plane n
        let flmn := setPlane flmn (N - 1 + n) (fun l j => (-1) ^ n * flm.get2 l j)
        if reality = true ∧ n ≠ 0 then
          pure (setPlane flmn (N - 1 - n) (wigMirror (flmn (N - 1 + n)) L n))
        else pure flmn) (fun _ _ _ => 0) = .ok flmn ∧
      ∀ n el m, |n| < N → 0 ≤ el → el < L → -L < m → m < L →
        flmn (N - 1 + n) el (m + L - 1) = mirrored reality V n el m := by
  obtain ⟨flmn, e1, hfl⟩ := forRangeM_ind (wigStart_le hN reality)
    (fun n (flmn : ℤ → ℤ → ℤ → ℂ) => do
        let flm ← plane n
        let flmn := setPlane flmn (N - 1 + n) (fun l j => (-1) ^ n * flm.get2 l j)
        if reality = true ∧ n ≠ 0 then
          pure (setPlane flmn (N - 1 - n) (wigMirror (flmn (N - 1 + n)) L n))
        else pure flmn) (fun _ _ _ => 0)
    (fun k flmn => ∀ n el m, (wigStart N reality ≤ n ∧ n < k) ∨
        (reality = true ∧ wigStart N reality ≤ -n ∧ -n < k) →
      0 ≤ el → el < L → -L < m → m < L →
        flmn (N - 1 + n) el (m + L - 1) = mirrored reality V n el m)
    (fun n el m h => by omega) (by
      intro k flmn k0 k1 ih
      obtain ⟨g, e, hplane⟩ := h k k0 k1
      simp only [e, bind, Except.bind, pure, Except.pure]
      have hown : ∀ n el m, (wigStart N reality ≤ n ∧ n < k + 1) ∨
          (reality = true ∧ wigStart N reality ≤ -n ∧ -n < k) →
          0 ≤ el → el < L → -L < m → m < L →
          setPlane flmn (N - 1 + k) (fun l j => (-1) ^ k * (Nd.d2 L (2 * L - 1) g).get2 l j)
            (N - 1 + n) el (m + L - 1) = mirrored reality V n el m := by
        intro n el m hn a b d d'
        unfold setPlane
        by_cases hnk : n = k
        · subst hnk
          rw [if_pos rfl]
          unfold mirrored
          rw [if_neg]
          · exact hplane el m a b d d'
          · rintro ⟨hr, hlt⟩
            unfold wigStart at k0
            rw [if_pos hr] at k0
            omega
        · rw [if_neg (by omega)]
          exact ih n el m (hn.imp (fun h => ⟨h.1, by omega⟩) id) a b d d'
      by_cases hr : reality = true ∧ k ≠ 0
      · rw [if_pos hr]
        refine ⟨_, rfl, ?_⟩
        intro n el m hn a b d d'
        have hz : wigStart N reality = 0 := by unfold wigStart; rw [if_pos hr.1]
        by_cases hnk : n = -k
        · subst hnk
          unfold setPlane
          rw [if_pos (by ring), if_pos rfl]
          rw [wigMirror_eq hplane a b d d']
          unfold mirrored
          rw [if_pos ⟨hr.1, by omega⟩, neg_neg]
        · rw [show setPlane (setPlane flmn (N - 1 + k)
              (fun l j => (-1) ^ k * (Nd.d2 L (2 * L - 1) g).get2 l j)) (N - 1 - k)
              (wigMirror (setPlane flmn (N - 1 + k)
              (fun l j => (-1) ^ k * (Nd.d2 L (2 * L - 1) g).get2 l j) (N - 1 + k)) L k) (N - 1 + n)
              = setPlane flmn (N - 1 + k)
              (fun l j => (-1) ^ k * (Nd.d2 L (2 * L - 1) g).get2 l j) (N - 1 + n)
              from if_neg (by omega)]
          exact hown n el m (hn.imp id (fun h => ⟨h.1, h.2.1, by omega⟩)) a b d d'
      · rw [if_neg hr]
        refine ⟨_, rfl, ?_⟩
        intro n el m hn a b d d'
        refine hown n el m ?_ a b d d'
        rcases hn with hn | ⟨hr', hn⟩
        · exact Or.inl hn
        · have : k = 0 := by by_contra h; exact hr ⟨hr', h⟩
          have hz : wigStart N reality = 0 := by unfold wigStart; rw [if_pos hr']
          omega)
  refine ⟨flmn, e1, fun n el m hn a b d d' => hfl n el m ?_ a b d d'⟩
  rw [abs_lt] at hn
  unfold wigStart
  cases reality
  · left; rw [if_neg Bool.false_ne_true]; omega
  · rw [if_pos rfl]
    rcases le_total 0 n with h | h
    · left; omega
    · right; exact ⟨rfl, by omega, by omega⟩

/-- The planes of the JAX and SSHT functions. -/
theorem wigForward_all (hN : 1 ≤ N) (reality : Bool)
    (plane : ℤ → Except PyErr (Nd ℂ)) (V : ℤ → ℤ → ℤ → ℂ)
    (h : ∀ n, wigStart N reality ≤ n → n < N → ∃ g, plane n = .ok (.d2 L (2 * L - 1) g) ∧
      ∀ el m, 0 ≤ el → el < L → -L < m → m < L → (-1) ^ n * g el (m + L - 1) = V n el m) :
    ∃ flmn, wigInverseLoop N reality (fun n => (-1) ^ |n|) plane = .ok flmn ∧
      ∀ n el m, |n| < N → 0 ≤ el → el < L → -L < m → m < L →
        wigMirrorAll flmn L N reality (N - 1 + n) el (m + L - 1) = mirrored reality V n el m := by
  obtain ⟨flmn, e1, hfl⟩ : ∃ fban, wigInverseLoop N reality (fun n => (-1) ^ |n|) plane = .ok fban ∧
      ∀ n, wigStart N reality ≤ n → n < N → ∀ el m, 0 ≤ el → el < L → -L < m → m < L →
      fban (N - 1 + n) el (m + L - 1) = V n el m := by
    unfold wigInverseLoop
    refine forRangeM_ind (wigStart_le hN reality) _ _ (fun k (fban : ℤ → ℤ → ℤ → ℂ) =>
      ∀ n, wigStart N reality ≤ n → n < k → ∀ el m, 0 ≤ el → el < L → -L < m → m < L →
      fban (N - 1 + n) el (m + L - 1) = V n el m)
      (fun n a b => by omega) ?_
    intro k fban k0 k1 ih
    obtain ⟨out, e, ho⟩ := h k k0 k1
    refine ⟨_, by rw [e]; rfl, ?_⟩
    intro n n0 n1 el m a b d d'
    unfold setPlane
    by_cases hn : n = k
    · subst hn
      rw [if_pos rfl, ← ho el m a b d d']
      simp only [Nd.get2]
      congr 1
      exact negOne_absC n
    · rw [if_neg (by omega)]
      exact ih n n0 (by omega) el m a b d d'
  refine ⟨flmn, e1, fun n el m hn a b d d' => ?_⟩
  rw [abs_lt] at hn
  unfold wigMirrorAll
  by_cases hr : reality = true ∧ 0 ≤ N - 1 + n ∧ N - 1 + n < N - 1
  · rw [if_pos hr, show N - 1 - (N - 1 + n) = -n by ring]
    have hz : wigStart N reality = 0 := by unfold wigStart; rw [if_pos hr.1]
    rw [wigMirror_eq (hfl (-n) (by omega) (by omega)) a b d d', neg_neg]
    unfold mirrored
    rw [if_pos ⟨hr.1, by omega⟩]
  · rw [if_neg hr]
    have hn0 : ¬ (reality = true ∧ n < 0) := fun h => hr ⟨h.1, by omega, by omega⟩
    unfold mirrored
    rw [if_neg hn0]
    refine hfl n ?_ hn.2 el m a b d d'
    unfold wigStart
    cases reality
    · rw [if_neg Bool.false_ne_true]; omega
    · rw [if_pos rfl]
      by_contra hneg
      exact hn0 ⟨rfl, by omega⟩

/-- Completing coefficients that are those of a real signal changes nothing. -/
theorem mirrored_real {c : ℤ → ℤ → ℤ → ℂ} {lo' : ℤ} (reality : Bool)
    (hc : reality = true → RealWigner c lo L) (hlo : lo ≤ lo') {n el m : ℤ} (b : el < L) :
    mirrored reality (fun n el m => if max |n| lo' ≤ el ∧ |m| ≤ el then c n el m * wigW el else 0)
        n el m
      = if max |n| lo' ≤ el ∧ |m| ≤ el then c n el m * wigW el else 0 := by
  unfold mirrored
  by_cases h1 : reality = true ∧ n < 0
  · rw [if_pos h1]
    beta_reduce
    rw [abs_neg, abs_neg]
    by_cases h3 : max |n| lo' ≤ el ∧ |m| ≤ el
    · rw [if_pos h3, if_pos h3]
      have h5 := hc h1.1 (-n) el (-m) (by have := le_max_right |n| lo'; omega) b
        (by rw [abs_neg]; exact h3.2)
      rw [neg_neg, neg_neg, show -m + -n = -(m + n) by ring, neg_one_zpow_neg] at h5
      rw [h5, map_mul, Complex.conj_ofReal]
      ring
    · rw [if_neg h3, if_neg h3, map_zero, mul_zero]
  · rw [if_neg h1]

/-- For real rings conjugate symmetry already holds. -/
theorem symm_realRings {τ : Scheme} {nt : ℤ} {f : ℤ → ℤ → ℂ} (h : RealRings τ L nside nt f)
    (θ w : ℤ → ℝ) (r : Bool) (el m : ℤ) :
    symm r (fAt (ringSum τ L nside f) 0 nt θ w el) m = fAt (ringSum τ L nside f) 0 nt θ w el m := by
  unfold symm
  split_ifs with hc
  · unfold fAt
    rw [map_sum, Finset.mul_sum]
    refine Finset.sum_congr rfl fun t ht => ?_
    rw [Finset.mem_Ico] at ht
    have hA : (starRingEnd ℂ) (ringSum τ L nside f t (-m)) = ringSum τ L nside f t m := by
      unfold ringSum
      rw [map_sum]
      refine Finset.sum_congr rfl fun p hp => ?_
      rw [Finset.mem_Ico] at hp
      rw [map_mul, Complex.conj_eq_iff_im.2 (h t p ht.1 ht.2 hp.1 hp.2), conj_cis]
      congr 2; push_cast; ring
    have hd : wignerd el (-m) (-0) (θ t) = (-1) ^ m * wignerd el m (-0) (θ t) := by
      have := wignerd_neg_neg el m 0 (θ t)
      rw [add_zero] at this
      rw [this, neg_zero]
    rw [map_mul, hA, hd]
    simp only [zpow_zero, mul_one, map_mul, Complex.conj_ofReal, Complex.ofReal_mul,
      Complex.ofReal_zpow, Complex.ofReal_neg, Complex.ofReal_one, map_zpow₀, map_neg, map_one]
    have h2 := neg_one_zpow_sq m
    linear_combination (w t * elfactor el * wignerd el m (-0) (θ t)
      * ringSum τ L nside f t m : ℂ) * h2
  · rfl

end

end S2fft
