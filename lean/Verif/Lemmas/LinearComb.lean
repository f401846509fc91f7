import Verif.Spec.Linear
import Verif.Lemmas.StableWigner
import Verif.Props.C27

/-! # Linear combinations through the resampling, the forward sums and the expansions -/

namespace S2fft
open Spec

/-! ## Arrays -/

theorem comb_shape (a b : ℂ) (x y : Nd ℂ) : (comb a b x y).shape = x.shape := by
  cases x <;> cases y <;> rfl

theorem Nd.eq_d3 {α : Type*} {x : Nd α} {p r c : ℤ} (hp : 0 < p) (h : x.shape = [p, r, c]) :
    ∃ v, x = .d3 p r c v := by
  cases x with
  | d1 n v => simp [Nd.shape] at h
  | d2 r' c' v => simp [Nd.shape] at h
  | d3 p' r' c' v =>
    simp only [Nd.shape, List.cons.injEq, and_true] at h
    exact ⟨v, by rw [h.1, h.2.1, h.2.2]⟩
  | other k =>
    simp only [Nd.shape] at h
    have : p = 0 := List.eq_of_mem_replicate (h ▸ List.mem_cons_self : p ∈ List.replicate k 0)
    omega

section
variable {σ : Scheme} {L ns : ℤ} (hv : σ.Valid L ns) (a b : ℂ)
include hv

theorem comb_get2 {x y : Nd ℂ} (hx : x.shape = σ.shape L ns) (hy : y.shape = σ.shape L ns) :
    (comb a b x y).get2 = fun i j => a * x.get2 i j + b * y.get2 i j := by
  have hL := hv.1
  by_cases hh : σ = .healpix
  · subst hh
    have hn : 0 < 12 * ns ^ 2 := by have := hv.2 rfl; positivity
    obtain ⟨u, rfl⟩ := Nd.eq_d1 hn hx
    obtain ⟨v, rfl⟩ := Nd.eq_d1 hn hy
    rfl
  · have hs : σ.shape L ns = [σ.rings L ns, σ.ringLen L ns 0] := by
      cases σ <;> first | rfl | exact absurd rfl hh
    have hr : 0 < σ.rings L ns := by
      cases σ <;> simp only [Scheme.rings] <;> first | omega | exact absurd rfl hh
    rw [hs] at hx hy
    obtain ⟨u, rfl⟩ := Nd.eq_d2 hr hx
    obtain ⟨v, rfl⟩ := Nd.eq_d2 hr hy
    rfl

theorem comb_get3 {N : ℤ} (hN : 1 ≤ N) {x y : Nd ℂ} (hx : x.shape = (2 * N - 1) :: σ.shape L ns)
    (hy : y.shape = (2 * N - 1) :: σ.shape L ns) :
    (comb a b x y).get3 = fun g i j => a * x.get3 g i j + b * y.get3 g i j := by
  have hL := hv.1
  by_cases hh : σ = .healpix
  · subst hh
    obtain ⟨u, rfl⟩ := Nd.eq_d2 (by omega) hx
    obtain ⟨v, rfl⟩ := Nd.eq_d2 (by omega) hy
    rfl
  · have hs : σ.shape L ns = [σ.rings L ns, σ.ringLen L ns 0] := by
      cases σ <;> first | rfl | exact absurd rfl hh
    rw [hs] at hx hy
    obtain ⟨u, rfl⟩ := Nd.eq_d3 (by omega) hx
    obtain ⟨v, rfl⟩ := Nd.eq_d3 (by omega) hy
    rfl

end

/-! ## The resampling -/

section
variable (a b : ℂ)

theorem fft_lin (n : ℤ) (x y : ℤ → ℂ) :
    fft n (fun i => a * x i + b * y i) = fun k => a * fft n x k + b * fft n y k := by
  funext k
  simp only [fft_eq, add_mul, Finset.sum_add_distrib, Finset.mul_sum, mul_assoc]

theorem fft_fwd_lin (n : ℤ) (x y : ℤ → ℂ) :
    fft_fwd n (fun i => a * x i + b * y i) = fun k => a * fft_fwd n x k + b * fft_fwd n y k := by
  funext k; unfold fft_fwd; rw [fft_lin]; ring

theorem ifft_fwd_lin (n : ℤ) (x y : ℤ → ℂ) :
    ifft_fwd n (fun i => a * x i + b * y i) = fun k => a * ifft_fwd n x k + b * ifft_fwd n y k := by
  funext k
  simp only [ifft_fwd_eq, add_mul, Finset.sum_add_distrib, Finset.mul_sum, mul_assoc]

theorem ifft_lin (n : ℤ) (x y : ℤ → ℂ) :
    ifft n (fun i => a * x i + b * y i) = fun k => a * ifft n x k + b * ifft n y k := by
  funext k; unfold ifft; rw [ifft_fwd_lin]; ring

theorem fftshift_lin (n : ℤ) (x y : ℤ → ℂ) :
    fftshift n (fun i => a * x i + b * y i) = fun k => a * fftshift n x k + b * fftshift n y k := rfl

theorem ifftshift_lin (n : ℤ) (x y : ℤ → ℂ) :
    ifftshift n (fun i => a * x i + b * y i) = fun k => a * ifftshift n x k + b * ifftshift n y k := rfl

theorem ite_lin_zero (p : Prop) [Decidable p] (x y : ℂ) :
    (if p then a * x + b * y else 0) = a * (if p then x else 0) + b * (if p then y else 0) := by
  split_ifs <;> simp

theorem extensionRows_lin (L nt np off : ℤ) (f g : ℤ → ℤ → ℤ → ℂ) (spin : ℤ → ℤ) :
    extensionRows L nt np off (fun c t p => a * f c t p + b * g c t p) spin
      = fun c t j => a * extensionRows L nt np off f spin c t j
        + b * extensionRows L nt np off g spin c t j := by
  unfold extensionRows
  simp only [ite_lin_zero, fft_lin, fftshift_lin]
  funext c t j
  split_ifs <;> ring

theorem mwssThetaRows_lin (f g : ℤ → ℤ → ℤ → ℂ) (L : ℤ) :
    mwssThetaRows (fun c t p => a * f c t p + b * g c t p) L
      = fun c p j => a * mwssThetaRows f L c p j + b * mwssThetaRows g L c p j := by
  unfold mwssThetaRows
  simp only [fft_fwd_lin, fftshift_lin]
  funext c p j
  split_ifs <;> ring

theorem mw_to_mwss_phi_lin (f g : ℤ → ℤ → ℤ → ℂ) (L : ℤ) :
    mw_to_mwss_phi (fun c t p => a * f c t p + b * g c t p) L
      = fun c t p => a * mw_to_mwss_phi f L c t p + b * mw_to_mwss_phi g L c t p := by
  unfold mw_to_mwss_phi
  simp only [fft_fwd_lin, fftshift_lin, ite_lin_zero, ifft_fwd_lin, ifftshift_lin]

theorem mwssValues_lin (f g : ℤ → ℤ → ℤ → ℂ) (L : ℤ) (spin : ℤ → ℤ) :
    mwssValues (fun c t p => a * f c t p + b * g c t p) L spin
      = fun c t p => a * mwssValues f L spin c t p + b * mwssValues g L spin c t p := by
  unfold mwssValues
  simp only [extensionRows_lin, ifftshift_lin, ifft_lin, mwssThetaRows_lin, ifft_fwd_lin,
    mw_to_mwss_phi_lin]

theorem upsampleValues_lin (f g : ℤ → ℤ → ℤ → ℂ) (L : ℤ) (spin : ℤ → ℤ) :
    upsampleValues (fun c t p => a * f c t p + b * g c t p) L spin
      = fun c t p => a * upsampleValues f L spin c t p + b * upsampleValues g L spin c t p := by
  have h : periodic_extension_spatial_mwss (fun c t p => a * f c t p + b * g c t p) L spin
      = fun c t p => a * periodic_extension_spatial_mwss f L spin c t p
        + b * periodic_extension_spatial_mwss g L spin c t p := by
    unfold periodic_extension_spatial_mwss
    funext c t p
    split_ifs
    · rfl
    · rw [fftshift_lin]; ring
  unfold upsampleValues
  rw [h]
  unfold upsample_by_two_mwss_ext
  simp only [fft_fwd_lin, fftshift_lin, ite_lin_zero, ifft_fwd_lin, ifftshift_lin]

theorem innerSignal_lin (σ : Scheme) (L spin : ℤ) (f g : ℤ → ℤ → ℂ) :
    innerSignal σ L spin (fun t p => a * f t p + b * g t p)
      = fun t p => a * innerSignal σ L spin f t p + b * innerSignal σ L spin g t p := by
  cases σ with
  | mw =>
    simp only [innerSignal]
    rw [mwssValues_lin a b (fun _ => f) (fun _ => g)]
    exact congrFun (upsampleValues_lin a b (fun _ => mwssValues (fun _ => f) L (fun _ => spin) 0)
      (fun _ => mwssValues (fun _ => g) L (fun _ => spin) 0) L (fun _ => spin)) 0
  | mwss => exact congrFun (upsampleValues_lin a b (fun _ => f) (fun _ => g) L (fun _ => spin)) 0
  | dh => rfl
  | gl => rfl
  | healpix => rfl

/-! ## The forward sums -/

theorem ringSum_lin (σ : Scheme) (L nside : ℤ) (f g : ℤ → ℤ → ℂ) :
    ringSum σ L nside (fun t p => a * f t p + b * g t p)
      = fun t m => a * ringSum σ L nside f t m + b * ringSum σ L nside g t m := by
  funext t m
  simp only [ringSum, add_mul, Finset.sum_add_distrib, Finset.mul_sum, mul_assoc]

theorem fAt_lin (A B : ℤ → ℤ → ℂ) (spin nt : ℤ) (α w : ℤ → ℝ) (el m : ℤ) :
    fAt (fun t m => a * A t m + b * B t m) spin nt α w el m
      = a * fAt A spin nt α w el m + b * fAt B spin nt α w el m := by
  simp only [fAt, mul_add, Finset.sum_add_distrib, Finset.mul_sum]
  congr 1 <;> exact Finset.sum_congr rfl fun t _ => by ring

theorem symm_lin {reality : Bool} (h : reality = true → a.im = 0 ∧ b.im = 0) (u v : ℤ → ℂ) (m : ℤ) :
    symm reality (fun m => a * u m + b * v m) m = a * symm reality u m + b * symm reality v m := by
  unfold symm
  split_ifs with hr
  · obtain ⟨ha, hb⟩ := h hr.1
    rw [map_add, map_mul, map_mul, Complex.conj_eq_iff_im.2 ha, Complex.conj_eq_iff_im.2 hb]
    ring
  · rfl

theorem forward_lin {reality : Bool} (h : reality = true → a.im = 0 ∧ b.im = 0) (σ : Scheme)
    (L ns spin nt : ℤ) (α w : ℤ → ℝ) (f g : ℤ → ℤ → ℂ) (el m : ℤ) :
    symm reality (fAt (ringSum σ.inner L ns
        (innerSignal σ L spin (fun i j => a * f i j + b * g i j))) spin nt α w el) m
      = a * symm reality (fAt (ringSum σ.inner L ns (innerSignal σ L spin f)) spin nt α w el) m
        + b * symm reality (fAt (ringSum σ.inner L ns (innerSignal σ L spin g)) spin nt α w el) m := by
  rw [← symm_lin a b h, innerSignal_lin, ringSum_lin]
  congr 1
  funext m
  rw [fAt_lin]

theorem realRings_lin (h : a.im = 0 ∧ b.im = 0) {σ : Scheme} {L ns nt spin : ℤ} {f g : ℤ → ℤ → ℂ}
    (hf : RealRings σ.inner L ns nt (innerSignal σ L spin f))
    (hg : RealRings σ.inner L ns nt (innerSignal σ L spin g)) :
    RealRings σ.inner L ns nt (innerSignal σ L spin (fun i j => a * f i j + b * g i j)) := by
  intro t p t0 t1 p0 p1
  rw [innerSignal_lin]
  have e1 := hf t p t0 t1 p0 p1
  have e2 := hg t p t0 t1 p0 p1
  simp [Complex.mul_im, h.1, h.2, e1, e2]

theorem realInput_lin (h : a.im = 0 ∧ b.im = 0) {nodes : ℤ → ℤ → ℝ} {σ : Scheme} {L ns : ℤ}
    {f g : ℤ → ℤ → ℂ} (hf : RealInput nodes σ L ns f) (hg : RealInput nodes σ L ns g) :
    RealInput nodes σ L ns (fun i j => a * f i j + b * g i j) := by
  unfold RealInput at hf hg ⊢
  split_ifs at hf hg ⊢
  · obtain ⟨F, h1, h2, h3⟩ := hf
    obtain ⟨H, g1, g2, g3⟩ := hg
    have hs : ∀ θ φ, sphSignal L L (fun m k => a * F m k + b * H m k) θ φ
        = a * sphSignal L L F θ φ + b * sphSignal L L H θ φ := by
      intro θ φ
      simp only [sphSignal, trigPoly, Finset.mul_sum, Finset.sum_mul, ← Finset.sum_add_distrib]
      refine Finset.sum_congr rfl fun m _ => Finset.sum_congr rfl fun k _ => ?_
      ring
    refine ⟨fun m k => a * F m k + b * H m k, ?_, ?_, ?_⟩
    · intro m k
      beta_reduce
      rw [h1 m k, g1 m k]
      ring
    · intro θ φ
      rw [hs]
      simp [Complex.mul_im, h.1, h.2, h2 θ φ, g2 θ φ]
    · intro t p ht
      beta_reduce
      rw [hs, h3 t p ht, g3 t p ht]
  · intro t p ht
    have e1 := hf t p ht
    have e2 := hg t p ht
    simp [Complex.mul_im, h.1, h.2, e1, e2]

/-! ## The Wigner sums -/

theorem fban_lin {reality : Bool} (hr : reality = true → a.im = 0 ∧ b.im = 0)
    (f h : ℤ → ℤ → ℤ → ℂ) (N : ℤ) (k : ℤ) :
    wignerBaseFban (fun g i j => a * f g i j + b * h g i j) N reality k
      = fun i j => a * wignerBaseFban f N reality k i j + b * wignerBaseFban h N reality k i j := by
  funext i j
  unfold wignerBaseFban fftshift rfft
  split_ifs with hR
  · obtain ⟨ha, hb⟩ := hr hR
    have e : (fun g => (((a * f g i j + b * h g i j).re : ℝ) : ℂ))
        = fun g => a * (((f g i j).re : ℝ) : ℂ) + b * (((h g i j).re : ℝ) : ℂ) := by
      funext g
      apply Complex.ext <;> simp [ha, hb]
    rw [e, fft_lin]
    ring
  · rw [fft_lin]
    ring

theorem planeOf_lin (s : List ℤ) (x y : ℤ → ℤ → ℂ) :
    (planeOf s (fun i j => a * x i j + b * y i j)).get2
      = fun i j => a * (planeOf s x).get2 i j + b * (planeOf s y).get2 i j := by
  unfold planeOf
  split
  · rfl
  · rfl
  · funext i j
    simp [Nd.get2]

theorem wigRings_lin {reality : Bool} (hr : reality = true → a.im = 0 ∧ b.im = 0) (σ : Scheme)
    (L N : ℤ) (nside : Option ℤ) {f g h : Nd ℂ}
    (e : h.get3 = fun k i j => a * f.get3 k i j + b * g.get3 k i j) (n : ℤ) :
    wigRings σ L N nside h reality n = fun i j => a * wigRings σ L N nside f reality n i j
      + b * wigRings σ L N nside g reality n i j := by
  unfold wigRings
  rw [e, fban_lin a b hr, planeOf_lin, innerSignal_lin]

theorem wigForward_lin {reality : Bool} (hr : reality = true → a.im = 0 ∧ b.im = 0) (σ : Scheme)
    (L N lo : ℤ) (nside : Option ℤ) (T : GlTables) {f g h : Nd ℂ}
    (e : h.get3 = fun k i j => a * f.get3 k i j + b * g.get3 k i j) (θ : ℤ → ℝ) (n el m : ℤ) :
    mirrored reality (wigFwdVal σ L N lo nside T h reality θ) n el m
      = a * mirrored reality (wigFwdVal σ L N lo nside T f reality θ) n el m
        + b * mirrored reality (wigFwdVal σ L N lo nside T g reality θ) n el m := by
  have key : ∀ n m, wigFwdVal σ L N lo nside T h reality θ n el m
      = a * wigFwdVal σ L N lo nside T f reality θ n el m
        + b * wigFwdVal σ L N lo nside T g reality θ n el m := by
    intro n m
    unfold wigFwdVal
    rw [wigRings_lin a b hr σ L N nside e, ringSum_lin, fAt_lin]
    split_ifs <;> ring
  unfold mirrored
  split_ifs with hR
  · obtain ⟨ha, hb⟩ := hr hR.1
    rw [key, map_add, map_mul, map_mul, Complex.conj_eq_iff_im.2 ha, Complex.conj_eq_iff_im.2 hb]
    ring
  · exact key n m

/-! ## The expansions -/

theorem harmonicSum_lin (lo L spin : ℤ) (c d : ℤ → ℤ → ℂ) (θ φ : ℝ) :
    harmonicSum lo L spin (fun l m => a * c l m + b * d l m) θ φ
      = a * harmonicSum lo L spin c θ φ + b * harmonicSum lo L spin d θ φ := by
  simp only [harmonicSum, add_mul, Finset.sum_add_distrib, Finset.mul_sum, mul_assoc]

theorem wignerSum_lin (lo L N : ℤ) (c d : ℤ → ℤ → ℤ → ℂ) (α β γ : ℝ) :
    wignerSum lo L N (fun n l m => a * c n l m + b * d n l m) α β γ
      = a * wignerSum lo L N c α β γ + b * wignerSum lo L N d α β γ := by
  simp only [wignerSum, Finset.mul_sum, ← Finset.sum_add_distrib]
  refine Finset.sum_congr rfl fun n _ => Finset.sum_congr rfl fun l _ => Finset.sum_congr rfl fun m _ => ?_
  ring

theorem coeffs_lin {reality : Bool} {spin : ℤ}
    (hr : reality = true → spin = 0 → a.im = 0 ∧ b.im = 0) (L : ℤ) (c d : ℤ → ℤ → ℂ) :
    coeffs (fun l k => a * c l k + b * d l k) L spin reality
      = fun l m => a * coeffs c L spin reality l m + b * coeffs d L spin reality l m := by
  unfold coeffs
  split_ifs with h
  · obtain ⟨ha, hb⟩ := hr h.1 h.2
    funext l m
    unfold realCoeffs
    split_ifs
    · rw [map_add, map_mul, map_mul, Complex.conj_eq_iff_im.2 ha, Complex.conj_eq_iff_im.2 hb]
      ring
    · rfl
  · rfl

theorem wignerCoeffs_lin {reality : Bool} (hr : reality = true → a.im = 0 ∧ b.im = 0) (L N : ℤ)
    (c d : ℤ → ℤ → ℤ → ℂ) :
    wignerCoeffs (fun n l k => a * c n l k + b * d n l k) L N reality
      = fun n l m => a * wignerCoeffs c L N reality n l m + b * wignerCoeffs d L N reality n l m := by
  unfold wignerCoeffs
  split_ifs with h
  · obtain ⟨ha, hb⟩ := hr h
    funext n l m
    unfold realWignerCoeffs
    split_ifs
    · rw [map_add, map_mul, map_mul, Complex.conj_eq_iff_im.2 ha, Complex.conj_eq_iff_im.2 hb]
      ring
    · rfl
  · rfl

theorem realOrderZero_lin {reality : Bool} {spin L lo : ℤ}
    (hr : reality = true → spin = 0 → a.im = 0 ∧ b.im = 0) {c d : ℤ → ℤ → ℂ}
    (hc : RealOrderZero c L spin reality lo) (hd : RealOrderZero d L spin reality lo) :
    RealOrderZero (fun l k => a * c l k + b * d l k) L spin reality lo := by
  intro h1 h2 el e0 e1
  have i1 := hc h1 h2 el e0 e1
  have i2 := hd h1 h2 el e0 e1
  simp [Complex.mul_im, hr h1 h2, i1, i2]

theorem realOrigin_lin {reality : Bool} {N L lo : ℤ}
    (hr : reality = true → a.im = 0 ∧ b.im = 0) {c d : ℤ → ℤ → ℤ → ℂ}
    (hc : RealOrigin c L N reality lo) (hd : RealOrigin d L N reality lo) :
    RealOrigin (fun n l k => a * c n l k + b * d n l k) L N reality lo := by
  intro h1 el e0 e1
  have i1 := hc h1 el e0 e1
  have i2 := hd h1 el e0 e1
  simp [Complex.mul_im, hr h1, i1, i2]

theorem realHarmonics_lin {L lo : ℤ} (h : a.im = 0 ∧ b.im = 0) {c d : ℤ → ℤ → ℂ}
    (hc : RealHarmonics c lo L) (hd : RealHarmonics d lo L) :
    RealHarmonics (fun l m => a * c l m + b * d l m) lo L := by
  intro l m h0 h1 h2
  beta_reduce
  rw [hc l m h0 h1 h2, hd l m h0 h1 h2, map_add, map_mul, map_mul, Complex.conj_eq_iff_im.2 h.1,
    Complex.conj_eq_iff_im.2 h.2]
  ring

theorem wigRings_real_lin (h : a.im = 0 ∧ b.im = 0) {σ : Scheme} {L N ns nt : ℤ} {nside : Option ℤ}
    {f g k : Nd ℂ} (e : k.get3 = fun c i j => a * f.get3 c i j + b * g.get3 c i j)
    (hf : RealRings σ.inner L ns nt (wigRings σ L N nside f true 0))
    (hg : RealRings σ.inner L ns nt (wigRings σ L N nside g true 0)) :
    RealRings σ.inner L ns nt (wigRings σ L N nside k true 0) := by
  intro t p t0 t1 p0 p1
  rw [wigRings_lin a b (fun _ => h) σ L N nside e]
  have e1 := hf t p t0 t1 p0 p1
  have e2 := hg t p t0 t1 p0 p1
  simp [Complex.mul_im, h.1, h.2, e1, e2]

end

/-- The base inverse at the angles the recursion works with. -/
theorem baseInverse_snapped (G : GlTables) (σ : Scheme) (L spin lo : ℤ) (nside : Option ℤ)
    (hv : σ.Valid L (nside.getD 0))
    (method : PyStr) (hmt : method ∈ [bDirect, bSov, bSovFft, bVec])
    (hhp : method = bSovFft ∨ method = bVec → σ = .healpix → 2 * nside.getD 0 ≤ L)
    (h0 : 0 ≤ lo) (h1 : lo < L) (flm : ℤ → ℤ → ℂ) (reality : Bool)
    (hre : method = bSovFft ∨ method = bVec → RealOrderZero flm L spin reality lo) :
    ∃ f, baseInverseWith G (.d2 L (2 * L - 1) flm) L spin σ.name method nside reality lo = .ok f ∧
      f.shape = σ.shape L (nside.getD 0) ∧ ∀ t p, σ.Has L (nside.getD 0) t p →
      f.get2 (σ.pos (nside.getD 0) t p).1 (σ.pos (nside.getD 0) t p).2
        = harmonicSum lo L spin (coeffs flm L spin reality)
            (snapAngle (σ.theta G.nodes L (nside.getD 0) t)) (σ.phi L (nside.getD 0) t p) := by
  obtain ⟨out, e, hs, hf⟩ := baseInverseWith_values G (lower_name σ) (method := method)
    hmt (fun _ => mOffset_name σ) (spin := spin) hv hhp flm reality h0 h1 hre
  refine ⟨out, e, hs, fun t p h => ?_⟩
  rw [hf t p h, synth_gVal_harmonic flm _ h0 hv.1 (by
    split_ifs with h
    · intro h'; cases h'
    · intro h'; by_contra hne; exact h ⟨h', hne⟩)]
  congr 1
  unfold coeffs
  by_cases a : reality = true <;> by_cases b : spin = 0 <;> simp [a, b]

end S2fft
