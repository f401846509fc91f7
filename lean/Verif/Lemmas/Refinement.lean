import Verif.Spec.Refinement
import Verif.Lemmas.LeastSquares

/-! # Convergence of iterative refinement -/

namespace S2fft
open Spec

/-- A pair of transforms on a grid that is not resampled: synthesis of the expansion and its adjoint,
with the rings at the angles `θ`. -/
structure PlainPair (σ : Scheme) (L ns s lo : ℤ) (θ w : ℤ → ℝ)
    (bwd fwd : Nd ℂ → Except PyErr (Nd ℂ)) : Prop where
  inv : ∀ c : ℤ → ℤ → ℂ, (∀ el k, lo ≤ el → el < |s| → el < L → 0 ≤ k → k < 2 * L - 1 → c el k = 0) →
    ∃ F, bwd (.d2 L (2 * L - 1) c) = .ok F ∧ F.shape = σ.shape L ns ∧
      ∀ t p, σ.Has L ns t p → F.get2 (σ.pos ns t p).1 (σ.pos ns t p).2
        = harmonicSum lo L s (fun l m => c l (m + L - 1)) (θ t) (σ.phi L ns t p)
  fwd : ∀ f : Nd ℂ, f.shape = σ.shape L ns → ∃ g, fwd f = .ok (.d2 L (2 * L - 1) g) ∧
    ∀ el m, 0 ≤ el → el < L → -L < m → m < L → g el (m + L - 1)
      = if el < max |s| lo then 0
        else fAt (ringSum σ L ns f.get2) s (σ.rings L ns) θ w el m

/-- Analysis of the values `v t p` on the grid. -/
noncomputable def gridAn (σ : Scheme) (L ns s : ℤ) (θ w : ℤ → ℝ) (v : ℤ → ℤ → ℂ) (el m : ℤ) : ℂ :=
  gridSum σ L ns fun t p => w t * v t p * (starRingEnd ℂ) (sYlm s el m (θ t) (σ.phi L ns t p))

section
variable {σ : Scheme} {L ns s lo : ℤ} {θ w : ℤ → ℝ}

theorem gridAn_add (u v : ℤ → ℤ → ℂ) (el m : ℤ) :
    gridAn σ L ns s θ w (fun t p => u t p + v t p) el m
      = gridAn σ L ns s θ w u el m + gridAn σ L ns s θ w v el m := by
  unfold gridAn gridSum
  simp only [← Finset.sum_add_distrib]
  exact Finset.sum_congr rfl fun _ _ => Finset.sum_congr rfl fun _ _ => by ring

theorem gridAn_sub (u v : ℤ → ℤ → ℂ) (el m : ℤ) :
    gridAn σ L ns s θ w (fun t p => u t p - v t p) el m
      = gridAn σ L ns s θ w u el m - gridAn σ L ns s θ w v el m := by
  unfold gridAn gridSum
  simp only [← Finset.sum_sub_distrib]
  exact Finset.sum_congr rfl fun _ _ => Finset.sum_congr rfl fun _ _ => by ring

theorem gridAn_smul (a : ℂ) (v : ℤ → ℤ → ℂ) (el m : ℤ) :
    gridAn σ L ns s θ w (fun t p => a * v t p) el m = a * gridAn σ L ns s θ w v el m := by
  unfold gridAn gridSum
  simp only [Finset.mul_sum]
  exact Finset.sum_congr rfl fun _ _ => Finset.sum_congr rfl fun _ _ => by ring

theorem gridAn_congr {u v : ℤ → ℤ → ℂ} (h : ∀ t p, σ.Has L ns t p → u t p = v t p) (el m : ℤ) :
    gridAn σ L ns s θ w u el m = gridAn σ L ns s θ w v el m :=
  gridSum_congr fun t p ht => by rw [h t p ht]

theorem fAt_gridAn (f : ℤ → ℤ → ℂ) (el m : ℤ) :
    fAt (ringSum σ L ns f) s (σ.rings L ns) θ w el m
      = gridAn σ L ns s θ w (fun t p => f (σ.pos ns t p).1 (σ.pos ns t p).2) el m :=
  fAt_ringSum el m

theorem map2_sub_eq (x y : Nd ℂ) : Nd.map2 (fun a b => a - b) x y = comb 1 (-1) x y := by
  cases x <;> cases y <;> simp [Nd.map2, comb, sub_eq_add_neg]

theorem map2_get2 (hv : σ.Valid L ns) {x y : Nd ℂ} (hx : x.shape = σ.shape L ns)
    (hy : y.shape = σ.shape L ns) :
    (Nd.map2 (fun a b => a - b) x y).get2 = fun i j => x.get2 i j - y.get2 i j := by
  rw [map2_sub_eq, comb_get2 hv _ _ hx hy]
  funext i j
  ring

/-- The expansion of coefficients that vanish below `lo'`. -/
theorem harmonicSum_from {lo lo' : ℤ} (h : lo ≤ lo') {c d : ℤ → ℤ → ℂ}
    (hc : ∀ l m, lo ≤ l → l < lo' → l < L → |m| ≤ l → c l m = 0)
    (hd : ∀ l m, lo' ≤ l → l < L → |m| ≤ l → c l m = d l m) (x y : ℝ) :
    harmonicSum lo L s c x y = harmonicSum lo' L s d x y := by
  unfold harmonicSum
  symm
  refine Finset.sum_subset_zero_on_sdiff (fun l hl => ?_) (fun l hl => ?_) (fun l hl => ?_)
  · rw [Finset.mem_Ico] at hl ⊢
    omega
  · rw [Finset.mem_sdiff, Finset.mem_Ico, Finset.mem_Ico] at hl
    refine Finset.sum_eq_zero fun m hm => ?_
    rw [Finset.mem_Ico] at hm
    rw [hc l m hl.1.1 (by omega) hl.1.2 (by rw [abs_le]; omega), zero_mul]
  · rw [Finset.mem_Ico] at hl
    refine Finset.sum_congr rfl fun m hm => ?_
    rw [Finset.mem_Ico] at hm
    rw [hd l m hl.1 hl.2 (by rw [abs_le]; omega)]

theorem coeffEnergy_congr {lo L : ℤ} {c d : ℤ → ℤ → ℂ}
    (h : ∀ l m, lo ≤ l → l < L → |m| ≤ l → c l m = d l m) :
    coeffEnergy lo L c = coeffEnergy lo L d := by
  unfold coeffEnergy
  refine Finset.sum_congr rfl fun l hl => Finset.sum_congr rfl fun m hm => ?_
  rw [Finset.mem_Ico] at hl hm
  rw [h l m hl.1 hl.2 (by rw [abs_le]; omega)]

/-- The values of an expansion on the grid. -/
noncomputable def gridHarm (σ : Scheme) (L ns s lo : ℤ) (θ : ℤ → ℝ) (a : ℤ → ℤ → ℂ) (t p : ℤ) : ℂ :=
  harmonicSum lo L s a (θ t) (σ.phi L ns t p)

theorem gridHarm_add (a b : ℤ → ℤ → ℂ) (t p : ℤ) :
    gridHarm σ L ns s lo θ (fun l m => a l m + b l m) t p
      = gridHarm σ L ns s lo θ a t p + gridHarm σ L ns s lo θ b t p := by
  unfold gridHarm
  have := harmonicSum_lin 1 1 lo L s a b (θ t) (σ.phi L ns t p)
  simpa using this

theorem gridHarm_sub (a b : ℤ → ℤ → ℂ) (t p : ℤ) :
    gridHarm σ L ns s lo θ (fun l m => a l m - b l m) t p
      = gridHarm σ L ns s lo θ a t p - gridHarm σ L ns s lo θ b t p := by
  unfold gridHarm
  have := harmonicSum_lin 1 (-1) lo L s a b (θ t) (σ.phi L ns t p)
  simpa [sub_eq_add_neg] using this

theorem gridHarm_smul (x : ℂ) (a : ℤ → ℤ → ℂ) (t p : ℤ) :
    gridHarm σ L ns s lo θ (fun l m => x * a l m) t p = x * gridHarm σ L ns s lo θ a t p := by
  unfold gridHarm
  have := harmonicSum_lin x 0 lo L s a a (θ t) (σ.phi L ns t p)
  simpa using this

theorem gridHarm_congr {a b : ℤ → ℤ → ℂ} (h : ∀ l m, lo ≤ l → l < L → |m| ≤ l → a l m = b l m)
    (t p : ℤ) : gridHarm σ L ns s lo θ a t p = gridHarm σ L ns s lo θ b t p :=
  harmonicSum_from le_rfl (fun l m h1 h2 => absurd h1 (by omega)) h _ _

/-- The round trip. -/
noncomputable def gridTrip (σ : Scheme) (L ns s lo : ℤ) (θ w : ℤ → ℝ) (a : ℤ → ℤ → ℂ) :
    ℤ → ℤ → ℂ :=
  gridAn σ L ns s θ w (gridHarm σ L ns s lo θ a)

theorem gridTrip_sub (a b : ℤ → ℤ → ℂ) (l m : ℤ) :
    gridTrip σ L ns s lo θ w (fun l m => a l m - b l m) l m
      = gridTrip σ L ns s lo θ w a l m - gridTrip σ L ns s lo θ w b l m := by
  unfold gridTrip
  rw [← gridAn_sub]
  congr 1
  funext t p
  exact gridHarm_sub a b t p

/-- The degrees and orders of the coefficients. -/
noncomputable def lmSet (lo L : ℤ) : Finset (ℤ × ℤ) :=
  (Finset.Ico lo L ×ˢ Finset.Ioo (-L) L).filter fun x => |x.2| ≤ x.1

theorem mem_lmSet {lo L l m : ℤ} : (l, m) ∈ lmSet lo L ↔ lo ≤ l ∧ l < L ∧ |m| ≤ l := by
  unfold lmSet
  rw [Finset.mem_filter, Finset.mem_product, Finset.mem_Ico, Finset.mem_Ioo]
  constructor
  · tauto
  · rintro ⟨h1, h2, h3⟩
    rw [abs_le] at h3
    exact ⟨⟨⟨h1, h2⟩, by dsimp; omega, by dsimp; omega⟩, abs_le.2 h3⟩

/-- Coefficients from a vector. -/
noncomputable def ofVec (lo L : ℤ) (v : lmSet lo L → ℂ) (l m : ℤ) : ℂ :=
  if h : (l, m) ∈ lmSet lo L then v ⟨(l, m), h⟩ else 0

/-- The round trip as a linear map. -/
noncomputable def tripMap (σ : Scheme) (L ns s lo : ℤ) (θ w : ℤ → ℝ) :
    (lmSet lo L → ℂ) →ₗ[ℂ] (lmSet lo L → ℂ) where
  toFun v := fun i => gridTrip σ L ns s lo θ w (ofVec lo L v) i.1.1 i.1.2
  map_add' u v := by
    funext i
    have h : ofVec lo L (u + v) = fun l m => ofVec lo L u l m + ofVec lo L v l m := by
      funext l m
      unfold ofVec
      split_ifs <;> simp
    simp only [Pi.add_apply, gridTrip, h]
    rw [← gridAn_add]
    congr 1
    funext t p
    exact gridHarm_add _ _ t p
  map_smul' x v := by
    funext i
    have h : ofVec lo L (x • v) = fun l m => x * ofVec lo L v l m := by
      funext l m
      unfold ofVec
      split_ifs <;> simp
    simp only [Pi.smul_apply, smul_eq_mul, gridTrip, h, RingHom.id_apply]
    rw [← gridAn_smul]
    congr 1
    funext t p
    exact gridHarm_smul _ _ t p

/-- A round trip with a relative error less than one can be inverted. -/
theorem trip_solve {δ : ℝ} (h0 : 0 ≤ δ) (h1 : δ < 1)
    (hδ : ∀ a, coeffEnergy lo L (fun l m => a l m - gridTrip σ L ns s lo θ w a l m)
      ≤ δ ^ 2 * coeffEnergy lo L a) (b : ℤ → ℤ → ℂ) :
    ∃ a : ℤ → ℤ → ℂ, ∀ l m, lo ≤ l → l < L → |m| ≤ l → gridTrip σ L ns s lo θ w a l m = b l m := by
  have hinj : Function.Injective (tripMap σ L ns s lo θ w) := by
    rw [injective_iff_map_eq_zero]
    intro v hv
    have hz : ∀ l m, lo ≤ l → l < L → |m| ≤ l → gridTrip σ L ns s lo θ w (ofVec lo L v) l m = 0 :=
      fun l m a b c => congrFun hv ⟨(l, m), mem_lmSet.2 ⟨a, b, c⟩⟩
    have h := hδ (ofVec lo L v)
    rw [coeffEnergy_congr (d := ofVec lo L v) fun l m a b c => by rw [hz l m a b c, sub_zero]] at h
    have hE : coeffEnergy lo L (ofVec lo L v) = 0 := by
      have := coeffEnergy_nonneg lo L (ofVec lo L v)
      have : δ ^ 2 < 1 := by nlinarith
      nlinarith
    rw [coeffEnergy_eq_zero] at hE
    funext i
    obtain ⟨⟨l, m⟩, hi⟩ := i
    obtain ⟨a, b, c⟩ := mem_lmSet.1 hi
    have := hE l m a b c
    unfold ofVec at this
    rwa [dif_pos hi] at this
  obtain ⟨v, hv⟩ := LinearMap.injective_iff_surjective.1 hinj fun i => b i.1.1 i.1.2
  exact ⟨ofVec lo L v, fun l m a b c => congrFun hv ⟨(l, m), mem_lmSet.2 ⟨a, b, c⟩⟩⟩

/-- The energy of a synthesized signal. -/
theorem harm_energy {δ : ℝ} (h0 : 0 ≤ δ) (h1 : δ < 1)
    (hδ : ∀ a, coeffEnergy lo L (fun l m => a l m - gridTrip σ L ns s lo θ w a l m)
      ≤ δ ^ 2 * coeffEnergy lo L a) {D : ℤ → ℤ → ℂ} {d : ℤ → ℤ → ℂ}
    (hD : ∀ t p, σ.Has L ns t p → D (σ.pos ns t p).1 (σ.pos ns t p).2
      = gridHarm σ L ns s lo θ d t p) :
    sampleEnergy σ L ns w D ≤ 2 * coeffEnergy lo L d := by
  have h := sampleInner_expansion (w := w) (f := D) hD
  rw [sampleInner_self] at h
  have h' := congrArg Complex.re h
  rw [Complex.ofReal_re] at h'
  rw [h']
  have hd := hδ d
  have hp := coeffEnergy_nonneg lo L d
  have key : (lmSum lo L fun l m => fAt (ringSum σ L ns D) s (σ.rings L ns) θ w l m
        * (starRingEnd ℂ) (d l m)).re
      ≤ coeffEnergy lo L d + (coeffEnergy lo L (fun l m => d l m - gridTrip σ L ns s lo θ w d l m)
        + coeffEnergy lo L d) / 2 := by
    unfold coeffEnergy lmSum
    rw [← Finset.sum_add_distrib, Finset.sum_div, ← Finset.sum_add_distrib, Complex.re_sum]
    refine Finset.sum_le_sum fun l hl => ?_
    rw [← Finset.sum_add_distrib, Finset.sum_div, ← Finset.sum_add_distrib, Complex.re_sum]
    refine Finset.sum_le_sum fun m hm => ?_
    beta_reduce
    have e : fAt (ringSum σ L ns D) s (σ.rings L ns) θ w l m = gridTrip σ L ns s lo θ w d l m := by
      rw [fAt_gridAn]
      exact gridAn_congr hD l m
    rw [e, ← Complex.normSq_eq_norm_sq, ← Complex.normSq_eq_norm_sq, Complex.normSq_apply,
      Complex.normSq_apply, Complex.mul_re, Complex.conj_re, Complex.conj_im, Complex.sub_re,
      Complex.sub_im]
    nlinarith [sq_nonneg (gridTrip σ L ns s lo θ w d l m).re,
      sq_nonneg (gridTrip σ L ns s lo θ w d l m).im,
      sq_nonneg ((gridTrip σ L ns s lo θ w d l m).re - 2 * (d l m).re),
      sq_nonneg ((gridTrip σ L ns s lo θ w d l m).im - 2 * (d l m).im)]
  have : δ ^ 2 ≤ 1 := by nlinarith
  nlinarith

/-- Analysis with refinement by a pair of transforms whose round trip is accurate. -/
theorem PlainPair.refines {bwd fwd : Nd ℂ → Except PyErr (Nd ℂ)} (hp : PlainPair σ L ns s lo θ w bwd fwd)
    (hv : σ.Valid L ns) (hlo : 0 ≤ lo) (hw : ∀ t, 0 ≤ t → t < σ.rings L ns → 0 < w t) {δ : ℝ}
    (h0 : 0 ≤ δ) (h1 : δ < 1) (hR : RoundTripWithin L (max |s| lo) δ bwd fwd) {f : Nd ℂ}
    (hf : f.shape = σ.shape L ns) :
    Refines σ L ns w (max |s| lo) δ bwd f
      fun n => refine f n fwd bwd (Nd.map2 fun a b => a - b) (Nd.map2 fun a b => a + b) := by
  have hL := hv.1
  have hs0 := abs_nonneg s
  set M := max |s| lo with hM
  have hM0 : 0 ≤ M := by omega
  -- synthesis and analysis
  have syn : ∀ c : ℤ → ℤ → ℂ, (∀ el k, 0 ≤ el → el < M → el < L → 0 ≤ k → k < 2 * L - 1 → c el k = 0) →
      ∃ F, bwd (.d2 L (2 * L - 1) c) = .ok F ∧ F.shape = σ.shape L ns ∧
        ∀ t p, σ.Has L ns t p → F.get2 (σ.pos ns t p).1 (σ.pos ns t p).2
          = gridHarm σ L ns s M θ (fun l m => c l (m + L - 1)) t p := by
    intro c hc
    obtain ⟨F, e, hs, h⟩ := hp.inv c fun el k a b d x y => hc el k (by omega) (by omega) d x y
    refine ⟨F, e, hs, fun t p ht => ?_⟩
    rw [h t p ht]
    refine harmonicSum_from (by omega) (fun l m a b d hm => ?_) (fun _ _ _ _ _ => rfl) _ _
    rw [abs_le] at hm
    exact hc l _ (by omega) b d (by omega) (by omega)
  have ana : ∀ x : Nd ℂ, x.shape = σ.shape L ns → ∃ g, fwd x = .ok (.d2 L (2 * L - 1) g) ∧
      (∀ el k, 0 ≤ el → el < M → el < L → 0 ≤ k → k < 2 * L - 1 → g el k = 0) ∧
      ∀ l m, M ≤ l → l < L → |m| ≤ l → g l (m + L - 1)
        = gridAn σ L ns s θ w (fun t p => x.get2 (σ.pos ns t p).1 (σ.pos ns t p).2) l m := by
    intro x hx
    obtain ⟨g, e, h⟩ := hp.fwd x hx
    refine ⟨g, e, fun el k a b d x y => ?_, fun l m a b hm => ?_⟩
    · have := h el (k - (L - 1)) a d (by omega) (by omega)
      rw [show k - (L - 1) + L - 1 = k by ring, if_pos b] at this
      exact this
    · rw [abs_le] at hm
      rw [h l m (by omega) b (by omega) (by omega), if_neg (by omega), fAt_gridAn]
  -- the round trip
  have trip : ∀ a, coeffEnergy M L (fun l m => a l m - gridTrip σ L ns s M θ w a l m)
      ≤ δ ^ 2 * coeffEnergy M L a := by
    intro a
    have hz : ∀ l k, l < M → (fun l k => if M ≤ l then a l (k - (L - 1)) else 0 : ℤ → ℤ → ℂ) l k = 0 :=
      fun l k h => if_neg (by omega)
    have hc : ∀ l m, M ≤ l → l < L → |m| ≤ l →
        (fun l k => if M ≤ l then a l (k - (L - 1)) else 0 : ℤ → ℤ → ℂ) l (m + L - 1) = a l m :=
      fun l m h _ _ => by
        beta_reduce
        rw [if_pos h]
        congr 1
        ring
    obtain ⟨F, e, hs, hF⟩ := syn (fun l k => if M ≤ l then a l (k - (L - 1)) else 0)
      fun el k _ h _ _ _ => hz el k h
    obtain ⟨g, e', -, hg⟩ := ana F hs
    have := hR _ F g hz e e'
    rw [coeffEnergy_congr hc] at this
    rw [coeffEnergy_congr fun l m x y z => ?_] at this
    · exact this
    · beta_reduce
      rw [hg l m x y z, if_pos x, show m + L - 1 - (L - 1) = m by ring]
      congr 1
      unfold gridTrip
      refine gridAn_congr (fun t p ht => ?_) l m
      rw [hF t p ht]
      exact gridHarm_congr hc t p
  -- the fit
  obtain ⟨a, ha⟩ := trip_solve h0 h1 trip
    (gridAn σ L ns s θ w fun t p => f.get2 (σ.pos ns t p).1 (σ.pos ns t p).2)
  set c : ℤ → ℤ → ℂ := fun l k => if M ≤ l then a l (k - (L - 1)) else 0 with hcdef
  have hc0 : ∀ l k, l < M → c l k = 0 := fun l k h => if_neg (by omega)
  have hca : ∀ l m, M ≤ l → l < L → |m| ≤ l → c l (m + L - 1) = a l m := fun l m h _ _ => by
    rw [hcdef]
    beta_reduce
    rw [if_pos h]
    congr 1
    ring
  obtain ⟨F, eF, hFs, hF⟩ := syn c fun el k _ h _ _ _ => hc0 el k h
  have hFa : ∀ t p, σ.Has L ns t p → F.get2 (σ.pos ns t p).1 (σ.pos ns t p).2
      = gridHarm σ L ns s M θ a t p := fun t p ht => by rw [hF t p ht, gridHarm_congr hca]
  have hcE : coeffEnergy M L (fun l m => c l (m + L - 1)) = coeffEnergy M L a := coeffEnergy_congr hca
  -- any other signal
  have split : ∀ (b : ℤ → ℤ → ℂ) (H : ℤ → ℤ → ℂ), (∀ t p, σ.Has L ns t p →
      H (σ.pos ns t p).1 (σ.pos ns t p).2 = gridHarm σ L ns s M θ b t p) →
      sampleEnergy σ L ns w (f.get2 - H) = sampleEnergy σ L ns w (f.get2 - F.get2)
        + sampleEnergy σ L ns w (H - F.get2) := by
    intro b H hH
    have hD : ∀ t p, σ.Has L ns t p → (H - F.get2) (σ.pos ns t p).1 (σ.pos ns t p).2
        = gridHarm σ L ns s M θ (fun l m => b l m - a l m) t p := fun t p ht => by
      rw [gridHarm_sub, ← hH t p ht, ← hFa t p ht]
      rfl
    have hz : sampleInner σ L ns w (f.get2 - F.get2) (H - F.get2) = 0 := by
      rw [sampleInner_expansion (θ := θ) hD]
      unfold lmSum
      refine Finset.sum_eq_zero fun l hl => Finset.sum_eq_zero fun m hm => ?_
      rw [Finset.mem_Ico] at hl hm
      beta_reduce
      rw [fAt_gridAn]
      simp only [Pi.sub_apply]
      rw [gridAn_sub, ← ha l m hl.1 hl.2 (by rw [abs_le]; omega), gridAn_congr hFa, gridTrip,
        sub_self, zero_mul]
    have hz' := congrArg (starRingEnd ℂ) hz
    rw [sampleInner_conj, map_zero] at hz'
    have e : f.get2 - H = (f.get2 - F.get2) - (H - F.get2) := by abel
    have : ((sampleEnergy σ L ns w (f.get2 - H) : ℝ) : ℂ)
        = (sampleEnergy σ L ns w (f.get2 - F.get2) + sampleEnergy σ L ns w (H - F.get2) : ℝ) := by
      push_cast
      rw [← sampleInner_self, ← sampleInner_self, ← sampleInner_self, e, sampleInner_sub, hz, hz']
      ring
    exact_mod_cast this
  refine ⟨c, F, hc0, eF, ?_, ?_⟩
  · intro c' F' hc' e'
    obtain ⟨F'', e'', -, hF'⟩ := syn c' fun el k _ h _ _ _ => hc' el k h
    obtain rfl : F' = F'' := by
      have := e'.symm.trans e''
      injection this
    have hsp := split _ _ hF'
    have hnn := sampleEnergy_nonneg hw (F'.get2 - F.get2)
    refine ⟨by linarith, fun hle l m x y z => ?_⟩
    have hzero := (sampleEnergy_eq_zero hw).1 (le_antisymm (by linarith) hnn)
    have hd := trip fun l m => c' l (m + L - 1) - a l m
    have ht : ∀ l m, gridTrip σ L ns s M θ w (fun l m => c' l (m + L - 1) - a l m) l m = 0 := by
      intro l m
      unfold gridTrip
      rw [gridAn_congr (v := fun _ _ => 0) fun t p htp => ?_]
      · unfold gridAn gridSum
        simp
      · rw [gridHarm_sub, ← hF' t p htp, ← hFa t p htp]
        exact hzero t p htp
    simp only [ht, sub_zero] at hd
    have hE : coeffEnergy M L (fun l m => c' l (m + L - 1) - a l m) = 0 := by
      have := coeffEnergy_nonneg M L fun l m => c' l (m + L - 1) - a l m
      have : δ ^ 2 < 1 := by nlinarith
      nlinarith
    have := (coeffEnergy_eq_zero.1 hE) l m x y z
    rw [hca l m x y z]
    exact sub_eq_zero.1 this
  · intro n
    obtain ⟨g0, eg0, hg0, hg0v⟩ := ana f hf
    have loop := forRangeM_ind (lo := 0) (hi := (n : ℤ)) (by omega)
      (body := fun _ flm => do
        let f_recov ← bwd flm
        let e ← fwd (Nd.map2 (fun a b => a - b) f f_recov)
        pure (Nd.map2 (fun a b => a + b) flm e))
      (s := .d2 L (2 * L - 1) g0)
      (P := fun i x => ∃ g, x = .d2 L (2 * L - 1) g ∧
        (∀ el k, 0 ≤ el → el < M → el < L → 0 ≤ k → k < 2 * L - 1 → g el k = 0) ∧
        coeffEnergy M L (fun l m => a l m - g l (m + L - 1))
          ≤ δ ^ (2 * (i.toNat + 1)) * coeffEnergy M L a)
      ⟨g0, rfl, hg0, by
        have := trip a
        rw [coeffEnergy_congr (d := fun l m => a l m - g0 l (m + L - 1)) fun l m x y z => by
          rw [ha l m x y z, hg0v l m x y z]] at this
        simpa using this⟩ (by
        rintro i x hi - ⟨g, rfl, hg, hE⟩
        obtain ⟨F', e', hFs', hF'⟩ := syn g hg
        have hsh : (Nd.map2 (fun a b => a - b) f F').shape = σ.shape L ns := by
          rw [map2_sub_eq, comb_shape, hf]
        obtain ⟨d, ed, hd, hdv⟩ := ana _ hsh
        refine ⟨.d2 L (2 * L - 1) (fun i j => g i j + d i j), ?_, _, rfl, ?_, ?_⟩
        · beta_reduce
          rw [e']
          show (do
            let e ← fwd (Nd.map2 (fun a b => a - b) f F')
            pure (Nd.map2 (fun a b => a + b) (Nd.d2 L (2 * L - 1) g) e)) = _
          rw [ed]
          rfl
        · intro el k p q r u v
          rw [hg el k p q r u v, hd el k p q r u v, add_zero]
        · have := trip fun l m => a l m - g l (m + L - 1)
          rw [coeffEnergy_congr (d := fun l m => a l m - (g l (m + L - 1) + d l (m + L - 1)))
            fun l m x y z => by
              rw [gridTrip_sub, ha l m x y z, hdv l m x y z, map2_get2 hv hf hFs']
              beta_reduce
              rw [gridAn_sub, gridAn_congr hF', gridTrip]
              ring] at this
          refine this.trans ((mul_le_mul_of_nonneg_left hE (sq_nonneg δ)).trans (le_of_eq ?_))
          rw [show (i + 1).toNat = i.toNat + 1 by omega]
          ring)
    obtain ⟨x, e, g, rfl, hg, hE⟩ := loop
    obtain ⟨F', e', hFs', hF'⟩ := syn g hg
    refine ⟨g, F', ?_, e', ?_, ?_⟩
    · unfold S2fft.refine
      rw [eg0]
      exact e
    · rw [hcE, coeffEnergy_congr (d := fun l m => a l m - g l (m + L - 1)) fun l m x y z => by
        rw [hca l m x y z]]
      simpa using hE
    · rw [split _ _ hF', hcE]
      have := harm_energy (D := F'.get2 - F.get2) (d := fun l m => g l (m + L - 1) - a l m) h0 h1 trip
        fun t p ht => by
          rw [gridHarm_sub, ← hF' t p ht, ← hFa t p ht]
          rfl
      have e2 : coeffEnergy M L (fun l m => g l (m + L - 1) - a l m)
          = coeffEnergy M L (fun l m => a l m - g l (m + L - 1)) := by
        unfold coeffEnergy
        simp only [norm_sub_rev]
      rw [e2] at this
      rw [Int.toNat_natCast] at hE
      linarith

end

end S2fft
