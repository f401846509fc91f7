import Verif.Spec.Dtypes
import Verif.Lemmas.Rotation
import Verif.Lemmas.OtfLower
import Verif.Lemmas.FourierWigner
import Verif.Props.C39

/-! # Functions that keep the data type of their argument -/

namespace S2fft
open Spec

/-! ## Conversions -/

theorem pyInt_intCast (n : ℤ) : pyInt (n : ℝ) = n := by
  unfold pyInt
  split_ifs <;> simp

/-- What an array can hold is stored unchanged. -/
theorem cast_of_holds {dt : Dtype} {z : ℂ} (h : Holds dt z) : dt.cast z = z := by
  cases dt with
  | int =>
    obtain ⟨n, rfl⟩ := h
    simp only [Dtype.cast, Complex.intCast_re, pyInt_intCast]
  | float =>
    obtain ⟨x, rfl⟩ := h
    rfl
  | complex => rfl

theorem cast_zero (dt : Dtype) : dt.cast 0 = 0 :=
  cast_of_holds (by cases dt; exacts [⟨0, by simp⟩, ⟨0, by simp⟩, trivial])

theorem holds_float_of_int {z : ℂ} (h : Holds .int z) : Holds .float z := by
  obtain ⟨n, rfl⟩ := h
  exact ⟨n, by simp⟩

theorem holds_zero (dt : Dtype) : Holds dt 0 := by
  cases dt; exacts [⟨0, by simp⟩, ⟨0, by simp⟩, trivial]

theorem holds_mul {dt : Dtype} (hd : dt ≠ .int) {z : ℂ} (h : Holds dt z) (r : ℝ) :
    Holds dt (z * r) := by
  cases dt with
  | int => exact absurd rfl hd
  | float =>
    obtain ⟨x, rfl⟩ := h
    exact ⟨x * r, by push_cast; ring⟩
  | complex => trivial

theorem holds_add {dt : Dtype} {z w : ℂ} (h : Holds dt z) (h' : Holds dt w) : Holds dt (z + w) := by
  cases dt with
  | int =>
    obtain ⟨x, rfl⟩ := h
    obtain ⟨y, rfl⟩ := h'
    exact ⟨x + y, by push_cast; ring⟩
  | float =>
    obtain ⟨x, rfl⟩ := h
    obtain ⟨y, rfl⟩ := h'
    exact ⟨x + y, by push_cast; ring⟩
  | complex => trivial

theorem holds_sum {dt : Dtype} (s : Finset ℤ) {f : ℤ → ℂ} (h : ∀ i ∈ s, Holds dt (f i)) :
    Holds dt (∑ i ∈ s, f i) :=
  Finset.sum_induction f (Holds dt) (fun _ _ => holds_add) (holds_zero dt) h

/-! ## Spherical and Wigner transforms -/

theorem otfNormaliseT_eq {dt : Dtype} (hd : dt ≠ .int) {flm : ℤ → ℤ → ℂ}
    (h : ∀ l k, Holds dt (flm l k)) (lo : ℤ) : otfNormaliseT dt flm lo = otfNormalise flm lo := by
  funext l k
  unfold otfNormaliseT otfNormalise
  rw [cast_of_holds (holds_mul hd (h l k) _)]

/-- The coefficients whose normalised values are those of `flm` as type `dt` stores them. -/
noncomputable def roundedFlm (dt : Dtype) (flm : ℤ → ℤ → ℂ) (lo l k : ℤ) : ℂ :=
  if lo ≤ l then dt.cast (flm l k * elfactor l) / elfactor l else flm l k

theorem otfNormaliseT_rounded (dt : Dtype) (flm : ℤ → ℤ → ℂ) (lo : ℤ) :
    otfNormaliseT dt flm lo = otfNormalise (roundedFlm dt flm lo) lo := by
  funext l k
  unfold otfNormaliseT otfNormalise roundedFlm
  by_cases hl : lo ≤ l
  · simp only [if_pos hl]
    by_cases he : (elfactor l : ℂ) = 0
    · rw [he, mul_zero, cast_zero, mul_zero]
    · rw [div_mul_cancel₀ _ he]
  · simp only [if_neg hl]

/-- The inverse function of a method, for arrays of type `dt`. -/
noncomputable def otfInvT (dt : Dtype) (G : Machine) (method : PyStr) :=
  if method = mNumpy then otfInverseNumpyT dt G else otfInverseJaxT dt G

theorem otfInvT_eq {dt : Dtype} (G : Machine) (method : PyStr) {lo : ℤ} {flm flm' : ℤ → ℤ → ℂ}
    (h : otfNormaliseT dt flm lo = otfNormalise flm' lo) (r c L spin : ℤ) (nside : Option ℤ)
    (s : PyStr) (reality : Bool) (precomps : Option PmPre) :
    otfInvT dt G method (.d2 r c flm) L spin nside s reality precomps lo
      = otfInv G method (.d2 r c flm') L spin nside s reality precomps lo := by
  unfold otfInvT otfInv
  split_ifs
  · unfold otfInverseNumpyT otfInverseNumpy
    simp only [Nd.get2, Nd.shape, h]
    rfl
  · unfold otfInverseJaxT otfInverseJax
    simp only [Nd.get2, Nd.shape, h]
    rfl

theorem sphericalInverseT_eq {dt : Dtype} (B : Backends) (G : Machine) {method : PyStr}
    (hmt : method ∈ [mNumpy, mJax, mTorch]) {lo : ℤ} {flm flm' : ℤ → ℤ → ℂ}
    (h : otfNormaliseT dt flm lo = otfNormalise flm' lo) (r c L spin : ℤ) (nside : Option ℤ)
    (s : PyStr) (reality : Bool) (precomps : Option PmPre) (k : ℤ) :
    sphericalInverseT dt G (.d2 r c flm) L spin nside s method reality precomps lo
      = sphericalInverse B G (.d2 r c flm') L spin nside s method reality precomps lo k := by
  by_cases h8 : spin < 8
  · rw [sphericalInverse_otf B G _ nside s hmt h8, ← otfInvT_eq G method h]
    unfold sphericalInverseT otfInvT
    rw [if_neg (by omega)]
    split_ifs <;> rfl
  · unfold sphericalInverseT sphericalInverse
    rw [if_pos (by omega)]
    simp only [List.mem_cons, List.not_mem_nil, or_false] at hmt
    rcases hmt with rfl | rfl | rfl
    all_goals rw [if_neg (by decide), if_pos ⟨by omega, by decide⟩]

theorem wigScaleT_eq {dt : Dtype} (hd : dt ≠ .int) {flmn : ℤ → ℤ → ℤ → ℂ}
    (h : ∀ n l k, Holds dt (flmn n l k)) (lo : ℤ) : wigScaleT dt flmn lo = wigScale flmn lo := by
  funext n l k
  unfold wigScaleT wigScale
  rw [cast_of_holds (holds_mul hd (h n l k) _)]

theorem wigScale_holds {dt : Dtype} (hd : dt ≠ .int) {flmn : ℤ → ℤ → ℤ → ℂ}
    (h : ∀ n l k, Holds dt (flmn n l k)) (lo n l k : ℤ) : Holds dt (wigScale flmn lo n l k) := by
  unfold wigScale
  split_ifs
  · exact holds_mul hd (h n l k) _
  · exact h n l k

/-- The Wigner coefficients whose scaled and normalised values are those of `flmn` as type `dt` stores
them, twice. -/
noncomputable def roundedFlmn (dt : Dtype) (flmn : ℤ → ℤ → ℤ → ℂ) (lo n l k : ℤ) : ℂ :=
  let w : ℝ := √((2 * (l : ℝ) + 1) / (16 * Real.pi ^ 3))
  if lo ≤ l then dt.cast (dt.cast (flmn n l k * w) * elfactor l) / (w * elfactor l)
  else flmn n l k

theorem wigScaleT_rounded (dt : Dtype) (flmn : ℤ → ℤ → ℤ → ℂ) (lo : ℤ) (n : ℤ) :
    otfNormaliseT dt (wigScaleT dt flmn lo n) lo
      = otfNormalise (wigScale (roundedFlmn dt flmn lo) lo n) lo := by
  funext l k
  unfold otfNormaliseT otfNormalise wigScaleT wigScale roundedFlmn
  by_cases hl : lo ≤ l
  · simp only [if_pos hl]
    by_cases he : (elfactor l : ℂ) = 0
    · rw [he, mul_zero, cast_zero, mul_zero]
    · by_cases hw : ((√((2 * (l : ℝ) + 1) / (16 * Real.pi ^ 3)) : ℝ) : ℂ) = 0
      · rw [hw, mul_zero, cast_zero, zero_mul, cast_zero, mul_zero, zero_mul]
      · rw [mul_assoc, div_mul_cancel₀ _ (mul_ne_zero hw he)]
  · simp only [if_neg hl]

theorem wignerInverseT_eq {dt : Dtype} (B : Backends) (G : Machine) {method : PyStr}
    (hmt : method ∈ [mNumpy, mJax, mTorch]) {lo : ℤ} {flmn flmn' : ℤ → ℤ → ℤ → ℂ}
    (h : ∀ n, otfNormaliseT dt (wigScaleT dt flmn lo n) lo
      = otfNormalise (wigScale flmn' lo n) lo) (a b c L N : ℤ) (nside : Option ℤ)
    (s : PyStr) (reality : Bool) (precomps : WigPrecomps) (k : ℤ) :
    wignerInverseT dt G (.d3 a b c flmn) L N nside s method reality precomps lo
      = wignerInverse B G (.d3 a b c flmn') L N nside s method reality precomps lo k := by
  have hn : ∀ n r c L spin nside s reality precomps,
      otfInverseNumpyT dt G (.d2 r c (wigScaleT dt flmn lo n)) L spin nside s reality precomps lo
        = otfInverseNumpy G (.d2 r c (wigScale flmn' lo n)) L spin nside s reality precomps lo :=
    fun n r c L spin nside s reality precomps =>
      otfInvT_eq G mNumpy (h n) r c L spin nside s reality precomps
  have hj : ∀ n r c L spin nside s reality precomps,
      otfInverseJaxT dt G (.d2 r c (wigScaleT dt flmn lo n)) L spin nside s reality precomps lo
        = otfInverseJax G (.d2 r c (wigScale flmn' lo n)) L spin nside s reality precomps lo :=
    fun n r c L spin nside s reality precomps =>
      otfInvT_eq G mJax (h n) r c L spin nside s reality precomps
  unfold wignerInverseT wignerInverse otfWignerInverseNumpyT otfWignerInverseNumpy
    otfWignerInverseJaxT otfWignerInverseJax
  simp only [Nd.get3, Nd.shape, hn, hj]
  simp only [List.mem_cons, List.not_mem_nil, or_false] at hmt
  have h1 : method ∈ wignerMethods := by
    simp only [wignerMethods, List.mem_cons, List.not_mem_nil, or_false]; tauto
  have h2 : method ∈ [mNumpy, mJax, mTorch] := by
    simp only [List.mem_cons, List.not_mem_nil, or_false]; exact hmt
  have h3 : method ≠ mSsht := by rcases hmt with rfl | rfl | rfl <;> decide
  simp only [h1, h2, h3, not_true_eq_false, if_false, and_true]
  rfl

/-! ## Rotation -/

/-- Two loops that keep a relation that depends on the iteration. -/
theorem forRange_pair {σ τ : Type*} {lo hi : ℤ} {b : ℤ → σ → σ} {c : ℤ → τ → τ} {s : σ} {t : τ}
    {P : ℤ → σ → τ → Prop} (hle : lo ≤ hi) (h0 : P lo s t)
    (h : ∀ i s t, lo ≤ i → i < hi → P i s t → P (i + 1) (b i s) (c i t)) :
    P hi (forRange lo hi b s) (forRange lo hi c t) := by
  induction hi, hle using Int.le_induction with
  | base => rwa [forRange_of_le le_rfl, forRange_of_le le_rfl]
  | succ n hn ih =>
    rw [forRange_succ hn, forRange_succ hn]
    exact h n _ _ hn (by omega) (ih fun i s t h1 h2 => h i s t h1 (by omega))

theorem rotateFlmsT_eq (dt : Dtype) (flm : ℤ → ℤ → ℂ) (L : ℤ) (rotation : ℝ × ℝ × ℝ)
    (dls : Option (ℤ → ℤ → ℤ → ℝ)) (x y : ℤ) :
    rotateFlmsT dt flm L rotation dls x y = dt.cast (rotateFlms flm L rotation dls x y) := by
  have step : ∀ (el : ℤ) (v : ℤ → ℂ) (a b : ℤ → ℤ → ℂ),
      ((∀ x y, a x y = dt.cast (b x y)) ∧ ∀ x y, el ≤ x → b x y = 0) →
      (∀ x y, addOrdersT dt a el L v x y = dt.cast (addOrders b el L v x y)) ∧
        ∀ x y, el + 1 ≤ x → addOrders b el L v x y = 0 := by
    rintro el v a b ⟨h1, h2⟩
    refine ⟨fun x y => ?_, fun x y hx => ?_⟩
    · unfold addOrdersT addOrders
      split_ifs with h
      · rw [h1, h2 x y (by omega), cast_zero, zero_add, zero_add]
      · exact h1 x y
    · unfold addOrders
      rw [if_neg (by omega)]
      exact h2 x y (by omega)
  have hz : (∀ x y : ℤ, (0 : ℂ) = dt.cast 0) ∧ ∀ x y : ℤ, 0 ≤ x → (0 : ℂ) = 0 :=
    ⟨fun _ _ => (cast_zero dt).symm, fun _ _ _ => rfl⟩
  by_cases hL : 0 ≤ L
  · unfold rotateFlmsT rotateFlms
    cases dls with
    | none =>
      simp only
      refine (forRange_pair (P := fun el (s t : (ℤ → ℤ → ℝ) × (ℤ → ℤ → ℂ)) => s.1 = t.1 ∧
        (∀ x y, s.2 x y = dt.cast (t.2 x y)) ∧ ∀ x y, el ≤ x → t.2 x y = 0) hL ⟨rfl, hz⟩ ?_).2.1 x y
      rintro el ⟨d, a⟩ ⟨d', b⟩ h1 h2 ⟨hd, h⟩
      obtain rfl : d = d' := hd
      exact ⟨rfl, step _ _ _ _ h⟩
    | some dl =>
      simp only
      refine (forRange_pair (P := fun el (s t : ℤ → ℤ → ℂ) =>
        (∀ x y, s x y = dt.cast (t x y)) ∧ ∀ x y, el ≤ x → t x y = 0) hL hz ?_).1 x y
      intro el a b h1 h2 h
      exact step _ _ _ _ h
  · unfold rotateFlmsT rotateFlms
    cases dls with
    | none =>
      simp only
      rw [forRange_of_le (by omega), forRange_of_le (by omega)]
      exact (cast_zero dt).symm
    | some dl =>
      simp only
      rw [forRange_of_le (by omega), forRange_of_le (by omega)]
      exact (cast_zero dt).symm

/-! ## Fourier-Wigner transforms and subsets of directions -/

theorem real_factor (l : ℤ) : (2 * (l : ℂ) + 1) / (8 * (Real.pi : ℂ) ^ 2)
    = (((2 * (l : ℝ) + 1) / (8 * Real.pi ^ 2) : ℝ) : ℂ) := by push_cast; rfl

theorem fwSpectrumT_eq {dt : Dtype} {method : PyStr} {precomps : Option FwTables}
    (hd : dt ≠ .int ∨ method ≠ mNumpy ∨ precomps ≠ none) {flmn : ℤ → ℤ → ℤ → ℂ}
    (h : ∀ n l k, Holds dt (flmn n l k)) (L N off : ℤ) (reality : Bool) :
    fwSpectrumT dt method flmn L N off precomps reality
      = fwSpectrum method flmn L N off precomps reality := by
  obtain ⟨xt, hx⟩ : ∃ xt : Dtype,
      (if method = mNumpy then (if dt = .int then .float else dt) else .complex) = xt := ⟨_, rfl⟩
  have hxi : xt ≠ .int := by
    rw [← hx]
    split_ifs with h1 h2
    · decide
    · exact h2
    · decide
  have hxh : ∀ n l k, Holds xt (flmn n l k) := by
    intro n l k
    rw [← hx]
    split_ifs with h1 h2
    · exact holds_float_of_int (h2 ▸ h n l k)
    · exact h n l k
    · trivial
  unfold fwSpectrumT fwSpectrum
  simp only [hx]
  cases fwColumns method L N reality with
  | error e => rfl
  | ok cols =>
    cases precomps with
    | some P =>
      simp only [bind, Except.bind, pure, Except.pure, Except.ok.injEq]
      funext a m k
      split_ifs
      · refine cast_of_holds (holds_sum _ fun l _ => ?_)
        rw [real_factor]
        exact holds_mul hxi (holds_mul hxi (holds_mul hxi (hxh _ _ _) _) _) _
      · rfl
    | none =>
      have hni : ¬ (method = mNumpy ∧ dt = .int) := by
        rcases hd with hd | hd | hd
        · exact fun h => hd h.2
        · exact fun h => hd h.1
        · exact absurd rfl hd
      simp only [hni, if_false]
      have key := forRangeM_rel (lo := 0) (hi := L)
        (R := fun (s t : (ℤ → ℤ → ℝ) × (ℤ → ℤ → ℤ → ℂ)) =>
          s = t ∧ ∀ a m k, Holds xt (t.2 a m k))
        (b := fun el (s : (ℤ → ℤ → ℝ) × (ℤ → ℤ → ℤ → ℂ)) => do
          let d ← fwStep method L el s.1
          pure (d, fun a m k => if off ≤ a ∧ off ≤ m then
            xt.cast (s.2 a m k + flmn (nStart N reality + k) el (m - off)
              * ((2 * (el : ℂ) + 1) / (8 * (Real.pi : ℂ) ^ 2)) * d (a - off) (m - off)
              * d (a - off) (cols k)) else s.2 a m k))
        (c := fun el (s : (ℤ → ℤ → ℝ) × (ℤ → ℤ → ℤ → ℂ)) => do
          let d ← fwStep method L el s.1
          pure (d, fun a m k => if off ≤ a ∧ off ≤ m then
            s.2 a m k + flmn (nStart N reality + k) el (m - off)
              * ((2 * (el : ℂ) + 1) / (8 * (Real.pi : ℂ) ^ 2)) * d (a - off) (m - off)
              * d (a - off) (cols k) else s.2 a m k))
        (s := (fun _ _ => 0, fun _ _ _ => 0)) (t := (fun _ _ => 0, fun _ _ _ => 0))
        ⟨rfl, fun _ _ _ => holds_zero xt⟩ (by
          rintro el s t - - ⟨rfl, hs⟩
          cases fwStep method L el s.1 with
          | error e => exact Or.inl ⟨e, rfl, rfl⟩
          | ok d =>
            have hh : ∀ a m k, Holds xt (s.2 a m k + flmn (nStart N reality + k) el (m - off)
                * ((2 * (el : ℂ) + 1) / (8 * (Real.pi : ℂ) ^ 2)) * d (a - off) (m - off)
                * d (a - off) (cols k)) := by
              intro a m k
              rw [real_factor]
              exact holds_add (hs a m k)
                (holds_mul hxi (holds_mul hxi (holds_mul hxi (hxh _ _ _) _) _) _)
            refine Or.inr ⟨_, _, rfl, rfl, ?_, fun a m k => ?_⟩
            · simp only [cast_of_holds (hh _ _ _)]
            · show Holds xt (if _ then _ else _)
              split_ifs
              · exact hh a m k
              · exact hs a m k)
      rcases key with ⟨e, h1, h2⟩ | ⟨a, b, h1, h2, h3, -⟩
      · show (forRangeM 0 L _ _ >>= _) = (forRangeM 0 L _ _ >>= _)
        rw [h1, h2]
      · show (forRangeM 0 L _ _ >>= _) = (forRangeM 0 L _ _ >>= _)
        rw [h1, h2, h3]

theorem fourierWignerInverseT_eq {dt : Dtype} {method : PyStr} {precomps : Option FwTables}
    (hd : dt ≠ .int ∨ method ≠ mNumpy ∨ precomps ≠ none) {flmn : ℤ → ℤ → ℤ → ℂ}
    (h : ∀ n l k, Holds dt (flmn n l k)) (a b c L N : ℤ) (reality : Bool) (s : PyStr) :
    fourierWignerInverseT dt method (.d3 a b c flmn) L N precomps reality s
      = fourierWignerInverse method (.d3 a b c flmn) L N precomps reality s := by
  unfold fourierWignerInverseT fourierWignerInverse
  simp only [show Nd.get3 (.d3 a b c flmn) = flmn from rfl, fwSpectrumT_eq hd h]

theorem fourierWignerInverseT_refused {flmn : ℤ → ℤ → ℤ → ℂ} {L N : ℤ} (hN : 1 ≤ N) (hNL : N ≤ L)
    (reality : Bool) {s : PyStr} (hs : fwSupported s) :
    fourierWignerInverseT .int mNumpy (.d3 (2 * N - 1) L (2 * L - 1) flmn) L N none reality s
      = .error .typeError := by
  obtain ⟨cols, ec, -⟩ := fwColumns_ok mNumpy hN hNL reality
  obtain ⟨d, ed, -⟩ := fwStep_ok mNumpy (L := L) (el := 0) (d := fun _ _ => 0) le_rfl (by omega) (fwStart L)
  unfold fourierWignerInverseT
  rw [if_neg (not_not.2 hs), if_neg (by simp [Nd.shape])]
  unfold fwSpectrumT
  simp only [ec, and_self, if_true]
  simp only [bind, Except.bind]
  rw [forRangeM_error (by omega) _ _ .typeError]
  simp only [ed]

theorem wignerSubsetToS2T_eq {dt : Dtype} (hd : dt ≠ .int) {flmn : ℤ → ℤ → ℤ → ℤ → ℤ → ℂ}
    (h : ∀ b n l k c, Holds dt (flmn b n l k c)) (method : PyStr) (shape : List ℤ) (ns : ℤ)
    (spins : ℤ → ℤ) (DW : FwTables) (L : ℤ) (s : PyStr) :
    wignerSubsetToS2T dt method ⟨shape, flmn⟩ ns spins DW L s
      = wignerSubsetToS2 method ⟨shape, flmn⟩ ns spins DW L s := by
  have hx : ∀ b i off a j c (cols : ℤ → ℤ),
      dt.cast (∑ l ∈ Finset.Ico 0 L, flmn b i l (j - off) c
        * DW.delta l (a - off) (j - off) * DW.delta l (a - off) (cols i)
        * ((2 * (l : ℂ) + 1) / (8 * (Real.pi : ℂ) ^ 2)))
      = ∑ l ∈ Finset.Ico 0 L, flmn b i l (j - off) c
        * DW.delta l (a - off) (j - off) * DW.delta l (a - off) (cols i)
        * ((2 * (l : ℂ) + 1) / (8 * (Real.pi : ℂ) ^ 2)) := by
    intro b i off a j c cols
    refine cast_of_holds (holds_sum _ fun l _ => ?_)
    rw [real_factor]
    exact holds_mul hd (holds_mul hd (holds_mul hd (h _ _ _ _ _) _) _) _
  unfold wignerSubsetToS2T wignerSubsetToS2
  simp only [hx]
  rfl

end S2fft
