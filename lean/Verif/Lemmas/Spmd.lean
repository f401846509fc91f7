import Verif.Model.Spmd
import Verif.Lemmas.OtfLower

/-! # The loops over several devices -/

namespace S2fft

theorem spmdInverseLoop_rings (P : PmPre) (L mm i : ℤ) (β : ℤ → ℝ) (hi t0 : ℤ)
    (emit : ℤ → (ℤ → ℤ → ℝ) → (ℤ → ℤ → ℂ) → ℤ → ℤ → ℂ)
    (he : ∀ m W A, emit m (fun t el => W (t0 + t) el) (fun t k => A (t0 + t) k)
      = fun t k => emit m W A (t0 + t) k) (acc : ℤ → ℤ → ℂ) (s : PmState) :
    spmdInverseLoop P L mm i (fun t => β (t0 + t)) hi emit (fun t k => acc (t0 + t) k) (s.rings t0)
      = fun t k => spmdInverseLoop P L mm i β hi emit acc s (t0 + t) k := by
  unfold spmdInverseLoop
  have h := forRange_rel (lo := 2) (hi := hi)
    (b := fun m (s : (ℤ → ℤ → ℂ) × PmState) =>
      (emit m (fun t el => pmEntry P L mm i (fun t => β (t0 + t)) m s.2 t el
        * P.exp i el (s.2.lr t el)) s.1, pmUpdate L m (pmEntry P L mm i (fun t => β (t0 + t)) m s.2) s.2))
    (c := fun m (s : (ℤ → ℤ → ℂ) × PmState) =>
      (emit m (fun t el => pmEntry P L mm i β m s.2 t el * P.exp i el (s.2.lr t el)) s.1,
        pmUpdate L m (pmEntry P L mm i β m s.2) s.2))
    (s := ((fun t k => acc (t0 + t) k), s.rings t0)) (t := (acc, s))
    (fun x y => x = ((fun t k => y.1 (t0 + t) k), y.2.rings t0)) rfl
    (by
      rintro m x y - - rfl
      exact Prod.ext (he m (fun t el => pmEntry P L mm i β m y.2 t el * P.exp i el (y.2.lr t el)) y.1)
        rfl)
  exact congrArg Prod.fst h

theorem spmdInversePass_eq {ndev nt : ℤ} (hd : 1 ≤ ndev) (hn : 1 ≤ nt) (P : PmPre) (L mm lo : ℤ)
    (β : ℤ → ℝ) (i : ℤ) (emit : ℤ → ℤ → ℤ → (ℤ → ℤ → ℝ) → (ℤ → ℤ → ℂ) → ℤ → ℤ → ℂ)
    (he : ∀ i m f t0 W A, emit i m f (fun t el => W (t0 + t) el) (fun t k => A (t0 + t) k)
      = fun t k => emit i m f W A (t0 + t) k) (ftm : ℤ → ℤ → ℂ) :
    spmdInversePass ndev nt P L mm lo β i emit ftm =
      if ndev ∣ nt then .ok (otfPass P L mm lo β i emit ftm) else .error .typeError := by
  simp only [spmdInversePass]
  by_cases h : ndev ∣ nt
  · obtain ⟨q, rfl⟩ := h
    have hq : ndev * q / ndev = q := Int.mul_ediv_cancel_left q (by omega)
    have q0 : 0 < q := by
      by_contra hc
      have : ndev * q ≤ 0 := Int.mul_nonpos_of_nonneg_of_nonpos (by omega) (by omega)
      omega
    rw [hq, if_neg (by simp), if_pos (Dvd.intro q rfl)]
    congr 1
    funext t k
    rw [spmdInverseLoop_rings P L mm i β (L - 1 + i) (t / q * q) _
      (fun m W A => he i m lo (t / q * q) (fun t el => W t el * P.vsign (pmRow (2 * L - 1) i m) el) A)]
    have ht : t / q * q + t % q = t := Int.ediv_mul_add_emod t q
    beta_reduce
    rw [ht]
    rfl
  · rw [if_neg h, if_pos]
    intro hc
    exact h ⟨_, hc.symm⟩

theorem otfSynthSpmd_eq {ndev nt : ℤ} (hd : 1 ≤ ndev) (hn : 1 ≤ nt) (P : PmPre)
    (flm : ℤ → ℤ → ℂ) (β : ℤ → ℝ) (L spin off width : ℤ) (reality : Bool) (lo : ℤ) :
    otfSynthSpmd ndev nt P flm β L spin off width reality lo =
      if ndev ∣ nt then .ok (otfSynth P flm β L spin off width reality lo) else .error .typeError := by
  have hp : ∀ (i : ℤ) (ftm : ℤ → ℤ → ℂ), spmdInversePass ndev nt P L (-spin) lo β i
      (fun i m from_ W ftm => fun t k =>
        if k = otfCol width off i m then
          ∑ el ∈ Finset.Ico from_ L, (W t el : ℂ) * flm el (pmRow (2 * L - 1) i m)
        else ftm t k) ftm = _ := fun i ftm =>
    spmdInversePass_eq hd hn P L (-spin) lo β i _ (fun i m f t0 W A => rfl) ftm
  unfold otfSynthSpmd otfSynth otfRows forRangeM
  simp only [hp]
  by_cases h : ndev ∣ nt
  · simp only [if_pos h]
    cases reality <;> rfl
  · simp only [if_neg h]
    cases reality <;> rfl

theorem inverseLatitudinalStepSpmd_eq {ndev nt : ℤ} (hd : 1 ≤ ndev) (hn : 1 ≤ nt)
    (flm : ℤ → ℤ → ℂ) (β : ℤ → ℝ) (L spin : ℤ) (sampling : PyStr) (reality : Bool)
    (precomps : Option PmPre) (lo : ℤ) :
    inverseLatitudinalStepSpmd ndev flm β nt L spin sampling reality precomps lo =
      if ndev ∣ nt then .ok (inverseLatitudinalStepJax flm β nt L spin sampling reality precomps lo)
      else .error .typeError := by
  simp only [inverseLatitudinalStepSpmd, inverseLatitudinalStepJax, otfSynthSpmd_eq hd hn]
  by_cases h : ndev ∣ nt
  · rw [if_pos h, if_pos h]; rfl
  · rw [if_neg h, if_neg h]; rfl

/-! ## Forward -/

theorem spmdForwardTrace_ok {n ops : ℤ} (h : n = ops) : spmdForwardTrace n ops = .ok () := by
  subst h
  simp [spmdForwardTrace, broadcastAxis, bind, Except.bind]

theorem spmdForwardTrace_error {n ops : ℤ} (h0 : 0 < ops) (h : ops < n) :
    spmdForwardTrace n ops = .error (if ops = 1 then .valueError else .typeError) := by
  have hn : n ≠ 1 := by omega
  have hne : ops ≠ n := by omega
  by_cases h1 : ops = 1
  · subst h1
    simp [spmdForwardTrace, broadcastAxis, bind, Except.bind, hne, hn]
  · simp [spmdForwardTrace, broadcastAxis, bind, Except.bind, hne, hn, h1]

theorem spmdForwardLoop_one (P : PmPre) (ftm : ℤ → ℤ → ℂ) (β : ℤ → ℝ)
    (L mm nt off width lo i : ℤ) (flm : ℤ → ℤ → ℂ) (l k : ℤ) (hl : lo ≤ l) :
    spmdForwardLoop P ftm β L mm nt off width lo i lo (fun j k => flm (lo + j) k)
        ((pmInit P L mm i β).degrees lo) (l - lo) k
      = pmLoop P L mm i β (L - 1 + i) (fun m v (flm : ℤ → ℤ → ℂ) => fun l k =>
          if k = pmRow (2 * L - 1) i m ∧ lo ≤ l then
            ∑ t ∈ Finset.Ico 0 nt, ((v t l * P.vsign (pmRow (2 * L - 1) i m) l : ℝ) : ℂ)
              * ftm t (otfCol width off i m)
          else flm l k) flm l k := by
  unfold spmdForwardLoop pmLoop
  refine (forRange_rel (lo := 2) (hi := L - 1 + i)
    (fun (x y : (ℤ → ℤ → ℂ) × PmState) => x.2 = y.2.degrees lo ∧
      ∀ l k, lo ≤ l → x.1 (l - lo) k = y.1 l k) ⟨rfl, fun l k _ => by
        show flm (lo + (l - lo)) k = flm l k
        rw [add_sub_cancel]⟩ ?_).2 l k hl
  rintro m ⟨x1, x2⟩ ⟨y1, y2⟩ - - ⟨h1, h2⟩
  dsimp only at h1 h2
  subst h1
  refine ⟨rfl, fun l k hl => ?_⟩
  have e : lo + (l - lo) = l := add_sub_cancel _ _
  simp only [PmState.degrees, e, pmEntry, hl, and_true, h2 l k hl]

theorem pmLoop_keep (P : PmPre) (L mm i : ℤ) (β : ℤ → ℝ) (hi : ℤ)
    (emit : ℤ → (ℤ → ℤ → ℝ) → (ℤ → ℤ → ℂ) → ℤ → ℤ → ℂ) (l k : ℤ)
    (h : ∀ m v a, emit m v a l k = a l k) (acc : ℤ → ℤ → ℂ) :
    pmLoop P L mm i β hi emit acc l k = acc l k := by
  unfold pmLoop
  refine forRange_rel (lo := 2) (hi := hi) (c := fun _ (u : Unit) => u) (t := ())
    (fun (x : (ℤ → ℤ → ℂ) × PmState) _ => x.1 l k = acc l k) rfl ?_
  rintro m x - - - hx
  exact (h _ _ _).trans hx

theorem spmdForwardPass_one (P : PmPre) (ftm : ℤ → ℤ → ℂ) (β : ℤ → ℝ)
    (L mm nt off width lo i : ℤ) (hlo : lo < L) (flm : ℤ → ℤ → ℂ) :
    spmdForwardPass 1 P ftm β L mm nt off width lo i flm
      = .ok (otfPass P L mm lo β i (fun i m from_ W flm => fun l k =>
        if k = pmRow (2 * L - 1) i m ∧ from_ ≤ l then
          ∑ t ∈ Finset.Ico 0 nt, (W t l : ℂ) * ftm t (otfCol width off i m)
        else flm l k) flm) := by
  simp only [spmdForwardPass, Int.ediv_one, one_mul, ne_eq, not_true_eq_false, if_false,
    spmdForwardTrace_ok rfl]
  refine congrArg Except.ok ?_
  funext l k
  by_cases hl : lo ≤ l
  · rw [if_pos hl]
    have hd : min ((l - lo) / (L - lo)) (1 - 1) = 0 := by
      have : 0 ≤ (l - lo) / (L - lo) := Int.ediv_nonneg (by omega) (by omega)
      omega
    simp only [hd, zero_mul, add_zero, sub_zero]
    exact spmdForwardLoop_one P ftm β L mm nt off width lo i (fun l k =>
      if k = pmRow (2 * L - 1) i 1 ∧ L - 2 ≤ l then
        ∑ t ∈ Finset.Ico 0 nt, (((pmInit P L mm i β).d1 t (max l lo)
          * P.vsign (pmRow (2 * L - 1) i 1) (max l lo)
          * P.exp i (max l lo) ((pmInit P L mm i β).lr t (max l lo)) : ℝ) : ℂ)
            * ftm t (otfCol width off i 1)
      else if k = pmRow (2 * L - 1) i 0 ∧ L - 1 ≤ l then
        ∑ t ∈ Finset.Ico 0 nt, (((pmInit P L mm i β).d0 t l * P.vsign (pmRow (2 * L - 1) i 0) l
          * P.exp i l ((pmInit P L mm i β).lr t l) : ℝ) : ℂ) * ftm t (otfCol width off i 0)
      else flm l k) l k hl
  · rw [if_neg hl]
    unfold otfPass
    symm
    refine pmLoop_keep P L mm i β (L - 1 + i) _ l k (fun m v a => ?_) _
    exact if_neg (fun h => hl h.2)

theorem otfAnalyseSpmd_one (P : PmPre) (ftm : ℤ → ℤ → ℂ) (β : ℤ → ℝ) (L spin nt off width : ℤ)
    (reality : Bool) (lo : ℤ) (hlo : lo < L) :
    otfAnalyseSpmd 1 P ftm β L spin nt off width reality lo
      = .ok (otfAnalyse P ftm β L spin nt off width reality lo) := by
  unfold otfAnalyseSpmd otfAnalyse otfRows forRangeM
  simp only [spmdForwardPass_one _ _ _ _ _ _ _ _ _ _ hlo]
  cases reality <;> rfl

theorem spmdForwardPass_error {ndev : ℤ} (hd : 2 ≤ ndev) (P : PmPre) (ftm : ℤ → ℤ → ℂ) (β : ℤ → ℝ)
    (L mm nt off width lo i : ℤ) (hlo : lo < L) (flm : ℤ → ℤ → ℂ) :
    spmdForwardPass ndev P ftm β L mm nt off width lo i flm
      = .error (if ndev = L - lo then .valueError else .typeError) := by
  simp only [spmdForwardPass]
  by_cases h : ndev ∣ L - lo
  · obtain ⟨q, hq⟩ := h
    rw [hq, Int.mul_ediv_cancel_left q (by omega : ndev ≠ 0), if_neg (by simp)]
    have q0 : 0 < q := by
      by_contra hc
      have : ndev * q ≤ 0 := Int.mul_nonpos_of_nonneg_of_nonpos (by omega) (by omega)
      omega
    rw [spmdForwardTrace_error q0 (by nlinarith)]
    have : q = 1 ↔ ndev = ndev * q := by
      constructor
      · rintro rfl; rw [mul_one]
      · intro h
        by_contra hc
        nlinarith [show 2 ≤ q by omega]
    simp only [this]
    rfl
  · rw [if_pos, if_neg]
    · intro hc; exact h (hc ▸ dvd_rfl)
    · intro hc; exact h ⟨_, hc.symm⟩

theorem otfAnalyseSpmd_error {ndev : ℤ} (hd : 2 ≤ ndev) (P : PmPre) (ftm : ℤ → ℤ → ℂ) (β : ℤ → ℝ)
    (L spin nt off width : ℤ) (reality : Bool) (lo : ℤ) (hlo : lo < L) :
    otfAnalyseSpmd ndev P ftm β L spin nt off width reality lo
      = .error (if ndev = L - lo then .valueError else .typeError) := by
  unfold otfAnalyseSpmd forRangeM
  simp only [spmdForwardPass_error hd _ _ _ _ _ _ _ _ _ _ hlo]
  cases reality <;> rfl

theorem forwardLatitudinalStepSpmd_one (ftm : ℤ → ℤ → ℂ) (β : ℤ → ℝ) (nt L spin width : ℤ)
    (sampling : PyStr) (reality : Bool) (precomps : Option PmPre) (lo : ℤ) (hlo : lo < L) :
    forwardLatitudinalStepSpmd 1 ftm β nt L spin width sampling reality precomps lo
      = .ok (forwardLatitudinalStepJax ftm β nt L spin width sampling reality precomps lo) := by
  simp only [forwardLatitudinalStepSpmd, forwardLatitudinalStepJax, otfAnalyseSpmd_one _ _ _ _ _ _ _ _
    _ _ hlo]
  rfl

theorem forwardLatitudinalStepSpmd_error {ndev : ℤ} (hd : 2 ≤ ndev) (ftm : ℤ → ℤ → ℂ) (β : ℤ → ℝ)
    (nt L spin width : ℤ) (sampling : PyStr) (reality : Bool) (precomps : Option PmPre) (lo : ℤ)
    (hlo : lo < L) :
    forwardLatitudinalStepSpmd ndev ftm β nt L spin width sampling reality precomps lo
      = .error (if ndev = L - lo then .valueError else .typeError) := by
  simp only [forwardLatitudinalStepSpmd, otfAnalyseSpmd_error hd _ _ _ _ _ _ _ _ _ _ hlo]
  rfl

/-! ## Transforms -/

theorem otfInverseSpmd_eq {ndev : ℤ} (hd : 1 ≤ ndev) (G : Machine) {L nt : ℤ} {sampling : PyStr}
    {nside : Option ℤ} {θ : ℤ → ℝ} (hθ : otfThetas G L sampling nside = .ok (nt, θ)) (hn : 1 ≤ nt)
    (flm : Nd ℂ) (spin : ℤ) (reality : Bool) (precomps : Option PmPre) (lo : ℤ) (h : ndev ∣ nt) :
    otfInverseSpmd ndev G flm L spin nside sampling reality precomps lo
      = otfInverseJax G flm L spin nside sampling reality precomps lo := by
  unfold otfInverseSpmd otfInverseJax
  rw [hθ]
  simp only [inverseLatitudinalStepSpmd_eq hd hn, if_pos h, bind, Except.bind]

theorem otfInverseSpmd_error {ndev : ℤ} (hd : 1 ≤ ndev) (G : Machine) {L nt : ℤ} {sampling : PyStr}
    {nside : Option ℤ} {θ : ℤ → ℝ} (hθ : otfThetas G L sampling nside = .ok (nt, θ)) (hn : 1 ≤ nt)
    (flm : Nd ℂ) (hf : flm.shape = [L, 2 * L - 1]) (spin : ℤ) (reality : Bool)
    (precomps : Option PmPre) (lo : ℤ) (h0 : 0 ≤ lo) (h : ¬ ndev ∣ nt) :
    otfInverseSpmd ndev G flm L spin nside sampling reality precomps lo = .error .typeError := by
  unfold otfInverseSpmd
  rw [hθ, requireLower_ok h0]
  simp only [inverseLatitudinalStepSpmd_eq hd hn, if_neg h, bind, Except.bind, hf, ne_eq, not_true_eq_false,
    if_false]

theorem otfForwardSpmd_one (G : Machine) (f : Nd ℂ) (L spin : ℤ) (nside : Option ℤ)
    (sampling : PyStr) (reality : Bool) (precomps : Option PmPre) (lo : ℤ) (hlo : lo < L) :
    otfForwardSpmd 1 G f L spin nside sampling reality precomps lo
      = otfForwardJax G f L spin nside sampling reality precomps lo := by
  unfold otfForwardSpmd otfForwardJax
  simp only [forwardLatitudinalStepSpmd_one _ _ _ _ _ _ _ _ _ _ hlo]
  rfl

theorem otfForwardSpmd_error {ndev : ℤ} (hd : 2 ≤ ndev) (G : Machine) (f : Nd ℂ) (L spin : ℤ)
    (nside : Option ℤ) (sampling : PyStr) (reality : Bool) (precomps : Option PmPre) (lo : ℤ)
    (hlo : lo < L) :
    ∃ e, otfForwardSpmd ndev G f L spin nside sampling reality precomps lo = .error e := by
  unfold otfForwardSpmd requireLower
  by_cases h0 : lo < 0
  · exact ⟨_, if_pos h0⟩
  rw [if_neg h0]
  simp only [forwardLatitudinalStepSpmd_error hd _ _ _ _ _ _ _ _ _ _ hlo]
  cases otfFourier G f L spin nside sampling reality mJax with
  | error e => exact ⟨e, rfl⟩
  | ok x => exact ⟨_, rfl⟩

end S2fft
