import Verif.Lemmas.BaseForwardAll

/-! # Degrees below the starting degree -/

namespace S2fft
open Spec

theorem forRangeM_keep {σ τ : Type} {lo hi : ℤ} {body : ℤ → σ → Except PyErr σ} {s r : σ}
    (get : σ → τ) (h : ∀ i s s', body i s = .ok s' → get s' = get s)
    (hr : forRangeM lo hi body s = .ok r) : get r = get s := by
  rcases le_total lo hi with hle | hle
  · have := forRange_ind hle (fun i st => st >>= body i) (Except.ok s : Except PyErr σ)
      (fun _ st => ∀ r, st = .ok r → get r = get s) (by rintro r ⟨⟩; rfl) (by
        intro i st _ _ ih r hr
        cases st with
        | error e => cases hr
        | ok v => exact (h i v r hr).trans (ih v rfl))
    exact this r hr
  · unfold forRangeM at hr
    rw [forRange_of_le hle] at hr
    cases hr; rfl

theorem forRangeM_inv {σ : Type} {lo hi : ℤ} {body : ℤ → σ → Except PyErr σ} {s r : σ}
    {P : σ → Prop} (h0 : P s) (h : ∀ i s s', P s → body i s = .ok s' → P s')
    (hr : forRangeM lo hi body s = .ok r) : P r := by
  rcases le_total lo hi with hle | hle
  · have := forRange_ind hle (fun i st => st >>= body i) (Except.ok s : Except PyErr σ)
      (fun _ st => ∀ r, st = .ok r → P r) (by rintro r ⟨⟩; exact h0) (by
        intro i st _ _ ih r hr
        cases st with
        | error e => cases hr
        | ok v => exact h i v r (ih v rfl) hr)
    exact this r hr
  · unfold forRangeM at hr
    rw [forRange_of_le hle] at hr
    cases hr; exact h0

theorem add2_other {a : ℤ → ℤ → ℂ} {r c x y : ℤ} {v : ℂ} (h : x ≠ r) : add2 a r c v x y = a x y := by
  rw [add2_apply, if_neg (fun h' => h h'.1), add_zero]

/-! ## Inverse: only degrees from the starting one on are read -/

variable {flm flm' : ℤ → ℤ → ℂ} {L_lower : ℤ}

theorem inverseDirect_congr (h : ∀ el, L_lower ≤ el → flm el = flm' el) (L spin : ℤ)
    (s : PyStr) (nt : ℤ) (θ : ℤ → ℝ) (nside : ℤ) (reality : Bool) :
    inverseDirect flm L spin s nt θ nside reality L_lower
      = inverseDirect flm' L spin s nt θ nside reality L_lower := by
  unfold inverseDirect
  congr 1
  funext t f
  congr 1
  funext φs
  congr 1
  apply forRange_congr
  intro el f' h1 _
  simp only [h el (by unfold elStart at h1; omega)]

theorem inverseSovFtm_congr (h : ∀ el, L_lower ≤ el → flm el = flm' el) (L spin : ℤ)
    (nt : ℤ) (θ : ℤ → ℝ) (reality : Bool) :
    inverseSovFtm flm L spin nt θ reality L_lower
      = inverseSovFtm flm' L spin nt θ reality L_lower := by
  unfold inverseSovFtm
  congr 1
  funext t f
  apply forRange_congr
  intro el f' h1 _
  simp only [h el (by unfold elStart at h1; omega)]

theorem inverseFftFtm_congr (h : ∀ el, L_lower ≤ el → flm el = flm' el) (L spin : ℤ)
    (s : PyStr) (nt : ℤ) (θ : ℤ → ℝ) (nside : ℤ) (reality : Bool) :
    inverseFftFtm flm L spin s nt θ nside reality L_lower
      = inverseFftFtm flm' L spin s nt θ nside reality L_lower := by
  unfold inverseFftFtm
  simp only []
  congr 1
  funext t f
  apply forRange_congr
  intro el f' h1 _
  simp only [h el (by unfold elStart at h1; omega)]

theorem inverseVecFtm_congr (h : ∀ el, L_lower ≤ el → flm el = flm' el) (L spin : ℤ)
    (s : PyStr) (nt : ℤ) (θ : ℤ → ℝ) (nside : ℤ) (reality : Bool) :
    inverseVecFtm flm L spin s nt θ nside reality L_lower
      = inverseVecFtm flm' L spin s nt θ nside reality L_lower := by
  unfold inverseVecFtm
  simp only []
  funext t k
  congr 1
  refine congrFun (congrFun ?_ t) k
  apply forRange_congr
  intro t f _ _
  apply forRange_congr
  intro el f' h1 _
  simp only [h el (by unfold elStart at h1; omega)]

theorem inverseMethod_congr (h : ∀ el, L_lower ≤ el → flm el = flm' el) {method : PyStr}
    {run : (ℤ → ℤ → ℂ) → ℤ → ℤ → PyStr → ℤ → (ℤ → ℝ) → ℤ → Bool → ℤ → Except PyErr (ℤ → ℤ → ℂ)}
    (hm : inverseMethod method = .ok run) (L spin : ℤ)
    (s : PyStr) (nt : ℤ) (θ : ℤ → ℝ) (nside : ℤ) (reality : Bool) :
    run flm L spin s nt θ nside reality L_lower = run flm' L spin s nt θ nside reality L_lower := by
  unfold inverseMethod at hm
  split_ifs at hm
  · cases hm; exact inverseDirect_congr h ..
  · cases hm
    unfold inverseSov
    rw [inverseSovFtm_congr h]
  · cases hm
    unfold inverseSovFft
    rw [inverseFftFtm_congr h]
  · cases hm
    unfold inverseVec
    rw [inverseVecFtm_congr h]

/-! ## Forward: only degrees from the starting one on are written -/

theorem forwardDirect_zero {f : ℤ → ℤ → ℂ} {L spin : ℤ} {s : PyStr} {ncol nt : ℤ}
    {θ w : ℤ → ℝ} {nside : ℤ} {reality : Bool} {r : ℤ → ℤ → ℂ}
    (hr : forwardDirect f L spin s ncol nt θ w nside reality L_lower = .ok r) {el j : ℤ}
    (hel : el < elStart L_lower spin) : r el j = 0 := by
  unfold forwardDirect at hr
  refine forRangeM_keep (fun a : ℤ → ℤ → ℂ => a el j) ?_ hr
  intro t a a' ha
  cases hp : phisAt L s nside t with
  | error e => rw [hp] at ha; cases ha
  | ok φs =>
    rw [hp] at ha
    injection ha with ha
    rw [← ha]
    refine forRange_frame _ _ _ _ (fun a : ℤ → ℤ → ℂ => a el j) ?_
    intro l a h1 _
    refine forRange_frame _ _ _ _ (fun a : ℤ → ℤ → ℂ => a el j) ?_
    intro p a _ _
    have hne : el ≠ l := by omega
    simp only []
    split_ifs
    · refine (forRange_frame _ _ _ _ (fun a : ℤ → ℤ → ℂ => a el j) ?_).trans ?_
      · intro m a _ _
        simp only [add2_other hne]
      · exact add2_other hne
    · refine forRange_frame _ _ _ _ (fun a : ℤ → ℤ → ℂ => a el j) ?_
      intro m a _ _
      simp only [add2_other hne]

theorem forwardLoop_zero (ftm : ℤ → ℤ → ℂ) (L spin nt : ℤ) (θ w : ℤ → ℝ) (off : ℤ)
    (phase : ℤ → ℤ → ℂ) (reality : Bool) {el j : ℤ} (hel : el < elStart L_lower spin) :
    forwardLoop ftm L spin nt θ w off phase reality L_lower el j = 0 := by
  unfold forwardLoop
  refine forRange_frame _ _ _ _ (fun a : ℤ → ℤ → ℂ => a el j) ?_
  intro t a _ _
  refine forRange_frame _ _ _ _ (fun a : ℤ → ℤ → ℂ => a el j) ?_
  intro l a h1 _
  have hne : el ≠ l := by omega
  simp only []
  split_ifs
  · refine (forRange_frame _ _ _ _ (fun a : ℤ → ℤ → ℂ => a el j) ?_).trans ?_
    · intro m a _ _
      simp only [add2_other hne]
    · exact add2_other hne
  · refine forRange_frame _ _ _ _ (fun a : ℤ → ℤ → ℂ => a el j) ?_
    intro m a _ _
    simp only [add2_other hne]

theorem forwardMethod_zero {method : PyStr}
    {run : (ℤ → ℤ → ℂ) → ℤ → ℤ → PyStr → ℤ → ℤ → (ℤ → ℝ) → (ℤ → ℝ) → ℤ → Bool → ℤ →
      Except PyErr (ℤ → ℤ → ℂ)}
    (hm : forwardMethod method = .ok run) {f : ℤ → ℤ → ℂ} {L spin : ℤ} {s : PyStr} {ncol nt : ℤ}
    {θ w : ℤ → ℝ} {nside : ℤ} {reality : Bool} {r : ℤ → ℤ → ℂ}
    (hr : run f L spin s ncol nt θ w nside reality L_lower = .ok r) {el j : ℤ}
    (hel : el < elStart L_lower spin) : r el j = 0 := by
  unfold forwardMethod at hm
  split_ifs at hm
  · cases hm; exact forwardDirect_zero hr hel
  · cases hm
    unfold forwardSov at hr
    cases h : forwardSovFtm f L s nt θ nside reality with
    | error e => rw [h] at hr; cases hr
    | ok v =>
      rw [h] at hr
      injection hr with hr
      rw [← hr]; exact forwardLoop_zero _ _ _ _ _ _ _ _ _ hel
  · cases hm
    unfold forwardSovFft at hr
    cases h : forwardFft f L s ncol nside reality with
    | error e => rw [h] at hr; cases hr
    | ok v =>
      rw [h] at hr
      injection hr with hr
      rw [← hr]; exact forwardLoop_zero _ _ _ _ _ _ _ _ _ hel
  · cases hm
    unfold forwardVec at hr
    cases h : forwardFft f L s ncol nside reality with
    | error e => rw [h] at hr; cases hr
    | ok v =>
      rw [h] at hr
      injection hr with hr
      rw [← hr]
      apply mul_eq_zero_of_left
      refine forRange_frame _ _ _ _ (fun a : ℤ → ℤ → ℂ => a el j) ?_
      intro t a _ _
      refine forRange_frame _ _ _ _ (fun a : ℤ → ℤ → ℂ => a el j) ?_
      intro l a h1 _
      have hne : el ≠ l := by omega
      split_ifs <;> simp [addRow, hne]

end S2fft
