import Verif.Lemmas.TrapaniLoops

/-! # C15: the Trapani & Navaza recursion computes Wigner-d planes at `π/2`

`trapani.init`, `trapani.compute_full` in its three implementations, and `compute_quarter`. -/

namespace S2fft
open Spec

/-- The plane `dl` holds the values `d^l_{mn}(π/2)` for every pair of orders below `L`. -/
def HoldsHalfPi (dl : ℤ → ℤ → ℝ) (L l : ℤ) : Prop :=
  ∀ m n : ℤ, |m| < L → |n| < L → dl (m + (L - 1)) (n + (L - 1)) = wignerd l m n (Real.pi / 2)

/-- Every supported implementation of `compute_full` turns the plane of degree `el - 1` into the
plane of degree `el`. -/
theorem C15_step (dl : ℤ → ℤ → ℝ) (L el : ℤ) (impl : PyStr)
    (hi : impl = implLoop ∨ impl = implVectorized ∨ impl = implJax) (h1 : 1 ≤ el) (hL : el < L)
    (hdl : HoldsHalfPi dl L (el - 1)) :
    ∃ d, trapaniFull dl L el impl = .ok d ∧ HoldsHalfPi d L el := by
  have hrow : ∀ n, 0 ≤ n → n ≤ el - 1 →
      dl (el - 1 + (L - 1)) (n + (L - 1)) = Delta (el - 1) (el - 1) n := fun n a b =>
    hdl (el - 1) n (by rw [abs_lt]; omega) (by rw [abs_lt]; omega)
  rcases hi with rfl | rfl | rfl
  · refine ⟨trapaniFullLoop dl L el, by unfold trapaniFull; rw [if_pos (by decide)], ?_⟩
    exact trapani_whole (fun d => trapaniFullLoop d L el) dl L el hdl
      (trapaniFullLoop_step dl L el h1 hrow)
  · refine ⟨trapaniFullVec dl L el,
      by unfold trapaniFull; rw [if_neg (by decide), if_pos (by decide)], ?_⟩
    exact trapani_whole (fun d => trapaniFullVec d L el) dl L el hdl
      (trapaniFullVec_step dl L el h1 hrow)
  · refine ⟨trapaniFullJax dl L el,
      by unfold trapaniFull; rw [if_neg (by decide), if_neg (by decide), if_pos (by decide)], ?_⟩
    exact trapaniFullJax_step dl L el h1 hL hdl

/-- From an empty plane: `init` and then `compute_full` for `el = 1, …, l` give the plane of degree
`l`, zeros outside `|m|, |n| ≤ l` included, with every supported implementation. -/
theorem C15_all (L l : ℤ) (impl : PyStr)
    (hi : impl = implLoop ∨ impl = implVectorized ∨ impl = implJax) (h0 : 0 ≤ l) (hL : l < L) :
    ∃ d0 d, trapaniInitImpl (fun _ _ => 0) L impl = .ok d0 ∧
      forRangeM 1 (l + 1) (fun el dl => trapaniFull dl L el impl) d0 = .ok d ∧
      HoldsHalfPi d L l := by
  have hinit : trapaniInitImpl (fun _ _ => 0) L impl = .ok (trapaniInit (fun _ _ => 0) L) := by
    unfold trapaniInitImpl
    rcases hi with rfl | rfl | rfl
    · rw [if_pos (by decide)]
    · rw [if_neg (by decide), if_pos (by decide)]
    · rw [if_neg (by decide), if_neg (by decide), if_pos (by decide)]
  obtain ⟨d, hd, hp⟩ := forRangeM_ind (by omega : (1 : ℤ) ≤ l + 1)
    (fun el dl => trapaniFull dl L el impl) (trapaniInit (fun _ _ => 0) L)
    (fun el d => el ≤ l + 1 → HoldsHalfPi d L (el - 1))
    (fun _ m n _ _ => by rw [sub_self]; exact trapaniInit_plane L m n)
    (fun el d h1 h2 h3 => by
      obtain ⟨d', e1, e2⟩ := C15_step d L el impl hi h1 (by omega) (h3 (by omega))
      exact ⟨d', e1, fun _ => by rwa [show el + 1 - 1 = el by ring]⟩)
  refine ⟨_, d, hinit, hd, ?_⟩
  have := hp le_rfl
  rwa [show l + 1 - 1 = l by ring] at this

/-- `compute_quarter` (used on its own, without the fills) turns the quarter plane `0 ≤ m, n` of
degree `el - 1` into the one of degree `el`. -/
theorem C15_quarter (L l : ℤ) (h0 : 0 ≤ l) (m n : ℤ) (hm : 0 ≤ m) (hm' : m ≤ l) (hn : 0 ≤ n)
    (hn' : n ≤ l) :
    forRange 1 (l + 1) (fun el dl => trapaniQuarter dl L el) (trapaniInit (fun _ _ => 0) L)
      (m + (L - 1)) (n + (L - 1)) = wignerd l m n (Real.pi / 2) := by
  have := forRange_ind (by omega : (1 : ℤ) ≤ l + 1) (fun el dl => trapaniQuarter dl L el)
    (trapaniInit (fun _ _ => 0) L)
    (fun el d => ∀ m n : ℤ, 0 ≤ m → m ≤ el - 1 → 0 ≤ n → n ≤ el - 1 →
      d (m + (L - 1)) (n + (L - 1)) = Delta (el - 1) m n)
    (fun m n _ _ _ _ => by rw [trapaniInit_plane, sub_self])
    (fun el d h1 h2 h3 m n a b c e => by
      rw [show el + 1 - 1 = el by ring] at b e ⊢
      exact trapaniQuarter_step d L el h1 (fun n a b => h3 (el - 1) n (by omega) le_rfl a b)
        m n a b c e) m n hm (by omega) hn (by omega)
  rwa [show l + 1 - 1 = l by ring] at this

/-- A name that is none of the three is rejected by both entry points. -/
theorem C15_reject (dl : ℤ → ℤ → ℝ) (L el : ℤ) (impl : PyStr)
    (h1 : lower impl ≠ implLoop) (h2 : impl ≠ implVectorized) (h3 : impl ≠ implJax) :
    trapaniFull dl L el impl = .error .valueError ∧
      trapaniInitImpl dl L impl = .error .valueError := by
  unfold trapaniFull trapaniInitImpl
  rw [if_neg h1, if_neg h2, if_neg h3, if_neg h1, if_neg h2, if_neg h3]
  exact ⟨rfl, rfl⟩

/-- The hypotheses are met and the values are not trivial: the degree-1 plane. -/
example : ∃ d0 d, trapaniInitImpl (fun _ _ => 0) 3 implJax = .ok d0 ∧
    forRangeM 1 2 (fun el dl => trapaniFull dl 3 el implJax) d0 = .ok d ∧
    d 2 2 = 0 ∧ d 3 1 = 1 / 2 ∧ d 1 1 = 1 / 2 := by
  obtain ⟨d0, d, h0, h1, h2⟩ := C15_all 3 1 implJax (by tauto) (by norm_num) (by norm_num)
  refine ⟨d0, d, h0, by simpa using h1, ?_, ?_, ?_⟩
  · have := h2 0 0 (by norm_num) (by norm_num)
    norm_num at this
    rw [this, (wignerd_one _).2.2.2.2.1, Real.cos_pi_div_two]
  · have := h2 1 (-1) (by norm_num) (by norm_num)
    norm_num at this
    rw [this, (wignerd_one _).2.2.2.2.2.2.1, show Real.pi / 2 / 2 = Real.pi / 4 by ring,
      Real.sin_pi_div_four]
    rw [div_pow, Real.sq_sqrt (by norm_num)]; norm_num
  · have := h2 (-1) (-1) (by norm_num) (by norm_num)
    norm_num at this
    rw [this, (wignerd_one _).1, show Real.pi / 2 / 2 = Real.pi / 4 by ring,
      Real.cos_pi_div_four]
    rw [div_pow, Real.sq_sqrt (by norm_num)]; norm_num

end S2fft
