import Verif.Props.C31Real
import Verif.Props.C40

/-!
# C31: refinement with healpy

The refined analysis with "jax_healpy", three refinements unless the caller says otherwise, converges
as that of the base transform does.
-/

namespace S2fft
open Spec

theorem C31_healpy_refines (S : Ssht) (H : Healpy) (B : Backends) (G : Machine)
    (hH : HealpyContract H) (L nside : ℤ) (hL : 1 ≤ L) (hn : 1 ≤ nside) (hhp : 2 * nside ≤ L)
    (hex : GridExact G.nodes .healpix L nside) (spin lo k : ℤ) (reality : Bool) (pre : Option PmPre)
    (δ : ℝ) (hδ : 0 ≤ δ) (hδ' : δ < 1)
    (htrip : RoundTripWithin L 0 δ
      (fun c => baseInverse G.toGlTables c L 0 sHP (some nside) false 0)
      (fun x => baseForward G.toGlTables x L 0 sHP (some nside) false 0 0))
    (f : ℤ → ℝ) :
    ∃ w, quad_weights G.weights (some L) sHP 0 (some nside) = .ok (4 * nside - 1, w) ∧
      Refines .healpix L nside w 0 δ
        (fun c => baseInverse G.toGlTables c L 0 sHP (some nside) false 0)
        (.d1 (12 * nside ^ 2) fun i => f i)
        (fun n => sphericalForward (libraries S H B) G (.d1 (12 * nside ^ 2) fun i => f i) L spin
          (some nside) sHP mHealpy reality pre lo (some n) k) := by
  have hv : Scheme.healpix.Valid L ((some nside).getD 0) := ⟨hL, fun _ => hn⟩
  have hσ : Scheme.healpix = .dh ∨ Scheme.healpix = .gl ∨ Scheme.healpix = .healpix := by simp
  obtain ⟨w, e, h⟩ := C31_base_refines_real G.toGlTables .healpix hσ L 0 (some nside) hv
    (fun _ => hhp) (by rintro ⟨⟩) le_rfl (by omega) δ hδ hδ' htrip (.d1 (12 * nside ^ 2) fun i => f i)
    rfl (fun t p _ => Complex.ofReal_im _)
  obtain rfl : innerWeight G.toGlTables .healpix L ((some nside).getD 0) = w := by
    have := (quad_weights_plain G.toGlTables (plain_scheme .healpix hσ) 0 hv).symm.trans e
    injection this with this
    exact (Prod.mk.inj this).2
  refine ⟨_, e, ?_⟩
  have hm : max |(0 : ℤ)| 0 = 0 := by simp
  rw [← hm] at h ⊢
  refine Refines.of_agree (base_pair G.toGlTables .healpix hσ L 0 0 (some nside) hv (fun _ => hhp)
    le_rfl (by omega) false (by rintro ⟨⟩)) hv le_rfl h fun n => ?_
  obtain ⟨g, ref, e1, e2, hg⟩ := C40_healpy_forward (S := S) (B := B) (G := G) hH hL hn hhp hex spin lo
    k reality true pre (some n) (fun i => f i) (fun _ _ _ => Complex.ofReal_im _)
  refine ⟨ref, g, e2, e1, fun el j a b c d => ?_⟩
  have := hg el (j - (L - 1)) a b (by omega) (by omega)
  rw [show j - (L - 1) + L - 1 = j by ring] at this
  exact this.symm

/-- The smallest grid, with a library as supposed. -/
example (S : Ssht) (B : Backends) (G : Machine) (f : ℤ → ℝ) : ∃ H : Healpy,
    ∃ w, quad_weights G.weights (some 2) sHP 0 (some 1) = .ok (3, w) ∧
      Refines .healpix 2 1 w 0 (1 / 9)
        (fun c => baseInverse G.toGlTables c 2 0 sHP (some 1) false 0) (.d1 12 fun i => f i)
        (fun n => sphericalForward (libraries S H B) G (.d1 12 fun i => f i) 2 0
          (some 1) sHP mHealpy true none 0 (some n) 1) := by
  obtain ⟨H, hH⟩ := healpyContract_met
  exact ⟨H, C31_healpy_refines S H B G hH 2 1 (by decide) (by decide) (by decide)
    (C18_grids G.nodes .healpix 2 1 ⟨by decide, fun _ => by decide⟩ (by decide)
      (by decide) (by decide)) 0 0 1 true none (1 / 9) (by norm_num) (by norm_num)
    (C31_healpix_round_trip G.toGlTables) f⟩

end S2fft
