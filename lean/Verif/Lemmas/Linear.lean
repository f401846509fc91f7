import Verif.Lemmas.RoundTrip

/-! # Linearity of the resampling and of the forward transform -/

namespace S2fft
open Spec

theorem fft_sub (n : ℤ) (x y : ℤ → ℂ) : fft n (fun i => x i - y i) = fun k => fft n x k - fft n y k := by
  funext k; simp only [fft_eq, sub_mul, Finset.sum_sub_distrib]

theorem fft_fwd_sub (n : ℤ) (x y : ℤ → ℂ) :
    fft_fwd n (fun i => x i - y i) = fun k => fft_fwd n x k - fft_fwd n y k := by
  funext k; unfold fft_fwd; rw [fft_sub]; ring

theorem ifft_fwd_sub (n : ℤ) (x y : ℤ → ℂ) :
    ifft_fwd n (fun i => x i - y i) = fun k => ifft_fwd n x k - ifft_fwd n y k := by
  funext k; simp only [ifft_fwd_eq, sub_mul, Finset.sum_sub_distrib]

theorem ifft_sub (n : ℤ) (x y : ℤ → ℂ) :
    ifft n (fun i => x i - y i) = fun k => ifft n x k - ifft n y k := by
  funext k; unfold ifft; rw [ifft_fwd_sub]; ring

theorem fftshift_sub (n : ℤ) (x y : ℤ → ℂ) :
    fftshift n (fun i => x i - y i) = fun k => fftshift n x k - fftshift n y k := rfl

theorem ifftshift_sub (n : ℤ) (x y : ℤ → ℂ) :
    ifftshift n (fun i => x i - y i) = fun k => ifftshift n x k - ifftshift n y k := rfl

theorem ite_sub' (p : Prop) [Decidable p] (a b c d : ℂ) :
    (if p then a - b else c - d) = (if p then a else c) - (if p then b else d) := by
  split_ifs <;> rfl

theorem ite_sub_zero' (p : Prop) [Decidable p] (a b : ℂ) :
    (if p then a - b else 0) = (if p then a else 0) - (if p then b else 0) := by
  split_ifs <;> simp

theorem extensionRows_sub (L nt np off : ℤ) (f g : ℤ → ℤ → ℤ → ℂ) (spin : ℤ → ℤ) :
    extensionRows L nt np off (fun b t p => f b t p - g b t p) spin
      = fun b t j => extensionRows L nt np off f spin b t j
        - extensionRows L nt np off g spin b t j := by
  unfold extensionRows
  simp only [ite_sub_zero', fft_sub, fftshift_sub]
  funext b t j
  split_ifs <;> ring

theorem mwssThetaRows_sub (f g : ℤ → ℤ → ℤ → ℂ) (L : ℤ) :
    mwssThetaRows (fun b t p => f b t p - g b t p) L
      = fun b p j => mwssThetaRows f L b p j - mwssThetaRows g L b p j := by
  unfold mwssThetaRows
  simp only [fft_fwd_sub, fftshift_sub]
  funext b p j
  split_ifs <;> ring

theorem mw_to_mwss_phi_sub (f g : ℤ → ℤ → ℤ → ℂ) (L : ℤ) :
    mw_to_mwss_phi (fun b t p => f b t p - g b t p) L
      = fun b t p => mw_to_mwss_phi f L b t p - mw_to_mwss_phi g L b t p := by
  unfold mw_to_mwss_phi
  simp only [fft_fwd_sub, fftshift_sub, ite_sub_zero', ifft_fwd_sub, ifftshift_sub]

theorem mwssValues_sub (f g : ℤ → ℤ → ℤ → ℂ) (L : ℤ) (spin : ℤ → ℤ) :
    mwssValues (fun b t p => f b t p - g b t p) L spin
      = fun b t p => mwssValues f L spin b t p - mwssValues g L spin b t p := by
  unfold mwssValues
  simp only [extensionRows_sub, ifftshift_sub, ifft_sub, mwssThetaRows_sub, ifft_fwd_sub,
    mw_to_mwss_phi_sub]

theorem upsampleValues_sub (f g : ℤ → ℤ → ℤ → ℂ) (L : ℤ) (spin : ℤ → ℤ) :
    upsampleValues (fun b t p => f b t p - g b t p) L spin
      = fun b t p => upsampleValues f L spin b t p - upsampleValues g L spin b t p := by
  have h : periodic_extension_spatial_mwss (fun b t p => f b t p - g b t p) L spin
      = fun b t p => periodic_extension_spatial_mwss f L spin b t p
        - periodic_extension_spatial_mwss g L spin b t p := by
    unfold periodic_extension_spatial_mwss
    funext b t p
    split_ifs
    · rfl
    · rw [fftshift_sub]; ring
  unfold upsampleValues
  rw [h]
  unfold upsample_by_two_mwss_ext
  simp only [fft_fwd_sub, fftshift_sub, ite_sub_zero', ifft_fwd_sub, ifftshift_sub]

theorem innerSignal_sub (σ : Scheme) (L spin : ℤ) (f g : ℤ → ℤ → ℂ) :
    innerSignal σ L spin (fun t p => f t p - g t p)
      = fun t p => innerSignal σ L spin f t p - innerSignal σ L spin g t p := by
  cases σ with
  | mw =>
    simp only [innerSignal]
    rw [mwssValues_sub (fun _ => f) (fun _ => g)]
    exact congrFun (upsampleValues_sub (fun _ => mwssValues (fun _ => f) L (fun _ => spin) 0)
      (fun _ => mwssValues (fun _ => g) L (fun _ => spin) 0) L (fun _ => spin)) 0
  | mwss => exact congrFun (upsampleValues_sub (fun _ => f) (fun _ => g) L (fun _ => spin)) 0
  | dh => rfl
  | gl => rfl
  | healpix => rfl

theorem ringSum_sub (σ : Scheme) (L nside : ℤ) (f g : ℤ → ℤ → ℂ) :
    ringSum σ L nside (fun t p => f t p - g t p)
      = fun t m => ringSum σ L nside f t m - ringSum σ L nside g t m := by
  funext t m
  simp only [ringSum, sub_mul, Finset.sum_sub_distrib]

theorem fVal_sub (A B : ℤ → ℤ → ℂ) (spin nt : ℤ) (θ w : ℤ → ℝ) (el m : ℤ) :
    fVal (fun t m => A t m - B t m) spin nt θ w el m
      = fVal A spin nt θ w el m - fVal B spin nt θ w el m := by
  simp only [fVal, mul_sub, Finset.sum_sub_distrib]

theorem fVal_outside (A : ℤ → ℤ → ℂ) (spin nt : ℤ) (θ w : ℤ → ℝ) {el m : ℤ} (h : el < |m|) :
    fVal A spin nt θ w el m = 0 := by
  unfold fVal
  apply Finset.sum_eq_zero
  intro t _
  rw [wignerd_outside _ _ _ _ (Or.inl h)]; simp

end S2fft
