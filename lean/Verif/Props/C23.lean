import Verif.Lemmas.Resampling

/-! # C23: resampling is exact on band-limited signals

A signal of band-limit `L` and spin `s` is `Spec.sphSignal L L F` with `Spec.PoleParity s F`. -/

namespace S2fft
open Spec

/-- `mw_to_mwss` returns the values of the signal on the MWSS grid (batched input; the spin may
differ from one batch element to the next). -/
theorem C23_mw_to_mwss (lg : ℤ → ℤ → ℝ) (L : ℤ) (hL : 1 ≤ L) (B : ℤ) (spin : ℤ → ℤ)
    (F : ℤ → ℤ → ℤ → ℂ) (hF : ∀ b, 0 ≤ b → b < B → PoleParity (spin b) (F b))
    (f : ℤ → ℤ → ℤ → ℂ) (θ φ : ℤ → ℝ) (hθ : thetas lg (some L) sMW none = .ok (L, θ))
    (hφ : phis_equiang L sMW = .ok (2 * L - 1, φ))
    (hf : ∀ b t p, 0 ≤ b → b < B → 0 ≤ t → t < L → 0 ≤ p → p < 2 * L - 1 →
      f b t p = sphSignal L L (F b) (θ t) (φ p)) :
    ∃ g θ' φ', mw_to_mwss (.d3 B L (2 * L - 1) f) L spin = .ok (.d3 B (L + 1) (2 * L) g) ∧
      thetas lg (some L) sMWSS none = .ok (L + 1, θ') ∧
      phis_equiang L sMWSS = .ok (2 * L, φ') ∧
      ∀ b t p, 0 ≤ b → b < B → g b t p = sphSignal L L (F b) (θ' t) (φ' p) := by
  refine ⟨_, _, _, mw_to_mwss_d3 _ _ _ _ _ _, rfl, rfl, ?_⟩
  intro b t p b0 b1
  obtain rfl : (fun t : ℤ => (2 * (t : ℝ) + 1) * Real.pi / (2 * (L : ℝ) - 1)) = θ := by
    have := hθ; injection this with this; injection this
  obtain rfl : (fun p : ℤ => 2 * (p : ℝ) * Real.pi / (2 * (L : ℝ) - 1)) = φ := by
    have := hφ; injection this with this; injection this
  change mw_to_mwss_phi (fun b t p => ifft_fwd (2 * L) (ifftshift (2 * L)
    (mwssThetaRows (fun b t => ifft (2 * L - 1) (ifftshift (2 * L - 1)
      (extensionRows L L (2 * L - 1) 0 f spin b t))) L b p)) t) L b t p
    = sphSignal L L (F b) (2 * (t : ℝ) * Real.pi / (2 * (L : ℝ)))
      (2 * (p : ℝ) * Real.pi / (2 * (L : ℝ)))
  have hext := extension_mw_signal hL F spin b (hF b b0 b1) f (by
    intro t p a1 a2 a3 a4
    rw [hf b t p b0 b1 a1 a2 a3 a4]
    congr 1 <;> push_cast <;> ring)
  have hth : ∀ p' : ℤ, ifft_fwd (2 * L) (ifftshift (2 * L)
      (mwssThetaRows (fun b t => ifft (2 * L - 1) (ifftshift (2 * L - 1)
      (extensionRows L L (2 * L - 1) 0 f spin b t))) L b p')) t
      = sphSignal L L (F b) (2 * Real.pi * t / ((2 * L : ℤ) : ℝ))
        (2 * Real.pi * p' / ((2 * L - 1 : ℤ) : ℝ)) := by
    intro p'
    rw [sphSignal_eq_trig']
    apply theta_signal hL _ (fun t => ifft (2 * L - 1) (ifftshift (2 * L - 1)
      (extensionRows L L (2 * L - 1) 0 f spin b t)) p')
    · intro t' a1 a2
      rw [hext t' p' a1 a2, sphSignal_eq_trig']
    · simp [mwssThetaRows]
    · intro j a1 a2
      simp [mwssThetaRows, a1]
  unfold mw_to_mwss_phi
  simp only
  rw [phi_signal hL (fun m => trigPoly L (F b m) (2 * Real.pi * t / ((2 * L : ℤ) : ℝ))) _
    (fun p' _ _ => hth p') p]
  change sphSignal L L (F b) _ _ = _
  congr 1 <;> push_cast <;> ring

/-- The same for an input without batch dimension. -/
theorem C23_mw_to_mwss_2d (lg : ℤ → ℤ → ℝ) (L : ℤ) (hL : 1 ≤ L) (spin : ℤ)
    (F : ℤ → ℤ → ℂ) (hF : PoleParity spin F)
    (f : ℤ → ℤ → ℂ) (θ φ : ℤ → ℝ) (hθ : thetas lg (some L) sMW none = .ok (L, θ))
    (hφ : phis_equiang L sMW = .ok (2 * L - 1, φ))
    (hf : ∀ t p, 0 ≤ t → t < L → 0 ≤ p → p < 2 * L - 1 → f t p = sphSignal L L F (θ t) (φ p)) :
    ∃ g θ' φ', mw_to_mwss (.d2 L (2 * L - 1) f) L (fun _ => spin) = .ok (.d2 (L + 1) (2 * L) g) ∧
      thetas lg (some L) sMWSS none = .ok (L + 1, θ') ∧
      phis_equiang L sMWSS = .ok (2 * L, φ') ∧
      ∀ t p, g t p = sphSignal L L F (θ' t) (φ' p) := by
  obtain ⟨g, θ', φ', h1, h2, h3, h4⟩ := C23_mw_to_mwss lg L hL 1 (fun _ => spin) (fun _ => F)
    (fun _ _ _ => hF) (fun _ => f) θ φ hθ hφ (fun _ t p _ _ => hf t p)
  refine ⟨g 0, θ', φ', ?_, h2, h3, fun t p => h4 0 t p le_rfl one_pos⟩
  rw [mw_to_mwss_d3] at h1
  injection h1 with h1
  injection h1 with _ _ _ h1
  rw [← h1, mw_to_mwss_d2]

/-- `upsample_by_two_mwss` returns the values of the signal on the `θ` grid of twice the
resolution, at the same `φ`. A batch of one element loses its batch dimension (`np.squeeze`). -/
theorem C23_upsample (lg : ℤ → ℤ → ℝ) (L : ℤ) (hL : 1 ≤ L) (B : ℤ) (hB : 1 ≤ B) (spin : ℤ → ℤ)
    (F : ℤ → ℤ → ℤ → ℂ) (hF : ∀ b, 0 ≤ b → b < B → PoleParity (spin b) (F b))
    (f : ℤ → ℤ → ℤ → ℂ) (θ φ : ℤ → ℝ) (hθ : thetas lg (some L) sMWSS none = .ok (L + 1, θ))
    (hφ : phis_equiang L sMWSS = .ok (2 * L, φ))
    (hf : ∀ b t p, 0 ≤ b → b < B → 0 ≤ t → t < L + 1 → 0 ≤ p → p < 2 * L →
      f b t p = sphSignal L L (F b) (θ t) (φ p)) :
    ∃ g θ', upsample_by_two_mwss (.d3 B (L + 1) (2 * L) f) L spin
        = .ok (if B = 1 then .d2 (2 * L + 1) (2 * L) (g 0) else .d3 B (2 * L + 1) (2 * L) g) ∧
      thetas lg (some (2 * L)) sMWSS none = .ok (2 * L + 1, θ') ∧
      ∀ b t p, 0 ≤ b → b < B → 0 ≤ p → p < 2 * L →
        g b t p = sphSignal L L (F b) (θ' t) (φ p) := by
  refine ⟨_, _, upsample_d3 _ _ _ _ _ _, rfl, ?_⟩
  · obtain rfl : (fun t : ℤ => 2 * (t : ℝ) * Real.pi / (2 * (L : ℝ))) = θ := by
      have := hθ; injection this with this; injection this
    obtain rfl : (fun p : ℤ => 2 * (p : ℝ) * Real.pi / (2 * (L : ℝ))) = φ := by
      have := hφ; injection this with this; injection this
    intro b t p b0 b1 p0 p1
    have hext := spatial_signal hL F spin b (hF b b0 b1) f (by
      intro t p a1 a2 a3 a4
      rw [hf b t p b0 b1 a1 a2 a3 a4]
      congr 1 <;> push_cast <;> ring)
    rw [upsampleValues, upsample_ext_signal hL _ _ b p (fun t' a1 a2 => by
      rw [hext t' p a1 a2 p0 p1, sphSignal_eq_trig']) t, ← sphSignal_eq_trig']
    change _ = sphSignal L L (F b) (2 * (t : ℝ) * Real.pi / (2 * ((2 * L : ℤ) : ℝ)))
      (2 * (p : ℝ) * Real.pi / (2 * (L : ℝ)))
    congr 1 <;> push_cast <;> ring

/-- The same for an input without batch dimension. -/
theorem C23_upsample_2d (lg : ℤ → ℤ → ℝ) (L : ℤ) (hL : 1 ≤ L) (spin : ℤ)
    (F : ℤ → ℤ → ℂ) (hF : PoleParity spin F)
    (f : ℤ → ℤ → ℂ) (θ φ : ℤ → ℝ) (hθ : thetas lg (some L) sMWSS none = .ok (L + 1, θ))
    (hφ : phis_equiang L sMWSS = .ok (2 * L, φ))
    (hf : ∀ t p, 0 ≤ t → t < L + 1 → 0 ≤ p → p < 2 * L → f t p = sphSignal L L F (θ t) (φ p)) :
    ∃ g θ', upsample_by_two_mwss (.d2 (L + 1) (2 * L) f) L (fun _ => spin)
        = .ok (.d2 (2 * L + 1) (2 * L) g) ∧
      thetas lg (some (2 * L)) sMWSS none = .ok (2 * L + 1, θ') ∧
      ∀ t p, 0 ≤ p → p < 2 * L → g t p = sphSignal L L F (θ' t) (φ p) := by
  obtain ⟨g, θ', h1, h2, h3⟩ := C23_upsample lg L hL 1 le_rfl (fun _ => spin) (fun _ => F)
    (fun _ _ _ => hF) (fun _ => f) θ φ hθ hφ (fun _ t p _ _ => hf t p)
  refine ⟨g 0, θ', ?_, h2, fun t p => h3 0 t p le_rfl one_pos⟩
  rw [if_pos rfl, upsample_d3, if_pos rfl] at h1
  rw [← h1, upsample_d2]

/-- Upsampling keeps the original samples, whatever they are: row `2t` of the result is row `t` of
the input. -/
theorem C23_upsample_keeps (L : ℤ) (hL : 1 ≤ L) (B : ℤ) (hB : 2 ≤ B) (spin : ℤ → ℤ)
    (f : ℤ → ℤ → ℤ → ℂ) :
    ∃ g, upsample_by_two_mwss (.d3 B (L + 1) (2 * L) f) L spin
        = .ok (.d3 B (2 * L + 1) (2 * L) g) ∧
      ∀ b t p, 0 ≤ t → t ≤ L → g b (2 * t) p = f b t p := by
  refine ⟨upsample_by_two_mwss_ext (periodic_extension_spatial_mwss f L spin) L, ?_, ?_⟩
  · rw [upsample_d3, if_neg (by omega)]; rfl
  · intro b t p t0 t1
    by_cases h : t < 2 * L
    · rw [upsample_ext_keeps hL _ b p t t0 h, periodic_extension_spatial_mwss, if_pos (by omega)]
    · omega

/-- The MW periodic extension has parity `(-1)^(m + spin)`: the order-`m` Fourier coefficient of
row `2L - 2 - t`, which mirrors row `t`, is `(-1)^(m + spin)` times that of row `t`. -/
theorem C23_parity_mw (L : ℤ) (hL : 1 ≤ L) (spin : ℤ → ℤ) (f : ℤ → ℤ → ℤ → ℂ) :
    ∃ e, periodic_extension f L spin sMW = .ok (2 * L - 1, e) ∧
      ∀ b t m, 0 ≤ t → t < L - 1 → -L < m → m < L →
        fft (2 * L - 1) (e b (2 * L - 2 - t)) m
          = (-1) ^ (m + spin b) * fft (2 * L - 1) (e b t) m := by
  refine ⟨_, rfl, ?_⟩
  intro b t m t0 t1 m0 m1
  have key : ∀ t', 0 ≤ t' → t' < 2 * L - 1 →
      fft (2 * L - 1) (ifft (2 * L - 1) (ifftshift (2 * L - 1)
        (extensionRows L L (2 * L - 1) 0 f spin b t'))) m
      = extensionRows L L (2 * L - 1) 0 f spin b t' (m + (L - 1)) := by
    intro t' a1 a2
    rw [← fft_periodic (by omega), fft_ifft (by omega) _ (Int.emod_nonneg _ (by omega))
      (Int.emod_lt_of_pos _ (by omega)), ifftshift, Int.emod_add_emod,
      Int.emod_eq_of_lt (by omega) (by omega)]
    congr 1; omega
  change fft (2 * L - 1) (ifft (2 * L - 1) (ifftshift (2 * L - 1)
        (extensionRows L L (2 * L - 1) 0 f spin b (2 * L - 2 - t)))) m
      = _ * fft (2 * L - 1) (ifft (2 * L - 1) (ifftshift (2 * L - 1)
        (extensionRows L L (2 * L - 1) 0 f spin b t))) m
  rw [key _ (by omega) (by omega), key _ (by omega) (by omega),
    extensionRows_mw _ _ _ _ _ _ (by omega) (by omega) (by omega) (by omega),
    extensionRows_mw _ _ _ _ _ _ (by omega) (by omega) (by omega) (by omega),
    if_neg (by omega), if_pos (by omega)]
  congr 2
  · congr 1; ring
  · congr 2; ring_nf

/-- The MWSS extensions have the same parity, for all orders below the Nyquist order `L`. -/
theorem C23_parity_mwss (L : ℤ) (hL : 1 ≤ L) (spin : ℤ → ℤ) (f : ℤ → ℤ → ℤ → ℂ) :
    ∃ e, periodic_extension f L spin sMWSS = .ok (2 * L, e) ∧
      ∀ b t m, 1 ≤ t → t < L → -L < m → m < L →
        fft (2 * L) (e b (2 * L - t)) m = (-1) ^ (m + spin b) * fft (2 * L) (e b t) m := by
  refine ⟨_, rfl, ?_⟩
  intro b t m t0 t1 m0 m1
  have key : ∀ t', 0 ≤ t' → t' < 2 * L →
      fft (2 * L) (ifft (2 * L) (ifftshift (2 * L)
        (extensionRows L (L + 1) (2 * L) 1 f spin b t'))) m
      = extensionRows L (L + 1) (2 * L) 1 f spin b t' (m + L) := by
    intro t' a1 a2
    rw [← fft_periodic (by omega), fft_ifft (by omega) _ (Int.emod_nonneg _ (by omega))
      (Int.emod_lt_of_pos _ (by omega)), ifftshift, Int.emod_add_emod,
      Int.emod_eq_of_lt (by omega) (by omega)]
    congr 1; omega
  change fft (2 * L) (ifft (2 * L) (ifftshift (2 * L)
        (extensionRows L (L + 1) (2 * L) 1 f spin b (2 * L - t)))) m
      = _ * fft (2 * L) (ifft (2 * L) (ifftshift (2 * L)
        (extensionRows L (L + 1) (2 * L) 1 f spin b t))) m
  rw [key _ (by omega) (by omega), key _ (by omega) (by omega),
    extensionRows_mwss _ _ _ _ _ _ (by omega) (by omega) (by omega) (by omega),
    extensionRows_mwss _ _ _ _ _ _ (by omega) (by omega) (by omega) (by omega),
    if_neg (by omega), if_neg (by omega), if_pos (by omega)]
  congr 2
  · congr 1; ring
  · congr 2; ring_nf

/-- The spatial MWSS extension: crossing the pole is `φ → φ + π` with a sign `(-1)^spin`. -/
theorem C23_parity_spatial (L : ℤ) (spin : ℤ → ℤ) (f : ℤ → ℤ → ℤ → ℂ)
    (b t p : ℤ) (t0 : 1 ≤ t) (t1 : t < L) (p0 : 0 ≤ p) (p1 : p < 2 * L) :
    periodic_extension_spatial_mwss f L spin b (2 * L - t) p
      = (-1) ^ spin b * periodic_extension_spatial_mwss f L spin b t ((p + L) % (2 * L)) := by
  unfold periodic_extension_spatial_mwss
  rw [if_neg (by omega), if_pos (by omega), negOne_natAbs, fftshift,
    show L - 1 - (2 * L - t - (L + 1)) = t by ring]
  congr 2
  rw [show 2 * L / 2 = L by omega, show p + L = p - L + 2 * L by ring, Int.add_emod_right]

/-- `unextend` undoes the periodic extension, on every input. -/
theorem C23_unextend (L : ℤ) (hL : 1 ≤ L) (spin : ℤ → ℤ) (f : ℤ → ℤ → ℤ → ℂ) (s : PyStr)
    (hs : s = sMW ∨ s = sMWSS) :
    ∃ rows e n np g, periodic_extension f L spin s = .ok (rows, e) ∧
      unextend rows e L s = .ok (n, g) ∧ ntheta (some L) s none = .ok n ∧
      nphi_equiang L s = .ok np ∧
      ∀ b t p, 0 ≤ t → t < n → 0 ≤ p → p < np → g b t p = f b t p := by
  rcases hs with rfl | rfl
  · refine ⟨2 * L - 1, _, L, 2 * L - 1, (fun b t => ifft (2 * L - 1) (ifftshift (2 * L - 1)
        (extensionRows L L (2 * L - 1) 0 f spin b t))), rfl, ?_, rfl, rfl, ?_⟩
    · exact unextend_mw _ _
    · intro b t p t0 t1 p0 p1
      rw [← ifft_ifftshift_fftshift_fft (n := 2 * L - 1) (by omega) (f b t) p0 p1]
      unfold ifft
      simp only
      rw [ifft_fwd_ifftshift (by omega), ifft_fwd_ifftshift (by omega)]
      congr 1
      apply Finset.sum_congr rfl; intro j hj
      rw [Finset.mem_Ico] at hj
      rw [extensionRows_mw _ _ _ _ _ _ t0 (by omega) hj.1 hj.2, if_pos t1]
  · refine ⟨2 * L, _, L + 1, 2 * L, (fun b t => ifft (2 * L) (ifftshift (2 * L)
        (extensionRows L (L + 1) (2 * L) 1 f spin b t))), rfl, ?_, rfl, rfl, ?_⟩
    · exact unextend_mwss _ _
    · intro b t p t0 t1 p0 p1
      rw [← ifft_ifftshift_fftshift_fft (n := 2 * L) (by omega) (f b t) p0 p1]
      unfold ifft
      simp only
      rw [ifft_fwd_ifftshift (by omega), ifft_fwd_ifftshift (by omega)]
      congr 1
      apply Finset.sum_congr rfl; intro j hj
      rw [Finset.mem_Ico] at hj
      rw [extensionRows_mwss _ _ _ _ _ _ t0 (by omega) hj.1 hj.2, if_pos (by omega)]

/-- Unsupported schemes are rejected. -/
theorem C23_reject_sampling (rows L : ℤ) (spin : ℤ → ℤ) (f : ℤ → ℤ → ℤ → ℂ) (s : PyStr)
    (hs : lower s ≠ sMW ∧ lower s ≠ sMWSS) :
    periodic_extension f L spin s = .error .valueError ∧
    periodic_extension_jax f L spin s = .error .valueError ∧
    unextend rows f L s = .error .valueError ∧ unextend_jax f L s = .error .valueError := by
  have h : extensionSizes L s = .error .valueError := by
    unfold extensionSizes ntheta nphi_equiang ntheta_extension
    by_cases h1 : lower s = sHP
    · simp [h1, bind, Except.bind]
    by_cases h2 : lower s = sGL
    · simp [h2, hs, show ¬ sGL = sHP by decide, show ¬ sGL = sMW by decide,
        show ¬ sGL = sMWSS by decide, bind, Except.bind]
    by_cases h3 : lower s = sDH
    · simp [h3, show ¬ sDH = sHP by decide, show ¬ sDH = sGL by decide,
        show ¬ sDH = sMW by decide, show ¬ sDH = sMWSS by decide, bind, Except.bind]
    · simp [h1, h2, h3, hs.1, hs.2, bind, Except.bind]
  refine ⟨?_, ?_, ?_, ?_⟩
  · simp [periodic_extension, h, bind, Except.bind]
  · simp [periodic_extension_jax, h, bind, Except.bind]
  · simp [unextend, hs.1, hs.2]
  · simp [unextend_jax, hs.1, hs.2]

/-- `unextend` (NumPy) rejects arrays that do not have the number of rows of an extension. -/
theorem C23_reject_rows (rows L n : ℤ) (f : ℤ → ℤ → ℤ → ℂ) (s : PyStr)
    (hn : ntheta_extension L s = .ok n) (h : rows ≠ n) :
    unextend rows f L s = .error .valueError := by
  unfold unextend
  by_cases h1 : ¬ (lower s = sMW ∨ lower s = sMWSS)
  · rw [if_pos h1]
  · rw [if_neg h1]; simp [hn, h, bind, Except.bind]

/-- Odd band-limits cannot be downsampled. -/
theorem C23_reject_odd (rows L : ℤ) (f : ℤ → ℤ → ℤ → ℂ) (h : L % 2 = 1) :
    downsample_by_two_mwss rows f L = .error .valueError := by
  simp [downsample_by_two_mwss, h]

/-- Downsampling the extended signal inverts upsampling it, for every input. -/
theorem C23_downsample_upsample (L : ℤ) (hL : 1 ≤ L) (f : ℤ → ℤ → ℤ → ℂ) :
    ∃ g, downsample_by_two_mwss (4 * L) (upsample_by_two_mwss_ext f L) (2 * L) = .ok (2 * L, g) ∧
      ∀ b t p, 0 ≤ t → t < 2 * L → g b t p = f b t p := by
  refine ⟨fun b t p => upsample_by_two_mwss_ext f L b (2 * t) p, ?_, ?_⟩
  · simp only [downsample_by_two_mwss]
    rw [if_neg (by omega), show 4 * L / 2 = 2 * L by omega]
  · intro b t p t0 t1
    exact upsample_ext_keeps hL f b p t t0 t1

/-- **Defect.** The documentation of `downsample_by_two_mwss` says it can also be applied to a
signal on `[0, π]`, i.e. with `L + 1` rows. Then the last row of the result (the south pole) is
missing: the result has `L/2` rows instead of the `L/2 + 1` of the scheme at resolution `L/2`. -/
theorem C23_downsample_drops_pole (L : ℤ) (hL : 2 ≤ L) (he : L % 2 = 0) (f : ℤ → ℤ → ℤ → ℂ) :
    ∃ n g m, downsample_by_two_mwss (L + 1) f L = .ok (n, g) ∧
      ntheta (some (L / 2)) sMWSS none = .ok m ∧ n = m - 1 := by
  refine ⟨(L + 1) / 2, fun b t p => f b (2 * t) p, L / 2 + 1, ?_, rfl, by omega⟩
  simp only [downsample_by_two_mwss]
  rw [if_neg (by omega)]

/-- The JAX versions return the same arrays. -/
theorem C23_jax (L : ℤ) (hL : 1 ≤ L) (spin : ℤ → ℤ) (f : Nd ℂ) :
    mw_to_mwss_jax f L spin = mw_to_mwss f L spin ∧
    upsample_by_two_mwss_jax f L spin = upsample_by_two_mwss f L spin := by
  have h1 : ∀ a, mw_to_mwss_phi_jax a L = mw_to_mwss_phi a L := by
    intro a
    unfold mw_to_mwss_phi_jax mw_to_mwss_phi
    funext b t p
    exact conjFft_eq (by omega) _ _
  have h2 : ∀ a, mw_to_mwss_theta_jax a L spin = mw_to_mwss_theta a L spin := by
    intro a
    have e : periodic_extension_jax a L spin sMW = periodic_extension a L spin sMW := by
      unfold periodic_extension_jax periodic_extension
      rw [extensionSizes_mw]
      simp only [bind, Except.bind, pure, Except.pure]
      congr 2
      funext b t p
      rw [conjFft_eq (by omega)]; rfl
    unfold mw_to_mwss_theta_jax mw_to_mwss_theta
    rw [e]
    unfold periodic_extension
    rw [extensionSizes_mw]
    simp only [bind, Except.bind, pure, Except.pure, unextend_jax, unextend, ntheta_extension,
      show lower sMWSS = sMWSS from rfl, show ¬ sMWSS = sMW by decide]
    simp only [conjFft_eq (show (0 : ℤ) < 2 * L by omega)]
    simp
  have h3 : ∀ a, upsample_by_two_mwss_ext_jax a L = upsample_by_two_mwss_ext a L := by
    intro a
    unfold upsample_by_two_mwss_ext_jax upsample_by_two_mwss_ext
    funext b t p
    exact conjFft_eq (by omega) _ _
  have h4 : ∀ a, unextend (2 * (2 * L)) a (2 * L) sMWSS = unextend_jax a (2 * L) sMWSS := by
    intro a
    simp [unextend, unextend_jax, ntheta_extension, show lower sMWSS = sMWSS from rfl,
      show sMWSS ≠ sMW by decide, Except.bind, bind, pure, Except.pure]
  constructor
  · cases f <;> simp only [mw_to_mwss_jax, mw_to_mwss, h1, h2]
  · cases f <;> simp only [upsample_by_two_mwss_jax, upsample_by_two_mwss, h3, h4]

theorem C23_jax_extension (L : ℤ) (hL : 1 ≤ L) (spin : ℤ → ℤ) (f : ℤ → ℤ → ℤ → ℂ) (s : PyStr) :
    periodic_extension_jax f L spin s = periodic_extension f L spin s := by
  unfold periodic_extension_jax periodic_extension
  cases h : extensionSizes L s with
  | error e => rfl
  | ok v =>
    obtain ⟨nt, np, nte, off⟩ := v
    have hnp : 0 < np := by
      unfold extensionSizes at h
      simp only [bind, Except.bind, pure, Except.pure] at h
      split at h
      · simp at h
      split at h
      · simp at h
      rename_i h2
      split at h
      · simp at h
      simp only [Except.ok.injEq, Prod.mk.injEq] at h
      unfold nphi_equiang at h2
      split_ifs at h2 <;> simp at h2 <;> omega
    simp only [bind, Except.bind, pure, Except.pure]
    congr 2
    funext b t p
    rw [conjFft_eq hnp]; rfl

/-- A non-trivial signal meeting the hypotheses: `L = 2`, spin 1, `F 0 (±1) = ±1`, i.e.
`2i sin θ`. -/
example : PoleParity 1 (fun m k => if m = 0 then (k : ℂ) else 0) ∧
    sphSignal 2 2 (fun m k => if m = 0 then (k : ℂ) else 0) (Real.pi / 2) 0 = 2 * Complex.I := by
  constructor
  · intro m k
    by_cases h : m = 0 <;> simp [h]
  · have h : Finset.Ioo (-2 : ℤ) 2 = {-1, 0, 1} := by decide
    rw [sphSignal, h, Finset.sum_insert (by decide), Finset.sum_insert (by decide),
      Finset.sum_singleton]
    simp only [trigPoly, h]
    rw [Finset.sum_insert (by decide), Finset.sum_insert (by decide), Finset.sum_singleton]
    simp [cis_eq]
    ring

end S2fft
