import Verif.Py.Fft

/-! # Discrete Fourier transforms: characters, orthogonality, inversion, aliasing -/

namespace S2fft

theorem cis_add (a b : ℝ) : cis (a + b) = cis a * cis b := by
  unfold cis; rw [← Complex.exp_add]; push_cast; ring_nf

@[simp] theorem cis_zero : cis 0 = 1 := by simp [cis]

theorem cis_ne_zero (a : ℝ) : cis a ≠ 0 := Complex.exp_ne_zero _

theorem cis_neg (a : ℝ) : cis (-a) = (cis a)⁻¹ := by
  unfold cis; rw [← Complex.exp_neg]; push_cast; ring_nf

theorem cis_mul_neg (a : ℝ) : cis a * cis (-a) = 1 := by
  rw [← cis_add, add_neg_cancel, cis_zero]

theorem cis_sub (a b : ℝ) : cis (a - b) = cis a * cis (-b) := by
  rw [sub_eq_add_neg, cis_add]

theorem conj_cis (a : ℝ) : (starRingEnd ℂ) (cis a) = cis (-a) := by
  unfold cis
  rw [← Complex.exp_conj]
  simp

theorem cis_eq (a : ℝ) : cis a = Complex.cos a + Complex.sin a * Complex.I := by
  unfold cis; rw [Complex.exp_mul_I]

theorem cis_re (a : ℝ) : (cis a).re = Real.cos a := by
  unfold cis; exact Complex.exp_ofReal_mul_I_re a

theorem cis_im (a : ℝ) : (cis a).im = Real.sin a := by
  unfold cis; exact Complex.exp_ofReal_mul_I_im a

theorem cis_two_pi_int (k : ℤ) : cis (2 * Real.pi * k) = 1 := by
  unfold cis
  rw [Complex.exp_eq_one_iff]
  exact ⟨k, by push_cast; ring⟩

theorem cis_pi_int (k : ℤ) : cis (Real.pi * k) = (-1) ^ k := by
  unfold cis
  rw [show ((Real.pi * (k : ℝ) : ℝ) : ℂ) * Complex.I = (k : ℂ) * (Real.pi * Complex.I) by
    push_cast; ring, Complex.exp_int_mul, Complex.exp_pi_mul_I]

theorem cis_pi : cis Real.pi = -1 := by
  have := cis_pi_int 1; simpa using this

theorem cis_nat_mul (k : ℕ) (a : ℝ) : cis (k * a) = cis a ^ k := by
  unfold cis
  rw [show ((k * a : ℝ) : ℂ) * Complex.I = (k : ℂ) * ((a : ℂ) * Complex.I) by push_cast; ring,
    Complex.exp_nat_mul]

theorem cis_int_mul (k : ℤ) (a : ℝ) : cis (k * a) = cis a ^ k := by
  unfold cis
  rw [show ((k * a : ℝ) : ℂ) * Complex.I = (k : ℂ) * ((a : ℂ) * Complex.I) by push_cast; ring,
    Complex.exp_int_mul]

/-- `w n k = e^{2πik/n}`. -/
noncomputable def tw (n k : ℤ) : ℂ := cis (2 * Real.pi * k / n)

theorem tw_add (n a b : ℤ) : tw n (a + b) = tw n a * tw n b := by
  unfold tw; rw [← cis_add]; push_cast; ring_nf

@[simp] theorem tw_zero (n : ℤ) : tw n 0 = 1 := by simp [tw]

theorem tw_ne_zero (n a : ℤ) : tw n a ≠ 0 := cis_ne_zero _

theorem tw_neg (n a : ℤ) : tw n (-a) = (tw n a)⁻¹ := by
  unfold tw; rw [← cis_neg]; push_cast; ring_nf

theorem conj_tw (n a : ℤ) : (starRingEnd ℂ) (tw n a) = tw n (-a) := by
  unfold tw; rw [conj_cis]; push_cast; ring_nf

theorem tw_mul_self {n : ℤ} (hn : n ≠ 0) (k : ℤ) : tw n (n * k) = 1 := by
  unfold tw
  have : (n : ℝ) ≠ 0 := by exact_mod_cast hn
  rw [← cis_two_pi_int k]; congr 1; push_cast; field_simp

theorem tw_periodic {n : ℤ} (hn : n ≠ 0) (a k : ℤ) : tw n (a + n * k) = tw n a := by
  rw [tw_add, tw_mul_self hn, mul_one]

theorem tw_congr {n a b : ℤ} (hn : n ≠ 0) (h : n ∣ a - b) : tw n a = tw n b := by
  obtain ⟨k, hk⟩ := h
  rw [show a = b + n * k by omega, tw_periodic hn]

theorem tw_emod {n : ℤ} (hn : n ≠ 0) (a : ℤ) : tw n (a % n) = tw n a :=
  tw_congr hn ⟨-(a / n), by have := Int.emod_add_mul_ediv a n; linarith⟩

theorem tw_emod_mul {n : ℤ} (hn : n ≠ 0) (a b : ℤ) : tw n (a % n * b) = tw n (a * b) :=
  tw_congr hn ⟨-(a / n) * b, by have := Int.emod_add_mul_ediv a n; linear_combination b * this⟩

theorem tw_eq_one_iff {n : ℤ} (hn : n ≠ 0) (k : ℤ) : tw n k = 1 ↔ n ∣ k := by
  constructor
  · intro h
    unfold tw cis at h
    rw [Complex.exp_eq_one_iff] at h
    obtain ⟨q, hq⟩ := h
    have hI := Complex.I_ne_zero
    have hn' : (n : ℝ) ≠ 0 := by exact_mod_cast hn
    have h2 : ((2 * Real.pi * k / n : ℝ) : ℂ) = ((q * (2 * Real.pi) : ℝ) : ℂ) := by
      apply mul_right_cancel₀ hI
      rw [hq]; push_cast; ring
    have h3 : 2 * Real.pi * k / n = q * (2 * Real.pi) := by exact_mod_cast h2
    have hpi := Real.pi_pos
    rw [div_eq_iff hn'] at h3
    have h4 : (k : ℝ) = q * n := by
      have : 2 * Real.pi * ((k : ℝ) - q * n) = 0 := by linarith
      have := (mul_eq_zero.1 this).resolve_left (by positivity)
      linarith
    refine ⟨q, ?_⟩
    have : k = q * n := by exact_mod_cast h4
    rw [this]; ring
  · rintro ⟨q, rfl⟩
    exact tw_mul_self hn q

/-! ## Sums over integer intervals -/

theorem sum_Ico_eq_range {M : Type*} [AddCommMonoid M] (n : ℤ) (f : ℤ → M) :
    ∑ j ∈ Finset.Ico 0 n, f j = ∑ j ∈ Finset.range n.toNat, f (j : ℤ) := by
  rcases le_total 0 n with h | h
  · obtain ⟨N, rfl⟩ := Int.eq_ofNat_of_zero_le h
    rw [Int.toNat_natCast]
    induction N with
    | zero => simp
    | succ N ih =>
      rw [Finset.sum_range_succ, Nat.cast_succ, sum_Ico_succ_top' (by omega), ih (by omega)]
  · rw [Finset.Ico_eq_empty_of_le h, Int.toNat_of_nonpos h]; simp

theorem sum_Ico_shift {M : Type*} [AddCommMonoid M] (a b c : ℤ) (f : ℤ → M) :
    ∑ j ∈ Finset.Ico (a + c) (b + c), f j = ∑ j ∈ Finset.Ico a b, f (j + c) := by
  symm
  apply Finset.sum_bij (fun j _ => j + c)
  · intro j hj; simp at *; omega
  · intro i _ j _ h; omega
  · intro j hj; exact ⟨j - c, by simp at *; omega, by omega⟩
  · intros; rfl

theorem sum_Ico_reflect' {M : Type*} [AddCommMonoid M] (a b c : ℤ) (f : ℤ → M) :
    ∑ j ∈ Finset.Ico a b, f (c - j) = ∑ j ∈ Finset.Ico (c - b + 1) (c - a + 1), f j := by
  apply Finset.sum_bij (fun j _ => c - j)
  · intro j hj; simp at *; omega
  · intro i _ j _ h; omega
  · intro j hj; exact ⟨c - j, by simp at *; omega, by omega⟩
  · intros; rfl

theorem sum_Ico_consec {M : Type*} [AddCommMonoid M] {a b c : ℤ} (h1 : a ≤ b) (h2 : b ≤ c)
    (f : ℤ → M) :
    ∑ j ∈ Finset.Ico a c, f j = ∑ j ∈ Finset.Ico a b, f j + ∑ j ∈ Finset.Ico b c, f j := by
  rw [← Finset.sum_union]
  · congr 1; ext x; simp; omega
  · rw [Finset.disjoint_left]; intro x; simp; omega

theorem sum_Ico_bot {M : Type*} [AddCommMonoid M] {a b : ℤ} (h : a < b) (f : ℤ → M) :
    ∑ j ∈ Finset.Ico a b, f j = f a + ∑ j ∈ Finset.Ico (a + 1) b, f j := by
  have := sum_Ico_consec (show a ≤ a + 1 by omega) (show a + 1 ≤ b by omega) f
  rw [this]; congr 1
  have : Finset.Ico a (a + 1) = {a} := by ext x; simp; omega
  rw [this, Finset.sum_singleton]

/-- The residues `(j + c) % n`, `0 ≤ j < n`, are a permutation of `0, …, n-1`. -/
theorem sum_Ico_emod {M : Type*} [AddCommMonoid M] {n : ℤ} (hn : 0 < n) (c : ℤ) (f : ℤ → M) :
    ∑ j ∈ Finset.Ico 0 n, f ((j + c) % n) = ∑ j ∈ Finset.Ico 0 n, f j := by
  apply Finset.sum_bij (fun j _ => (j + c) % n)
  · intro j _; simp; exact ⟨Int.emod_nonneg _ (by omega), Int.emod_lt_of_pos _ hn⟩
  · intro i hi j hj h
    simp at hi hj
    have h1 : (i + c) ≡ (j + c) [ZMOD n] := h
    have h2 : i ≡ j [ZMOD n] := Int.ModEq.add_right_cancel' c h1
    have := Int.emod_eq_of_lt hi.1 hi.2
    have := Int.emod_eq_of_lt hj.1 hj.2
    have h3 : i % n = j % n := h2
    omega
  · intro j hj
    simp at hj
    refine ⟨(j - c) % n, ?_, ?_⟩
    · simp; exact ⟨Int.emod_nonneg _ (by omega), Int.emod_lt_of_pos _ hn⟩
    · show ((j - c) % n + c) % n = j
      rw [Int.emod_add_emod, sub_add_cancel, Int.emod_eq_of_lt hj.1 hj.2]
  · intros; rfl

/-- Orthogonality of the characters. -/
theorem sum_tw {n : ℤ} (hn : 0 < n) (k : ℤ) :
    ∑ j ∈ Finset.Ico 0 n, tw n (j * k) = if n ∣ k then (n : ℂ) else 0 := by
  have e : ∀ j : ℕ, tw n ((j : ℤ) * k) = tw n k ^ j := by
    intro j
    unfold tw
    rw [← cis_nat_mul]; congr 1; push_cast; ring
  rw [sum_Ico_eq_range]
  simp only [e]
  obtain ⟨N, rfl⟩ := Int.eq_ofNat_of_zero_le hn.le
  rw [Int.toNat_natCast]
  split_ifs with h
  · rw [(tw_eq_one_iff (by omega) k).2 h]; simp
  · have h1 : tw N k ≠ 1 := fun h' => h ((tw_eq_one_iff (by omega) k).1 h')
    have h2 : tw N k ^ N = 1 := by
      rw [← e N, tw_mul_self (by omega)]
    rw [geom_sum_eq h1, h2]; simp

theorem fft_eq (n : ℤ) (x : ℤ → ℂ) (k : ℤ) :
    fft n x k = ∑ j ∈ Finset.Ico 0 n, x j * tw n (-(j * k)) := by
  unfold fft tw
  apply Finset.sum_congr rfl; intro j _; congr 2; push_cast; ring

theorem ifft_fwd_eq (n : ℤ) (x : ℤ → ℂ) (p : ℤ) :
    ifft_fwd n x p = ∑ k ∈ Finset.Ico 0 n, x k * tw n (k * p) := by
  unfold ifft_fwd tw
  apply Finset.sum_congr rfl; intro j _; congr 2; push_cast; ring

theorem dvd_sub_iff_of_range {n j p : ℤ} (hj : 0 ≤ j ∧ j < n) (hp : 0 ≤ p ∧ p < n) :
    n ∣ p - j ↔ j = p := by
  constructor
  · intro h
    have h1 : p % n = j % n := Int.emod_eq_emod_iff_emod_sub_eq_zero.2
        (Int.emod_eq_zero_of_dvd h)
    rw [Int.emod_eq_of_lt hp.1 hp.2, Int.emod_eq_of_lt hj.1 hj.2] at h1
    exact h1.symm
  · rintro rfl; simp

/-- `ifft` inverts `fft`. -/
theorem ifft_fft {n : ℤ} (hn : 0 < n) (x : ℤ → ℂ) {p : ℤ} (h0 : 0 ≤ p) (h1 : p < n) :
    ifft n (fft n x) p = x p := by
  unfold ifft
  rw [ifft_fwd_eq]
  simp only [fft_eq, Finset.sum_mul]
  rw [Finset.sum_comm]
  have : ∀ j ∈ Finset.Ico 0 n, ∑ k ∈ Finset.Ico 0 n, x j * tw n (-(j * k)) * tw n (k * p)
      = if j = p then x p * n else 0 := by
    intro j hj
    simp only [Finset.mem_Ico] at hj
    have : ∀ k ∈ Finset.Ico 0 n, x j * tw n (-(j * k)) * tw n (k * p)
        = x j * tw n (k * (p - j)) := by
      intro k _; rw [mul_assoc, ← tw_add]; congr 2; ring
    rw [Finset.sum_congr rfl this, ← Finset.mul_sum, sum_tw hn]
    by_cases h : j = p
    · subst h; simp
    · rw [if_neg h, if_neg (by rw [dvd_sub_iff_of_range hj ⟨h0, h1⟩]; exact h), mul_zero]
  rw [Finset.sum_congr rfl this, Finset.sum_ite_eq' (Finset.Ico 0 n) p]
  have hn' : (n : ℂ) ≠ 0 := by exact_mod_cast hn.ne'
  rw [if_pos (by simp; omega)]
  field_simp

theorem fft_periodic {n : ℤ} (hn : n ≠ 0) (x : ℤ → ℂ) (k : ℤ) : fft n x (k % n) = fft n x k := by
  rw [fft_eq, fft_eq]
  apply Finset.sum_congr rfl; intro j _; congr 1
  apply tw_congr hn
  exact ⟨j * (k / n), by have := Int.emod_add_mul_ediv k n; linear_combination -j * this⟩

theorem ifft_fwd_periodic {n : ℤ} (hn : n ≠ 0) (x : ℤ → ℂ) (k : ℤ) :
    ifft_fwd n x (k % n) = ifft_fwd n x k := by
  rw [ifft_fwd_eq, ifft_fwd_eq]
  apply Finset.sum_congr rfl; intro j _; congr 1
  apply tw_congr hn
  exact ⟨-j * (k / n), by have := Int.emod_add_mul_ediv k n; linear_combination j * this⟩

/-- `fft` inverts `ifft`. -/
theorem fft_ifft {n : ℤ} (hn : 0 < n) (x : ℤ → ℂ) {k : ℤ} (h0 : 0 ≤ k) (h1 : k < n) :
    fft n (ifft n x) k = x k := by
  rw [fft_eq]
  simp only [ifft, ifft_fwd_eq, Finset.sum_mul, Finset.sum_div]
  rw [Finset.sum_comm]
  have hn' : (n : ℂ) ≠ 0 := by exact_mod_cast hn.ne'
  have : ∀ j ∈ Finset.Ico 0 n, ∑ p ∈ Finset.Ico 0 n, x j * tw n (j * p) / n * tw n (-(p * k))
      = if j = k then x k else 0 := by
    intro j hj
    simp only [Finset.mem_Ico] at hj
    have : ∀ p ∈ Finset.Ico 0 n, x j * tw n (j * p) / n * tw n (-(p * k))
        = x j / n * tw n (p * (j - k)) := by
      intro p _
      rw [show p * (j - k) = j * p + -(p * k) by ring, tw_add]; ring
    rw [Finset.sum_congr rfl this, ← Finset.mul_sum, sum_tw hn]
    by_cases h : j = k
    · subst h; simp; field_simp
    · rw [if_neg h, if_neg (by rw [dvd_sub_iff_of_range ⟨h0, h1⟩ hj]; exact fun e => h e.symm),
        mul_zero]
  rw [Finset.sum_congr rfl this, Finset.sum_ite_eq' (Finset.Ico 0 n) k, if_pos (by simp; omega)]

/-- Inverse transform of a centred spectrum. -/
theorem ifft_fwd_ifftshift {n : ℤ} (hn : 0 < n) (x : ℤ → ℂ) (p : ℤ) :
    ifft_fwd n (ifftshift n x) p = ∑ i ∈ Finset.Ico 0 n, x i * tw n ((i - n / 2) * p) := by
  rw [ifft_fwd_eq, ← sum_Ico_emod hn (n / 2) (fun i => x i * tw n ((i - n / 2) * p))]
  apply Finset.sum_congr rfl; intro j _
  unfold ifftshift
  congr 1
  apply tw_congr hn.ne'
  have := Int.emod_add_mul_ediv (j + n / 2) n
  exact ⟨(j + n / 2) / n * p, by linear_combination (-p) * this⟩

/-- Centred forward transform. -/
theorem fftshift_fft {n : ℤ} (hn : 0 < n) (x : ℤ → ℂ) (k : ℤ) :
    fftshift n (fft n x) k = fft n x (k - n / 2) := by
  unfold fftshift; exact fft_periodic hn.ne' x _

/-- Aliasing: folding a vector into residue classes preserves sums against periodic weights. -/
theorem sum_fold {n : ℤ} (hn : 0 < n) (N s : ℤ) (f w : ℤ → ℂ)
    (hw : ∀ a b, n ∣ a - b → w a = w b) :
    ∑ i ∈ Finset.Ico 0 n, (∑ k ∈ (Finset.Ico 0 N).filter (fun k => (k - s) % n = i), f k) * w i
      = ∑ k ∈ Finset.Ico 0 N, f k * w (k - s) := by
  have hmaps : ∀ k ∈ Finset.Ico 0 N, (k - s) % n ∈ Finset.Ico 0 n := by
    intro k _; simp; exact ⟨Int.emod_nonneg _ hn.ne', Int.emod_lt_of_pos _ hn⟩
  rw [← Finset.sum_fiberwise_of_maps_to hmaps]
  apply Finset.sum_congr rfl; intro i _
  rw [Finset.sum_mul]
  apply Finset.sum_congr rfl; intro k hk
  simp only [Finset.mem_filter] at hk
  congr 1
  apply hw
  rw [← hk.2]
  have := Int.emod_add_mul_ediv (k - s) n
  exact ⟨-((k - s) / n), by linarith⟩

/-- `irfft` of the non-negative half of a Hermitian spectrum of even length `n = 2h` with zero
Nyquist term is the full inverse transform. -/
theorem irfft_fwd_hermitian {h : ℤ} (hh : 0 < h) (a : ℤ → ℂ) (p : ℤ)
    (hherm : ∀ k, 0 ≤ k → k < h → a (h - k) = (starRingEnd ℂ) (a (h + k))) (hny : a 0 = 0) :
    irfft_fwd h (fun k => a (h + k)) (2 * h) p
      = ∑ k ∈ Finset.Ico 0 (2 * h), a k * tw (2 * h) ((k - h) * p) := by
  unfold irfft_fwd
  simp only
  have e1 : (2 * h + 1) / 2 = h := by omega
  have e2 : 2 * h / 2 = h := by omega
  rw [e1, e2, if_pos hh, if_neg (lt_irrefl h)]
  have hre : ∀ z : ℂ, (((2 * z.re : ℝ)) : ℂ) = z + (starRingEnd ℂ) z := by
    intro z; rw [Complex.add_conj]
  have h0 : ((a (h + 0)).re : ℂ) = a h := by
    have := hherm 0 le_rfl hh
    rw [add_zero, sub_zero] at *
    exact (Complex.conj_eq_iff_re.1 this.symm)
  push_cast [h0]
  have hsum : ∑ k ∈ Finset.Ico 1 h, ((2 : ℂ) * (((if k < h then a (h + k) else 0)
      * cis (2 * Real.pi * k * p / ((2 : ℝ) * (h : ℝ)))).re : ℂ))
      = ∑ k ∈ Finset.Ico 1 h, (a (h + k) * tw (2 * h) (k * p)
          + a (h - k) * tw (2 * h) (-(k * p))) := by
    apply Finset.sum_congr rfl; intro k hk
    simp only [Finset.mem_Ico] at hk
    rw [if_pos hk.2, hherm k (by omega) hk.2, ← conj_tw, ← map_mul]
    have := hre (a (h + k) * tw (2 * h) (k * p))
    push_cast at this
    rw [← this]
    congr 3
    unfold tw; congr 2; push_cast; ring
  push_cast at hsum
  rw [hsum, Finset.sum_add_distrib]
  rw [sum_Ico_consec (show (0 : ℤ) ≤ h by omega) (show h ≤ 2 * h by omega)]
  rw [sum_Ico_bot (show h < 2 * h by omega), sum_Ico_bot hh, hny]
  have s1 : ∑ j ∈ Finset.Ico (h + 1) (2 * h), a j * tw (2 * h) ((j - h) * p)
      = ∑ k ∈ Finset.Ico 1 h, a (h + k) * tw (2 * h) (k * p) := by
    have := sum_Ico_shift 1 h h (fun j => a j * tw (2 * h) ((j - h) * p))
    rw [show 1 + h = h + 1 by ring, show h + h = 2 * h by ring] at this
    rw [this]
    apply Finset.sum_congr rfl; intro k _
    rw [add_comm k h, add_sub_cancel_left]
  have s2 : ∑ j ∈ Finset.Ico (0 + 1) h, a j * tw (2 * h) ((j - h) * p)
      = ∑ k ∈ Finset.Ico 1 h, a (h - k) * tw (2 * h) (-(k * p)) := by
    have := sum_Ico_reflect' 1 h h (fun j => a j * tw (2 * h) ((j - h) * p))
    rw [show h - h + 1 = 0 + 1 by ring, show h - 1 + 1 = h by ring] at this
    rw [← this]
    apply Finset.sum_congr rfl; intro k _
    congr 2; ring
  rw [s1, s2]
  simp
  ring

end S2fft
