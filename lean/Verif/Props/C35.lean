import Verif.Lemmas.HealpixDispatch

/-! # C35: the CUDA plan cache -/

namespace S2fft
open Spec

/-- The factor a descriptor's normalisation prescribes on a ring of `n` pixels. -/
noncomputable def normFactor (norm : Cuda.FftNorm) (forward : Bool) (n : ℤ) : ℂ :=
  match norm, forward with
  | .FORWARD, true => 1 / n
  | .BACKWARD, false => 1 / n
  | .ORTHO, _ => 1 / (Real.sqrt n : ℂ)
  | _, _ => 1

theorem cbFor_normFactor (d : Cuda.Descriptor) (fwd : Bool) (n : ℤ) :
    (Cuda.cbFor d false fwd).factor n = normFactor d.norm fwd n := by
  unfold Cuda.cbFor Cuda.setCallback Cuda.Callback.factor normFactor
  cases fwd <;> cases d.norm <;> rfl

/-- After any history of builds and executions (any descriptors with `nside ≥ 1`), the executor
obtained for `d` — by building it again or by executing with it — transforms every ring of `d`'s
`nside`, with `d`'s normalisation and shift: forward, position `p` of ring `t` receives the Fourier
sum of order `p - n/2` (shifted) or `p`; backward, the Fourier sum with the opposite sign. -/
theorem C35_history (ops : List Cuda.Op) (hops : ∀ op ∈ ops, 1 ≤ op.desc.nside)
    (op : Cuda.Op) (hop : 1 ≤ op.desc.nside) (data : ℤ → ℂ) (t p : ℤ) (h0 : 0 ≤ t)
    (h1 : t < 4 * op.desc.nside - 1) (hp0 : 0 ≤ p) (hp1 : p < ringSize op.desc.nside t) :
    ((Cuda.runOps ops).step op).2.run true data (ringStart op.desc.nside t + p)
      = (∑ k ∈ Finset.Ico 0 (ringSize op.desc.nside t), data (ringStart op.desc.nside t + k)
          * cis (-(2 * Real.pi * k * ((if op.desc.shift then p - ringSize op.desc.nside t / 2
              else p : ℤ) : ℝ) / ringSize op.desc.nside t)))
        * normFactor op.desc.norm true (ringSize op.desc.nside t) ∧
    ((Cuda.runOps ops).step op).2.run false data (ringStart op.desc.nside t + p)
      = (∑ k ∈ Finset.Ico 0 (ringSize op.desc.nside t), data (ringStart op.desc.nside t + k)
          * cis (2 * Real.pi * k * p / ringSize op.desc.nside t))
        * normFactor op.desc.norm false (ringSize op.desc.nside t) := by
  have hok : ∀ op : Cuda.Op, 1 ≤ op.desc.nside → op.ok := by
    intro op h; cases op <;> exact h
  obtain ⟨a, b⟩ := Cuda.runOps_ok ops (fun o ho => hok o (hops o ho))
  obtain ⟨_, _, hg⟩ := Cuda.caches_step_ok a b (hok op hop)
  have hpos := ringSize_pos h0 h1
  constructor
  · rw [Cuda.good_run hop hg true data h0 h1 hp0 hp1, cbFor_normFactor]
    congr 1
    unfold Cuda.dft Cuda.unshift
    rw [if_pos rfl]
    cases hs : op.desc.shift with
    | false => simp [fft]
    | true =>
      simp only [Bool.and_self, if_true]
      rw [fft_periodic hpos.ne']
      rfl
  · rw [Cuda.good_run hop hg false data h0 h1 hp0 hp1, cbFor_normFactor]
    congr 1

/-- The cached executor computes what a freshly built one computes, and rebuilding the descriptor
any number of times in between changes nothing. -/
theorem C35_cached_eq_fresh (ops : List Cuda.Op) (hops : ∀ op ∈ ops, 1 ≤ op.desc.nside)
    (op : Cuda.Op) (hop : 1 ≤ op.desc.nside) (forward : Bool) (data : ℤ → ℂ) (t p : ℤ) (h0 : 0 ≤ t)
    (h1 : t < 4 * op.desc.nside - 1) (hp0 : 0 ≤ p) (hp1 : p < ringSize op.desc.nside t) :
    ((Cuda.runOps ops).step op).2.run forward data (ringStart op.desc.nside t + p)
      = (Cuda.Exec.empty.initialize op.desc).run forward data (ringStart op.desc.nside t + p) := by
  have hok : ∀ op : Cuda.Op, 1 ≤ op.desc.nside → op.ok := by
    intro op h; cases op <;> exact h
  obtain ⟨a, b⟩ := Cuda.runOps_ok ops (fun o ho => hok o (hops o ho))
  obtain ⟨_, _, hg⟩ := Cuda.caches_step_ok a b (hok op hop)
  rw [Cuda.good_run hop hg forward data h0 h1 hp0 hp1,
    Cuda.good_run hop (Cuda.good_initialize hop (Or.inl rfl)) forward data h0 h1 hp0 hp1]

/-- Descriptors that the cache identifies although their `forward` flags differ have the same
normalisation, so sharing one executor is harmless. -/
theorem C35_shared_directions (nside L : ℤ) (r d n1 n2 : Bool)
    (h : (Cuda.mkDescriptor nside L r true n1 d).same (Cuda.mkDescriptor nside L r false n2 d)) :
    n1 = !n2 := by
  cases n1 <;> cases n2 <;> simp_all [Cuda.mkDescriptor, Cuda.descriptorNorm, Cuda.Descriptor.same]

/-- A history that mixes resolutions, rebuilds and directions. -/
example : ∀ op ∈ [Cuda.Op.build (Cuda.mkDescriptor 4 8 false true false true),
    Cuda.Op.run (Cuda.mkDescriptor 4 8 false true false true),
    Cuda.Op.build (Cuda.mkDescriptor 4 8 false false true true),
    Cuda.Op.build (Cuda.mkDescriptor 2 8 true true false false)], 1 ≤ op.desc.nside := by
  decide

end S2fft
