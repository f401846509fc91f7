import Verif.Model.Base

/-! # Linear combinations of arrays -/

namespace S2fft.Spec

/-- `a * x + b * y` for arrays of the same shape. -/
noncomputable def comb (a b : ℂ) : Nd ℂ → Nd ℂ → Nd ℂ
  | .d1 n x, .d1 _ y => .d1 n (fun i => a * x i + b * y i)
  | .d2 r c x, .d2 _ _ y => .d2 r c (fun i j => a * x i j + b * y i j)
  | .d3 p r c x, .d3 _ _ _ y => .d3 p r c (fun i j k => a * x i j k + b * y i j k)
  | x, _ => x

end S2fft.Spec
