import Verif.Model.Dtypes

/-! # Which numbers an array of a data type can hold -/

namespace S2fft.Spec

/-- An array of the type can hold the number. -/
def Holds : Dtype → ℂ → Prop
  | .int, z => ∃ n : ℤ, z = n
  | .float, z => ∃ x : ℝ, z = x
  | .complex, _ => True

end S2fft.Spec
