import Mathlib.Data.Complex.Basic
import Mathlib.Algebra.BigOperators.Group.Finset.Basic

/-!
# Specification: linear convolution
-/

namespace Acoular.Spec

/-- Sample `i` of the convolution of a kernel with a signal (both zero outside their range). -/
noncomputable def convAt (kernel x : List ℂ) (i : ℕ) : ℂ :=
  ∑ j ∈ Finset.range kernel.length, if j ≤ i then kernel.getD j 0 * x.getD (i - j) 0 else 0

/-- The full linear convolution, of length `L + M - 1`. -/
noncomputable def linConv (kernel x : List ℂ) : List ℂ :=
  (List.range (kernel.length + x.length - 1)).map (convAt kernel x)

end Acoular.Spec
