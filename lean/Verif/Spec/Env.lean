import Mathlib.Analysis.SpecialFunctions.Trigonometric.Basic
import Mathlib.Analysis.Calculus.FDeriv.Basic
import Mathlib.Analysis.Normed.Module.FiniteDimension
import Mathlib.LinearAlgebra.Matrix.ToLin
import Mathlib.Analysis.Real.Sqrt

/-!
# Specification: sound propagation, flow fields and directions

Points and vectors of space are functions `Fin 3 → ℝ`.
-/

namespace Acoular.Spec

/-- Scalar product. -/
def inner3 (a b : Fin 3 → ℝ) : ℝ := a 0 * b 0 + a 1 * b 1 + a 2 * b 2

/-- Length of a vector. -/
noncomputable def len3 (a : Fin 3 → ℝ) : ℝ := √(a 0 ^ 2 + a 1 ^ 2 + a 2 ^ 2)

/-- The unit vector in the direction of `a`. -/
noncomputable def unit3 (a : Fin 3 → ℝ) : Fin 3 → ℝ := fun i => a i / len3 a

/-- Sound emitted at `g` reaches `m` after travelling the distance `d` (time times speed of sound) in a uniform flow
with the Mach number `M` in the direction `e`: the centre of the spherical wave front has been carried to
`g + M d e` by then and the front has the radius `d`. -/
def Reaches (M : ℝ) (e g m : Fin 3 → ℝ) (d : ℝ) : Prop :=
  0 ≤ d ∧ len3 (fun i => m i - (g i + M * d * e i)) = d

/-- `J` is the Jacobian matrix (rows: components of the field, columns: coordinates) of `f` at `x`. -/
def IsJacobian (f : (Fin 3 → ℝ) → Fin 3 → ℝ) (J : Matrix (Fin 3) (Fin 3) ℝ) (x : Fin 3 → ℝ) : Prop :=
  HasFDerivAt f (LinearMap.toContinuousLinearMap (Matrix.toLin' J)) x

end Acoular.Spec
