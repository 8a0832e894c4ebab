import Verif.Spec.Env
import Mathlib.Analysis.Calculus.Deriv.Basic

/-!
# Specification: sound rays in a moving medium

Geometrical acoustics (Hamilton's equations): in a medium at rest apart from the steady flow `w` with constant speed of
sound `c`, the position `x` and the wave slowness vector `s` on a ray obey `x' = ∂H/∂s`, `s' = -∂H/∂x` with
`H(x, s) = c |s| + w(x) · s`, the frequency of the wave in units of that of the source.
-/

namespace Acoular.Spec

/-- `g` is the gradient of `f` at `x`: the scalar product with `h` is the derivative in the direction `h`. -/
def IsGrad3 (f : (Fin 3 → ℝ) → ℝ) (g x : Fin 3 → ℝ) : Prop :=
  ∀ h : Fin 3 → ℝ, HasDerivAt (fun ε : ℝ => f fun i => x i + ε * h i) (inner3 g h) 0

/-- Hamilton function of the sound rays in the flow `w`. -/
noncomputable def rayH (c : ℝ) (w : (Fin 3 → ℝ) → Fin 3 → ℝ) (x s : Fin 3 → ℝ) : ℝ := c * len3 s + inner3 (w x) s

/-- The flow in the opposite direction, through which a ray is followed back from the observer to the sources. -/
def reversedFlow (v : (Fin 3 → ℝ) → Fin 3 → ℝ) : (Fin 3 → ℝ) → Fin 3 → ℝ := fun x i => -v x i

end Acoular.Spec
