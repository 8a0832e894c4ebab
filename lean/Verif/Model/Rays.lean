import Verif.Model.Env
import Verif.Model.MovingSource

/-!
# Ray equations of `GeneralFlowEnvironment.get_interpolator` (`acoular/environments.py`)

Only the differential equations and the initial values; the loop over the rays and the interpolation between their points
are modelled in `Verif.Model.RayTimes`. The numerical integration (`scipy.integrate.ode`) is not modelled.
-/

namespace Acoular

/-- `f1` (acoular/environments.py 886-894), first component: derivative of the position. `v` gives the velocity and the
matrix of its derivatives, as `FlowField.v`. -/
noncomputable def rayVelocity (c : ℝ) (v : (Fin 3 → ℝ) → (Fin 3 → ℝ) × Matrix (Fin 3) (Fin 3) ℝ) (x s : Fin 3 → ℝ) : Fin 3 → ℝ :=
  fun i => c * s i / absVec s - (v x).1 i

/-- `f1`, second component (acoular/environments.py 893, `dot(s, -dv.T)`): derivative of the slowness. -/
noncomputable def raySlowness (v : (Fin 3 → ℝ) → (Fin 3 → ℝ) × Matrix (Fin 3) (Fin 3) ℝ) (x s : Fin 3 → ℝ) : Fin 3 → ℝ :=
  Matrix.vecMul s (-(v x).2.transpose)

/-- `s0` (acoular/environments.py 898). -/
noncomputable def rayStart (c : ℝ) (v : (Fin 3 → ℝ) → (Fin 3 → ℝ) × Matrix (Fin 3) (Fin 3) ℝ) (x0 n0 : Fin 3 → ℝ) : Fin 3 → ℝ :=
  fun i => n0 i / (c + ((v x0).1 0 * n0 0 + (v x0).1 1 * n0 1 + (v x0).1 2 * n0 2))

end Acoular
