import Mathlib.Analysis.SpecialFunctions.Complex.Circle
import Mathlib.LinearAlgebra.Matrix.PosDef

/-!
# Specification of conventional beamforming in the frequency domain

Quadratic forms and the four steering vector formulations of Sarradj (2012); `n` microphones, `r0` distance of the
focus point to the reference, `rm` distances to the microphones, `k` wave number.
-/

namespace Acoular.Spec

open Matrix Complex

variable {n : ℕ}

/-- `h^H C h`. -/
noncomputable def quadForm (C : Matrix (Fin n) (Fin n) ℂ) (h : Fin n → ℂ) : ℂ := star h ⬝ᵥ (C *ᵥ h)

/-- The matrix with its diagonal set to zero. -/
def removeDiag (C : Matrix (Fin n) (Fin n) ℂ) : Matrix (Fin n) (Fin n) ℂ := fun i j => if i = j then 0 else C i j

/-- The four formulations. -/
inductive Formulation where
  | classic | inverse | trueLevel | trueLocation
  deriving DecidableEq

/-- Amplitude of the weight of microphone `m`. -/
noncomputable def steerAmp (st : Formulation) (r0 : ℝ) (rm : Fin n → ℝ) (m : Fin n) : ℝ :=
  match st with
  | .classic => 1 / n
  | .inverse => rm m / (r0 * n)
  | .trueLevel => 1 / (r0 * rm m * ∑ l, 1 / (rm l) ^ 2)
  | .trueLocation => 1 / (rm m * √(n * ∑ l, 1 / (rm l) ^ 2))

/-- Weight of microphone `m`: amplitude times `exp(-jk(r_m - r_0))`. -/
noncomputable def steer (st : Formulation) (r0 : ℝ) (rm : Fin n → ℝ) (k : ℝ) (m : Fin n) : ℂ :=
  steerAmp st r0 rm m * exp (-(I * (k * (rm m - r0) : ℝ)))

/-- Sound pressure of a monopole source at the microphones, relative to that at the reference. -/
noncomputable def monopole (r0 : ℝ) (rm : Fin n → ℝ) (k : ℝ) (m : Fin n) : ℂ :=
  (r0 / rm m : ℝ) * exp (-(I * (k * (rm m - r0) : ℝ)))

/-- Matrix of a component: eigenvalue times `v v^H`, summed over the components. -/
noncomputable def assemble {e : ℕ} (eva : Fin e → ℝ) (eve : Fin n → Fin e → ℂ) : Matrix (Fin n) (Fin n) ℂ :=
  fun i j => ∑ l, (eva l : ℂ) * (eve i l * starRingEnd ℂ (eve j l))

end Acoular.Spec
