import Mathlib.Analysis.SpecialFunctions.Log.Base

/-!
# Sound pressure level (`acoular/fbeamform.py`)

Real numbers instead of floating point numbers.
-/

namespace Acoular

/-- acoular/fbeamform.py 2487 (`L_p`), one value: `10 * log10(clip(x / 4e-10, 1e-35, None))`. -/
noncomputable def levelDb (x : ℝ) : ℝ := 10 * Real.logb 10 (max (x / 4e-10) 1e-35)

end Acoular
