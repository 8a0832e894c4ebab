import Verif.Model.Py
import Mathlib.Analysis.Real.Sqrt
import Mathlib.Data.Matrix.Mul
import Mathlib.Data.Fin.VecNotation

/-!
# The moving grid of `BeamformerTimeTraj` (`acoular/tbeamform.py`)

Real numbers instead of floating point numbers.
-/

namespace Acoular

open Matrix

/-- `cross` (acoular/tbeamform.py 313-317). -/
def pyCross (a b : Fin 3 → ℝ) : Fin 3 → ℝ :=
  ![a 1 * b 2 - a 2 * b 1, a 2 * b 0 - a 0 * b 2, a 0 * b 1 - a 1 * b 0]

/-- `array((dx, dy, dz)).T` (acoular/tbeamform.py 333-336): the vectors are the columns. -/
def frameColumns (rvec v : Fin 3 → ℝ) : Matrix (Fin 3) (Fin 3) ℝ :=
  let dy := pyCross rvec v
  let dz := pyCross v dy
  Matrix.of fun i j => ![v, dy, dz] j i

/-- `sqrt((RM * RM).sum(0))` (acoular/tbeamform.py 338). -/
noncomputable def columnNorm (R : Matrix (Fin 3) (Fin 3) ℝ) (j : Fin 3) : ℝ := √(∑ i, R i j * R i j)

open Classical in
/-- The positions for one sample (acoular/tbeamform.py 319-340), with `g` and `v` position and velocity on the
trajectory. `none` stands for positions that are not a number (division of zero by zero in line 337). -/
noncomputable def movingGpos {G : Type*} (rvec g v : Fin 3 → ℝ) (gpos : G → Fin 3 → ℝ) : Option (G → Fin 3 → ℝ) :=
  if rvec = 0 then some fun p => gpos p + g
  else
    let R := frameColumns rvec v
    if ∃ j, columnNorm R j = 0 then none
    else some fun p => (Matrix.of fun i j => R i j / columnNorm R j) *ᵥ gpos p + g

end Acoular
