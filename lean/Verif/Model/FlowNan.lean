import Verif.Model.Env

/-!
# Uniform flow with the cases that are not numbers
-/

namespace Acoular

open Real

/-- One entry of `UniformFlowEnvironment._r` (acoular/environments.py 306-311) with `none` for NaN and infinity: division by the length of
`fdv`, by the distance, by the last denominator, and the root of a negative number. numpy warns and goes on. -/
noncomputable def flowEntryFl (ma : ℝ) (fdv : Fin 3 → ℝ) (g m : Fin 3 → ℝ) : Option ℝ :=
  let n := √(fdv 0 * fdv 0 + fdv 1 * fdv 1 + fdv 2 * fdv 2)
  if n = 0 then none else
  let f : Fin 3 → ℝ := fun i => fdv i / n
  let rmv : Fin 3 → ℝ := fun i => g i - m i
  let rm := √(rmv 0 * rmv 0 + rmv 1 * rmv 1 + rmv 2 * rmv 2)
  if rm = 0 then none else
  let mct := ma * (rmv 0 * f 0 + rmv 1 * f 1 + rmv 2 * f 2) / rm
  if mct * mct - ma * ma + 1 < 0 then none else
  let den := -mct + √(mct * mct - ma * ma + 1)
  if den = 0 then none else some (rm * (1 / den))

end Acoular
