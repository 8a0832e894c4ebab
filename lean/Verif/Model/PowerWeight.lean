import Verif.Model.Py
import Mathlib.Analysis.Real.Sqrt
import Mathlib.Data.List.Sort
import Mathlib.Data.List.Dedup

/-!
# Weights of constant power per area (`const_power_weight`, `acoular/tbeamform.py`)

Real numbers instead of floating point numbers. The distances from the centre, divided by the largest one and rounded
(acoular/tbeamform.py 75-77), are the input.
-/

namespace Acoular

/-- The first result of `numpy.unique`: the different values in increasing order. -/
noncomputable def npUnique (r : List ℝ) : List ℝ := (r.insertionSort (· ≤ ·)).dedup

/-- `(ru[1:] + ru[:-1]) / 2` (acoular/tbeamform.py 79). -/
noncomputable def midpoints (ru : List ℝ) : List ℝ := List.zipWith (fun a b => (a + b) / 2) ru.tail ru.dropLast

open Classical in
/-- `numpy.histogram(r, bins)`: the number of values in each of the half-open intervals, the last one being closed. -/
noncomputable def npHistogram (r bins : List ℝ) : List ℕ :=
  (List.range (bins.length - 1)).map fun k =>
    r.countP fun x => decide (bins.getD k 0 ≤ x ∧ (x < bins.getD (k + 1) 0 ∨ k + 2 = bins.length ∧ x = bins.getD (k + 1) 0))

/-- The edges of the rings (acoular/tbeamform.py 80): `ru[-1]` raises if there is only one distance. -/
noncomputable def ringEdges (r : List ℝ) : Except PyErr (List ℝ) :=
  let ru := midpoints (npUnique r)
  match ru.getLast?, r.max? with
  | none, _ => .error .indexError
  | _, none => .error .valueError
  | some l, some m => .ok (0 :: ru ++ [1.5 * m - 0.5 * l])

/-- `const_power_weight` (acoular/tbeamform.py 78-84). -/
noncomputable def constPowerWeight (r : List ℝ) : Except PyErr (List ℝ) :=
  match ringEdges r with
  | .error e => .error e
  | .ok bins =>
    let count := npHistogram r bins
    let weights := (List.range count.length).map fun k =>
      √((bins.getD (k + 1) 0 * bins.getD (k + 1) 0 - bins.getD k 0 * bins.getD k 0) / count.getD k 0)
    let mean := weights.sum / weights.length
    let weights := weights.map (· / mean)
    .ok (r.map fun x => weights.getD ((npUnique r).idxOf x) 0)

end Acoular
