import Verif.Model.Metrics
import Verif.Model.Level

/-!
# Error metrics with their checks (`acoular/tools/metrics.py`)

The default `multi_assignment = True`; the other case is in `Model/Metrics.lean` (C50).
-/

namespace Acoular

/-- What `MetricEvaluator` is given: maps (`n` points each), targets, and the sizes of the two grids. `numTargets` is
`target_data.shape[1]`. -/
structure MetricInput (n : ℕ) where
  data : List (Fin n → ℝ)
  target : List (List ℝ)
  numTargets : ℕ
  gridSize : ℕ
  targetSize : ℕ

/-- `_validate_shapes` (acoular/tools/metrics.py 72-81). -/
def MetricInput.check {n : ℕ} (x : MetricInput n) : Except PyErr Unit :=
  if x.data.length ≠ x.target.length then .error .valueError
  else if n ≠ x.gridSize then .error .valueError
  else if x.numTargets ≠ x.targetSize then .error .valueError
  else .ok ()

/-- `get_overall_level_error` (acoular/tools/metrics.py 129-139). -/
noncomputable def MetricInput.overall {n : ℕ} (x : MetricInput n) : Except PyErr (List ℝ) := do
  x.check
  .ok (overallLevelError levelDb x.data x.target)

/-- `get_specific_level_error` (acoular/tools/metrics.py 141-152); `sectors`: the points of the sector of every target. -/
noncomputable def MetricInput.specific {n : ℕ} (x : MetricInput n) (dims : ℕ) (sectors : List (List (Fin n))) : Except PyErr (List (List ℝ)) := do
  x.check
  let r ← specificLevelError levelDb true dims sectors x.data x.target
  .ok r.1

/-- `get_inverse_level_error` (acoular/tools/metrics.py 154-165). -/
noncomputable def MetricInput.inverse {n : ℕ} (x : MetricInput n) (dims : ℕ) (sectors : List (List (Fin n))) : Except PyErr (List ℝ) := do
  x.check
  let r ← inverseLevelError levelDb true dims sectors x.data
  .ok r.1

end Acoular
