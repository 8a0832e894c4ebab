import Verif.Model.Py
import Verif.Model.Grid
import Mathlib.Data.List.FinRange
import Mathlib.Analysis.Real.Sqrt

/-!
# Model: error metrics (`acoular/tools/metrics.py`)

The array `data` handed in is state: `self.data[f]` is a view of one row of it.
-/

namespace Acoular

section
variable {K : Type*} [Field K] {n : ℕ}

/-- acoular/tools/metrics.py 119-126: the loop over the targets for one frequency: the sums over the sectors (lists of
flat indices of grid points) and the row of the data afterwards.  `dims` is the number of dimensions of `grid.shape`:
`subdomain` returns as many index arrays, and indexing the one-dimensional row with more than one raises IndexError. -/
def integrateRow (multi : Bool) (dims : ℕ) : List (List (Fin n)) → (Fin n → K) → Except PyErr (List K × (Fin n → K))
  | [], row => .ok ([], row)
  | s :: l, row =>
    let h := (s.map row).sum
    if multi then
      match integrateRow multi dims l row with
      | .error e => .error e
      | .ok (r, row') => .ok (h :: r, row')
    else if dims ≠ 1 then .error .indexError
    else
      match integrateRow multi dims l (fun i => if i ∈ s then 0 else row i) with
      | .error e => .error e
      | .ok (r, row') => .ok (h :: r, row')

/-- acoular/tools/metrics.py 108-127 (`_integrate_sectors`): all frequencies. -/
def integrateSectors (multi : Bool) (dims : ℕ) (sectors : List (List (Fin n))) :
    List (Fin n → K) → Except PyErr (List (List K) × List (Fin n → K))
  | [] => .ok ([], [])
  | row :: l =>
    match integrateRow multi dims sectors row with
    | .error e => .error e
    | .ok (h, row') =>
      match integrateSectors multi dims sectors l with
      | .error e => .error e
      | .ok (hs, rows) => .ok (h :: hs, row' :: rows)

/-- acoular/tools/metrics.py 129-139 (`get_overall_level_error`); `lp` is `L_p`. -/
def overallLevelError (lp : K → K) (data : List (Fin n → K)) (target : List (List K)) : List K :=
  List.zipWith (fun row t => lp ((List.finRange n).map row).sum - lp t.sum) data target

/-- acoular/tools/metrics.py 141-152 (`get_specific_level_error`) and the data afterwards. -/
def specificLevelError (lp : K → K) (multi : Bool) (dims : ℕ) (sectors : List (List (Fin n))) (data : List (Fin n → K))
    (target : List (List K)) : Except PyErr (List (List K) × List (Fin n → K)) :=
  match integrateSectors multi dims sectors data with
  | .error e => .error e
  | .ok (h, data') => .ok (List.zipWith (List.zipWith fun a b => lp a - lp b) h target, data')

/-- acoular/tools/metrics.py 154-165 (`get_inverse_level_error`) and the data afterwards: `self.data.sum` is evaluated
after the sectors have been integrated. -/
def inverseLevelError (lp : K → K) (multi : Bool) (dims : ℕ) (sectors : List (List (Fin n))) (data : List (Fin n → K)) :
    Except PyErr (List K × List (Fin n → K)) :=
  match integrateSectors multi dims sectors data with
  | .error e => .error e
  | .ok (h, data') => .ok (List.zipWith (fun s row => lp s.sum - lp ((List.finRange n).map row).sum) h data', data')

end

/-- Distance of two positions (`cdist`). -/
noncomputable def cdist (p q : ℝ × ℝ × ℝ) : ℝ :=
  Real.sqrt ((p.1 - q.1) ^ 2 + (p.2.1 - q.2.1) ^ 2 + (p.2.2 - q.2.2) ^ 2)

open Classical in
/-- acoular/tools/metrics.py 83-92 (`_get_sector_radii`): distances 0 count as infinite and drop out of the minimum. -/
noncomputable def sectorRadii (adaptive : Bool) (r : ℝ) (pos : List (ℝ × ℝ × ℝ)) : List ℝ :=
  pos.map fun p =>
    if adaptive then ((pos.map fun q => cdist p q).filter fun d => decide (d ≠ 0)).foldr (fun d acc => min acc (d / 2)) r
    else r

end Acoular
