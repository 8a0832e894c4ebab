import Verif.Model.Grid
import Mathlib.Analysis.Real.Sqrt
import Mathlib.Data.Prod.Lex
import Mathlib.Analysis.Convex.Hull

/-!
# Line grids, merged grids and convex sectors (`acoular/grids.py`)

Real numbers instead of floating point numbers.
-/

namespace Acoular

/-- A point in space. -/
abbrev P3 := Fin 3 → ℝ

/-- `numpy.linalg.norm` of a vector. -/
noncomputable def norm3 (v : P3) : ℝ := Real.sqrt (v 0 ^ 2 + v 1 ^ 2 + v 2 ^ 2)

/-- `LineGrid.pos` (acoular/grids.py 1000-1008). `length` is a Python float, so dividing it by the integer 0 raises;
`zeros` with a negative dimension raises. -/
noncomputable def lineGridPos (loc direction : P3) (length : ℝ) (numPoints : ℤ) : Except PyErr (List P3) :=
  if numPoints - 1 = 0 then .error .zeroDivisionError
  else
    let dist := length / ((numPoints - 1 : ℤ) : ℝ)
    let direcN : P3 := fun a => direction a / norm3 direction
    if numPoints < 0 then .error .valueError
    else .ok ((List.range numPoints.toNat).map fun (s : ℕ) a => loc a + direcN a * dist * s)

/-- Columns as `numpy.unique` compares them: first row first. -/
abbrev Lex3 := ℝ ×ₗ ℝ ×ₗ ℝ

/-- The second half of `unique` for one axis: of equal neighbours in the sorted list the first stays. -/
noncomputable def dropEqual : List Lex3 → List Lex3
  | [] => []
  | [a] => [a]
  | a :: b :: l => if a = b then dropEqual (b :: l) else a :: dropEqual (b :: l)

/-- `numpy.unique(·, axis=1)`. -/
noncomputable def uniqueCols (l : List Lex3) : List Lex3 := dropEqual (l.mergeSort fun a b => decide (a ≤ b))

/-- A grid in a merged grid: the string `grid.__class__.__name__ + grid.digest` and `grid.pos`. -/
structure NamedGrid where
  /-- name -/
  name : String
  /-- columns of `pos` -/
  pos : List Lex3

/-- `MergeGrid.pos` (acoular/grids.py 1078-1083). -/
noncomputable def mergePos (gs : List NamedGrid) : List Lex3 := uniqueCols (gs.foldl (fun b g => b ++ g.pos) [])

/-- `MergeGrid.size` (acoular/grids.py 1063-1065). -/
noncomputable def mergeSize (gs : List NamedGrid) : ℕ := (mergePos gs).length

/-- `MergeGrid.subgrids` (acoular/grids.py 1071-1076), its only row. -/
def mergeSubgrids (gs : List NamedGrid) : List String :=
  gs.foldl (fun b g => b ++ List.replicate g.pos.length g.name) []

/-! ## `in_hull` (acoular/grids.py 85-134) -/

/-- What is known about `Delaunay(hull).find_simplex(·, tol=0)`: the simplices cover the convex hull of the points
exactly, and the number of a simplex that contains the point is returned, or -1 if there is none. (Which one is returned
for points on common edges is not specified.) -/
structure Delaunay (pts : Set (ℝ × ℝ)) where
  /-- the simplices, as sets of points of the plane -/
  simplices : List (Set (ℝ × ℝ))
  /-- `find_simplex` -/
  find : ℝ × ℝ → ℤ
  /-- they cover the hull -/
  cover : ∀ p, p ∈ convexHull ℝ pts ↔ ∃ s ∈ simplices, p ∈ s
  /-- -1 outside -/
  outside : ∀ p, (∀ s ∈ simplices, p ∉ s) → find p = -1
  /-- a simplex with the point inside -/
  inside : ∀ p, (∃ s ∈ simplices, p ∈ s) → ∃ k : ℕ, find p = k ∧ ∃ h : k < simplices.length, p ∈ simplices[k]

/-- `in_hull(p, hull, border)` (acoular/grids.py 131-134) for one point, `tol` 0. -/
def inHull {pts : Set (ℝ × ℝ)} (d : Delaunay pts) (border : Bool) (p : ℝ × ℝ) : Bool :=
  if border then decide (0 ≤ d.find p) else decide (0 < d.find p)

/-- `ConvexSector.contains` (acoular/grids.py 1523-1530) with `abs_tol` 0; `mean` is the mean of the corners. -/
noncomputable def convexContains {pts : Set (ℝ × ℝ)} (d : Delaunay pts) (o : SectorOpts ℝ) (mean : ℝ × ℝ) (pos : List (ℝ × ℝ × ℝ)) :
    Except PyErr (List Bool) :=
  polyFallback o mean.1 mean.2 (pos.map fun p => inHull d o.border (p.1, p.2.1))

end Acoular
