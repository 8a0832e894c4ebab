import Verif.Model.Interp
import Mathlib.Analysis.Convex.Combination
import Mathlib.Analysis.Convex.Extreme

/-!
# Linear interpolation for plane arrays (`acoular/tprocess.py`, `SpatialInterpolator…`, dimension `'2D'`, method `'linear'`)

Points are pairs of angle and radius. The triangulation of `scipy.spatial` is described by what is known about it.
-/

namespace Acoular

open Real

/-- What is known about a Delaunay triangulation of points in the plane and its search: for a point of the convex hull it gives
the corners of a triangle around it with the barycentric coordinates, outside nothing; no point lies in a triangle, except the
corners. -/
structure PlaneMesh (pts : List (ℝ × ℝ)) where
  /-- the corners (numbers of points) and the barycentric coordinates -/
  find : ℝ × ℝ → Option (List (ℕ × ℝ))
  /-- nothing outside of the hull -/
  outside : ∀ p, find p = none ↔ p ∉ convexHull ℝ {q | q ∈ pts}
  /-- numbers of points -/
  index : ∀ p ws, find p = some ws → ∀ kw ∈ ws, kw.1 < pts.length
  /-- barycentric coordinates are not negative -/
  nonneg : ∀ p ws, find p = some ws → ∀ kw ∈ ws, 0 ≤ kw.2
  /-- and have the sum one -/
  total : ∀ p ws, find p = some ws → (ws.map Prod.snd).sum = 1
  /-- they are coordinates of the point -/
  coord : ∀ p ws, find p = some ws → (ws.map fun kw => kw.2 * (pts.getD kw.1 0).1).sum = p.1 ∧
    (ws.map fun kw => kw.2 * (pts.getD kw.1 0).2).sum = p.2
  /-- no other points in a triangle -/
  proper : ∀ p ws, find p = some ws → ∀ q ∈ pts, q ∈ convexHull ℝ {c | ∃ kw ∈ ws, pts[kw.1]? = some c} →
    ∃ kw ∈ ws, pts[kw.1]? = some q
  /-- the coordinates of a corner -/
  corner : ∀ q ∈ pts, ∀ ws, find q = some ws → ∀ kw ∈ ws, kw.2 ≠ 0 → pts[kw.1]? = some q

/-- `LinearNDInterpolator(mesh, values, fill_value=0)` at a point. -/
noncomputable def meshValue {pts : List (ℝ × ℝ)} (mesh : PlaneMesh pts) (values : List ℝ) (p : ℝ × ℝ) : ℝ :=
  match mesh.find p with
  | some ws => (ws.map fun kw => kw.2 * values.getD kw.1 0).sum
  | none => 0

/-- `tri.vertex_neighbor_vertices`: corners of a common triangle. -/
def PlaneMesh.Neighbour {pts : List (ℝ × ℝ)} (mesh : PlaneMesh pts) (i j : ℕ) : Prop :=
  ∃ p ws, mesh.find p = some ws ∧ (∃ kw ∈ ws, kw.1 = i) ∧ ∃ kw ∈ ws, kw.1 = j

/-- What is known about `unique(tri.convex_hull)` (acoular/tprocess.py 850-851): different numbers of points, among them all
points that are the farthest ones in some direction. -/
structure HullNumbers (pts : List (ℝ × ℝ)) (hull : List ℕ) : Prop where
  /-- numbers of points -/
  index : ∀ k ∈ hull, k < pts.length
  /-- different ones -/
  nodup : hull.Nodup
  /-- the points on the border -/
  border : ∀ k q, pts[k]? = some q → ∀ a b : ℝ, (a, b) ≠ 0 → (∀ r ∈ pts, a * r.1 + b * r.2 ≤ a * q.1 + b * q.2) → k ∈ hull

/-- The points after `tri.add_points(concatenate([addLeft, addRight]))` (acoular/tprocess.py 853-861). -/
noncomputable def seamPoints (pts : List (ℝ × ℝ)) (hull : List ℕ) : List (ℝ × ℝ) :=
  pts ++ (hull.map fun k => ((pts.getD k 0).1 - 2 * π, (pts.getD k 0).2)) ++
    hull.map fun k => ((pts.getD k 0).1 + 2 * π, (pts.getD k 0).2)

/-- `indOrigPoints` (acoular/tprocess.py 849, 858). -/
def seamOrigin (n : ℕ) (hull : List ℕ) : List ℕ := List.range n ++ hull ++ hull

open Classical in
/-- `pointsNew` (acoular/tprocess.py 862-868): the original points and the neighbours of those on the border. -/
noncomputable def keptPoints (pts : List (ℝ × ℝ)) (hull : List ℕ) (mesh : PlaneMesh (seamPoints pts hull)) : List ℕ :=
  (List.range (seamPoints pts hull).length).filter fun k => decide (k < pts.length ∨ ∃ h ∈ hull, mesh.Neighbour h k)

/-- The points of the second mesh (acoular/tprocess.py 869). -/
noncomputable def remeshPoints (pts : List (ℝ × ℝ)) (hull : List ℕ) (mesh : PlaneMesh (seamPoints pts hull)) : List (ℝ × ℝ) :=
  (keptPoints pts hull mesh).map fun k => (seamPoints pts hull).getD k 0

/-- `pHelp` of one row (acoular/tprocess.py 870, 956). -/
noncomputable def remeshValues (pts : List (ℝ × ℝ)) (hull : List ℕ) (mesh : PlaneMesh (seamPoints pts hull)) (row : List ℝ) :
    List ℝ := (keptPoints pts hull mesh).map fun k => row.getD ((seamOrigin pts.length hull).getD k 0) 0

/-- The three triangulations and the border of the first one (acoular/tprocess.py 842-870), for the points `pts`. -/
structure ArrayMesh (pts : List (ℝ × ℝ)) where
  hull : List ℕ
  first : HullNumbers pts hull
  second : PlaneMesh (seamPoints pts hull)
  third : PlaneMesh (remeshPoints pts hull second)

/-- Angle and radius of a position (acoular/tprocess.py 834, 838). -/
noncomputable def angleRadius (Q : Matrix (Fin 3) (Fin 3) ℝ) (x : Fin 3 → ℝ) : ℝ × ℝ :=
  (cartToCyl (Q.mulVec x) 0, cartToCyl (Q.mulVec x) 1)

/-- The points of the first mesh (acoular/tprocess.py 838-846). -/
noncomputable def planePoints (Q : Matrix (Fin 3) (Fin 3) ℝ) (mics : List (Fin 3 → ℝ)) (zero : Bool) : List (ℝ × ℝ) :=
  mics.map (angleRadius Q) ++ if zero then [(0, 0)] else []

/-- One row of `_result_core_func` for `'2D'` and `'linear'` (acoular/tprocess.py 944-956, 1017-1032): `atZero` is `pZero`, the
sample interpolated at the origin, used if `interp_at_zero` is set. -/
noncomputable def planeRow (Q : Matrix (Fin 3) (Fin 3) ℝ) (mics virtMics : List (Fin 3 → ℝ)) (zero : Bool)
    (mesh : ArrayMesh (planePoints Q mics zero)) (row : List ℝ) (atZero phi : ℝ) : List ℝ :=
  let p := row ++ if zero then [atZero] else []
  virtMics.map fun v =>
    meshValue mesh.third (remeshValues _ mesh.hull mesh.second p)
      (pyFmod ((angleRadius Q v).1 + phi + π) (2 * π) - π, (angleRadius Q v).2)

/-- `pZero` (acoular/tprocess.py 944-951): linear interpolation between the microphones, in the plane of x and y, at the origin.
The microphones are taken in the order of their angles there, points and samples alike. -/
noncomputable def originSample (Q : Matrix (Fin 3) (Fin 3) ℝ) (mics : List (Fin 3 → ℝ))
    (mesh : PlaneMesh (mics.map fun x => (cylToCart (cartToCyl (Q.mulVec x)) 0, cylToCart (cartToCyl (Q.mulVec x)) 1)))
    (row : List ℝ) : ℝ := meshValue mesh row (0, 0)

end Acoular
