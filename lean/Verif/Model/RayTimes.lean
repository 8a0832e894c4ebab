import Verif.Model.Rays
import Mathlib.Analysis.Convex.Extreme

/-!
# Travel times between the rays: `GeneralFlowEnvironment.get_interpolator`, `_r` (`acoular/environments.py`)

The numerical integration of a ray is a parameter (the positions after the steps, `none` once the integrator is no longer
successful); the convex hull and the triangulation of `scipy.spatial` are described by what is known about them. The
differential equations are modelled in `Verif.Model.Rays`, the table of interpolators in `Verif.Model.Env`.
-/

namespace Acoular

/-- The loop of `fr` (acoular/environments.py 907-913): the points of one ray and the times at which they are reached.
`sol j` is the position after `j` steps; at most `fuel` steps (the code has no limit). Time `j * dt` instead of a sum
of rounded steps. -/
noncomputable def traceRay (sol : ℕ → Option (Fin 3 → ℝ)) (x0 : Fin 3 → ℝ) (rmax dt : ℝ) : ℕ → ℕ → List ((Fin 3 → ℝ) × ℝ)
  | 0, _ => []
  | fuel + 1, j =>
    match sol j with
    | none => []
    | some y =>
      if rmax < absVec (fun i => y i - x0 i) then [(y, j * dt)]
      else (y, j * dt) :: traceRay sol x0 rmax dt fuel (j + 1)

/-- What is known about `ConvexHull(points).simplices` (also after `add_points`): the numbers in it are numbers of points,
and all points are in the convex hull of those numbered points (a polytope is the convex hull of the corners of its
facets), each of which is a corner of the whole. -/
structure HullOf (simplices : List (Fin 3 → ℝ) → List ℕ) : Prop where
  /-- numbers of points -/
  index : ∀ pts, ∀ k ∈ simplices pts, k < pts.length
  /-- the hull of the corners contains all points -/
  spans : ∀ pts, ∀ p ∈ pts, p ∈ convexHull ℝ {q | ∃ k ∈ simplices pts, pts[k]? = some q}
  /-- they are corners -/
  corner : ∀ pts, ∀ k ∈ simplices pts, ∀ q, pts[k]? = some q → q ∈ (convexHull ℝ {q | q ∈ pts}).extremePoints ℝ

/-- The loop over the rays (acoular/environments.py 925-938) from ray `i` on; the result also says whether it was left
with `break`. -/
def rayLoop (simplices : List (Fin 3 → ℝ) → List ℕ) (roi : List (Fin 3 → ℝ)) (NN : ℕ)
    (trace : (Fin 3 → ℝ) → List ((Fin 3 → ℝ) × ℝ)) :
    ℕ → List (Fin 3 → ℝ) → List ((Fin 3 → ℝ) × ℝ) → List ((Fin 3 → ℝ) × ℝ) × Bool
  | _, [], acc => (acc, false)
  | i, n0 :: ns, acc =>
    let acc' := acc ++ trace n0
    if i ≠ 0 ∧ i % NN = 0 ∧ ∀ k ∈ simplices (roi ++ acc'.map Prod.fst), roi.length ≤ k then (acc', true)
    else rayLoop simplices roi NN trace (i + 1) ns acc'

/-- `roi.mean(1)` (acoular/environments.py 918). -/
noncomputable def roiMean (roi : List (Fin 3 → ℝ)) : Fin 3 → ℝ := fun i => (roi.map fun p => p i).sum / roi.length

/-- `rmax` (acoular/environments.py 919-920). -/
noncomputable def roiReach (roi : List (Fin 3 → ℝ)) (x0 : Fin 3 → ℝ) : ℝ :=
  √((roi.map fun p => (x0 0 - p 0) ^ 2 + (x0 1 - p 1) ^ 2 + (x0 2 - p 2) ^ 2).foldr max 0)

/-- `get_interpolator` (acoular/environments.py 915-940): the points with their times, and whether the search ended
early. `sol n0 dt j` is the position on the ray with start direction `n0` after `j` steps of length `dt`. -/
noncomputable def rayPoints (simplices : List (Fin 3 → ℝ) → List ℕ) (N : ℕ) (Om c : ℝ) (fuel : ℕ)
    (sol : (Fin 3 → ℝ) → ℝ → ℕ → Option (Fin 3 → ℝ)) (roi : List (Fin 3 → ℝ)) (x0 : Fin 3 → ℝ) :
    List ((Fin 3 → ℝ) × ℝ) × Bool :=
  let rmax := roiReach roi x0
  let rstep := rmax / √N
  rayLoop simplices roi N.sqrt (fun n0 => traceRay (sol n0 (rstep / c)) x0 (rmax + rstep) (rstep / c) fuel 0) 0
    (spiralSphere N Om fun i => roiMean roi i - x0 i) []

/-- What is known about the triangulation of `LinearNDInterpolator(xyz, t)` (a Delaunay triangulation of the points): for
a point of the convex hull it gives the corners of a simplex around it with the barycentric coordinates, outside nothing. -/
structure RayMesh (pts : List (Fin 3 → ℝ)) where
  /-- the corners (numbers of points) and the barycentric coordinates -/
  find : (Fin 3 → ℝ) → Option (List (ℕ × ℝ))
  /-- nothing outside of the hull -/
  outside : ∀ p, find p = none ↔ p ∉ convexHull ℝ {q | q ∈ pts}
  /-- numbers of points -/
  index : ∀ p ws, find p = some ws → ∀ kw ∈ ws, kw.1 < pts.length
  /-- barycentric coordinates are not negative -/
  nonneg : ∀ p ws, find p = some ws → ∀ kw ∈ ws, 0 ≤ kw.2
  /-- and have the sum one -/
  total : ∀ p ws, find p = some ws → (ws.map Prod.snd).sum = 1
  /-- they are coordinates of the point -/
  coord : ∀ p ws, find p = some ws → ∀ i, (ws.map fun kw => kw.2 * pts.getD kw.1 0 i).sum = p i

/-- The triangulation is a Delaunay triangulation: no point is inside of the sphere through the corners of a simplex. -/
def RayMesh.IsDelaunay {pts : List (Fin 3 → ℝ)} (mesh : RayMesh pts) : Prop :=
  ∀ p ws, mesh.find p = some ws → ∃ (o : Fin 3 → ℝ) (R : ℝ),
    (∀ kw ∈ ws, (pts.getD kw.1 0 0 - o 0) ^ 2 + (pts.getD kw.1 0 1 - o 1) ^ 2 + (pts.getD kw.1 0 2 - o 2) ^ 2 = R) ∧
    ∀ q ∈ pts, R ≤ (q 0 - o 0) ^ 2 + (q 1 - o 1) ^ 2 + (q 2 - o 2) ^ 2

/-- The interpolator applied to a point (acoular/environments.py 852, 941): `none` stands for nan. -/
noncomputable def rayTime (pts : List ((Fin 3 → ℝ) × ℝ)) (mesh : RayMesh (pts.map Prod.fst)) (p : Fin 3 → ℝ) : Option ℝ :=
  (mesh.find p).map fun ws => (ws.map fun kw => kw.2 * (pts.map Prod.snd).getD kw.1 0).sum

/-- `_r` for one grid point and one microphone (acoular/environments.py 852-855). -/
noncomputable def flowDistance (c : ℝ) (pts : List ((Fin 3 → ℝ) × ℝ)) (mesh : RayMesh (pts.map Prod.fst)) (p : Fin 3 → ℝ) :
    Option ℝ := (rayTime pts mesh p).map (c * ·)

end Acoular
