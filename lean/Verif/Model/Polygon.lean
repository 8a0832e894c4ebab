import Verif.Model.Grid
import Mathlib.Algebra.Order.Field.Basic
import Mathlib.Data.Rat.Defs
import Mathlib.Algebra.Order.Ring.Rat
import Mathlib.Algebra.Field.Rat

/-!
# Model: `Polygon` (`acoular/grids.py` 137-301)

The square root of the distance is not taken: a signed distance is the pair of its sign and its square, and
comparisons with tolerances are made with their squares.
-/

namespace Acoular

variable {K : Type*} [Field K] [LinearOrder K]

/-- Element `i` of the vertex arrays. -/
def pt (w : List (K × K)) (i : ℕ) : K × K := w.getD i (0, 0)

/-- acoular/grids.py 137-142 (`_det`): `sum(y_k * x_{k-1} - x_k * y_{k-1})`, the element before the first being the last. -/
def polyDet (w : List (K × K)) : K :=
  ((List.range w.length).map fun k =>
    let a := pt w (if k = 0 then w.length - 1 else k - 1)
    let b := pt w k
    b.2 * a.1 - b.1 * a.2).sum

/-- acoular/grids.py 172-187 (`Polygon.__init__`): an open polygon is closed (the comparison is `x1 != xn or y1 != yn`),
a clockwise one reversed. -/
def polygonInit (u : List (K × K)) : List (K × K) :=
  let w := if pt u 0 ≠ pt u (u.length - 1) then u ++ [pt u 0] else u
  if polyDet w < 0 then w.reverse else w

/-- acoular/grids.py 261: the position of the foot of the normal on the side from `a` to `b`. -/
def footParam (a b p : K × K) : K :=
  -((a.1 - p.1) * (b.1 - a.1) + (a.2 - p.2) * (b.2 - a.2)) / ((b.1 - a.1) ^ 2 + (b.2 - a.2) ^ 2)

/-- acoular/grids.py 243-269: the squared distance attributed to the side, `none` for infinity (foot beyond the end of
the side, or a side of length zero, where `t` is NaN). -/
def sideDist (a b p : K × K) : Option K :=
  if (b.1 - a.1) ^ 2 + (b.2 - a.2) ^ 2 = 0 then none
  else
    let t := footParam a b p
    if 0 ≤ t ∧ t ≤ 1 then
      some (((a.1 - p.1) + t * (b.1 - a.1)) ^ 2 + ((a.2 - p.2) + t * (b.2 - a.2)) ^ 2)
    else if t < 0 then some ((a.1 - p.1) ^ 2 + (a.2 - p.2) ^ 2)
    else none

/-- The variables of the loop: `mindst` (squared, `none` = infinity), `j`, `snear`. -/
structure NearState (K : Type*) where
  mindst : Option K
  j : ℕ
  snear : Bool

/-- acoular/grids.py 242-277: one side. -/
def nearStep (w : List (K × K)) (p : K × K) (s : NearState K) (i : ℕ) : NearState K :=
  match sideDist (pt w i) (pt w (i + 1)) p with
  | none => s
  | some d =>
    let t := footParam (pt w i) (pt w (i + 1)) p
    match s.mindst with
    | none => ⟨some d, i, decide (0 ≤ t ∧ t ≤ 1)⟩
    | some m => if d < m then ⟨some d, i, decide (0 ≤ t ∧ t ≤ 1)⟩ else s

/-- acoular/grids.py 236-277: the loop over all sides. -/
def nearest (w : List (K × K)) (p : K × K) : NearState K :=
  (List.range (w.length - 1)).foldl (nearStep w p) ⟨none, 0, false⟩

/-- acoular/grids.py 278-301 (`is_inside`): the sign (true: negative) and the square of the distance; IndexError if
no distance was found.  `x[jo - 1]` is the vertex before `j`; for `j = 0` it is element `-2` of the closed array. -/
def isInside (w : List (K × K)) (p : K × K) : Except PyErr (Bool × K) :=
  let s := nearest w p
  match s.mindst with
  | none => .error .indexError
  | some d =>
    let prev := if s.j = 0 then w.length - 2 else s.j - 1
    if s.snear then .ok (decide (polyDet [pt w s.j, pt w (s.j + 1), p] < 0), d)
    else .ok (decide (polyDet [pt w (s.j + 1), pt w s.j, pt w prev] < 0), d)

/-- `dists >= 0` (acoular/grids.py 531) after distances below `smalld` are set to zero (297). -/
def polyNonneg (smalld : K) (r : Bool × K) : Bool := !r.1 || decide (r.2 < smalld ^ 2) || decide (r.2 = 0)

/-- `dists >= -abs_tol` (acoular/grids.py 1465, `include_border`), for `abs_tol >= 0`. -/
def polyGeTol (smalld tol : K) (r : Bool × K) : Bool :=
  !r.1 || decide (r.2 < smalld ^ 2) || decide (r.2 ≤ tol ^ 2)

/-- `dists > 0` (acoular/grids.py 1465, border not included). -/
def polyPos (smalld : K) (r : Bool × K) : Bool := !r.1 && decide (smalld ^ 2 ≤ r.2) && decide (r.2 ≠ 0)

/-- acoular/grids.py 1463-1470 (`PolySector.contains`) as a sector: the mask and the mean of the listed vertices.
`smalld` is the default 1e-12 of `is_inside`.  An exception of `is_inside` is shown as `false`; it does not occur for
convex polygons (`C32_polygon_distance`). -/
def polySector (smalld : K) (o : SectorOpts K) (u : List (K × K)) : Sector K :=
  .poly o
    (fun x y => match isInside (polygonInit u) (x, y) with
      | .ok r => if o.border then polyGeTol smalld o.tol r else polyPos smalld r
      | .error _ => false)
    ((u.map (·.1)).sum / (u.length : K)) ((u.map (·.2)).sum / (u.length : K))

/-- The positions with `dists >= 0` (acoular/grids.py 530-532). -/
def polySelect (smalld : K) (w : List (K × K)) : List (K × K × K) → Except PyErr (List (K × K × K))
  | [] => .ok []
  | p :: ps => do
    let r ← isInside w (p.1, p.2.1)
    let l ← polySelect smalld w ps
    return if polyNonneg smalld r then p :: l else l

/-- acoular/grids.py 522-539 (`indices` with a polygon): the vertices `u`. -/
def polyIndices [FloorRing K] (g : RectGrid K) (smalld : K) (u : List (K × K)) : Except PyErr GridSel :=
  match polySelect smalld (polygonInit u) g.pos with
  | .error e => .error e
  | .ok inside =>
    match indexAll g inside with
    | .error e => .error e
    | .ok [] => (g.index ((u.map (·.1)).sum / (u.length : K)) ((u.map (·.2)).sum / (u.length : K))).map
        fun c => GridSel.point c.1 c.2
    | .ok (i :: l) => .ok (.pairs (i :: l))

/-- `array(r).reshape(-1, 2)` (acoular/grids.py 529, 537). -/
def pairUp {A : Type*} : List A → Except PyErr (List (A × A))
  | [] => .ok []
  | [_] => .error .valueError
  | x :: y :: l => do
    let r ← pairUp l
    return (x, y) :: r

/-- acoular/grids.py 504-539 (`RectGrid.indices(*r)`): the number of arguments decides. -/
def gridIndices [FloorRing K] (g : RectGrid K) (smalld : K) : List K → Except PyErr GridSel
  | [x, y, r] => circleIndices g x y r
  | [x1, y1, x2, y2] => rectIndices g x1 y1 x2 y2
  | r =>
    match pairUp r with
    | .error e => .error e
    | .ok u => polyIndices g smalld u

end Acoular
