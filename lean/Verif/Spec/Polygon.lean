import Mathlib.Algebra.Order.Field.Basic
import Mathlib.Data.List.Basic
import Mathlib.Algebra.BigOperators.Group.Finset.Basic

/-!
# Specification: polygons
-/

namespace Acoular.Spec

variable {K : Type*} [Field K] [LinearOrder K]

/-- Twice the signed area of the triangle `a b p`: positive if `p` lies to the left of the directed line from `a`
to `b`. -/
def leftOf (a b p : K × K) : K := (b.1 - a.1) * (p.2 - a.2) - (b.2 - a.2) * (p.1 - a.1)

/-- Vertex `i` of the polygon with the vertices `v`, counted cyclically. -/
def vertex (v : List (K × K)) (i : ℕ) : K × K := v.getD (i % v.length) (0, 0)

/-- `v` lists at least three vertices of a convex polygon in anti-clockwise order: every vertex that is not an end of
a side lies strictly to the left of that side. -/
def ConvexCCW (v : List (K × K)) : Prop :=
  3 ≤ v.length ∧ ∀ i < v.length, ∀ k < v.length, k ≠ i → k ≠ (i + 1) % v.length →
    0 < leftOf (vertex v i) (vertex v (i + 1)) (vertex v k)

/-- The closed polygon: the points to the left of (or on) all sides. -/
def InConvex (v : List (K × K)) (p : K × K) : Prop :=
  ∀ i < v.length, 0 ≤ leftOf (vertex v i) (vertex v (i + 1)) p

/-- Squared distance of two points of the plane. -/
def sqDist (p q : K × K) : K := (p.1 - q.1) ^ 2 + (p.2 - q.2) ^ 2

/-- A point of the boundary: on one of the sides. -/
def OnBoundary (v : List (K × K)) (q : K × K) : Prop :=
  ∃ i < v.length, ∃ s : K, 0 ≤ s ∧ s ≤ 1 ∧
    q = ((vertex v i).1 + s * ((vertex v (i + 1)).1 - (vertex v i).1),
      (vertex v i).2 + s * ((vertex v (i + 1)).2 - (vertex v i).2))

/-- The four ways to list the polygon with the vertices `a :: t` (anti-clockwise): open or closed, anti-clockwise or
clockwise, starting at `a`. -/
def Lists (a : K × K) (t u : List (K × K)) : Prop :=
  u = a :: t ∨ u = a :: t ++ [a] ∨ u = a :: t.reverse ∨ u = a :: t.reverse ++ [a]

/-! ## Polygons that need not be convex -/

/-- `q` is a point of the straight line from `a` to `b`, ends included. -/
def OnSide (a b q : K × K) : Prop :=
  ∃ s : K, 0 ≤ s ∧ s ≤ 1 ∧ q = (a.1 + s * (b.1 - a.1), a.2 + s * (b.2 - a.2))

/-- A simple polygon, listed in either sense: at least three vertices, neighbours differ, and two different sides meet
only where one ends and the next begins. -/
def SimplePolygon (v : List (K × K)) : Prop :=
  3 ≤ v.length ∧ (∀ i < v.length, vertex v i ≠ vertex v (i + 1)) ∧
  ∀ i < v.length, ∀ j < v.length, i ≠ j → ∀ q,
    OnSide (vertex v i) (vertex v (i + 1)) q → OnSide (vertex v j) (vertex v (j + 1)) q →
    (j = (i + 1) % v.length ∧ q = vertex v j) ∨ (i = (j + 1) % v.length ∧ q = vertex v i)

/-- How often the side from `a` to `b` passes above `p` from right to left: 1, 0, or -1 if it passes from left to
right. -/
def passesAbove (a b p : K × K) : ℤ :=
  if a.1 ≤ p.1 ∧ p.1 < b.1 ∧ leftOf a b p < 0 then -1
  else if b.1 ≤ p.1 ∧ p.1 < a.1 ∧ 0 < leftOf a b p then 1
  else 0

/-- Winding number of the closed polygon around `p`: the passages of its sides through the vertical half line above
`p`, those from right to left counted positive. -/
def winding (v : List (K × K)) (p : K × K) : ℤ :=
  ∑ i ∈ Finset.range v.length, passesAbove (vertex v i) (vertex v (i + 1)) p

/-- The closed region bounded by the polygon: the boundary and the points the polygon winds around. -/
def InPolygon (v : List (K × K)) (p : K × K) : Prop := OnBoundary v p ∨ winding v p ≠ 0

end Acoular.Spec
