import Mathlib.Algebra.Order.Field.Basic
import Mathlib.Algebra.BigOperators.Group.Finset.Basic

/-!
# Specification: grid points, regions, integration

Plain geometry in the plane; nothing here refers to the model.
-/

namespace Acoular.Spec

variable {K : Type*} [Field K] [LinearOrder K]

/-- Squared distance in the plane. -/
def dist2 (x y a b : K) : K := (x - a) ^ 2 + (y - b) ^ 2

/-- A closed axis parallel rectangle given by two opposite corners, enlarged by `tol` on all sides
(points *on* the enlarged border do not belong to it). -/
def inRect (x1 y1 x2 y2 tol : K) (x y : K) : Prop :=
  min x1 x2 - tol < x ∧ x < max x1 x2 + tol ∧ min y1 y2 - tol < y ∧ y < max y1 y2 + tol

/-- `mask` selects from the list of points exactly those inside the region; if no point is inside and `nearest`
is set, it selects exactly one point, and no other point has a smaller `score` (distance). -/
def Selects {P : Type*} (inside : P → Prop) (score : P → K) (nearest : Bool) (pos : List P) (mask : List Bool) : Prop :=
  mask.length = pos.length ∧
  (((∃ p ∈ pos, inside p) ∨ nearest = false) → ∀ (k : ℕ) p, pos[k]? = some p → (mask[k]? = some true ↔ inside p)) ∧
  ((∀ p ∈ pos, ¬ inside p) → nearest = true →
    ∃ (k : ℕ) (p : P), pos[k]? = some p ∧ (∀ q ∈ pos, score p ≤ score q) ∧ ∀ i : ℕ, mask[i]? = some true ↔ i = k)

/-- Sum of the map values at the selected points. -/
def maskedSum (data : List K) (mask : List Bool) : K :=
  ∑ k ∈ Finset.range mask.length, if mask[k]? = some true then data.getD k 0 else 0

end Acoular.Spec
