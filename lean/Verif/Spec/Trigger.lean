import Mathlib.Algebra.Order.Field.Basic

/-!
# Specification: trigger detection
-/

namespace Acoular.Spec

variable {K : Type*} [Field K] [LinearOrder K]

/-- A value beyond a signed threshold. -/
def beyond (thr x : K) : Prop := if 0 < thr then thr < x else x < thr

/-- Sample `i` of the signal is a peak (`dirac`): its value is beyond the threshold. -/
def isPeak (thr : K) (x : List K) (i : ℕ) : Prop := ∃ v, x[i]? = some v ∧ beyond thr v

/-- Sample `i` of the signal is an edge (`rect`): "the difference between its value and its predecessor's value is
above/below the threshold". -/
def isEdge (thr : K) (x : List K) (i : ℕ) : Prop :=
  ∃ u v, 1 ≤ i ∧ x[i - 1]? = some u ∧ x[i]? = some v ∧ beyond thr (v - u)

end Acoular.Spec
