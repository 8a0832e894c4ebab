import Mathlib.Algebra.BigOperators.Group.List.Basic

/-!
# Specification of mixing
-/

namespace Acoular.Spec

/-- Sum of a signal and further signals, sample by sample, up to the shortest of them. -/
def mixed {V : Type*} [AddCommMonoid V] (data : List V) (others : List (List V)) : List V :=
  (List.range (others.foldl (fun m o => min m o.length) data.length)).map fun n =>
    data.getD n 0 + (others.map fun o => o.getD n 0).sum

end Acoular.Spec
