import Mathlib.Algebra.Module.Basic
import Mathlib.Algebra.BigOperators.Group.List.Basic
import Mathlib.Algebra.Field.Basic

/-! # Specification: averages of consecutive rows -/

namespace Acoular.Spec

variable {V : Type*} [AddCommGroup V] (K : Type*) [Field K] [Module K V]

/-- The averages of consecutive groups of `nav` rows; rows behind the last full group are not used. -/
def groupAverages (nav : Nat) (data : List V) : List V :=
  (List.range (data.length / nav)).map fun j => ((nav : K))⁻¹ • ((data.drop (j * nav)).take nav).sum

/-- Row `n` is the mean of rows `0..n`. -/
def cumulativeAverages (data : List V) : List V :=
  (List.range data.length).map fun n => (((n + 1 : Nat) : K))⁻¹ • (data.take (n + 1)).sum

end Acoular.Spec
