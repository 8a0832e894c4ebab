import Mathlib.Algebra.BigOperators.Ring.Finset
import Mathlib.Algebra.Order.Field.Basic
import Mathlib.Algebra.BigOperators.Fin

/-!
# Specification of deconvolution

`g` grid points; `A i j` is the value at point `i` of the point spread function of a source at `j`.
-/

namespace Acoular.Spec

variable {K : Type*} [Field K] [LinearOrder K] {g : ℕ}

/-- `(A x)_i`. -/
def applyPsf (A : Fin g → Fin g → K) (x : Fin g → K) (i : Fin g) : K := ∑ j, A i j * x j

/-- Complementarity form of `A x = y`, `x ≥ 0`: wherever there is a source the map is reproduced, wherever there is none
the reproduced map is not below `y`. -/
def Complementary (A : Fin g → Fin g → K) (y x : Fin g → K) : Prop :=
  ∀ i, 0 ≤ x i ∧ y i ≤ applyPsf A x i ∧ (x i = 0 ∨ applyPsf A x i = y i)

/-- The matrix with its diagonal replaced by ones. -/
def unitDiag (A : Fin g → Fin g → K) (i j : Fin g) : K := if i = j then 1 else A i j

/-- `p` is the first position of a maximum of `x`. -/
def IsFirstMax (x : Fin g → K) (p : Fin g) : Prop := (∀ j, x j ≤ x p) ∧ ∀ j, j < p → x j < x p

/-- The recursion of CLEAN: `R 0` is the dirty map; in step `k` the source at `pos k`, a first maximum of `R k`, is found
with strength `damp * R k (pos k)` and its point spread function is subtracted. -/
structure CleanRun (A : Fin g → Fin g → K) (damp : K) (R : ℕ → Fin g → K) (pos : ℕ → Fin g) : Prop where
  pos_max : ∀ k, IsFirstMax (R k) (pos k)
  step : ∀ k i, R (k + 1) i = R k i - A i (pos k) * (damp * R k (pos k))

end Acoular.Spec
