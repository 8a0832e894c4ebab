import Mathlib.Data.Complex.Basic
import Mathlib.LinearAlgebra.Matrix.ConjTranspose
import Mathlib.LinearAlgebra.Matrix.DotProduct

/-!
# Specification of block-wise spectral estimation
-/

namespace Acoular.Spec

/-- The windows of `bs` rows that the overlap factor `ov` asks for: number `k` starts at row
`floor(k * bs / ov)`; all `k` with `k * bs / ov + bs ≤ N` are used (the window lies in the signal). -/
def windows {α : Type*} (bs ov : ℕ) (data : List α) : List (List α) :=
  ((List.range (data.length * ov + 1)).filter fun k => decide (k * bs + bs * ov ≤ data.length * ov)).map fun k =>
    (data.drop (k * bs / ov)).take bs

open scoped ComplexConjugate

/-- Outer product `X X^H` of a vector of channel spectra. -/
def outer {n : ℕ} (X : Fin n → ℂ) : Matrix (Fin n) (Fin n) ℂ := fun i j => X i * conj (X j)

/-- The averaged cross spectral matrix of the spectra of all windows, up to the factor `c`. -/
noncomputable def averagedCsm {n : ℕ} (c : ℝ) (spectra : List (Fin n → ℂ)) : Matrix (Fin n) (Fin n) ℂ :=
  (c : ℂ) • (spectra.map outer).sum

end Acoular.Spec
