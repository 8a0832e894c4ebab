import Verif.Model.Py
import Mathlib.Analysis.Complex.Basic
import Mathlib.Analysis.SpecialFunctions.Pow.Real
import Mathlib.LinearAlgebra.Matrix.NonsingularInverse

/-!
# Generalised inverse beamforming with method `'InverseIRLS'` (`acoular/fbeamform.py` 2234-2248)

Exact numbers; `inv` raises `LinAlgError` (a `ValueError`) for a singular matrix.
-/

namespace Acoular

open Matrix

variable {n N : ℕ}

/-- One iteration (acoular/fbeamform.py 2238-2248) from the diagonal of `weights`: the row `qi[s, :]`. With fewer points than
channels `A.conj.T` raises (2246). -/
noncomputable def irlsSolve (A : Matrix (Fin n) (Fin N) ℂ) (e : Fin n → ℂ) (w : Fin N → ℝ) : Except PyErr (Fin N → ℂ) :=
  open Classical in
  if n ≤ N then
    if ∃ i, w i = 0 then .error .valueError
    else
      let wtwi : Matrix (Fin N) (Fin N) ℂ := Matrix.diagonal fun i => ((w i * w i : ℝ) : ℂ)⁻¹
      let G := A * (wtwi * Aᴴ)
      if G.det = 0 then .error .valueError else .ok ((wtwi * Aᴴ).mulVec (G⁻¹.mulVec e))
  else .error .attributeError

/-- `weights = diag(absolute(qi[s, :]) ** ((2 - pnorm) / 2))`, divided by the sum of all entries (2242-2243). -/
noncomputable def irlsWeights (pnorm : ℝ) (q : Fin N → ℂ) (i : Fin N) : ℝ :=
  ‖q i‖ ^ ((2 - pnorm) / 2) / ∑ j, ‖q j‖ ^ ((2 - pnorm) / 2)

/-- `k` iterations from the weights `w` (2237-2248); `q`: the row before (zeros at the beginning). -/
noncomputable def irlsLoop (pnorm : ℝ) (A : Matrix (Fin n) (Fin N) ℂ) (e : Fin n → ℂ) :
    ℕ → (Fin N → ℝ) → (Fin N → ℂ) → Except PyErr (Fin N → ℂ)
  | 0, _, q => .ok q
  | k + 1, w, _ =>
    match irlsSolve A e w with
    | .error x => .error x
    | .ok q => irlsLoop pnorm A e k (irlsWeights pnorm q) q

/-- The amplitudes for the eigenmode `e` (2234-2248). -/
noncomputable def irlsMode (pnorm : ℝ) (nIter : ℕ) (A : Matrix (Fin n) (Fin N) ℂ) (e : Fin n → ℂ) : Except PyErr (Fin N → ℂ) :=
  irlsLoop pnorm A e nIter (fun _ => 1) fun _ => 0

end Acoular
