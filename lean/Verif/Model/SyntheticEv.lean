import Verif.Model.Synthetic
import Mathlib.Data.Complex.Basic
import Mathlib.Data.Matrix.Basic

/-!
# Eigenvalues of the cross spectral matrix and their band values (`acoular/spectra.py`)
-/

namespace Acoular

/-- acoular/spectra.py 443-451 (`calc_ev`): eigenvalues and eigenvectors, line by line; `eigh` is `numpy.linalg.eigh`. The
tables `eva` and `eve` are the first and the second components (`calc_eva`, `calc_eve`, acoular/spectra.py 453-490). -/
def calcEv {m : ℕ} (eigh : Matrix (Fin m) (Fin m) ℂ → (Fin m → ℝ) × Matrix (Fin m) (Fin m) ℂ)
    (csm : List (Matrix (Fin m) (Fin m) ℂ)) : List (Fin m → ℝ) × List (Matrix (Fin m) (Fin m) ℂ) :=
  (csm.map fun c => (eigh c).1, csm.map fun c => (eigh c).2)

/-- `self.eva[i]` (acoular/spectra.py 607, 611). -/
def evaLine {V : Type*} (eva : List V) (i : ℕ) : Except PyErr V :=
  match eva[i]? with
  | some v => .ok v
  | none => .error .indexError

/-- acoular/spectra.py 604-612 (`synthetic_ev`). -/
noncomputable def syntheticEv {V : Type*} [AddCommMonoid V] (eva : List V) (freqs : List ℝ) (f : ℝ) (num : ℕ) :
    Except PyErr V :=
  if num = 0 then evaLine eva (searchR freqs f)
  else
    let (f1, f2) := bandLimits f num
    let ind1 := searchR freqs f1
    let ind2 := searchR freqs f2
    if ind1 = ind2 then evaLine eva ind1 else .ok (slice eva ind1 ind2).sum

end Acoular
