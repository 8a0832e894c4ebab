import Mathlib.Analysis.SpecialFunctions.Trigonometric.Basic

/-!
# Window functions (acoular/spectra.py 94-101, acoular/fprocess.py 79-83)
-/

namespace Acoular

/-- The values of the trait `window`. -/
inductive WindowKind
  | rectangular
  | hanning
  | hamming
  | bartlett
  | blackman
  deriving DecidableEq

/-- `self.window_(self.block_size)` (acoular/spectra.py 386, acoular/fprocess.py 153): `ones`, `hanning`, `hamming`, `bartlett`, `blackman` of numpy,
all of them symmetric with denominator `n - 1`; `n` at least 2 (numpy returns `ones(1)` for one sample). Entry `t`. -/
noncomputable def windowValue (kind : WindowKind) (n t : ℕ) : ℝ :=
  match kind with
  | .rectangular => 1
  | .hanning => 1 / 2 - 1 / 2 * Real.cos (2 * Real.pi * t / (n - 1))
  | .hamming => 54 / 100 - 46 / 100 * Real.cos (2 * Real.pi * t / (n - 1))
  | .bartlett => 2 / (n - 1) * ((n - 1) / 2 - |(t : ℝ) - (n - 1) / 2|)
  | .blackman => 42 / 100 - 1 / 2 * Real.cos (2 * Real.pi * t / (n - 1)) + 8 / 100 * Real.cos (4 * Real.pi * t / (n - 1))

/-- All entries. -/
noncomputable def windowList (kind : WindowKind) (n : ℕ) : List ℝ := (List.range n).map fun t : ℕ => windowValue kind n t

end Acoular
