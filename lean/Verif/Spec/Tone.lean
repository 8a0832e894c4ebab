import Mathlib.Analysis.SpecialFunctions.Trigonometric.Basic

/-!
# Specification of tones and of the power of signals
-/

namespace Acoular.Spec

/-- Sample number `t` (sampling frequency `fs`) of a tone of amplitude `A`, frequency `f` and phase `φ`. -/
noncomputable def toneSample (A f φ fs : ℝ) (t : ℕ) : ℝ := A * Real.cos (2 * Real.pi * f * (t / fs) + φ)

/-- Mean square of a signal. -/
noncomputable def meanSquare (x : List ℝ) : ℝ := (x.map fun v => v ^ 2).sum / x.length

/-- Mean value of a signal. -/
noncomputable def meanValue (x : List ℝ) : ℝ := x.sum / x.length

end Acoular.Spec
