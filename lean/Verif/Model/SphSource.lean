import Verif.Model.Py
import Mathlib.Analysis.Fourier.ZMod

/-!
# `SphericalHarmonicSource.transform` (`acoular/sources.py`), one microphone

`fft`/`ifft` are the discrete Fourier transform and its inverse (complex numbers instead of floating point numbers). The
directivity `(Y_lm @ alpha)[m]` of the microphone is a complex number; how it is computed is not modelled.
-/

namespace Acoular

/-- acoular/sources.py 1030: `real(ifft(fft(signals, axis=0) * (Y_lm @ self.alpha), axis=0))` for the column of one
microphone of a block. -/
noncomputable def sphTransform (c : ℂ) : List ℝ → List ℝ
  | [] => []
  | x :: l =>
    let n := l.length + 1
    let col : ZMod n → ℂ := fun p => (((x :: l).getD p.val 0 : ℝ) : ℂ)
    (List.range n).map fun t : ℕ => ((ZMod.dft.symm fun k => ZMod.dft col k * c) (t : ZMod n)).re

end Acoular
