import Verif.Model.Spectra
import Verif.Model.SamplesBuffer
import Mathlib.Analysis.Fourier.ZMod
import Mathlib.Analysis.Real.Sqrt

/-!
# `RFFT` and `IRFFT` (`acoular/fprocess.py`), one channel

Complex numbers instead of floating point numbers (`precision` is ignored). The channels are treated separately by the
code: a row of the spectra is an array (frequency, channel) written row by row and read back with the same shape.
-/

namespace Acoular

/-- `scaling` of `RFFT` (acoular/fprocess.py 61). -/
inductive RfftScaling where
  | none
  | energy
  | amplitude
  deriving DecidableEq

/-- `fft.rfft(w, n)`: the first `n // 2 + 1` lines of the discrete Fourier transform. -/
noncomputable def rfftLines (n : ℕ) [NeZero n] (w : List ℝ) : List ℂ :=
  (List.range (n / 2 + 1)).map fun k : ℕ => ZMod.dft (fun p : ZMod n => ((w.getD p.val 0 : ℝ) : ℂ)) (k : ZMod n)

/-- `svalue` (acoular/fprocess.py 150-154). -/
noncomputable def rfftScaleValue (scaling : RfftScaling) (wind : List ℝ) (n : ℕ) : ℝ :=
  match scaling with
  | .amplitude => 1 / wind.sum
  | _ => 1 / √((wind.map fun v => v * v).sum / n)

/-- `RFFT._scale` (acoular/fprocess.py 108-113): `data[1:-1] *= 2.0` for energy and amplitude. -/
noncomputable def rfftScale (scaling : RfftScaling) (svalue : ℝ) (lines : List ℂ) : List ℂ :=
  let lines := match scaling with
    | .none => lines
    | _ => lines.mapIdx fun i x => if 1 ≤ i ∧ i + 1 < lines.length then x * 2 else x
  lines.map (· * (svalue : ℂ))

/-- One snapshot of `RFFT.result` (acoular/fprocess.py 160-164). -/
noncomputable def rfftSnapshot (scaling : RfftScaling) (n : ℕ) [NeZero n] (wind w : List ℝ) : List ℂ :=
  rfftScale scaling (rfftScaleValue scaling wind n) (rfftLines n (List.zipWith (· * ·) w wind))

/-- `fft.irfft(X, n)` for an even `n` and `n / 2 + 1` lines: the other lines are the conjugates, the result is real
(the imaginary parts of the first and the last line have no influence). -/
noncomputable def irfftBlock (n : ℕ) [NeZero n] (X : List ℂ) : List ℝ :=
  let full : ZMod n → ℂ := fun k => if k.val ≤ n / 2 then X.getD k.val 0 else star (X.getD (n - k.val) 0)
  (List.range n).map fun t : ℕ => (ZMod.dft.symm full (t : ZMod n)).re

/-- `IRFFT.result` for the block size of the source (acoular/fprocess.py 270-274); `spectra` are the blocks of
`source.result(1)`. -/
noncomputable def irfftBlocks (n : ℕ) [NeZero n] (spectra : List (List (List ℂ))) : List (List ℝ) :=
  spectra.map fun s => irfftBlock n s.flatten

/-- `IRFFT.result` (acoular/fprocess.py 263-274) after `_validate`. -/
noncomputable def irfftResult (n : ℕ) [NeZero n] (spectra : List (List (List ℂ))) (num fuel : ℕ) : Trace (List ℝ) :=
  if num ≠ n then
    SamplesBuffer.result 0 (((num + n - 1) / n + 1) * n) (some n) none .resultNum (fun _ => irfftBlocks n spectra) num fuel
  else ⟨irfftBlocks n spectra, .returned⟩

/-- `IRFFT._get_num_samples` (acoular/fprocess.py 205-208) for an `RFFT` source. -/
def irfftNumSamples (sourceNumSamples : ℤ) (n : ℕ) : ℤ :=
  if RFFT.numSamples sourceNumSamples n ≥ 0 then RFFT.numSamples sourceNumSamples n * n else -1

end Acoular
