import Verif.Model.Convolve
import Verif.Model.Stream

/-!
# `PointSourceConvolve` (`acoular/sources.py`)
-/

namespace Acoular

/-- acoular/sources.py 2444: `repeat(self.signal.signal()[:, newaxis], self.mics.num_mics, axis=1)`. -/
def repeatSignal (signal : List ℂ) (numMics : ℕ) : List (List ℂ) := signal.map fun x => List.replicate numMics x

/-- acoular/sources.py 2444-2455 (`PointSourceConvolve.result`): a `TimeSamples` object with the repeated signal, and a
`TimeConvolve` object; per microphone. The location of the source is not used. An error of the source (no samples) is
raised when the first block is requested. -/
noncomputable def pointSourceConvolve (signal : List ℂ) (kernels : List (List ℂ)) (numMics : ℕ) (num : ℕ) [NeZero num]
    (_loc : Fin 3 → ℝ) : Except PyErr (ℕ → Trace (List ℂ)) :=
  let source := TimeSamples.result (repeatSignal signal numMics) numMics none num
  match source.exit with
  | .raised e => if kernels.length ≠ 1 ∧ kernels.length ≠ numMics then .error .valueError else .error e
  | _ => timeConvolve num kernels numMics signal.length fun c => source.blocks.map fun b => b.map fun row => row.getD c 0

/-- `num_samples` of a point source: that of the signal (acoular/sources.py 856, `Delegate('signal')`). -/
def PointSourceConvolve.numSamples (signal : List ℂ) : ℕ := signal.length

end Acoular
