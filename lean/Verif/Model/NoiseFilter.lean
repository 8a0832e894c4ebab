import Verif.Model.Filter
import Verif.Model.Signals

/-!
# Filtered noise with its filter

`FiltWNoiseGenerator` (acoular/signals.py 340-462); the result of `tf2sos` is any list of second order sections, a contract is stated with the
properties.
-/

namespace Acoular

open Spec (Sos)

variable {K : Type*} [Field K]

/-- `handle_empty_coefficients`, acoular/signals.py 415-436. -/
def handleEmpty (coefficients : List K) : List K := if coefficients.length = 0 then [1] else coefficients

/-- `FiltWNoiseGenerator.signal`, acoular/signals.py 438-462, with `sosfilt` from rest; `sos` is what `tf2sos(ma, ar)` returns. -/
def filtWNoise (rms : K) (draw : ℕ → K) (ma : List K) (sos : List (Sos K)) (nums : ℕ) : List K :=
  filteredNoise rms draw (fun x => (sosRows sos (List.replicate sos.length (0, 0)) x).1) (handleEmpty ma).length nums

end Acoular
