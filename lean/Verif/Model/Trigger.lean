import Verif.Model.Py
import Mathlib.Algebra.Order.Field.Basic

/-!
# Model: trigger identification (`acoular/tprocess.py`, `Trigger`)

Peaks are pairs of sample number and value.
-/

namespace Acoular

variable {K : Type*} [Field K] [LinearOrder K]

/-- acoular/tprocess.py 349-360 (`trigger_type`). -/
inductive TriggerType
  | dirac | rect
  deriving DecidableEq

/-- acoular/tprocess.py 362-365 (`multiple_peaks_in_hunk`). -/
inductive PeakChoice
  | extremum | first
  deriving DecidableEq

/-- acoular/tprocess.py 469-470 (`_trigger_value_comp`). -/
def triggerComp (thr x : K) : Bool := if 0 < thr then decide (thr < x) else decide (x < thr)

/-- `x[1:] - x[:-1]`. -/
def diffs {α : Type*} [Sub α] : List α → List α
  | a :: b :: l => (b - a) :: diffs (b :: l)
  | _ => []

/-- acoular/tprocess.py 458-467 (`_trigger_dirac`, `_trigger_rect`): flags for one block; `x0` is the last value of the
previous block, `[]` (nothing) for the first one. -/
def triggerFlags (tt : TriggerType) (thr : K) (x0 : Option K) (x : List K) : List Bool :=
  match tt with
  | .dirac => x.map (triggerComp thr)
  | .rect => (diffs (x0.toList ++ x)).map (triggerComp thr)

/-- acoular/tprocess.py 414-417: `localTrigger + dSamples` and `triggerSignal[localTrigger]`. -/
def localPeaks (flags : List Bool) (x : List K) (d : ℕ) : List (ℕ × K) :=
  ((flags.zip x).zipIdx d).filterMap fun p => if p.1.1 then some (p.2, p.1.2) else none

/-- acoular/tprocess.py 409-419: detection over the blocks of the source. -/
def detectPeaks (tt : TriggerType) (thr : K) (num : ℕ) : Option K → ℕ → List (List K) → List (ℕ × K)
  | _, _, [] => []
  | x0, d, x :: l => localPeaks (triggerFlags tt thr x0 x) x d ++ detectPeaks tt thr num x.getLast? (d + num) l

/-- acoular/tprocess.py 424, 442: the distances of neighbouring peaks (the peaks are in increasing order, so that the
natural subtraction is the subtraction of the code). -/
def peakDists (peaks : List (ℕ × K)) : List ℕ := diffs (peaks.map Prod.fst)

/-- acoular/tprocess.py 431-441: if two neighbouring peaks are closer than `thr`, one peak of the first such pair is
deleted (`argmin` takes the first of equal values); `none`: there is no such pair. -/
def thinStep (pc : PeakChoice) (thr : K) : List (ℕ × K) → Option (List (ℕ × K))
  | a :: b :: l =>
    if ((b.1 - a.1 : ℕ) : K) < thr then
      match pc with
      | .extremum => if |a.2| ≤ |b.2| then some (b :: l) else some (a :: l)
      | .first => some (a :: l)
    else (thinStep pc thr (b :: l)).map (a :: ·)
  | _ => none

/-- acoular/tprocess.py 432-443: the while loop, with fuel; `none`: the fuel ran out. -/
def thinLoop (pc : PeakChoice) (thr : K) : ℕ → List (ℕ × K) → Option (List (ℕ × K))
  | 0, _ => none
  | fuel + 1, peaks =>
    match thinStep pc thr peaks with
    | none => some peaks
    | some peaks' => thinLoop pc thr fuel peaks'

/-- Outcome of `trigger_data`. -/
inductive TriggerOut
  /-- sample numbers of the peaks, largest and smallest distance -/
  | ok (locs : List ℕ) (maxDist minDist : ℕ)
  | raised (e : PyErr)
  | diverged
  deriving DecidableEq

/-- acoular/tprocess.py 420-456: from the detected peaks to the result.  The plain `Exception` of 420-422 is modelled as
`runtimeError`.  The warning of 445-455 is not modelled.  `max` of no distances raises ValueError. -/
def thinPeaks (pc : PeakChoice) (hunk : K) (fuel : ℕ) (peaks : List (ℕ × K)) : TriggerOut :=
  if peaks.length ≤ 1 then .raised .runtimeError
  else
    match thinLoop pc (hunk * (((peakDists peaks).foldr max 0 : ℕ) : K)) fuel peaks with
    | none => .diverged
    | some r =>
      match peakDists r with
      | [] => .raised .valueError
      | d :: l => .ok (r.map Prod.fst) ((d :: l).foldr max 0) (l.foldr min d)

/-- acoular/tprocess.py 401-456 (`_get_trigger_data`) for a given threshold (the estimate of the threshold, 472-493, is
not modelled). -/
def triggerData (channels : ℕ) (tt : TriggerType) (pc : PeakChoice) (thr hunk : K) (num fuel : ℕ) (blocks : List (List K)) :
    TriggerOut :=
  if channels ≠ 1 then .raised .runtimeError else thinPeaks pc hunk fuel (detectPeaks tt thr num none 0 blocks)

/-- `max()` of a block (acoular/tprocess.py 480); blocks are not empty. -/
def listMax : List K → K
  | [] => 0
  | x :: l => l.foldl max x

/-- `min()` of a block (acoular/tprocess.py 481). -/
def listMin : List K → K
  | [] => 0
  | x :: l => l.foldl min x

/-- `mean()` of a block (acoular/tprocess.py 482). -/
def listMean (l : List K) : K := l.sum / l.length

/-- `_threshold` for `threshold is None` (acoular/tprocess.py 472-490): extremes over all blocks, mean of the means of the
blocks; `argmax` takes the first of equal values. Without blocks, `meanVal /= cntMean` is a division of the integers
`0 / 0`. -/
def guessThreshold (blocks : List (List K)) : Except PyErr K :=
  match blocks with
  | [] => .error .zeroDivisionError
  | _ =>
    let maxVal := listMax (blocks.map listMax)
    let minVal := listMin (blocks.map listMin)
    let meanVal := (blocks.map listMean).sum / blocks.length
    .ok ((if |maxVal - meanVal| ≤ |minVal - meanVal| then minVal - meanVal else maxVal - meanVal) * (3 / 4))

end Acoular
