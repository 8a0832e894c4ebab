import Verif.Model.Py
import Mathlib.Algebra.Order.Floor.Semiring
import Mathlib.Algebra.Order.Field.Basic

/-!
# Model: `Trajectory` (`acoular/trajectory.py`)

The spline (`splprep`/`splev`) is a function of time.
-/

namespace Acoular

variable {K X : Type*} [Field K] [LinearOrder K] [IsStrictOrderedRing K] [FloorSemiring K]

/-- `numpy.arange` with a nonzero step, without rounding: `ceil((stop - start)/step)` values. -/
def arange (start stop step : K) : List K :=
  (List.range ⌈(stop - start) / step⌉₊).map fun k : ℕ => start + k * step

/-- acoular/trajectory.py 102-104 (`_get_interval`): first and last of the sorted keys; IndexError without points. -/
def trajInterval (keys : List K) : Except PyErr (K × K) :=
  match keys.mergeSort (· ≤ ·) with
  | [] => .error .indexError
  | a :: l => .ok (a, (a :: l).getLast (by simp))

/-- Truth value of an optional number. -/
def truthy (x : Option K) : Bool :=
  match x with
  | none => false
  | some y => decide (y ≠ 0)

/-- acoular/trajectory.py 147-197 (`traj`): the times at which the spline is evaluated, as the code computes them.
`arange` with step zero raises. -/
def trajTimes (keys : List K) (tStart : K) (tEnd deltaT : Option K) : Except PyErr (List K) :=
  match trajInterval keys with
  | .error e => if truthy deltaT && truthy tEnd then
      .ok (arange tStart (tEnd.getD 0) (deltaT.getD 0)) else .error e
  | .ok (lo, hi) =>
    let dt := if truthy deltaT then deltaT.getD 0 else tStart
    let ts := if truthy deltaT then tStart else lo
    let te := if truthy deltaT then tEnd else some hi
    let te' := if truthy te then te.getD 0 else hi
    if dt = 0 then .error .zeroDivisionError else .ok (arange ts te' dt)

/-- acoular/trajectory.py 197: the positions yielded. -/
def traj (loc : K → X) (keys : List K) (tStart : K) (tEnd deltaT : Option K) : Except PyErr (List X) :=
  (trajTimes keys tStart tEnd deltaT).map (List.map loc)

end Acoular
