import Verif.Model.Grid
import Mathlib.Algebra.Order.Floor.Ring
import Mathlib.Data.Rat.Floor

/-!
# Rotation angle from trigger data (`acoular/tprocess.py`, `AngleTracker`)

Angles are measured in turns (the code multiplies by `2 * pi` and takes the remainder modulo `2 * pi`). Rational numbers
instead of floating point numbers. The cubic splines of scipy are represented by a function `spline` from a list of points
to a function; the theorems only use what every interpolating spline has in common.
-/

namespace Acoular

/-- `_find_nearest_idx` (acoular/tprocess.py 570-572): `argmin` takes the first of equal values. -/
def nearestIdx (peaks : List ℤ) (v : ℤ) : ℕ := argminList (peaks.map fun p => |p - v|)

/-- `stack((range(InterpPoints), window), axis=0)` (acoular/tprocess.py 601, 611): the arrays must have the same length. -/
def splinePoints (points : ℕ) (window : List ℤ) : Except PyErr (List (ℤ × ℕ)) :=
  if window.length = points then .ok (window.zip (List.range points)) else .error .valueError

/-- The choice of the points of the spline for sample `ind` (acoular/tprocess.py 594-614), for increasing trigger
positions. Then the nearest index in the second branch is not 0, so that `- 1` does not wrap around, and the differences
are positive. The lower end of the slice in the second branch is cut off at 0; Python would count a negative one from the
end, which does not happen for uniform triggers. -/
def angleWindow (points : ℕ) (peaks : List ℤ) (ind : ℕ) : Except PyErr (List (ℤ × ℕ)) :=
  match peaks[points]? with
  | none => .error .indexError
  | some p =>
    let j := nearestIdx peaks ind
    if (ind : ℤ) < p then
      match peaks[j + 1]?, peaks[j]? with
      | some b, some a =>
        let m := (ind / (b - a) : ℤ).toNat
        splinePoints points (slice peaks m (m + points))
      | _, _ => .error .indexError
    else
      match peaks[j]?, peaks[j - 1]? with
      | some b, some a =>
        let m := (ind / (b - a) : ℤ).toNat
        splinePoints points (slice peaks (m - points) m)
      | _, _ => .error .indexError

/-- `_angle[ind]` (acoular/tprocess.py 618-620), in turns. -/
def trackAngle (spline : List (ℤ × ℕ) → ℤ → ℚ) (points : ℕ) (peaks : List ℤ) (perRevo : ℕ) (dir : ℤ) (start : ℚ)
    (ind : ℕ) : Except PyErr ℚ :=
  (angleWindow points peaks ind).map fun pts => Int.fract (spline pts ind * dir / perRevo + start)

/-- `_rpm[ind]` (acoular/tprocess.py 618); `slope` is the derivative of the spline. -/
def trackRpm (slope : List (ℤ × ℕ) → ℤ → ℚ) (points : ℕ) (peaks : List ℤ) (fs : ℚ) (ind : ℕ) : Except PyErr ℚ :=
  (angleWindow points peaks ind).map fun pts => slope pts ind * 60 * fs

/-- `_get_average_rpm` (acoular/tprocess.py 648-660). -/
def averageRpm (peaks : List ℤ) (perRevo : ℕ) (fs : ℚ) : Except PyErr ℚ :=
  match peaks.head?, peaks.getLast? with
  | some a, some b => .ok (((peaks.length : ℚ) - 1) / (b - a) / perRevo * fs * 60)
  | _, _ => .error .indexError

end Acoular
