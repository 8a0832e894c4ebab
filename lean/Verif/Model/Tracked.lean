import Verif.Model.Interp

/-!
# Rotation with tracked angles (`SpatialInterpolatorRotation` in `acoular/tprocess.py`)
-/

namespace Acoular

/-- What an object has under the name `angle`: an array (a property of `AngleTracker`, acoular/tprocess.py 549-550, 640-644) or
a method that returns one (a subclass may define it so). -/
inductive AngleAttr (K : Type) where
  | array (l : List K)
  | method (l : List K)

/-- `self.angle_source.angle()` (acoular/tprocess.py 1203): an array cannot be called. -/
def AngleAttr.call {K : Type} : AngleAttr K → Except PyErr (List K)
  | .array _ => .error .typeError
  | .method l => .ok l

/-- `_result_core_func(timeData, phi_delay, ...)` (acoular/tprocess.py 958-966 and the same for the other dimensions): `core row
phi` computes a row with the angle `phi`, `still row` a row without rotation. An empty `phi_delay` means no rotation. The
sum of the two tiled arrays is broadcast: one angle serves for all rows, one row uses the first angle only; other lengths that
differ raise ValueError. -/
def trackedBlock {K α β : Type} (core : α → K → β) (still : α → β) (b : List α) (phi : List K) : Except PyErr (List β) :=
  match phi with
  | [] => .ok (b.map still)
  | p :: ps =>
    if b.length = (p :: ps).length then .ok (List.zipWith core b (p :: ps))
    else if ps = [] then .ok (b.map fun row => core row p)
    else if b.length = 1 then .ok (b.map fun row => core row p)
    else .error .valueError

/-- The loop of `SpatialInterpolatorRotation.result` (acoular/tprocess.py 1205-1210). -/
def trackedLoop {K α β : Type} (core : α → K → β) (still : α → β) (angle : List K) (num : ℕ) : ℕ → List (List α) → Trace (List β)
  | _, [] => .stop
  | count, b :: bs =>
    match trackedBlock core still b (slice angle count (count + num)) with
    | .error e => .raise e
    | .ok out => (trackedLoop core still angle num (count + num) bs).cons out

/-- `SpatialInterpolatorRotation.result` (acoular/tprocess.py 1185-1210). -/
def trackedRotation {K α β : Type} (core : α → K → β) (still : α → β) (angle : AngleAttr K) (num : ℕ) (blocks : List (List α)) :
    Trace (List β) :=
  match angle.call with
  | .error e => .raise e
  | .ok a => trackedLoop core still a num 0 blocks

/-- One row for a ring without rotation (acoular/tprocess.py 952-954, 958-967): the angles are not shifted. -/
def ringStill {K : Type} [Field K] [LinearOrder K] [FloorRing K] (period : K) (real virt row : List K) : List (Option K) :=
  virt.map fun v => interpPeriodic period (sortPairs (real.zip row)) v

end Acoular
