import Verif.Spec.Beamform
import Verif.Model.TimeBeamTraj
import Verif.Model.MovingSource
import Verif.Model.Steering

/-!
# Model: distances and amplitudes of the moving grid (`acoular/tbeamform.py`)

Real numbers instead of floating point numbers; `none` stands for values that are not a number.  At least two microphones
(with one, `_r` returns a vector that does not fit into `blockrm[i]`).
-/

namespace Acoular

open Spec

open Classical in
/-- `BeamformerTimeTraj._get_macostheta` (acoular/tbeamform.py 343-349) for a grid point at `x`, a microphone at `m`, the
velocity `v` on the trajectory and the travel distance `rm`. -/
noncomputable def macosTheta (c : ℝ) (v x m : Fin 3 → ℝ) (rm : ℝ) : Option ℝ :=
  if absVec v = 0 ∨ rm = 0 then none
  else
    let fdv := fun i => v i / absVec v
    some (absVec v / c * ((x 0 - m 0) * fdv 0 + (x 1 - m 1) * fdv 1 + (x 2 - m 2) * fdv 2) / rm)

/-- `blockrmconv[i, :, :]` with `conv_amp`, `blockrm[i, :, :]` without (acoular/tbeamform.py 407-415): the distance that goes
into the amplitudes. -/
noncomputable def convDistance (convAmp : Bool) (c : ℝ) (v x m : Fin 3 → ℝ) (rm : ℝ) : Option ℝ :=
  if convAmp then (macosTheta c v x m rm).map fun q => rm * (1 - q) ^ 2 else some rm

open Classical in
/-- `BeamformerTimeTraj.get_r0` (acoular/tbeamform.py 351-354) for a grid point at `x`; `_r` without a second argument is the
travel distance to the origin. -/
noncomputable def trajR0 (entry : (Fin 3 → ℝ) → (Fin 3 → ℝ) → ℝ) (x : Fin 3 → ℝ) : SteerRef → ℝ
  | .dist d => if d > 0 then d else entry x 0
  | .pos _ => entry x 0

/-- The settings that matter for the distances of a `BeamformerTimeTraj`: `steer.env` (travel distances, speed of sound),
sampling frequency of the source, `conv_amp`, `rvec`, `trajectory`, `steer.ref`, `steer.steer_type`, grid and microphones. -/
structure TrajBeam (M G : ℕ) where
  entry : (Fin 3 → ℝ) → (Fin 3 → ℝ) → ℝ
  c : ℝ
  fs : ℝ
  convAmp : Bool
  rvec : Fin 3 → ℝ
  path : Path
  ref : SteerRef
  form : Formulation
  gpos : Fin G → Fin 3 → ℝ
  mics : Fin M → Fin 3 → ℝ

variable {M G : ℕ}

/-- `_steer_funcs_time[steer_type]` (acoular/fbeamform.py 176-184) for one grid point. -/
noncomputable def steerFuncTime (form : Formulation) (rm : Fin M → ℝ) (r0 : ℝ) : Fin M → ℝ :=
  match form with
  | .classic => steerTime1 M
  | .inverse => steerTime2 rm r0
  | .trueLevel => steerTime3 rm r0
  | .trueLocation => steerTime4 Real.sqrt rm

/-- `tpos` of sample `n` (acoular/tbeamform.py 409 and 319-340). -/
noncomputable def TrajBeam.pos (s : TrajBeam M G) (n : ℕ) : Option (Fin G → Fin 3 → ℝ) :=
  movingGpos s.rvec (s.path.loc (n / s.fs)) (s.path.vel (n / s.fs)) s.gpos

/-- `rm` of sample `n` with the grid at `x` (acoular/tbeamform.py 410-412). -/
noncomputable def TrajBeam.rm (s : TrajBeam M G) (x : Fin G → Fin 3 → ℝ) : Fin G → Fin M → ℝ := fun gi mi => s.entry (x gi) (s.mics mi)

/-- `d_index.max((1, 2))` for the grid at `x` (acoular/tbeamform.py 420). -/
noncomputable def TrajBeam.maxIndex (s : TrajBeam M G) (x : Fin G → Fin 3 → ℝ) : ℕ :=
  ((List.finRange G).flatMap fun gi => (List.finRange M).map fun mi => delayIndex (s.c / s.fs) (s.rm x) gi mi).foldr max 0

open Classical in
/-- `amp[n, gi, :]` with the grid at `x` (acoular/tbeamform.py 407-419).  `_steer_I` does not use the distances. -/
noncomputable def TrajBeam.amp (s : TrajBeam M G) (n : ℕ) (x : Fin G → Fin 3 → ℝ) (gi : Fin G) : Option (Fin M → ℝ) :=
  let r := fun mi => convDistance s.convAmp s.c (s.path.vel (n / s.fs)) (x gi) (s.mics mi) (s.rm x gi mi)
  if s.form = .classic ∨ ∀ mi, (r mi).isSome then
    some (steerFuncTime s.form (fun mi => (r mi).getD 0) (trajR0 s.entry (x gi) s.ref))
  else none

open Classical in
/-- `BeamformerTimeTraj.result` (acoular/tbeamform.py 356-441) with the delays and amplitudes of `s`, without weights; `T` is the
number of positions that the trajectory delivers.  `none` if some of the positions or amplitudes are not a number. -/
noncomputable def TrajBeam.result (s : TrajBeam M G) (mode : BeamTimeMode) (T : ℕ) (source : ℕ → List (List (Fin M → ℝ)))
    (num fuel : ℕ) : Option (Trace (List (Fin G → Option ℝ))) :=
  if ∀ n < T, ∃ x, s.pos n = some x ∧ ∀ gi, (s.amp n x gi).isSome then
    let x := fun n => (s.pos n).getD 0
    some (beamformerTimeTraj mode (fun _ => 1) T (fun n => s.maxIndex (x n))
      (fun n => delayIndex (s.c / s.fs) (s.rm (x n))) (fun n => delayFrac (s.c / s.fs) (s.rm (x n)))
      (fun n gi => (s.amp n (x n) gi).getD 0) source num fuel)
  else none

/-- `BeamformerTime.result` (acoular/tbeamform.py 126-186) with the same environment, grid, microphones and reference, at the
same place for all samples, without weights.  `r0` of the steering vector may raise. -/
noncomputable def TrajBeam.fixed (s : TrajBeam M G) (mode : BeamTimeMode) (source : ℕ → List (List (Fin M → ℝ))) (num fuel : ℕ) :
    Except PyErr (Trace (List (Fin G → Option ℝ))) :=
  match steerR0 s.entry (List.ofFn s.gpos) s.ref with
  | .error e => .error e
  | .ok l => .ok (beamformerTime mode (fun _ => 1) (s.c / s.fs) (s.rm s.gpos)
      (fun gi => steerFuncTime s.form (s.rm s.gpos gi) (l.getD gi 0)) source num fuel)

end Acoular
