import Verif.Model.Sources
import Verif.Model.Env
import Verif.Model.MovingFrame

/-!
# Moving sources (`acoular/sources.py`): emission times, convective amplification, dipole, line source

Real numbers instead of floating point numbers. A trajectory is given by its location and its velocity (`location(t)`,
`location(t, der=1)`), both functions of time.  `none` stands for values that are not a number (the direction of a
source in the origin, 0/0).
-/

namespace Acoular

/-- A trajectory. -/
structure Path where
  /-- `location(t)` -/
  loc : ℝ → Fin 3 → ℝ
  /-- `location(t, der=1)` -/
  vel : ℝ → Fin 3 → ℝ

/-- `sqrt((x * x).sum(0))`. -/
noncomputable def absVec (x : Fin 3 → ℝ) : ℝ := √(x 0 * x 0 + x 1 * x 1 + x 2 * x 2)

/-- What one pass of the iteration computes for one microphone. -/
structure EmissionStep where
  /-- `rm` -/
  rm : ℝ
  /-- `Mr` -/
  mr : ℝ
  /-- `eps` -/
  eps : ℝ

open Classical in
/-- One pass of the iteration for one microphone at `m` (acoular/sources.py 1182-1188 with `direction = 0`, 1439-1447,
1850-1858): the distance to the microphone, but the unit vector of the position itself. -/
noncomputable def emissionStep (tr : Path) (c : ℝ) (direction m : Fin 3 → ℝ) (t te : ℝ) : Option EmissionStep :=
  let loc := fun i => tr.loc te i + direction i
  let rm := absVec fun i => loc i - m i
  if absVec loc = 0 then none
  else
    let u := fun i => loc i / absVec loc
    let der := tr.vel te
    let mr := (der 0 * u 0 + der 1 * u 1 + der 2 * u 2) / c
    if 1 + mr = 0 then none
    else some ⟨rm, mr, (te + rm / c - t) / (1 + mr)⟩

variable {M : ℕ}

/-- The variables of the loop: `te`, and what the last pass computed (`none` before the first). -/
structure EmissionState (M : ℕ) where
  /-- `te` -/
  te : Fin M → ℝ
  /-- `rm`, `Mr`, `eps` of the last pass -/
  last : Option (Fin M → EmissionStep)

open Classical in
/-- One pass for all microphones. -/
noncomputable def emissionPass (tr : Path) (c : ℝ) (direction : Fin 3 → ℝ) (mics : Fin M → Fin 3 → ℝ) (t : Fin M → ℝ)
    (te : Fin M → ℝ) : Option (EmissionState M) :=
  if h : ∀ m, (emissionStep tr c direction (mics m) (t m) (te m)).isSome then
    let s := fun m => (emissionStep tr c direction (mics m) (t m) (te m)).get (h m)
    some ⟨fun m => te m - (s m).eps, some s⟩
  else none

open Classical in
/-- The condition `abs(eps).max() > epslim`; `eps` is one before the first pass. -/
noncomputable def emissionGoOn (epslim : ℝ) (s : EmissionState M) : Bool :=
  match s.last with
  | none => decide (1 > epslim)
  | some l => decide (∃ m, |(l m).eps| > epslim)

/-- The loop (acoular/sources.py 1181-1190, 1438-1450, 1849-1861) with `n` passes left. -/
noncomputable def emissionLoop (tr : Path) (c epslim : ℝ) (direction : Fin 3 → ℝ) (mics : Fin M → Fin 3 → ℝ) (t : Fin M → ℝ) :
    ℕ → EmissionState M → Option (EmissionState M)
  | 0, s => some s
  | n + 1, s =>
    if emissionGoOn epslim s then
      match emissionPass tr c direction mics t s.te with
      | none => none
      | some s' => emissionLoop tr c epslim direction mics t n s'
    else some s

/-- `get_emission_time` (acoular/sources.py 1398-1451, 1810-1862), and the same lines of `MovingPointSource.result`
(1178-1190): at most 100 passes from `te = t`. -/
noncomputable def emissionTimes (tr : Path) (c epslim : ℝ) (direction : Fin 3 → ℝ) (mics : Fin M → Fin 3 → ℝ) (t : Fin M → ℝ) :
    Option (EmissionState M) :=
  emissionLoop tr c epslim direction mics t 100 ⟨t, none⟩

/-- `epslim` (1173, 1435, 1846). -/
noncomputable def epsLimit (up fs : ℝ) : ℝ := 0.1 / up / fs

/-- `rm *= (1 - Mr) ** 2` if `conv_amp` (acoular/sources.py 1194-1195, 1556-1559): the distance that divides the
signal. -/
noncomputable def ampDistance (convAmp : Bool) (rm mr : ℝ) : ℝ := if convAmp then rm * (1 - mr) ^ 2 else rm

open Classical in
/-- `get_moving_direction` (acoular/sources.py 1485-1496, 1791-1802) with the velocity `v` of the first entry of
`time`. -/
noncomputable def movingDirection (rvec v direction : Fin 3 → ℝ) : Option (Fin 3 → ℝ) :=
  if rvec = 0 then some direction
  else
    let R := frameColumns rvec v
    if ∃ j, columnNorm R j = 0 then none
    else some (pyCross (Matrix.mulVec (Matrix.of fun i j => R i j / columnNorm R j) direction) rvec)

/-- Row of `MovingPointSourceDipole.result` (acoular/sources.py 1543-1571) from the emission times on: `te`, `rm`, `mr`
from `get_emission_time(t, 0)`, `entry` the travel distances of the environment, `dist` the distance of the poles,
`dir2` half of the vector between them, `val m` the value of the signal read for microphone `m`. The position and
the velocity are those for the first microphone. -/
noncomputable def movingDipoleRow (tr : Path) (entry : (Fin 3 → ℝ) → (Fin 3 → ℝ) → ℝ) (rvec dir2 : Fin 3 → ℝ) (dist : ℝ)
    (convAmp : Bool) (mics : Fin (M + 1) → Fin 3 → ℝ) (te rm mr val : Fin (M + 1) → ℝ) : Option (Fin (M + 1) → ℝ) :=
  let loc := tr.loc (te 0)
  (movingDirection rvec (tr.vel (te 0)) dir2).map fun diff m =>
    let rm1 := entry (fun i => loc i + diff i) (mics m)
    let rm2 := entry (fun i => loc i - diff i) (mics m)
    ampDistance convAmp (rm m) (mr m) / dist *
      (val m / ampDistance convAmp rm1 (mr m) - val m / ampDistance convAmp rm2 (mr m))

/-- The receiving times for which `MovingPointSource` (1173, 1191) and `MovingPointSourceDipole` (1536-1542) compute
sample `k`: the increment follows the computation. -/
noncomputable def receiveTime (start fs : ℝ) : ℕ → ℝ
  | 0 => start
  | k + 1 => receiveTime start fs k + 1 / fs

/-- The same for `MovingLineSource` (acoular/sources.py 1910-1917): the increment precedes the computation. -/
noncomputable def receiveTimeLine (start fs : ℝ) (k : ℕ) : ℝ := receiveTime start fs k + 1 / fs

/-- The distances by which the signals of the monopoles of a `MovingLineSource` are divided (acoular/sources.py
1921-1933) at one microphone: after the loop, `s` is the last index and `Mr` the Mach number of the last monopole.
`rms` and `mr`: distance and Mach number of each monopole. -/
noncomputable def lineDistances (convAmp : Bool) (rms : List ℝ) (mr : List ℝ) : List ℝ :=
  match rms.reverse, mr.reverse with
  | r :: rs, a :: _ => (ampDistance convAmp r a :: rs).reverse
  | _, _ => rms

end Acoular
