import Verif.Model.MovingSource
import Verif.Model.Digest

/-!
# Identifiers of simulated sources and the settings their output depends on (`acoular/sources.py`)

Real numbers, as in `Verif/Model/MovingSource.lean`. The environment is a homogeneous medium at rest (class `Environment`).
-/

namespace Acoular

variable {M : ℕ}

/-- A signal generator as seen by a source: `sample_freq`, `num_samples`, `usignal(factor)`. -/
structure SigObj where
  fs : ℝ
  n : ℕ
  u : ℕ → List ℝ

/-- The settings of a source; every class uses some of them. There are `M + 1` microphones. -/
structure SrcSet (M : ℕ) where
  /-- `mics.pos` -/
  mics : Fin (M + 1) → Fin 3 → ℝ
  signal : SigObj
  loc : Fin 3 → ℝ
  /-- speed of sound of the environment -/
  c : ℝ
  startT : ℝ
  start : ℝ
  up : ℕ
  /-- `prepadding == 'zeros'` -/
  zeros : Bool
  direction : Fin 3 → ℝ
  length : ℝ
  numSources : ℕ
  strength : List ℝ
  convAmp : Bool
  trajectory : Path
  rvec : Fin 3 → ℝ

/-- The classes modelled here. -/
inductive SrcClass where
  | point
  | moving
  | movingDipole
  | line

/-- `str` of the settings (for objects: of their identifiers). -/
structure SrcPrint (M : ℕ) where
  mics : (Fin (M + 1) → Fin 3 → ℝ) → String
  signal : SigObj → String
  vec : (Fin 3 → ℝ) → String
  env : ℝ → String
  num : ℝ → String
  nat : ℕ → String
  pad : Bool → String
  bool : Bool → String
  list : List ℝ → String
  path : Path → String

/-- The values listed in `depends_on` of `digest`: acoular/sources.py 862-873 (`PointSource`), 1111-1123
(`MovingPointSource`), 1376-1387 (`MovingPointSourceDipole`), 1621-1634 (`LineSource`, coherent). -/
def SrcSet.depends (pr : SrcPrint M) (s : SrcSet M) : SrcClass → List String
  | .point => [pr.mics s.mics, pr.signal s.signal, pr.vec s.loc, pr.env s.c, pr.num s.startT, pr.num s.start, pr.nat s.up,
      pr.pad s.zeros]
  | .moving => [pr.mics s.mics, pr.signal s.signal, pr.vec s.loc, pr.bool s.convAmp, pr.env s.c, pr.num s.startT,
      pr.num s.start, pr.path s.trajectory, pr.pad false]
  | .movingDipole => [pr.mics s.mics, pr.signal s.signal, pr.vec s.loc, pr.env s.c, pr.num s.startT, pr.num s.start,
      pr.nat s.up, pr.vec s.direction]
  | .line => [pr.mics s.mics, pr.signal s.signal, pr.vec s.loc, pr.env s.c, pr.num s.startT, pr.num s.start,
      pr.nat s.up, pr.vec s.direction, pr.list s.strength, "coherent"]

/-- Name of the class as printed by `str`. -/
def SrcClass.name : SrcClass → String
  | .point => "<class 'acoular.sources.PointSource'>"
  | .moving => "<class 'acoular.sources.MovingPointSource'>"
  | .movingDipole => "<class 'acoular.sources.MovingPointSourceDipole'>"
  | .line => "<class 'acoular.sources.LineSource'>"

/-- `digest` (acoular/internal.py 8-18). -/
def SrcSet.digest (md5 : List Char → String) (pr : SrcPrint M) (s : SrcSet M) (k : SrcClass) : String :=
  digestOf md5 k.name ((s.depends pr k).map some)

/-- `env._r(x, mpos)` (acoular/environments.py 205-242): distances. -/
noncomputable def SrcSet.dist (s : SrcSet M) (x : Fin 3 → ℝ) (m : Fin (M + 1)) : ℝ := absVec fun i => x i - s.mics m i

/-- Receiving time of sample `k`, the same for all microphones, and the emission times (acoular/sources.py 1173-1191,
1536-1542); `none` also if the loop is left before its first pass (`rm` is not bound). -/
noncomputable def SrcSet.emission (s : SrcSet M) (k : ℕ) : Option ((Fin (M + 1) → ℝ) × (Fin (M + 1) → EmissionStep)) :=
  match emissionTimes s.trajectory s.c (epsLimit s.up s.signal.fs) 0 s.mics (fun _ => receiveTime s.start s.signal.fs k) with
  | some ⟨te, some l⟩ => some (te, l)
  | _ => none

/-- Row `k` of `MovingPointSource.result` (acoular/sources.py 1175-1206); values that are not a number count as missing
samples. -/
noncomputable def SrcSet.movingRow (s : SrcSet M) (k : ℕ) : Option (Fin (M + 1) → ℝ) :=
  match s.emission k with
  | none => none
  | some (te, l) => fancyRow (s.signal.u s.up) (fun m => ampDistance s.convAmp (l m).rm (l m).mr)
      fun m => (te m - s.startT + s.start) * s.signal.fs * s.up

/-- Row `k` of `MovingPointSourceDipole.result` (acoular/sources.py 1522-1571). -/
noncomputable def SrcSet.movingDipoleRow (s : SrcSet M) (k : ℕ) : Option (Fin (M + 1) → ℝ) :=
  let direc := fun i => s.direction i * (1 / 100000)
  let mag := absVec direc
  let d := s.c / s.signal.fs * mag * 2
  let dir2 := fun i => direc i / mag * d / 2
  match s.emission k with
  | none => none
  | some (te, l) =>
    match fancyRow (s.signal.u s.up) (fun _ => 1) fun m => (te m - s.startT + s.start) * s.signal.fs * s.up with
    | none => none
    | some val => Acoular.movingDipoleRow s.trajectory (fun x m => absVec fun i => x i - m i) s.rvec dir2 d s.convAmp s.mics te
        (fun m => (l m).rm) (fun m => (l m).mr) val

/-- The monopoles of a coherent `LineSource` (acoular/sources.py 1659-1688): signal, distances, emission indices of the first
sample. `self.signal.rms` is one before the call. -/
noncomputable def SrcSet.monopoles (s : SrcSet M) :
    Except PyErr (List (List ℝ × (Fin (M + 1) → ℝ) × (Fin (M + 1) → ℝ))) :=
  let d := s.length / s.numSources
  match lineSignals (fun _ => s.signal.u s.up) (fun _ => 0) false s.strength s.numSources 0 ⟨1, 0⟩ with
  | .error e => .error e
  | .ok (sigs, _) => .ok ((List.range s.numSources).map fun j : ℕ =>
      let rm := s.dist fun i => s.loc i + s.direction i / absVec s.direction * d * j
      (sigs.getD j [], rm, fun m => (-rm m / s.c - s.startT + s.start) * s.signal.fs))

/-- All samples of `result(num)`, block by block: acoular/sources.py 906-945, 1175-1206, 1541-1577, 1659-1707. A sample
that is read outside the signal is `none`. -/
noncomputable def SrcSet.result (s : SrcSet M) (num : ℕ) :
    SrcClass → Except PyErr (List (List (Fin (M + 1) → Option ℝ)))
  | .point =>
    let rm := s.dist s.loc
    .ok (pointSource (s.signal.u s.up) rm (emissionIndex rm s.c s.startT s.start s.signal.fs s.up) s.up s.signal.n num s.zeros)
  | .moving => .ok ((sourceLoop s.movingRow num true s.signal.n 0 []).map fun b => b.map fun r m => some (r m))
  | .movingDipole => .ok ((sourceLoop s.movingDipoleRow num false s.signal.n 0 []).map fun b => b.map fun r m => some (r m))
  | .line =>
    match s.monopoles with
    | .error e => .error e
    | .ok mono => .ok ((sourceLoop (lineRow (s.up : ℝ) mono) num false s.signal.n 0 []).map fun b => b.map fun r m => some (r m))

end Acoular
