import Verif.Model.SourceDigest

/-!
# `MovingLineSource` (`acoular/sources.py`): the generator, from the settings to the blocks

Coherent monopoles; values that are not a number count as missing samples (an index computed from such a value is outside of
every signal), as in `Verif/Model/SourceDigest.lean`. `num_sources` is at least one (line 1892 divides by it).
-/

namespace Acoular

variable {M : ℕ}

/-- `digest` (acoular/sources.py 1735-1746): neither the trajectory nor length, number and strengths of the monopoles are
listed. -/
def SrcSet.movingLineDigest (md5 : List Char → String) (pr : SrcPrint M) (s : SrcSet M) : String :=
  digestOf md5 "<class 'acoular.sources.MovingLineSource'>" ([pr.mics s.mics, pr.signal s.signal, pr.vec s.loc, pr.env s.c,
    pr.num s.startT, pr.num s.start, pr.nat s.up, pr.vec s.direction].map some)

/-- `get_emission_time(t, direction)` (acoular/sources.py 1844-1862) for sample `k`: the time is increased before (1918). -/
noncomputable def SrcSet.lineEmission (s : SrcSet M) (k : ℕ) (direction : Fin 3 → ℝ) :
    Option ((Fin (M + 1) → ℝ) × (Fin (M + 1) → EmissionStep)) :=
  match emissionTimes s.trajectory s.c (epsLimit s.up s.signal.fs) direction s.mics
    (fun _ => receiveTimeLine s.start s.signal.fs k) with
  | some ⟨te, some l⟩ => some (te, l)
  | _ => none

/-- What is kept of one monopole: `rms[:, s]`, `Mr`, `inds[:, s]`. -/
structure LineMono (M : ℕ) where
  rm : Fin (M + 1) → ℝ
  mr : Fin (M + 1) → ℝ
  ind : Fin (M + 1) → ℝ

/-- `dir2` (acoular/sources.py 1887-1893). -/
noncomputable def SrcSet.lineStep (s : SrcSet M) : Fin 3 → ℝ :=
  fun i => s.direction i / absVec s.direction * (s.length / s.numSources)

/-- The body of the loop over the monopoles (acoular/sources.py 1924-1929) for monopole `j`: `te1` are the emission times of
the reference point. The position is the one for the first microphone. -/
noncomputable def SrcSet.lineMono (s : SrcSet M) (k : ℕ) (te1 : Fin (M + 1) → ℝ) (j : ℕ) : Option (LineMono M) :=
  match movingDirection s.rvec (s.trajectory.vel (te1 0)) s.lineStep with
  | none => none
  | some diff =>
    match s.lineEmission k (fun i => diff i * j) with
    | none => none
    | some (te, l) =>
      match movingDirection s.rvec (s.trajectory.vel (te 0)) s.lineStep with
      | none => none
      | some diff' => some {
          rm := s.dist fun i => s.trajectory.loc (te 0) i + diff' i * j
          mr := fun m => (l m).mr
          ind := fun m => (te m - s.startT + s.start) * s.signal.fs }

/-- `rms` after lines 1931-1933: with `conv_amp` the distances of the last monopole are changed (see `lineDistances`). -/
noncomputable def ampLast (convAmp : Bool) : List (LineMono M) → List (LineMono M)
  | [] => []
  | [x] => [{ x with rm := fun m => ampDistance convAmp (x.rm m) (x.mr m) }]
  | x :: y :: l => x :: ampLast convAmp (y :: l)

/-- Row `k` of `MovingLineSource.result` (acoular/sources.py 1918-1938) with the signals of the monopoles. -/
noncomputable def SrcSet.movingLineRow (s : SrcSet M) (sigs : List (List ℝ)) (k : ℕ) : Option (Fin (M + 1) → ℝ) :=
  match s.lineEmission k 0 with
  | none => none
  | some (te1, _) =>
    match (List.range s.numSources).mapM (s.lineMono k te1) with
    | none => none
    | some l => lineRow (s.up : ℝ) (List.zipWith (fun sig x => (sig, x.rm, x.ind)) sigs (ampLast s.convAmp l)) 0

/-- `MovingLineSource.result` (acoular/sources.py 1878-1947). `self.signal.rms` is one before the call. -/
noncomputable def SrcSet.movingLine (s : SrcSet M) (num : ℕ) : Except PyErr (List (List (Fin (M + 1) → ℝ))) :=
  match lineSignals (fun _ => s.signal.u s.up) (fun _ => 0) false s.strength s.numSources 0 ⟨1, 0⟩ with
  | .error e => .error e
  | .ok (sigs, _) => .ok (sourceLoop (s.movingLineRow sigs) num false s.signal.n 0 [])

end Acoular
