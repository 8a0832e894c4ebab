import Verif.Model.Py
import Verif.Model.Beamform
import Verif.Model.Env
import Verif.Model.EigBeam

/-!
# Steering vector object: reference, distances, transfer matrix (`SteeringVector`, acoular/fbeamform.py)

`entry g m` is the travel distance that the environment computes between a grid point and a microphone. Arrays are
lists; the shapes matter here.
-/

namespace Acoular

/-- What a user may assign to `ref`. -/
inductive RefArg where
  /-- a number -/
  | num (x : ℝ)
  /-- a string that is not a number (a scalar for `isscalar`) -/
  | str
  /-- a sequence of numbers -/
  | seq (l : List ℝ)

/-- The stored reference `_ref`. -/
inductive SteerRef where
  /-- a distance -/
  | dist (d : ℝ)
  /-- a position -/
  | pos (x : Fin 3 → ℝ)

/-- `SteeringVector._set_ref` (acoular/fbeamform.py 186-196): the new value of `_ref`. -/
noncomputable def setRef : RefArg → Except PyErr SteerRef
  | .num x => .ok (.dist |x|)
  | .str => .error .traitError
  | .seq l => if h : l.length = 3 then .ok (.pos fun i => l[i.val]) else .error .traitError

open Classical in
/-- `SteeringVector._get_r0` (207-212). `self.grid.pos()` in line 211 calls an array: `TypeError`. The reference position
is one point, so `_r` returns a vector. -/
noncomputable def steerR0 (entry : (Fin 3 → ℝ) → (Fin 3 → ℝ) → ℝ) (gpos : List (Fin 3 → ℝ)) : SteerRef → Except PyErr (List ℝ)
  | .dist d => if d > 0 then .ok (List.replicate gpos.length d) else .error .typeError
  | .pos x =>
    match distTable entry gpos (some [x]) with
    | .vec l => .ok l
    | .mat _ => .error .valueError

/-- `SteeringVector._get_rm` (214-216): `atleast_2d` makes a row of a vector. -/
noncomputable def steerRm (entry : (Fin 3 → ℝ) → (Fin 3 → ℝ) → ℝ) (gpos mpos : List (Fin 3 → ℝ)) : List (List ℝ) :=
  match distTable entry gpos (some mpos) with
  | .vec l => [l]
  | .mat t => t

/-- One row of `_transferCoreFunc` (acoular/fastFuncs.py 860-864). -/
noncomputable def transferRow (k r0 : ℝ) (rm : List ℝ) : List ℂ := rm.map fun r => phase (k * (r - r0)) * r0 / r

/-- `calcTransfer` (acoular/fastFuncs.py 845-849): one row of the result per row of `rm`. A single value of `r0` is used
for all rows; a single row of `rm` with several values of `r0` does not fit the shape of the result: `ValueError`. -/
noncomputable def calcTransfer (r0 : List ℝ) (rm : List (List ℝ)) (k : ℝ) : Except PyErr (List (List ℂ)) :=
  if r0.length = rm.length then .ok (List.zipWith (transferRow k) r0 rm)
  else if r0.length = 1 then .ok (rm.map (transferRow k (r0.getD 0 0)))
  else .error .valueError

/-- The argument `ind` of `transfer`. -/
inductive TransferInd where
  | all
  | int (i : ℤ)
  | array (l : List ℤ)

/-- `r0[ind]` and `rm[ind, :]` for one index. -/
def rowAt (r0 : List ℝ) (rm : List (List ℝ)) (i : ℤ) : Except PyErr (ℝ × List ℝ) :=
  match pyIndex r0.length i, pyIndex rm.length i with
  | some a, some b => .ok (r0[a.val], rm[b.val])
  | _, _ => .error .indexError

/-- `SteeringVector.transfer` (acoular/fbeamform.py 226-254) for wave number `k = 2 * pi * f / c`. -/
noncomputable def steerTransfer (r0 : List ℝ) (rm : List (List ℝ)) (k : ℝ) : TransferInd → Except PyErr (List (List ℂ))
  | .all => calcTransfer r0 rm k
  | .int i => do
    let (a, b) ← rowAt r0 rm i
    calcTransfer [a] [b] k
  | .array l => do
    let rows ← l.mapM (rowAt r0 rm)
    calcTransfer (rows.map Prod.fst) (rows.map Prod.snd) k

end Acoular
