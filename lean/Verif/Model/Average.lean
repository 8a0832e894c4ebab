import Mathlib.Algebra.Module.Basic
import Mathlib.Algebra.BigOperators.Group.List.Basic
import Mathlib.Algebra.Field.Basic
import Mathlib.Algebra.CharZero.Defs
import Verif.Model.Py

/-!
# Model of `Average` and `TimeCumAverage`

Rows are elements of a vector space `V` over an idealised number field `K` (a row of `nc` channels is an
element of `Fin nc → K`); all operations of the code on rows are the vector space operations.
-/

namespace Acoular

variable {K V : Type*} [Field K] [AddCommGroup V] [Module K V]

variable (K) in
/-- numpy `mean(axis=...)` of a list of rows. -/
def rowMean (rows : List V) : V := (rows.length : K)⁻¹ • rows.sum

/-- `temp[: nso*nav].reshape((nso, -1, nc))`: `nso` groups of `nav` consecutive rows. -/
def reshapeGroups (nso nav : Nat) (temp : List V) : List (List V) :=
  (List.range nso).map fun j => slice (temp.take (nso * nav)) (j * nav) (j * nav + nav)

variable (K) in
/-- `Average.result`, `acoular/process.py` 153-194; `blocks = list(self.source.result(num * nav))`.
`int(ns / nav)` is the floor of the quotient (float rounding of the quotient not modelled).
`nav = 0` is rejected by a division by zero in the first block. -/
def Average.result (nav : Nat) (blocks : List (List V)) : List (List V) :=
  blocks.filterMap fun temp =>
    let nso := temp.length / nav
    if nso > 0 then some ((reshapeGroups nso nav temp).map (rowMean K)) else none

/-- `Average._get_num_samples`, `acoular/process.py` 148-151: Python true division. -/
def Average.numSamples (K : Type*) [Field K] (sourceNumSamples nav : Nat) : K := (sourceNumSamples : K) / (nav : K)

/-- numpy `cumsum(temp, axis=0)`. -/
def cumsum (temp : List V) : List V :=
  (List.range temp.length).map fun j => (temp.take (j + 1)).sum

variable (K) in
/-- Loop of `TimeCumAverage.result`, `acoular/tprocess.py` 1395-1403.  `accu` is the running average
(zero before the first block), the array `count` is `[c+1, c+2, ...]`.  An empty block makes `temp[-1]`
raise `IndexError`, modelled by stopping with an error. -/
def TimeCumAverage.loop : (accu : V) → (c : Nat) → List (List V) → Trace (List V)
  | _, _, [] => .stop
  | accu, c, temp :: rest =>
    let out := (List.range temp.length).map fun j =>
      ((c + 1 + j : Nat) : K)⁻¹ • (((c : Nat) : K) • accu + ((cumsum temp)[j]?).getD 0)
    match out.getLast? with
    | none => .raise .indexError
    | some l => (TimeCumAverage.loop l (c + temp.length) rest).cons out

variable (K) in
/-- `TimeCumAverage.result`, `acoular/tprocess.py` 1379-1403. -/
def TimeCumAverage.result (blocks : List (List V)) : Trace (List V) := TimeCumAverage.loop K 0 0 blocks

end Acoular
