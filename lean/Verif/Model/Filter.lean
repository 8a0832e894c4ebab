import Mathlib.Algebra.Module.Basic
import Mathlib.Analysis.SpecialFunctions.Exp
import Verif.Model.Py
import Verif.Model.Stream
import Verif.Spec.Filter

/-!
# Model of `Filter`, `TimeExpAverage`, `FiltFiltOctave` and `FilterBank`

Rows are elements of a module `V` over idealised coefficients `K`; scipy's `sosfilt` is modelled by its
documented recurrence (direct form II transposed, sections in series).
-/

namespace Acoular

open Spec (Sos)

variable {K V : Type*} [Ring K] [AddCommGroup V] [Module K V]

/-- scipy `sosfilt`, inner loop body for one row: `x_n = b0*x + z0; z0 = b1*x - a1*x_n + z1;
z1 = b2*x - a2*x_n` for each section in turn (used by `acoular/tprocess.py` 1479 and 1721). -/
def sosStep : List (Sos K) → List (V × V) → V → V × List (V × V)
  | s :: ss, z :: zs, x =>
    let xn := s.b0 • x + z.1
    let z' := (s.b1 • x - s.a1 • xn + z.2, s.b2 • x - s.a2 • xn)
    let r := sosStep ss zs xn
    (r.1, z' :: r.2)
  | _, _, x => (x, [])

/-- scipy `sosfilt`, loop over the rows of a block. -/
def sosRows (sos : List (Sos K)) : List (V × V) → List V → List V × List (V × V)
  | zi, [] => ([], zi)
  | zi, x :: xs =>
    let r := sosStep sos zi x
    let q := sosRows sos r.2 xs
    (r.1 :: q.1, q.2)

/-- scipy `sosfilt(sos, block, axis=0, zi=zi)`: the shape of `zi` must match the number of sections. -/
def sosfilt (sos : List (Sos K)) (block : List V) (zi : List (V × V)) : Except PyErr (List V × List (V × V)) :=
  if zi.length = sos.length then .ok (sosRows sos zi block) else .error .valueError

/-- The loop of `Filter.result`, `acoular/tprocess.py` 1476-1480.  `sosAt k` is the value of `self.sos`
when block `k` is processed ("changes to self.sos during generator lifetime"). -/
def Filter.loop (sosAt : Nat → List (Sos K)) : (k : Nat) → List (V × V) → List (List V) → Trace (List V)
  | _, _, [] => .stop
  | k, zi, block :: rest =>
    match sosfilt (sosAt k) block zi with
    | .error e => .raise e
    | .ok (out, zi') => (Filter.loop sosAt (k + 1) zi' rest).cons out

/-- `Filter.result`, `acoular/tprocess.py` 1458-1480. `sos0` is `self.sos` when the generator starts. -/
def Filter.result (sos0 : List (Sos K)) (sosAt : Nat → List (Sos K)) (blocks : List (List V)) : Trace (List V) :=
  Filter.loop sosAt 0 (List.replicate sos0.length (0, 0)) blocks

/-- `TimeExpAverage._get_sos`, `acoular/tprocess.py` 1613-1618: `tf2sos([alpha], [1, alpha - 1])` is one
section with `b = [alpha, 0, 0]`, `a = [1, alpha - 1, 0]` (scipy, not modelled). -/
noncomputable def TimeExpAverage.sos (weight fs : ℝ) : List (Sos ℝ) :=
  let alpha := 1 - Real.exp (-1 / weight / fs)
  [⟨alpha, 0, 0, alpha - 1, 0⟩]

/-- `data[j : j + ns] = block; j += ns` over the source blocks, `acoular/tprocess.py` 1581-1584: the rows
collected so far; a block reaching beyond the `numSamples` rows of `data` does not fit (`ValueError`), except that
numpy accepts a single row for the empty slice behind the end, where it is lost. -/
def collectRows {α : Type*} (numSamples : Nat) : List α → List (List α) → Except PyErr (List α)
  | acc, [] => .ok acc
  | acc, b :: rest =>
    if acc.length + b.length ≤ numSamples then collectRows numSamples (acc ++ b) rest
    else if b.length = 1 then collectRows numSamples acc rest
    else .error .valueError

/-- `FiltFiltOctave.result`, `acoular/tprocess.py` 1562-1592.  `filtfilt` is scipy's zero phase filter
applied to all rows (column by column); `junk` are the uninitialised rows of `empty(...)` that remain if
the source delivers fewer rows than announced. -/
def FiltFiltOctave.result {α : Type*} (filtfilt : List α → List α) (numSamples : Nat) (junk : Nat → α)
    (blocks : List (List α)) (num : Nat) : Trace (List α) :=
  match collectRows numSamples [] blocks with
  | .error e => .raise e
  | .ok rows =>
    let data := filtfilt (rows ++ (List.range (numSamples - rows.length)).map fun i => junk (rows.length + i))
    blockLoop data num data.length 0

/-- The inner loop over the bands of `FilterBank.result`, `acoular/tprocess.py` 1720-1721: one filtered
block per band.  The result is written to `res[:, cols]`, an array with `num` rows: the filtered block must
have `num` rows, or one row, which numpy then repeats; otherwise numpy raises `ValueError`. -/
def FilterBank.bands (num : Nat) (block : List V) :
    List (List (Sos K) × List (V × V)) → Except PyErr (List (List V) × List (List (V × V)))
  | [] => .ok ([], [])
  | (sos, zi) :: rest =>
    match sosfilt sos block zi with
    | .error e => .error e
    | .ok (out, zi') =>
      if out.length = num ∨ out.length = 1 then
        match FilterBank.bands num block rest with
        | .error e => .error e
        | .ok (outs, zis) => .ok ((if out.length = num then out else List.replicate num (out.headD 0)) :: outs, zi' :: zis)
      else .error .valueError

/-- The loop of `FilterBank.result`, `acoular/tprocess.py` 1719-1722; row `r` of the yielded array is the
list over the bands of the filtered rows. -/
def FilterBank.loop (num : Nat) (soss : List (List (Sos K))) :
    List (List (V × V)) → List (List V) → Trace (List (List V))
  | _, [] => .stop
  | zis, block :: rest =>
    match FilterBank.bands num block (soss.zip zis) with
    | .error e => .raise e
    | .ok (outs, zis') =>
      (FilterBank.loop num soss zis' rest).cons ((List.range num).map fun r => outs.map fun o => o.getD r 0)

/-- `FilterBank.result`, `acoular/tprocess.py` 1698-1722; all states are created with the number of
sections of the first band (without any bands `sos[0]` is never evaluated). -/
def FilterBank.result (num : Nat) (soss : List (List (Sos K))) (blocks : List (List V)) : Trace (List (List V)) :=
  FilterBank.loop num soss (soss.map fun _ => List.replicate (soss.headD []).length (0, 0)) blocks

end Acoular
