import Verif.Model.Py
import Mathlib.Algebra.Order.Floor.Ring
import Mathlib.Algebra.Order.Field.Basic
import Mathlib.Data.List.MinMax

/-!
# Model: WAV export (`acoular/tprocess.py`, `WriteWAV`)
-/

namespace Acoular

variable {K : Type*} [Field K] [LinearOrder K] [FloorRing K]

/-- Conversion of a float array to an integer type truncates towards zero ... -/
def truncSample (x : K) : ℤ := if 0 ≤ x then ⌊x⌋ else ⌈x⌉

/-- ... and keeps the lower 16 bits (`dtype=int16`; the result of an overflowing conversion depends on the machine, this
is the usual one). -/
def wrap16 (z : ℤ) : ℤ := (z + 32768) % 65536 - 32768

/-- Outcome of `save`: the frames written, an exception, or frames whose values are not specified (the scaling factor is
`inf`, `0 * inf` is `nan`, the conversion of `nan` to an integer is undefined). -/
inductive WavOut
  | frames (rows : List (List ℤ))
  | raised (e : PyErr)
  | unspecified
  deriving DecidableEq

/-- `data[:, ind]` of one row; indices beyond the row raise IndexError (negative indices are not modelled). -/
def wavRow (channels : List ℕ) (row : List K) : Except PyErr (List K) :=
  channels.mapM fun c => match row[c]? with | none => .error .indexError | some v => .ok v

/-- acoular/tprocess.py 1830-1833: the largest absolute value of the exported channels. -/
def wavMax (channels : List ℕ) : K → List (List (List K)) → Except PyErr K
  | mx, [] => .ok mx
  | mx, b :: l =>
    match b.mapM (wavRow channels) with
    | .error e => .error e
    | .ok rows => wavMax channels (max ((rows.flatten.map fun x => |x|).foldr max 0) mx) l

/-- acoular/tprocess.py 1834-1836: the frames written. -/
def wavFrames (channels : List ℕ) (scale : K) : List (List (List K)) → Except PyErr (List (List ℤ))
  | [] => .ok []
  | b :: l =>
    match b.mapM (wavRow channels) with
    | .error e => .error e
    | .ok rows =>
      match wavFrames channels scale l with
      | .error e => .error e
      | .ok r => .ok ((rows.map fun row => row.map fun x => wrap16 (truncSample (x * scale))) ++ r)

/-- acoular/tprocess.py 1810-1836 (`save`); the source delivers the same blocks in both passes (`blocks`, each a list of
rows).  A silent signal makes the scaling factor infinite (ZeroDivisionError if there are no blocks at all: then `mx` is
a Python float).  File name, header and the warning for more than two channels are not modelled. -/
def saveWav (channels : List ℕ) (blocks : List (List (List K))) : WavOut :=
  if channels = [] then .raised .valueError
  else
    match wavMax channels 0 blocks with
    | .error e => .raised e
    | .ok mx =>
      if mx = 0 then (if blocks = [] then .raised .zeroDivisionError else .unspecified)
      else
        match wavFrames channels (9 / 10 * 2 ^ 15 / mx) blocks with
        | .error e => .raised e
        | .ok r => .frames r

end Acoular
