import Verif.Model.Lazy

/-!
# Specification: what indexing a beamformer result must return

`value i` is the map of frequency line `i`, `n` the number of lines.
-/

namespace Acoular.Spec

/-- A Python slice bound: negative values count from the end. -/
def pyBound (v : Int) (n : Nat) : Int := if v < 0 then v + n else v

/-- The line numbers selected by `start:stop:step` out of `n` lines. -/
def sliceLines (start : Int) (stop : Option Int) (step n : Nat) : List Nat :=
  let lo := max 0 (pyBound start n)
  (List.range n).filter fun i => decide (lo ≤ (i : Int)) &&
    (match stop with | none => true | some v => decide ((i : Int) < pyBound v n)) &&
    decide ((step : Int) ∣ (i : Int) - lo)

/-- What `result[key]` must be. -/
def lazyAnswer {V : Type*} (value : Nat → V) (n : Nat) : BfKey → Except PyErr (BfAns V)
  | .int k => if -(n : Int) ≤ k ∧ k < n then .ok (.line (value (pyBound k n).toNat)) else .error .indexError
  | .slice a b st => .ok (.lines ((sliceLines a b st n).map value))

end Acoular.Spec
