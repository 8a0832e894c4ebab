import Mathlib.Algebra.Order.Floor.Ring
import Mathlib.Algebra.Order.Field.Basic

/-!
# Specification: what a simulated source delivers

A source with an (oversampled) signal; the receiver `m` hears at sample `t` the signal at position `pos m + t * up`.
Nothing in this file refers to the model of the code.
-/

namespace Acoular.Spec

variable {K : Type*} [Field K] [LinearOrder K] [IsStrictOrderedRing K] [FloorRing K]

/-- Position of a sample in the signal nearest to the real position `x` (halves away from zero below zero: the code
truncates `x + 1/2` towards zero). -/
def nearestSample (x : K) : ℤ := if x + 1 / 2 < 0 then -⌊-(x + 1 / 2)⌋ else ⌊x + 1 / 2⌋

/-- Sample `i` of a signal that is continued periodically to the left by one period; `none` outside. -/
def loopedSample (sig : List K) (i : ℤ) : Option K :=
  if 0 ≤ i then sig[i.toNat]? else if -(sig.length : ℤ) ≤ i then sig[(sig.length + i).toNat]? else none

/-- What channel `m` of a point source receives at sample `t`: zero before the start of the signal if padding with
zeros is wanted, else the signal at the position of emission divided by the distance. -/
def receivedSample {M : ℕ} (sig : List K) (r pos : Fin M → K) (up : K) (zeros : Bool) (t : ℕ) : Fin M → Option K :=
  fun m =>
    if zeros = true ∧ pos m + t * up < 0 then some 0
    else (loopedSample sig (nearestSample (pos m + t * up))).map (· / r m)

end Acoular.Spec
