import Verif.Spec.TimeBeam
import Mathlib.Algebra.BigOperators.Group.Finset.Basic
import Mathlib.Algebra.Order.Field.Basic

/-!
# Specification: deconvolution in the time domain
-/

namespace Acoular.Spec

/-- The samples of a signal that arrives with the values `h 0, h 1, .., h (num - 1)` at the times
`k + f, k + f + 1, ..` (in samples, `0 <= f < 1`): linear interpolation between the arrivals; the first and the last value
are held up to the next full sample; zero elsewhere. -/
def arrived {K : Type*} [Field K] (num k : ℕ) (f : K) (h : ℕ → K) (i : ℕ) : K :=
  if i < k then 0
  else if i = k then h 0
  else if i < k + num then f * h (i - k - 1) + (1 - f) * h (i - k)
  else if i = k + num then h (num - 1)
  else 0

/-- The power in a block of `num` samples at a focus point with the delays `k m + f m` and amplitudes `a m`; without the
contributions of the single microphones if `rDiag` (then at least zero). -/
def blockPower {K : Type*} [Field K] [LinearOrder K] {M : Type*} [Fintype M] [DecidableEq M] (rDiag : Bool) (num : ℕ)
    (x : ℕ → M → K) (k : M → ℕ) (f a : M → K) : K :=
  if rDiag then max (∑ n ∈ Finset.range num, delayCrossPower x k f a n) 0
  else ∑ n ∈ Finset.range num, delayAndSum x k f a n ^ 2

end Acoular.Spec
