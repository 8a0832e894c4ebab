import Mathlib.Analysis.SpecialFunctions.Pow.Real

/-!
# Specification of band sums

`freqs` are the frequencies of the lines, `data` the values of the lines.
-/

namespace Acoular.Spec

/-- Sum of the values of all lines with `lo ≤ frequency < hi`. -/
def bandSum {K V : Type*} [LT K] [LE K] [DecidableRel (α := K) (· < ·)] [DecidableRel (α := K) (· ≤ ·)] [AddCommMonoid V]
    (freqs : List K) (data : List V) (lo hi : K) : V :=
  (((freqs.zip data).filter fun p => decide (lo ≤ p.1) && decide (p.1 < hi)).map Prod.snd).sum

/-- Value of the first line at or above `f`; zero if there is none. -/
def lineValue {K V : Type*} [LE K] [DecidableRel (α := K) (· ≤ ·)] [AddCommMonoid V]
    (freqs : List K) (data : List V) (f : K) : V :=
  (((freqs.zip data).find? fun p => decide (f ≤ p.1)).map Prod.snd).getD 0

/-- Lower and upper limit of the `1/num` octave band around `f`. -/
noncomputable def octaveLo (f : ℝ) (num : ℕ) : ℝ := f * 2 ^ (-(1 / (2 * num)) : ℝ)
/-- See `octaveLo`. -/
noncomputable def octaveHi (f : ℝ) (num : ℕ) : ℝ := f * 2 ^ ((1 / (2 * num)) : ℝ)

end Acoular.Spec
