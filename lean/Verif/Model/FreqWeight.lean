import Mathlib.Analysis.SpecialFunctions.Pow.Real
import Mathlib.Analysis.SpecialFunctions.Trigonometric.Basic
import Mathlib.Algebra.Polynomial.AlgebraMap

/-!
# Frequency weighting filters (`acoular/tprocess.py`)

Real numbers instead of floating point numbers. A list of coefficients, highest power first, is a polynomial. The
conversion into second order sections (`tf2sos`) is not modelled: it does not change the transfer function.
-/

namespace Acoular

open Real Polynomial

/-- `weight` -/
inductive FreqWeight where
  | A
  | C
  | Z
  deriving DecidableEq

/-- acoular/tprocess.py 1640 -/
def fw1 : ℝ := 20.598997
/-- acoular/tprocess.py 1641 -/
def fw2 : ℝ := 107.65265
/-- acoular/tprocess.py 1642 -/
def fw3 : ℝ := 737.86223
/-- acoular/tprocess.py 1643 -/
def fw4 : ℝ := 12194.217

/-- acoular/tprocess.py 1644: `a`, the common part of the denominators. -/
noncomputable def weightDen : ℝ[X] :=
  (X ^ 2 + C (4 * π * fw4) * X + C ((2 * π * fw4) ^ 2)) * (X ^ 2 + C (4 * π * fw1) * X + C ((2 * π * fw1) ^ 2))

/-- acoular/tprocess.py 1645-1651: numerator and denominator in the Laplace domain; not defined for `'Z'`. -/
noncomputable def weightAnalog : FreqWeight → ℝ[X] × ℝ[X]
  | .A => (C ((2 * π * fw4) ^ 2 * (10 : ℝ) ^ ((1.9997 : ℝ) / 20)) * X ^ 4,
      weightDen * (X + C (2 * π * fw3)) * (X + C (2 * π * fw2)))
  | .C => (C ((2 * π * fw4) ^ 2 * (10 : ℝ) ^ ((0.0619 : ℝ) / 20)) * X ^ 2, weightDen)
  | .Z => (1, 1)

/-- scipy's `bilinear` for one of the two polynomials: `M` is the larger of the two degrees. The code of scipy adds up
`comb(i, k) * comb(M - i, l) * b[N - i] * pow(2 * fs, i) * (-1) ** k` for the power `M - k - l`, which are the
coefficients of this sum. The division of both polynomials by the first coefficient of the denominator is left out. -/
noncomputable def bilinearPoly (M : ℕ) (fs : ℝ) (p : ℝ[X]) : ℝ[X] :=
  ∑ i ∈ Finset.range (M + 1), C (p.coeff i * (2 * fs) ^ i) * (X - 1) ^ i * (X + 1) ^ (M - i)

/-- acoular/tprocess.py 1637-1658 (`FiltFreqWeight._get_sos`): numerator and denominator of the transfer function in `z`,
before `tf2sos`. -/
noncomputable def weightDigital (w : FreqWeight) (fs : ℝ) : ℝ[X] × ℝ[X] :=
  match w with
  | .A => (bilinearPoly 6 fs (weightAnalog .A).1, bilinearPoly 6 fs (weightAnalog .A).2)
  | .C => (bilinearPoly 4 fs (weightAnalog .C).1 * X ^ 2, bilinearPoly 4 fs (weightAnalog .C).2 * X ^ 2)
  | .Z => (X ^ 6, X ^ 6)

end Acoular
