import Mathlib.Analysis.Calculus.Deriv.Basic
import Mathlib.Analysis.Complex.Basic
import Mathlib.Algebra.BigOperators.Fin
import Mathlib.LinearAlgebra.Matrix.Hermitian

/-!
# Specification: cross spectral matrix models, gradients and penalised least squares fits

Stated without reference to the code.
-/

namespace Acoular.Spec

open Complex

variable {N n : ℕ}

/-- The cross spectral matrix that uncorrelated sources with mean squares `x` cause, where `t p m` is the transfer
function from source `p` to microphone `m`. -/
noncomputable def sourceCsm (t : Fin N → Fin n → ℂ) (x : Fin N → ℝ) (m l : Fin n) : ℂ :=
  ∑ p, (x p : ℂ) * (t p m * star (t p l))

/-- The cross spectral matrix that uncorrelated sources with individual amplitudes `D p m` towards every microphone
cause. -/
noncomputable def directedCsm (t : Fin N → Fin n → ℂ) (D : Fin N → Fin n → ℝ) (m l : Fin n) : ℂ :=
  ∑ p, (t p m * D p m) * star (t p l * D p l)

/-- `g` is the gradient of `F` at `x`: it gives the derivative of `F` along every direction. -/
def IsGradient {ι : Type} [Fintype ι] (F : (ι → ℝ) → ℝ) (g x : ι → ℝ) : Prop :=
  ∀ e : ι → ℝ, HasDerivAt (fun s : ℝ => F fun i => x i + s * e i) (∑ i, g i * e i) 0

/-- Objective of a least squares fit of the data `y` by `A x + b` with the penalty `pen` on the sum of the
coefficients. -/
noncomputable def fitObjective {ι : Type} [Fintype ι] (pen : ℝ) (A : ι → Fin N → ℝ) (y : ι → ℝ) (x : Fin N → ℝ) (b : ℝ) :
    ℝ :=
  (∑ i, (∑ p, A i p * x p + b - y i) ^ 2) / (2 * Fintype.card ι) + pen * ∑ p, x p

/-- `x` are coefficients of a best fit with non negative coefficients, with or without a constant offset. -/
def IsFit {ι : Type} [Fintype ι] (offset : Bool) (pen : ℝ) (A : ι → Fin N → ℝ) (y : ι → ℝ) (x : Fin N → ℝ) : Prop :=
  (∀ p, 0 ≤ x p) ∧ ∃ b, (offset = false → b = 0) ∧
    ∀ (x' : Fin N → ℝ) (b' : ℝ), (∀ p, 0 ≤ x' p) → (offset = false → b' = 0) → fitObjective pen A y x b ≤ fitObjective pen A y x' b'

/-- No two combinations of non negative coefficients (and an offset, if there is one) give the same values. -/
def Identifiable {ι : Type} (offset : Bool) (A : ι → Fin N → ℝ) : Prop :=
  ∀ (x x' : Fin N → ℝ) (b : ℝ), (∀ p, 0 ≤ x p) → (∀ p, 0 ≤ x' p) → (offset = false → b = 0) →
    (∀ i, ∑ p, A i p * x p + b = ∑ p, A i p * x' p) → x = x'

end Acoular.Spec
