import Mathlib.Algebra.BigOperators.Group.Finset.Basic
import Mathlib.Algebra.Field.Defs
import Mathlib.Data.Fintype.Basic

/-!
# Specification: delay and sum in the time domain
-/

namespace Acoular.Spec

/-- Value of the signal `x` at the time `n + k + f` (in samples), linear interpolation between the samples
`n + k` and `n + k + 1`. -/
def delayed {K : Type*} [Field K] (x : ℕ → K) (n k : ℕ) (f : K) : K := x (n + k) * (1 - f) + x (n + k + 1) * f

/-- Delay and sum: sample `n` of a focus point with the delays `k m + f m` and amplitudes `a m`. -/
def delayAndSum {K : Type*} [Field K] {M : Type*} [Fintype M] (x : ℕ → M → K) (k : M → ℕ) (f a : M → K) (n : ℕ) : K :=
  ∑ m, delayed (fun i => x i m) n (k m) (f m) * a m

/-- Sum of the powers of the single channels in the delay and sum. -/
def delayAutoPower {K : Type*} [Field K] {M : Type*} [Fintype M] (x : ℕ → M → K) (k : M → ℕ) (f a : M → K) (n : ℕ) : K :=
  ∑ m, (delayed (fun i => x i m) n (k m) (f m) * a m) ^ 2

/-- Sum of the products of the contributions of any two different channels. -/
def delayCrossPower {K : Type*} [Field K] {M : Type*} [Fintype M] [DecidableEq M] (x : ℕ → M → K) (k : M → ℕ) (f a : M → K)
    (n : ℕ) : K :=
  ∑ m, ∑ m' with m' ≠ m, delayed (fun i => x i m) n (k m) (f m) * a m * (delayed (fun i => x i m') n (k m') (f m') * a m')

end Acoular.Spec
