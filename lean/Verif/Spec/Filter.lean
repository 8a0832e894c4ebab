import Mathlib.Algebra.Module.Basic

/-!
# Specification of IIR filtering

Difference equations of second-order sections, as found in any signal processing book.  Signals are
functions of the sample number; samples before the start are zero.  Nothing here refers to the model of the
code.
-/

namespace Acoular.Spec

variable {K V : Type*} [Ring K] [AddCommGroup V] [Module K V]

/-- One second-order section with normalised leading denominator coefficient (`a0 = 1`). -/
structure Sos (K : Type*) where
  b0 : K
  b1 : K
  b2 : K
  a1 : K
  a2 : K
  deriving DecidableEq

/-- The sample `k` steps before sample `n`; zero before the start of the signal. -/
def past (x : ℕ → V) (n k : ℕ) : V := if k ≤ n then x (n - k) else 0

/-- `y` is the response of the section to `x` from rest. -/
def IsSectionResponse (s : Sos K) (x y : ℕ → V) : Prop :=
  ∀ n, y n = s.b0 • x n + s.b1 • past x n 1 + s.b2 • past x n 2 - s.a1 • past y n 1 - s.a2 • past y n 2

/-- `y` is the response of the cascade of sections to `x` from rest. -/
def IsSosResponse : List (Sos K) → (ℕ → V) → (ℕ → V) → Prop
  | [], x, y => y = x
  | s :: ss, x, y => ∃ w, IsSectionResponse s x w ∧ IsSosResponse ss w y

/-- A recorded signal as a function of the sample number. -/
def signal (data : List V) (n : ℕ) : V := data.getD n 0

end Acoular.Spec
