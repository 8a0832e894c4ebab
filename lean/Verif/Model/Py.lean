/-!
# Python vocabulary

Exceptions as values, generators as traces, and Python slices.
-/

namespace Acoular

/-- Exceptions raised by the modelled code. -/
inductive PyErr where
  | osError | valueError | indexError | keyError | typeError | importError
  | zeroDivisionError | runtimeError | unboundLocalError | traitError | attributeError | notImplementedError
  deriving DecidableEq, Repr

/-- How a generator or call ends. -/
inductive Exit where
  /-- normal end (`return` / end of body) -/
  | returned
  /-- an exception left the body -/
  | raised (e : PyErr)
  /-- the loop did not end within the number of iterations the model allows (models an infinite loop) -/
  | diverged
  deriving DecidableEq, Repr

/-- The run of a generator that is consumed to its end: the values yielded, and how it ended. -/
structure Trace (β : Type _) where
  blocks : List β
  exit : Exit
  deriving DecidableEq, Repr

namespace Trace
/-- `yield b` followed by the rest of the run. -/
def cons {β : Type _} (b : β) (t : Trace β) : Trace β := ⟨b :: t.blocks, t.exit⟩
/-- Raise before anything (else) is yielded. -/
def raise {β : Type _} (e : PyErr) : Trace β := ⟨[], .raised e⟩
/-- End normally. -/
def stop {β : Type _} : Trace β := ⟨[], .returned⟩
/-- Infinite loop without further yields. -/
def diverge {β : Type _} : Trace β := ⟨[], .diverged⟩
end Trace

/-- `l[a:b]` for non-negative bounds. -/
def slice {α : Type _} (l : List α) (a b : Nat) : List α := (l.take b).drop a

/-- `slice(start, stop).indices(n)[:2]` for step 1 (CPython `PySlice_AdjustIndices`): negative bounds
count from the end, then both are clipped to `0..n`; `stop = None` means `n`. -/
def sliceIndices (start : Int) (stop : Option Int) (n : Nat) : Nat × Nat :=
  let clip (v : Int) : Nat := if v < 0 then (v + n).toNat else min v.toNat n
  (clip start, match stop with | none => n | some v => clip v)

end Acoular
