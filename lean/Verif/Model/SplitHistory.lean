import Verif.Model.Splitter

/-!
# `SampleSplitter` with objects that are registered and removed while others are running (acoular/process.py 470-675)

In contrast to `Model/Splitter.lean` the registered objects change, and each generator keeps the list of objects it inspects, which is made
when it starts (658).
-/

namespace Acoular

/-- A generator of an object; `active l` inspects the objects `l` (658). -/
inductive HistGen
  | notStarted | active (insp : List Nat) | done
  deriving DecidableEq, Repr

/-- What a call ends with: a block, the end, `OSError` of 674-675, `KeyError` (528, 618, 664), `OSError` of 519-521 or 585-587, or nothing. -/
inductive HistOut (β : Type)
  | block (b : β) | stop | overflowError | keyError | osError | finished | ok
  deriving DecidableEq, Repr

/-- What is done with a splitter and the objects behind it. -/
inductive HistOp
  /-- `register_object(o, buffer_size=size, buffer_overflow_treatment=t)` -/
  | register (o : Nat) (size : Option Nat) (t : Treatment)
  /-- `remove_object(o)` -/
  | remove (o : Nat)
  /-- object `o` begins a new generator -/
  | restart (o : Nat)
  /-- `next` of the generator of object `o` -/
  | next (o : Nat)
  deriving DecidableEq, Repr

/-- The traits of 470-497; `regs` are the keys of `block_buffer`, which are also those of `buffer_overflow_treatment`, in their order;
`size` is `buffer_size` (a number); blocks of `queue o` in the order in which they are popped. -/
structure HistSplit (β : Type) where
  regs : List Nat
  cap : Nat → Nat
  treat : Nat → Treatment
  size : Nat
  queue : Nat → List β
  gen : Nat → HistGen
  src : List β
  sourceExists : Bool
  overflow : Bool

variable {β : Type}

/-- `_create_block_buffer` and `_create_buffer_overflow_treatment`, 499-507, called from 581-587 for one object. Several objects in one call
are several calls, the first that is registered already raises. -/
def HistSplit.register (s : HistSplit β) (o : Nat) (size : Option Nat) (t : Treatment) : HistSplit β × HistOut β :=
  if o ∈ s.regs then (s, .osError)
  else ({ s with regs := s.regs ++ [o], cap := fun p => if p = o then size.getD s.size else s.cap p
                 treat := fun p => if p = o then t else s.treat p, queue := fun p => if p = o then [] else s.queue p }, .ok)

/-- 617-619 for one object -/
def HistSplit.remove (s : HistSplit β) (o : Nat) : HistSplit β × HistOut β :=
  if o ∈ s.regs then ({ s with regs := s.regs.filter fun p => decide (p ≠ o) }, .ok) else (s, .keyError)

/-- 658 with 523-524 -/
def HistSplit.toInspect (s : HistSplit β) : List Nat := s.regs.filter fun p => decide (s.treat p ≠ .none)

/-- `_create_source_generator`, 534-539 -/
def HistSplit.createSource (s : HistSplit β) (all : List β) : HistSplit β :=
  { s with queue := fun p => if p ∈ s.regs then [] else s.queue p, overflow := false, src := all, sourceExists := true }

/-- `_inspect_buffer_levels`, 526-532: `false` stands for the `KeyError` of 528 for an object that is no longer registered. -/
def HistSplit.inspect (s : HistSplit β) : List Nat → HistSplit β × Bool
  | [] => (s, true)
  | p :: l =>
    if p ∈ s.regs then
      (if s.treat p = .error ∧ (s.queue p).length = s.size then { s with overflow := true } else s : HistSplit β).inspect l
    else (s, false)

/-- 541-543 after a successful `next` -/
def HistSplit.fill (s : HistSplit β) (b : β) (rest : List β) : HistSplit β :=
  { s with queue := fun p => if p ∈ s.regs then dequePush (s.cap p) (s.queue p) b else s.queue p, src := rest }

/-- The generator of `o` ends, normally or with an exception. -/
def HistSplit.finish (s : HistSplit β) (o : Nat) : HistSplit β := { s with gen := fun p => if p = o then .done else s.gen p }

/-- 663-675 up to the next yield, return or exception; the first argument is what the source still delivers. -/
def HistSplit.loop (o : Nat) (insp : List Nat) : List β → HistSplit β → HistSplit β × HistOut β
  | src, s =>
    if s.overflow then (s.finish o, .overflowError)
    else if o ∈ s.regs then
      match s.queue o with
      | b :: q => ({ s with queue := fun p => if p = o then q else s.queue p }, .block b)
      | [] =>
        if (s.inspect insp).2 then
          match src with
          | [] => (({ (s.inspect insp).1 with sourceExists := false } : HistSplit β).finish o, .stop)
          | b :: rest => HistSplit.loop o insp rest ((s.inspect insp).1.fill b rest)
        else ((s.inspect insp).1.finish o, .keyError)
    else (s.finish o, .keyError)

/-- 656-661, at the first `next` of a generator -/
def HistSplit.begin (all : List β) (s : HistSplit β) (o : Nat) : HistSplit β :=
  let s1 := if s.sourceExists then s else s.createSource all
  { s1 with gen := fun p => if p = o then .active s.toInspect else s1.gen p }

/-- One `next` of the generator of `o`; `all` are the blocks of a new `self.source.result(num)`. -/
def HistSplit.next (all : List β) (s : HistSplit β) (o : Nat) : HistSplit β × HistOut β :=
  match s.gen o with
  | .done => (s, .finished)
  | .active l => s.loop o l s.src
  | .notStarted =>
    if o ∈ s.regs then HistSplit.loop o s.toInspect (s.begin all o).src (s.begin all o)
    else (s.finish o, .osError)

/-- One operation. -/
def HistSplit.step (all : List β) (s : HistSplit β) : HistOp → HistSplit β × HistOut β
  | .register o size t => s.register o size t
  | .remove o => s.remove o
  | .restart o => ({ s with gen := fun p => if p = o then .notStarted else s.gen p }, .ok)
  | .next o => s.next all o

/-- A history, with what each operation ended with. -/
def HistSplit.run (all : List β) : HistSplit β → List HistOp → HistSplit β × List (HistOp × HistOut β)
  | s, [] => (s, [])
  | s, op :: ops => (((s.step all op).1.run all ops).1, (op, (s.step all op).2) :: ((s.step all op).1.run all ops).2)

/-- A new object (`buffer_size` has the default 100). -/
def HistSplit.new (size : Nat) : HistSplit β :=
  { regs := [], cap := fun _ => 0, treat := fun _ => .error, size, queue := fun _ => [], gen := fun _ => .notStarted, src := []
    sourceExists := false, overflow := false }

end Acoular
