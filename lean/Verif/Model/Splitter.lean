import Verif.Model.Py

/-!
# Model of `SampleSplitter` (acoular/process.py 383-675)

Registered objects are numbered; every object iterates one generator obtained from
`SampleSplitter.result(num)`.  One step of the machine is one `next(...)` of one of these generators.
-/

namespace Acoular

/-- `buffer_overflow_treatment`, `acoular/process.py` 482-487. -/
inductive Treatment
  | error | warning | none
  deriving DecidableEq, Repr

/-- State of an object's generator. -/
inductive GenState
  | notStarted | active | done
  deriving DecidableEq, Repr

/-- Result of one `next` call: a block, the end of the generator, the `OSError`
'Maximum size of block buffer is reached!', or a `StopIteration` of a generator that has already ended. -/
inductive SplitOut (β : Type _)
  | block (b : β) | stop | overflowError | finished
  deriving DecidableEq, Repr

/-- Traits of a `SampleSplitter`, `acoular/process.py` 470-497.  `globalSize = none` stands for a
dictionary as `buffer_size` (which is equal to no integer); `cap o` is the `maxlen` of the deque of object
`o`; `queue o` is the deque content, the block popped next first; `src` is what the source generator will
still deliver. -/
structure Splitter (β : Type _) where
  objs : List Nat
  cap : Nat → Nat
  treat : Nat → Treatment
  globalSize : Option Nat
  queue : Nat → List β
  gen : Nat → GenState
  src : List β
  sourceExists : Bool
  overflow : Bool

/-- `deque.appendleft` with `maxlen`: the element at the other end (the oldest block) is dropped when the
deque is full. -/
def dequePush {β : Type _} (cap : Nat) (q : List β) (b : β) : List β :=
  (q ++ [b]).drop ((q ++ [b]).length - cap)

/-- `_inspect_buffer_levels` for the objects of `_get_objs_to_inspect`, `acoular/process.py` 523-532:
the flag is set if an object with treatment `error` has `len(buffer) == self.buffer_size`. -/
def Splitter.inspect {β : Type _} (s : Splitter β) : Splitter β :=
  { s with overflow := s.overflow ||
      s.objs.any fun o => decide (s.treat o = .error ∧ some (s.queue o).length = s.globalSize) }

/-- `_fill_block_buffers` after a successful `next(source)`, `acoular/process.py` 541-543. -/
def Splitter.fill {β : Type _} (s : Splitter β) (b : β) : Splitter β :=
  { s with queue := fun o => if o ∈ s.objs then dequePush (s.cap o) (s.queue o) b else s.queue o }

/-- `_create_source_generator`, `acoular/process.py` 534-539. -/
def Splitter.createSource {β : Type _} (s : Splitter β) (all : List β) : Splitter β :=
  { s with queue := fun o => if o ∈ s.objs then [] else s.queue o, overflow := false, src := all,
           sourceExists := true }

/-- The `while not self._buffer_overflow ... else: raise` loop of `SampleSplitter.result`,
`acoular/process.py` 663-675, executed up to the next yield, return or exception.
Recursion over the blocks the source still has (`s.src` is kept equal to the argument). -/
def Splitter.loop {β : Type _} (o : Nat) : List β → Splitter β → Splitter β × SplitOut β
  | src, s =>
    if s.overflow then ({ s with gen := fun p => if p = o then .done else s.gen p }, .overflowError)
    else match s.queue o with
      | b :: q => ({ s with queue := fun p => if p = o then q else s.queue p }, .block b)
      | [] =>
        match src with
        | [] =>
          let s1 := s.inspect
          ({ s1 with sourceExists := false, gen := fun p => if p = o then .done else s.gen p }, .stop)
        | b :: rest => Splitter.loop o rest { (s.inspect.fill b) with src := rest }

/-- One `next` on the generator of object `o`; on the first call the code before the loop is executed
(`acoular/process.py` 656-661).  `all` = all blocks of a fresh `self.source.result(num)`.  Objects that are
not registered raise `OSError` and are not scheduled here. -/
def Splitter.next {β : Type _} (all : List β) (s : Splitter β) (o : Nat) : Splitter β × SplitOut β :=
  match s.gen o with
  | .done => (s, .finished)
  | .active => s.loop o s.src
  | .notStarted =>
    let s1 := if s.sourceExists then s else s.createSource all
    let s2 := { s1 with gen := fun p => if p = o then .active else s1.gen p }
    s2.loop o s2.src

/-- Outputs of a schedule of `next` calls, in order, tagged with the object, and the final state. -/
def Splitter.run {β : Type _} (all : List β) : Splitter β → List Nat → Splitter β × List (Nat × SplitOut β)
  | s, [] => (s, [])
  | s, o :: os =>
    let r := s.next all o
    let rr := Splitter.run all r.1 os
    (rr.1, (o, r.2) :: rr.2)

/-- A splitter on which `objs` have just been registered with `register_object`
(`acoular/process.py` 499-507, 551-587); nothing has been requested yet. -/
def Splitter.init {β : Type _} (objs : List Nat) (cap : Nat → Nat) (treat : Nat → Treatment)
    (globalSize : Option Nat) : Splitter β :=
  { objs, cap, treat, globalSize, queue := fun _ => [], gen := fun _ => .notStarted, src := [],
    sourceExists := false, overflow := false }

/-- The blocks handed to object `o`. -/
def delivered {β : Type _} (o : Nat) (outs : List (Nat × SplitOut β)) : List β :=
  outs.filterMap fun x => match x with
    | (p, .block b) => if p = o then some b else none
    | _ => none

end Acoular
